import Verif.Model.Algorithm

/-!
# The recursion limit of Python

`Node.update_heights` calls itself on the parent (node.py:88-98).  Here `lim` nested calls of it are possible when `handle_site_event` replaces a leaf
(algorithm.py:295); the next one raises `RecursionError`, which is `Err.fuel`.  All other calls are as in Model/Algorithm.lean, without a limit, so a
program in which also they use up the stack raises at least as early.
-/

namespace Foronoi

variable {K : Type} [LinearOrder K] [Arith K]

/-- node.py:217-223 with at most `lim` nested calls. -/
def refreshHeightsR {D : Type} (lim fuel i : Nat) (replacement : Option Nat) : TM D Unit :=
  match replacement with
  | some q => updateHeights fuel lim q
  | none => do
    let r ← rd i
    optDo r.parent (fun p => updateHeights fuel lim p)

/-- node.py:191-227 `replace_leaf`. -/
def replaceLeafR {D : Type} (lim fuel i : Nat) (replacement : Option Nat) (root : Option Nat) : TM D (Option Nat) := do
  let r ← rd i
  optDo replacement (fun q => updN q (fun x => { x with parent := r.parent }))
  let root' ← hook i replacement root
  refreshHeightsR lim fuel i replacement
  pure root'

/-- algorithm.py:295. -/
def replaceLeafStR (lim n : Nat) (replacement : Option Nat) : AM K Unit := do
  let fuel ← treeFuel
  let s ← get
  let r ← zT (replaceLeafR lim fuel n replacement s.root)
  modify fun s => { s with root := r }

/-- algorithm.py:224-336 `handle_site_event`. -/
def handleSiteR (lim : Nat) (pts : Nat → K × K) (q : PQ (QE K)) (pi : Nat) : AM K Unit := do
  let ai ← newArc pi
  modify fun s => { s with arcSet := ai :: s.arcSet }
  let s ← get
  match s.root with
  | none => do
    let n ← zT (newNode (.arc ai))
    modify fun s => { s with root := some n }
  | some rt => do
    let l ← deref s.sweep
    let o ← zT (findLeaf (keyOf pts s.bps s.arcs l) (pts pi).1 (s.ns.cnt + 1) (some rt))
    let above ← deref o
    let aAbove ← arcOf above
    let s ← get
    optDo (s.arcs aAbove).cev removeEv
    let pj := (s.arcs aAbove).origin
    let bl ← newBp (pj, pi)
    let br ← newBp (pi, pj)
    let aj ← newArc pj
    let inter := doesIntersect (pts pi) (pts pj)
    let root ← mkSubtree bl br aj ai pj inter
    replaceLeafStR lim above (some root)
    newSiteEdges bl br pj pi
    whenDo inter (do
      siteCheck pts q root
      balanceSt root)

/-- algorithm.py:163-205. -/
def handleEventR (lim : Nat) (pts : Nat → K × K) (q : PQ (QE K)) (e : QE K) : AM K Unit := do
  if e.circ then handleEvent pts q e
  else do
    let s ← get
    set { s with
      names := Function.update s.names e.ref (some s.nextName)
      nextName := s.nextName + 1
      sweep := some e.yd }
    notify .debug
    handleSiteR lim pts q e.ref
    modify fun s => { s with event := some (.site e.ref) }
    notify .stepFinished

/-- algorithm.py:160-205, the main loop. -/
def sweepLoopR (lim : Nat) (pts : Nat → K × K) (q : PQ (QE K)) : Nat → AM K Unit
  | 0 => throw .fuel
  | fuel + 1 => do
    let s ← get
    match q.pop s.queue with
    | none => pure ()
    | some (e, rest) => do
      set { s with queue := rest }
      handleEventR lim pts q e
      sweepLoopR lim pts q fuel

/-- algorithm.py:96-120, 155-209: `initialize` and the sweep. -/
def sweepAllR (lim : Nat) (pts : Nat → K × K) (q : PQ (QE K)) (n fuel : Nat) : AM K Unit := do
  initQueue pts q n
  sweepLoopR lim pts q fuel
  notify .debug
  notify .sweepFinished

end Foronoi
