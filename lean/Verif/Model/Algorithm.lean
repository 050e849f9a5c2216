import Verif.Model.Tree
import Verif.Model.Dcel

/-!
# Model of `foronoi/algorithm.py` and of the clipping part of `graph/polygon.py`

Objects: sites are numbers `0 … n-1` in the order of the input list with coordinates `pts`;
breakpoints, arcs and circle events are records in stores.

Not modelled: `genesis_point` (algorithm.py:158, 166: never used), the text of debug messages,
`arc_triple` of circle events (only plotted), thread blocking of `PriorityQueue`.
-/

namespace Foronoi

open Arith

/-- The `data` of a tree node: an `Arc` (LeafNode) or a `Breakpoint` (InternalNode). -/
inductive Dat where
  | arc (a : Nat)
  | bp (b : Nat)
  deriving DecidableEq, Repr

/-- nodes/breakpoint.py:26-31. -/
structure BpR where
  pair : Nat × Nat
  edge : Option Nat
  deriving DecidableEq, Repr

/-- nodes/arc.py:28-29. -/
structure ArcR where
  origin : Nat
  cev : Option Nat
  deriving DecidableEq, Repr

/-- events/circle_event.py:30-34. -/
structure CevR (K : Type) where
  center : K × K
  radius : K
  arcPtr : Nat
  valid : Bool
  triple : Nat × Nat × Nat

/-- observers/message.py:19-22. -/
inductive Msg where
  | stepFinished | sweepFinished | voronoiFinished | debug
  deriving DecidableEq, Repr

/-- The event stored in `self.event`. -/
inductive EvRef where
  | site (p : Nat)
  | circle (c : Nat)
  deriving DecidableEq, Repr

/-- The attributes of `Algorithm` (algorithm.py:54-86) and of all objects reachable from it. -/
structure St (K : Type) where
  ns : NS Dat
  d : Dcel K
  bps : Nat → BpR
  bpCnt : Nat
  arcs : Nat → ArcR
  arcCnt : Nat
  evs : Nat → CevR K
  evCnt : Nat
  names : Nat → Option Nat
  nextName : Nat
  root : Option Nat
  sweep : Option K
  arcSet : List Nat
  edges : List Nat
  verts : List Nat
  polyVerts : List Nat
  queue : List (QE K)
  event : Option EvRef
  log : List Msg

abbrev AM (K : Type) := EM (St K)

/-- Interface of the priority queue used for `event_queue` (`queue.PriorityQueue`): `push` is `put`,
`pop` is `get`.  Theorems are stated for every queue meeting the specification `PQ.Spec` below;
`Verif/Model/Heapq.lean` models CPython's `heapq` and shows it is one. -/
structure PQ (E : Type) where
  push : E → List E → List E
  pop : List E → Option (E × List E)

/-- What is required of a priority queue: an invariant `ok` of its list, `push` and `pop` keep the
elements, and `pop` returns an element such that no remaining one is smaller. -/
structure PQ.Spec {E : Type} (q : PQ E) (lt : E → E → Bool) (ok : List E → Prop) : Prop where
  ok_nil : ok []
  push_ok : ∀ e l, ok l → ok (q.push e l)
  push_perm : ∀ e l, ok l → (q.push e l).Perm (e :: l)
  pop_none : ∀ l, ok l → (q.pop l = none ↔ l = [])
  pop_ok : ∀ l e r, ok l → q.pop l = some (e, r) → ok r
  pop_perm : ∀ l e r, ok l → q.pop l = some (e, r) → l.Perm (e :: r)
  pop_min : ∀ l e r, ok l → q.pop l = some (e, r) → ∀ x ∈ r, lt x e = false

variable {K : Type} [LinearOrder K] [Arith K]

/-- Tree actions on the algorithm state. -/
def zT {α : Type} (m : TM Dat α) : AM K α := zoom (·.ns) (fun t s => { s with ns := t }) m

/-- DCEL actions on the algorithm state. -/
def zD {α : Type} (m : DM K α) : AM K α := zoom (·.d) (fun t s => { s with d := t }) m

/-- Fuel for tree walks: the number of nodes ever created, plus one. -/
def treeFuel : AM K Nat := fun s => .ok (s.ns.cnt + 1, s)

/-- `self.notify_observers(message)`; the sequence of notifications is recorded. -/
def notify (m : Msg) : AM K Unit := modify fun s => { s with log := s.log ++ [m] }

/-- nodes/arc.py:7-29 `Arc(origin, circle_event=None)`. -/
def newArc (origin : Nat) : AM K Nat := fun s =>
  .ok (s.arcCnt, { s with arcs := Function.update s.arcs s.arcCnt ⟨origin, none⟩, arcCnt := s.arcCnt + 1 })

/-- nodes/breakpoint.py:12-31 `Breakpoint(breakpoint=pair)`. -/
def newBp (pair : Nat × Nat) : AM K Nat := fun s =>
  .ok (s.bpCnt, { s with bps := Function.update s.bps s.bpCnt ⟨pair, none⟩, bpCnt := s.bpCnt + 1 })

/-- Assign to attributes of a breakpoint. -/
def updBp (b : Nat) (f : BpR → BpR) : AM K Unit :=
  modify fun s => { s with bps := Function.update s.bps b (f (s.bps b)) }

/-- Assign to attributes of an arc. -/
def updArc (a : Nat) (f : ArcR → ArcR) : AM K Unit :=
  modify fun s => { s with arcs := Function.update s.arcs a (f (s.arcs a)) }

/-- circle_event.py:69-78 `remove`. -/
def removeEv (c : Nat) : AM K Unit :=
  modify fun s => { s with evs := Function.update s.evs c { s.evs c with valid := false } }

/-- `get_key(sweep_line=l)`: internal_node.py:11-12, leaf_node.py:12-13. -/
def keyOf (pts : Nat → K × K) (bps : Nat → BpR) (arcs : Nat → ArcR) (l : K) : Dat → Option K
  | .bp b => (getIntersection (pts (bps b).pair.1) (pts (bps b).pair.2) l none).map (·.1)
  | .arc a => some (pts (arcs a).origin).1

/-- `node.get_value()` of a leaf, as an arc. `node.data.origin` on a breakpoint is an AttributeError. -/
def arcOf (n : Nat) : AM K Nat := do
  let r ← zT (rd n)
  match r.data with
  | .arc a => pure a
  | .bp _ => throw .attr

/-- `node.data` of an internal node, as a breakpoint. -/
def bpOf (n : Nat) : AM K Nat := do
  let r ← zT (rd n)
  match r.data with
  | .bp b => pure b
  | .arc _ => throw .attr

/-- `node.get_value().origin`. -/
def originOf (n : Nat) : AM K Nat := do
  let a ← arcOf n
  let s ← get
  pure (s.arcs a).origin

/-- circle_event.py:80-123 `create_circle_event` (`create_circle` is called twice there with the same
arguments; once here). -/
def createCircleEvent (pts : Nat → K × K) (l m r : Option Nat) : AM K (Option (CevR K)) := do
  match l, m, r with
  | some l, some m, some r => do
    let a ← originOf l
    let b ← originOf m
    let c ← originOf r
    let o ← liftA (createCircle (pts a) (pts b) (pts c))
    match o with
    | none => pure none
    | some circ => pure (some ⟨(circ.x, circ.y), circ.r, m, true, (a, b, c)⟩)
  | _, _, _ => pure none

/-- algorithm.py:451-461: drop the event unless the triple is clockwise around its center. -/
def keepClockwise (pts : Nat → K × K) (o : Option (CevR K)) : AM K (Option (CevR K)) :=
  match o with
  | none => pure none
  | some ev =>
    if checkClockwise (pts ev.triple.1) (pts ev.triple.2.1) (pts ev.triple.2.2) ev.center then pure (some ev)
    else do
      notify .debug
      pure none

/-- circle_event.py:40-60: the priority of a circle event. -/
def cevQE (ev : CevR K) (ref : Nat) : QE K := ⟨sub ev.center.2 ev.radius, ev.center.1, true, ref⟩

/-- algorithm.py:464-465, 468-469: `event_queue.put(ev)`, `node.data.circle_event = ev`. -/
def putCircle (q : PQ (QE K)) (ev : CevR K) : AM K Unit := do
  let s ← get
  let ref := s.evCnt
  set { s with
    evs := Function.update s.evs ref ev
    evCnt := ref + 1
    queue := q.push (cevQE ev ref) s.queue }
  let a ← arcOf ev.arcPtr
  updArc a (fun r => { r with cev := some ref })

/-- algorithm.py:467: `right_event is not None and left_event != right_event`. -/
def eventsDiffer (le re : CevR K) : Bool := !(evEq (cevQE le 0) (cevQE re 0))

/-- algorithm.py:467-469. -/
def putRight (q : PQ (QE K)) (le : Option (CevR K)) (ev : CevR K) : AM K Unit :=
  match le with
  | some ev' => if eventsDiffer ev' ev then putCircle q ev else pure ()
  | none => putCircle q ev

/-- algorithm.py:443-478 `_check_circles`. -/
def checkCircles (pts : Nat → K × K) (q : PQ (QE K)) (a b c d e f : Option Nat) : AM K Unit := do
  let le ← createCircleEvent pts a b c
  let re ← createCircleEvent pts d e f
  let le ← keepClockwise pts le
  let re ← keepClockwise pts re
  optDo le (putCircle q)
  optDo re (putRight q le)
  optDo le (fun _ => notify .debug)
  optDo re (fun _ => notify .debug)

/-- algorithm.py:295: `self.status_tree = node.replace_leaf(replacement, root=self.status_tree)`. -/
def replaceLeafSt (n : Nat) (replacement : Option Nat) : AM K Unit := do
  let fuel ← treeFuel
  let s ← get
  let r ← zT (replaceLeaf fuel n replacement s.root)
  modify fun s => { s with root := r }

/-- algorithm.py:336, 494, 522: rebalance upwards from `n`, store the new root. -/
def balanceSt (n : Nat) : AM K Unit := do
  let fuel ← treeFuel
  let r ← zT (balanceAndPropagate fuel fuel n)
  modify fun s => { s with root := some r }

/-- algorithm.py:287-293: the right part of the replacement subtree. -/
def mkRight (root br ai : Nat) (pj : Nat) (inter : Bool) : AM K Unit := do
  if inter then do
    let rn ← zT (newNode (.bp br))
    zT (setRight root (some rn))
    let l2 ← zT (newNode (.arc ai))
    zT (setLeft rn (some l2))
    let aj2 ← newArc pj
    let r2 ← zT (newNode (.arc aj2))
    zT (setRight rn (some r2))
  else do
    let l2 ← zT (newNode (.arc ai))
    zT (setRight root (some l2))

/-- algorithm.py:284-293: the replacement subtree, with or without the right breakpoint. -/
def mkSubtree (bl br aj ai : Nat) (pj : Nat) (inter : Bool) : AM K Nat := do
  let root ← zT (newNode (.bp bl))
  let lf ← zT (newNode (.arc aj))
  zT (setLeft root (some lf))
  mkRight root br ai pj inter
  pure root

/-- algorithm.py:297-313: the two half-edges of the new edge. -/
def newSiteEdges (bl br pj pi : Nat) : AM K Unit := do
  let ab ← zD (newHE (some pi) none (.bp bl))
  updBp bl (fun r => { r with edge := some ab })
  let ba ← zD (newHE (some pj) (some ab) (.bp br))
  updBp br (fun r => { r with edge := some ba })
  modify fun s => { s with edges := s.edges ++ [ab] }
  zD (initFE pi ab)
  zD (initFE pj ba)

/-- algorithm.py:330-333: the neighbours of the new arcs, and `_check_circles`. -/
def siteCheck (pts : Nat → K × K) (q : PQ (QE K)) (root : Nat) : AM K Unit := do
  let fuel ← treeFuel
  let r ← zT (rd root)
  let nb ← deref r.left
  let rr ← deref r.right
  let na ← zT (predecessor fuel nb)
  let rrr ← zT (rd rr)
  let nc := rrr.left
  let nd ← deref rrr.right
  let ne ← zT (successor fuel nd)
  checkCircles pts q na (some nb) nc nc (some nd) ne

/-- algorithm.py:224-336 `handle_site_event` for the site `pi`. -/
def handleSite (pts : Nat → K × K) (q : PQ (QE K)) (pi : Nat) : AM K Unit := do
  -- 253-256
  let ai ← newArc pi
  modify fun s => { s with arcSet := ai :: s.arcSet }
  let s ← get
  match s.root with
  | none => do
    -- 259-261
    let n ← zT (newNode (.arc ai))
    modify fun s => { s with root := some n }
  | some rt => do
    -- 264-265
    let l ← deref s.sweep
    let o ← zT (findLeaf (keyOf pts s.bps s.arcs l) (pts pi).1 (s.ns.cnt + 1) (some rt))
    let above ← deref o
    let aAbove ← arcOf above
    let s ← get
    -- 268-269
    optDo (s.arcs aAbove).cev removeEv
    -- 280-293
    let pj := (s.arcs aAbove).origin
    let bl ← newBp (pj, pi)
    let br ← newBp (pi, pj)
    let aj ← newArc pj
    let inter := doesIntersect (pts pi) (pts pj)
    let root ← mkSubtree bl br aj ai pj inter
    -- 295
    replaceLeafSt above (some root)
    -- 298-313
    newSiteEdges bl br pj pi
    -- 327-336
    whenDo inter (do
      siteCheck pts q root
      balanceSt root)

/-- algorithm.py:500, 528: search the breakpoint `(p, q)` in the tree. -/
def findBp (pts : Nat → K × K) (p q : Nat) : AM K (Option Nat) := do
  let s ← get
  let l ← deref s.sweep
  let qk ← liftA ((getIntersection (pts p) (pts q) l none).map (·.1))
  let cmp : Dat → Bool := fun d => match d with
    | .bp b => decide ((s.bps b).pair = (p, q))
    | .arc _ => false
  zT (findValue (keyOf pts s.bps s.arcs l) cmp qk (s.ns.cnt + 1) s.root)

/-- algorithm.py:480-539 `_update_breakpoints`: returns `(updated, removed, left, right)`, the second
to fourth only meaningful if `updated` is not `None`; `self.status_tree` is assigned. -/
def updateBreakpoints (pts : Nat → K × K) (arcNode : Nat) (pred succ : Option Nat) :
    AM K (Option (Nat × Nat × Nat × Nat)) := do
  if (← zT (isLeftChild arcNode)) then do
    -- 484-509
    let rn ← zT (rd arcNode)
    let par ← deref rn.parent
    let rp ← zT (rd par)
    replaceLeafSt par rp.right
    let removed ← bpOf par
    let s ← get
    let rt ← deref s.root
    balanceSt rt
    let p ← deref pred
    let op ← originOf p
    let oa ← originOf arcNode
    let o ← findBp pts op oa
    match o with
    | none => pure none
    | some m => do
      let u ← bpOf m
      let sc ← deref succ
      let os ← originOf sc
      updBp u (fun r => { r with pair := (r.pair.1, os) })
      pure (some (u, removed, u, removed))
  else do
    -- 512-537
    let rn ← zT (rd arcNode)
    let par ← deref rn.parent
    let rp ← zT (rd par)
    replaceLeafSt par rp.left
    let removed ← bpOf par
    let s ← get
    let rt ← deref s.root
    balanceSt rt
    let oa ← originOf arcNode
    let sc ← deref succ
    let os ← originOf sc
    let o ← findBp pts oa os
    match o with
    | none => pure none
    | some m => do
      let u ← bpOf m
      let p ← deref pred
      let op ← originOf p
      updBp u (fun r => { r with pair := (op, r.pair.2) })
      pure (some (u, removed, removed, u))

/-- algorithm.py:385-392: mark a neighbour's circle event as a false alarm. -/
def removeNeighbour (n : Nat) : AM K Unit := do
  let a ← arcOf n
  let s ← get
  optDo (s.arcs a).cev (fun c => do
    notify .debug
    removeEv c)

/-- `breakpoint.edge` used as a half-edge. -/
def edgeOf (b : Nat) : AM K Nat := do
  let s ← get
  deref (s.bps b).edge

/-- algorithm.py:396-432: vertex and half-edge records of a circle event. -/
def circleEdges (center : K × K) (updated removed left right : Nat) : AM K Unit := do
  -- 403-404
  let v ← zD (newV (some center))
  modify fun s => { s with verts := v :: s.verts }
  -- 407-410
  let ue ← edgeOf updated
  zD (updE ue (fun r => { r with origin := .vtx v }))
  let re ← edgeOf removed
  zD (updE re (fun r => { r with origin := .vtx v }))
  zD (appendConn v ue)
  zD (appendConn v re)
  -- 413-418
  let s ← get
  let pr := (s.bps updated).pair
  let tw ← zD (newHE (some pr.2) none (.bp updated))
  let ne ← zD (newHE (some pr.1) (some tw) (.vtx v))
  -- 421-423
  let le ← edgeOf left
  let ri ← edgeOf right
  let rle ← zD (rdE le)
  let lt ← deref rle.twin
  zD (setNext lt (some ne))
  let rri ← zD (rdE ri)
  let rt ← deref rri.twin
  zD (setNext rt (some le))
  let rne ← zD (rdE ne)
  let nt ← deref rne.twin
  zD (setNext nt (some ri))
  -- 426-432
  modify fun s => { s with edges := s.edges ++ [ne] }
  zD (appendConn v ne)
  let rne ← zD (rdE ne)
  updBp updated (fun r => { r with edge := rne.twin })

/-- algorithm.py:338-441 `handle_circle_event`. -/
def handleCircle (pts : Nat → K × K) (q : PQ (QE K)) (c : Nat) : AM K Unit := do
  let s ← get
  let ev := s.evs c
  -- 369-374
  let arcNode := ev.arcPtr
  let arc ← arcOf arcNode
  modify fun s => { s with arcSet := s.arcSet.erase arc }
  let fuel ← treeFuel
  let pred ← zT (predecessor fuel arcNode)
  let succ ← zT (successor fuel arcNode)
  -- 377-382
  let o ← updateBreakpoints pts arcNode pred succ
  match o with
  | none => pure ()
  | some (updated, removed, left, right) => do
    -- 391-392
    let pn ← deref pred
    removeNeighbour pn
    let sn ← deref succ
    removeNeighbour sn
    -- 397-432
    circleEdges ev.center updated removed left right
    -- 435-441
    let na ← zT (predecessor fuel pn)
    let nc ← zT (successor fuel pn)
    let nd ← zT (predecessor fuel sn)
    let nf ← zT (successor fuel sn)
    checkCircles pts q na (some pn) nc nd (some sn) nf

/-- algorithm.py:163-205, one iteration of the loop for the popped event `e`. -/
def handleEvent (pts : Nat → K × K) (q : PQ (QE K)) (e : QE K) : AM K Unit := do
  if e.circ then do
    let s ← get
    if (s.evs e.ref).valid then do
      set { s with sweep := some e.yd }
      notify .debug
      handleCircle pts q e.ref
      modify fun s => { s with event := some (.circle e.ref) }
      notify .stepFinished
    else pure ()
  else do
    let s ← get
    set { s with
      names := Function.update s.names e.ref (some s.nextName)
      nextName := s.nextName + 1
      sweep := some e.yd }
    notify .debug
    handleSite pts q e.ref
    modify fun s => { s with event := some (.site e.ref) }
    notify .stepFinished

/-- algorithm.py:160-205, the main loop. -/
def sweepLoop (pts : Nat → K × K) (q : PQ (QE K)) : Nat → AM K Unit
  | 0 => throw .fuel
  | fuel + 1 => do
    let s ← get
    match q.pop s.queue with
    | none => pure ()
    | some (e, rest) => do
      set { s with queue := rest }
      handleEvent pts q e
      sweepLoop pts q fuel

/-- site_event.py:9-41: the priority of a site event. -/
def siteQE (pts : Nat → K × K) (p : Nat) : QE K := ⟨(pts p).2, (pts p).1, false, p⟩

/-- algorithm.py:96-120 `initialize`: all site events are put in the queue, in input order. -/
def initQueue (pts : Nat → K × K) (q : PQ (QE K)) (n : Nat) : AM K Unit :=
  modify fun s => { s with queue := (List.range n).foldl (fun l p => q.push (siteQE pts p) l) s.queue }

/-- algorithm.py:153-208: everything up to `SWEEP_FINISHED`. -/
def sweepAll (pts : Nat → K × K) (q : PQ (QE K)) (n fuel : Nat) : AM K Unit := do
  initQueue pts q n
  sweepLoop pts q fuel
  notify .debug
  notify .sweepFinished

/-! ### Clipping: polygon.py -/

/-- half_edge.py:92-118 `get_origin(y, max_y)`; outer `none`: Decimal signal, inner: `None`. -/
def getOrigin (pts : Nat → K × K) (bps : Nat → BpR) (d : Dcel K) (e : Nat) (y : Option K) (maxY : Option K) :
    Option (Option (K × Ext K)) :=
  match (d.he e).origin with
  | .vtx v => some ((d.vs v).pos.map fun p => (p.1, .fin p.2))
  | .bp b =>
    match y with
    | some l => (getIntersection (pts (bps b).pair.1) (pts (bps b).pair.2) l maxY).map some
    | none => some none

/-- `edge.get_origin()` in a state. -/
def getOriginSt (pts : Nat → K × K) (e : Nat) (y : Option K) (maxY : Option K) : AM K (Option (K × Ext K)) := do
  let s ← get
  liftA (getOrigin pts s.bps s.d e y maxY)

/-- `Decimal.__abs__` -/
def dabs (x : K) : K := if x < lit 0 then neg x else x

/-- polygon.py:150-169 `_finish_edge`. -/
def finishEdge (pts : Nat → K × K) (poly : Poly K) (e : Nat) : AM K Unit := do
  let l := sub poly.minY (dabs poly.maxY)
  let start ← getOriginSt pts e (some l) (some poly.maxY)
  let s ← get
  let t ← deref (s.d.he e).twin
  let end_ ← getOriginSt pts t (some l) (some poly.maxY)
  let p ← liftA (intersectionPoint poly.points end_ start)
  let v ← zD (newV (p.map fun z => (ofF (toF z.1), ofF (toF z.2))))
  zD (appendConn v e)
  zD (updE e (fun r => { r with origin := .vtx v }))
  modify fun s => { s with polyVerts := s.polyVerts ++ [v] }

/-- polygon.py:135, 138: `edge.get_origin() is None or not self.inside(edge.get_origin())`
(`get_origin()` without `y` is a vertex position or `None`). -/
def outside (pts : Nat → K × K) (poly : Poly K) (e : Nat) : AM K Bool := do
  let o ← getOriginSt pts e none none
  match o with
  | none => pure true
  | some (x, .fin y) => do
    let b ← liftA (inside poly.points (x, y))
    pure (!b)
  | some (_, .inf) => pure true

/-- polygon.py:132-148, the loop of `finish_edges`; returns the resulting edges. -/
def finishEdges (pts : Nat → K × K) (poly : Poly K) : List Nat → AM K (List Nat)
  | [] => pure []
  | e :: rest => do
    let b ← outside pts poly e
    whenDo b (finishEdge pts poly e)
    let s ← get
    let t ← deref (s.d.he e).twin
    let b ← outside pts poly t
    whenDo b (finishEdge pts poly t)
    let o1 ← getOriginSt pts e none none
    let o2 ← getOriginSt pts t none none
    if o1.isSome && o2.isSome then do
      let tl ← finishEdges pts poly rest
      pure (e :: tl)
    else do
      zD (deleteHE e)
      zD (deleteHE t)
      notify .debug
      finishEdges pts poly rest

/-- polygon.py:39-43 `_get_ordered_vertices`. -/
def orderedVertices (poly : Poly K) (vs : Nat → VR K) (l : List Nat) : List Nat :=
  let ok := l.filterMap fun v => (vs v).pos.map fun p => (orderKey poly.center p, v)
  (ok.insertionSort (fun p q => p.1 ≤ q.1)).map (·.2)

/-- polygon.py:45-49 `_get_closest_point` among the sites `0 … n-1`; ValueError if there are none. -/
def closestPoint (pts : Nat → K × K) (n : Nat) (pos : K × K) : AM K Nat := do
  let ds ← liftA ((List.range n).mapM (fun i => distance pos (pts i)))
  match argmin ds with
  | none => throw .value
  | some i => pure i

/-- polygon.py:82-83: the cell on the inner side of the next border edge. -/
def cellAt (o : Nat) (cell : Option Nat) : AM K (Option Nat) := do
  let ro ← zD (rdV o)
  match ro.conn with
  | c0 :: _ => do
    let rc ← zD (rdE c0)
    let t ← deref rc.twin
    let rt ← zD (rdE t)
    pure rt.incident
  | [] => pure cell

/-- polygon.py:95-96 -/
def linkEnd (edge e : Nat) : AM K Unit := do
  let re ← zD (rdV e)
  optDo re.conn.head? (fun c0 => zD (setNext edge (some c0)))

/-- polygon.py:99-102 (the list of `origin` is not empty here: `edge` was appended to it, so the
`elif` branch is never taken and is left out). -/
def linkOrigin (edge o : Nat) : AM K Unit := do
  let ro ← zD (rdV o)
  optDo ro.conn.head? (fun c0 => do
    let rc ← zD (rdE c0)
    let t ← deref rc.twin
    zD (setNext t (some edge)))

/-- polygon.py:75-108: the loop over the border; `cell` is the current cell (a site or `None`). -/
def borderLoop : List Nat → Option Nat → AM K Unit
  | o :: e :: rest, cell => do
    let cell ← cellAt o cell
    -- 86-88
    let tw ← zD (newHE none none (.vtx e))
    let edge ← zD (newHE cell (some tw) (.vtx o))
    zD (appendConn o edge)
    zD (appendConn e tw)
    -- 91-92
    optDo cell (fun p => zD (initFE p edge))
    linkEnd edge e
    linkOrigin edge o
    -- 105
    modify fun s => { s with edges := s.edges ++ [edge] }
    borderLoop (e :: rest) cell
  | _, _ => pure ()

/-- `[i for i in existing_vertices if self.inside(i)]`, polygon.py:110 (a set there: the order is
unspecified; here it is the order of the list). -/
def insideVerts (poly : Poly K) : List Nat → AM K (List Nat)
  | [] => pure []
  | v :: rest => do
    let r ← zD (rdV v)
    let p ← deref r.pos
    let b ← liftA (inside poly.points p)
    let tl ← insideVerts poly rest
    pure (if b then v :: tl else tl)

/-- polygon.py:51-112 `finish_polygon`. -/
def finishPolygon (pts : Nat → K × K) (n : Nat) (poly : Poly K) : AM K Unit := do
  let s ← get
  let vs := orderedVertices poly s.d.vs s.polyVerts
  match vs with
  | [] => throw .index
  | v0 :: _ => do
    let r ← zD (rdV v0)
    let p ← deref r.pos
    let cell ← closestPoint pts n p
    borderLoop (vs ++ [v0]) (some cell)
    let s ← get
    let ex ← insideVerts poly s.verts
    modify fun s => { s with verts := vs ++ ex }

/-- algorithm.py:558-561: `for connected in v1.connected_edges:` with removal from the list during
iteration: the iterator position `i` advances while the list shrinks. -/
def moveConn (v1 v2 : Nat) : Nat → Nat → DM K Unit
  | 0, _ => throw .fuel
  | fuel + 1, i => do
    let r ← rdV v1
    match r.conn[i]? with
    | none => pure ()
    | some c => do
      updE c (fun r => { r with origin := .vtx v2 })
      removeConn v1 c
      appendConn v2 c
      moveConn v1 v2 fuel (i + 1)

/-- `edge.origin` as a vertex: attribute access `.connected_edges` fails on a breakpoint. -/
def vtxOf (o : Org) : AM K Nat :=
  match o with
  | .vtx v => pure v
  | .bp _ => throw .attr

/-- algorithm.py:564 `self._vertices.remove(v1)`. -/
def removeVertex (v : Nat) : AM K Unit := do
  let s ← get
  if v ∈ s.verts then set { s with verts := s.verts.erase v } else throw .value

/-- algorithm.py:541-572 `clean_up_zero_length_edges`, the loop; returns `resulting_edges`. -/
def cleanUpLoop (pts : Nat → K × K) : List Nat → AM K (List Nat)
  | [] => pure []
  | e :: rest => do
    let start ← getOriginSt pts e none none
    let s ← get
    let t ← deref (s.d.he e).twin
    let end_ ← getOriginSt pts t none none
    let p ← deref start
    let q ← deref end_
    if p.1 = q.1 ∧ p.2 = q.2 then do
      let s ← get
      let v1 ← vtxOf (s.d.he e).origin
      let v2 ← vtxOf (s.d.he t).origin
      zD (moveConn v1 v2 ((s.d.vs v1).conn.length + 1) 0)
      removeVertex v1
      zD (deleteHE e)
      zD (deleteHE t)
      cleanUpLoop pts rest
    else do
      let tl ← cleanUpLoop pts rest
      pure (e :: tl)

/-- algorithm.py:541-572 `clean_up_zero_length_edges`. -/
def cleanUp (pts : Nat → K × K) : AM K Unit := do
  let s ← get
  let r ← cleanUpLoop pts s.edges
  modify fun s => { s with edges := r }

/-- algorithm.py:211-213. -/
def finishEdgesSt (pts : Nat → K × K) (poly : Poly K) : AM K Unit := do
  let s ← get
  let r ← finishEdges pts poly s.edges
  modify fun s => { s with edges := r }

/-- algorithm.py:122-222 `create_diagram` for `n` sites with coordinates `pts`. -/
def createDiagram (pts : Nat → K × K) (q : PQ (QE K)) (n fuel : Nat) (poly : Poly K) (removeZero : Bool) : AM K Unit := do
  sweepAll pts q n fuel
  finishEdgesSt pts poly
  finishPolygon pts n poly
  whenDo removeZero (cleanUp pts)
  notify .debug
  notify .voronoiFinished

/-- polygon.py:31-33: the vertices of the polygon, as the first vertices of the vertex store. -/
def initVs (poly : Poly K) : Nat → VR K := fun i => ⟨poly.points[i]?, []⟩

/-- The state after `Polygon(...)` and `Algorithm(poly)`: algorithm.py:22-86, polygon.py:31-33. -/
def initSt (poly : Poly K) : St K where
  ns := ⟨fun _ => ⟨.arc 0, none, none, none, none⟩, 0⟩
  d := { he := fun _ => ⟨.bp 0, none, none, none, none⟩, heCnt := 0
         vs := initVs poly, vCnt := poly.points.length, fe := fun _ => none }
  bps := fun _ => ⟨(0, 0), none⟩
  bpCnt := 0
  arcs := fun _ => ⟨0, none⟩
  arcCnt := 0
  evs := fun _ => ⟨(lit 0, lit 0), lit 0, 0, false, (0, 0, 0)⟩
  evCnt := 0
  names := fun _ => none
  nextName := 0
  root := none
  sweep := none
  arcSet := []
  edges := []
  verts := []
  polyVerts := List.range poly.points.length
  queue := []
  event := none
  log := []

end Foronoi
