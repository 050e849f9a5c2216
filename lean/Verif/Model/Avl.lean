import Verif.Model.Tree

/-!
# Model of `Tree.find`, `Tree.insert`, `Tree.delete` and `Tree.get_leaves` (tree.py)

These are not used by the sweep, but are part of the library.  `key` is `get_key`: for a plain `Node` a function of its data
(node.py:31-32).  The keyword arguments are left out; they do not change during a call.
-/

namespace Foronoi

variable {D K : Type} [LinearOrder K]

/-- tree.py:10-23 `Tree.find`. -/
def findKey (key : D → K) (x : K) : Nat → Option Nat → TM D (Option Nat)
  | 0, _ => throw .fuel
  | _ + 1, none => pure none
  | fuel + 1, some i => do
    let r ← rd i
    if x = key r.data then pure (some i)
    else if x < key r.data then findKey key x fuel r.left
    else findKey key x fuel r.right

/-- `balance > 1 and p(root.left.get_key())`, tree.py:127, 135. -/
def leftKey (key : D → K) (i : Nat) (b : Int) (p : K → Bool) : TM D Bool :=
  if b > 1 then (do
    let r ← rd i
    let l ← deref r.left
    let rl ← rd l
    pure (p (key rl.data)))
  else pure false

/-- `balance < -1 and p(root.right.get_key())`, tree.py:131, 140. -/
def rightKey (key : D → K) (i : Nat) (b : Int) (p : K → Bool) : TM D Bool :=
  if b < -1 then (do
    let r ← rd i
    let c ← deref r.right
    let rc ← rd c
    pure (p (key rc.data)))
  else pure false

/-- tree.py:122-144: the four cases after an insertion. -/
def insertCases (key : D → K) (hf i : Nat) (nk : K) : TM D Nat := do
  let b ← balanceOf hf i
  if (← leftKey key i b (fun k => decide (nk < k))) then rotateRight hf i
  else if (← rightKey key i b (fun k => decide (nk > k))) then rotateLeft hf i
  else if (← leftKey key i b (fun k => decide (nk > k))) then rotateLR hf i
  else if (← rightKey key i b (fun k => decide (nk < k))) then rotateRL hf i
  else pure i

/-- tree.py:104-144 `Tree.insert(root, node)` for a node (not `None`). -/
def insertT (key : D → K) (hf node : Nat) : Nat → Option Nat → TM D Nat
  | 0, _ => throw .fuel
  | _ + 1, none => pure node
  | fuel + 1, some i => do
    let rn ← rd node
    let r ← rd i
    if key rn.data < key r.data then do
      let c ← insertT key hf node fuel r.left
      setLeft i (some c)
      updateHeight hf i
      insertCases key hf i (key rn.data)
    else do
      let c ← insertT key hf node fuel r.right
      setRight i (some c)
      updateHeight hf i
      insertCases key hf i (key rn.data)

/-- A client loop: `for d in ds: root = Tree.insert(root, Node(d))`. -/
def insertSeq (key : D → K) (hf : Nat) : List D → Option Nat → TM D (Option Nat)
  | [], r => pure r
  | d :: ds, r => do
    let k ← newNode d
    let r' ← insertT key hf k hf r
    insertSeq key hf ds (some r')

/-- tree.py:173-178: the end of `delete`. -/
def deleteFix (hf i : Nat) : TM D (Option Nat) := do
  updateHeight hf i
  let j ← balance hf i
  pure (some j)

/-- tree.py:146-178 `Tree.delete`.  With two children line 167 reads `temp.value`; no class of the library has this attribute, so it
is an AttributeError. -/
def deleteT (key : D → K) (hf : Nat) (x : K) : Nat → Option Nat → TM D (Option Nat)
  | 0, _ => throw .fuel
  | _ + 1, none => pure none
  | fuel + 1, some i => do
    let r ← rd i
    if x < key r.data then do
      let c ← deleteT key hf x fuel r.left
      setLeft i c
      deleteFix hf i
    else if key r.data < x then do
      let c ← deleteT key hf x fuel r.right
      setRight i c
      deleteFix hf i
    else
      match r.left, r.right with
      | none, o => pure o
      | some l, none => pure (some l)
      | some _, some c => do
        let m ← minimum hf c
        let rm ← rd m
        updN i (fun r => { r with data := rm.data })
        throw .attr

/-- tree.py:311-326 `Tree.get_leaves(root)`. -/
def getLeaves : Nat → Nat → TM D (List Nat)
  | 0, _ => throw .fuel
  | fuel + 1, i => do
    let r ← rd i
    if r.left.isNone && r.right.isNone then pure [i]
    else do
      let a ← (match r.left with | some c => getLeaves fuel c | none => pure [])
      let b ← (match r.right with | some c => getLeaves fuel c | none => pure [])
      pure (a ++ b)

end Foronoi
