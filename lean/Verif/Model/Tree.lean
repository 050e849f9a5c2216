import Verif.Model.Base

/-!
# Model of `foronoi/tree/node.py` and `foronoi/tree/tree.py` (pointer level)

The tree operations used by the sweep.  Nodes are records in a store, exactly the five attributes of
`Node`; the data type `D` and the key function are parameters because `Node` is generic and
`get_key` is a virtual method (`InternalNode.get_key`, `LeafNode.get_key`).
Recursion/loops through pointers take fuel (`Err.fuel` if exhausted).
Python's recursion limit is not modelled.
-/

namespace Foronoi

/-- node.py:2-11: attributes of a `Node`. -/
structure NodeR (D : Type) where
  data : D
  left : Option Nat
  right : Option Nat
  parent : Option Nat
  height : Option Nat

/-- Node store; `cnt` is the next fresh reference. -/
structure NS (D : Type) where
  n : Nat → NodeR D
  cnt : Nat

abbrev TM (D : Type) := EM (NS D)

variable {D : Type}

/-- Read node `i`. -/
def rd (i : Nat) : TM D (NodeR D) := fun s => .ok (s.n i, s)

/-- Assign to attributes of node `i`. -/
def updN (i : Nat) (f : NodeR D → NodeR D) : TM D Unit :=
  fun s => .ok ((), { s with n := Function.update s.n i (f (s.n i)) })

/-- node.py:2-11 `Node.__init__`. -/
def newNode (d : D) : TM D Nat :=
  fun s => .ok (s.cnt, { n := Function.update s.n s.cnt ⟨d, none, none, none, none⟩, cnt := s.cnt + 1 })

/-- node.py:39-47 `Node.left` setter. -/
def setLeft (i : Nat) (c : Option Nat) : TM D Unit := do
  optDo c (fun c => updN c (fun r => { r with parent := some i }))
  updN i (fun r => { r with left := c })

/-- node.py:49-57 `Node.right` setter. -/
def setRight (i : Nat) (c : Option Nat) : TM D Unit := do
  optDo c (fun c => updN c (fun r => { r with parent := some i }))
  updN i (fun r => { r with right := c })

/-- node.py:59-63 `Node.height` (property, caches) together with node.py:71-80 `calculate_height`. -/
def height : Nat → Nat → TM D Nat
  | 0, _ => throw .fuel
  | fuel + 1, i => do
    let r ← rd i
    match r.height with
    | some h => pure h
    | none => do
      let lh ← (match r.left with | some c => height fuel c | none => pure 0)
      let rh ← (match r.right with | some c => height fuel c | none => pure 0)
      let h := 1 + max lh rh
      updN i (fun r => { r with height := some h })
      pure h

/-- `self.left.height if self.left is not None else 0` (node.py:67-68, 77-78). -/
def heightO (fuel : Nat) (o : Option Nat) : TM D Nat :=
  match o with
  | some c => height fuel c
  | none => pure 0

/-- node.py:71-80 `calculate_height`. -/
def calcHeight (fuel i : Nat) : TM D Nat := do
  let r ← rd i
  let lh ← heightO fuel r.left
  let rh ← heightO fuel r.right
  pure (1 + max lh rh)

/-- node.py:65-69 `Node.balance`. -/
def balanceOf (fuel i : Nat) : TM D Int := do
  let r ← rd i
  let lh ← heightO fuel r.left
  let rh ← heightO fuel r.right
  pure ((lh : Int) - (rh : Int))

/-- node.py:82-86 `update_height`. -/
def updateHeight (fuel i : Nat) : TM D Unit := do
  let h ← calcHeight fuel i
  updN i (fun r => { r with height := some h })

/-- node.py:88-98 `update_heights`.  `hf` is the fuel for the height computations. -/
def updateHeights (hf : Nat) : Nat → Nat → TM D Unit
  | 0, _ => throw .fuel
  | fuel + 1, i => do
    updateHeight hf i
    let r ← rd i
    optDo r.parent (fun p => updateHeights hf fuel p)

/-- node.py:100-107 `is_left_child` (`==` on nodes is identity). -/
def isLeftChild (i : Nat) : TM D Bool := do
  let r ← rd i
  match r.parent with
  | none => pure false
  | some p => do
    let q ← rd p
    pure (q.left == some i)

/-- node.py:109-116 `is_right_child`. -/
def isRightChild (i : Nat) : TM D Bool := do
  let r ← rd i
  match r.parent with
  | none => pure false
  | some p => do
    let q ← rd p
    pure (q.right == some i)

/-- node.py:118-123 `is_leaf`. -/
def isLeaf (i : Nat) : TM D Bool := do
  let r ← rd i
  pure (r.left.isNone && r.right.isNone)

/-- node.py:125-133 `minimum`. -/
def minimum : Nat → Nat → TM D Nat
  | 0, _ => throw .fuel
  | fuel + 1, i => do
    let r ← rd i
    match r.left with
    | some c => minimum fuel c
    | none => pure i

/-- node.py:135-143 `maximum`. -/
def maximum : Nat → Nat → TM D Nat
  | 0, _ => throw .fuel
  | fuel + 1, i => do
    let r ← rd i
    match r.right with
    | some c => maximum fuel c
    | none => pure i

/-- node.py:156-159: walk up while `current` is a right child. -/
def walkUpRight : Nat → Nat → TM D Nat
  | 0, _ => throw .fuel
  | fuel + 1, i => do
    if (← isRightChild i) then do
      let r ← rd i
      let p ← deref r.parent
      walkUpRight fuel p
    else pure i

/-- node.py:179-182: walk up while `current` is a left child. -/
def walkUpLeft : Nat → Nat → TM D Nat
  | 0, _ => throw .fuel
  | fuel + 1, i => do
    if (← isLeftChild i) then do
      let r ← rd i
      let p ← deref r.parent
      walkUpLeft fuel p
    else pure i

/-- node.py:145-166 `successor`. -/
def successor (fuel i : Nat) : TM D (Option Nat) := do
  let r ← rd i
  match r.right with
  | some c => do let m ← minimum fuel c; pure (some m)
  | none => do
    let cur ← walkUpRight fuel i
    let rc ← rd cur
    match rc.parent with
    | none => pure none
    | some p => do
      let rp ← rd p
      match rp.right with
      | none => pure none
      | some c => do let m ← minimum fuel c; pure (some m)

/-- node.py:168-189 `predecessor`. -/
def predecessor (fuel i : Nat) : TM D (Option Nat) := do
  let r ← rd i
  match r.left with
  | some c => do let m ← maximum fuel c; pure (some m)
  | none => do
    let cur ← walkUpLeft fuel i
    let rc ← rd cur
    match rc.parent with
    | none => pure none
    | some p => do
      let rp ← rd p
      match rp.left with
      | none => pure none
      | some c => do let m ← maximum fuel c; pure (some m)

/-- node.py:205-215: hook the replacement into the parent of `i`, or return it as the new root. -/
def hook (i : Nat) (replacement : Option Nat) (root : Option Nat) : TM D (Option Nat) := do
  if (← isLeftChild i) then do
    let r ← rd i
    let p ← deref r.parent
    setLeft p replacement
    pure root
  else if (← isRightChild i) then do
    let r ← rd i
    let p ← deref r.parent
    setRight p replacement
    pure root
  else pure replacement

/-- node.py:217-223: update heights, from the replacement or from the parent. -/
def refreshHeights (fuel i : Nat) (replacement : Option Nat) : TM D Unit :=
  match replacement with
  | some q => updateHeights fuel fuel q
  | none => do
    let r ← rd i
    optDo r.parent (fun p => updateHeights fuel fuel p)

/-- node.py:191-227 `replace_leaf`.  `root` is passed and returned as in the code. -/
def replaceLeaf (fuel i : Nat) (replacement : Option Nat) (root : Option Nat) : TM D (Option Nat) := do
  -- node.py:201-203
  let r ← rd i
  optDo replacement (fun q => updN q (fun x => { x with parent := r.parent }))
  let root' ← hook i replacement root
  refreshHeights fuel i replacement
  pure root'

/-- tree.py:248-256, 290-298: give `y` the place of `z` below `grandparent`. -/
def swing (z y : Nat) (grandparent : Option Nat) : TM D Unit := do
  updN y (fun r => { r with parent := grandparent })
  optDo grandparent (fun g => do
    if (← isLeftChild z) then setLeft g (some y) else setRight g (some y))

/-- tree.py:227-267 `Tree.rotate_left`. -/
def rotateLeft (fuel z : Nat) : TM D Nat := do
  let rz ← rd z
  let grandparent := rz.parent
  let y ← deref rz.right
  let ry ← rd y
  let T2 := ry.left
  swing z y grandparent
  setLeft y (some z)
  setRight z T2
  updateHeight fuel z
  updateHeight fuel y
  pure y

/-- tree.py:269-309 `Tree.rotate_right`. -/
def rotateRight (fuel z : Nat) : TM D Nat := do
  let rz ← rd z
  let grandparent := rz.parent
  let y ← deref rz.left
  let ry ← rd y
  let T3 := ry.right
  swing z y grandparent
  setRight y (some z)
  setLeft z T3
  updateHeight fuel z
  updateHeight fuel y
  pure y

/-- `node.left.balance` as evaluated in tree.py:208-221. -/
def leftBalance (fuel i : Nat) : TM D Int := do
  let r ← rd i
  let l ← deref r.left
  balanceOf fuel l

/-- `node.right.balance` as evaluated in tree.py:208-221. -/
def rightBalance (fuel i : Nat) : TM D Int := do
  let r ← rd i
  let c ← deref r.right
  balanceOf fuel c

/-- `node.balance > 1 and p(node.left.balance)` -/
def leftHeavy (fuel i : Nat) (b : Int) (p : Int → Bool) : TM D Bool :=
  if b > 1 then (do let lb ← leftBalance fuel i; pure (p lb)) else pure false

/-- `node.balance < -1 and p(node.right.balance)` -/
def rightHeavy (fuel i : Nat) (b : Int) (p : Int → Bool) : TM D Bool :=
  if b < -1 then (do let rb ← rightBalance fuel i; pure (p rb)) else pure false

/-- tree.py:216-218 -/
def rotateLR (fuel i : Nat) : TM D Nat := do
  let r ← rd i
  let l ← deref r.left
  let l' ← rotateLeft fuel l
  setLeft i (some l')
  rotateRight fuel i

/-- tree.py:221-223 -/
def rotateRL (fuel i : Nat) : TM D Nat := do
  let r ← rd i
  let c ← deref r.right
  let c' ← rotateRight fuel c
  setRight i (some c')
  rotateLeft fuel i

/-- tree.py:197-225 `Tree.balance`.  (`node.balance` is evaluated again in each test there; the heights
are cached after the first time, so the value is the same.) -/
def balance (fuel i : Nat) : TM D Nat := do
  let b ← balanceOf fuel i
  -- Case 1 - Left Left
  if (← leftHeavy fuel i b (fun lb => decide (lb ≥ 0))) then rotateRight fuel i
  -- Case 2 - Right Right
  else if (← rightHeavy fuel i b (fun rb => decide (rb ≤ 0))) then rotateLeft fuel i
  -- Case 3 - Left Right
  else if (← leftHeavy fuel i b (fun lb => decide (lb < 0))) then rotateLR fuel i
  -- Case 4 - Right Left
  else if (← rightHeavy fuel i b (fun rb => decide (rb > 0))) then rotateRL fuel i
  else pure i

/-- tree.py:181-195 `Tree.balance_and_propagate`. -/
def balanceAndPropagate (hf : Nat) : Nat → Nat → TM D Nat
  | 0, _ => throw .fuel
  | fuel + 1, i => do
    let j ← balance hf i
    let r ← rd j
    match r.parent with
    | none => pure j
    | some p => balanceAndPropagate hf fuel p

variable {K : Type} [LinearOrder K]

/-- tree.py:65-102 `Tree.find_leaf_node`.  `key` models `node.get_key(**kwargs)`, a function of the
node's data; `none` is a Decimal signal. -/
def findLeaf (key : D → Option K) (x : K) : Nat → Option Nat → TM D (Option Nat)
  | 0, _ => throw .fuel
  | _ + 1, none => pure none
  | fuel + 1, some i => do
    if (← isLeaf i) then pure (some i)
    else do
      let r ← rd i
      let k ← liftA (key r.data)
      if x = k then
        match r.left with
        | some l => do let m ← maximum fuel l; pure (some m)
        | none => do
          let c ← deref r.right
          let m ← minimum fuel c
          pure (some m)
      else if x < k then findLeaf key x fuel r.left
      else findLeaf key x fuel r.right

/-- tree.py:25-63 `Tree.find_value`.  `q` is the query's data, `qk` its key (computed once per call in
the code, always the same value), `cmp d` models `compare(node.data, query.data)`.
A node object is truthy, so `a or b` returns `a` unless it is `None`. -/
def findValue (key : D → Option K) (cmp : D → Bool) (qk : K) : Nat → Option Nat → TM D (Option Nat)
  | 0, _ => throw .fuel
  | _ + 1, none => pure none
  | fuel + 1, some i => do
    let r ← rd i
    let k ← liftA (key r.data)
    if qk = k then
      if cmp r.data then pure (some i)
      else do
        let left ← findValue key cmp qk fuel r.left
        match left with
        | none => findValue key cmp qk fuel r.right
        | some m => pure (some m)
    else if qk < k then do
      let a ← findValue key cmp qk fuel r.left
      match a with
      | some m => pure (some m)
      | none => findValue key cmp qk fuel r.right
    else do
      let a ← findValue key cmp qk fuel r.right
      match a with
      | some m => pure (some m)
      | none => findValue key cmp qk fuel r.left

end Foronoi
