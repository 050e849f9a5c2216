import Verif.Model.Tree

/-!
# Binary search trees (specification)
-/

namespace Foronoi

variable {D K : Type}

/-- A binary tree whose nodes have a reference and data. -/
inductive BT (D : Type) where
  | nil
  | node (i : Nat) (d : D) (l r : BT D)

namespace BT

/-- Reference of the root. -/
def root : BT D → Option Nat
  | nil => none
  | node i _ _ _ => some i

/-- References, left to right. -/
def ids : BT D → List Nat
  | nil => []
  | node i _ l r => ids l ++ i :: ids r

/-- Data, left to right. -/
def items : BT D → List D
  | nil => []
  | node _ d l r => items l ++ d :: items r

def depth : BT D → Nat
  | nil => 0
  | node _ _ l r => 1 + max (depth l) (depth r)

/-- At every node the depths of the two subtrees differ by at most one. -/
def Balanced : BT D → Prop
  | nil => True
  | node _ _ l r => depth l ≤ depth r + 1 ∧ depth r ≤ depth l + 1 ∧ Balanced l ∧ Balanced r

/-- References of the childless nodes, left to right. -/
def leaves : BT D → List Nat
  | nil => []
  | node i _ nil nil => [i]
  | node _ _ l r => leaves l ++ leaves r

/-- A node with data `d` has two children. -/
def TwoChildren (d : D) : BT D → Prop
  | nil => False
  | node _ e l r => (e = d ∧ l.root ≠ none ∧ r.root ≠ none) ∨ TwoChildren d l ∨ TwoChildren d r

end BT

/-- The store contains the tree: data, child and parent pointers agree, and every cached height is right. -/
def Holds (n : Nat → NodeR D) : Option Nat → BT D → Prop
  | _, .nil => True
  | p, .node i d l r => (n i).data = d ∧ (n i).left = l.root ∧ (n i).right = r.root ∧ (n i).parent = p ∧
      ((n i).height = none ∨ (n i).height = some (1 + max l.depth r.depth)) ∧ Holds n (some i) l ∧ Holds n (some i) r

end Foronoi
