import Verif.Model.Tree

/-!
# Specification of pointer trees

`FullTree n p i xs`: in the store `n` the node `i`, whose parent is `p`, is the root of a full binary tree with consistent parent
pointers; `xs` is the in-order sequence of its nodes, marked whether they are leaves.
-/

namespace Foronoi

variable {D : Type}

inductive FullTree (n : Nat → NodeR D) : Option Nat → Nat → List (Nat × Bool) → Prop where
  | leaf {p i} : (n i).parent = p → (n i).left = none → (n i).right = none → FullTree n p i [(i, true)]
  | node {p i l r xs ys} : (n i).parent = p → (n i).left = some l → (n i).right = some r →
      FullTree n (some i) l xs → FullTree n (some i) r ys → FullTree n p i (xs ++ (i, false) :: ys)

/-- A tree in the store: no node occurs twice. -/
def TreeAt (s : NS D) (root : Nat) (xs : List (Nat × Bool)) : Prop := FullTree s.n none root xs ∧ (xs.map (·.1)).Nodup

/-- The leaves, left to right. -/
def leavesOf (xs : List (Nat × Bool)) : List Nat := (xs.filter (·.2)).map (·.1)

/-- Cached heights, possibly stale: 1 on leaves, at least 2 on inner nodes. -/
def HeightsOk (s : NS D) : Prop := ∀ i h, (s.n i).height = some h →
  ((s.n i).left = none ∧ (s.n i).right = none → h = 1) ∧ ((s.n i).left ≠ none ∨ (s.n i).right ≠ none → 2 ≤ h)

end Foronoi
