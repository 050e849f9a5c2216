import Verif.Spec.Avl

/-!
# Heights of pointer trees (specification)
-/

namespace Foronoi

variable {D : Type}

/-- Replace the subtree at node `i`. -/
def BT.subst (i : Nat) (q : BT D) : BT D → BT D
  | .nil => .nil
  | .node j d l r => if j = i then q else .node j d (BT.subst i q l) (BT.subst i q r)

/-- Like `Holds`, but the cached heights of the nodes above `x` and of `x` itself can be wrong. -/
def HoldsBut (n : Nat → NodeR D) (x : Nat) : Option Nat → BT D → Prop
  | _, .nil => True
  | p, .node i d l r => (n i).data = d ∧ (n i).left = l.root ∧ (n i).right = r.root ∧ (n i).parent = p ∧
      (x ∉ (BT.node i d l r).ids → (n i).height = none ∨ (n i).height = some (1 + max l.depth r.depth)) ∧
      HoldsBut n x (some i) l ∧ HoldsBut n x (some i) r

/-- The subtree at a node has height `h`; no node has height 0. -/
inductive Tall (n : Nat → NodeR D) : Option Nat → Nat → Prop where
  | none : Tall n none 0
  | some {i a b} : Tall n (n i).left a → Tall n (n i).right b → Tall n (some i) (1 + max a b)

/-- Node `i` is in the tree below `root`. -/
inductive InTree (n : Nat → NodeR D) (root : Nat) : Nat → Prop where
  | root : InTree n root root
  | left {i j} : InTree n root i → (n i).left = some j → InTree n root j
  | right {i j} : InTree n root i → (n i).right = some j → InTree n root j

end Foronoi
