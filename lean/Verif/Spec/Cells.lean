import Verif.Spec.Clip
import Verif.Spec.Poly
import Mathlib.Data.Finset.Range
import Mathlib.Data.Finset.Filter

/-!
# What the edges around a cell have to be
-/

namespace Foronoi

/-- A half-edge of the finished diagram: a listed one or the twin of a listed one. -/
def HalfEdgeOf (d : Dcel ℝ) (edges : List Nat) (f : Nat) : Prop := f ∈ edges ∨ ∃ e ∈ edges, (d.he e).twin = some f

/-- `l` are all half-edges of the cell of `p`, each once, in the order of `next`, and each starts where the one before ends. -/
structure Around (d : Dcel ℝ) (edges : List Nat) (p : Nat) (l : List Nat) : Prop where
  nonempty : l ≠ []
  once : l.Nodup
  all : ∀ e, e ∈ l ↔ HalfEdgeOf d edges e ∧ (d.he e).incident = some p
  linked : ∀ (i e f : Nat), l[i]? = some e → l[(i + 1) % l.length]? = some f → (d.he e).next = some f ∧ (d.he f).prev = some e
  joined : ∀ (i e f : Nat), l[i]? = some e → l[(i + 1) % l.length]? = some f → ∃ a, TargetAt d e a ∧ OriginAt d f a

/-- A point of the part of the Voronoi cell of `p` inside the polygon. -/
def InCell (pts : Nat → ℝ × ℝ) (n : Nat) (poly : Poly ℝ) (p : Nat) (z : ℝ × ℝ) : Prop := InClosed poly.points z ∧ Nearest pts n p z

open Classical in
/-- The cells that have a part in the polygon. -/
noncomputable def cellsIn (pts : Nat → ℝ × ℝ) (n : Nat) (poly : Poly ℝ) : Finset Nat := (Finset.range n).filter fun p => ∃ z, InCell pts n poly p z

/-- `z` is on the right of, or on, every edge in `l` (`z` is inside if the edges run clockwise). -/
def RightOfAll (d : Dcel ℝ) (l : List Nat) (z : ℝ × ℝ) : Prop :=
  ∀ e ∈ l, ∀ a b, OriginAt d e a → TargetAt d e b → (b.1 - a.1) * (z.2 - a.2) - (b.2 - a.2) * (z.1 - a.1) ≤ 0

/-- `z` is on an edge in `l`. -/
def OnSomeEdge (d : Dcel ℝ) (l : List Nat) (z : ℝ × ℝ) : Prop := ∃ e ∈ l, ∃ a b, OriginAt d e a ∧ TargetAt d e b ∧ Between a b z

end Foronoi
