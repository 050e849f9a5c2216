import Mathlib.Data.Rat.Defs
import Mathlib.Data.List.Basic
import Mathlib.Algebra.Order.Ring.Rat
import Mathlib.Algebra.Order.Field.Rat
import Mathlib.Algebra.Order.Group.Abs

/-!
# A condition on sites and corners with rational coordinates that can be evaluated
-/

namespace Foronoi.Check

abbrev QPt := ℚ × ℚ

def side (p q z : QPt) : ℚ := (q.2 - p.2) * (z.1 - p.1) - (q.1 - p.1) * (z.2 - p.2)

def dist2 (p q : QPt) : ℚ := (p.1 - q.1) ^ 2 + (p.2 - q.2) ^ 2

def cnr (m : List QPt) (i : Nat) : QPt := m.getD (i % m.length) (0, 0)

/-- Twice the area of a triangle with its sign. -/
def twice (a b c : QPt) : ℚ := (b.1 - a.1) * (c.2 - a.2) - (b.2 - a.2) * (c.1 - a.1)

/-- The centre of the circle through three points that are not on a line. -/
def centre (a b c : QPt) : QPt :=
  let u := (b.1 - a.1) ^ 2 + (b.2 - a.2) ^ 2
  let v := (c.1 - a.1) ^ 2 + (c.2 - a.2) ^ 2
  (a.1 + ((c.2 - a.2) * u - (b.2 - a.2) * v) / (2 * twice a b c), a.2 + ((b.1 - a.1) * v - (c.1 - a.1) * u) / (2 * twice a b c))

/-- The corners are in convex position and listed clockwise, and no side is a diagonal of the box around the polygon. -/
def Corners (m : List QPt) : Prop :=
  3 ≤ m.length ∧ (∀ i < m.length, ∀ j < m.length, ∀ k < m.length, i < j → j < k → 0 < side (cnr m i) (cnr m j) (cnr m k)) ∧
  ∀ i < m.length, ∃ c ∈ m, c.1 < min (cnr m i).1 (cnr m (i + 1)).1 ∨ max (cnr m i).1 (cnr m (i + 1)).1 < c.1 ∨
    c.2 < min (cnr m i).2 (cnr m (i + 1)).2 ∨ max (cnr m i).2 (cnr m (i + 1)).2 < c.2

/-- The sites are different points of the polygon. -/
def Sites (S m : List QPt) : Prop :=
  S ≠ [] ∧ S.Nodup ∧ ∀ s ∈ S, ∀ i < m.length, 0 ≤ side (cnr m i) (cnr m (i + 1)) s

/-- `z` is above the line `y = k` and farther away from it than from `s`. -/
def AboveLine (k : ℚ) (s z : QPt) : Prop := k < z.2 ∧ dist2 s z < (z.2 - k) ^ 2

instance (k : ℚ) (s z : QPt) : Decidable (AboveLine k s z) := by unfold AboveLine; infer_instance

/-- The half-plane of the points at which an affine function with these coefficients is not negative. -/
abbrev Half := ℚ × ℚ × ℚ

def value (c : Half) (z : QPt) : ℚ := c.1 * z.1 + c.2.1 * z.2 + c.2.2

/-- The half-plane on the right of a side. -/
def sideHalf (p q : QPt) : Half := (q.2 - p.2, -(q.1 - p.1), (q.1 - p.1) * p.2 - (q.2 - p.2) * p.1)

def sideHalves (m : List QPt) : List Half := (List.range m.length).map fun i => sideHalf (cnr m i) (cnr m (i + 1))

/-- The half-plane of the points that are at least as near to `p` as to `o`. -/
def nearHalf (p o : QPt) : Half := (-2 * (o.1 - p.1), -2 * (o.2 - p.2), o.1 ^ 2 + o.2 ^ 2 - p.1 ^ 2 - p.2 ^ 2)

def cross (c d : Half) : ℚ := c.1 * d.2.1 - c.2.1 * d.1

/-- The common point of the borders of two half-planes. -/
def common (c d : Half) : QPt := ((c.2.1 * d.2.2 - d.2.1 * c.2.2) / cross c d, (c.2.2 * d.1 - d.2.2 * c.1) / cross c d)

/-- All corners of an intersection of half-planes are nearer to `p` than to the line `y = k`. -/
def CornersAbove (k : ℚ) (p : QPt) (cs : List Half) : Prop :=
  ∀ c ∈ cs, ∀ d ∈ cs, cross c d = 0 ∨ (∃ e ∈ cs, value e (common c d) < 0) ∨ AboveLine k p (common c d)

instance (k : ℚ) (p : QPt) (cs : List Half) : Decidable (CornersAbove k p cs) := by unfold CornersAbove; infer_instance

/-- For the line `y = k` one site is nearer to all corners of the polygon, or every site is nearer to the corners of its own cell in the polygon.  The line is below the
circle through three sites unless another site is in this circle or one of the three sites is nearer than the line to all corners of the polygon, or to the ends of the
part of its bisector in the polygon. -/
def Line (S m : List QPt) (k : ℚ) : Prop :=
  (∀ s ∈ S, k < s.2) ∧ ((∃ s ∈ S, ∀ c ∈ m, AboveLine k s c) ∨ ∀ p ∈ S, CornersAbove k p (sideHalves m ++ S.map (nearHalf p))) ∧
  ∀ a ∈ S, ∀ b ∈ S, ∀ c ∈ S, twice a b c ≠ 0 →
    (∃ o ∈ S, dist2 o (centre a b c) < dist2 a (centre a b c)) ∨ AboveLine k a (centre a b c) ∨ (∀ z ∈ m, AboveLine k a z) ∨
      CornersAbove k a (sideHalves m ++ [nearHalf a b, nearHalf b a])

instance (S m : List QPt) (k : ℚ) : Decidable (Line S m k) := by unfold Line; infer_instance

/-- The height of the top of the polygon is not 0, and the line at which the last edges are cut off is low enough. -/
def Heights (S m : List QPt) : Prop :=
  ∃ lo ∈ m, ∃ t ∈ m, (∀ c ∈ m, lo.2 ≤ c.2 ∧ c.2 ≤ t.2) ∧ t.2 ≠ 0 ∧ Line S m (lo.2 - |t.2|)

/-- The centre of the circle through three sites is strictly on one side of all lines through sides, strictly outside, or another site is nearer; and if two of the
sites are in the topmost row it is not higher than the polygon, or another site is nearer. -/
def Centres (S m : List QPt) : Prop :=
  ∀ a ∈ S, ∀ b ∈ S, ∀ c ∈ S, twice a b c ≠ 0 → (∃ o ∈ S, dist2 o (centre a b c) < dist2 a (centre a b c)) ∨
    (((∀ i < m.length, 0 < side (cnr m i) (cnr m (i + 1)) (centre a b c)) ∨ ∃ i < m.length, side (cnr m i) (cnr m (i + 1)) (centre a b c) < 0) ∧
      ((∃ o ∈ S, a.2 < o.2) ∨ a.2 ≠ b.2 ∨ ∃ t ∈ m, (centre a b c).2 ≤ t.2))

/-- Only one site is nearest to `z`. -/
def OneNearest (S : List QPt) (z : QPt) : Prop := ∀ p ∈ S, ∀ r ∈ S, p ≠ r → ∃ o ∈ S, dist2 o z < dist2 p z ∨ dist2 o z < dist2 r z

instance (S : List QPt) (z : QPt) : Decidable (OneNearest S z) := by unfold OneNearest; infer_instance

/-- The first corner in the order of the constructor has one nearest site only. -/
def First (S m : List QPt) : Prop :=
  ∀ i < m.length, ∀ lo ∈ m, ∀ hi ∈ m, ((∀ c ∈ m, lo.2 ≤ c.2 ∧ c.2 ≤ hi.2) ∧ (cnr m i).2 < (lo.2 + hi.2) / 2 ∧ (lo.2 + hi.2) / 2 ≤ (cnr m (i + 1)).2) →
    OneNearest S (cnr m (i + 1))

/-- All conditions. -/
def Input (S m : List QPt) : Prop := Corners m ∧ Sites S m ∧ Heights S m ∧ Centres S m ∧ First S m

instance (m : List QPt) : Decidable (Corners m) := by unfold Corners; infer_instance
instance (S m : List QPt) : Decidable (Sites S m) := by unfold Sites; infer_instance
instance (S m : List QPt) : Decidable (Heights S m) := by unfold Heights; infer_instance
instance (S m : List QPt) : Decidable (Centres S m) := by unfold Centres; infer_instance
instance (S m : List QPt) : Decidable (First S m) := by unfold First; infer_instance
instance (S m : List QPt) : Decidable (Input S m) := by unfold Input; infer_instance

end Foronoi.Check
