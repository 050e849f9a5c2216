import Verif.Spec.Voronoi

/-!
# Plane polygons (specification)

A polygon is the list of its corners; its sides join each corner to the following one and the last one to the first.
-/

namespace Foronoi

/-- The `i`-th corner, counted cyclically. -/
def corner (l : List (ℝ × ℝ)) (i : Nat) : ℝ × ℝ := l.getD (i % l.length) (0, 0)

/-- `z` lies on the `i`-th side. -/
def OnSide (l : List (ℝ × ℝ)) (i : Nat) (z : ℝ × ℝ) : Prop := i < l.length ∧ Between (corner l i) (corner l (i + 1)) z

/-- `z` lies on the boundary. -/
def OnBoundary (l : List (ℝ × ℝ)) (z : ℝ × ℝ) : Prop := ∃ i, OnSide l i z

/-- The ray from `z` to the right (without `z`) meets the side from `p` to `q`, not counting the upper end of the side (so that a ray
through a corner counts it consistently, and a horizontal side is not counted). -/
def RayHits (z p q : ℝ × ℝ) : Prop := ∃ w, Between p q w ∧ w.2 = z.2 ∧ z.1 < w.1 ∧ w.2 < max p.2 q.2

/-- `z` is on the right of the directed line from `p` to `q` (positive) or on the left (negative); 0 on the line. -/
def rightOf (p q z : ℝ × ℝ) : ℝ := (q.2 - p.2) * (z.1 - p.1) - (q.1 - p.1) * (z.2 - p.2)

/-- The corners are in convex position and listed clockwise: of any three in this order, the third is on the right of the line
through the first two. -/
def ClockwiseConvex (l : List (ℝ × ℝ)) : Prop :=
  3 ≤ l.length ∧ ∀ i j k, i < j → j < k → k < l.length → 0 < rightOf (corner l i) (corner l j) (corner l k)

/-- Strictly inside: on the right of all sides. -/
def StrictlyInside (l : List (ℝ × ℝ)) (z : ℝ × ℝ) : Prop := ∀ i < l.length, 0 < rightOf (corner l i) (corner l (i + 1)) z

/-- Strictly outside: on the left of some side. -/
def StrictlyOutside (l : List (ℝ × ℝ)) (z : ℝ × ℝ) : Prop := ∃ i < l.length, rightOf (corner l i) (corner l (i + 1)) z < 0

/-- In the polygon or on its border: on the left of no side. -/
def InClosed (l : List (ℝ × ℝ)) (z : ℝ × ℝ) : Prop := ∀ i < l.length, 0 ≤ rightOf (corner l i) (corner l (i + 1)) z

/-- `z` is on the ray that starts at `o` (excluded) and passes through `e`. -/
def OnRay (o e z : ℝ × ℝ) : Prop := ∃ t : ℝ, 0 < t ∧ z = (o.1 + t * (e.1 - o.1), o.2 + t * (e.2 - o.2))

/-- The line through `o` and `e` is parallel to the one through `p` and `q` (or `o = e`, or `p = q`). -/
def Parallel (o e p q : ℝ × ℝ) : Prop := (e.1 - o.1) * (q.2 - p.2) = (e.2 - o.2) * (q.1 - p.1)

/-- The direction from `c` to `p` in degrees, counted clockwise from the left (west), in `[0, 360)`: `p` is reached by going `r` in
this direction. -/
def ClockwiseFromWest (c p : ℝ × ℝ) (θ : ℝ) : Prop :=
  0 ≤ θ ∧ θ < 360 ∧ ∃ r : ℝ, 0 ≤ r ∧ p.1 = c.1 - r * Real.cos (θ * Real.pi / 180) ∧ p.2 = c.2 + r * Real.sin (θ * Real.pi / 180)

end Foronoi
