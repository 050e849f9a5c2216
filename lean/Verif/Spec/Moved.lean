import Verif.Spec.Clipping

/-!
# The box around a polygon, and moving the input (specification)
-/

namespace Foronoi

/-- The numbers of a polygon: the smallest box around its corners, and the centre of the box. -/
structure BoxOf (l : List (ℝ × ℝ)) (poly : Poly ℝ) : Prop where
  left : ∃ p ∈ l, p.1 = poly.minX
  right : ∃ p ∈ l, p.1 = poly.maxX
  bottom : ∃ p ∈ l, p.2 = poly.minY
  top : ∃ p ∈ l, p.2 = poly.maxY
  inside : ∀ p ∈ l, poly.minX ≤ p.1 ∧ p.1 ≤ poly.maxX ∧ poly.minY ≤ p.2 ∧ p.2 ≤ poly.maxY
  center : poly.center = ((poly.maxX + poly.minX) / 2, (poly.maxY + poly.minY) / 2)

/-- The segment from `a` to `b` is a diagonal of the smallest box with sides parallel to the axes around the points of `l`. -/
def BoxDiagonal (l : List (ℝ × ℝ)) (a b : ℝ × ℝ) : Prop :=
  (∀ p ∈ l, min a.1 b.1 ≤ p.1 ∧ p.1 ≤ max a.1 b.1) ∧ ∀ p ∈ l, min a.2 b.2 ≤ p.2 ∧ p.2 ≤ max a.2 b.2

/-- Moved up by `h`. -/
def up (h : ℝ) (z : ℝ × ℝ) : ℝ × ℝ := (z.1, z.2 + h)

/-- The corner `b` comes directly after `a`, and the side from `a` to `b` reaches the middle of the height of the polygon from below: `b` is the corner
at which a clockwise walk that begins on the left of the centre arrives first. -/
def LeftSide (m : List (ℝ × ℝ)) (a b : ℝ × ℝ) : Prop :=
  ∃ lo ∈ m, ∃ hi ∈ m, (∀ c ∈ m, lo.2 ≤ c.2 ∧ c.2 ≤ hi.2) ∧ a.2 < (lo.2 + hi.2) / 2 ∧ (lo.2 + hi.2) / 2 ≤ b.2

/-- Every cell has a part in the interior of the polygon. -/
def AllMeet (pts : Nat → ℝ × ℝ) (n : Nat) (m : List (ℝ × ℝ)) : Prop :=
  ∀ p < n, ∃ c, StrictlyInside m c ∧ ∀ o < n, o ≠ p → sqDist (pts p) c < sqDist (pts o) c

/-- Sites in general position with respect to a convex polygon with corners `m`: a bisector that separates two cells at a point of the border
of the polygon passes through its interior, no Voronoi vertex is on its border, the first corner is not between two cells, and no Voronoi vertex between two neighbours in the topmost row of sites is higher than the polygon.
No side of the polygon is a diagonal of the box around it.  The sites need not be in the polygon. -/
structure GeneralPosition (pts : Nat → ℝ × ℝ) (n : Nat) (m : List (ℝ × ℝ)) : Prop where
  convex : ClockwiseConvex m
  diagonal : ∀ i < m.length, ¬ BoxDiagonal m (corner m i) (corner m (i + 1))
  touch : ∀ p r z, p ≠ r → OnBoundary m z → Nearest pts n p z → Nearest pts n r z → ∃ u, StrictlyInside m u ∧ sqDist (pts p) u = sqDist (pts r) u
  border : ∀ z, VoronoiVertex pts n z → ¬ OnBoundary m z
  first : ∀ i < m.length, LeftSide m (corner m i) (corner m (i + 1)) → ∀ p r, Nearest pts n p (corner m (i + 1)) → Nearest pts n r (corner m (i + 1)) → p = r
  top : ∀ p < n, ∀ r < n, TopRowPair pts n p r → ∀ z, VoronoiVertex pts n z → Nearest pts n p z → Nearest pts n r z → ∃ c ∈ m, z.2 ≤ c.2

end Foronoi
