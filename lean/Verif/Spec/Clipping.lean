import Verif.Spec.Poly
import Verif.Spec.Clip
import Verif.Spec.Edges

/-!
# Sites that fit a polygon (specification)

Clipping places the ends of unbounded edges with the sweep line at `min_y - |max_y|`.  That is only right if the sweep is over at this
height, as far as the polygon is concerned.
-/

namespace Foronoi

/-- The height of the sweep line during clipping: `min_y - |max_y|`. -/
noncomputable def clipLine (poly : Poly ℝ) : ℝ := poly.minY - |poly.maxY|

/-- `p` and, right of it, `r` are neighbours in the topmost row of sites. -/
def TopRowPair (pts : Nat → ℝ × ℝ) (n : Nat) (p r : Nat) : Prop :=
  (pts p).2 = (pts r).2 ∧ (pts p).1 < (pts r).1 ∧
    ∀ c < n, (pts c).2 < (pts p).2 ∨ ((pts c).2 = (pts p).2 ∧ ((pts c).1 ≤ (pts p).1 ∨ (pts r).1 ≤ (pts c).1))

/-- The common border of the cells of `p` and `r` is not bounded. -/
def FarBorder (pts : Nat → ℝ × ℝ) (n : Nat) (p r : Nat) : Prop :=
  ∀ R : ℝ, ∃ z, Nearest pts n p z ∧ Nearest pts n r z ∧ R < sqDist (pts p) z

/-- The polygon is convex, no Voronoi vertex is on its border, a bisector that separates two cells at a point of the border passes through the
interior, and the sweep line used for clipping is low enough: it is below all sites and below an empty circle around every point of the
polygon; and where an unbounded edge starts at a vertex whose circle it cuts, it is below the circles through the two sites around all points
of the polygon.  The common border of two neighbours in the topmost row has no vertex above the polygon if the polygon has a highest point
there.  The sites need not be in the polygon. -/
structure FitsPolygon (pts : Nat → ℝ × ℝ) (n : Nat) (poly : Poly ℝ) : Prop where
  convex : ClockwiseConvex poly.points
  height : ∀ z, InClosed poly.points z → z.2 ≤ poly.maxY
  low : ∀ p < n, clipLine poly < (pts p).2
  touch : ∀ p r z, p ≠ r → OnBoundary poly.points z → Nearest pts n p z → Nearest pts n r z →
    ∃ u, StrictlyInside poly.points u ∧ sqDist (pts p) u = sqDist (pts r) u
  border : ∀ z, VoronoiVertex pts n z → ¬ OnBoundary poly.points z
  verts : ∀ p r z, p ≠ r → FarBorder pts n p r → VoronoiVertex pts n z → Nearest pts n p z → Nearest pts n r z →
    (clipLine poly < z.2 ∧ sqDist (pts p) z < (z.2 - clipLine poly) ^ 2) ∨
    ∀ w, InClosed poly.points w → sqDist (pts p) w = sqDist (pts r) w → sqDist (pts p) w < (w.2 - clipLine poly) ^ 2
  cover : ∀ z, InClosed poly.points z → clipLine poly < z.2 ∧ ∃ p < n, sqDist (pts p) z < (z.2 - clipLine poly) ^ 2
  top : ∀ p < n, ∀ r < n, TopRowPair pts n p r → poly.maxY ≠ 0 ∧
    ∀ z, VoronoiVertex pts n z → Nearest pts n p z → Nearest pts n r z → z.2 ≤ poly.maxY ∨
      ¬ InClosed poly.points (((pts p).1 + (pts r).1) / 2, poly.maxY)

/-- In addition, the polygon was made by its constructor, the point around which it sorts is inside, and the first corner is not on the border
of two cells. -/
structure FitsCorners (pts : Nat → ℝ × ℝ) (n : Nat) (poly : Poly ℝ) : Prop extends FitsPolygon pts n poly where
  made : ∃ l, mkPoly l = .ok poly
  center : StrictlyInside poly.points poly.center
  first : ∀ p r, Nearest pts n p (corner poly.points 0) → Nearest pts n r (corner poly.points 0) → p = r

/-- In addition, every cell has a part in the interior of the polygon. -/
structure FitsBorder (pts : Nat → ℝ × ℝ) (n : Nat) (poly : Poly ℝ) : Prop extends FitsCorners pts n poly where
  meets : ∀ p < n, ∃ c, StrictlyInside poly.points c ∧ ∀ o < n, o ≠ p → sqDist (pts p) c < sqDist (pts o) c

/-- The cell of `p` is not bounded. -/
def FarCell (pts : Nat → ℝ × ℝ) (n : Nat) (p : Nat) : Prop := ∀ R : ℝ, ∃ z, Nearest pts n p z ∧ R < sqDist (pts p) z

/-- The cell of `p` has a part in the interior of the polygon, but is not a bounded cell that covers it. -/
structure Shown (pts : Nat → ℝ × ℝ) (n : Nat) (poly : Poly ℝ) (p : Nat) : Prop where
  lt : p < n
  part : ∃ c, StrictlyInside poly.points c ∧ ∀ o < n, o ≠ p → sqDist (pts p) c < sqDist (pts o) c
  notAll : (∃ z, StrictlyInside poly.points z ∧ ¬ Nearest pts n p z) ∨ FarCell pts n p

/-- No corner is on the border of two cells. -/
def NoTies (pts : Nat → ℝ × ℝ) (n : Nat) (poly : Poly ℝ) : Prop :=
  ∀ k < poly.points.length, ∀ p r, Nearest pts n p (corner poly.points k) → Nearest pts n r (corner poly.points k) → p = r

end Foronoi
