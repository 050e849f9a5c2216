import Verif.Spec.Poly

/-!
# Area of a polygon (specification)
-/

namespace Foronoi

/-- Twice the signed area of the triangle of the origin, `p` and `q`. -/
def cross2 (p q : ℝ × ℝ) : ℝ := p.1 * q.2 - q.1 * p.2

/-- Sum over consecutive pairs of a path. -/
def pathSum : List (ℝ × ℝ) → ℝ
  | p :: q :: l => cross2 p q + pathSum (q :: l)
  | _ => 0

/-- Twice the signed area of a closed polygon; positive if it is counter-clockwise. -/
def signed2 : List (ℝ × ℝ) → ℝ
  | [] => 0
  | a :: l => pathSum (a :: l ++ [a])

/-- Sum of the (unsigned) areas of the triangles that join `a` to consecutive pairs of the list. -/
noncomputable def fan (a : ℝ × ℝ) : List (ℝ × ℝ) → ℝ
  | p :: q :: l => |rightOf a p q| / 2 + fan a (q :: l)
  | _ => 0

end Foronoi
