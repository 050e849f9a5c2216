import Verif.Spec.Clipping

/-!
# The same sites in another system of coordinates (specification)
-/

namespace Foronoi

/-- Another system of coordinates: turned (and in another unit) by the matrix with the columns `(a, b)` and `s (-b, a)`, and moved by `(u, v)`.
With `s = -1` it is also mirrored. -/
structure Motion where
  a : ℝ
  b : ℝ
  s : ℝ
  u : ℝ
  v : ℝ
  pos : 0 < a ^ 2 + b ^ 2
  sign : s = 1 ∨ s = -1

/-- The new coordinates of a point. -/
def Motion.apply (g : Motion) (z : ℝ × ℝ) : ℝ × ℝ := (g.a * z.1 - g.s * g.b * z.2 + g.u, g.b * z.1 + g.s * g.a * z.2 + g.v)

/-- By how much areas get larger. -/
def Motion.scale (g : Motion) : ℝ := g.a ^ 2 + g.b ^ 2

/-- Coordinates with left and right exchanged. -/
def mirror : Motion := ⟨-1, 0, -1, 0, 0, by norm_num, Or.inr rfl⟩

/-- Coordinates turned to the left by the angle of the triangle with sides 3, 4 and 5, and five times as large. -/
def turn34 : Motion := ⟨3, 4, 1, 0, 0, by norm_num, Or.inl rfl⟩

end Foronoi
