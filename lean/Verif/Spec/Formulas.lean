import Verif.Spec.Voronoi
import Mathlib.Analysis.SpecialFunctions.Trigonometric.Basic

/-!
# Plane geometry used to state what the formulas of the code compute
-/

namespace Foronoi

/-- The three points are on a common straight line `u x + v y = w`. -/
def OnOneLine (a b c : ℝ × ℝ) : Prop :=
  ∃ u v w : ℝ, (u ≠ 0 ∨ v ≠ 0) ∧ u * a.1 + v * a.2 = w ∧ u * b.1 + v * b.2 = w ∧ u * c.1 + v * c.2 = w

/-- `p` is on the circle around `z` with radius `r`. -/
def OnCircle (z : ℝ × ℝ) (r : ℝ) (p : ℝ × ℝ) : Prop := 0 ≤ r ∧ sqDist p z = r ^ 2

/-- The point of the circle around `z` in direction `θ` (radians, counter-clockwise from the x-axis). -/
noncomputable def polar (z : ℝ × ℝ) (r θ : ℝ) : ℝ × ℝ := (z.1 + r * Real.cos θ, z.2 + r * Real.sin θ)

/-- Going clockwise around the circle from `a`, one meets `b` and then `c` before being back at `a`. -/
def MetClockwise (z : ℝ × ℝ) (r : ℝ) (a b c : ℝ × ℝ) : Prop :=
  ∃ θ u v : ℝ, 0 < u ∧ u < v ∧ v < 2 * Real.pi ∧ a = polar z r θ ∧ b = polar z r (θ - u) ∧ c = polar z r (θ - v)

/-- At `x` the parabola of `p` is strictly below the one of `q`. -/
def LowerAt (p q : ℝ × ℝ) (l x : ℝ) : Prop := ∀ y y', OnParabola p l (x, y) → OnParabola q l (x, y') → y < y'

end Foronoi
