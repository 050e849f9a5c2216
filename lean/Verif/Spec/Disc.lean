import Verif.Spec.Voronoi

/-!
# Segments and a disc

Stated without reference to the model.
-/

namespace Foronoi

/-- The segment from `p` to `q` has a point on the circle. -/
def MeetsCircle (c : ℝ × ℝ) (r : ℝ) (p q : ℝ × ℝ) : Prop := ∃ w, Between p q w ∧ sqDist c w = r ^ 2

/-- `w` is the first point of the circle on the way from `p` to `q`. -/
def FirstOn (c : ℝ × ℝ) (r : ℝ) (p q w : ℝ × ℝ) : Prop :=
  Between p q w ∧ sqDist c w = r ^ 2 ∧ ∀ w', Between p q w' → sqDist c w' = r ^ 2 → sqDist p w ≤ sqDist p w'

/-- Where a segment from `p` to `q` starts after clipping it to a disc: `p` if this is inside or the segment does not meet the circle, else the first point of the
circle. -/
def ClippedStart (c : ℝ × ℝ) (r : ℝ) (p q z : ℝ × ℝ) : Prop :=
  sqDist c p < r ^ 2 ∧ z = p ∨ r ^ 2 ≤ sqDist c p ∧ FirstOn c r p q z ∨ r ^ 2 ≤ sqDist c p ∧ ¬ MeetsCircle c r p q ∧ z = p

end Foronoi
