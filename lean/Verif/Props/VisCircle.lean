import Verif.Model.VisCircle
import Verif.Model.Real
import Verif.Spec.Voronoi
import Mathlib.Tactic.Linarith
import Mathlib.Tactic.NormNum

/-!
# C113: a bounding circle is drawn around the wrong point
-/

namespace Foronoi

/-- A point of a drawn circle. -/
def OnDrawnCircle (ds : List (Draw ℝ)) (z : ℝ × ℝ) : Prop := ∃ c r col, Draw.circle c r col ∈ ds ∧ sqDist c z = r ^ 2

/-- A point that can be seen. -/
def InWindow (cv : Canvas ℝ) (z : ℝ × ℝ) : Prop := cv.minX ≤ z.1 ∧ z.1 ≤ cv.maxX ∧ cv.minY ≤ z.2 ∧ z.2 ≤ cv.maxY

theorem circle_coords {c z : ℝ × ℝ} {r : ℝ} (hr : 0 < r) (h : sqDist c z = r ^ 2) : |z.1 - c.1| ≤ r ∧ |z.2 - c.2| ≤ r := by
  unfold sqDist at h
  constructor
  · exact abs_le_of_sq_le_sq (by nlinarith [sq_nonneg (c.2 - z.2)]) hr.le
  · exact abs_le_of_sq_le_sq (by nlinarith [sq_nonneg (c.1 - z.1)]) hr.le

/-- C113: the circle drawn by `plot_polygon` is the border of the bounding circle exactly if the x and the y of its centre are equal.  The whole
border of the bounding circle is in the window, but if x and y of the centre are far from each other nothing of the drawn circle is. -/
theorem C113_circle_drawn (k : BCirc ℝ) {offset : ℝ} (hr : 0 < k.radius) (ho : 0 ≤ offset) :
    ((∀ z, OnDrawnCircle (plotPolygonC k) z ↔ sqDist k.center z = k.radius ^ 2) ↔ k.center.1 = k.center.2) ∧
    (∀ z, sqDist k.center z = k.radius ^ 2 → InWindow (canvasSize k.poly offset) z) ∧
    (3 * k.radius + offset < |k.center.2 - k.center.1| → ∀ z, OnDrawnCircle (plotPolygonC k) z → ¬ InWindow (canvasSize k.poly offset) z) := by
  have hd : ∀ z, OnDrawnCircle (plotPolygonC k) z ↔ sqDist (k.center.1, k.center.1) z = k.radius ^ 2 := by
    intro z
    unfold OnDrawnCircle plotPolygonC
    constructor
    · rintro ⟨c, r, col, h1, h2⟩
      simp only [List.mem_singleton, Draw.circle.injEq] at h1
      obtain ⟨rfl, rfl, rfl⟩ := h1
      exact h2
    · exact fun h => ⟨_, _, _, List.mem_singleton.mpr rfl, h⟩
  have e1 : (canvasSize k.poly offset).minX = k.center.1 - 2 * k.radius - offset := by simp [canvasSize, BCirc.poly, Arith.sub, Arith.mul, lit, Arith.ofInt]
  have e2 : (canvasSize k.poly offset).maxX = k.center.1 + 2 * k.radius + offset := by simp [canvasSize, BCirc.poly, Arith.add, Arith.mul, lit, Arith.ofInt]
  have e3 : (canvasSize k.poly offset).minY = k.center.2 - 2 * k.radius - offset := by simp [canvasSize, BCirc.poly, Arith.sub, Arith.mul, lit, Arith.ofInt]
  have e4 : (canvasSize k.poly offset).maxY = k.center.2 + 2 * k.radius + offset := by simp [canvasSize, BCirc.poly, Arith.add, Arith.mul, lit, Arith.ofInt]
  refine ⟨⟨fun h => ?_, fun h z => ?_⟩, fun z hz => ?_, fun hfar z hz hw => ?_⟩
  · have h1 := (h (k.center.1, k.center.1 + k.radius)).mp ((hd _).mpr (by unfold sqDist; simp))
    have h2 := (h (k.center.1, k.center.1 - k.radius)).mp ((hd _).mpr (by unfold sqDist; simp))
    unfold sqDist at h1 h2
    simp only [sub_self] at h1 h2
    have : (k.center.2 - k.center.1) * k.radius = 0 := by linarith
    rcases mul_eq_zero.mp this with h | h
    · linarith
    · exact absurd h hr.ne'
  · rw [hd]
    have : (k.center.1, k.center.1) = k.center := Prod.ext rfl h
    rw [this]
  · obtain ⟨h1, h2⟩ := circle_coords hr hz
    rw [abs_le] at h1 h2
    unfold InWindow
    rw [e1, e2, e3, e4]
    refine ⟨?_, ?_, ?_, ?_⟩ <;> linarith
  · obtain ⟨_, h2⟩ := circle_coords hr ((hd z).mp hz)
    rw [abs_le] at h2
    obtain ⟨_, _, w1, w2⟩ := hw
    rw [e3] at w1
    rw [e4] at w2
    simp only at h2
    rcases lt_abs.mp hfar with h | h <;> linarith

/-- The cases occur. -/
example : 3 * (BCirc.mk ((0 : ℝ), (10 : ℝ)) 1).radius + 1 < |(BCirc.mk ((0 : ℝ), (10 : ℝ)) 1).center.2 - (BCirc.mk ((0 : ℝ), (10 : ℝ)) 1).center.1| ∧
    OnDrawnCircle (plotPolygonC (BCirc.mk ((0 : ℝ), (10 : ℝ)) 1)) (1, 0) ∧ sqDist (BCirc.mk ((0 : ℝ), (10 : ℝ)) 1).center (1, 0) ≠ 1 := by
  refine ⟨by norm_num, ⟨(0, 0), 1, .boundingBox, List.mem_singleton.mpr rfl, by norm_num [sqDist]⟩, by norm_num [sqDist]⟩

end Foronoi
