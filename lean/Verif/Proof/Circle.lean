import Verif.Model.Real
import Mathlib.Tactic.FieldSimp
import Mathlib.Tactic.Positivity
import Mathlib.Analysis.SpecialFunctions.Trigonometric.Basic

/-!
# Circles through three points, over the reals
-/

namespace Foronoi

abbrev Pt := ℝ × ℝ

/-- Twice the signed area of the triangle `a b c`; negative if it is clockwise. -/
def det (a b c : Pt) : ℝ := (b.1 - a.1) * (c.2 - a.2) - (b.2 - a.2) * (c.1 - a.1)

/-- Squared distance. -/
def dsq (p q : Pt) : ℝ := (p.1 - q.1) ^ 2 + (p.2 - q.2) ^ 2

section unfoldR
variable (a b : ℝ)
theorem rI (n : Int) : (Arith.ofInt n : ℝ) = (n : ℝ) := rfl
theorem rAdd : Arith.add a b = a + b := rfl
theorem rSub : Arith.sub a b = a - b := rfl
theorem rMul : Arith.mul a b = a * b := rfl
theorem rNeg : Arith.neg a = -a := rfl
theorem rSq : Arith.sq a = a * a := rfl
theorem rDiv (h : b ≠ 0) : Arith.div a b = some (a / b) := by simp [Arith.div, h]
theorem rSqrt (h : 0 ≤ a) : Arith.sqrt a = some (Real.sqrt a) := by simp [Arith.sqrt, not_lt.mpr h]
theorem rFadd : Arith.fadd a b = a + b := rfl
theorem rFsub : Arith.fsub a b = a - b := rfl
theorem rFmul : Arith.fmul a b = a * b := rfl
theorem rFdiv : Arith.fdiv a b = a / b := rfl
theorem rFsqrt : Arith.fsqrt a = Real.sqrt a := rfl
theorem rToF : Arith.toF a = a := rfl
theorem rOfF : Arith.ofF a = a := rfl
end unfoldR

theorem circleG_real (a b c : Pt) : circleG a b c = 2 * det a b c := by
  simp only [circleG, rMul, rSub, lit, rI, det]; push_cast; ring

/-- The centre computed by `create_circle`. -/
noncomputable def ccx (a b c : Pt) : ℝ :=
  ((c.2 - a.2) * ((b.1 - a.1) * (a.1 + b.1) + (b.2 - a.2) * (a.2 + b.2)) -
    (b.2 - a.2) * ((c.1 - a.1) * (a.1 + c.1) + (c.2 - a.2) * (a.2 + c.2))) / (2 * det a b c)

noncomputable def ccy (a b c : Pt) : ℝ :=
  ((b.1 - a.1) * ((c.1 - a.1) * (a.1 + c.1) + (c.2 - a.2) * (a.2 + c.2)) -
    (c.1 - a.1) * ((b.1 - a.1) * (a.1 + b.1) + (b.2 - a.2) * (a.2 + b.2))) / (2 * det a b c)

theorem createCircle_real (a b c : Pt) : createCircle a b c =
    if det a b c = 0 then some none
    else some (some ⟨ccx a b c, ccy a b c, Real.sqrt (dsq a (ccx a b c, ccy a b c))⟩) := by
  unfold createCircle
  simp only [circleG_real, lit, rI, Int.cast_zero, mul_eq_zero, OfNat.ofNat_ne_zero, false_or]
  split
  · rfl
  · rename_i h
    have h2 : 2 * det a b c ≠ 0 := by simpa using h
    simp only [rMul, rSub, rAdd, rSq, rDiv _ _ h2, Option.bind_eq_bind, Option.bind_some]
    have e1 : (a.1 - ccx a b c) * (a.1 - ccx a b c) + (a.2 - ccy a b c) * (a.2 - ccy a b c) = dsq a (ccx a b c, ccy a b c) := by
      simp [dsq]; ring
    have e2 : 0 ≤ dsq a (ccx a b c, ccy a b c) := by unfold dsq; positivity
    have := rSqrt _ e2
    rw [← e1] at this
    simp only [ccx, ccy] at *
    rw [this, e1]
    rfl

theorem dsq_center (a b c : Pt) (h : det a b c ≠ 0) :
    dsq b (ccx a b c, ccy a b c) = dsq a (ccx a b c, ccy a b c) ∧ dsq c (ccx a b c, ccy a b c) = dsq a (ccx a b c, ccy a b c) := by
  simp only [dsq, ccx, ccy]
  constructor
  · field_simp
    unfold det
    ring
  · field_simp
    unfold det
    ring

/-- Two circles through three points that are not collinear have the same centre. -/
theorem center_unique {a b c z w : Pt} (h : det a b c ≠ 0) (h1 : dsq b z = dsq a z) (h2 : dsq c z = dsq a z)
    (h3 : dsq b w = dsq a w) (h4 : dsq c w = dsq a w) : z = w := by
  simp only [dsq] at *
  have e1 : (b.1 - a.1) * (z.1 - w.1) + (b.2 - a.2) * (z.2 - w.2) = 0 := by nlinarith
  have e2 : (c.1 - a.1) * (z.1 - w.1) + (c.2 - a.2) * (z.2 - w.2) = 0 := by nlinarith
  have f1 : det a b c * (z.1 - w.1) = 0 := by
    unfold det; linear_combination (c.2 - a.2) * e1 - (b.2 - a.2) * e2
  have f2 : det a b c * (z.2 - w.2) = 0 := by
    unfold det; linear_combination (b.1 - a.1) * e2 - (c.1 - a.1) * e1
  have g1 := (mul_eq_zero.mp f1).resolve_left h
  have g2 := (mul_eq_zero.mp f2).resolve_left h
  exact Prod.ext (by linarith) (by linarith)

/-! ### clockwise -/

/-- The angle in radians that `calcAngle` computes in degrees. -/
theorem angleR_spec (dy dx r : ℝ) (hr : 0 < r) (h : dx ^ 2 + dy ^ 2 = r ^ 2) :
    dx = r * Real.cos (angleR dy dx * Real.pi / 180) ∧ dy = r * Real.sin (angleR dy dx * Real.pi / 180) := by
  have hpi := Real.pi_ne_zero
  have e : angleR dy dx * Real.pi / 180 =
      Complex.arg ⟨dx, dy⟩ - (⌊Complex.arg ⟨dx, dy⟩ * 180 / Real.pi / 360⌋ : ℤ) * (2 * Real.pi) := by
    simp only [angleR]; field_simp; ring
  have hn : ‖(⟨dx, dy⟩ : ℂ)‖ = r := by
    rw [Complex.norm_eq_sqrt_sq_add_sq]
    simp only
    rw [h, Real.sqrt_sq hr.le]
  have h0 : (⟨dx, dy⟩ : ℂ) ≠ 0 := by
    intro hh; rw [hh, norm_zero] at hn; linarith
  rw [e, Real.cos_sub_int_mul_two_pi, Real.sin_sub_int_mul_two_pi, Complex.cos_arg h0, Complex.sin_arg, hn]
  constructor <;> field_simp

theorem fmod_spec (x : ℝ) : 0 ≤ Arith.fmod360 x ∧ Arith.fmod360 x < 360 ∧ ∃ k : ℤ, Arith.fmod360 x = x - 360 * k := by
  have h1 := Int.floor_le (x / 360)
  have h2 := Int.lt_floor_add_one (x / 360)
  refine ⟨?_, ?_, ⌊x / 360⌋, rfl⟩
  · show 0 ≤ x - 360 * (⌊x / 360⌋ : ℝ); linarith
  · show x - 360 * (⌊x / 360⌋ : ℝ) < 360; linarith

theorem sin_sum (A B : ℝ) : Real.sin (A - B) + Real.sin B - Real.sin A =
    4 * Real.sin ((A - B) / 2) * Real.sin (A / 2) * Real.sin (B / 2) := by
  have e1 : Real.sin (A - B) = 2 * Real.sin ((A - B) / 2) * Real.cos ((A - B) / 2) := by
    rw [← Real.sin_two_mul]; congr 1; ring
  have e2 : Real.sin B = 2 * Real.sin (B / 2) * Real.cos (B / 2) := by rw [← Real.sin_two_mul]; congr 1; ring
  have e3 : Real.sin A = 2 * Real.sin (A / 2) * Real.cos (A / 2) := by rw [← Real.sin_two_mul]; congr 1; ring
  have e4 : (A - B) / 2 = A / 2 - B / 2 := by ring
  have c1 := Real.sin_sq_add_cos_sq (A / 2)
  have c2 := Real.sin_sq_add_cos_sq (B / 2)
  rw [e1, e2, e3, e4, Real.sin_sub, Real.cos_sub]
  generalize Real.sin (A / 2) = s at *
  generalize Real.cos (A / 2) = c at *
  generalize Real.sin (B / 2) = t at *
  generalize Real.cos (B / 2) = d at *
  linear_combination (-2 * t * d) * c1 + (2 * s * c) * c2

theorem sin_prod_sign {r u v d : ℝ} (hr : 0 < r) (p1 : 0 ≤ u) (p2 : u < 360) (q1 : 0 ≤ v) (q2 : v < 360)
    (key : d = r ^ 2 * (4 * Real.sin ((u - v) * Real.pi / 360) * Real.sin (u * Real.pi / 360) * Real.sin (v * Real.pi / 360)))
    (hd : d ≠ 0) : u ≤ v ↔ d < 0 := by
  have hpi := Real.pi_pos
  have hb : ∀ w : ℝ, w ≤ 360 → w * Real.pi / 360 ≤ Real.pi := fun w hw => by
    rw [div_le_iff₀ (by norm_num)]; nlinarith
  have hs1 : 0 ≤ Real.sin (u * Real.pi / 360) := Real.sin_nonneg_of_nonneg_of_le_pi (by positivity) (hb u p2.le)
  have hs2 : 0 ≤ Real.sin (v * Real.pi / 360) := Real.sin_nonneg_of_nonneg_of_le_pi (by positivity) (hb v q2.le)
  constructor
  · intro huv
    have h3 : 0 ≤ Real.sin ((v - u) * Real.pi / 360) :=
      Real.sin_nonneg_of_nonneg_of_le_pi (by have := sub_nonneg.mpr huv; positivity) (hb _ (by linarith))
    have e : (u - v) * Real.pi / 360 = -((v - u) * Real.pi / 360) := by ring
    rw [e, Real.sin_neg] at key
    have : 0 ≤ r ^ 2 * (4 * Real.sin ((v - u) * Real.pi / 360) * Real.sin (u * Real.pi / 360) * Real.sin (v * Real.pi / 360)) := by
      positivity
    exact lt_of_le_of_ne (by linarith) hd
  · intro hlt
    by_contra hcon
    push Not at hcon
    have h3 : 0 ≤ Real.sin ((u - v) * Real.pi / 360) :=
      Real.sin_nonneg_of_nonneg_of_le_pi (by have := sub_nonneg.mpr hcon.le; positivity) (hb _ (by linarith))
    have : 0 ≤ d := by rw [key]; positivity
    linarith

/-- `check_clockwise` decides the orientation of three points on a circle around `z`. -/
theorem checkClockwise_real {a b c z : Pt} {r : ℝ} (hr : 0 < r) (ha : dsq a z = r ^ 2) (hb : dsq b z = r ^ 2) (hc : dsq c z = r ^ 2)
    (hd : det a b c ≠ 0) : checkClockwise a b c z = true ↔ det a b c < 0 := by
  have hpi := Real.pi_pos
  obtain ⟨xa, ya⟩ := angleR_spec (a.2 - z.2) (a.1 - z.1) r hr (by simpa [dsq] using ha)
  obtain ⟨xb, yb⟩ := angleR_spec (b.2 - z.2) (b.1 - z.1) r hr (by simpa [dsq] using hb)
  obtain ⟨xc, yc⟩ := angleR_spec (c.2 - z.2) (c.1 - z.1) r hr (by simpa [dsq] using hc)
  set α := calcAngle a z with hα
  set β := calcAngle b z with hβ
  set γ := calcAngle c z with hγ
  have hα' : angleR (a.2 - z.2) (a.1 - z.1) = α := rfl
  have hβ' : angleR (b.2 - z.2) (b.1 - z.1) = β := rfl
  have hγ' : angleR (c.2 - z.2) (c.1 - z.1) = γ := rfl
  rw [hα'] at xa ya
  rw [hβ'] at xb yb
  rw [hγ'] at xc yc
  obtain ⟨p1, p2, k, hk⟩ := fmod_spec (γ - α)
  obtain ⟨q1, q2, m, hm⟩ := fmod_spec (γ - β)
  set u := Arith.fmod360 (γ - α) with hu
  set v := Arith.fmod360 (γ - β) with hv
  have key : det a b c = r ^ 2 * (4 * Real.sin ((u - v) * Real.pi / 360) * Real.sin (u * Real.pi / 360) *
      Real.sin (v * Real.pi / 360)) := by
    have e := sin_sum (u * Real.pi / 180) (v * Real.pi / 180)
    have g1 : (u * Real.pi / 180 - v * Real.pi / 180) / 2 = (u - v) * Real.pi / 360 := by ring
    have g2 : u * Real.pi / 180 / 2 = u * Real.pi / 360 := by ring
    have g3 : v * Real.pi / 180 / 2 = v * Real.pi / 360 := by ring
    rw [g1, g2, g3] at e
    rw [← e]
    have s1 : Real.sin (u * Real.pi / 180) = Real.sin (γ * Real.pi / 180 - α * Real.pi / 180) := by
      have : u * Real.pi / 180 = (γ * Real.pi / 180 - α * Real.pi / 180) - k * (2 * Real.pi) := by rw [hk]; ring
      rw [this, Real.sin_sub_int_mul_two_pi]
    have s2 : Real.sin (v * Real.pi / 180) = Real.sin (γ * Real.pi / 180 - β * Real.pi / 180) := by
      have : v * Real.pi / 180 = (γ * Real.pi / 180 - β * Real.pi / 180) - m * (2 * Real.pi) := by rw [hm]; ring
      rw [this, Real.sin_sub_int_mul_two_pi]
    have s3 : Real.sin (u * Real.pi / 180 - v * Real.pi / 180) = Real.sin (β * Real.pi / 180 - α * Real.pi / 180) := by
      have : u * Real.pi / 180 - v * Real.pi / 180 =
          (β * Real.pi / 180 - α * Real.pi / 180) - ((k - m : ℤ) : ℝ) * (2 * Real.pi) := by rw [hk, hm]; push_cast; ring
      rw [this, Real.sin_sub_int_mul_two_pi]
    rw [s1, s2, s3, Real.sin_sub, Real.sin_sub, Real.sin_sub]
    have d1 : det a b c = ((b.1 - z.1) - (a.1 - z.1)) * ((c.2 - z.2) - (a.2 - z.2)) -
        ((b.2 - z.2) - (a.2 - z.2)) * ((c.1 - z.1) - (a.1 - z.1)) := by unfold det; ring
    rw [d1, xa, ya, xb, yb, xc, yc]
    ring
  have hcw : checkClockwise a b c z = true ↔ u ≤ v := by
    simp only [checkClockwise, ← hα, ← hβ, ← hγ, rFsub, ← hu, ← hv, Bool.not_eq_true', decide_eq_false_iff_not, gt_iff_lt, not_lt]
  rw [hcw]
  exact sin_prod_sign hr p1 p2 q1 q2 key hd

end Foronoi
