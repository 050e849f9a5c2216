import Verif.Model.Decimal
import Verif.Spec.Rounding
import Mathlib.Analysis.Real.Sqrt

/-!
# Rounding
-/

namespace Foronoi

/-! ### rounding to an integer -/

theorem roundEven_cases (x : ℚ) : ∃ f : ℤ, (f : ℚ) ≤ x ∧ x < f + 1 ∧
    ((x - f < 1 / 2 ∧ roundEven x = f) ∨ (1 / 2 < x - f ∧ roundEven x = f + 1) ∨ (x - f = 1 / 2 ∧ f % 2 = 0 ∧ roundEven x = f) ∨
      (x - f = 1 / 2 ∧ f % 2 = 1 ∧ roundEven x = f + 1)) := by
  refine ⟨⌊x⌋, Int.floor_le x, Int.lt_floor_add_one x, ?_⟩
  unfold roundEven
  simp only
  split_ifs with h1 h2 h3
  · exact Or.inl ⟨h1, rfl⟩
  · exact Or.inr (Or.inl ⟨h2, rfl⟩)
  · exact Or.inr (Or.inr (Or.inl ⟨le_antisymm (not_lt.mp h2) (not_lt.mp h1), h3, rfl⟩))
  · exact Or.inr (Or.inr (Or.inr ⟨le_antisymm (not_lt.mp h2) (not_lt.mp h1), by omega, rfl⟩))

theorem roundEven_err (x : ℚ) : |(roundEven x : ℚ) - x| ≤ 1 / 2 := by
  obtain ⟨f, h1, h2, h⟩ := roundEven_cases x
  rw [abs_le]
  rcases h with ⟨h, e⟩ | ⟨h, e⟩ | ⟨h, _, e⟩ | ⟨h, _, e⟩ <;> rw [e] <;> push_cast <;> constructor <;> linarith

/-- A tie is rounded to the even number. -/
theorem roundEven_tie {x : ℚ} (h : |(roundEven x : ℚ) - x| = 1 / 2) : roundEven x % 2 = 0 := by
  obtain ⟨f, h1, h2, h'⟩ := roundEven_cases x
  rcases h' with ⟨k, e⟩ | ⟨k, e⟩ | ⟨k, m, e⟩ | ⟨k, m, e⟩
  · rw [e, abs_sub_comm, abs_of_nonneg (by linarith)] at h
    linarith
  · rw [e, abs_of_nonneg (by push_cast; linarith)] at h
    push_cast at h
    linarith
  · rw [e]; exact m
  · rw [e]; omega

/-- No integer is nearer. -/
theorem roundEven_near (x : ℚ) (m : ℤ) : |(roundEven x : ℚ) - x| ≤ |(m : ℚ) - x| := by
  by_contra h
  rw [not_le] at h
  have h1 := roundEven_err x
  have h2 : |((roundEven x - m : ℤ) : ℚ)| < 1 := by
    push_cast
    calc |(roundEven x : ℚ) - m| = |((roundEven x : ℚ) - x) - (m - x)| := by ring_nf
      _ ≤ |(roundEven x : ℚ) - x| + |(m : ℚ) - x| := abs_sub _ _
      _ < 1 := by linarith
  have h3 : |roundEven x - m| < 1 := by exact_mod_cast h2
  have h4 : roundEven x = m := by
    have := Int.abs_lt_one_iff.mp h3
    omega
  rw [h4] at h
  exact lt_irrefl _ h

theorem roundEven_eq {x : ℚ} {m : ℤ} (h : |(m : ℚ) - x| < 1 / 2) : roundEven x = m := by
  have h1 := roundEven_near x m
  have h2 : |((roundEven x - m : ℤ) : ℚ)| < 1 := by
    push_cast
    calc |(roundEven x : ℚ) - m| = |((roundEven x : ℚ) - x) - (m - x)| := by ring_nf
      _ ≤ |(roundEven x : ℚ) - x| + |(m : ℚ) - x| := abs_sub _ _
      _ < 1 := by linarith
  have h3 : |roundEven x - m| < 1 := by exact_mod_cast h2
  have := Int.abs_lt_one_iff.mp h3
  omega

theorem roundEven_int (m : ℤ) : roundEven (m : ℚ) = m := roundEven_eq (by simp)

theorem roundEven_neg (x : ℚ) : roundEven (-x) = - roundEven x := by
  by_cases h : |(roundEven x : ℚ) - x| < 1 / 2
  · refine roundEven_eq ?_
    push_cast
    rw [show -(roundEven x : ℚ) - -x = -((roundEven x : ℚ) - x) by ring, abs_neg]
    exact h
  · have h1 : |(roundEven x : ℚ) - x| = 1 / 2 := le_antisymm (roundEven_err x) (not_lt.mp h)
    have h2 : |(roundEven (-x) : ℚ) - -x| = 1 / 2 := by
      refine le_antisymm (roundEven_err _) ?_
      by_contra hh
      rw [not_le] at hh
      have := roundEven_near x (-roundEven (-x))
      rw [h1] at this
      push_cast at this
      rw [show -(roundEven (-x) : ℚ) - x = -((roundEven (-x) : ℚ) - -x) by ring, abs_neg] at this
      linarith
    have e1 := roundEven_tie h1
    have e2 := roundEven_tie h2
    have h3 : |((roundEven x + roundEven (-x) : ℤ) : ℚ)| ≤ 1 := by
      push_cast
      calc |(roundEven x : ℚ) + roundEven (-x)| = |((roundEven x : ℚ) - x) + (roundEven (-x) - -x)| := by ring_nf
        _ ≤ |(roundEven x : ℚ) - x| + |(roundEven (-x) : ℚ) - -x| := abs_add_le _ _
        _ = 1 := by rw [h1, h2]; norm_num
    have h4 : |roundEven x + roundEven (-x)| ≤ 1 := by exact_mod_cast h3
    rw [abs_le] at h4
    omega

/-! ### rounding to digits -/

variable {b p : Nat} {x : ℚ}

theorem ulp_pos (hb : 1 < b) : 0 < ulp b p x := zpow_pos (by exact_mod_cast Nat.zero_lt_of_lt hb) _

theorem ulp_neg : ulp b p (-x) = ulp b p x := by unfold ulp; rw [abs_neg]

theorem rnd_neg : rnd b p (-x) = - rnd b p x := by
  unfold rnd
  rw [ulp_neg, neg_div, roundEven_neg]
  push_cast
  ring

theorem rnd_zero : rnd b p 0 = 0 := by
  unfold rnd
  rw [zero_div, show ((0 : ℚ) = ((0 : ℤ) : ℚ)) by simp, roundEven_int]
  simp

theorem rnd_err (hb : 1 < b) : |rnd b p x - x| ≤ ulp b p x / 2 := by
  have hu := ulp_pos (p := p) (x := x) hb
  have h := roundEven_err (x / ulp b p x)
  calc |rnd b p x - x| = |((roundEven (x / ulp b p x) : ℚ) - x / ulp b p x) * ulp b p x| := by
        unfold rnd; rw [sub_mul, div_mul_cancel₀ _ hu.ne']
    _ = |(roundEven (x / ulp b p x) : ℚ) - x / ulp b p x| * ulp b p x := by rw [abs_mul, abs_of_pos hu]
    _ ≤ 1 / 2 * ulp b p x := by gcongr
    _ = _ := by ring

/-- No multiple of the last unit is nearer. -/
theorem rnd_near_mul (hb : 1 < b) (m : ℤ) : |rnd b p x - x| ≤ |m * ulp b p x - x| := by
  have hu := ulp_pos (p := p) (x := x) hb
  have key : ∀ k : ℤ, |k * ulp b p x - x| = |(k : ℚ) - x / ulp b p x| * ulp b p x := by
    intro k
    rw [show k * ulp b p x - x = ((k : ℚ) - x / ulp b p x) * ulp b p x by rw [sub_mul, div_mul_cancel₀ _ hu.ne'], abs_mul, abs_of_pos hu]
  unfold rnd
  rw [key, key]
  exact mul_le_mul_of_nonneg_right (roundEven_near _ _) hu.le

theorem rnd_of_mul (hb : 1 < b) {m : ℤ} (h : x = m * ulp b p x) : rnd b p x = x := by
  have h1 := rnd_near_mul (p := p) (x := x) hb m
  rw [← h, sub_self, abs_zero] at h1
  exact sub_eq_zero.mp (abs_eq_zero.mp (le_antisymm h1 (abs_nonneg _)))

theorem log_bounds (hb : 1 < b) (hx : x ≠ 0) : (b : ℚ) ^ Int.log b |x| ≤ |x| ∧ |x| < (b : ℚ) ^ (Int.log b |x| + 1) :=
  ⟨Int.zpow_log_le_self hb (abs_pos.mpr hx), Int.lt_zpow_succ_log_self hb _⟩

/-- The smallest number with the same number of digits before the point is a multiple of the last unit. -/
theorem pow_log_mul (hb : 1 < b) (hp : 0 < p) : (b : ℚ) ^ Int.log b |x| = ((b ^ (p - 1) : ℕ) : ℤ) * ulp b p x := by
  have hb0 : (b : ℚ) ≠ 0 := by exact_mod_cast (Nat.zero_lt_of_lt hb).ne'
  unfold ulp
  push_cast
  rw [← zpow_natCast, ← zpow_add₀ hb0]
  congr 1
  omega

/-- A number with at most `p` digits that is not a multiple of the last unit of `x` is smaller than `x`. -/
theorem digits_cases (hb : 1 < b) (hx : x ≠ 0) {z : ℚ} {n e : ℤ} (hz : z = n * (b : ℚ) ^ e) (hn : |n| ≤ (b : ℤ) ^ p) :
    (∃ m : ℤ, z = m * ulp b p x) ∨ |z| ≤ (b : ℚ) ^ Int.log b |x| := by
  have hb0 : (b : ℚ) ≠ 0 := by exact_mod_cast (Nat.zero_lt_of_lt hb).ne'
  rcases le_or_gt (Int.log b |x| + 1 - p) e with h | h
  · left
    refine ⟨n * (b ^ (e - (Int.log b |x| + 1 - p)).toNat : ℕ), ?_⟩
    unfold ulp
    push_cast
    rw [hz, mul_assoc, ← zpow_natCast, ← zpow_add₀ hb0]
    congr 2
    omega
  · right
    rw [hz, abs_mul, abs_of_pos (zpow_pos (show (0 : ℚ) < b by exact_mod_cast Nat.zero_lt_of_lt hb) e)]
    have h1 : ((|n| : ℤ) : ℚ) ≤ (b : ℚ) ^ (p : ℤ) := by
      rw [zpow_natCast]; exact_mod_cast hn
    rw [← Int.cast_abs]
    calc ((|n| : ℤ) : ℚ) * (b : ℚ) ^ e ≤ (b : ℚ) ^ (p : ℤ) * (b : ℚ) ^ e := mul_le_mul_of_nonneg_right h1 (zpow_pos (show (0 : ℚ) < b by exact_mod_cast Nat.zero_lt_of_lt hb) e).le
      _ = (b : ℚ) ^ ((p : ℤ) + e) := by rw [zpow_add₀ hb0]
      _ ≤ (b : ℚ) ^ Int.log b |x| := zpow_le_zpow_right₀ (by exact_mod_cast hb.le) (by omega)

theorem digits_mul (hb : 1 < b) (hp : 0 < p) {n e : ℤ} (hz : x = n * (b : ℚ) ^ e) (hn : |n| ≤ (b : ℤ) ^ p) : ∃ m : ℤ, x = m * ulp b p x := by
  by_cases hx : x = 0
  · exact ⟨0, by simp [hx]⟩
  rcases digits_cases (p := p) hb hx hz hn with h | h
  · exact h
  · have h1 : |x| = (b : ℚ) ^ Int.log b |x| := le_antisymm h (log_bounds hb hx).1
    rw [pow_log_mul (p := p) hb hp] at h1
    rcases abs_cases x with ⟨h2, _⟩ | ⟨h2, _⟩
    · exact ⟨_, h2.symm.trans h1⟩
    · refine ⟨-((b ^ (p - 1) : ℕ) : ℤ), ?_⟩
      rw [Int.cast_neg, neg_mul, ← h1, h2, neg_neg]

/-- A number with at most `p` digits is not changed. -/
theorem rnd_exact (hb : 1 < b) (hp : 0 < p) {n e : ℤ} (hz : x = n * (b : ℚ) ^ e) (hn : |n| ≤ (b : ℤ) ^ p) : rnd b p x = x := by
  obtain ⟨m, hm⟩ := digits_mul (p := p) hb hp hz hn
  exact rnd_of_mul hb hm

/-- The rounded multiple of the unit has `p` digits, or is a power of the base. -/
theorem round_le (hb : 1 < b) : |roundEven (x / ulp b p x)| < (b : ℤ) ^ p ∨ ∃ m : ℤ, rnd b p x = m * (b : ℚ) ^ (Int.log b |x| + 1) ∧ |m| = 1 := by
  have hb0 : (b : ℚ) ≠ 0 := by exact_mod_cast (Nat.zero_lt_of_lt hb).ne'
  by_cases hx : x = 0
  · left
    rw [hx, zero_div, show ((0 : ℚ) = ((0 : ℤ) : ℚ)) by simp, roundEven_int, abs_zero]
    exact pow_pos (by exact_mod_cast Nat.zero_lt_of_lt hb) _
  have hu := ulp_pos (p := p) (x := x) hb
  have h1 : |x / ulp b p x| < (b : ℚ) ^ p := by
    rw [abs_div, abs_of_pos hu, div_lt_iff₀ hu]
    refine (log_bounds hb hx).2.trans_eq ?_
    unfold ulp
    rw [← zpow_natCast, ← zpow_add₀ hb0]
    congr 1
    omega
  have h2 := roundEven_err (x / ulp b p x)
  have h3 : |(roundEven (x / ulp b p x) : ℚ)| < (b : ℚ) ^ p + 1 := by
    calc |(roundEven (x / ulp b p x) : ℚ)| = |((roundEven (x / ulp b p x) : ℚ) - x / ulp b p x) + x / ulp b p x| := by ring_nf
      _ ≤ |(roundEven (x / ulp b p x) : ℚ) - x / ulp b p x| + |x / ulp b p x| := abs_add_le _ _
      _ < _ := by linarith
  have h4 : |roundEven (x / ulp b p x)| < (b : ℤ) ^ p + 1 := by exact_mod_cast h3
  rcases lt_or_eq_of_le (Int.lt_add_one_iff.mp h4) with h5 | h5
  · exact Or.inl h5
  · right
    have hbp : (b : ℚ) ^ p * ulp b p x = (b : ℚ) ^ (Int.log b |x| + 1) := by
      unfold ulp
      rw [← zpow_natCast, ← zpow_add₀ hb0]
      congr 1
      omega
    unfold rnd
    rcases abs_cases (roundEven (x / ulp b p x)) with ⟨h6, _⟩ | ⟨h6, _⟩
    · rw [h6] at h5
      exact ⟨1, by rw [h5, ← hbp]; push_cast; ring, by simp⟩
    · rw [h6] at h5
      refine ⟨-1, ?_, by simp⟩
      rw [show roundEven (x / ulp b p x) = -(b : ℤ) ^ p by omega, ← hbp]
      push_cast
      ring

/-- The result has at most `p` digits. -/
theorem rnd_digits (hb : 1 < b) (hp : 0 < p) : HasDigits b p (rnd b p x) := by
  rcases round_le (p := p) (x := x) hb with h5 | ⟨m, m1, m2⟩
  · exact ⟨_, _, rfl, h5⟩
  · exact ⟨m, _, m1, by rw [m2]; exact one_lt_pow₀ (by exact_mod_cast hb) hp.ne'⟩

theorem rnd_rounds (hb : 1 < b) (hp : 0 < p) (x : ℚ) : HasDigits b p (rnd b p x) ∧ (∀ z, HasDigits b p z → |rnd b p x - x| ≤ |z - x|) ∧
    ∀ z, HasDigits b p z → z ≠ rnd b p x → |z - x| = |rnd b p x - x| → ∃ n e : ℤ, rnd b p x = 2 * n * (b : ℚ) ^ e ∧ (b : ℤ) ^ (p - 1) ≤ |2 * n| ∧
      (Even b → 1 < p → |2 * n| < (b : ℤ) ^ p) := by
  have hu := ulp_pos (p := p) (x := x) hb
  have key : ∀ z, HasDigits b p z → (∃ m : ℤ, z = m * ulp b p x) ∨ |rnd b p x - x| < |z - x| ∨ x = 0 := by
    rintro z ⟨n, e, hz, hn⟩
    by_cases hx : x = 0
    · exact Or.inr (Or.inr hx)
    rcases digits_cases (p := p) hb hx hz hn.le with h | h
    · exact Or.inl h
    · have hlog := (log_bounds hb hx).1
      obtain ⟨σ, h1, h2⟩ : ∃ σ : ℤ, |σ * (b : ℚ) ^ Int.log b |x| - x| = |x| - (b : ℚ) ^ Int.log b |x| ∧ (|z| = (b : ℚ) ^ Int.log b |x| → z = σ * (b : ℚ) ^ Int.log b |x| ∨
          z = -(σ * (b : ℚ) ^ Int.log b |x|)) := by
        rcases abs_cases x with ⟨h3, h4⟩ | ⟨h3, h4⟩
        · refine ⟨1, ?_, fun hh => ?_⟩
          · rw [Int.cast_one, one_mul, abs_sub_comm, abs_of_nonneg (by rw [h3] at hlog ⊢; linarith)]
            rw [h3]
          · rw [Int.cast_one, one_mul]
            exact eq_or_eq_neg_of_abs_eq hh
        · refine ⟨-1, ?_, fun hh => ?_⟩
          · rw [Int.cast_neg, Int.cast_one, neg_mul, one_mul, abs_of_nonneg (by rw [h3] at hlog ⊢; linarith)]
            rw [h3]
            ring
          · rw [Int.cast_neg, Int.cast_one, neg_mul, one_mul, neg_neg]
            exact (eq_or_eq_neg_of_abs_eq hh).symm
      have hmul := pow_log_mul (p := p) (x := x) hb hp
      rcases lt_or_eq_of_le h with h3 | h3
      · right; left
        have h4 := rnd_near_mul (p := p) (x := x) hb (σ * ((b ^ (p - 1) : ℕ) : ℤ))
        rw [Int.cast_mul, mul_assoc, ← hmul, h1] at h4
        refine h4.trans_lt ?_
        calc |x| - (b : ℚ) ^ Int.log b |x| < |x| - |z| := by linarith
          _ ≤ |x - z| := abs_sub_abs_le_abs_sub _ _
          _ = |z - x| := abs_sub_comm _ _
      · left
        rcases h2 h3 with h4 | h4
        · exact ⟨σ * ((b ^ (p - 1) : ℕ) : ℤ), by rw [Int.cast_mul, mul_assoc, ← hmul, h4]⟩
        · exact ⟨-(σ * ((b ^ (p - 1) : ℕ) : ℤ)), by rw [Int.cast_neg, Int.cast_mul, neg_mul, mul_assoc, ← hmul, h4]⟩
  refine ⟨rnd_digits hb hp, fun z hz => ?_, fun z hz hne htie => ?_⟩
  · rcases key z hz with ⟨m, rfl⟩ | h | h
    · exact rnd_near_mul hb m
    · exact h.le
    · rw [h, rnd_zero, sub_self, abs_zero]
      exact abs_nonneg _
  · rcases key z hz with ⟨m, rfl⟩ | h | h
    · have hy : roundEven (x / ulp b p x) ≠ m := by
        intro hh
        exact hne (by unfold rnd; rw [hh])
      have hk : ∀ k : ℤ, |k * ulp b p x - x| = |(k : ℚ) - x / ulp b p x| * ulp b p x := by
        intro k
        rw [show k * ulp b p x - x = ((k : ℚ) - x / ulp b p x) * ulp b p x by rw [sub_mul, div_mul_cancel₀ _ hu.ne'], abs_mul, abs_of_pos hu]
      have htie' : |(m : ℚ) - x / ulp b p x| = |(roundEven (x / ulp b p x) : ℚ) - x / ulp b p x| := by
        unfold rnd at htie
        rw [hk, hk] at htie
        exact mul_right_cancel₀ hu.ne' htie
      have hhalf : |(roundEven (x / ulp b p x) : ℚ) - x / ulp b p x| = 1 / 2 := by
        refine le_antisymm (roundEven_err _) ?_
        by_contra hh
        rw [not_le] at hh
        exact hy (roundEven_eq (by rw [htie']; exact hh))
      have hev := roundEven_tie hhalf
      have hx : x ≠ 0 := by
        rintro rfl
        rw [zero_div, show ((0 : ℚ) = ((0 : ℤ) : ℚ)) by simp, roundEven_int] at hhalf
        norm_num at hhalf
      have hlow : (b : ℤ) ^ (p - 1) ≤ |roundEven (x / ulp b p x)| := by
        have h1 : ((b ^ (p - 1) : ℕ) : ℚ) ≤ |x / ulp b p x| := by
          rw [abs_div, abs_of_pos hu, le_div_iff₀ hu]
          have := pow_log_mul (p := p) (x := x) hb hp
          rw [Int.cast_natCast] at this
          rw [← this]
          exact (log_bounds hb hx).1
        have h2 : ((b ^ (p - 1) : ℕ) : ℚ) - 1 / 2 ≤ |(roundEven (x / ulp b p x) : ℚ)| := by
          have h3 : |x / ulp b p x| ≤ |(roundEven (x / ulp b p x) : ℚ)| + 1 / 2 := by
            calc |x / ulp b p x| = |(roundEven (x / ulp b p x) : ℚ) - ((roundEven (x / ulp b p x) : ℚ) - x / ulp b p x)| := by ring_nf
              _ ≤ |(roundEven (x / ulp b p x) : ℚ)| + |(roundEven (x / ulp b p x) : ℚ) - x / ulp b p x| := abs_sub _ _
              _ = _ := by rw [hhalf]
          linarith
        have h3 : ((b : ℤ) ^ (p - 1) : ℚ) < ((|roundEven (x / ulp b p x)| : ℤ) : ℚ) + 1 := by
          push_cast at h2 ⊢
          linarith
        have h4 : (b : ℤ) ^ (p - 1) < |roundEven (x / ulp b p x)| + 1 := by exact_mod_cast h3
        omega
      obtain ⟨k, hk2⟩ : ∃ k, roundEven (x / ulp b p x) = 2 * k := ⟨roundEven (x / ulp b p x) / 2, by omega⟩
      rcases round_le (p := p) (x := x) hb with h5 | ⟨m, h5, h6⟩
      · refine ⟨k, Int.log b |x| + 1 - p, ?_, hk2 ▸ hlow, fun _ _ => hk2 ▸ h5⟩
        unfold rnd
        rw [hk2]
        push_cast
        rfl
      · by_cases hev2 : Even b ∧ 1 < p
        · obtain ⟨⟨c, hc⟩, hp1⟩ := hev2
          have hbp : (2 * (m * c * b ^ (p - 2)) : ℤ) = m * b ^ (p - 1) := by
            obtain ⟨p', rfl⟩ : ∃ p', p = p' + 2 := ⟨p - 2, by omega⟩
            have : (b : ℤ) = 2 * c := by rw [hc]; push_cast; ring
            rw [show p' + 2 - 2 = p' by omega, show p' + 2 - 1 = p' + 1 by omega, pow_succ]
            nth_rewrite 3 [this]
            ring
          have hbpos : (0 : ℤ) < b := by exact_mod_cast Nat.zero_lt_of_lt hb
          have habs : |2 * (m * c * b ^ (p - 2) : ℤ)| = (b : ℤ) ^ (p - 1) := by
            rw [hbp, abs_mul, h6, one_mul, abs_of_pos (by positivity)]
          refine ⟨m * c * b ^ (p - 2), Int.log b |x| + 1 - (p - 1 : ℕ), ?_, habs.ge, fun _ _ => ?_⟩
          · have : (2 * ((m * c * b ^ (p - 2) : ℤ) : ℚ)) = m * (b : ℚ) ^ (p - 1) := by exact_mod_cast congrArg (fun i : ℤ => (i : ℚ)) hbp
            rw [this, h5, mul_assoc]
            congr 1
            rw [← zpow_natCast, ← zpow_add₀ (by exact_mod_cast (Nat.zero_lt_of_lt hb).ne')]
            congr 1
            omega
          · rw [habs]
            exact pow_lt_pow_right₀ (by exact_mod_cast hb) (by omega)
        · refine ⟨k, Int.log b |x| + 1 - p, ?_, hk2 ▸ hlow, fun h1 h2 => absurd ⟨h1, h2⟩ hev2⟩
          unfold rnd
          rw [hk2]
          push_cast
          rfl
    · exact absurd htie h.ne'
    · rw [h, rnd_zero, sub_self, abs_zero, sub_zero] at htie
      rw [abs_eq_zero] at htie
      exact absurd (by rw [h, rnd_zero]; exact htie) hne

/-- `rnd` rounds to the nearest number with `p` digits, at a tie to the even one. -/
theorem rnd_roundsTo (hb : Even b) (hb0 : b ≠ 0) (hp : 1 < p) (x : ℚ) : RoundsTo b p x (rnd b p x) := by
  have hb1 : 1 < b := by
    obtain ⟨c, rfl⟩ := hb
    omega
  obtain ⟨h1, h2, h3⟩ := rnd_rounds (p := p) hb1 (by omega) x
  refine ⟨h1, fun z hz => by exact_mod_cast h2 z hz, fun z hz hne he => ?_⟩
  obtain ⟨n, e, h4, h5, h6⟩ := h3 z hz hne (by exact_mod_cast he)
  exact ⟨n, e, h4, h5, h6 hb hp⟩

/-! ### the root -/

theorem HasDigits.scale {z : ℚ} (hb : 1 < b) (h : HasDigits b p z) (k : ℤ) : HasDigits b p (z * (b : ℚ) ^ k) := by
  obtain ⟨n, e, h1, h2⟩ := h
  have hb0 : (b : ℚ) ≠ 0 := by exact_mod_cast (by omega : b ≠ 0)
  exact ⟨n, e + k, by rw [h1, zpow_add₀ hb0]; ring, h2⟩

theorem RoundsTo.scale {x : ℝ} {y : ℚ} (hb : 1 < b) (h : RoundsTo b p x y) (k : ℤ) : RoundsTo b p (x * (b : ℝ) ^ k) (y * (b : ℚ) ^ k) := by
  have hb0 : (b : ℚ) ≠ 0 := by exact_mod_cast (by omega : b ≠ 0)
  have hpos : (0 : ℝ) < (b : ℝ) ^ k := zpow_pos (by exact_mod_cast (by omega : 0 < b)) _
  obtain ⟨h1, h2, h3⟩ := h
  have e0 : ∀ u : ℚ, |((u * (b : ℚ) ^ k : ℚ) : ℝ) - x * (b : ℝ) ^ k| = |(u : ℝ) - x| * (b : ℝ) ^ k := by
    intro u
    rw [← abs_of_pos hpos, ← abs_mul, abs_of_pos hpos]
    congr 1
    push_cast
    ring
  have e1 : ∀ z : ℚ, z = z * (b : ℚ) ^ (-k) * (b : ℚ) ^ k := fun z => by
    rw [mul_assoc, ← zpow_add₀ hb0, neg_add_cancel, zpow_zero, mul_one]
  refine ⟨h1.scale hb k, fun z hz => ?_, fun z hz hne he => ?_⟩
  · rw [e1 z, e0, e0]
    exact mul_le_mul_of_nonneg_right (h2 _ (hz.scale hb _)) hpos.le
  · obtain ⟨n, e, hn, hl⟩ := h3 _ (hz.scale hb (-k)) (fun hh => hne (by rw [e1 z, hh])) (by
      rw [e1 z, e0, e0] at he
      exact mul_right_cancel₀ hpos.ne' he)
    exact ⟨n, e + k, by rw [hn, zpow_add₀ hb0]; ring, hl⟩

theorem digits_large {z : ℚ} (hb : 1 < b) (h : HasDigits b p z) (hz : (b : ℚ) ^ (p + 1) ≤ z) : ∃ m : ℤ, z = m * b ^ 2 := by
  obtain ⟨n, e, rfl, hn⟩ := h
  have hb1 : (1 : ℚ) < b := by exact_mod_cast hb
  have hb0 : (b : ℚ) ≠ 0 := by positivity
  have hpos : (0 : ℚ) < (b : ℚ) ^ e := zpow_pos (by linarith) _
  have he : 2 ≤ e := by
    by_contra hlt
    have h1 : (b : ℚ) ^ e ≤ b := by
      calc (b : ℚ) ^ e ≤ (b : ℚ) ^ (1 : ℤ) := zpow_le_zpow_right₀ hb1.le (by omega)
        _ = b := zpow_one _
    have h2 : (n : ℚ) < (b : ℚ) ^ p := by exact_mod_cast (le_abs_self n).trans_lt hn
    have h4 : (0 : ℚ) < (b : ℚ) ^ p := by positivity
    have h3 : (n : ℚ) * (b : ℚ) ^ e < (b : ℚ) ^ p * b := by
      calc (n : ℚ) * (b : ℚ) ^ e < (b : ℚ) ^ p * (b : ℚ) ^ e := mul_lt_mul_of_pos_right h2 hpos
        _ ≤ _ := mul_le_mul_of_nonneg_left h1 h4.le
    rw [← pow_succ] at h3
    exact absurd hz (not_le.mpr h3)
  obtain ⟨k, rfl⟩ : ∃ k : ℕ, e = k + 2 := ⟨(e - 2).toNat, by omega⟩
  refine ⟨n * b ^ k, ?_⟩
  rw [zpow_add₀ hb0]
  push_cast
  rw [zpow_natCast, show (b : ℚ) ^ (2 : ℤ) = (b : ℚ) ^ (2 : ℕ) from zpow_ofNat _ 2]
  ring

/-- If `s` and `t` are the same integer, or strictly between the same two integers, and have `p + 2` digits before the point, they are rounded to the same
number. -/
theorem rounds_between {s : ℝ} {t w : ℚ} {r : ℤ} (hb : 1 < b) (hp : 0 < p) (he : Even b) (h1 : (b : ℤ) ^ (p + 1) ≤ r)
    (h2 : s = r ∧ t = r ∨ (r : ℝ) < s ∧ s < r + 1 ∧ (r : ℚ) < t ∧ t < r + 1) (hw : RoundsTo b p t w) : RoundsTo b p s w := by
  obtain ⟨w1, w2, w3⟩ := hw
  have w2 : ∀ z, HasDigits b p z → |w - t| ≤ |z - t| := fun z hz => by exact_mod_cast w2 z hz
  have w3 : ∀ z, HasDigits b p z → z ≠ w → |z - t| = |w - t| → ∃ n e : ℤ, w = 2 * n * (b : ℚ) ^ e ∧ (b : ℤ) ^ (p - 1) ≤ |2 * n| ∧ |2 * n| < (b : ℤ) ^ p :=
    fun z hz hne he => w3 z hz hne (by exact_mod_cast he)
  have hb0 : (b : ℚ) ≠ 0 := by exact_mod_cast (by omega : b ≠ 0)
  have h1q : (b : ℚ) ^ (p + 1) ≤ (r : ℚ) := by exact_mod_cast h1
  have h1r : (b : ℝ) ^ (p + 1) ≤ (r : ℝ) := by exact_mod_cast h1
  have hrt : (r : ℚ) ≤ t := by rcases h2 with ⟨_, h⟩ | ⟨_, _, h, _⟩ <;> linarith
  have hrs : (r : ℝ) ≤ s := by rcases h2 with ⟨h, _⟩ | ⟨h, _⟩ <;> linarith
  have hB : HasDigits b p ((b : ℚ) ^ (p + 1)) := ⟨1, p + 1, by rw [Int.cast_one, one_mul]; norm_cast, by rw [abs_one]; exact one_lt_pow₀ (by exact_mod_cast hb) hp.ne'⟩
  have hwl : (b : ℚ) ^ (p + 1) ≤ w := by
    have := w2 _ hB
    rw [abs_sub_comm ((b : ℚ) ^ (p + 1)), abs_of_nonneg (show 0 ≤ t - (b : ℚ) ^ (p + 1) by linarith)] at this
    have := (abs_le.mp this).1
    linarith
  have mid : ∀ z, HasDigits b p z → (b : ℚ) ^ (p + 1) ≤ z → ∃ c : ℤ, z + w = 2 * c := by
    intro z hz hzl
    obtain ⟨m, hm⟩ := digits_large hb hz hzl
    obtain ⟨m', hm'⟩ := digits_large hb w1 hwl
    obtain ⟨c, hc⟩ := he
    refine ⟨(m + m') * c * b, ?_⟩
    have : (b : ℚ) = 2 * c := by rw [hc]; push_cast; ring
    rw [hm, hm']
    push_cast
    rw [this]
    ring
  have near : ∀ z, HasDigits b p z → (b : ℚ) ^ (p + 1) ≤ z → |(w : ℝ) - s| ≤ |(z : ℝ) - s| ∧ (z ≠ w → |(z : ℝ) - s| = |(w : ℝ) - s| → |z - t| = |w - t|) := by
    intro z hz hzl
    obtain ⟨c, hc⟩ := mid z hz hzl
    have hcr : (z : ℝ) + w = 2 * c := by exact_mod_cast hc
    have h4 := w2 z hz
    have tie : z ≠ w → |(z : ℝ) - s| = |(w : ℝ) - s| → |z - t| = |w - t| := by
      intro hne htie
      have hsc : s = c := by
        rcases abs_eq_abs.mp htie with h | h
        · exact absurd (by exact_mod_cast (by linarith : (z : ℝ) = w)) hne
        · linarith
      rcases h2 with ⟨h5, h6⟩ | ⟨h5, h6, _⟩
      · have hrc : (r : ℚ) = c := by
          have : (r : ℝ) = c := by rw [← h5, hsc]
          exact_mod_cast this
        rw [h6, hrc, show (c : ℚ) = (z + w) / 2 by linarith, abs_eq_abs]
        right
        ring
      · rw [hsc] at h5 h6
        have h5 : r < c := by exact_mod_cast h5
        have h6 : c < r + 1 := by exact_mod_cast h6
        omega
    refine ⟨?_, tie⟩
    rcases lt_trichotomy z w with h | h | h
    · have h5 : (c : ℚ) ≤ t := by
        by_contra hlt
        push Not at hlt
        rw [abs_of_nonneg (show 0 ≤ w - t by linarith)] at h4
        rcases le_total z t with hh | hh
        · rw [abs_of_nonpos (by linarith)] at h4
          linarith
        · rw [abs_of_nonneg (by linarith)] at h4
          linarith
      have h6 : c ≤ r := by
        rcases h2 with ⟨_, h6⟩ | ⟨_, _, _, h6⟩
        · rw [h6] at h5
          exact_mod_cast h5
        · have : (c : ℚ) < r + 1 := by linarith
          have : c < r + 1 := by exact_mod_cast this
          omega
      have h7 : (c : ℝ) ≤ s := (show (c : ℝ) ≤ r by exact_mod_cast h6).trans hrs
      have h8 : (z : ℝ) < w := by exact_mod_cast h
      rw [abs_le]
      have h9 := neg_abs_le ((z : ℝ) - s)
      have h10 := le_abs_self ((z : ℝ) - s)
      constructor <;> linarith
    · rw [h]
    · have h5 : t ≤ (c : ℚ) := by
        by_contra hlt
        push Not at hlt
        rcases le_total z t with hh | hh
        · rw [abs_of_nonpos (by linarith), abs_of_nonpos (by linarith)] at h4
          linarith
        · rw [abs_of_nonneg (show 0 ≤ z - t by linarith)] at h4
          have := (abs_le.mp h4).1
          linarith
      have h7 : s ≤ (c : ℝ) := by
        rcases h2 with ⟨h6, h8⟩ | ⟨_, h6, h8, _⟩
        · rw [h8] at h5
          rw [h6]
          exact_mod_cast h5
        · have : (r : ℚ) < c := by linarith
          have : r < c := by exact_mod_cast this
          have : (r : ℝ) + 1 ≤ c := by exact_mod_cast this
          linarith
      have h8 : (w : ℝ) < z := by exact_mod_cast h
      have h9 := neg_abs_le ((z : ℝ) - s)
      have h10 := le_abs_self ((z : ℝ) - s)
      rw [abs_le]
      constructor <;> linarith
  have low : ∀ z : ℚ, z < (b : ℚ) ^ (p + 1) → |(w : ℝ) - s| < |(z : ℝ) - s| := by
    intro z hz
    have hzr : (z : ℝ) < (b : ℝ) ^ (p + 1) := by exact_mod_cast hz
    have := (near _ hB le_rfl).1
    push_cast at this
    rw [abs_of_nonpos (show (b : ℝ) ^ (p + 1) - s ≤ 0 by linarith)] at this
    rw [abs_of_nonpos (show (z : ℝ) - s ≤ 0 by linarith)]
    linarith
  refine ⟨w1, fun z hz => ?_, fun z hz hne htie => ?_⟩
  · rcases lt_or_ge z ((b : ℚ) ^ (p + 1)) with h | h
    · exact (low z h).le
    · exact (near z hz h).1
  · rcases lt_or_ge z ((b : ℚ) ^ (p + 1)) with h | h
    · exact absurd htie (low z h).ne'
    · exact w3 z hz hne ((near z hz h).2 hne htie)

theorem isqrt_spec : ∀ (f n : Nat), n < 4 ^ f → isqrt f n * isqrt f n ≤ n ∧ n < (isqrt f n + 1) * (isqrt f n + 1) := by
  intro f
  induction f with
  | zero => intro n h; simp only [isqrt]; omega
  | succ f ih =>
    intro n h
    rw [isqrt]
    by_cases h0 : n = 0
    · rw [if_pos h0, h0]; omega
    rw [if_neg h0]
    obtain ⟨h1, h2⟩ := ih (n / 4) (by rw [pow_succ] at h; omega)
    generalize isqrt f (n / 4) = r at h1 h2 ⊢
    simp only
    have h3 : 4 * (r * r) ≤ n := by omega
    have h4 : n < 4 * ((r + 1) * (r + 1)) := by omega
    split_ifs with hc
    · exact ⟨hc, by nlinarith⟩
    · exact ⟨by nlinarith, by omega⟩

/-- `rndSqrt` rounds the root correctly. -/
theorem rndSqrt_roundsTo (hb : 1 < b) (hp1 : 1 < p) (he : Even b) {x : ℚ} (hx : 0 ≤ x) : RoundsTo b p (Real.sqrt x) (rndSqrt b p x) := by
  have hp : 0 < p := by omega
  have hb1 : (1 : ℚ) < b := by exact_mod_cast hb
  have hb0 : (b : ℚ) ≠ 0 := by positivity
  rcases hx.eq_or_lt with rfl | hpos
  · have h := rnd_roundsTo he (by omega) hp1 (0 : ℚ)
    rw [rnd_zero] at h
    simpa [rndSqrt] using h
  unfold rndSqrt
  rw [if_neg hpos.not_ge]
  simp only
  obtain ⟨k, hk⟩ : ∃ k : ℤ, k = p + 1 - Int.log b x / 2 := ⟨_, rfl⟩
  rw [← hk]
  obtain ⟨y, hy⟩ : ∃ y, y = x * (b : ℚ) ^ (2 * k) := ⟨_, rfl⟩
  rw [← hy]
  have hy0 : (b : ℚ) ^ (2 * (p + 1)) ≤ y := by
    have h1 := Int.zpow_log_le_self hb hpos
    have h2 : (b : ℚ) ^ (2 * (p + 1)) ≤ (b : ℚ) ^ Int.log b x * (b : ℚ) ^ (2 * k) := by
      rw [← zpow_add₀ hb0, ← zpow_natCast]
      apply zpow_le_zpow_right₀ hb1.le
      rw [hk]
      push_cast
      omega
    rw [hy]
    exact h2.trans (mul_le_mul_of_nonneg_right h1 (zpow_pos (by linarith) _).le)
  have hyp : 0 < y := lt_of_lt_of_le (by positivity) hy0
  obtain ⟨m, hm⟩ : ∃ m, m = ⌊y⌋.toNat := ⟨_, rfl⟩
  rw [← hm]
  have hm1 : (m : ℚ) ≤ y ∧ y < m + 1 := by
    have h0 : (0 : ℤ) ≤ ⌊y⌋ := Int.floor_nonneg.mpr hyp.le
    have h1 : ((m : ℕ) : ℤ) = ⌊y⌋ := by rw [hm]; exact Int.toNat_of_nonneg h0
    have h2 : (m : ℚ) = (⌊y⌋ : ℚ) := by exact_mod_cast congrArg (fun i : ℤ => (i : ℚ)) h1
    rw [h2]
    exact ⟨Int.floor_le y, Int.lt_floor_add_one y⟩
  obtain ⟨r1, r2⟩ := isqrt_spec (m.log2 + 1) m (by
    calc m < 2 ^ (m.log2 + 1) := Nat.lt_log2_self
      _ ≤ 4 ^ (m.log2 + 1) := Nat.pow_le_pow_left (by norm_num) _)
  generalize isqrt (m.log2 + 1) m = r at r1 r2 ⊢
  have r3 : (r : ℚ) * r ≤ y := (show (r : ℚ) * r ≤ m by exact_mod_cast r1).trans hm1.1
  have r4 : y < ((r : ℚ) + 1) * (r + 1) := by
    have : (m : ℚ) + 1 ≤ (r + 1) * (r + 1) := by exact_mod_cast r2
    linarith [hm1.2]
  have hroot : Real.sqrt x = Real.sqrt y * (b : ℝ) ^ (-k) := by
    have hc : (0 : ℝ) ≤ (b : ℝ) ^ k := (zpow_pos (by exact_mod_cast (by omega : 0 < b)) _).le
    have hbr : (b : ℝ) ≠ 0 := by exact_mod_cast (by omega : b ≠ 0)
    rw [hy]
    push_cast
    rw [Real.sqrt_mul (by exact_mod_cast hpos.le), mul_comm (2 : ℤ) k, zpow_mul]
    rw [show (((b : ℝ) ^ k) ^ (2 : ℤ)) = ((b : ℝ) ^ k) ^ (2 : ℕ) from zpow_ofNat _ 2, Real.sqrt_sq hc, mul_assoc, ← zpow_add₀ hbr, add_neg_cancel, zpow_zero, mul_one]
  have hr1 : (b : ℤ) ^ (p + 1) ≤ r := by
    by_contra hlt
    push Not at hlt
    have h1 : (r : ℤ) + 1 ≤ (b : ℤ) ^ (p + 1) := hlt
    have h2 : ((r : ℚ) + 1) ≤ (b : ℚ) ^ (p + 1) := by exact_mod_cast h1
    have h3 : ((r : ℚ) + 1) * (r + 1) ≤ (b : ℚ) ^ (2 * (p + 1)) := by
      rw [two_mul, pow_add]
      exact mul_le_mul h2 h2 (by positivity) (by positivity)
    linarith
  have hsy : (0 : ℝ) ≤ Real.sqrt y := Real.sqrt_nonneg _
  have hsq : Real.sqrt y * Real.sqrt y = y := Real.mul_self_sqrt (by exact_mod_cast hyp.le)
  rw [hroot]
  have hw := (rnd_roundsTo he (by omega) hp1 ((if (r * r : ℚ) = y then (r : ℚ) else r + 1 / (b * b)) * (b : ℚ) ^ (-k))).scale hb k
  have e1 : ∀ u : ℝ, u * (b : ℝ) ^ (-k) * (b : ℝ) ^ k = u := fun u => by
    have hbr : (b : ℝ) ≠ 0 := by exact_mod_cast (by omega : b ≠ 0)
    rw [mul_assoc, ← zpow_add₀ hbr, neg_add_cancel, zpow_zero, mul_one]
  have e2 : ∀ u : ℚ, u * (b : ℚ) ^ k * (b : ℚ) ^ (-k) = u := fun u => by
    rw [mul_assoc, ← zpow_add₀ hb0, add_neg_cancel, zpow_zero, mul_one]
  rw [Rat.cast_mul, Rat.cast_zpow, Rat.cast_natCast, e1] at hw
  have hfin := (rounds_between (r := r) (s := Real.sqrt y) hb hp he hr1 ?_ hw).scale hb (-k)
  · rw [e2] at hfin
    exact hfin
  · have r3' : (r : ℝ) * r ≤ y := by exact_mod_cast r3
    have r4' : (y : ℝ) < ((r : ℝ) + 1) * (r + 1) := by exact_mod_cast r4
    split_ifs with hc
    · left
      refine ⟨?_, by norm_cast⟩
      have : (y : ℝ) = (r : ℝ) * r := by exact_mod_cast hc.symm
      rw [this, Real.sqrt_mul_self (by positivity)]
      norm_cast
    · right
      have hlt : (r : ℝ) * r < y := lt_of_le_of_ne r3' (by exact_mod_cast hc)
      have hr0 : (0 : ℝ) ≤ r := by positivity
      refine ⟨?_, ?_, ?_, ?_⟩
      · push_cast
        nlinarith
      · push_cast
        nlinarith
      · have : (0 : ℚ) < 1 / (b * b) := by positivity
        push_cast
        linarith
      · have : 1 / ((b : ℚ) * b) < 1 := by
          rw [div_lt_one (by positivity)]
          nlinarith
        push_cast
        linarith

/-! ### the laws -/

theorem Dec.val_add {p : Nat} (a b : Dec p) : (Arith.add a b).val = rnd 10 p (a.val + b.val) := rfl
theorem Dec.val_sub {p : Nat} (a b : Dec p) : (Arith.sub a b).val = rnd 10 p (a.val - b.val) := rfl
theorem Dec.val_mul {p : Nat} (a b : Dec p) : (Arith.mul a b).val = rnd 10 p (a.val * b.val) := rfl
theorem Dec.val_sq {p : Nat} (a : Dec p) : (Arith.sq a).val = rnd 10 p (rnd 10 (p + 3) (a.val * a.val)) := rfl
theorem Dec.val_lit {p : Nat} (n : ℤ) : (Arith.ofInt n : Dec p).val = n := rfl
theorem Dec.lt_iff {p : Nat} {a b : Dec p} : a < b ↔ a.val < b.val := Iff.rfl
theorem Dec.le_iff {p : Nat} {a b : Dec p} : a ≤ b ↔ a.val ≤ b.val := Iff.rfl
theorem Dec.ext_iff {p : Nat} {a b : Dec p} : a = b ↔ a.val = b.val := Iff.rfl

theorem Dec.div_some {p : Nat} {a b m : Dec p} (h : Arith.div a b = some m) : b.val ≠ 0 ∧ m.val = rnd 10 p (a.val / b.val) := by
  have h' : (if b.val = 0 then none else some (rnd 10 p (a.val / b.val)) : Option ℚ) = some m.val := h
  split_ifs at h' with hb
  exact ⟨hb, (Option.some.inj h').symm⟩

theorem Dec.div_ok {p : Nat} {a b : Dec p} (h : b.val ≠ 0) : ∃ m : Dec p, Arith.div a b = some m ∧ m.val = rnd 10 p (a.val / b.val) := by
  refine ⟨(rnd 10 p (a.val / b.val) : ℚ), ?_, rfl⟩
  have h' : (if b.val = 0 then none else some (rnd 10 p (a.val / b.val)) : Option ℚ) = some (rnd 10 p (a.val / b.val)) := if_neg h
  exact h'

theorem Dec.sqrt_ok {p : Nat} {a : Dec p} (h : 0 ≤ a.val) : ∃ m : Dec p, Arith.sqrt a = some m ∧ m.val = rndSqrt 10 p a.val := by
  refine ⟨(rndSqrt 10 p a.val : ℚ), ?_, rfl⟩
  have h' : (if a.val < 0 then none else some (rndSqrt 10 p a.val) : Option ℚ) = some (rndSqrt 10 p a.val) := if_neg h.not_gt
  exact h'

/-- The laws of the structural theorems hold for `decimal` with every precision. -/
instance decLaws {p : Nat} : ArithLaws (Dec p) where
  sub_mul := by
    intro a b c d
    simp only [Dec.ext_iff, Dec.val_mul, Dec.val_sub]
    rw [← neg_sub b.val a.val, ← neg_sub d.val c.val, rnd_neg, rnd_neg, neg_mul_neg]
  mul_comm := by
    intro a b
    rw [Dec.ext_iff, Dec.val_mul, Dec.val_mul, _root_.mul_comm]
  sub_self := by
    intro a
    rw [Dec.ext_iff, Dec.val_sub, Dec.val_lit, _root_.sub_self, rnd_zero, Int.cast_zero]
  two_mul_zero := by
    rw [Dec.ext_iff, Dec.val_mul, Dec.val_lit, Dec.val_lit, Int.cast_zero, mul_zero, rnd_zero]

end Foronoi
