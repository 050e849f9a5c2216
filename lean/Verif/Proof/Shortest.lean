import Verif.Proof.Decimal

/-!
# Floats as decimal numbers
-/

namespace Foronoi

variable {b p : Nat} {x : ℚ}

theorem HasDigits.neg {z : ℚ} (h : HasDigits b p z) : HasDigits b p (-z) := by
  obtain ⟨n, e, h1, h2⟩ := h
  exact ⟨-n, e, by rw [h1]; push_cast; ring, by rwa [abs_neg]⟩

theorem hasDigits_zero (hb : 0 < b) : HasDigits b p 0 := ⟨0, 0, by simp, by rw [abs_zero]; exact pow_pos (by exact_mod_cast hb) _⟩

theorem hasDigits_le (hb : 1 < b) (hp : 0 < p) {n e : ℤ} (h : |n| ≤ (b : ℤ) ^ p) : HasDigits b p (n * (b : ℚ) ^ e) := by
  have hb0 : (b : ℚ) ≠ 0 := by exact_mod_cast (Nat.zero_lt_of_lt hb).ne'
  rcases lt_or_eq_of_le h with h | h
  · exact ⟨n, e, rfl, h⟩
  · have h1 : (1 : ℤ) < (b : ℤ) ^ p := one_lt_pow₀ (by exact_mod_cast hb) hp.ne'
    rcases abs_cases n with ⟨h2, _⟩ | ⟨h2, _⟩
    · refine ⟨1, p + e, ?_, by simpa using h1⟩
      rw [show n = (b : ℤ) ^ p by omega, zpow_add₀ hb0]
      push_cast
      rw [zpow_natCast]
      ring
    · refine ⟨-1, p + e, ?_, by simpa using h1⟩
      rw [show n = -(b : ℤ) ^ p by omega, zpow_add₀ hb0]
      push_cast
      rw [zpow_natCast]
      ring

/-! ### rounding is a function -/

theorem rounds_unique_pos (hb : Even b) (hb1 : 1 < b) {y y' : ℚ} (hpos : 0 ≤ y) (hlt : y < y') (hy : ∃ n e : ℤ, y = 2 * n * (b : ℚ) ^ e ∧ (b : ℤ) ^ (p - 1) ≤ |2 * n| ∧ |2 * n| < (b : ℤ) ^ p)
    (hy' : ∃ n e : ℤ, y' = 2 * n * (b : ℚ) ^ e ∧ (b : ℤ) ^ (p - 1) ≤ |2 * n| ∧ |2 * n| < (b : ℤ) ^ p) : ∃ z, HasDigits b p z ∧ y < z ∧ z < y' := by
  obtain ⟨n, e, h1, h2, h3⟩ := hy
  obtain ⟨n', e', h1', h2', h3'⟩ := hy'
  have hbz : (1 : ℤ) < b := by exact_mod_cast hb1
  have hbq : (1 : ℚ) < b := by exact_mod_cast hb1
  have hb0 : (b : ℚ) ≠ 0 := by positivity
  have pe : (0 : ℚ) < (b : ℚ) ^ e := zpow_pos (by linarith) _
  have pe' : (0 : ℚ) < (b : ℚ) ^ e' := zpow_pos (by linarith) _
  have hpp : (0 : ℤ) < (b : ℤ) ^ (p - 1) := by positivity
  have n0 : 0 < 2 * n := by
    rcases lt_trichotomy (2 * n) 0 with h | h | h
    · have : (2 * (n : ℚ)) < 0 := by exact_mod_cast h
      nlinarith
    · rw [h, abs_zero] at h2
      omega
    · exact h
  have n0' : 0 < 2 * n' := by
    by_contra hcon
    have : (2 * (n' : ℚ)) ≤ 0 := by exact_mod_cast not_lt.mp hcon
    nlinarith
  rw [abs_of_pos n0] at h2 h3
  rw [abs_of_pos n0'] at h2' h3'
  have hpz : p ≠ 0 := by
    rintro rfl
    simp at h2 h3
    omega
  have hodd : 2 * n + 1 < (b : ℤ) ^ p := by
    obtain ⟨c, hc⟩ := hb
    have : ∃ k : ℤ, (b : ℤ) ^ p = 2 * k := by
      obtain ⟨p', rfl⟩ := Nat.exists_eq_succ_of_ne_zero hpz
      exact ⟨(b : ℤ) ^ p' * c, by rw [pow_succ, hc]; push_cast; ring⟩
    omega
  refine ⟨(2 * n + 1 : ℤ) * (b : ℚ) ^ e, ⟨_, _, rfl, by rw [abs_of_pos (by omega)]; exact hodd⟩, ?_, ?_⟩
  · rw [h1]
    push_cast
    nlinarith
  · rcases lt_or_ge e' e with he | he
    · exfalso
      have k1 : y' < (b : ℚ) ^ p * (b : ℚ) ^ e' := by
        rw [h1']
        have : (2 * (n' : ℚ)) < (b : ℚ) ^ p := by exact_mod_cast h3'
        exact mul_lt_mul_of_pos_right this pe'
      have k2 : (b : ℚ) ^ p * (b : ℚ) ^ e' ≤ (b : ℚ) ^ (p - 1) * (b : ℚ) ^ e := by
        rw [← zpow_natCast, ← zpow_natCast, ← zpow_add₀ hb0, ← zpow_add₀ hb0]
        exact zpow_le_zpow_right₀ hbq.le (by omega)
      have k3 : (b : ℚ) ^ (p - 1) * (b : ℚ) ^ e ≤ y := by
        rw [h1]
        have : (b : ℚ) ^ (p - 1) ≤ 2 * (n : ℚ) := by exact_mod_cast h2
        exact mul_le_mul_of_nonneg_right this pe.le
      linarith
    · obtain ⟨k, rfl⟩ : ∃ k : ℕ, e' = e + k := ⟨(e' - e).toNat, by omega⟩
      have e1 : y' = ((2 * (n' * b ^ k) : ℤ) : ℚ) * (b : ℚ) ^ e := by
        rw [h1', zpow_add₀ hb0, zpow_natCast]
        push_cast
        ring
      rw [h1, e1] at hlt
      have h5 : (2 * (n : ℚ)) < ((2 * (n' * b ^ k) : ℤ) : ℚ) := lt_of_mul_lt_mul_right hlt pe.le
      have h6 : 2 * n < 2 * (n' * b ^ k) := by exact_mod_cast h5
      rw [e1]
      refine mul_lt_mul_of_pos_right ?_ pe
      exact_mod_cast (by omega : 2 * n + 1 < 2 * (n' * (b : ℤ) ^ k))

theorem RoundsTo.unique_le (hb : Even b) (hb1 : 1 < b) {s : ℝ} {y y' : ℚ} (h : RoundsTo b p s y) (h' : RoundsTo b p s y') (hlt : y < y') : False := by
  obtain ⟨a1, a2, a3⟩ := h
  obtain ⟨c1, c2, c3⟩ := h'
  have htie : |(y : ℝ) - s| = |(y' : ℝ) - s| := le_antisymm (a2 _ c1) (c2 _ a1)
  have hr : (y : ℝ) < y' := by exact_mod_cast hlt
  have hs : s = (y + y') / 2 := by
    rcases abs_eq_abs.mp htie with h | h <;> linarith
  have ha := a3 _ c1 hlt.ne' htie.symm
  have hc := c3 _ a1 hlt.ne htie
  have hno : ∀ z, HasDigits b p z → ¬ (y < z ∧ z < y') := by
    rintro z hz ⟨z1, z2⟩
    have r1 : (y : ℝ) < z := by exact_mod_cast z1
    have r2 : (z : ℝ) < y' := by exact_mod_cast z2
    have h1 := a2 z hz
    rw [abs_of_neg (by linarith)] at h1
    have h2 := abs_lt.mpr ⟨(by linarith : -(s - (y : ℝ)) < (z : ℝ) - s), (by linarith : (z : ℝ) - s < s - (y : ℝ))⟩
    linarith
  rcases le_total 0 y with h0 | h0
  · obtain ⟨z, z1, z2⟩ := rounds_unique_pos hb hb1 h0 hlt ha hc
    exact hno z z1 z2
  · have h1 : y' ≤ 0 := by
      by_contra hpos
      rcases h0.eq_or_lt with h | h
      · obtain ⟨z, z1, z2⟩ := rounds_unique_pos hb hb1 h.ge hlt ha hc
        exact hno z z1 z2
      · exact hno 0 (hasDigits_zero (by omega)) ⟨h, not_le.mp hpos⟩
    have flip : ∀ {u : ℚ}, (∃ n e : ℤ, u = 2 * n * (b : ℚ) ^ e ∧ (b : ℤ) ^ (p - 1) ≤ |2 * n| ∧ |2 * n| < (b : ℤ) ^ p) →
        ∃ n e : ℤ, -u = 2 * n * (b : ℚ) ^ e ∧ (b : ℤ) ^ (p - 1) ≤ |2 * n| ∧ |2 * n| < (b : ℤ) ^ p := by
      rintro u ⟨n, e, k1, k2, k3⟩
      exact ⟨-n, e, by rw [k1]; push_cast; ring, by rwa [mul_neg, abs_neg], by rwa [mul_neg, abs_neg]⟩
    obtain ⟨z, z1, z2, z3⟩ := rounds_unique_pos hb hb1 (neg_nonneg.mpr h1) (neg_lt_neg hlt) (flip hc) (flip ha)
    exact hno (-z) z1.neg ⟨by linarith, by linarith⟩

/-- There is only one rounded number. -/
theorem RoundsTo.unique (hb : Even b) (hb1 : 1 < b) {s : ℝ} {y y' : ℚ} (h : RoundsTo b p s y) (h' : RoundsTo b p s y') : y = y' := by
  rcases lt_trichotomy y y' with hlt | he | hlt
  · exact (h.unique_le hb hb1 h' hlt).elim
  · exact he
  · exact (h'.unique_le hb hb1 h hlt).elim

/-- What lies between a number and its rounding is rounded in the same way. -/
theorem RoundsTo.between {w v y : ℚ} (h : RoundsTo b p w y) (hv : w ≤ v ∧ v ≤ y ∨ y ≤ v ∧ v ≤ w) : RoundsTo b p v y := by
  obtain ⟨h1, h2, h3⟩ := h
  have h2 : ∀ z, HasDigits b p z → |y - w| ≤ |z - w| := fun z hz => by exact_mod_cast h2 z hz
  refine ⟨h1, fun z hz => ?_, fun z hz hne he => ?_⟩
  · have := h2 z hz
    have goal : |y - v| ≤ |z - v| := by
      rcases hv with ⟨v1, v2⟩ | ⟨v1, v2⟩
      · rw [abs_of_nonneg (by linarith)] at this ⊢
        rcases abs_cases (z - w) with ⟨k, _⟩ | ⟨k, _⟩ <;> rcases abs_cases (z - v) with ⟨k', _⟩ | ⟨k', _⟩ <;> rw [k] at this <;> rw [k'] <;> linarith
      · rw [abs_of_nonpos (by linarith)] at this ⊢
        rcases abs_cases (z - w) with ⟨k, _⟩ | ⟨k, _⟩ <;> rcases abs_cases (z - v) with ⟨k', _⟩ | ⟨k', _⟩ <;> rw [k] at this <;> rw [k'] <;> linarith
    exact_mod_cast goal
  · refine h3 z hz hne ?_
    have he : |z - v| = |y - v| := by exact_mod_cast he
    have := h2 z hz
    have goal : |z - w| = |y - w| := by
      have hz : z = 2 * v - y := by
        rcases abs_eq_abs.mp he with k | k
        · exact absurd (by linarith) hne
        · linarith
      rcases hv with ⟨v1, v2⟩ | ⟨v1, v2⟩
      · rw [abs_of_nonneg (show 0 ≤ y - w by linarith)] at this ⊢
        rcases abs_cases (z - w) with ⟨k, _⟩ | ⟨k, _⟩ <;> rw [k] at this ⊢
        · have : y = v := by linarith
          exact absurd (by linarith) hne
        · linarith
      · rw [abs_of_nonpos (show y - w ≤ 0 by linarith)] at this ⊢
        rcases abs_cases (z - w) with ⟨k, _⟩ | ⟨k, _⟩ <;> rw [k] at this ⊢
        · linarith
        · have : y = v := by linarith
          exact absurd (by linarith) hne
    exact_mod_cast goal

theorem rounds_iff {w y : ℚ} (hb : Even b) (hb0 : b ≠ 0) (hp : 1 < p) : RoundsTo b p w y ↔ rnd b p w = y := by
  have hb1 : 1 < b := by
    obtain ⟨c, rfl⟩ := hb
    omega
  exact ⟨fun h => (rnd_roundsTo hb hb0 hp w).unique hb hb1 h, fun h => h ▸ rnd_roundsTo hb hb0 hp w⟩

/-! ### distances of numbers with a limited number of digits -/

/-- No number with `p` digits is between the two multiples of the unit next to `x`. -/
theorem no_between (hb : 1 < b) (hp : 0 < p) (hx : x ≠ 0) {w : ℚ} (hw : HasDigits b p w) {m : ℤ} (h1 : m * ulp b p x < x) (h2 : x < (m + 1) * ulp b p x) :
    w ≤ m * ulp b p x ∨ (m + 1) * ulp b p x ≤ w := by
  have hu := ulp_pos (p := p) (x := x) hb
  obtain ⟨n, e, hz, hn⟩ := hw
  rcases digits_cases (p := p) hb hx hz hn.le with ⟨k, hk⟩ | h
  · rcases le_or_gt k m with hkm | hkm
    · left
      rw [hk]
      exact mul_le_mul_of_nonneg_right (by exact_mod_cast hkm) hu.le
    · right
      rw [hk]
      exact mul_le_mul_of_nonneg_right (by exact_mod_cast hkm) hu.le
  · have hlog := (log_bounds hb hx).1
    have hmul := pow_log_mul (p := p) (x := x) hb hp
    rw [hmul] at h hlog
    obtain ⟨w1, w2⟩ := abs_le.mp h
    rcases abs_cases x with ⟨h3, h4⟩ | ⟨h3, h4⟩
    · left
      rw [h3] at hlog
      have : (((b ^ (p - 1) : ℕ) : ℤ) : ℚ) < ((m + 1 : ℤ) : ℚ) := lt_of_mul_lt_mul_right (by push_cast at *; linarith) hu.le
      have : ((b ^ (p - 1) : ℕ) : ℤ) < m + 1 := by exact_mod_cast this
      refine w2.trans (mul_le_mul_of_nonneg_right (by exact_mod_cast Int.lt_add_one_iff.mp this) hu.le)
    · right
      rw [h3] at hlog
      have : ((m : ℤ) : ℚ) < ((-((b ^ (p - 1) : ℕ) : ℤ) : ℤ) : ℚ) := lt_of_mul_lt_mul_right (by push_cast at *; linarith) hu.le
      have : m < -((b ^ (p - 1) : ℕ) : ℤ) := by exact_mod_cast this
      have : ((m + 1 : ℤ) : ℚ) ≤ ((-((b ^ (p - 1) : ℕ) : ℤ) : ℤ) : ℚ) := by exact_mod_cast this
      have := mul_le_mul_of_nonneg_right this hu.le
      push_cast at *
      linarith

theorem ulp_gt (hb : 1 < b) (hx : x ≠ 0) : |x| < ulp b p x * (b : ℚ) ^ p := by
  have hb0 : (b : ℚ) ≠ 0 := by exact_mod_cast (Nat.zero_lt_of_lt hb).ne'
  refine (log_bounds hb hx).2.trans_eq ?_
  unfold ulp
  rw [← zpow_natCast, ← zpow_add₀ hb0]
  congr 1
  omega

theorem ulp_le (hb : 1 < b) (hp : 0 < p) (hx : x ≠ 0) : ulp b p x * (b : ℚ) ^ (p - 1) ≤ |x| := by
  refine le_trans (le_of_eq ?_) (log_bounds hb hx).1
  rw [pow_log_mul (p := p) hb hp]
  push_cast
  ring

theorem mul_gap {u : ℚ} (hu : 0 < u) {k m : ℤ} (h : (k : ℚ) * u ≠ m * u) : u ≤ |k * u - m * u| := by
  rw [← sub_mul, abs_mul, abs_of_pos hu]
  have h1 : k - m ≠ 0 := fun h1 => h (by rw [show k = m by omega])
  have h2 : (1 : ℤ) ≤ |k - m| := Int.one_le_abs h1
  have h3 : (1 : ℚ) ≤ |(k : ℚ) - m| := by exact_mod_cast h2
  nlinarith

/-- Two numbers with `p` digits differ by at least the part `b ^ -p` of each. -/
theorem digits_gap (hb : 1 < b) (hp : 0 < p) {z : ℚ} (hx : HasDigits b p x) (hz : HasDigits b p z) (hne : z ≠ x) : |x| ≤ |z - x| * (b : ℚ) ^ p := by
  have hbq : (1 : ℚ) < b := by exact_mod_cast hb
  have hb0 : (b : ℚ) ≠ 0 := by positivity
  have hpp : (0 : ℚ) < (b : ℚ) ^ p := by positivity
  by_cases h0 : x = 0
  · rw [h0, abs_zero]
    positivity
  have hu := ulp_pos (p := p) (x := x) hb
  have hgt := ulp_gt (p := p) hb h0
  obtain ⟨nx, ex, hxe, hxn⟩ := hx
  obtain ⟨m, hm⟩ := digits_mul (p := p) hb hp hxe hxn.le
  have fin : ulp b p x ≤ |z - x| → |x| ≤ |z - x| * (b : ℚ) ^ p := fun h => hgt.le.trans (mul_le_mul_of_nonneg_right h hpp.le)
  obtain ⟨n, e, hze, hzn⟩ := hz
  rcases digits_cases (p := p) hb h0 hze hzn.le with ⟨k, hk⟩ | h
  · refine fin ?_
    have := mul_gap hu (k := k) (m := m) (by rw [← hk, ← hm]; exact hne)
    rwa [← hk, ← hm] at this
  · have hmul := pow_log_mul (p := p) (x := x) hb hp
    have hlog := (log_bounds hb h0).1
    have hdist : |x| - |z| ≤ |z - x| := by
      rw [abs_sub_comm]
      exact abs_sub_abs_le_abs_sub _ _
    rcases hlog.eq_or_lt with hl | hl
    · -- `x` is a power of the base
      rcases le_or_gt (|z| * b) |x| with hs | hs
      · have k1 : |x| * (b - 1) ≤ |z - x| * b := by nlinarith [abs_nonneg x]
        have k2 : (b : ℚ) ≤ (b : ℚ) ^ p := le_self_pow₀ hbq.le hp.ne'
        have k3 : (1 : ℚ) ≤ b - 1 := by
          have : (2 : ℚ) ≤ b := by exact_mod_cast hb
          linarith
        have k4 : |z - x| * b ≤ |z - x| * (b : ℚ) ^ p := mul_le_mul_of_nonneg_left k2 (abs_nonneg _)
        nlinarith [abs_nonneg x]
      · have pe : (0 : ℚ) < (b : ℚ) ^ e := zpow_pos (by linarith) _
        have he : Int.log b |x| - p ≤ e := by
          by_contra hcon
          have k1 : |z| < (b : ℚ) ^ p * (b : ℚ) ^ e := by
            rw [hze, abs_mul, abs_of_pos pe]
            refine mul_lt_mul_of_pos_right ?_ pe
            exact_mod_cast hzn
          have k2 : (b : ℚ) ^ p * (b : ℚ) ^ e * b ≤ (b : ℚ) ^ Int.log b |x| := by
            rw [← zpow_natCast, ← zpow_add₀ hb0, ← zpow_add_one₀ hb0]
            exact zpow_le_zpow_right₀ hbq.le (by omega)
          rw [← hl] at hs
          nlinarith
        obtain ⟨k, rfl⟩ : ∃ k : ℕ, e = Int.log b |x| - p + k := ⟨(e - (Int.log b |x| - p)).toNat, by omega⟩
        have pv : (0 : ℚ) < (b : ℚ) ^ (Int.log b |x| - p) := zpow_pos (by linarith) _
        have ev : ulp b p x = b * (b : ℚ) ^ (Int.log b |x| - p) := by
          unfold ulp
          rw [mul_comm, ← zpow_add_one₀ hb0]
          congr 1
          ring
        have ez : z = ((n * b ^ k : ℤ) : ℚ) * (b : ℚ) ^ (Int.log b |x| - p) := by
          rw [hze, zpow_add₀ hb0, zpow_natCast]
          push_cast
          ring
        have exx : x = ((m * b : ℤ) : ℚ) * (b : ℚ) ^ (Int.log b |x| - p) := by
          push_cast
          rw [mul_assoc, ← ev]
          exact hm
        have := mul_gap pv (k := n * b ^ k) (m := m * b) (by rw [← ez, ← exx]; exact hne)
        rw [← ez, ← exx] at this
        refine le_trans (le_of_eq ?_) (mul_le_mul_of_nonneg_right this hpp.le)
        rw [← zpow_natCast, ← zpow_add₀ hb0, sub_add_cancel, hl]
    · refine fin (le_trans ?_ (le_trans (sub_le_sub_left h _) hdist))
      have ha : |x| = ((|m| : ℤ) : ℚ) * ulp b p x := by
        conv_lhs => rw [hm, abs_mul, abs_of_pos hu]
        push_cast
        rfl
      rw [hmul] at hl ⊢
      have := mul_gap hu (k := |m|) (m := ((b ^ (p - 1) : ℕ) : ℤ)) (by rw [← ha]; exact hl.ne')
      rwa [← ha, abs_of_pos (by linarith)] at this

theorem rnd_rel (hb : 1 < b) (hp : 0 < p) : |rnd b p x - x| * (2 * (b : ℚ) ^ (p - 1)) ≤ |x| := by
  by_cases hx : x = 0
  · rw [hx, rnd_zero]
    simp
  have h1 := rnd_err (p := p) (x := x) hb
  have h2 := ulp_le (p := p) hb hp hx
  have hbq : (1 : ℚ) < b := by exact_mod_cast hb
  have : (0 : ℚ) < (b : ℚ) ^ (p - 1) := by positivity
  nlinarith

/-! ### the shortest decimal -/

/-- 17 digits are enough. -/
theorem seventeen (hx : HasDigits 2 53 x) : RoundsTo 2 53 (rnd 10 17 x : ℚ) x := by
  have h1 := rnd_rel (b := 10) (p := 17) (x := x) (by norm_num) (by norm_num)
  have key : ∀ z, HasDigits 2 53 z → z ≠ x → |x - rnd 10 17 x| < |z - rnd 10 17 x| := by
    intro z hz hne
    have h2 := digits_gap (b := 2) (p := 53) (by norm_num) (by norm_num) hx hz hne
    have h3 : |z - x| ≤ |z - rnd 10 17 x| + |rnd 10 17 x - x| := by
      have := abs_add_le (z - rnd 10 17 x) (rnd 10 17 x - x)
      rwa [sub_add_sub_cancel] at this
    rw [abs_sub_comm x]
    norm_num at h1 h2
    have h4 : 0 < |z - x| := abs_pos.mpr (sub_ne_zero.mpr hne)
    nlinarith [abs_nonneg x]
  refine ⟨hx, fun z hz => ?_, fun z hz hne he => ?_⟩
  · by_cases hne : z = x
    · rw [hne]
    · exact_mod_cast (key z hz hne).le
  · have := key z hz hne
    have he : |z - rnd 10 17 x| = |x - rnd 10 17 x| := by exact_mod_cast he
    exact absurd he this.ne'

theorem reads_iff {w : ℚ} : RoundsTo 2 53 w x ↔ rnd 2 53 w = x := rounds_iff (by decide) (by decide) (by norm_num)

/-- The two candidates: `y` is nearest, and `z` is on the other side of `x`. -/
theorem candidates {d : Nat} (hd : 0 < d) (hx : x ≠ 0) (hne : rnd 10 d x ≠ x) :
    HasDigits 10 d (if rnd 10 d x < x then rnd 10 d x + ulp 10 d x else rnd 10 d x - ulp 10 d x) ∧
    ∀ w, HasDigits 10 d w → RoundsTo 2 53 w x → rnd 2 53 (rnd 10 d x) = x ∨
      (rnd 2 53 (if rnd 10 d x < x then rnd 10 d x + ulp 10 d x else rnd 10 d x - ulp 10 d x) = x ∧
        |(if rnd 10 d x < x then rnd 10 d x + ulp 10 d x else rnd 10 d x - ulp 10 d x) - x| ≤ |w - x|) := by
  have hu := ulp_pos (b := 10) (p := d) (x := x) (by norm_num)
  have herr := rnd_err (b := 10) (p := d) (x := x) (by norm_num)
  have hgt := ulp_gt (b := 10) (p := d) (by norm_num) hx
  obtain ⟨m, hm⟩ : ∃ m : ℤ, rnd 10 d x = m * ulp 10 d x := ⟨_, rfl⟩
  have eu : ulp 10 d x = ((10 : ℕ) : ℚ) ^ (Int.log 10 |x| + 1 - d) := rfl
  obtain ⟨x1, x2⟩ := abs_lt.mp hgt
  obtain ⟨r1, r2⟩ := abs_le.mp herr
  rw [hm] at r1 r2 hne ⊢
  split_ifs with hlt
  · have e1 : m * ulp 10 d x + ulp 10 d x = ((m + 1 : ℤ) : ℚ) * ulp 10 d x := by push_cast; ring
    have b1 : m + 1 ≤ (10 : ℤ) ^ d := by
      have : (m : ℚ) * ulp 10 d x < (10 : ℚ) ^ d * ulp 10 d x := by push_cast at x2; linarith
      have : (m : ℚ) < (10 : ℚ) ^ d := lt_of_mul_lt_mul_right this hu.le
      exact_mod_cast this
    have b2 : -(10 : ℤ) ^ d ≤ m + 1 := by
      have : -(10 : ℚ) ^ d * ulp 10 d x < ((m + 1 : ℤ) : ℚ) * ulp 10 d x := by push_cast at x1 ⊢; linarith
      have : -(10 : ℚ) ^ d < ((m + 1 : ℤ) : ℚ) := lt_of_mul_lt_mul_right this hu.le
      exact_mod_cast this.le
    refine ⟨?_, fun w hw hr => ?_⟩
    · rw [e1, eu]
      exact hasDigits_le (by norm_num) hd (abs_le.mpr ⟨by exact_mod_cast b2, by exact_mod_cast b1⟩)
    · rcases no_between (by norm_num) hd hx hw hlt (by linarith) with h | h
      · exact Or.inl (reads_iff.mp (hr.between (Or.inl ⟨h, hlt.le⟩)))
      · have e2 : (m + 1 : ℚ) * ulp 10 d x = m * ulp 10 d x + ulp 10 d x := by ring
        rw [e2] at h
        refine Or.inr ⟨reads_iff.mp (hr.between (Or.inr ⟨by linarith, h⟩)), ?_⟩
        rw [abs_of_nonneg (by linarith), abs_of_nonneg (by linarith)]
        linarith
  · have hgt' : x < m * ulp 10 d x := lt_of_le_of_ne (not_lt.mp hlt) (Ne.symm hne)
    have e1 : m * ulp 10 d x - ulp 10 d x = ((m - 1 : ℤ) : ℚ) * ulp 10 d x := by push_cast; ring
    have b1 : m - 1 ≤ (10 : ℤ) ^ d := by
      have : ((m - 1 : ℤ) : ℚ) * ulp 10 d x < (10 : ℚ) ^ d * ulp 10 d x := by push_cast at x2 ⊢; linarith
      have : ((m - 1 : ℤ) : ℚ) < (10 : ℚ) ^ d := lt_of_mul_lt_mul_right this hu.le
      exact_mod_cast this.le
    have b2 : -(10 : ℤ) ^ d ≤ m - 1 := by
      have : -(10 : ℚ) ^ d * ulp 10 d x < (m : ℚ) * ulp 10 d x := by push_cast at x1 ⊢; linarith
      have : -(10 : ℚ) ^ d < (m : ℚ) := lt_of_mul_lt_mul_right this hu.le
      have : -(10 : ℤ) ^ d < m := by exact_mod_cast this
      omega
    refine ⟨?_, fun w hw hr => ?_⟩
    · rw [e1, eu]
      exact hasDigits_le (by norm_num) hd (abs_le.mpr ⟨by exact_mod_cast b2, by exact_mod_cast b1⟩)
    · have e2 : ((m - 1 : ℤ) + 1 : ℚ) * ulp 10 d x = m * ulp 10 d x := by push_cast; ring
      rcases no_between (m := m - 1) (by norm_num) hd hx hw (by rw [← e1]; linarith) (by rw [e2]; exact hgt') with h | h
      · rw [← e1] at h
        refine Or.inr ⟨reads_iff.mp (hr.between (Or.inl ⟨h, by linarith⟩)), ?_⟩
        rw [abs_of_nonpos (by linarith), abs_of_nonpos (by linarith)]
        linarith
      · rw [e2] at h
        exact Or.inl (reads_iff.mp (hr.between (Or.inr ⟨hgt'.le, h⟩)))

theorem shortest_spec (hx : HasDigits 2 53 x) (h0 : x ≠ 0) : ∀ f d, 0 < d → d + f = 17 → (∀ e < d, ∀ w, HasDigits 10 e w → ¬ RoundsTo 2 53 w x) → WrittenAs x (shortest x f d) := by
  intro f
  induction f with
  | zero =>
    intro d hd h17 hno
    have : d = 17 := by omega
    subst this
    refine ⟨17, rnd_digits (by norm_num) (by norm_num), seventeen hx, fun e w hw hr => ⟨?_, fun he => ?_⟩⟩
    · by_contra hlt
      exact hno e (by omega) w hw hr
    · exact ⟨(rnd_rounds (b := 10) (p := 17) (by norm_num) (by norm_num) x).2.1 w (he ▸ hw), fun _ => (rounds_iff (by decide) (by decide) (by norm_num)).mp⟩
  | succ f ih =>
    intro d hd h17 hno
    unfold shortest
    simp only
    have hmin : ∀ e w, HasDigits 10 e w → RoundsTo 2 53 w x → d ≤ e := fun e w hw hr => by
      by_contra hlt
      exact hno e (by omega) w hw hr
    by_cases h1 : rnd 2 53 (rnd 10 d x) = x
    · rw [if_pos h1]
      exact ⟨d, rnd_digits (by norm_num) hd, reads_iff.mpr h1, fun e w hw hr => ⟨hmin e w hw hr, fun he =>
        ⟨(rnd_rounds (b := 10) (p := d) (by norm_num) hd x).2.1 w (he ▸ hw), fun hd1 => (rounds_iff (by decide) (by decide) hd1).mp⟩⟩⟩
    · rw [if_neg h1]
      have hne : rnd 10 d x ≠ x := fun h => h1 (by
        rw [h]
        obtain ⟨n, e, k1, k2⟩ := hx
        exact rnd_exact (by norm_num) (by norm_num) k1 k2.le)
      obtain ⟨c1, c2⟩ := candidates hd h0 hne
      split_ifs at c1 c2 ⊢ with h2 h3 h3
      all_goals first
        | exact ⟨d, c1, reads_iff.mpr h3, fun e w hw hr => ⟨hmin e w hw hr, fun he => ⟨((c2 w (he ▸ hw) hr).resolve_left h1).2, fun hd1 hw' =>
            absurd (reads_iff.mp hr) ((rounds_iff (by decide) (by decide) hd1).mp hw' ▸ h1)⟩⟩⟩
        | exact ih (d + 1) (by omega) (by omega) fun e he w hw hr => by
            rcases (by omega : e < d ∨ e = d) with k | rfl
            · exact hno e k w hw hr
            · rcases c2 w hw hr with k | k
              · exact h1 k
              · exact h3 k.1

/-- The text of a float. -/
theorem shortest_written (hx : HasDigits 2 53 x) : WrittenAs x (shortest x 16 1) := by
  by_cases h0 : x = 0
  · subst h0
    have : shortest 0 16 1 = 0 := by
      unfold shortest
      simp only [rnd_zero, if_true]
    rw [this]
    exact ⟨0, hasDigits_zero (by norm_num), reads_iff.mpr rnd_zero, fun e w _ _ => ⟨Nat.zero_le _, fun _ => ⟨by simp, fun h => absurd h (by norm_num)⟩⟩⟩
  · refine shortest_spec hx h0 16 1 (by norm_num) (by norm_num) fun e he w hw hr => ?_
    obtain rfl : e = 0 := by omega
    obtain ⟨n, k, h1, h2⟩ := hw
    rw [pow_zero, Int.abs_lt_one_iff] at h2
    rw [h2, Int.cast_zero, zero_mul] at h1
    rw [h1] at hr
    exact h0 ((reads_iff.mp hr).symm.trans rnd_zero)

/-- A decimal with at most 15 digits is written again for the float it is read as. -/
theorem fifteen {a y : ℚ} (ha : HasDigits 10 15 a) (h : WrittenAs (rnd 2 53 a) y) : y = a := by
  obtain ⟨d, h1, h2, h3⟩ := h
  have hd := (h3 15 a ha (reads_iff.mpr rfl)).1
  have hy : HasDigits 10 15 y := by
    obtain ⟨n, e, k1, k2⟩ := h1
    exact ⟨n, e, k1, k2.trans_le (pow_le_pow_right₀ (by norm_num) hd)⟩
  have e1 := rnd_rel (b := 2) (p := 53) (x := a) (by norm_num) (by norm_num)
  have e2 := rnd_rel (b := 2) (p := 53) (x := y) (by norm_num) (by norm_num)
  rw [reads_iff.mp h2] at e2
  by_contra hne
  have g1 := digits_gap (b := 10) (p := 15) (by norm_num) (by norm_num) ha hy hne
  have g2 := digits_gap (b := 10) (p := 15) (by norm_num) (by norm_num) hy ha (Ne.symm hne)
  have tri : |y - a| ≤ |rnd 2 53 a - y| + |rnd 2 53 a - a| := by
    have := abs_add_le (y - rnd 2 53 a) (rnd 2 53 a - a)
    rwa [sub_add_sub_cancel, abs_sub_comm y (rnd 2 53 a)] at this
  rw [abs_sub_comm a y] at g2
  have hpos : 0 < |y - a| := abs_pos.mpr (sub_ne_zero.mpr hne)
  norm_num at e1 e2 g1 g2
  nlinarith

end Foronoi
