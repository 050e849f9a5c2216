import Verif.Proof.Shortest
import Verif.Proof.Force
import Verif.Props.Clip
import Verif.Props.Reuse

/-!
# C102–C105: the sweep with the rounding of `decimal`
-/

namespace Foronoi

open scoped List

instance {p : Nat} : FrcOf (Dec p) := ⟨fRat⟩

variable {p n fuel : Nat} {rz : Bool}

/-- The `x`-coordinates have less than `p` digits.  A float has at most 17 digits when it is converted, so this holds for all floats and the default precision. -/
def ShortX (p : Nat) (pts : Nat → Dec p × Dec p) (n : Nat) : Prop := ∀ i < n, HasDigits 10 (p - 1) (pts i).1.val

theorem rnd10_exact (hp : 0 < p) {x : ℚ} (n e : ℤ) (hx : x = n * (10 : ℚ) ^ e) (hn : |n| ≤ 10 ^ p) : rnd 10 p x = x :=
  rnd_exact (by norm_num) hp (n := n) (e := e) (by rw [hx]; norm_num) (by exact_mod_cast hn)

theorem rnd_le (hp : 0 < p) {x z : ℚ} (hz : HasDigits 10 p z) (h : x ≤ z) : rnd 10 p x ≤ z := by
  by_contra hlt
  push Not at hlt
  have h1 := (rnd_rounds (b := 10) (by norm_num) hp x).2.1 z hz
  rw [abs_of_nonneg (by linarith), abs_of_nonneg (by linarith)] at h1
  linarith

theorem digits_grid {q : Nat} {z : ℚ} {M : ℤ} (h : HasDigits 10 q z) (hz : (10 : ℚ) ^ M ≤ |z|) : ∃ m : ℤ, z = m * (10 : ℚ) ^ (M + 1 - q) := by
  obtain ⟨n, e, rfl, hn⟩ := h
  have hpos : (0 : ℚ) < ((10 : ℕ) : ℚ) ^ e := by positivity
  have he : M + 1 - q ≤ e := by
    have h1 : ((|n| : ℤ) : ℚ) < (10 : ℚ) ^ (q : ℤ) := by
      rw [zpow_natCast]
      exact_mod_cast hn
    rw [abs_mul, abs_of_pos hpos] at hz
    have h2 : (10 : ℚ) ^ M < (10 : ℚ) ^ ((q : ℤ) + e) := by
      rw [zpow_add₀ (by norm_num)]
      refine hz.trans_lt (mul_lt_mul_of_pos_right ?_ (by exact_mod_cast hpos))
      exact_mod_cast h1
    have := (zpow_lt_zpow_iff_right₀ (by norm_num : (1 : ℚ) < 10)).mp h2
    omega
  obtain ⟨k, hk⟩ : ∃ k : ℕ, e = k + (M + 1 - q) := ⟨(e - (M + 1 - q)).toNat, by omega⟩
  refine ⟨n * 10 ^ k, ?_⟩
  rw [hk, zpow_add₀ (by norm_num)]
  push_cast
  rw [zpow_natCast]
  ring

/-- Between two numbers with less than `p` digits there is a number with `p` digits, at or above their middle, whose double has `p` digits too. -/
theorem digits_between {q : Nat} (hq : 0 < q) {a b : ℚ} (ha : HasDigits 10 q a) (hb : HasDigits 10 q b) (h : a < b) (hb0 : b ≠ 0) :
    ∃ u, (∃ n e : ℤ, u = n * (10 : ℚ) ^ e ∧ |n| ≤ 10 ^ (q + 1)) ∧ (∃ n e : ℤ, 2 * u = n * (10 : ℚ) ^ e ∧ |n| ≤ 10 ^ (q + 1)) ∧ a + b ≤ 2 * u ∧ u < b := by
  obtain ⟨L, hL⟩ : ∃ L, L = Int.log 10 |b| := ⟨_, rfl⟩
  have hlo : (10 : ℚ) ^ L ≤ |b| := by rw [hL]; exact_mod_cast (log_bounds (by norm_num : 1 < 10) hb0).1
  have hhi : |b| < (10 : ℚ) ^ (L + 1) := by rw [hL]; exact_mod_cast (log_bounds (by norm_num : 1 < 10) hb0).2
  have ten : (10 : ℚ) ≠ 0 := by norm_num
  have hqq : ((10 : ℤ) ^ q : ℚ) = (10 : ℚ) ^ (q : ℤ) := by rw [zpow_natCast]; norm_cast
  obtain ⟨n, hn⟩ := digits_grid hb hlo
  obtain ⟨U, hU⟩ : ∃ U, U = (10 : ℚ) ^ (L + 1 - q) := ⟨_, rfl⟩
  have hUpos : 0 < U := by rw [hU]; positivity
  rw [← hU] at hn
  have hUq : (10 : ℚ) ^ (L + 1) = (10 : ℚ) ^ q * U := by rw [hU, ← zpow_natCast, ← zpow_add₀ ten]; congr 1; ring
  have hU1 : (10 : ℚ) ^ (L + 1 - q - 1) = U / 10 := by rw [hU, zpow_sub_one₀ ten]; ring
  have hn1 : |n| < 10 ^ q := by
    rw [hn, abs_mul, abs_of_pos hUpos, hUq] at hhi
    have := lt_of_mul_lt_mul_right hhi hUpos.le
    exact_mod_cast this
  rw [abs_lt] at hn1
  have hp10 : (10 : ℤ) ^ (q + 1) = 10 * 10 ^ q := by ring
  have hgap : a ≤ b - U → ∃ u, (∃ n e : ℤ, u = n * (10 : ℚ) ^ e ∧ |n| ≤ 10 ^ (q + 1)) ∧ (∃ n e : ℤ, 2 * u = n * (10 : ℚ) ^ e ∧ |n| ≤ 10 ^ (q + 1)) ∧
      a + b ≤ 2 * u ∧ u < b := by
    intro hg
    refine ⟨b - U / 2, ⟨10 * n - 5, L + 1 - q - 1, ?_, ?_⟩, ⟨2 * n - 1, L + 1 - q, ?_, ?_⟩, by linarith, by linarith⟩
    · rw [hU1, hn]
      push_cast
      ring
    · rw [hp10, abs_le]
      constructor <;> linarith
    · rw [← hU, hn]
      push_cast
      ring
    · rw [hp10, abs_le]
      constructor <;> linarith
  have step : ∀ {m : ℤ}, a = m * U → a ≤ b - U := by
    intro m hm
    rw [hm, hn] at h ⊢
    have h1 : m < n := by exact_mod_cast lt_of_mul_lt_mul_right h hUpos.le
    have h2 : (m : ℚ) + 1 ≤ n := by exact_mod_cast h1
    nlinarith
  rcases lt_or_gt_of_ne hb0 with hneg | hpos
  · have h1 : (10 : ℚ) ^ L ≤ |a| := by
      rw [abs_of_neg hneg] at hlo
      rw [abs_of_neg (h.trans hneg)]
      linarith
    obtain ⟨m, hm⟩ := digits_grid ha h1
    rw [← hU] at hm
    exact hgap (step hm)
  · rw [abs_of_pos hpos] at hlo
    by_cases h1 : (10 : ℚ) ^ L ≤ a
    · obtain ⟨m, hm⟩ := digits_grid ha (h1.trans (le_abs_self a))
      rw [← hU] at hm
      exact hgap (step hm)
    push Not at h1
    have hLU : (10 : ℚ) ^ L = (10 : ℚ) ^ (q - 1) * U := by
      rw [hU, ← zpow_natCast, ← zpow_add₀ ten]
      congr 1
      omega
    rcases hlo.eq_or_lt with h2 | h2
    · -- `b` is a power of ten
      have h10 : (10 : ℚ) ^ (L - 1) ≤ (10 : ℚ) ^ L - U / 10 := by
        have e1 : (10 : ℚ) ^ (L - 1) = (10 : ℚ) ^ L / 10 := by rw [zpow_sub_one₀ ten]; ring
        have e2 : U ≤ (10 : ℚ) ^ L := by
          rw [hLU]
          exact le_mul_of_one_le_left hUpos.le (one_le_pow₀ (by norm_num))
        rw [e1]
        linarith
      have hg : a ≤ (10 : ℚ) ^ L - U / 10 := by
        by_contra hlt
        push Not at hlt
        obtain ⟨m, hm⟩ := digits_grid (M := L - 1) ha ((h10.trans hlt.le).trans (le_abs_self a))
        have e3 : (10 : ℚ) ^ (L - 1 + 1 - q) = U / 10 := by rw [← hU1]; congr 1; ring
        rw [e3] at hm
        have e4 : (10 : ℚ) ^ L = ((10 ^ q : ℤ) : ℚ) * (U / 10) := by
          rw [hLU]
          push_cast
          conv_rhs => rw [show q = (q - 1) + 1 by omega, pow_succ]
          ring
        have hU' : 0 < U / 10 := by linarith
        rw [hm, e4] at h1 hlt
        have i1 : m < 10 ^ q := by exact_mod_cast lt_of_mul_lt_mul_right h1 hU'.le
        have i2 : ((10 ^ q : ℤ) : ℚ) - 1 < m := by
          have : (((10 ^ q : ℤ) : ℚ) - 1) * (U / 10) < m * (U / 10) := by linarith
          exact lt_of_mul_lt_mul_right this hU'.le
        have i3 : (10 ^ q : ℤ) - 1 < m := by exact_mod_cast i2
        omega
      have e5 : (10 : ℚ) ^ (L + 1 - q - 2) = U / 100 := by
        rw [show L + 1 - q - 2 = L + 1 - q - 1 - 1 by ring, zpow_sub_one₀ ten, hU1]; ring
      have e6 : (10 : ℚ) ^ L = (10 : ℚ) ^ q * (U / 10) := by
        rw [hLU]
        conv_rhs => rw [show q = (q - 1) + 1 by omega, pow_succ]
        ring
      have hpq : (1 : ℤ) ≤ 10 ^ q := one_le_pow₀ (by norm_num)
      refine ⟨b - U / 20, ⟨10 ^ (q + 1) - 5, L + 1 - q - 2, ?_, ?_⟩, ⟨2 * 10 ^ q - 1, L + 1 - q - 1, ?_, ?_⟩, by linarith, by linarith⟩
      · rw [e5, ← h2, e6]
        push_cast
        ring
      · rw [hp10, abs_le]
        constructor <;> linarith
      · rw [hU1, ← h2, e6]
        push_cast
        ring
      · rw [hp10, abs_le]
        constructor <;> linarith
    · apply hgap
      have e7 : (10 : ℚ) ^ L = ((10 ^ (q - 1) : ℤ) : ℚ) * U := by rw [hLU]; push_cast; rfl
      rw [e7, hn] at h2
      have i1 : (10 : ℤ) ^ (q - 1) < n := by exact_mod_cast lt_of_mul_lt_mul_right h2 hUpos.le
      have i2 : ((10 ^ (q - 1) : ℤ) : ℚ) + 1 ≤ n := by exact_mod_cast i1
      rw [e7] at h1
      rw [hn]
      nlinarith

/-- Such sites meet the assumption of the structural theorems. -/
theorem decMid (hp : 0 < p) {pts : Nat → Dec p × Dec p} (h : ShortX p pts n) : MidLt pts n where
  mid_lt := by
    intro a ha r hr b hb m h1 h2 h3
    obtain ⟨_, hm⟩ := Dec.div_some h3
    rw [Dec.val_lit, Dec.val_add, Int.cast_ofNat] at hm
    rw [Dec.lt_iff] at h1 ⊢
    rw [Dec.le_iff] at h2
    have da := h a ha
    have db := h b hb
    rw [hm]
    have fin : ∀ u : ℚ, HasDigits 10 p u → HasDigits 10 p (2 * u) → (pts a).1.val + (pts b).1.val ≤ 2 * u → u < (pts b).1.val →
        rnd 10 p (rnd 10 p ((pts a).1.val + (pts r).1.val) / 2) < (pts b).1.val := by
      intro u u1 u2 u3 u4
      have := rnd_le hp u2 (show (pts a).1.val + (pts r).1.val ≤ 2 * u by linarith)
      exact (rnd_le hp u1 (show rnd 10 p ((pts a).1.val + (pts r).1.val) / 2 ≤ u by linarith)).trans_lt u4
    have dig : ∀ u : ℚ, (∃ n e : ℤ, u = n * (10 : ℚ) ^ e ∧ |n| ≤ 10 ^ p) → HasDigits 10 p u := by
      rintro u ⟨n, e, rfl, hn⟩
      have := rnd_digits (b := 10) (p := p) (x := n * (10 : ℚ) ^ e) (by norm_num) hp
      rwa [rnd10_exact hp n e rfl hn] at this
    by_cases hq : p - 1 = 0
    · obtain ⟨k, e, ek, lk⟩ := da
      obtain ⟨k', e', ek', lk'⟩ := db
      rw [hq, pow_zero, Int.abs_lt_one_iff] at lk lk'
      rw [ek, ek', lk, lk'] at h1
      simp at h1
    by_cases hb0 : (pts b).1.val = 0
    · rw [hb0] at h1 ⊢
      have hlog := log_bounds (b := 10) (by norm_num) h1.ne
      rw [abs_of_neg h1] at hlog
      set L := Int.log 10 (-(pts a).1.val)
      have hL : (0 : ℚ) < (10 : ℚ) ^ L := by positivity
      have hlo : (10 : ℚ) ^ L ≤ -(pts a).1.val := by exact_mod_cast hlog.1
      have hp1 : (1 : ℤ) ≤ 10 ^ (p - 1) := one_le_pow₀ (by norm_num)
      have hp2 : (10 : ℤ) ^ p = 10 * 10 ^ (p - 1) := by
        conv_lhs => rw [show p = (p - 1) + 1 by omega, pow_succ]
        ring
      have := fin (-(10 : ℚ) ^ L / 2) (dig _ ⟨-5, L - 1, by rw [zpow_sub_one₀ (by norm_num)]; push_cast; ring, by rw [hp2]; norm_num; linarith⟩)
        (dig _ ⟨-1, L, by push_cast; ring, by rw [hp2]; norm_num; linarith⟩) (by rw [hb0]; linarith) (by rw [hb0]; linarith)
      rwa [hb0] at this
    · obtain ⟨u, u1, u2, u3, u4⟩ := digits_between (by omega) da db h1 hb0
      rw [show p - 1 + 1 = p by omega] at u1 u2
      exact fin u (dig u u1) (dig _ u2) u3 u4

theorem HasDigits.mono {b q q' : Nat} {x : ℚ} (hb : 1 < b) (h : HasDigits b q x) (hq : q ≤ q') : HasDigits b q' x := by
  obtain ⟨n, e, h1, h2⟩ := h
  exact ⟨n, e, h1, h2.trans_le (pow_le_pow_right₀ (by exact_mod_cast hb.le) hq)⟩

theorem shortest_digits {x : ℚ} (hx : HasDigits 2 53 x) : HasDigits 10 17 (shortest x 16 1) := by
  obtain ⟨d, h1, _, h2⟩ := shortest_written hx
  exact h1.mono (by norm_num) (h2 17 _ (rnd_digits (by norm_num) (by norm_num)) (seventeen hx)).1

/-- C102: floats converted to decimals have at most 17 digits. -/
theorem C102_floats {pts : Nat → Dec p × Dec p} (hp : 18 ≤ p) (h : ∀ i < n, ∃ f : Dec p, HasDigits 2 53 f.val ∧ (pts i).1 = Arith.ofF f) : ShortX p pts n := by
  intro i hi
  obtain ⟨f, hd, hf⟩ := h i hi
  rw [hf]
  exact (shortest_digits hd).mono (by norm_num) (by omega)

/-- C102: `create_diagram` with the rounding of `decimal`, with any precision, on sites with shorter `x`-coordinates: it ends normally, with a signal of `decimal`, or
with a ValueError or AssertionError of the clean-up.  If it ends normally, every half-edge has a twin, every listed edge has two ends, and these are different
after the clean-up. -/
theorem C102_decimal (hp : 0 < p) {pts : Nat → Dec p × Dec p} (hx : ShortX p pts n) {q : PQ (QE (Dec p))} {ok : List (QE (Dec p)) → Prop} (hq : q.Spec evLt ok)
    {poly : Poly (Dec p)} (hn : 0 < n) (hne : poly.points ≠ []) (hf : 7 * n < fuel) :
    (∃ s, createDiagram pts q n fuel poly rz (initSt poly) = .ok ((), s) ∧ TwinsMirror s.d ∧
      ∀ e ∈ s.edges, ∃ a b, OriginAt s.d e a ∧ TargetAt s.d e b ∧ (rz = true → a ≠ b)) ∨
    createDiagram pts q n fuel poly rz (initSt poly) = .error .arith ∨
    rz = true ∧ (createDiagram pts q n fuel poly rz (initSt poly) = .error .value ∨ createDiagram pts q n fuel poly rz (initSt poly) = .error .assertion) := by
  have := decMid hp hx
  cases h : createDiagram pts q n fuel poly rz (initSt poly) with
  | error e =>
    right
    rcases C48_create_errors hq hn hne hf h with rfl | ⟨h1, rfl | rfl⟩
    · exact Or.inl rfl
    · exact Or.inr ⟨h1, Or.inl rfl⟩
    · exact Or.inr ⟨h1, Or.inr rfl⟩
  | ok r =>
    left
    obtain ⟨u, s⟩ := r
    refine ⟨s, rfl, (C06_result_twins hq hn hne h).1, fun e he => ?_⟩
    cases rz with
    | false =>
      obtain ⟨a, b, h1, h2⟩ := (C27_listed_edges hq hn hne h).1 e he
      exact ⟨a, b, h1, h2, fun hh => nomatch hh⟩
    | true =>
      obtain ⟨a, b, h1, h2, h3⟩ := C36_zero_length_partial hq hn hne h e he
      exact ⟨a, b, h1, h2, fun _ => h3⟩

/-- C102: after the sweep with such rounding there are `n - 1` edges more than vertices, and each vertex joins three edges between three sites. -/
theorem C102_sweep (hp : 0 < p) {pts : Nat → Dec p × Dec p} (hx : ShortX p pts n) {q : PQ (QE (Dec p))} {ok : List (QE (Dec p)) → Prop} (hq : q.Spec evLt ok)
    {poly : Poly (Dec p)} (hn : 1 ≤ n) (hf : 7 * n < fuel) :
    (∃ s, sweepAll pts q n fuel (initSt poly) = .ok ((), s) ∧ s.edges.length = (n - 1) + s.verts.length ∧ (∀ v ∈ s.verts, JoinsThree s.d v) ∧ LinksCoherent s.d) ∨
    sweepAll pts q n fuel (initSt poly) = .error .arith := by
  have := decMid hp hx
  cases h : sweepAll pts q n fuel (initSt poly) with
  | error e => exact Or.inr (by rw [C05_sweep_errors hq hf h])
  | ok r =>
    left
    obtain ⟨u, s⟩ := r
    obtain ⟨s0, hr, _, e⟩ := sweepAll_reach h
    have h1 := (C08_degree hq hr).1
    have h2 := C07_links hq hr
    refine ⟨s, rfl, (C10_euler hq hn h).1, ?_, ?_⟩
    · rw [e]; exact h1
    · rw [e]; exact h2

/-- C01 with the rounding of `decimal`: the input has shorter `x`-coordinates. -/
theorem C01_sites_decimal {V : Type} {toDec : V → Option (Dec p)} {inp : List (V × V)} {sites : List (SiteObj (Dec p))} {q : PQ (QE (Dec p))}
    {ok : List (QE (Dec p)) → Prop} (hq : q.Spec evLt ok) (hi : inp ≠ []) (hp : 0 < p) {poly : Poly (Dec p)} (hne : poly.points ≠ []) {s' : St (Dec p)}
    (hx : ∀ u ∈ inp, ∀ x, toDec u.1 = some x → HasDigits 10 (p - 1) x.val)
    (h : voronoi toDec q inp fuel poly rz = .ok (sites, s')) :
    sites.length = inp.length ∧
    (∀ (i : Nat) (v : V × V) (o : SiteObj (Dec p)), inp[i]? = some v → sites[i]? = some o → toDec v.1 = some o.xd ∧ toDec v.2 = some o.yd) ∧
    sites.map (·.name) ~ (List.range inp.length).map some := by
  refine C01_sites hq hi hne (fun u hu v hv w hw x y z m h1 h2 h3 hxz hyz hm => ?_) h
  have := decMid (pts := fun i => ([(x, x), (y, y), (z, z)] : List (Dec p × Dec p)).getD i (x, x)) (n := 3) hp (fun i hi => by
    obtain _ | _ | _ | i := i
    · exact hx u hu x h1
    · exact hx v hv y h2
    · exact hx w hw z h3
    · omega)
  exact this.mid_lt 0 (by omega) 1 (by omega) 2 (by omega) m hxz hyz hm

/-- C102: the operations the model uses for `decimal` return the exact result, correctly rounded to `p` digits; `x ** 2` is rounded twice. -/
theorem C102_rounding (hp : 1 < p) (a b : Dec p) :
    RoundsTo 10 p (a.val + b.val : ℚ) (Arith.add a b).val ∧ RoundsTo 10 p (a.val - b.val : ℚ) (Arith.sub a b).val ∧
    RoundsTo 10 p (a.val * b.val : ℚ) (Arith.mul a b).val ∧
    (∃ y, RoundsTo 10 (p + 3) (a.val ^ 2 : ℚ) y ∧ RoundsTo 10 p y (Arith.sq a).val) ∧
    (b.val ≠ 0 → ∃ m : Dec p, Arith.div a b = some m ∧ RoundsTo 10 p (a.val / b.val : ℚ) m.val) ∧
    (0 ≤ a.val → ∃ m : Dec p, Arith.sqrt a = some m ∧ RoundsTo 10 p (Real.sqrt a.val) m.val) := by
  refine ⟨rnd_roundsTo (by decide) (by decide) hp _, rnd_roundsTo (by decide) (by decide) hp _, rnd_roundsTo (by decide) (by decide) hp _, ⟨_, rnd_roundsTo (by decide) (by decide) (by omega) _, ?_⟩,
    fun h => ?_, fun h => ?_⟩
  · rw [pow_two]
    exact rnd_roundsTo (by decide) (by decide) hp _
  · obtain ⟨m, h1, h2⟩ := Dec.div_ok (a := a) h
    exact ⟨m, h1, h2 ▸ rnd_roundsTo (by decide) (by decide) hp _⟩
  · obtain ⟨m, h1, h2⟩ := Dec.sqrt_ok h
    exact ⟨m, h1, h2 ▸ rndSqrt_roundsTo (by norm_num) hp (by decide) h⟩

/-! ### the circle of three sites -/

/-- Both coordinates are multiples `k` of a power of ten with `|k|` at most `B`. -/
def OnGrid (g B : ℤ) (a : Dec p × Dec p) : Prop :=
  ∃ k m : ℤ, a.1.val = k * (10 : ℚ) ^ g ∧ a.2.val = m * (10 : ℚ) ^ g ∧ |k| ≤ B ∧ |m| ≤ B

/-- A value that was computed exactly: it is a multiple of `10 ^ g` of at most `A`. -/
structure Exact (g A : ℤ) (x : Dec p) (v : ℚ) : Prop where
  val : x.val = v
  grid : ∃ k : ℤ, v = k * (10 : ℚ) ^ g ∧ |k| ≤ A

theorem Exact.sub {g A B : ℤ} {x y : Dec p} {v w : ℚ} (hp : 0 < p) (hx : Exact g A x v) (hy : Exact g B y w) (h : A + B ≤ 10 ^ p) :
    Exact g (A + B) (Arith.sub x y) (v - w) := by
  obtain ⟨k, ek, lk⟩ := hx.grid
  obtain ⟨m, em, lm⟩ := hy.grid
  have e : v - w = ((k - m : ℤ) : ℚ) * (10 : ℚ) ^ g := by rw [ek, em]; push_cast; ring
  have l : |k - m| ≤ A + B := (abs_sub _ _).trans (add_le_add lk lm)
  exact ⟨by rw [Dec.val_sub, hx.val, hy.val, rnd10_exact hp _ _ e (l.trans h)], _, e, l⟩

theorem Exact.add {g A B : ℤ} {x y : Dec p} {v w : ℚ} (hp : 0 < p) (hx : Exact g A x v) (hy : Exact g B y w) (h : A + B ≤ 10 ^ p) :
    Exact g (A + B) (Arith.add x y) (v + w) := by
  obtain ⟨k, ek, lk⟩ := hx.grid
  obtain ⟨m, em, lm⟩ := hy.grid
  have e : v + w = ((k + m : ℤ) : ℚ) * (10 : ℚ) ^ g := by rw [ek, em]; push_cast; ring
  have l : |k + m| ≤ A + B := (abs_add_le _ _).trans (add_le_add lk lm)
  exact ⟨by rw [Dec.val_add, hx.val, hy.val, rnd10_exact hp _ _ e (l.trans h)], _, e, l⟩

theorem Exact.mul {g g' A B : ℤ} {x y : Dec p} {v w : ℚ} (hp : 0 < p) (hx : Exact g A x v) (hy : Exact g' B y w) (h : A * B ≤ 10 ^ p) :
    Exact (g + g') (A * B) (Arith.mul x y) (v * w) := by
  obtain ⟨k, ek, lk⟩ := hx.grid
  obtain ⟨m, em, lm⟩ := hy.grid
  have e : v * w = ((k * m : ℤ) : ℚ) * (10 : ℚ) ^ (g + g') := by rw [ek, em, zpow_add₀ (by norm_num)]; push_cast; ring
  have l : |k * m| ≤ A * B := by
    rw [abs_mul]
    exact mul_le_mul lk lm (abs_nonneg _) ((abs_nonneg _).trans lk)
  exact ⟨by rw [Dec.val_mul, hx.val, hy.val, rnd10_exact hp _ _ e (l.trans h)], _, e, l⟩

theorem rnd_nonneg (hp : 0 < p) {x : ℚ} (hx : 0 ≤ x) : 0 ≤ rnd 10 p x := by
  have h := (rnd_rounds (b := 10) (by norm_num) hp x).2.1 0 ⟨0, 0, by simp, by positivity⟩
  rw [zero_sub, abs_neg, abs_of_nonneg hx] at h
  have := (abs_le.mp h).1
  linarith

theorem centre_eq (a₁ a₂ b₁ b₂ c₁ c₂ : ℚ) (h : 2 * ((b₁ - a₁) * (c₂ - a₂) - (b₂ - a₂) * (c₁ - a₁)) ≠ 0) :
    ((((c₂ - a₂) * ((b₁ - a₁) * (a₁ + b₁) + (b₂ - a₂) * (a₂ + b₂)) - (b₂ - a₂) * ((c₁ - a₁) * (a₁ + c₁) + (c₂ - a₂) * (a₂ + c₂))) / (2 * ((b₁ - a₁) * (c₂ - a₂) - (b₂ - a₂) * (c₁ - a₁)))) - a₁) ^ 2 + ((((b₁ - a₁) * ((c₁ - a₁) * (a₁ + c₁) + (c₂ - a₂) * (a₂ + c₂)) - (c₁ - a₁) * ((b₁ - a₁) * (a₁ + b₁) + (b₂ - a₂) * (a₂ + b₂))) / (2 * ((b₁ - a₁) * (c₂ - a₂) - (b₂ - a₂) * (c₁ - a₁)))) - a₂) ^ 2 =
      ((((c₂ - a₂) * ((b₁ - a₁) * (a₁ + b₁) + (b₂ - a₂) * (a₂ + b₂)) - (b₂ - a₂) * ((c₁ - a₁) * (a₁ + c₁) + (c₂ - a₂) * (a₂ + c₂))) / (2 * ((b₁ - a₁) * (c₂ - a₂) - (b₂ - a₂) * (c₁ - a₁)))) - b₁) ^ 2 + ((((b₁ - a₁) * ((c₁ - a₁) * (a₁ + c₁) + (c₂ - a₂) * (a₂ + c₂)) - (c₁ - a₁) * ((b₁ - a₁) * (a₁ + b₁) + (b₂ - a₂) * (a₂ + b₂))) / (2 * ((b₁ - a₁) * (c₂ - a₂) - (b₂ - a₂) * (c₁ - a₁)))) - b₂) ^ 2 ∧
    ((((c₂ - a₂) * ((b₁ - a₁) * (a₁ + b₁) + (b₂ - a₂) * (a₂ + b₂)) - (b₂ - a₂) * ((c₁ - a₁) * (a₁ + c₁) + (c₂ - a₂) * (a₂ + c₂))) / (2 * ((b₁ - a₁) * (c₂ - a₂) - (b₂ - a₂) * (c₁ - a₁)))) - a₁) ^ 2 + ((((b₁ - a₁) * ((c₁ - a₁) * (a₁ + c₁) + (c₂ - a₂) * (a₂ + c₂)) - (c₁ - a₁) * ((b₁ - a₁) * (a₁ + b₁) + (b₂ - a₂) * (a₂ + b₂))) / (2 * ((b₁ - a₁) * (c₂ - a₂) - (b₂ - a₂) * (c₁ - a₁)))) - a₂) ^ 2 =
      ((((c₂ - a₂) * ((b₁ - a₁) * (a₁ + b₁) + (b₂ - a₂) * (a₂ + b₂)) - (b₂ - a₂) * ((c₁ - a₁) * (a₁ + c₁) + (c₂ - a₂) * (a₂ + c₂))) / (2 * ((b₁ - a₁) * (c₂ - a₂) - (b₂ - a₂) * (c₁ - a₁)))) - c₁) ^ 2 + ((((b₁ - a₁) * ((c₁ - a₁) * (a₁ + c₁) + (c₂ - a₂) * (a₂ + c₂)) - (c₁ - a₁) * ((b₁ - a₁) * (a₁ + b₁) + (b₂ - a₂) * (a₂ + b₂))) / (2 * ((b₁ - a₁) * (c₂ - a₂) - (b₂ - a₂) * (c₁ - a₁)))) - c₂) ^ 2 := by
  generalize hG : 2 * ((b₁ - a₁) * (c₂ - a₂) - (b₂ - a₂) * (c₁ - a₁)) = G at h ⊢
  constructor
  · field_simp
    rw [← hG]
    ring
  · field_simp
    rw [← hG]
    ring

/-- C103: for three sites whose coordinates are multiples of one power of ten, at most `B` of it with `32 B³ ≤ 10 ^ p`, `create_circle` with precision `p` finds
exactly whether they are on a line, and otherwise returns the centre of their circle with both coordinates correctly rounded. -/
theorem C103_circle {g B : ℤ} {a b c : Dec p × Dec p} (hp1 : 1 < p) (hB : 32 * B ^ 3 ≤ 10 ^ p) (ha : OnGrid g B a) (hb : OnGrid g B b) (hc : OnGrid g B c) :
    (createCircle a b c = some none ↔ (b.1.val - a.1.val) * (c.2.val - a.2.val) = (b.2.val - a.2.val) * (c.1.val - a.1.val)) ∧
    ((b.1.val - a.1.val) * (c.2.val - a.2.val) ≠ (b.2.val - a.2.val) * (c.1.val - a.1.val) →
      ∃ (C : Circle (Dec p)) (x y : ℚ), createCircle a b c = some (some C) ∧ RoundsTo 10 p x C.x.val ∧ RoundsTo 10 p y C.y.val ∧
        (x - a.1.val) ^ 2 + (y - a.2.val) ^ 2 = (x - b.1.val) ^ 2 + (y - b.2.val) ^ 2 ∧
        (x - a.1.val) ^ 2 + (y - a.2.val) ^ 2 = (x - c.1.val) ^ 2 + (y - c.2.val) ^ 2) := by
  have hp : 0 < p := by omega
  obtain ⟨a1, a2, ea1, ea2, la1, la2⟩ := ha
  obtain ⟨b1, b2, eb1, eb2, lb1, lb2⟩ := hb
  obtain ⟨c1, c2, ec1, ec2, lc1, lc2⟩ := hc
  have hB0 : 0 ≤ B := (abs_nonneg _).trans la1
  obtain ⟨q1, q2⟩ : B ≤ B ^ 3 ∧ B ^ 2 ≤ B ^ 3 := by
    rcases hB0.eq_or_lt with h0 | hB1
    · rw [← h0]
      norm_num
    · exact ⟨le_self_pow₀ hB1 (by norm_num), pow_le_pow_right₀ hB1 (by norm_num)⟩
  have A1 : Exact g B a.1 a.1.val := ⟨rfl, a1, ea1, la1⟩
  have A2 : Exact g B a.2 a.2.val := ⟨rfl, a2, ea2, la2⟩
  have B1 : Exact g B b.1 b.1.val := ⟨rfl, b1, eb1, lb1⟩
  have B2 : Exact g B b.2 b.2.val := ⟨rfl, b2, eb2, lb2⟩
  have C1 : Exact g B c.1 c.1.val := ⟨rfl, c1, ec1, lc1⟩
  have C2 : Exact g B c.2 c.2.val := ⟨rfl, c2, ec2, lc2⟩
  have l2 : B + B ≤ 10 ^ p := by linarith
  have l4 : (B + B) * (B + B) ≤ 10 ^ p := by nlinarith
  have l8 : (B + B) * (B + B) + (B + B) * (B + B) ≤ 10 ^ p := by nlinarith
  have l16 : 2 * ((B + B) * (B + B) + (B + B) * (B + B)) ≤ 10 ^ p := by nlinarith
  have m16 : (B + B) * ((B + B) * (B + B) + (B + B) * (B + B)) ≤ 10 ^ p := by nlinarith
  have m32 : (B + B) * ((B + B) * (B + B) + (B + B) * (B + B)) + (B + B) * ((B + B) * (B + B) + (B + B) * (B + B)) ≤ 10 ^ p := by nlinarith
  have dA := B1.sub hp A1 l2
  have dB := B2.sub hp A2 l2
  have dC := C1.sub hp A1 l2
  have dD := C2.sub hp A2 l2
  have eE := ((dA.mul hp (A1.add hp B1 l2) l4).add hp (dB.mul hp (A2.add hp B2 l2) l4) l8)
  have eF := ((dC.mul hp (A1.add hp C1 l2) l4).add hp (dD.mul hp (A2.add hp C2 l2) l4) l8)
  have two : Exact 0 2 (Arith.ofInt 2 : Dec p) 2 := ⟨by rw [Dec.val_lit]; norm_num, 2, by norm_num, by norm_num⟩
  have eG := two.mul hp ((dA.mul hp (C2.sub hp B2 l2) l4).sub hp (dB.mul hp (C1.sub hp B1 l2) l4) l8) l16
  have eX := (dD.mul hp eE m16).sub hp (dB.mul hp eF m16) m32
  have eY := (dA.mul hp eF m16).sub hp (dC.mul hp eE m16) m32
  have hG : (circleG a b c).val = 2 * ((b.1.val - a.1.val) * (c.2.val - a.2.val) - (b.2.val - a.2.val) * (c.1.val - a.1.val)) := by
    exact eG.val.trans (by ring)
  have hz : (circleG a b c = Arith.ofInt 0) ↔ (b.1.val - a.1.val) * (c.2.val - a.2.val) = (b.2.val - a.2.val) * (c.1.val - a.1.val) := by
    rw [Dec.ext_iff, hG, Dec.val_lit, Int.cast_zero, mul_eq_zero, or_iff_right (by norm_num), sub_eq_zero]
  have hsome : (b.1.val - a.1.val) * (c.2.val - a.2.val) ≠ (b.2.val - a.2.val) * (c.1.val - a.1.val) →
      ∃ (C : Circle (Dec p)) (x y : ℚ), createCircle a b c = some (some C) ∧ RoundsTo 10 p x C.x.val ∧ RoundsTo 10 p y C.y.val ∧
        (x - a.1.val) ^ 2 + (y - a.2.val) ^ 2 = (x - b.1.val) ^ 2 + (y - b.2.val) ^ 2 ∧
        (x - a.1.val) ^ 2 + (y - a.2.val) ^ 2 = (x - c.1.val) ^ 2 + (y - c.2.val) ^ 2 := by
    intro hne
    have hg0 : (circleG a b c).val ≠ 0 := by
      rw [hG]
      exact mul_ne_zero two_ne_zero (sub_ne_zero.mpr hne)
    obtain ⟨x, ex, vx⟩ := Dec.div_ok (a := Arith.sub (Arith.mul (Arith.sub c.2 a.2) (Arith.add (Arith.mul (Arith.sub b.1 a.1) (Arith.add a.1 b.1)) (Arith.mul (Arith.sub b.2 a.2) (Arith.add a.2 b.2))))
      (Arith.mul (Arith.sub b.2 a.2) (Arith.add (Arith.mul (Arith.sub c.1 a.1) (Arith.add a.1 c.1)) (Arith.mul (Arith.sub c.2 a.2) (Arith.add a.2 c.2))))) hg0
    obtain ⟨y, ey, vy⟩ := Dec.div_ok (a := Arith.sub (Arith.mul (Arith.sub b.1 a.1) (Arith.add (Arith.mul (Arith.sub c.1 a.1) (Arith.add a.1 c.1)) (Arith.mul (Arith.sub c.2 a.2) (Arith.add a.2 c.2))))
      (Arith.mul (Arith.sub c.1 a.1) (Arith.add (Arith.mul (Arith.sub b.1 a.1) (Arith.add a.1 b.1)) (Arith.mul (Arith.sub b.2 a.2) (Arith.add a.2 b.2))))) hg0
    have hr : ∃ r : Dec p, Arith.sqrt (Arith.add (Arith.sq (Arith.sub a.1 x)) (Arith.sq (Arith.sub a.2 y))) = some r := by
      obtain ⟨r, hr, _⟩ := Dec.sqrt_ok (a := Arith.add (Arith.sq (Arith.sub a.1 x)) (Arith.sq (Arith.sub a.2 y))) (by
        rw [Dec.val_add, Dec.val_sq, Dec.val_sq]
        exact rnd_nonneg hp (add_nonneg (rnd_nonneg hp (rnd_nonneg (by omega) (mul_self_nonneg _))) (rnd_nonneg hp (rnd_nonneg (by omega) (mul_self_nonneg _)))))
      exact ⟨r, hr⟩
    obtain ⟨r, er⟩ := hr
    rw [eX.val] at vx
    rw [eY.val] at vy
    refine ⟨⟨x, y, r⟩, _, _, ?_, vx ▸ rnd_roundsTo (by decide) (by decide) hp1 _, vy ▸ rnd_roundsTo (by decide) (by decide) hp1 _, ?_, ?_⟩
    · have hg1 : circleG a b c ≠ Arith.ofInt 0 := fun h => hne (hz.mp h)
      simp only [createCircle]
      rw [if_neg hg1, ex]
      simp only [Option.bind_eq_bind, Option.bind_some]
      rw [ey]
      simp only [Option.bind_some]
      rw [er]
      rfl
    · rw [hG] at hg0 ⊢
      exact (centre_eq _ _ _ _ _ _ hg0).1
    · rw [hG] at hg0 ⊢
      exact (centre_eq _ _ _ _ _ _ hg0).2
  refine ⟨⟨fun h => ?_, fun h => ?_⟩, hsome⟩
  · by_contra hne
    obtain ⟨C, x, y, h1, _⟩ := hsome hne
    rw [h] at h1
    exact nomatch h1
  · simp only [createCircle]
    rw [if_pos (hz.mpr h)]

end Foronoi
