import Verif.Spec.Poly
import Verif.Proof.Circle

/-!
# Polygons with exact arithmetic
-/

namespace Foronoi

open Real

theorem fmod_range {x : ℝ} (h0 : 0 ≤ x) (h1 : x < 360) : x - 360 * (⌊x / 360⌋ : ℝ) = x := by
  have : ⌊x / 360⌋ = 0 := by
    rw [Int.floor_eq_zero_iff]
    exact ⟨by positivity, by rw [div_lt_one (by norm_num)]; exact h1⟩
  rw [this]; simp

theorem fmod_shift (x : ℝ) (k : ℤ) : (x + 360 * k) - 360 * (⌊(x + 360 * k) / 360⌋ : ℝ) = x - 360 * (⌊x / 360⌋ : ℝ) := by
  have : (x + 360 * k) / 360 = x / 360 + k := by ring
  rw [this, Int.floor_add_intCast]
  push_cast
  ring

/-- The sort key of `_order_points`, exactly. -/
theorem orderKey_real (c p : Pt) : orderKey c p = 180 - Complex.arg ⟨p.1 - c.1, p.2 - c.2⟩ * 180 / π := by
  set a := Complex.arg ⟨p.1 - c.1, p.2 - c.2⟩ with ha
  have h1 : a ≤ π := Complex.arg_le_pi _
  have h2 : -π < a := Complex.neg_pi_lt_arg _
  have hp : 0 < π := pi_pos
  have e1 : orderKey c p = (-180 - (a * 180 / π - 360 * (⌊a * 180 / π / 360⌋ : ℝ))) -
      360 * (⌊(-180 - (a * 180 / π - 360 * (⌊a * 180 / π / 360⌋ : ℝ))) / 360⌋ : ℝ) := by
    simp only [orderKey, calcAngle, Arith.fmod360, Arith.fsub, Arith.angleDeg, lit, Arith.ofInt, Arith.sub, angleR]
    norm_num
    rfl
  set k := ⌊a * 180 / π / 360⌋
  have e2 : (-180 - (a * 180 / π - 360 * (k : ℝ))) = (180 - a * 180 / π) + 360 * ((k - 1 : ℤ) : ℝ) := by push_cast; ring
  rw [e1, e2, fmod_shift, fmod_range]
  · have : a * 180 / π ≤ 180 := by rw [div_le_iff₀ hp]; nlinarith
    linarith
  · have : -180 < a * 180 / π := by rw [lt_div_iff₀ hp]; nlinarith
    linarith

theorem orderKey_dir (c p : Pt) : ClockwiseFromWest c p (orderKey c p) := by
  rw [orderKey_real]
  set z : ℂ := ⟨p.1 - c.1, p.2 - c.2⟩ with hz
  have h1 : z.arg ≤ π := Complex.arg_le_pi _
  have h2 : -π < z.arg := Complex.neg_pi_lt_arg _
  have hp : 0 < π := pi_pos
  refine ⟨?_, ?_, ‖z‖, norm_nonneg _, ?_, ?_⟩
  · have : z.arg * 180 / π ≤ 180 := by rw [div_le_iff₀ hp]; nlinarith
    linarith
  · have : -180 < z.arg * 180 / π := by rw [lt_div_iff₀ hp]; nlinarith
    linarith
  · have e : (180 - z.arg * 180 / π) * π / 180 = π - z.arg := by field_simp
    rw [e, cos_pi_sub, mul_neg, Complex.norm_mul_cos_arg]
    show p.1 = c.1 - -(p.1 - c.1); ring
  · have e : (180 - z.arg * 180 / π) * π / 180 = π - z.arg := by field_simp
    rw [e, sin_pi_sub, Complex.norm_mul_sin_arg]
    show p.2 = c.2 + (p.2 - c.2); ring

theorem orderKey_le_iff (c p r : Pt) : orderKey c p ≤ orderKey c r ↔
    Complex.arg ⟨r.1 - c.1, r.2 - c.2⟩ ≤ Complex.arg ⟨p.1 - c.1, p.2 - c.2⟩ := by
  rw [orderKey_real, orderKey_real]
  have hp : 0 < π := pi_pos
  rw [sub_le_sub_iff_left, div_le_div_iff_of_pos_right hp]
  constructor <;> intro h <;> linarith

/-! ### inside -/

open Classical in
theorem crosses_real (z p q : Pt) : crosses z.1 z.2 p q = some (decide (RayHits z p q)) := by
  unfold crosses
  by_cases h : (decide (p.2 > z.2) != decide (q.2 > z.2)) = true
  · rw [if_pos h]
    have hne : q.2 - p.2 ≠ 0 := by
      intro h0
      have : q.2 = p.2 := by linarith
      rw [this] at h; simp at h
    simp only [rMul, rSub, rAdd, rDiv _ _ hne, Option.bind_eq_bind, Option.bind_some]
    congr 1
    rw [decide_eq_decide]
    have hcase : (z.2 < p.2 ∧ q.2 ≤ z.2) ∨ (z.2 < q.2 ∧ p.2 ≤ z.2) := by
      by_cases h1 : z.2 < p.2 <;> by_cases h2 : z.2 < q.2 <;> simp [h1, h2] at h
      · exact Or.inl ⟨h1, not_lt.mp h2⟩
      · exact Or.inr ⟨h2, not_lt.mp h1⟩
    set t := (z.2 - p.2) / (q.2 - p.2) with ht
    have htm : t * (q.2 - p.2) = z.2 - p.2 := by rw [ht]; field_simp
    have hX : (q.1 - p.1) * (z.2 - p.2) / (q.2 - p.2) + p.1 = (1 - t) * p.1 + t * q.1 := by rw [ht]; field_simp; ring
    rw [hX]
    have ht0 : 0 ≤ t ∧ t ≤ 1 := by
      rcases hcase with ⟨h1, h2⟩ | ⟨h1, h2⟩
      · have hn : q.2 - p.2 < 0 := by linarith
        exact ⟨by rw [ht]; exact div_nonneg_of_nonpos (by linarith) hn.le, by rw [ht, div_le_one_of_neg hn]; linarith⟩
      · have hn : 0 < q.2 - p.2 := by linarith
        exact ⟨by rw [ht]; exact div_nonneg (by linarith) hn.le, by rw [ht, div_le_one hn]; linarith⟩
    constructor
    · intro hx
      refine ⟨((1 - t) * p.1 + t * q.1, (1 - t) * p.2 + t * q.2), ⟨t, ht0.1, ht0.2, rfl⟩, by linarith, hx, ?_⟩
      have e : (1 - t) * p.2 + t * q.2 = z.2 := by linarith
      rw [e, lt_max_iff]
      rcases hcase with ⟨h1, h2⟩ | ⟨h1, h2⟩
      · exact Or.inl h1
      · exact Or.inr h1
    · rintro ⟨w, ⟨u, hu0, hu1, rfl⟩, hw2, hw1, _⟩
      have : u = t := by
        have e : u * (q.2 - p.2) = t * (q.2 - p.2) := by simp only at hw2; linarith
        exact mul_right_cancel₀ hne e
      subst this
      exact hw1
  · rw [if_neg h]
    congr 1
    symm
    rw [decide_eq_false_iff_not]
    rintro ⟨w, ⟨u, hu0, hu1, rfl⟩, hw2, hw1, hw3⟩
    simp only at hw2 hw3
    rw [hw2, lt_max_iff] at hw3
    by_cases h1 : z.2 < p.2 <;> by_cases h2 : z.2 < q.2 <;> simp [h1, h2] at h
    · have e1 : 0 ≤ (1 - u) * (p.2 - z.2) := mul_nonneg (by linarith) (by linarith)
      have e2 : 0 ≤ u * (q.2 - z.2) := mul_nonneg hu0 (by linarith)
      rcases hu0.eq_or_lt with h0 | h0
      · subst h0; linarith
      · have e3 : 0 < u * (q.2 - z.2) := mul_pos h0 (by linarith)
        linarith
    · rcases hw3 with h3 | h3
      · exact h1 h3
      · exact h2 h3

open Classical in
theorem insideLoop_real (z : Pt) : ∀ (L : List Pt) (acc : Bool), insideLoop z.1 z.2 L acc =
    some (xor acc (decide (Odd ((List.range (L.length - 1)).countP (fun i => decide (RayHits z (L.getD i (0, 0)) (L.getD (i + 1) (0, 0))))))))
  | [], acc => by simp [insideLoop]
  | [_], acc => by simp [insideLoop]
  | p :: q :: rest, acc => by
    rw [insideLoop, crosses_real]
    simp only [Option.bind_eq_bind, Option.bind_some]
    rw [insideLoop_real z (q :: rest)]
    congr 1
    have : (p :: q :: rest).length - 1 = ((q :: rest).length - 1) + 1 := by simp
    rw [this, List.range_succ_eq_map, List.countP_cons, List.countP_map]
    have hf : ((fun i => decide (RayHits z ((p :: q :: rest).getD i (0, 0)) ((p :: q :: rest).getD (i + 1) (0, 0)))) ∘ Nat.succ) =
        (fun i => decide (RayHits z ((q :: rest).getD i (0, 0)) ((q :: rest).getD (i + 1) (0, 0)))) := by
      funext i; rfl
    rw [hf]
    by_cases hr : RayHits z p q
    · simp only [hr, decide_true, if_true, List.getD_cons_zero, List.getD_cons_succ, Nat.odd_add_one]
      cases acc <;> simp [← Nat.not_odd_iff_even]
    · simp [hr]

/-- The number of sides met by the ray. -/
noncomputable def hitCount (l : List Pt) (z : Pt) : Nat :=
  open Classical in (List.range l.length).countP (fun i => decide (RayHits z (corner l i) (corner l (i + 1))))

theorem getD_closed (l : List Pt) {i : Nat} (hi : i ≤ l.length) (hl : l ≠ []) : (l ++ l.take 1).getD i (0, 0) = corner l i := by
  have hpos := List.length_pos_iff.mpr hl
  unfold corner
  rcases Nat.lt_or_ge i l.length with h | h
  · rw [Nat.mod_eq_of_lt h, List.getD_eq_getElem?_getD, List.getD_eq_getElem?_getD, List.getElem?_append_left h]
  · have : i = l.length := by omega
    subst this
    rw [Nat.mod_self, List.getD_eq_getElem?_getD, List.getD_eq_getElem?_getD, List.getElem?_append_right (le_refl _), Nat.sub_self]
    cases l with
    | nil => exact (hl rfl).elim
    | cons a l => rfl

open Classical in
theorem inside_real (l : List Pt) (z : Pt) : inside l z = some (decide (Odd (hitCount l z))) := by
  unfold inside
  rw [insideLoop_real]
  rw [Bool.false_xor]
  congr 2
  unfold hitCount
  by_cases hl : l = []
  · subst hl; simp
  · have hpos := List.length_pos_iff.mpr hl
    have h1 : (l ++ l.take 1).length - 1 = l.length := by simp; omega
    rw [h1]
    congr 1
    refine List.countP_congr fun i hi => ?_
    rw [List.mem_range] at hi
    rw [getD_closed l hi.le hl, getD_closed l (by omega) hl]

end Foronoi
