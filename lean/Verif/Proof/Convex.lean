import Verif.Proof.PolyReal

/-!
# The ray rule on convex polygons
-/

namespace Foronoi

theorem rightOf_cycle (p q z : Pt) : rightOf p q z = rightOf q z p := by unfold rightOf; ring

theorem rightOf_self (p q : Pt) : rightOf p q p = 0 ∧ rightOf p q q = 0 := by unfold rightOf; constructor <;> ring

theorem rightOf_affine (p q a b : Pt) (t : ℝ) :
    rightOf p q ((1 - t) * a.1 + t * b.1, (1 - t) * a.2 + t * b.2) = (1 - t) * rightOf p q a + t * rightOf p q b := by
  unfold rightOf; ring

theorem rightOf_between {p q a b z : Pt} (ha : 0 ≤ rightOf p q a) (hb : 0 ≤ rightOf p q b) (h : Between a b z) : 0 ≤ rightOf p q z := by
  obtain ⟨t, h0, h1, rfl⟩ := h
  rw [rightOf_affine]
  have := mul_nonneg (sub_nonneg.mpr h1) ha
  have := mul_nonneg h0 hb
  linarith

/-- Four corners in convex position: the diagonals cross, so they are not separated by a horizontal line. -/
theorem four (a b c d : Pt) (y : ℝ) : rightOf b c d * (a.2 - y) + rightOf a b d * (c.2 - y) =
    rightOf a c d * (b.2 - y) + rightOf a b c * (d.2 - y) := by
  unfold rightOf; ring

variable {l : List Pt}

theorem corner_wrap (l : List Pt) : corner l l.length = corner l 0 := by unfold corner; rw [Nat.mod_self, Nat.zero_mod]

/-- All corners are on the right of every side, or on it. -/
theorem ClockwiseConvex.side (h : ClockwiseConvex l) {i k : Nat} (hi : i < l.length) (hk : k < l.length) :
    0 ≤ rightOf (corner l i) (corner l (i + 1)) (corner l k) := by
  obtain ⟨h3, h⟩ := h
  rcases Nat.lt_or_ge (i + 1) l.length with h1 | h1
  · rcases Nat.lt_trichotomy k i with hki | rfl | hki
    · rw [← rightOf_cycle]; exact (h k i (i + 1) hki (by omega) h1).le
    · rw [(rightOf_self _ _).1]
    · rcases Nat.eq_or_lt_of_le hki with h2 | h2
      · obtain rfl : k = i + 1 := by omega
        rw [(rightOf_self _ _).2]
      · exact (h i (i + 1) k (by omega) h2 hk).le
  · have hn : i + 1 = l.length := by omega
    rw [hn, corner_wrap]
    rcases Nat.eq_zero_or_pos k with rfl | hk0
    · rw [(rightOf_self _ _).2]
    · rcases Nat.eq_or_lt_of_le (Nat.le_of_lt_succ (by omega : k < i + 1)) with rfl | hki
      · rw [(rightOf_self _ _).1]
      · rw [rightOf_cycle]; exact (h 0 k i hk0 hki hi).le

section signs
variable (l) (z : Pt)

/-- The corner is above the height of `z`. -/
def Above (i : Nat) : Prop := z.2 < (corner l i).2

def Down (i : Nat) : Prop := Above l z i ∧ ¬ Above l z (i + 1)
def Up (i : Nat) : Prop := ¬ Above l z i ∧ Above l z (i + 1)

end signs

variable {z : Pt}

theorem alt1 (h : ClockwiseConvex l) {i j k m : Nat} (hij : i < j) (hjk : j < k) (hkm : k < m) (hm : m < l.length)
    (h1 : Above l z i) (h2 : ¬ Above l z j) (h3 : Above l z k) (h4 : ¬ Above l z m) : False := by
  obtain ⟨_, h⟩ := h
  have e := four (corner l i) (corner l j) (corner l k) (corner l m) z.2
  unfold Above at h1 h2 h3 h4
  have a1 := mul_pos (h j k m hjk hkm hm) (sub_pos.mpr h1)
  have a2 := mul_pos (h i j m hij (by omega) hm) (sub_pos.mpr h3)
  have a3 := mul_nonneg (h i k m (by omega) hkm hm).le (sub_nonneg.mpr (not_lt.mp h2))
  have a4 := mul_nonneg (h i j k hij hjk (by omega)).le (sub_nonneg.mpr (not_lt.mp h4))
  nlinarith

theorem alt2 (h : ClockwiseConvex l) {i j k m : Nat} (hij : i < j) (hjk : j < k) (hkm : k < m) (hm : m < l.length)
    (h1 : ¬ Above l z i) (h2 : Above l z j) (h3 : ¬ Above l z k) (h4 : Above l z m) : False := by
  obtain ⟨_, h⟩ := h
  have e := four (corner l i) (corner l j) (corner l k) (corner l m) z.2
  unfold Above at h1 h2 h3 h4
  have a1 := mul_nonneg (h j k m hjk hkm hm).le (sub_nonneg.mpr (not_lt.mp h1))
  have a2 := mul_nonneg (h i j m hij (by omega) hm).le (sub_nonneg.mpr (not_lt.mp h3))
  have a3 := mul_pos (h i k m (by omega) hkm hm) (sub_pos.mpr h2)
  have a4 := mul_pos (h i j k hij hjk (by omega)) (sub_pos.mpr h4)
  nlinarith

theorem down_unique (h : ClockwiseConvex l) {i k : Nat} (hi : i < l.length) (hk : k < l.length) (h1 : Down l z i) (h2 : Down l z k) : i = k := by
  wlog hik : i ≤ k generalizing i k
  · exact (this hk hi h2 h1 (by omega)).symm
  by_contra hne
  have hlt : i + 1 < k := by
    rcases Nat.lt_or_ge (i + 1) k with h' | h'
    · exact h'
    · have : k = i + 1 := by omega
      rw [this] at h2; exact (h1.2 h2.1).elim
  rcases Nat.lt_or_ge (k + 1) l.length with h' | h'
  · exact alt1 h (Nat.lt_succ_self i) hlt (Nat.lt_succ_self k) h' h1.1 h1.2 h2.1 h2.2
  · have hn : k + 1 = l.length := by omega
    have h0 : ¬ Above l z 0 := by
      have := h2.2; rw [hn] at this; unfold Above at *; rwa [corner_wrap] at this
    have hi0 : 0 < i := by
      rcases Nat.eq_zero_or_pos i with rfl | h''
      · exact (h0 h1.1).elim
      · exact h''
    exact alt2 h hi0 (Nat.lt_succ_self i) hlt hk h0 h1.1 h1.2 h2.1

theorem up_unique (h : ClockwiseConvex l) {i k : Nat} (hi : i < l.length) (hk : k < l.length) (h1 : Up l z i) (h2 : Up l z k) : i = k := by
  wlog hik : i ≤ k generalizing i k
  · exact (this hk hi h2 h1 (by omega)).symm
  by_contra hne
  have hlt : i + 1 < k := by
    rcases Nat.lt_or_ge (i + 1) k with h' | h'
    · exact h'
    · have : k = i + 1 := by omega
      rw [this] at h2; exact (h2.1 h1.2).elim
  rcases Nat.lt_or_ge (k + 1) l.length with h' | h'
  · exact alt2 h (Nat.lt_succ_self i) hlt (Nat.lt_succ_self k) h' h1.1 h1.2 h2.1 h2.2
  · have hn : k + 1 = l.length := by omega
    have h0 : Above l z 0 := by
      have := h2.2; rw [hn] at this; unfold Above at *; rwa [corner_wrap] at this
    have hi0 : 0 < i := by
      rcases Nat.eq_zero_or_pos i with rfl | h''
      · exact (h1.1 h0).elim
      · exact h''
    exact alt1 h hi0 (Nat.lt_succ_self i) hlt hk h0 h1.1 h1.2 h2.1

/-- A property of corners that holds at one and is passed on along the sides holds everywhere. -/
theorem cycle_all {P : Nat → Prop} {n : Nat} (hw : P n → P 0) (hs : ∀ i < n, P i → P (i + 1)) {a : Nat} (ha : a < n) (h : P a) :
    ∀ i < n, P i := by
  have hup : ∀ d a, a + d ≤ n → P a → P (a + d) := by
    intro d
    induction d with
    | zero => exact fun a _ h => h
    | succ d ih =>
      intro a hd h
      have := hs (a + d) (by omega) (ih a (by omega) h)
      exact this
  have h0 : P 0 := hw (by have := hup (n - a) a (by omega) h; rwa [show a + (n - a) = n by omega] at this)
  intro i hi
  have := hup i 0 (by omega) h0
  rwa [Nat.zero_add] at this

theorem exists_down {a b : Nat} (ha : a < l.length) (hb : b < l.length) (h1 : Above l z a) (h2 : ¬ Above l z b) :
    ∃ i < l.length, Down l z i := by
  by_contra hn
  push Not at hn
  refine h2 (cycle_all (P := Above l z) (n := l.length) ?_ ?_ ha h1 b hb)
  · unfold Above; rw [corner_wrap]; exact id
  · intro i hi h; by_contra h'; exact hn i hi ⟨h, h'⟩

theorem exists_up {a b : Nat} (ha : a < l.length) (hb : b < l.length) (h1 : Above l z a) (h2 : ¬ Above l z b) :
    ∃ i < l.length, Up l z i := by
  by_contra hn
  push Not at hn
  refine cycle_all (P := fun i => ¬ Above l z i) (n := l.length) ?_ ?_ hb h2 a ha h1
  · unfold Above; rw [corner_wrap]; exact id
  · intro i hi h h'; exact hn i hi ⟨h, h'⟩

/-- The point of a crossed side at the height of `z`. -/
theorem cross_point {i : Nat} (h : Down l z i ∨ Up l z i) :
    ∃ x, Between (corner l i) (corner l (i + 1)) (x, z.2) ∧ (RayHits z (corner l i) (corner l (i + 1)) ↔ z.1 < x) ∧
      rightOf (corner l i) (corner l (i + 1)) z = ((corner l (i + 1)).2 - (corner l i).2) * (z.1 - x) := by
  have hcase : (z.2 < (corner l i).2 ∧ (corner l (i + 1)).2 ≤ z.2) ∨ ((corner l i).2 ≤ z.2 ∧ z.2 < (corner l (i + 1)).2) := by
    rcases h with ⟨h1, h2⟩ | ⟨h1, h2⟩
    · exact Or.inl ⟨h1, not_lt.mp h2⟩
    · exact Or.inr ⟨not_lt.mp h1, h2⟩
  generalize corner l i = p at *
  generalize corner l (i + 1) = q at *
  have hne : q.2 - p.2 ≠ 0 := by
    intro h0
    rcases hcase with ⟨h1, h2⟩ | ⟨h1, h2⟩ <;> linarith
  set t := (z.2 - p.2) / (q.2 - p.2) with ht
  have htm : t * (q.2 - p.2) = z.2 - p.2 := by rw [ht]; field_simp
  have ht0 : 0 ≤ t ∧ t ≤ 1 := by
    rcases hcase with ⟨h1, h2⟩ | ⟨h1, h2⟩
    · have hn : q.2 - p.2 < 0 := by linarith
      exact ⟨by rw [ht]; exact div_nonneg_of_nonpos (by linarith) hn.le, by rw [ht, div_le_one_of_neg hn]; linarith⟩
    · have hn : 0 < q.2 - p.2 := by linarith
      exact ⟨by rw [ht]; exact div_nonneg (by linarith) hn.le, by rw [ht, div_le_one hn]; linarith⟩
  have hy : (1 - t) * p.2 + t * q.2 = z.2 := by linarith
  refine ⟨(1 - t) * p.1 + t * q.1, ⟨t, ht0.1, ht0.2, by rw [hy]⟩, ?_, ?_⟩
  · constructor
    · rintro ⟨w, ⟨u, hu0, hu1, rfl⟩, hw2, hw1, _⟩
      have : u = t := by
        have e : u * (q.2 - p.2) = t * (q.2 - p.2) := by simp only at hw2; linarith
        exact mul_right_cancel₀ hne e
      subst this
      exact hw1
    · intro hx
      refine ⟨((1 - t) * p.1 + t * q.1, (1 - t) * p.2 + t * q.2), ⟨t, ht0.1, ht0.2, rfl⟩, hy, hx, ?_⟩
      show (1 - t) * p.2 + t * q.2 < _
      rw [hy, lt_max_iff]
      rcases hcase with ⟨h1, h2⟩ | ⟨h1, h2⟩
      · exact Or.inl h1
      · exact Or.inr h2
  · unfold rightOf
    rw [← htm]; ring

theorem hits_sign {i : Nat} (h : RayHits z (corner l i) (corner l (i + 1))) : Down l z i ∨ Up l z i := by
  obtain ⟨w, ⟨u, hu0, hu1, rfl⟩, hw2, hw1, hw3⟩ := h
  simp only at hw2 hw3
  rw [hw2, lt_max_iff] at hw3
  unfold Down Up Above
  generalize corner l i = p at *
  generalize corner l (i + 1) = q at *
  by_cases h1 : z.2 < p.2 <;> by_cases h2 : z.2 < q.2
  · exfalso
    have e1 : 0 ≤ (1 - u) * (p.2 - z.2) := mul_nonneg (by linarith) (by linarith)
    have e2 : 0 ≤ u * (q.2 - z.2) := mul_nonneg hu0 (by linarith)
    rcases hu0.eq_or_lt with h0 | h0
    · subst h0; linarith
    · have e3 : 0 < u * (q.2 - z.2) := mul_pos h0 (by linarith)
      linarith
  · exact Or.inl ⟨h1, h2⟩
  · exact Or.inr ⟨h1, h2⟩
  · rcases hw3 with h3 | h3
    · exact (h1 h3).elim
    · exact (h2 h3).elim

open Classical in
theorem countP_range (P : Nat → Prop) (n : Nat) : (List.range n).countP (fun i => decide (P i)) = ((Finset.range n).filter P).card := by
  rw [List.countP_eq_length_filter]
  rfl

/-- A strictly interior point has corners above and not above its height. -/
theorem inside_sides (h3 : 3 ≤ l.length) (h : StrictlyInside l z) : (∃ a < l.length, Above l z a) ∧ ∃ b < l.length, ¬ Above l z b := by
  have hsucc : ∀ i < l.length, ∃ j < l.length, corner l (i + 1) = corner l j := by
    intro i hi
    rcases Nat.lt_or_ge (i + 1) l.length with h1 | h1
    · exact ⟨i + 1, h1, rfl⟩
    · have : i + 1 = l.length := by omega
      exact ⟨0, by omega, by rw [this, corner_wrap]⟩
  have hpred : ∀ i < l.length, ∃ j < l.length, corner l (j + 1) = corner l i := by
    intro i hi
    rcases Nat.eq_zero_or_pos i with rfl | h1
    · exact ⟨l.length - 1, by omega, by rw [show l.length - 1 + 1 = l.length by omega, corner_wrap]⟩
    · exact ⟨i - 1, by omega, by rw [show i - 1 + 1 = i by omega]⟩
  -- a cyclic strict order is impossible
  have cyc : ∀ r : Nat → ℝ, r l.length = r 0 → ¬ ∀ i < l.length, r i < r (i + 1) := by
    intro r hw hr
    have : ∀ d ≤ l.length, 0 < d → r 0 < r d := by
      intro d
      induction d with
      | zero => intro _ h; omega
      | succ d ih =>
        intro hd _
        rcases Nat.eq_zero_or_pos d with rfl | h0
        · exact hr 0 (by omega)
        · exact (ih (by omega) h0).trans (hr d (by omega))
    exact absurd (this l.length le_rfl (by omega)) (by rw [hw]; exact lt_irrefl _)
  have hform : ∀ p q : Pt, rightOf p q z = (p.2 - z.2) * -(q.1 - z.1) * -1 - (p.1 - z.1) * (q.2 - z.2) := by
    intro p q; unfold rightOf; ring
  have hcot : (∀ i < l.length, 0 < ((corner l i).2 - z.2) * ((corner l (i + 1)).2 - z.2)) → False := by
    intro hpos
    refine cyc (fun i => ((corner l i).1 - z.1) / ((corner l i).2 - z.2)) (by simp only [corner_wrap]) ?_
    intro i hi
    have h1 := h i hi
    rw [hform] at h1
    have hp := hpos i hi
    have g1 : (corner l i).2 - z.2 ≠ 0 := fun h0 => by rw [h0, zero_mul] at hp; exact lt_irrefl _ hp
    have g2 : (corner l (i + 1)).2 - z.2 ≠ 0 := fun h0 => by rw [h0, mul_zero] at hp; exact lt_irrefl _ hp
    show ((corner l i).1 - z.1) / ((corner l i).2 - z.2) < ((corner l (i + 1)).1 - z.1) / ((corner l (i + 1)).2 - z.2)
    rw [← sub_pos, div_sub_div _ _ g2 g1]
    apply div_pos
    · linarith
    · linarith
  constructor
  · by_contra hn
    push Not at hn
    have hle : ∀ i < l.length, (corner l i).2 - z.2 ≤ 0 := fun i hi => by have := hn i hi; unfold Above at this; linarith
    have hlt : ∀ i < l.length, (corner l i).2 - z.2 < 0 := by
      intro i hi
      refine lt_of_le_of_ne (hle i hi) fun h0 => ?_
      have h1 := h i hi
      obtain ⟨j, hj, hjc⟩ := hsucc i hi
      obtain ⟨k, hk, hkc⟩ := hpred i hi
      have h2 := h k hk
      rw [hform] at h1 h2
      rw [hjc, h0] at h1
      rw [hkc, h0] at h2
      have g1 := hle j hj
      have g2 := hle k hk
      have : 0 < ((corner l i).1 - z.1) * -((corner l j).2 - z.2) := by linarith
      have p1 : 0 < (corner l i).1 - z.1 := by
        by_contra hh; exact absurd this (not_lt.mpr (mul_nonpos_of_nonpos_of_nonneg (not_lt.mp hh) (by linarith)))
      have : 0 < ((corner l k).2 - z.2) * ((corner l i).1 - z.1) := by linarith
      have := mul_nonpos_of_nonpos_of_nonneg g2 p1.le
      linarith
    refine hcot fun i hi => ?_
    obtain ⟨j, hj, hjc⟩ := hsucc i hi
    rw [hjc]
    exact mul_pos_of_neg_of_neg (hlt i hi) (hlt j hj)
  · by_contra hn
    push Not at hn
    refine hcot fun i hi => ?_
    obtain ⟨j, hj, hjc⟩ := hsucc i hi
    rw [hjc]
    exact mul_pos (sub_pos.mpr (hn i hi)) (sub_pos.mpr (hn j hj))

theorem hitCount_inside (hc : ClockwiseConvex l) (h : StrictlyInside l z) : hitCount l z = 1 := by
  classical
  obtain ⟨⟨a, ha, h1⟩, b, hb, h2⟩ := inside_sides hc.1 h
  obtain ⟨i, hi, hd⟩ := exists_down ha hb h1 h2
  unfold hitCount
  rw [countP_range, Finset.card_eq_one]
  refine ⟨i, ?_⟩
  ext j
  rw [Finset.mem_filter, Finset.mem_range, Finset.mem_singleton]
  constructor
  · rintro ⟨hj, hr⟩
    rcases hits_sign hr with h' | h'
    · exact down_unique hc hj hi h' hd
    · exfalso
      obtain ⟨x, _, h4, h5⟩ := cross_point (Or.inr h')
      have hx := h4.mp hr
      have := h j hj
      rw [h5] at this
      obtain ⟨u1, u2⟩ := h'
      unfold Above at u1 u2
      nlinarith
  · rintro rfl
    refine ⟨hi, ?_⟩
    obtain ⟨x, _, h4, h5⟩ := cross_point (Or.inl hd)
    rw [h4]
    have := h j hi
    rw [h5] at this
    obtain ⟨u1, u2⟩ := hd
    unfold Above at u1 u2
    nlinarith

theorem hitCount_outside (hc : ClockwiseConvex l) (h : StrictlyOutside l z) : Even (hitCount l z) := by
  classical
  unfold hitCount
  rw [countP_range]
  by_cases hex : ∃ i ∈ Finset.range l.length, RayHits z (corner l i) (corner l (i + 1))
  · obtain ⟨i0, hi0, hr0⟩ := hex
    rw [Finset.mem_range] at hi0
    have hab : (∃ a < l.length, Above l z a) ∧ ∃ b < l.length, ¬ Above l z b := by
      have hs : ∃ j < l.length, corner l (i0 + 1) = corner l j := by
        rcases Nat.lt_or_ge (i0 + 1) l.length with h1 | h1
        · exact ⟨i0 + 1, h1, rfl⟩
        · have : i0 + 1 = l.length := by omega
          exact ⟨0, by omega, by rw [this, corner_wrap]⟩
      obtain ⟨j, hj, hjc⟩ := hs
      have e : Above l z (i0 + 1) ↔ Above l z j := by unfold Above; rw [hjc]
      rcases hits_sign hr0 with ⟨h1, h2⟩ | ⟨h1, h2⟩
      · exact ⟨⟨i0, hi0, h1⟩, j, hj, fun h' => h2 (e.mpr h')⟩
      · exact ⟨⟨j, hj, e.mp h2⟩, i0, hi0, h1⟩
    obtain ⟨⟨a, ha, h1⟩, b, hb, h2⟩ := hab
    obtain ⟨i, hi, hd⟩ := exists_down ha hb h1 h2
    obtain ⟨k, hk, hu⟩ := exists_up ha hb h1 h2
    obtain ⟨x, hx1, hx2, _⟩ := cross_point (Or.inl hd)
    obtain ⟨x', hx1', hx2', _⟩ := cross_point (Or.inr hu)
    have hik : i ≠ k := by rintro rfl; exact hu.1 hd.1
    -- both crossing points are on the right of every side
    have hpt : ∀ m < l.length, ∀ w, Between (corner l m) (corner l (m + 1)) w → ∀ j < l.length, 0 ≤ rightOf (corner l j) (corner l (j + 1)) w := by
      intro m hm w hw j hj
      refine rightOf_between (hc.side hj hm) ?_ hw
      rcases Nat.lt_or_ge (m + 1) l.length with h' | h'
      · exact hc.side hj h'
      · have : m + 1 = l.length := by omega
        rw [this, corner_wrap]; exact hc.side hj (by omega)
    have hsame : z.1 < x ↔ z.1 < x' := by
      obtain ⟨j, hj, hneg⟩ := h
      have g1 := hpt i hi _ hx1 j hj
      have g2 := hpt k hk _ hx1' j hj
      have hl : ∀ u : ℝ, rightOf (corner l j) (corner l (j + 1)) (u, z.2) =
          rightOf (corner l j) (corner l (j + 1)) z + ((corner l (j + 1)).2 - (corner l j).2) * (u - z.1) := by
        intro u; unfold rightOf; ring
      rw [hl] at g1 g2
      constructor
      · intro hlt
        by_contra hge
        push Not at hge
        nlinarith
      · intro hlt
        by_contra hge
        push Not at hge
        nlinarith
    by_cases hz : z.1 < x
    · have : (Finset.range l.length).filter (fun i => RayHits z (corner l i) (corner l (i + 1))) = {i, k} := by
        ext j
        rw [Finset.mem_filter, Finset.mem_range, Finset.mem_insert, Finset.mem_singleton]
        constructor
        · rintro ⟨hj, hr⟩
          rcases hits_sign hr with h' | h'
          · exact Or.inl (down_unique hc hj hi h' hd)
          · exact Or.inr (up_unique hc hj hk h' hu)
        · rintro (rfl | rfl)
          · exact ⟨hi, hx2.mpr hz⟩
          · exact ⟨hk, hx2'.mpr (hsame.mp hz)⟩
      rw [this, Finset.card_pair hik]
      decide
    · exfalso
      rcases hits_sign hr0 with h' | h'
      · obtain rfl := down_unique hc hi0 hi h' hd
        exact hz (hx2.mp hr0)
      · obtain rfl := up_unique hc hi0 hk h' hu
        exact hz (hsame.mpr (hx2'.mp hr0))
  · have : (Finset.range l.length).filter (fun i => RayHits z (corner l i) (corner l (i + 1))) = ∅ := by
      rw [Finset.filter_eq_empty_iff]
      intro j hj hr
      exact hex ⟨j, hj, hr⟩
    rw [this]
    simp

end Foronoi
