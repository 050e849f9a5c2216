import Verif.Proof.Ray

/-!
# A segment that leaves a convex polygon
-/

namespace Foronoi

variable {l : List Pt}

theorem corner_mod (l : List Pt) (i : Nat) : corner l (i % l.length) = corner l i := by unfold corner; rw [Nat.mod_mod]

/-- Corners that are not ends of the side are strictly on its right. -/
theorem ClockwiseConvex.side_lt (h : ClockwiseConvex l) {i k : Nat} (hi : i < l.length) (hk : k < l.length) (h1 : k ≠ i)
    (h2 : k ≠ (i + 1) % l.length) : 0 < rightOf (corner l i) (corner l (i + 1)) (corner l k) := by
  obtain ⟨h3, h⟩ := h
  rcases Nat.lt_or_ge (i + 1) l.length with h4 | h4
  · rw [Nat.mod_eq_of_lt h4] at h2
    rcases Nat.lt_or_ge k i with hki | hki
    · rw [← rightOf_cycle]; exact h k i (i + 1) hki (by omega) h4
    · exact h i (i + 1) k (by omega) (by omega) hk
  · have hn : i + 1 = l.length := by omega
    rw [hn, Nat.mod_self] at h2
    rw [hn, corner_wrap, rightOf_cycle]
    exact h 0 k i (by omega) (by omega) hi

theorem corner_ne (h : ClockwiseConvex l) {i : Nat} (hi : i < l.length) : corner l i ≠ corner l (i + 1) := by
  intro he
  have h3 := h.1
  -- a third corner
  obtain ⟨k, hk, hk1, hk2⟩ : ∃ k < l.length, k ≠ i ∧ k ≠ (i + 1) % l.length := by
    by_contra hn
    push Not at hn
    have a0 := hn 0 (by omega)
    have a1 := hn 1 (by omega)
    have a2 := hn 2 (by omega)
    omega
  have := h.side_lt hi hk hk1 hk2
  rw [← he] at this
  unfold rightOf at this
  simp at this

/-- A point of the line of a side that is on the right of all sides is on the side. -/
theorem on_side_of_zero (h : ClockwiseConvex l) {i : Nat} {z : Pt} (hi : i < l.length)
    (hall : ∀ j < l.length, 0 ≤ rightOf (corner l j) (corner l (j + 1)) z) (h0 : rightOf (corner l i) (corner l (i + 1)) z = 0) :
    Between (corner l i) (corner l (i + 1)) z := by
  have h3 := h.1
  have hpos : 0 < l.length := by omega
  have hne := corner_ne h hi
  have hn1 : (i + 1) % l.length < l.length := Nat.mod_lt _ hpos
  have hp1 : (i + (l.length - 1)) % l.length < l.length := Nat.mod_lt _ hpos
  -- next side
  have n1 := hall _ hn1
  have n2 := h.side_lt hn1 hi (k := i) (by
    intro he
    rcases Nat.lt_or_ge (i + 1) l.length with h' | h'
    · rw [Nat.mod_eq_of_lt h'] at he; omega
    · rw [show i + 1 = l.length by omega, Nat.mod_self] at he; omega) (by
    intro he
    rcases Nat.lt_or_ge (i + 1) l.length with h' | h'
    · rw [Nat.mod_eq_of_lt h'] at he
      rcases Nat.lt_or_ge (i + 2) l.length with h'' | h''
      · rw [Nat.mod_eq_of_lt h''] at he; omega
      · rw [show i + 1 + 1 = l.length by omega, Nat.mod_self] at he; omega
    · rw [show i + 1 = l.length by omega, Nat.mod_self, Nat.zero_add, Nat.mod_eq_of_lt (by omega)] at he; omega)
  rw [corner_mod] at n1 n2
  -- previous side
  have hpc : corner l ((i + (l.length - 1)) % l.length + 1) = corner l i := by
    rw [← corner_mod, Nat.mod_add_mod, show i + (l.length - 1) + 1 = i + l.length by omega, Nat.add_mod_right, corner_mod]
  have p1 := hall _ hp1
  have p2 := h.side_lt hp1 hn1 (by
    intro he
    rcases Nat.lt_or_ge (i + 1) l.length with h' | h'
    · rw [Nat.mod_eq_of_lt h'] at he
      rcases Nat.eq_zero_or_pos i with rfl | h0
      · rw [Nat.zero_add, Nat.mod_eq_of_lt (by omega)] at he; omega
      · rw [show i + (l.length - 1) = (i - 1) + l.length by omega, Nat.add_mod_right, Nat.mod_eq_of_lt (by omega)] at he; omega
    · rw [show i + 1 = l.length by omega, Nat.mod_self, show i + (l.length - 1) = (i - 1) + l.length by omega, Nat.add_mod_right,
        Nat.mod_eq_of_lt (by omega)] at he; omega) (by
    intro he
    rw [Nat.mod_add_mod, show i + (l.length - 1) + 1 = i + l.length by omega, Nat.add_mod_right, Nat.mod_eq_of_lt hi] at he
    rcases Nat.lt_or_ge (i + 1) l.length with h' | h'
    · rw [Nat.mod_eq_of_lt h'] at he; omega
    · rw [show i + 1 = l.length by omega, Nat.mod_self] at he; omega)
  rw [hpc] at p1 p2
  rw [corner_mod l (i + 1)] at p2
  generalize corner l ((i + (l.length - 1)) % l.length) = o at *
  generalize corner l ((i + 1) % l.length + 1) = r at *
  generalize corner l i = p at *
  generalize corner l (i + 1) = q at *
  -- the parameter of `z` on the line
  have hqp : 0 < (q.1 - p.1) ^ 2 + (q.2 - p.2) ^ 2 := by
    rcases eq_or_ne q.1 p.1 with h1 | h1
    · have : q.2 - p.2 ≠ 0 := fun h2 => hne (Prod.ext h1.symm (by linarith))
      have := pow_pos (abs_pos.mpr this) 2
      rw [sq_abs] at this
      nlinarith [sq_nonneg (q.1 - p.1)]
    · have := pow_pos (abs_pos.mpr (sub_ne_zero.mpr h1)) 2
      rw [sq_abs] at this
      nlinarith [sq_nonneg (q.2 - p.2)]
  set D := (q.1 - p.1) ^ 2 + (q.2 - p.2) ^ 2 with hD
  set t := ((z.1 - p.1) * (q.1 - p.1) + (z.2 - p.2) * (q.2 - p.2)) / D with ht
  have htD : t * D = (z.1 - p.1) * (q.1 - p.1) + (z.2 - p.2) * (q.2 - p.2) := by rw [ht]; field_simp
  have hz : z = ((1 - t) * p.1 + t * q.1, (1 - t) * p.2 + t * q.2) := by
    unfold rightOf at h0
    apply Prod.ext
    · apply mul_right_cancel₀ hqp.ne'
      show z.1 * D = ((1 - t) * p.1 + t * q.1) * D
      have : ((1 - t) * p.1 + t * q.1) * D = p.1 * D + (t * D) * (q.1 - p.1) := by ring
      rw [this, htD, hD]
      linear_combination (q.2 - p.2) * h0
    · apply mul_right_cancel₀ hqp.ne'
      show z.2 * D = ((1 - t) * p.2 + t * q.2) * D
      have : ((1 - t) * p.2 + t * q.2) * D = p.2 * D + (t * D) * (q.2 - p.2) := by ring
      rw [this, htD, hD]
      linear_combination -(q.1 - p.1) * h0
  refine ⟨t, ?_, ?_, hz⟩
  · rw [hz, rightOf_affine, (rightOf_self _ _).2, mul_zero, zero_add] at p1
    exact nonneg_of_mul_nonneg_left p1 p2
  · rw [hz, rightOf_affine, (rightOf_self _ _).1, mul_zero, add_zero] at n1
    have := nonneg_of_mul_nonneg_left n1 n2
    linarith

/-- Points of the boundary are on the right of every side, or on it. -/
theorem boundary_right (hc : ClockwiseConvex l) {m : Nat} {w : Pt} (hw : OnSide l m w) {j : Nat} (hj : j < l.length) :
    0 ≤ rightOf (corner l j) (corner l (j + 1)) w := by
  obtain ⟨hm, hw⟩ := hw
  refine rightOf_between (hc.side hj hm) ?_ hw
  rcases Nat.lt_or_ge (m + 1) l.length with h' | h'
  · exact hc.side hj h'
  · have : m + 1 = l.length := by omega
    rw [this, corner_wrap]; exact hc.side hj (by omega)

theorem rightOf_side {p q z : Pt} (h : Between p q z) : rightOf p q z = 0 := by
  obtain ⟨t, _, _, rfl⟩ := h
  rw [rightOf_affine, (rightOf_self _ _).1, (rightOf_self _ _).2]; ring

theorem rightOf_ray (p q o e : Pt) (t : ℝ) :
    rightOf p q (o.1 + t * (e.1 - o.1), o.2 + t * (e.2 - o.2)) = (1 - t) * rightOf p q o + t * rightOf p q e := by
  unfold rightOf; ring

theorem parallel_iff (o e p q : Pt) : Parallel o e p q ↔ rightOf p q o = rightOf p q e := by
  unfold Parallel rightOf
  constructor <;> intro h <;> linarith

/-- A segment from a strictly interior point to a point that is not has exactly one crossing with the boundary. -/
theorem convex_exit (hc : ClockwiseConvex l) {o e : Pt} (ho : StrictlyInside l o) (he : ¬ StrictlyInside l e) :
    ∃ z, (∀ w, CrossesAt l o e w ↔ w = z) ∧ Between o e z ∧ OnBoundary l z := by
  classical
  have h3 := hc.1
  set A := fun i => rightOf (corner l i) (corner l (i + 1)) o with hA
  set B := fun i => rightOf (corner l i) (corner l (i + 1)) e with hB
  have hApos : ∀ i < l.length, 0 < A i := ho
  unfold StrictlyInside at he
  push Not at he
  obtain ⟨i0, hi0, hle⟩ := he
  set F := (Finset.range l.length).filter fun i => B i ≤ 0 with hF
  have hne : F.Nonempty := ⟨i0, by rw [hF, Finset.mem_filter, Finset.mem_range]; exact ⟨hi0, hle⟩⟩
  obtain ⟨i, hiF, hmin⟩ := Finset.exists_min_image F (fun i => A i / (A i - B i)) hne
  rw [hF, Finset.mem_filter, Finset.mem_range] at hiF
  obtain ⟨hi, hBi⟩ := hiF
  set t := A i / (A i - B i) with ht
  have hAi := hApos i hi
  have hden : 0 < A i - B i := by linarith
  have ht0 : 0 < t := div_pos hAi hden
  have ht1 : t ≤ 1 := by rw [ht, div_le_one hden]; linarith
  have htd : t * (A i - B i) = A i := by rw [ht]; field_simp
  set z : Pt := (o.1 + t * (e.1 - o.1), o.2 + t * (e.2 - o.2)) with hz
  have hzr : ∀ j, rightOf (corner l j) (corner l (j + 1)) z = (1 - t) * A j + t * B j := fun j => rightOf_ray _ _ _ _ _
  have hall : ∀ j < l.length, 0 ≤ rightOf (corner l j) (corner l (j + 1)) z := by
    intro j hj
    rw [hzr]
    have hAj := hApos j hj
    rcases le_or_gt (B j) 0 with hb | hb
    · have hm := hmin j (by rw [hF, Finset.mem_filter, Finset.mem_range]; exact ⟨hj, hb⟩)
      have hdj : 0 < A j - B j := by linarith
      rw [le_div_iff₀ hdj] at hm
      linarith
    · have := mul_nonneg (by linarith : (0:ℝ) ≤ 1 - t) hAj.le
      have := mul_nonneg ht0.le hb.le
      linarith
  have hzero : rightOf (corner l i) (corner l (i + 1)) z = 0 := by rw [hzr]; linarith
  have hside : OnSide l i z := ⟨hi, on_side_of_zero hc hi hall hzero⟩
  refine ⟨z, ?_, ⟨t, ht0.le, ht1, by rw [hz]; apply Prod.ext <;> simp <;> ring⟩, i, hside⟩
  intro w
  constructor
  · rintro ⟨j, hpar, ⟨u, hu, hw⟩, hs⟩
    have hj := hs.1
    have e1 := rightOf_side hs.2
    rw [hw, rightOf_ray] at e1
    have hu1 := boundary_right hc hs hi
    rw [hw, rightOf_ray] at hu1
    have hz1 := hall j hj
    rw [hzr] at hz1
    have hAj := hApos j hj
    -- `u ≤ t` from side `i`, `t ≤ u` from side `j`
    have g1 : u ≤ t := by
      have : u * (A i - B i) ≤ A i := by simp only [hA, hB]; linarith
      rw [ht, le_div_iff₀ hden]; exact this
    have g2 : t ≤ u := by
      have a1 : u * (A j - B j) = A j := by simp only [hA, hB]; linarith
      have a2 : t * (A j - B j) ≤ A j := by linarith
      have a3 : 0 < A j - B j := by
        by_contra hh
        have := mul_nonpos_of_nonneg_of_nonpos hu.le (not_lt.mp hh)
        linarith
      nlinarith
    have : u = t := le_antisymm g1 g2
    rw [hw, this]
  · rintro rfl
    refine ⟨i, ?_, ⟨t, ht0, rfl⟩, hside⟩
    rw [parallel_iff]
    exact fun h => by have : A i = B i := h; linarith

end Foronoi
