import Verif.Proof.BorderGeo
import Verif.Props.Clipped
import Verif.Proof.Along
import Mathlib.Data.Finset.Max

/-!
# Nearest sites along segments
-/

namespace Foronoi

variable {pts : Nat → Pt} {n : Nat} {l : List Pt}

/-- A site nearest at `z` but not at `w` shares a point on the way with another site. -/
theorem nearest_lost {i : Nat} {z w : Pt} (hz : Nearest pts n i z) (hw : ¬ Nearest pts n i w) :
    ∃ t c, 0 ≤ t ∧ t < 1 ∧ c ≠ i ∧ Nearest pts n i (along z w t) ∧ Nearest pts n c (along z w t) := by
  have hin := hz.1
  have hne : ((Finset.range n).filter (fun c => dsq (pts c) w - dsq (pts i) w < 0)).Nonempty := by
    by_contra hh
    rw [Finset.not_nonempty_iff_eq_empty] at hh
    refine hw ⟨hin, fun c hc => ?_⟩
    by_contra hlt
    push Not at hlt
    have : c ∈ (Finset.range n).filter (fun c => dsq (pts c) w - dsq (pts i) w < 0) := by
      rw [Finset.mem_filter, Finset.mem_range]
      exact ⟨hc, by have : dsq (pts c) w < dsq (pts i) w := hlt
                    linarith⟩
    rw [hh] at this
    cases this
  obtain ⟨c, hc, hmin⟩ := Finset.exists_min_image _
    (fun c => (dsq (pts c) z - dsq (pts i) z) / ((dsq (pts c) z - dsq (pts i) z) - (dsq (pts c) w - dsq (pts i) w))) hne
  rw [Finset.mem_filter, Finset.mem_range] at hc
  obtain ⟨hcn, hcw⟩ := hc
  have hz0 : ∀ c < n, 0 ≤ dsq (pts c) z - dsq (pts i) z := fun c hc => by
    have : dsq (pts i) z ≤ dsq (pts c) z := hz.2 c hc
    linarith
  set t := (dsq (pts c) z - dsq (pts i) z) / ((dsq (pts c) z - dsq (pts i) z) - (dsq (pts c) w - dsq (pts i) w)) with ht
  have hcz := hz0 c hcn
  have t0 : 0 ≤ t := div_nonneg hcz (by linarith)
  have t1 : t < 1 := (div_lt_one (by linarith)).mpr (by linarith)
  have hall : ∀ d < n, 0 ≤ dsq (pts d) (along z w t) - dsq (pts i) (along z w t) := by
    intro d hd
    rw [along_diff]
    have hdz := hz0 d hd
    rcases le_or_gt 0 (dsq (pts d) w - dsq (pts i) w) with h | h
    · exact add_nonneg (mul_nonneg (by linarith) hdz) (mul_nonneg t0 h)
    · have hm := hmin d (by rw [Finset.mem_filter, Finset.mem_range]; exact ⟨hd, h⟩)
      rw [le_div_iff₀ (by linarith)] at hm
      linarith
  have hci : dsq (pts c) (along z w t) - dsq (pts i) (along z w t) = 0 := by
    rw [along_diff, ht]
    have : (dsq (pts c) z - dsq (pts i) z) - (dsq (pts c) w - dsq (pts i) w) ≠ 0 := by linarith
    field_simp
    ring
  refine ⟨t, c, t0, t1, ?_, ⟨hin, fun d hd => ?_⟩, hcn, fun d hd => ?_⟩
  · rintro rfl
    linarith
  · have := hall d hd
    show dsq _ _ ≤ dsq _ _
    linarith
  · have := hall d hd
    show dsq _ _ ≤ dsq _ _
    linarith

/-- If no point strictly between two points has two nearest sites, then one site is nearest on the whole way. -/
theorem nearest_segment (hn : 0 < n) {x y : Pt} (h : ∀ t, 0 < t → t < 1 → ∀ p r, Nearest pts n p (along x y t) → Nearest pts n r (along x y t) → p = r) :
    ∃ i, ∀ z, Between x y z → Nearest pts n i z := by
  have hex : ∀ z : Pt, ∃ i, Nearest pts n i z := by
    intro z
    obtain ⟨i, hi, hm⟩ := Finset.exists_min_image (Finset.range n) (fun c => dsq (pts c) z) ⟨0, Finset.mem_range.mpr hn⟩
    exact ⟨i, Finset.mem_range.mp hi, fun c hc => hm c (Finset.mem_range.mpr hc)⟩
  obtain ⟨i, hi⟩ := hex (along x y (1 / 2))
  refine ⟨i, fun z hz => ?_⟩
  by_contra hcon
  obtain ⟨t, c, t0, t1, hne, h1, h2⟩ := nearest_lost hi hcon
  obtain ⟨u, u0, u1, rfl⟩ := hz
  have e : along (along x y (1 / 2)) ((1 - u) * x.1 + u * y.1, (1 - u) * x.2 + u * y.2) t = along x y ((1 - t) * (1 / 2) + t * u) := by
    unfold along; apply Prod.ext <;> simp only <;> ring
  rw [e] at h1 h2
  refine hne (h _ ?_ ?_ c i h2 h1)
  · have := mul_nonneg t0 u0
    linarith
  · have := mul_nonneg t0 (by linarith : 0 ≤ 1 - u)
    linarith

/-- Where exactly two sites are nearest they are nearest for a while on the way along their bisector. -/
theorem nearest_stay {i j : Nat} (hij : i ≠ j) {z u : Pt} (hi : Nearest pts n i z) (hj : Nearest pts n j z) (hv : ¬ VoronoiVertex pts n z)
    (hu : dsq (pts i) u = dsq (pts j) u) :
    ∃ ε, 0 < ε ∧ ε ≤ 1 ∧ ∀ t, 0 ≤ t → t ≤ ε → Nearest pts n i (along z u t) ∧ Nearest pts n j (along z u t) ∧ ¬ VoronoiVertex pts n (along z u t) := by
  have hz : dsq (pts i) z = dsq (pts j) z := hi.eq hj
  have hbis : ∀ t, dsq (pts i) (along z u t) = dsq (pts j) (along z u t) := by
    intro t
    have := along_diff (pts i) (pts j) z u t
    rw [hz, hu] at this
    simp only [sub_self, mul_zero, add_zero] at this
    linarith
  have hk : ∀ k ≤ n, ∃ ε, 0 < ε ∧ ε ≤ 1 ∧ ∀ t, 0 ≤ t → t ≤ ε → ∀ c < k, c ≠ i → c ≠ j → dsq (pts i) (along z u t) < dsq (pts c) (along z u t) := by
    intro k
    induction k with
    | zero => intro _; exact ⟨1, one_pos, le_rfl, fun _ _ _ c hc => by omega⟩
    | succ k ih =>
      intro hkn
      obtain ⟨ε, e0, e1, h⟩ := ih (by omega)
      by_cases hc : k = i ∨ k = j
      · refine ⟨ε, e0, e1, fun t t0 t1 c hck hci hcj => h t t0 t1 c ?_ hci hcj⟩
        omega
      · push Not at hc
        have hA : 0 < dsq (pts k) z - dsq (pts i) z := by
          rcases lt_or_eq_of_le (show dsq (pts i) z ≤ dsq (pts k) z from hi.2 k (by omega)) with h1 | h1
          · linarith
          · exfalso
            refine hv ⟨i, j, k, hij, Ne.symm hc.2, Ne.symm hc.1, hi, hj, by omega, fun c hcn => ?_⟩
            show dsq _ _ ≤ dsq _ _
            rw [← h1]
            exact hi.2 c hcn
        set A := dsq (pts k) z - dsq (pts i) z with hAd
        set B := dsq (pts k) u - dsq (pts i) u with hBd
        have hB := abs_nonneg B
        have hB' := neg_abs_le B
        refine ⟨min ε (A / (2 * (A + |B|))), lt_min e0 (by positivity), (min_le_left _ _).trans e1, ?_⟩
        intro t t0 t1 c hck hci hcj
        by_cases hckk : c < k
        · exact h t t0 (t1.trans (min_le_left _ _)) c hckk hci hcj
        · have : c = k := by omega
          subst this
          have ht2 := t1.trans (min_le_right _ _)
          rw [le_div_iff₀ (by linarith)] at ht2
          have e := along_diff (pts i) (pts c) z u t
          rw [← hAd, ← hBd] at e
          have h3 : -(t * |B|) ≤ t * B := by nlinarith
          nlinarith
  obtain ⟨ε, e0, e1, h⟩ := hk n le_rfl
  refine ⟨ε, e0, e1, fun t t0 t1 => ?_⟩
  have hle : ∀ c < n, dsq (pts i) (along z u t) ≤ dsq (pts c) (along z u t) := by
    intro c hc
    by_cases h1 : c = i
    · rw [h1]
    by_cases h2 : c = j
    · rw [h2, hbis]
    · exact (h t t0 t1 c hc h1 h2).le
  have hni : Nearest pts n i (along z u t) := ⟨hi.1, hle⟩
  refine ⟨hni, ⟨hj.1, fun c hc => ?_⟩, ?_⟩
  · show dsq _ _ ≤ dsq _ _
    rw [← hbis]; exact hle c hc
  · rintro ⟨a, b, c, hab, hbc, hac, ha, hb, hc⟩
    have only : ∀ c, Nearest pts n c (along z u t) → c = i ∨ c = j := by
      intro c hc
      by_contra hcon
      push Not at hcon
      exact absurd (hc.2 i hi.1) (not_le.mpr (h t t0 t1 c hc.1 hcon.1 hcon.2))
    rcases only a ha with rfl | rfl <;> rcases only b hb with rfl | rfl <;> rcases only c hc with rfl | rfl <;> simp_all

/-- Someone at `x` looking to `y` along the bisector with `i` on the right: points on the left are nearer to `j`. -/
theorem nearer_left {pi pj x y w : Pt} (hf : Fwd pj pi y x) (hx : dsq pi x = dsq pj x) (h : rightOf x y w < 0) : dsq pj w < dsq pi w := by
  obtain ⟨k, k0, h1, h2⟩ := hf
  have e : rightOf x y w = -k * ((dsq pj w - dsq pi w) / 2) := by
    unfold rightOf
    unfold dsq at hx ⊢
    have e1 : y.1 - x.1 = k * (pi.2 - pj.2) := by linarith
    have e2 : y.2 - x.2 = -k * (pi.1 - pj.1) := by linarith
    rw [e1, e2]
    linear_combination (-k / 2) * hx
  rw [e] at h
  by_contra hcon
  push Not at hcon
  have := mul_nonneg (neg_nonneg.mpr k0) (by linarith : 0 ≤ (dsq pj w - dsq pi w) / 2)
  linarith

/-- And points on the right are nearer to `i`. -/
theorem nearer_right {pi pj x y w : Pt} (hf : Fwd pj pi y x) (hx : dsq pi x = dsq pj x) (h : 0 < rightOf x y w) : dsq pi w < dsq pj w := by
  obtain ⟨k, k0, h1, h2⟩ := hf
  have e : rightOf x y w = -k * ((dsq pj w - dsq pi w) / 2) := by
    unfold rightOf
    unfold dsq at hx ⊢
    have e1 : y.1 - x.1 = k * (pi.2 - pj.2) := by linarith
    have e2 : y.2 - x.2 = -k * (pi.1 - pj.1) := by linarith
    rw [e1, e2]
    linear_combination (-k / 2) * hx
  rw [e] at h
  by_contra hcon
  push Not at hcon
  have := mul_nonneg (neg_nonneg.mpr k0) (by linarith : 0 ≤ (dsq pi w - dsq pj w) / 2)
  linarith

end Foronoi
