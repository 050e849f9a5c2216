import Verif.Proof.Winding
import Verif.Spec.Area
import Mathlib.MeasureTheory.Measure.Lebesgue.EqHaar
import Mathlib.MeasureTheory.Measure.Lebesgue.Basic
import Mathlib.MeasureTheory.Integral.IntervalIntegral.Basic
import Mathlib.Analysis.SpecialFunctions.Integrals.Basic
import Mathlib.LinearAlgebra.Matrix.ToLin

/-!
# The area of triangles, and of regions made of triangles around a point
-/

namespace Foronoi

open MeasureTheory

/-- The triangle with corners `c`, `x`, `y`. -/
def triangle (c x y : Pt) : Set Pt :=
  {z | ∃ a b : ℝ, 0 ≤ a ∧ 0 ≤ b ∧ a + b ≤ 1 ∧ z = (c.1 + a * (x.1 - c.1) + b * (y.1 - c.1), c.2 + a * (x.2 - c.2) + b * (y.2 - c.2))}

/-- The standard triangle. -/
def triangle0 : Set Pt := {z | 0 ≤ z.1 ∧ 0 ≤ z.2 ∧ z.1 + z.2 ≤ 1}

theorem triangle0_closed : IsClosed triangle0 := by
  refine IsClosed.inter (isClosed_le continuous_const continuous_fst) (IsClosed.inter (isClosed_le continuous_const continuous_snd) ?_)
  exact isClosed_le (continuous_fst.add continuous_snd) continuous_const

theorem triangle0_compact : IsCompact triangle0 := by
  refine IsCompact.of_isClosed_subset (s := Set.Icc (0 : ℝ) 1 ×ˢ Set.Icc (0 : ℝ) 1) (isCompact_Icc.prod isCompact_Icc) triangle0_closed ?_
  rintro ⟨a, b⟩ ⟨h1, h2, h3⟩
  simp only at h1 h2 h3
  exact ⟨⟨h1, by simp only; linarith⟩, ⟨h2, by simp only; linarith⟩⟩

theorem volume_triangle0 : volume triangle0 = ENNReal.ofReal (1 / 2) := by
  rw [Measure.volume_eq_prod, Measure.prod_apply triangle0_closed.measurableSet]
  have h1 : ∀ x : ℝ, volume (Prod.mk x ⁻¹' triangle0) = (Set.Icc (0 : ℝ) 1).indicator (fun x => ENNReal.ofReal (1 - x)) x := by
    intro x
    by_cases hx : x ∈ Set.Icc (0 : ℝ) 1
    · rw [Set.indicator_of_mem hx]
      have : Prod.mk x ⁻¹' triangle0 = Set.Icc 0 (1 - x) := by
        ext y
        simp only [triangle0, Set.mem_preimage, Set.mem_setOf_eq, Set.mem_Icc]
        constructor
        · rintro ⟨_, h2, h3⟩; exact ⟨h2, by linarith⟩
        · rintro ⟨h2, h3⟩; exact ⟨hx.1, h2, by linarith⟩
      rw [this, Real.volume_Icc, sub_zero]
    · rw [Set.indicator_of_notMem hx]
      have : Prod.mk x ⁻¹' triangle0 = ∅ := by
        ext y
        simp only [triangle0, Set.mem_preimage, Set.mem_setOf_eq, Set.mem_empty_iff_false, iff_false]
        rintro ⟨h1, h2, h3⟩
        exact hx ⟨h1, by linarith⟩
      rw [this, measure_empty]
  simp only [h1]
  rw [lintegral_indicator measurableSet_Icc, ← ofReal_integral_eq_lintegral_ofReal]
  · congr 1
    rw [integral_Icc_eq_integral_Ioc, ← intervalIntegral.integral_of_le zero_le_one]
    rw [intervalIntegral.integral_sub (by simp) (by simp)]
    simp
    norm_num
  · exact (continuous_const.sub continuous_id).integrableOn_Icc
  · filter_upwards [ae_restrict_mem measurableSet_Icc] with x hx
    have := hx.2
    simp only [Pi.zero_apply]; linarith

/-- The linear part of the map from the standard triangle. -/
noncomputable def triMap (c x y : Pt) : Pt →ₗ[ℝ] Pt :=
  Matrix.toLin (Module.Basis.finTwoProd ℝ) (Module.Basis.finTwoProd ℝ) !![x.1 - c.1, y.1 - c.1; x.2 - c.2, y.2 - c.2]

theorem triMap_apply (c x y z : Pt) : triMap c x y z = ((x.1 - c.1) * z.1 + (y.1 - c.1) * z.2, (x.2 - c.2) * z.1 + (y.2 - c.2) * z.2) := by
  unfold triMap
  rw [Matrix.toLin_finTwoProd_apply]

theorem triMap_det (c x y : Pt) : LinearMap.det (triMap c x y) = -rightOf c x y := by
  unfold triMap
  rw [LinearMap.det_toLin, Matrix.det_fin_two_of]
  unfold rightOf; ring

theorem triangle_eq (c x y : Pt) : triangle c x y = (fun z => c + z) '' (triMap c x y '' triangle0) := by
  ext z
  constructor
  · rintro ⟨a, b, ha, hb, hab, rfl⟩
    refine ⟨_, ⟨(a, b), ⟨ha, hb, hab⟩, rfl⟩, ?_⟩
    rw [triMap_apply]
    refine Prod.ext ?_ ?_ <;> simp only [Prod.fst_add, Prod.snd_add] <;> ring
  · rintro ⟨_, ⟨⟨a, b⟩, ⟨ha, hb, hab⟩, rfl⟩, rfl⟩
    refine ⟨a, b, ha, hb, hab, ?_⟩
    rw [triMap_apply]
    refine Prod.ext ?_ ?_ <;> simp only [Prod.fst_add, Prod.snd_add] <;> ring

/-- The area of a triangle. -/
theorem volume_triangle (c x y : Pt) : volume (triangle c x y) = ENNReal.ofReal (|rightOf c x y| / 2) := by
  have : (volume : Measure Pt).IsAddHaarMeasure := by rw [Measure.volume_eq_prod]; infer_instance
  rw [triangle_eq, Set.image_add_left, measure_preimage_add, Measure.addHaar_image_linearMap, triMap_det, volume_triangle0, abs_neg,
    ← ENNReal.ofReal_mul (abs_nonneg _)]
  congr 1; ring

theorem triangle_measurable (c x y : Pt) : MeasurableSet (triangle c x y) := by
  have : IsCompact (triangle c x y) := by
    rw [triangle_eq]
    refine (triangle0_compact.image ?_).image (continuous_const.add continuous_id)
    have : (triMap c x y : Pt → Pt) = fun z : Pt => ((x.1 - c.1) * z.1 + (y.1 - c.1) * z.2, (x.2 - c.2) * z.1 + (y.2 - c.2) * z.2) := by
      funext z; exact triMap_apply c x y z
    rw [this]
    fun_prop
  exact this.isClosed.measurableSet

/-- A triangle without area. -/
theorem volume_segment (c x : Pt) : volume (triangle c x x) = 0 := by
  rw [volume_triangle]
  have : rightOf c x x = 0 := by unfold rightOf; ring
  rw [this]; simp

/-- A line has no area. -/
theorem volume_line {a b c : ℝ} (h : a ≠ 0 ∨ b ≠ 0) : volume {z : Pt | a * z.1 + b * z.2 = c} = 0 := by
  have hH : (volume : Measure Pt).IsAddHaarMeasure := by rw [Measure.volume_eq_prod]; infer_instance
  rcases Set.eq_empty_or_nonempty {z : Pt | a * z.1 + b * z.2 = c} with h0 | ⟨w, hw⟩
  · rw [h0, measure_empty]
  have hw : a * w.1 + b * w.2 = c := hw
  let S : AffineSubspace ℝ Pt := AffineSubspace.mk' w (LinearMap.ker (a • LinearMap.fst ℝ ℝ ℝ + b • LinearMap.snd ℝ ℝ ℝ))
  have hS : {z : Pt | a * z.1 + b * z.2 = c} = (S : Set Pt) := by
    ext z
    simp only [S, Set.mem_setOf_eq, SetLike.mem_coe, AffineSubspace.mem_mk', LinearMap.mem_ker, LinearMap.add_apply, LinearMap.smul_apply,
      LinearMap.fst_apply, LinearMap.snd_apply, smul_eq_mul, vsub_eq_sub, Prod.fst_sub, Prod.snd_sub]
    constructor <;> intro h <;> linarith
  rw [hS]
  refine Measure.addHaar_affineSubspace _ _ ?_
  intro htop
  have hall : ∀ z : Pt, a * z.1 + b * z.2 = c := by
    intro z
    have : z ∈ (S : Set Pt) := by rw [htop]; trivial
    rw [← hS] at this
    exact this
  have h1 := hall (0, 0)
  have h2 := hall (1, 0)
  have h3 := hall (0, 1)
  simp only at h1 h2 h3
  rcases h with h | h
  · apply h; linarith
  · apply h; linarith

/-- A region bounded by a closed chain that runs clockwise around `c`. -/
structure Star (S : Set Pt) (c : Pt) (P : Nat → Pt) (k : Nat) : Prop where
  close : P k = P 0
  turn : ∀ i < k, P i = P (i + 1) ∨ 0 < rightOf c (P i) (P (i + 1))
  moves : ∃ i < k, P i ≠ P (i + 1)
  region : ∀ z, z ∈ S ↔ ∀ i < k, 0 ≤ rightOf (P i) (P (i + 1)) z
  corners : ∀ i < k, P i ∈ S
  once : ∀ i < k, ∀ j < k, ∀ w, Between (P i) (P (i + 1)) w → w ≠ P i → w ≠ P (i + 1) → Between (P j) (P (j + 1)) w → w ≠ P j → w ≠ P (j + 1) → i = j

theorem rightOf_cyc (x y z : Pt) : rightOf x y z = rightOf z x y := by unfold rightOf; ring

/-- A point of a triangle is the centre or on the way to a point of the edge. -/
theorem triangle_ray {c x y z : Pt} (hz : z ∈ triangle c x y) (hne : z ≠ c) :
    ∃ w t, 0 < t ∧ t ≤ 1 ∧ Between x y w ∧ z.1 - c.1 = t * (w.1 - c.1) ∧ z.2 - c.2 = t * (w.2 - c.2) := by
  obtain ⟨a, b, ha, hb, hab, rfl⟩ := hz
  have hpos : 0 < a + b := by
    rcases (add_nonneg ha hb).lt_or_eq with h | h
    · exact h
    · exfalso
      have a0 : a = 0 := by linarith
      have b0 : b = 0 := by linarith
      exact hne (by rw [a0, b0]; refine Prod.ext ?_ ?_ <;> simp)
  refine ⟨_, a + b, hpos, hab, ⟨b / (a + b), by positivity, by rw [div_le_one hpos]; linarith, rfl⟩, ?_, ?_⟩ <;> simp only <;> field_simp <;> ring

namespace Star

variable {S : Set Pt} {c : Pt} {P : Nat → Pt} {k : Nat} (h : Star S c P k)
include h

theorem corner_mem {i : Nat} (hi : i ≤ k) : P i ∈ S := by
  rcases Nat.lt_or_ge i k with h1 | h1
  · exact h.corners i h1
  · have : i = k := by omega
    rw [this, h.close]
    obtain ⟨j, hj, _⟩ := h.moves
    exact h.corners 0 (by omega)

theorem center_nonneg {i : Nat} (hi : i < k) : 0 ≤ rightOf (P i) (P (i + 1)) c := by
  rcases h.turn i hi with h1 | h1
  · rw [h1]
    have : rightOf (P (i + 1)) (P (i + 1)) c = 0 := by unfold rightOf; ring
    rw [this]
  · rw [rightOf_cyc]; exact h1.le

theorem sub {i : Nat} (hi : i < k) : triangle c (P i) (P (i + 1)) ⊆ S := by
  rintro z ⟨a, b, ha, hb, hab, rfl⟩
  rw [h.region]
  intro j hj
  have h1 := (h.region _).mp (h.corner_mem hi.le) j hj
  have h2 := (h.region _).mp (h.corner_mem (i := i + 1) hi) j hj
  have h3 := h.center_nonneg hj
  have e : rightOf (P j) (P (j + 1)) (c.1 + a * ((P i).1 - c.1) + b * ((P (i + 1)).1 - c.1), c.2 + a * ((P i).2 - c.2) + b * ((P (i + 1)).2 - c.2)) =
      (1 - a - b) * rightOf (P j) (P (j + 1)) c + a * rightOf (P j) (P (j + 1)) (P i) + b * rightOf (P j) (P (j + 1)) (P (i + 1)) := by
    unfold rightOf; ring
  rw [e]
  have := mul_nonneg (show 0 ≤ 1 - a - b by linarith) h3
  have := mul_nonneg ha h1
  have := mul_nonneg hb h2
  linarith

/-- A point of the region on the ray through `w` on an edge is not behind it. -/
theorem before {i : Nat} (hi : i < k) (hpos : 0 < rightOf c (P i) (P (i + 1))) {w z : Pt} {t : ℝ} (hw : Between (P i) (P (i + 1)) w) (hz : z ∈ S)
    (h1 : z.1 - c.1 = t * (w.1 - c.1)) (h2 : z.2 - c.2 = t * (w.2 - c.2)) : t ≤ 1 := by
  have hz0 := (h.region z).mp hz i hi
  have hw0 : rightOf (P i) (P (i + 1)) w = 0 := by
    obtain ⟨u, _, _, rfl⟩ := hw
    unfold rightOf; ring
  have x1 : z.1 = c.1 + t * (w.1 - c.1) := by linarith
  have x2 : z.2 = c.2 + t * (w.2 - c.2) := by linarith
  have e1 : rightOf (P i) (P (i + 1)) z = (1 - t) * rightOf c (P i) (P (i + 1)) + t * rightOf (P i) (P (i + 1)) w := by
    unfold rightOf
    rw [x1, x2]; ring
  rw [e1, hw0] at hz0
  by_contra hcon
  push Not at hcon
  have := mul_pos (sub_pos.mpr hcon) hpos
  nlinarith

theorem covers (hc : c ∈ S) {z : Pt} (hz : z ∈ S) : ∃ i < k, P i ≠ P (i + 1) ∧ z ∈ triangle c (P i) (P (i + 1)) := by
  obtain ⟨i0, hi0, hne0⟩ := h.moves
  by_cases hzc : z = c
  · exact ⟨i0, hi0, hne0, 0, 0, le_rfl, le_rfl, by norm_num, by rw [hzc]; refine Prod.ext ?_ ?_ <;> simp⟩
  obtain ⟨i, hi, hcone⟩ := winding h.close h.turn h.moves z
  have hpos := hcone.1
  obtain ⟨w, t, t0, hb, w1, w2⟩ := hcone.meets hzc
  have hne : P i ≠ P (i + 1) := by
    intro hh
    rw [hh] at hpos
    have : rightOf c (P (i + 1)) (P (i + 1)) = 0 := by unfold rightOf; ring
    rw [this] at hpos
    exact lt_irrefl _ hpos
  have ht : t ≠ 0 := t0.ne'
  have z1 : z.1 - c.1 = t⁻¹ * (w.1 - c.1) := by rw [w1]; field_simp
  have z2 : z.2 - c.2 = t⁻¹ * (w.2 - c.2) := by rw [w2]; field_simp
  have hle := h.before hi hpos hb hz z1 z2
  obtain ⟨u, u0, u1, hu⟩ := hb
  have hi0 : 0 < t⁻¹ := inv_pos.mpr t0
  refine ⟨i, hi, hne, t⁻¹ * (1 - u), t⁻¹ * u, mul_nonneg hi0.le (by linarith), mul_nonneg hi0.le u0, by linarith [mul_le_mul_of_nonneg_left u1 hi0.le, show t⁻¹ * (1 - u) + t⁻¹ * u = t⁻¹ by ring], ?_⟩
  have e1 : w.1 = (1 - u) * (P i).1 + u * (P (i + 1)).1 := by rw [hu]
  have e2 : w.2 = (1 - u) * (P i).2 + u * (P (i + 1)).2 := by rw [hu]
  rw [e1] at z1
  rw [e2] at z2
  refine Prod.ext ?_ ?_ <;> simp only
  · linear_combination z1
  · linear_combination z2

theorem overlap {i j : Nat} (hi : i < k) (hj : j < k) (hij : i ≠ j) (hni : P i ≠ P (i + 1)) (hnj : P j ≠ P (j + 1)) :
    triangle c (P i) (P (i + 1)) ∩ triangle c (P j) (P (j + 1)) ⊆
      (triangle c (P i) (P i) ∪ triangle c (P (i + 1)) (P (i + 1))) ∪ (triangle c (P j) (P j) ∪ triangle c (P (j + 1)) (P (j + 1))) := by
  rintro z ⟨zi, zj⟩
  by_cases hzc : z = c
  · left; left
    exact ⟨0, 0, le_rfl, le_rfl, by norm_num, by rw [hzc]; refine Prod.ext ?_ ?_ <;> simp⟩
  obtain ⟨w, t, t0, t1, hb, w1, w2⟩ := triangle_ray zi hzc
  obtain ⟨w', t', t0', t1', hb', w1', w2'⟩ := triangle_ray zj hzc
  have hpi := (h.turn i hi).resolve_left hni
  have hpj := (h.turn j hj).resolve_left hnj
  have mem : ∀ {l : Nat} {v : Pt}, l < k → Between (P l) (P (l + 1)) v → v ∈ S := by
    rintro l v hl ⟨u, u0, u1, rfl⟩
    refine h.sub hl ⟨1 - u, u, by linarith, u0, by linarith, ?_⟩
    refine Prod.ext ?_ ?_ <;> simp only <;> ring
  have ht : t ≠ 0 := t0.ne'
  have ht' : t' ≠ 0 := t0'.ne'
  have q1 : w'.1 - c.1 = t / t' * (w.1 - c.1) := by field_simp; linarith
  have q2 : w'.2 - c.2 = t / t' * (w.2 - c.2) := by field_simp; linarith
  have r1 : w.1 - c.1 = t' / t * (w'.1 - c.1) := by field_simp; linarith
  have r2 : w.2 - c.2 = t' / t * (w'.2 - c.2) := by field_simp; linarith
  have a1 := h.before hi hpi hb (mem hj hb') q1 q2
  have a2 := h.before hj hpj hb' (mem hi hb) r1 r2
  rw [div_le_one t0'] at a1
  rw [div_le_one t0] at a2
  have htt : t = t' := le_antisymm a1 a2
  have hww : w' = w := by
    rw [htt, div_self ht', one_mul] at q1 q2
    exact Prod.ext (by linarith) (by linarith)
  rw [hww] at hb'
  have seg : ∀ {x : Pt}, w = x → z ∈ triangle c x x := by
    rintro x rfl
    refine ⟨t, 0, t0.le, le_rfl, by linarith, Prod.ext ?_ ?_⟩ <;> simp only <;> linarith
  by_cases e1 : w = P i
  · exact Or.inl (Or.inl (seg e1))
  by_cases e2 : w = P (i + 1)
  · exact Or.inl (Or.inr (seg e2))
  by_cases e3 : w = P j
  · exact Or.inr (Or.inl (seg e3))
  by_cases e4 : w = P (j + 1)
  · exact Or.inr (Or.inr (seg e4))
  exact absurd (h.once i hi j hj w hb e1 e2 hb' e3 e4) hij

theorem center : c ∈ S := by
  rw [h.region]
  exact fun i hi => h.center_nonneg hi

/-- The area of the region. -/
theorem volume_eq : volume S = ENNReal.ofReal (∑ i ∈ Finset.range k, rightOf c (P i) (P (i + 1)) / 2) := by
  classical
  let I := (Finset.range k).filter fun i => P i ≠ P (i + 1)
  have hS : S = ⋃ i ∈ I, triangle c (P i) (P (i + 1)) := by
    ext z
    simp only [Set.mem_iUnion, I, Finset.mem_filter, Finset.mem_range]
    constructor
    · intro hz
      obtain ⟨i, h1, h2, h3⟩ := h.covers h.center hz
      exact ⟨i, ⟨h1, h2⟩, h3⟩
    · rintro ⟨i, ⟨h1, _⟩, h3⟩
      exact h.sub h1 h3
  have hd : Set.Pairwise (↑I) (Function.onFun (AEDisjoint volume) fun i => triangle c (P i) (P (i + 1))) := by
    intro i hi j hj hij
    obtain ⟨i1, i2⟩ := Finset.mem_filter.mp hi
    obtain ⟨j1, j2⟩ := Finset.mem_filter.mp hj
    refine measure_mono_null (h.overlap (Finset.mem_range.mp i1) (Finset.mem_range.mp j1) hij i2 j2) ?_
    refine measure_union_null (measure_union_null ?_ ?_) (measure_union_null ?_ ?_) <;> exact volume_segment _ _
  rw [hS, measure_biUnion_finset₀ hd fun i _ => (triangle_measurable _ _ _).nullMeasurableSet]
  have hterm : ∀ i ∈ I, volume (triangle c (P i) (P (i + 1))) = ENNReal.ofReal (rightOf c (P i) (P (i + 1)) / 2) := by
    intro i hi
    obtain ⟨i1, i2⟩ := Finset.mem_filter.mp hi
    rw [volume_triangle, abs_of_pos ((h.turn i (Finset.mem_range.mp i1)).resolve_left i2)]
  rw [Finset.sum_congr rfl hterm, ← ENNReal.ofReal_sum_of_nonneg]
  · congr 1
    refine Finset.sum_subset (Finset.filter_subset _ _) ?_
    intro i hi hni
    have : P i = P (i + 1) := by
      by_contra hh
      exact hni (Finset.mem_filter.mpr ⟨hi, hh⟩)
    rw [← this]
    unfold rightOf; ring
  · intro i hi
    obtain ⟨i1, i2⟩ := Finset.mem_filter.mp hi
    have := (h.turn i (Finset.mem_range.mp i1)).resolve_left i2
    linarith

theorem sum_pos : 0 < ∑ i ∈ Finset.range k, rightOf c (P i) (P (i + 1)) / 2 := by
  obtain ⟨i, hi, hne⟩ := h.moves
  refine Finset.sum_pos' ?_ ⟨i, Finset.mem_range.mpr hi, ?_⟩
  · intro j hj
    rcases h.turn j (Finset.mem_range.mp hj) with h1 | h1
    · rw [← h1]
      have : rightOf c (P j) (P j) = 0 := by unfold rightOf; ring
      rw [this]; norm_num
    · linarith
  · have := (h.turn i hi).resolve_left hne
    linarith

end Star

end Foronoi
