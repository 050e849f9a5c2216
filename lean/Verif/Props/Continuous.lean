import Mathlib.MeasureTheory.Integral.Indicator
import Verif.Props.SubPolygon

/-!
# C135: small changes of the input change the areas little
-/

namespace Foronoi

open MeasureTheory Filter Topology

variable {pts : Nat → ℝ × ℝ} {q q2 : PQ (QE ℝ)} {ok ok2 : List (QE ℝ) → Prop} {n : Nat} {rz rz2 : Bool} {poly poly2 : Poly ℝ} {s' s2' : St ℝ} {fuel fuel2 : Nat}

theorem part_closed (l : List (ℝ × ℝ)) (p : Nat) : IsClosed {z | InClosed l z ∧ Nearest pts n p z} := by
  have h1 : IsClosed {z : ℝ × ℝ | InClosed l z} := by
    unfold InClosed
    simp only [Set.setOf_forall]
    exact isClosed_iInter fun i => isClosed_iInter fun _ => isClosed_le continuous_const (by unfold rightOf; fun_prop)
  have h2 : IsClosed {z : ℝ × ℝ | Nearest pts n p z} := by
    by_cases hp : p < n
    · have : {z : ℝ × ℝ | Nearest pts n p z} = {z | ∀ o < n, sqDist (pts p) z ≤ sqDist (pts o) z} := by
        ext z
        exact ⟨fun hz => hz.2, fun hz => ⟨hp, hz⟩⟩
      rw [this]
      simp only [Set.setOf_forall]
      exact isClosed_iInter fun i => isClosed_iInter fun _ => isClosed_le (by unfold sqDist; fun_prop) (by unfold sqDist; fun_prop)
    · have : {z : ℝ × ℝ | Nearest pts n p z} = ∅ := by
        ext z
        exact ⟨fun hz => absurd hz.1 hp, fun hz => hz.elim⟩
      rw [this]
      exact isClosed_empty
  exact h1.inter h2

/-- The points that are equally far from two different points have no area. -/
theorem bisector_null {a b : ℝ × ℝ} (h : a ≠ b) : volume {z : ℝ × ℝ | sqDist a z = sqDist b z} = 0 := by
  have e : {z : ℝ × ℝ | sqDist a z = sqDist b z} = {z : ℝ × ℝ | 2 * (b.1 - a.1) * z.1 + 2 * (b.2 - a.2) * z.2 = b.1 ^ 2 + b.2 ^ 2 - a.1 ^ 2 - a.2 ^ 2} := by
    ext z
    simp only [Set.mem_setOf_eq, sqDist]
    constructor <;> intro hh <;> linarith
  rw [e]
  refine volume_line ?_
  by_contra hh
  push Not at hh
  exact h (Prod.ext (by linarith [hh.1]) (by linarith [hh.2]))

/-- The areas of cells in polygons depend continuously on the sites and the corners. -/
theorem cells_converge {P : ℕ → Nat → ℝ × ℝ} {M : ℕ → List (ℝ × ℝ)} {m : List (ℝ × ℝ)} (hm : ClockwiseConvex m) (hlen : ∀ k, (M k).length = m.length)
    (hP : ∀ i < n, Tendsto (fun k => P k i) atTop (𝓝 (pts i))) (hM : ∀ i, Tendsto (fun k => corner (M k) i) atTop (𝓝 (corner m i))) (hMc : ∀ k, ClockwiseConvex (M k))
    (hd : Distinct pts n) {p : Nat} (hp : p < n) :
    Tendsto (fun k => volume {z | InClosed (M k) z ∧ Nearest (P k) n p z}) atTop (𝓝 (volume {z | InClosed m z ∧ Nearest pts n p z})) := by
  obtain ⟨R, hR⟩ : ∃ R : ℝ, R = (∑ i ∈ Finset.range m.length, ‖corner m i‖) + 1 := ⟨_, rfl⟩
  have hbig : ∀ᶠ k in atTop, ∀ i ∈ Finset.range m.length, ‖corner (M k) i‖ < R := by
    rw [Finset.eventually_all]
    intro i hi
    refine ((hM i).norm).eventually (gt_mem_nhds ?_)
    have := Finset.single_le_sum (f := fun i => ‖corner m i‖) (fun j _ => norm_nonneg _) hi
    rw [hR]
    linarith
  refine tendsto_measure_of_ae_tendsto_indicator atTop (part_closed m p).measurableSet (fun k => (part_closed (M k) p).measurableSet)
    (B := Set.Icc ((-R, -R) : ℝ × ℝ) (R, R)) measurableSet_Icc (isCompact_Icc.measure_lt_top.ne) ?_ ?_
  · filter_upwards [hbig] with k hk z hz
    have hb : ∀ c ∈ M k, |c.1| ≤ R ∧ |c.2| ≤ R := by
      intro c hc
      obtain ⟨i, hi, e⟩ := List.getElem_of_mem hc
      have e' : corner (M k) i = c := by
        unfold corner
        rw [Nat.mod_eq_of_lt hi, getD_elem _ hi, e]
      have := hk i (Finset.mem_range.mpr (by rw [← hlen k]; exact hi))
      rw [e'] at this
      exact ⟨(norm_fst_le c).trans this.le, (norm_snd_le c).trans this.le⟩
    obtain ⟨c1, m1, l1⟩ := (hMc k).max 1 0 hz.1
    obtain ⟨c2, m2, l2⟩ := (hMc k).max (-1) 0 hz.1
    obtain ⟨c3, m3, l3⟩ := (hMc k).max 0 1 hz.1
    obtain ⟨c4, m4, l4⟩ := (hMc k).max 0 (-1) hz.1
    have b1 := abs_le.mp (hb c1 m1).1
    have b2 := abs_le.mp (hb c2 m2).1
    have b3 := abs_le.mp (hb c3 m3).2
    have b4 := abs_le.mp (hb c4 m4).2
    exact ⟨⟨by simp only; linarith [b2.1], by simp only; linarith [b4.1]⟩, ⟨by simp only; linarith [b1.2], by simp only; linarith [b3.2]⟩⟩
  · have hnull : volume ({z | OnBoundary m z} ∪ ⋃ o ∈ (Finset.range n).erase p, {z : ℝ × ℝ | sqDist (pts p) z = sqDist (pts o) z}) = 0 := by
      rw [measure_union_null_iff]
      refine ⟨boundary_null hm, (measure_biUnion_null_iff (Finset.countable_toSet _)).mpr fun o ho => bisector_null fun e => ?_⟩
      have ho := Finset.mem_erase.mp ho
      exact ho.1 (hd o (Finset.mem_range.mp ho.2) p hp e.symm)
    refine (measure_eq_zero_iff_ae_notMem.mp hnull).mono fun z hz => ?_
    simp only [Set.mem_union, Set.mem_iUnion, not_or, not_exists, Finset.mem_erase, Finset.mem_range] at hz
    obtain ⟨hz1, hz2⟩ := hz
    have hcr : ∀ i, Tendsto (fun k => rightOf (corner (M k) i) (corner (M k) (i + 1)) z) atTop (𝓝 (rightOf (corner m i) (corner m (i + 1)) z)) := fun i => by
      have h1 := (continuous_fst.tendsto _).comp (hM i)
      have h2 := (continuous_snd.tendsto _).comp (hM i)
      have h3 := (continuous_fst.tendsto _).comp (hM (i + 1))
      have h4 := (continuous_snd.tendsto _).comp (hM (i + 1))
      exact ((h4.sub h2).mul (tendsto_const_nhds.sub h1)).sub ((h3.sub h1).mul (tendsto_const_nhds.sub h2))
    have hds : ∀ i < n, Tendsto (fun k => sqDist (P k i) z) atTop (𝓝 (sqDist (pts i) z)) := fun i hi => by
      have h1 := (continuous_fst.tendsto _).comp (hP i hi)
      have h2 := (continuous_snd.tendsto _).comp (hP i hi)
      exact ((h1.sub tendsto_const_nhds).pow 2).add ((h2.sub tendsto_const_nhds).pow 2)
    by_cases hin : InClosed m z ∧ Nearest pts n p z
    · have e1 : ∀ᶠ k in atTop, ∀ i ∈ Finset.range m.length, 0 < rightOf (corner (M k) i) (corner (M k) (i + 1)) z := by
        rw [Finset.eventually_all]
        intro i hi
        refine (hcr i).eventually (lt_mem_nhds ?_)
        rcases closed_cases hm hin.1 with h | h
        · exact h i (Finset.mem_range.mp hi)
        · exact absurd h hz1
      have e2 : ∀ᶠ k in atTop, ∀ o ∈ (Finset.range n).erase p, sqDist (P k p) z < sqDist (P k o) z := by
        rw [Finset.eventually_all]
        intro o ho
        have ho := Finset.mem_erase.mp ho
        have hon := Finset.mem_range.mp ho.2
        refine (hds p hp).eventually_lt (hds o hon) ?_
        exact lt_of_le_of_ne (hin.2.2 o hon) (hz2 o ⟨ho.1, hon⟩)
      filter_upwards [e1, e2] with k k1 k2
      refine ⟨fun _ => hin, fun _ => ⟨fun i hi => (k1 i (Finset.mem_range.mpr (by rw [← hlen k]; exact hi))).le, hp, fun o ho => ?_⟩⟩
      by_cases hne : o = p
      · rw [hne]
      · exact (k2 o (Finset.mem_erase.mpr ⟨hne, Finset.mem_range.mpr ho⟩)).le
    · have : ∀ᶠ k in atTop, ¬ (InClosed (M k) z ∧ Nearest (P k) n p z) := by
        by_cases h1 : InClosed m z
        · have h2 : ¬ Nearest pts n p z := fun h2 => hin ⟨h1, h2⟩
          obtain ⟨o, ho, hlt⟩ : ∃ o < n, sqDist (pts o) z < sqDist (pts p) z := by
            by_contra hh
            push Not at hh
            exact h2 ⟨hp, hh⟩
          filter_upwards [(hds o ho).eventually_lt (hds p hp) hlt] with k hk hh
          exact absurd (hh.2.2 o ho) (not_le.mpr hk)
        · unfold InClosed at h1
          push Not at h1
          obtain ⟨i, hi, hlt⟩ := h1
          filter_upwards [(hcr i).eventually (gt_mem_nhds hlt)] with k hk hh
          exact absurd (hh.1 i (by rw [hlen k]; exact hi)) (not_le.mpr hk)
      filter_upwards [this] with k hk
      exact ⟨fun hh => absurd hh hk, fun hh => absurd hh hin⟩

/-- **C135**: if the sites and the corners are changed by little, the areas change by little. -/
theorem C135_continuous (hF : FitsCorners pts n poly) (hd : Distinct pts n) (hq : q.Spec evLt ok) (h : createDiagram pts q n fuel poly rz (initSt poly) = .ok ((), s'))
    {p : Nat} (hp : p < n) {f : Nat} (hf : s'.d.heCnt ≤ f) {a : ℝ} (ha : area f p s'.d = .ok (a, s'.d)) {ε : ℝ} (hε : 0 < ε) :
    ∃ δ > 0, ∀ (pts2 : Nat → ℝ × ℝ) (poly2 : Poly ℝ) (r : Nat) (q2 : PQ (QE ℝ)) (ok2 : List (QE ℝ) → Prop) (fuel2 : Nat) (rz2 : Bool) (s2' : St ℝ) (f2 : Nat) (b : ℝ),
      (∀ i < n, dist (pts2 i) (pts i) < δ) → poly2.points.length = poly.points.length → (∀ i, dist (corner poly2.points (i + r)) (corner poly.points i) < δ) →
      FitsCorners pts2 n poly2 → Distinct pts2 n → q2.Spec evLt ok2 → createDiagram pts2 q2 n fuel2 poly2 rz2 (initSt poly2) = .ok ((), s2') → s2'.d.heCnt ≤ f2 →
      area f2 p s2'.d = .ok (b, s2'.d) → |b - a| < ε := by
  by_contra hcon
  push Not at hcon
  choose pts2 poly2 r q2 ok2 fuel2 rz2 s2' f2 b h1 h2 h3 h4 h5 h6 h7 h8 h9 h10 using fun k : ℕ => hcon (1 / ((k : ℝ) + 1)) (by positivity)
  obtain ⟨p0, v0⟩ := area_volume hF hd hq h hp hf ha
  have vk : ∀ k, 0 ≤ b k ∧ volume {z | InClosed (poly2 k).points z ∧ Nearest (pts2 k) n p z} = ENNReal.ofReal (b k) := fun k =>
    area_volume (h4 k) (h5 k) (h6 k) (h7 k) hp (h8 k) (h9 k)
  have hzero : Tendsto (fun k : ℕ => 1 / ((k : ℝ) + 1)) atTop (𝓝 0) := tendsto_one_div_add_atTop_nhds_zero_nat
  have hpos : ∀ k, 0 < (poly2 k).points.length := fun k => by have := (h4 k).convex.1; omega
  have hcor : ∀ k i, corner ((poly2 k).points.rotate (r k)) i = corner (poly2 k).points (i + r k) := fun k i => by
    unfold corner
    have hi : i % (poly2 k).points.length < (poly2 k).points.length := Nat.mod_lt _ (hpos k)
    rw [List.length_rotate, getD_elem _ (by rw [List.length_rotate]; exact hi), List.getElem_rotate, getD_elem _ (Nat.mod_lt _ (hpos k))]
    congr 1
    rw [Nat.mod_add_mod]
  have hT := cells_converge (P := pts2) (M := fun k => (poly2 k).points.rotate (r k)) hF.convex (fun k => by rw [List.length_rotate]; exact h2 k)
    (fun i hi => tendsto_iff_dist_tendsto_zero.mpr (squeeze_zero (fun _ => dist_nonneg) (fun k => (h1 k i hi).le) hzero))
    (fun i => tendsto_iff_dist_tendsto_zero.mpr (squeeze_zero (fun _ => dist_nonneg) (fun k => by rw [hcor]; exact (h3 k i).le) hzero))
    (fun k => (h4 k).convex.rotate _) hd hp
  have e : ∀ k, volume {z | InClosed ((poly2 k).points.rotate (r k)) z ∧ Nearest (pts2 k) n p z} = ENNReal.ofReal (b k) := fun k => by
    rw [← (vk k).2]
    congr 1
    ext z
    show InClosed _ z ∧ _ ↔ InClosed _ z ∧ _
    rw [closed_rotate (hpos k)]
  simp only [e] at hT
  rw [v0] at hT
  have hb : Tendsto b atTop (𝓝 a) := by
    have := (ENNReal.tendsto_toReal (by simp)).comp hT
    simp only [ENNReal.toReal_ofReal p0] at this
    refine this.congr fun k => ?_
    simp only [Function.comp]
    exact ENNReal.toReal_ofReal (vk k).1
  obtain ⟨N, hN⟩ := Metric.tendsto_atTop.mp hb ε hε
  have := hN N le_rfl
  rw [Real.dist_eq] at this
  exact absurd (h10 N) (not_le.mpr this)

end Foronoi
