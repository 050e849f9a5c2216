import Verif.Spec.Symmetry
import Verif.Props.AnySites
import Verif.Props.FinalVertices
import Mathlib.MeasureTheory.Measure.Lebesgue.EqHaar

/-!
# Sites in another order, at another place, in another unit
-/

namespace Foronoi

open scoped List

variable {pts : Nat → ℝ × ℝ} {n : Nat} {poly : Poly ℝ} {k c : ℝ} {σ : Equiv.Perm Nat}

theorem sim_onto (hk : 0 < k) (w : Pt) : ∃ z, w = sim k c z := by
  refine ⟨((w.1 - c) / k, w.2 / k), ?_⟩
  unfold sim
  ext
  · show w.1 = k * ((w.1 - c) / k) + c
    field_simp; ring
  · show w.2 = k * (w.2 / k)
    field_simp

theorem sim_inj (hk : 0 < k) {a b : Pt} (h : sim k c a = sim k c b) : a = b := by
  simp only [sim, Prod.mk.injEq] at h
  ext
  · exact mul_left_cancel₀ hk.ne' (by linarith [h.1])
  · exact mul_left_cancel₀ hk.ne' h.2

theorem sqDist_sim (a b : Pt) : sqDist (sim k c a) (sim k c b) = k ^ 2 * sqDist a b := by simp only [sqDist, sim]; ring

theorem rightOf_sim (a b z : Pt) : rightOf (sim k c a) (sim k c b) (sim k c z) = k ^ 2 * rightOf a b z := by simp only [rightOf, sim]; ring

theorem corner_sim {l : List Pt} (hl : l ≠ []) (i : Nat) : corner (l.map (sim k c)) i = sim k c (corner l i) := by
  have h0 : 0 < l.length := List.length_pos_iff.mpr hl
  have hi : i % l.length < l.length := Nat.mod_lt _ h0
  simp only [corner, List.length_map, List.getD_eq_getElem?_getD, List.getElem?_map]
  rw [List.getElem?_eq_getElem hi]
  rfl

theorem between_sim (hk : 0 < k) {a b z : Pt} : Between (sim k c a) (sim k c b) (sim k c z) ↔ Between a b z := by
  constructor
  · rintro ⟨t, h0, h1, h⟩
    refine ⟨t, h0, h1, sim_inj (k := k) (c := c) hk (h.trans ?_)⟩
    simp only [sim]; ext <;> simp only <;> ring
  · rintro ⟨t, h0, h1, h⟩
    refine ⟨t, h0, h1, ?_⟩
    subst h
    simp only [sim]; ext <;> simp only <;> ring

theorem inside_sim (hk : 0 < k) {l : List Pt} {z : Pt} : StrictlyInside (l.map (sim k c)) (sim k c z) ↔ StrictlyInside l z := by
  by_cases hl : l = []
  · subst hl; simp [StrictlyInside]
  have h2 : 0 < k ^ 2 := by positivity
  simp only [StrictlyInside, List.length_map, corner_sim hl, rightOf_sim, mul_pos_iff_of_pos_left h2]

theorem closed_sim (hk : 0 < k) {l : List Pt} {z : Pt} : InClosed (l.map (sim k c)) (sim k c z) ↔ InClosed l z := by
  by_cases hl : l = []
  · subst hl; simp [InClosed]
  have h2 : 0 < k ^ 2 := by positivity
  simp only [InClosed, List.length_map, corner_sim hl, rightOf_sim, mul_nonneg_iff_of_pos_left h2]

theorem boundary_sim (hk : 0 < k) {l : List Pt} {z : Pt} : OnBoundary (l.map (sim k c)) (sim k c z) ↔ OnBoundary l z := by
  by_cases hl : l = []
  · subst hl; simp [OnBoundary, OnSide]
  simp only [OnBoundary, OnSide, List.length_map, corner_sim hl, between_sim hk]

theorem dist_sites (hk : 0 < k) (i : Nat) (z : Pt) : sqDist (simSites k c σ pts i) (sim k c z) = k ^ 2 * sqDist (pts (σ i)) z := sqDist_sim _ _

theorem nearest_sim (hk : 0 < k) (hσ : Permutes σ n) {i : Nat} {z : Pt} : Nearest (simSites k c σ pts) n i (sim k c z) ↔ Nearest pts n (σ i) z := by
  have h2 : 0 < k ^ 2 := by positivity
  simp only [Nearest, dist_sites hk, hσ i, mul_le_mul_iff_right₀ h2]
  refine and_congr_right fun _ => ⟨fun h r hr => ?_, fun h r hr => h _ ((hσ r).mpr hr)⟩
  have := h (σ.symm r) ((hσ _).mp (by simpa using hr))
  simpa using this

theorem nearest_sim' (hk : 0 < k) (hσ : Permutes σ n) {p : Nat} {z : Pt} : Nearest (simSites k c σ pts) n (σ.symm p) (sim k c z) ↔ Nearest pts n p z := by
  rw [nearest_sim hk hσ, Equiv.apply_symm_apply]

theorem distinct_sim (hk : 0 < k) (hσ : Permutes σ n) (hd : Distinct pts n) : Distinct (simSites k c σ pts) n := by
  intro p hp r hr h
  exact σ.injective (hd _ ((hσ p).mpr hp) _ ((hσ r).mpr hr) (sim_inj hk h))

theorem vertex_sim (hk : 0 < k) (hσ : Permutes σ n) {z : Pt} : VoronoiVertex (simSites k c σ pts) n (sim k c z) ↔ VoronoiVertex pts n z := by
  constructor
  · rintro ⟨x, y, w, h1, h2, h3, h4, h5, h6⟩
    exact ⟨σ x, σ y, σ w, σ.injective.ne h1, σ.injective.ne h2, σ.injective.ne h3, (nearest_sim hk hσ).mp h4, (nearest_sim hk hσ).mp h5, (nearest_sim hk hσ).mp h6⟩
  · rintro ⟨x, y, w, h1, h2, h3, h4, h5, h6⟩
    exact ⟨σ.symm x, σ.symm y, σ.symm w, σ.symm.injective.ne h1, σ.symm.injective.ne h2, σ.symm.injective.ne h3, (nearest_sim' hk hσ).mpr h4,
      (nearest_sim' hk hσ).mpr h5, (nearest_sim' hk hσ).mpr h6⟩

theorem farBorder_sim (hk : 0 < k) (hσ : Permutes σ n) {p r : Nat} (h : FarBorder (simSites k c σ pts) n p r) : FarBorder pts n (σ p) (σ r) := by
  have h2 : 0 < k ^ 2 := by positivity
  intro R
  obtain ⟨w, h3, h4, h5⟩ := h (k ^ 2 * R)
  obtain ⟨z, rfl⟩ := sim_onto (c := c) hk w
  rw [dist_sites hk, mul_lt_mul_iff_right₀ h2] at h5
  exact ⟨z, (nearest_sim hk hσ).mp h3, (nearest_sim hk hσ).mp h4, h5⟩

theorem farCell_sim (hk : 0 < k) (hσ : Permutes σ n) {i : Nat} : FarCell (simSites k c σ pts) n i ↔ FarCell pts n (σ i) := by
  have h2 : 0 < k ^ 2 := by positivity
  constructor
  · intro h R
    obtain ⟨w, h3, h5⟩ := h (k ^ 2 * R)
    obtain ⟨z, rfl⟩ := sim_onto (c := c) hk w
    rw [dist_sites hk, mul_lt_mul_iff_right₀ h2] at h5
    exact ⟨z, (nearest_sim hk hσ).mp h3, h5⟩
  · intro h R
    obtain ⟨z, h3, h5⟩ := h (R / k ^ 2)
    refine ⟨sim k c z, (nearest_sim hk hσ).mpr h3, ?_⟩
    rw [dist_sites hk]
    rw [div_lt_iff₀ h2] at h5
    linarith

theorem inCell_sim (hk : 0 < k) (hσ : Permutes σ n) {i : Nat} {z : Pt} : InCell (simSites k c σ pts) n (simPoly k c poly) i (sim k c z) ↔ InCell pts n poly (σ i) z := by
  simp only [InCell, simPoly, closed_sim hk, nearest_sim hk hσ]

theorem nothingOrAll_sim (hk : 0 < k) (hσ : Permutes σ n) {i : Nat} :
    NothingOrAll (simSites k c σ pts) n (simPoly k c poly) i ↔ NothingOrAll pts n poly (σ i) := by
  constructor
  · rintro (h | h)
    · exact Or.inl fun z hz => h _ ((inCell_sim hk hσ).mpr hz)
    · exact Or.inr fun z hz => (nearest_sim hk hσ).mp (h (sim k c z) ((inside_sim hk).mpr hz))
  · rintro (h | h)
    · refine Or.inl fun w hw => ?_
      obtain ⟨z, rfl⟩ := sim_onto (c := c) hk w
      exact h z ((inCell_sim hk hσ).mp hw)
    · refine Or.inr fun w hw => ?_
      obtain ⟨z, rfl⟩ := sim_onto (c := c) hk w
      exact (nearest_sim hk hσ).mpr (h z ((inside_sim hk).mp hw))

theorem topRow_sim (hk : 0 < k) (hσ : Permutes σ n) {p r : Nat} (h : TopRowPair (simSites k c σ pts) n p r) : TopRowPair pts n (σ p) (σ r) := by
  obtain ⟨h1, h2, h3⟩ := h
  simp only [simSites, sim, mul_eq_mul_left_iff, hk.ne', or_false] at h1
  simp only [simSites, sim, add_lt_add_iff_right, mul_lt_mul_iff_right₀ hk] at h2
  refine ⟨h1, h2, fun o ho => ?_⟩
  have := h3 (σ.symm o) ((hσ _).mp (by simpa using ho))
  simpa only [simSites, sim, Equiv.apply_symm_apply, add_le_add_iff_right, mul_lt_mul_iff_right₀ hk, mul_le_mul_iff_right₀ hk, mul_eq_mul_left_iff, hk.ne', or_false]
    using this

theorem clipLine_sim (hk : 0 < k) : clipLine (simPoly k c poly) = k * clipLine poly := by
  simp only [clipLine, simPoly, abs_mul, abs_of_pos hk]; ring

/-! ### the constructor -/

theorem foldl_mono {f : ℝ → ℝ} {g : ℝ → ℝ → ℝ} (hf : ∀ a b, f (g a b) = g (f a) (f b)) (l : List ℝ) (a : ℝ) : (l.map f).foldl g (f a) = f (l.foldl g a) := by
  induction l generalizing a with
  | nil => rfl
  | cons b l ih => rw [List.map_cons, List.foldl_cons, ← hf, ih]; rfl

theorem listMin_map {f : ℝ → ℝ} (hf : Monotone f) (l : List ℝ) : listMin (l.map f) = (listMin l).map f := by
  cases l with
  | nil => rfl
  | cons a l => exact congrArg some (foldl_mono (g := min) (fun a b => hf.map_min) l a)

theorem listMax_map {f : ℝ → ℝ} (hf : Monotone f) (l : List ℝ) : listMax (l.map f) = (listMax l).map f := by
  cases l with
  | nil => rfl
  | cons a l => exact congrArg some (foldl_mono (g := max) (fun a b => hf.map_max) l a)

theorem orderKey_sim (hk : 0 < k) (o z : Pt) : orderKey (sim k c o) (sim k c z) = orderKey o z := by
  rw [orderKey_real, orderKey_real]
  congr 3
  have : (⟨(sim k c z).1 - (sim k c o).1, (sim k c z).2 - (sim k c o).2⟩ : ℂ) = (k : ℂ) * ⟨z.1 - o.1, z.2 - o.2⟩ := by
    apply Complex.ext <;> simp [sim] <;> ring
  rw [this, Complex.arg_real_mul _ hk]

theorem mkPoly_sim (hk : 0 < k) {l : List Pt} (h : mkPoly l = .ok poly) : mkPoly (l.map (sim k c)) = .ok (simPoly k c poly) := by
  have m1 : Monotone fun x : ℝ => k * x + c := fun a b hab => by simp only; nlinarith
  have m2 : Monotone fun x : ℝ => k * x := fun a b hab => by simp only; nlinarith
  have e1 : (l.map (sim k c)).map (·.1) = (l.map (·.1)).map fun x => k * x + c := by simp [sim]
  have e2 : (l.map (sim k c)).map (·.2) = (l.map (·.2)).map fun x => k * x := by simp [sim]
  unfold mkPoly at h ⊢
  rw [e1, e2, listMin_map m1, listMin_map m2, listMax_map m1, listMax_map m2]
  split at h
  · rename_i mny mnx mxy mxx h1 h2 h3 h4
    rw [h1, h2, h3, h4]
    simp only [Option.map_some]
    have two : (lit 2 : ℝ) ≠ 0 := by simp [lit, Arith.ofInt]
    simp only [rDiv _ _ two, rAdd] at h ⊢
    rw [Except.ok.injEq] at h
    subst h
    have hc : (((k * mxx + c) + (k * mnx + c)) / lit 2, (k * mxy + k * mny) / lit 2) = sim k c ((mxx + mnx) / lit 2, (mxy + mny) / lit 2) := by
      have : (lit 2 : ℝ) = 2 := by simp [lit, Arith.ofInt]
      rw [this]
      unfold sim
      ext <;> simp only <;> ring
    simp only [simPoly, Except.ok.injEq, Poly.mk.injEq, hc, true_and, and_true]
    symm
    exact List.map_insertionSort _ _ _ _ fun a _ b _ => by rw [orderKey_sim hk, orderKey_sim hk]
  · exact absurd h (by simp)

theorem fits_sim (hk : 0 < k) (hσ : Permutes σ n) (hF : FitsCorners pts n poly) : FitsCorners (simSites k c σ pts) n (simPoly k c poly) := by
  have h2 : 0 < k ^ 2 := by positivity
  have hne : poly.points ≠ [] := fun h => by have := hF.convex.1; rw [h] at this; simp at this
  have onto := sim_onto (c := c) hk
  refine ⟨⟨⟨?_, ?_⟩, ?_, ?_, ?_, ?_, ?_, ?_, ?_⟩, ?_, ?_, ?_⟩
  · simpa [simPoly] using hF.convex.1
  · intro i j m hij hjm hm
    simp only [simPoly, List.length_map] at hm ⊢
    rw [corner_sim hne, corner_sim hne, corner_sim hne, rightOf_sim]
    exact mul_pos h2 (hF.convex.2 i j m hij hjm hm)
  · intro w hw
    obtain ⟨z, rfl⟩ := onto w
    exact mul_le_mul_of_nonneg_left (hF.height z ((closed_sim hk).mp hw)) hk.le
  · intro p hp
    rw [clipLine_sim hk]
    exact mul_lt_mul_of_pos_left (hF.low _ ((hσ p).mpr hp)) hk
  · intro p r w hne hw h3 h4
    obtain ⟨z, rfl⟩ := onto w
    obtain ⟨u, h5, h6⟩ := hF.touch (σ p) (σ r) z (σ.injective.ne hne) ((boundary_sim hk).mp hw) ((nearest_sim hk hσ).mp h3) ((nearest_sim hk hσ).mp h4)
    exact ⟨sim k c u, (inside_sim hk).mpr h5, by rw [dist_sites hk, dist_sites hk, h6]⟩
  · intro w hw hb
    obtain ⟨z, rfl⟩ := onto w
    exact hF.border z ((vertex_sim hk hσ).mp hw) ((boundary_sim hk).mp hb)
  · intro p r w hne hfar hv h3 h4
    obtain ⟨z, rfl⟩ := onto w
    rw [clipLine_sim hk, dist_sites hk]
    rcases hF.verts (σ p) (σ r) z (σ.injective.ne hne) (farBorder_sim hk hσ hfar) ((vertex_sim hk hσ).mp hv) ((nearest_sim hk hσ).mp h3) ((nearest_sim hk hσ).mp h4) with h5 | h5
    · left
      refine ⟨mul_lt_mul_of_pos_left h5.1 hk, ?_⟩
      have := mul_lt_mul_of_pos_left h5.2 h2
      simp only [sim]
      nlinarith
    · right
      intro w hw hd
      obtain ⟨z, rfl⟩ := onto w
      rw [dist_sites hk, dist_sites hk] at hd
      have := mul_lt_mul_of_pos_left (h5 z ((closed_sim hk).mp hw) (mul_left_cancel₀ h2.ne' hd)) h2
      rw [dist_sites hk]
      simp only [sim]
      nlinarith
  · intro w hw
    obtain ⟨z, rfl⟩ := onto w
    obtain ⟨h3, p, hp, h4⟩ := hF.cover z ((closed_sim hk).mp hw)
    rw [clipLine_sim hk]
    refine ⟨mul_lt_mul_of_pos_left h3 hk, σ.symm p, (hσ _).mp (by simpa using hp), ?_⟩
    rw [dist_sites hk, Equiv.apply_symm_apply]
    have := mul_lt_mul_of_pos_left h4 h2
    simp only [sim]
    nlinarith
  · intro p hp r hr hT
    obtain ⟨h3, h4⟩ := hF.top _ ((hσ p).mpr hp) _ ((hσ r).mpr hr) (topRow_sim hk hσ hT)
    refine ⟨mul_ne_zero hk.ne' h3, fun w hw h5 h6 => ?_⟩
    obtain ⟨z, rfl⟩ := onto w
    rcases h4 z ((vertex_sim hk hσ).mp hw) ((nearest_sim hk hσ).mp h5) ((nearest_sim hk hσ).mp h6) with h7 | h7
    · exact Or.inl (mul_le_mul_of_nonneg_left h7 hk.le)
    · right
      have e : (((simSites k c σ pts p).1 + (simSites k c σ pts r).1) / 2, (simPoly k c poly).maxY) =
          sim k c (((pts (σ p)).1 + (pts (σ r)).1) / 2, poly.maxY) := by
        simp only [simSites, sim, simPoly]; ext <;> simp only <;> ring
      rw [e]
      exact fun h8 => h7 ((closed_sim hk).mp h8)
  · obtain ⟨l, hl⟩ := hF.made
    exact ⟨_, mkPoly_sim hk hl⟩
  · exact (inside_sim hk).mpr hF.center
  · intro p r h3 h4
    simp only [simPoly, corner_sim hne] at h3 h4
    exact σ.injective (hF.first _ _ ((nearest_sim hk hσ).mp h3) ((nearest_sim hk hσ).mp h4))

/-! ### areas -/

theorem volume_sim (hk : 0 < k) {S T : Set Pt} (h : ∀ z, sim k c z ∈ T ↔ z ∈ S) : MeasureTheory.volume T = ENNReal.ofReal (k ^ 2) * MeasureTheory.volume S := by
  have e : T = (fun w : Pt => w + (-c, 0)) ⁻¹' ((fun w : Pt => k⁻¹ • w) ⁻¹' S) := by
    ext w
    obtain ⟨z, rfl⟩ := sim_onto (c := c) hk w
    rw [h, Set.mem_preimage, Set.mem_preimage]
    have : k⁻¹ • (sim k c z + (-c, 0)) = z := by
      ext
      · show k⁻¹ * (k * z.1 + c + -c) = z.1
        field_simp; ring
      · show k⁻¹ * (k * z.2 + 0) = z.2
        field_simp; ring
    rw [this]
  have hv : (MeasureTheory.volume : MeasureTheory.Measure (ℝ × ℝ)).IsAddRightInvariant := by
    rw [MeasureTheory.Measure.volume_eq_prod]
    infer_instance
  have hh : (MeasureTheory.volume : MeasureTheory.Measure (ℝ × ℝ)).IsAddHaarMeasure := by
    rw [MeasureTheory.Measure.volume_eq_prod]
    infer_instance
  rw [e, MeasureTheory.measure_preimage_add_right, MeasureTheory.Measure.addHaar_preimage_smul _ (inv_ne_zero hk.ne')]
  congr 2
  rw [Module.finrank_prod, Module.finrank_self, inv_pow, inv_inv, abs_of_pos (by positivity)]

theorem diagramVertex_sim (hk : 0 < k) (hσ : Permutes σ n) {z : Pt} :
    DiagramVertex (simSites k c σ pts) n (simPoly k c poly) (sim k c z) ↔ DiagramVertex pts n poly z := by
  unfold DiagramVertex
  refine or_congr ?_ (or_congr (and_congr (boundary_sim hk) ?_) (and_congr (inside_sim hk) (vertex_sim hk hσ)))
  · simp only [simPoly, List.mem_map]
    exact ⟨fun ⟨y, h1, h2⟩ => sim_inj hk h2 ▸ h1, fun h => ⟨z, h, rfl⟩⟩
  · exact ⟨fun ⟨p, r, h1, h2, h3⟩ => ⟨σ p, σ r, σ.injective.ne h1, (nearest_sim hk hσ).mp h2, (nearest_sim hk hσ).mp h3⟩,
      fun ⟨p, r, h1, h2, h3⟩ => ⟨σ.symm p, σ.symm r, σ.symm.injective.ne h1, (nearest_sim' hk hσ).mpr h2, (nearest_sim' hk hσ).mpr h3⟩⟩

end Foronoi
