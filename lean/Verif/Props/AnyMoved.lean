import Verif.Props.AnySites
import Verif.Props.Corners

/-!
# C122, C123: sites anywhere, moved up; the sum of the areas
-/

namespace Foronoi

open scoped List
open MeasureTheory

variable {pts : Nat → ℝ × ℝ} {q : PQ (QE ℝ)} {ok : List (QE ℝ) → Prop} {n fuel : Nat} {rz : Bool} {poly : Poly ℝ} {s' : St ℝ} {l m : List (ℝ × ℝ)}

theorem far_up (h : ℝ) {p : Nat} : FarCell (fun p => up h (pts p)) n p ↔ FarCell pts n p := by
  constructor
  · intro hf R
    obtain ⟨z, h1, h2⟩ := hf R
    rw [← up_up h z] at h1 h2
    exact ⟨_, (nearest_up h).mp h1, by simpa only [sqDist_up] using h2⟩
  · intro hf R
    obtain ⟨z, h1, h2⟩ := hf R
    exact ⟨up h z, (nearest_up h).mpr h1, by simpa only [sqDist_up] using h2⟩

theorem volume_up (h : ℝ) (S T : Set Pt) (e : ∀ z, z ∈ S ↔ up h z ∈ T) : volume S = volume T := by
  have e' : S = (fun z : Pt => z + ((0, h) : Pt)) ⁻¹' T := by
    ext z
    have ez : z + ((0, h) : Pt) = up h z := Prod.ext (by simp [up]) (by simp [up])
    simp only [Set.mem_preimage, ez, e]
  haveI : (volume : Measure Pt).IsAddLeftInvariant :=
    inferInstanceAs (((volume : Measure ℝ).prod (volume : Measure ℝ)).IsAddLeftInvariant)
  rw [e']
  exact (measurePreserving_add_right volume ((0, h) : Pt)).measure_preimage_emb (MeasurableEquiv.addRight ((0, h) : Pt)).measurableEmbedding _

/-- **C122**: moved up far enough, the default run succeeds on every input in general position, with sites anywhere.  A site with a bounded cell that contains nothing of the
polygon or all of its interior has no area, and each other site gets the area of its part of the polygon. -/
theorem C122_moved (hG : GeneralPosition pts n m) (hd : Distinct pts n) (hn : 0 < n) (hl : l ~ m) (hq : q.Spec evLt ok) :
    ∃ H, ∀ h ≥ H, ∃ poly, mkPoly (l.map (up h)) = .ok poly ∧ ∀ fuel > 7 * n, ∃ s', createDiagram (fun p => up h (pts p)) q n fuel poly true (initSt poly) = .ok ((), s') ∧
      ∀ p < n,
        (¬ FarCell pts n p ∧ ((∀ z, InClosed m z → ¬ Nearest pts n p z) ∨ ∀ z, StrictlyInside m z → Nearest pts n p z) → area s'.d.heCnt p s'.d = .error .attr) ∧
        (¬ (¬ FarCell pts n p ∧ ((∀ z, InClosed m z → ¬ Nearest pts n p z) ∨ ∀ z, StrictlyInside m z → Nearest pts n p z)) →
          ∃ a, area s'.d.heCnt p s'.d = .ok (a, s'.d) ∧ 0 ≤ a ∧ volume {z | InClosed m z ∧ Nearest pts n p z} = ENNReal.ofReal a) := by
  have h3 := hG.convex.1
  obtain ⟨H, hH⟩ := C96_fits hG hn hl
  refine ⟨H, fun h hh => ?_⟩
  obtain ⟨poly, hp, hF, _⟩ := hH h hh
  refine ⟨poly, hp, fun fuel hf => ?_⟩
  have hd' : Distinct (fun p => up h (pts p)) n := by
    intro p hp r hr e
    refine hd p hp r hr ?_
    rw [← up_down h (pts p), ← up_down h (pts r)]
    exact congrArg _ e
  obtain ⟨_, s', _, hs', _⟩ := C74_cleanup_succeeds (fuel := fuel) hF hd' hq hn hf
  obtain ⟨poly', hp2, ⟨r, hr⟩, _, _⟩ := C94_clockwise (convex_up h hG.convex) (hl.map (up h))
  rw [hp, Except.ok.injEq] at hp2
  subst hp2
  have ec : ∀ z, InClosed poly.points (up h z) ↔ InClosed m z := fun z => by
    rw [hr, closed_rotate (by rw [List.length_map]; omega), closed_up h (by omega)]
  have ei : ∀ z, StrictlyInside poly.points (up h z) ↔ StrictlyInside m z := fun z => by
    rw [hr, inside_rotate (by rw [List.length_map]; omega), inside_up h (by omega)]
  refine ⟨s', hs', fun p hp' => ?_⟩
  have eN : NothingOrAll (fun p => up h (pts p)) n poly p ↔ (∀ z, InClosed m z → ¬ Nearest pts n p z) ∨ ∀ z, StrictlyInside m z → Nearest pts n p z := by
    unfold NothingOrAll InCell
    refine or_congr ⟨fun k z h1 h2 => k (up h z) ⟨(ec z).mpr h1, (nearest_up h).mpr h2⟩, fun k z => ?_⟩ ⟨fun k z h1 => (nearest_up h).mp (k (up h z) ((ei z).mpr h1)), fun k z => ?_⟩
    · rw [← up_up h z, ec, nearest_up]
      exact fun ⟨h1, h2⟩ => k _ h1 h2
    · rw [← up_up h z, ei, nearest_up]
      exact k _
  refine ⟨fun ⟨k1, k2⟩ => (C119_no_area hF hd' hq hs' hp' (fun k => k1 ((far_up h).mp k)) (eN.mpr k2) le_rfl).1, fun k => ?_⟩
  obtain ⟨a, a1, a2, _, a4⟩ := C119_area hF hd' hq hs' hp' (by rw [far_up h, eN]; tauto) le_rfl
  refine ⟨a, a1, a2, ?_⟩
  rw [← a4]
  refine volume_up h _ _ fun z => ?_
  simp only [Set.mem_setOf_eq, ec, nearest_up]

/-- **C123**: unless a bounded cell covers the polygon, the areas of the sites that have one add up to the area of the polygon. -/
theorem C123_sum (hF : FitsCorners pts n poly) (hd : Distinct pts n) (hq : q.Spec evLt ok) (hn : 0 < n)
    (h : createDiagram pts q n fuel poly rz (initSt poly) = .ok ((), s')) {fuel' : Nat} (hfuel : s'.d.heCnt ≤ fuel') {a : Nat → ℝ}
    (ha : ∀ p < n, area fuel' p s'.d = .ok (a p, s'.d) ∨ ((∃ e, area fuel' p s'.d = .error e) ∧ a p = 0))
    (hc : ∀ p < n, FarCell pts n p ∨ ∃ z, StrictlyInside poly.points z ∧ ¬ Nearest pts n p z) : ∑ p ∈ Finset.range n, a p = areaOf poly.points := by
  have hpoly := convex_area hF.convex hF.center
  have hcells : ∀ p ∈ Finset.range n, 0 ≤ a p ∧ volume {z | InCell pts n poly p z} = ENNReal.ofReal (a p) := by
    intro p hp
    have hp := Finset.mem_range.mp hp
    rcases ha p hp with h1 | ⟨h1, h2⟩
    · have hb : ¬ (¬ FarCell pts n p ∧ NothingOrAll pts n poly p) := fun hb => by
        obtain ⟨e, he⟩ := (C119_exact hF hd hq h hp hfuel).mpr hb
        rw [h1] at he
        cases he
      obtain ⟨x, x1, x2, _, x3⟩ := C119_area hF hd hq h hp (by tauto) hfuel
      rw [h1, Except.ok.injEq, Prod.mk.injEq] at x1
      obtain ⟨rfl, _⟩ := x1
      exact ⟨x2, x3⟩
    · obtain ⟨h3, h4⟩ := (C119_exact hF hd hq h hp hfuel).mp h1
      rw [h2]
      refine ⟨le_rfl, ?_⟩
      rcases h4 with h4 | h4
      · have : {z | InCell pts n poly p z} = ∅ := Set.eq_empty_of_forall_notMem fun z hz => h4 z hz
        rw [this]
        simp
      · obtain ⟨z, z1, z2⟩ := (hc p hp).resolve_left h3
        exact absurd (h4 z z1) z2
  have hsum := cells_volume (poly := poly) hd hn
  rw [hpoly.1, Finset.sum_congr rfl fun p hp => (hcells p hp).2, ← ENNReal.ofReal_sum_of_nonneg fun p hp => (hcells p hp).1] at hsum
  exact ((ENNReal.ofReal_eq_ofReal_iff hpoly.2.le (Finset.sum_nonneg fun p hp => (hcells p hp).1)).mp hsum).symm

/-- C123: if a bounded cell covers the polygon, no site has a positive area. -/
theorem C123_covered (hF : FitsCorners pts n poly) (hd : Distinct pts n) (hq : q.Spec evLt ok)
    (h : createDiagram pts q n fuel poly rz (initSt poly) = .ok ((), s')) {fuel' : Nat} (hfuel : s'.d.heCnt ≤ fuel') {o : Nat} (ho : o < n) (hb : ¬ FarCell pts n o)
    (hc : ∀ z, StrictlyInside poly.points z → Nearest pts n o z) : ∀ p < n, ∀ x, area fuel' p s'.d = .ok (x, s'.d) → x = 0 := by
  intro p hp x hx
  have hpo : p ≠ o := by
    rintro rfl
    rw [(C119_no_area hF hd hq h hp hb (Or.inr hc) hfuel).1] at hx
    cases hx
  by_cases hb' : ¬ FarCell pts n p ∧ NothingOrAll pts n poly p
  · rw [(C119_no_area hF hd hq h hp hb'.1 hb'.2 hfuel).1] at hx
    cases hx
  obtain ⟨y, y1, y2, y3, _⟩ := C119_area hF hd hq h hp (by tauto) hfuel
  rw [hx, Except.ok.injEq, Prod.mk.injEq] at y1
  obtain ⟨rfl, _⟩ := y1
  by_contra hne
  obtain ⟨z, hz⟩ := y3.mp (lt_of_le_of_ne y2 (Ne.symm hne))
  obtain ⟨c, hm⟩ := mid_of_cell hF hd hz.1 hz.2
  exact absurd ((hc c hm.inside).2 p hp) (not_le.mpr (hm.near o ho hpo.symm))

/-- The hypotheses of C123 can be met: only the first of four sites outside the box has a positive area, which is that of the box, and the last one has none. -/
example : ∃ poly s', boundingBox (0 : ℝ) 4 100 104 = .ok poly ∧ createDiagram out4 heapq 4 29 poly false (initSt poly) = .ok ((), s') ∧
    area s'.d.heCnt 0 s'.d = .ok (16, s'.d) ∧ area s'.d.heCnt 3 s'.d = .error .attr := by
  have hp := box_points (show (0 : ℝ) < 4 by norm_num) (show (100 : ℝ) < 104 by norm_num)
  have hF := out4_corners hp
  obtain ⟨⟨s', hs'⟩, _⟩ := C58_create_succeeds out4_distinct C45_event_queue (by norm_num) (by simp) (fun i hi => (hF.low i hi).le) (fuel := 29) (by norm_num)
  generalize hpo : (⟨[((0 : ℝ), (104 : ℝ)), (4, 104), (4, 100), (0, 100)], _, _, _, _, _⟩ : Poly ℝ) = poly at hp hF hs'
  have hpts : poly.points = [((0 : ℝ), (104 : ℝ)), (4, 104), (4, 100), (0, 100)] := by rw [← hpo]
  have hin : ∀ p ≠ 0, ∀ z, ¬ InCell out4 4 poly p z := fun p hne z hz => by
    obtain ⟨h1, h2, h3, h4⟩ := (box_closed (show (0 : ℝ) < 4 by norm_num) (show (100 : ℝ) < 104 by norm_num) z).mp (hpts ▸ hz.1)
    exact hne (out4_only h1 h2 h3 h4 hz.2)
  have zero : ∀ p, p ≠ 0 → p < 4 → FarCell out4 4 p → area s'.d.heCnt p s'.d = .ok (0, s'.d) := by
    intro p hne hlt hfar
    obtain ⟨a, h1, h2, h3, _⟩ := C119_area hF out4_distinct C45_event_queue hs' hlt (Or.inl hfar) le_rfl
    have : ¬ 0 < a := fun h => by
      obtain ⟨z, hz⟩ := h3.mp h
      exact hin p hne z hz
    rw [h1, le_antisymm (not_lt.mp this) h2]
  have h3 := (C119_no_area hF out4_distinct C45_event_queue hs' (by norm_num) out4_far3 (Or.inl (hin 3 (by norm_num))) le_rfl).1
  obtain ⟨a, h0, _⟩ := C119_area hF out4_distinct C45_event_queue hs' (show 0 < 4 by norm_num) (Or.inl out4_far0) le_rfl
  have := C123_sum (a := fun p => if p = 0 then a else 0) hF out4_distinct C45_event_queue (by norm_num) hs' le_rfl (fun p hlt => by
    rcases (by omega : p = 0 ∨ p = 1 ∨ p = 2 ∨ p = 3) with rfl | rfl | rfl | rfl
    · exact Or.inl h0
    · exact Or.inl (zero 1 (by norm_num) (by norm_num) out4_far1)
    · exact Or.inl (zero 2 (by norm_num) (by norm_num) out4_far2)
    · exact Or.inr ⟨⟨_, h3⟩, rfl⟩) (fun p hlt => by
    by_cases h : p = 0
    · rw [h]; exact Or.inl out4_far0
    · refine Or.inr ⟨(2, 102), ?_, fun hN => h (out4_only (by norm_num) (by norm_num) (by norm_num) (by norm_num) hN)⟩
      rw [hpts]
      exact (box_inside (by norm_num) (by norm_num) _).mpr (by norm_num))
  simp only [Finset.sum_range_succ, Finset.sum_range_zero, zero_add, if_true, one_ne_zero, if_false, add_zero, OfNat.ofNat_ne_zero] at this
  have ea : a = 16 := by
    rw [this, areaOf_eq, hpts]
    simp [signed2, pathSum, cross2]
    norm_num [abs_of_pos, abs_of_neg]
  rw [ea] at h0
  exact ⟨poly, s', hp, hs', h0, h3⟩

theorem out4_general : GeneralPosition out4 4 [((0, 104) : ℝ × ℝ), (4, 104), (4, 100), (0, 100)] := by
  have hc := box_convex (show (0 : ℝ) < 4 by norm_num) (show (100 : ℝ) < 104 by norm_num)
  have hcl : ∀ {p z}, InClosed [((0, 104) : ℝ × ℝ), (4, 104), (4, 100), (0, 100)] z → Nearest out4 4 p z → p = 0 := by
    intro p z hz hn
    obtain ⟨h1, h2, h3, h4⟩ := (box_closed (by norm_num) (by norm_num) z).mp hz
    exact out4_only h1 h2 h3 h4 hn
  have c0 : corner [((0, 104) : ℝ × ℝ), (4, 104), (4, 100), (0, 100)] 0 = (0, 104) := rfl
  have c1 : corner [((0, 104) : ℝ × ℝ), (4, 104), (4, 100), (0, 100)] 1 = (4, 104) := rfl
  have c2 : corner [((0, 104) : ℝ × ℝ), (4, 104), (4, 100), (0, 100)] 2 = (4, 100) := rfl
  have c3 : corner [((0, 104) : ℝ × ℝ), (4, 104), (4, 100), (0, 100)] 3 = (0, 100) := rfl
  have c4 : corner [((0, 104) : ℝ × ℝ), (4, 104), (4, 100), (0, 100)] 4 = (0, 104) := rfl
  refine ⟨hc, ?_, ?_, ?_, ?_, ?_⟩
  · intro i hi hb
    have a1 := hb.1 (0, 104) (by simp)
    have a2 := hb.1 (4, 104) (by simp)
    have a3 := hb.2 (0, 104) (by simp)
    have a4 := hb.2 (4, 100) (by simp)
    have hi : i < 4 := hi
    rcases (by omega : i = 0 ∨ i = 1 ∨ i = 2 ∨ i = 3) with rfl | rfl | rfl | rfl <;>
      simp only [Nat.zero_add, Nat.reduceAdd, c0, c1, c2, c3, c4] at a1 a2 a3 a4 <;> (revert a1 a2 a3 a4; norm_num)
  · intro p r z hne hz h1 h2
    exact absurd ((hcl (hz.closed hc) h1).trans (hcl (hz.closed hc) h2).symm) hne
  · rintro z ⟨a, b, c, hab, _, _, ha, hb, _⟩ hz
    exact hab ((hcl (hz.closed hc) ha).trans (hcl (hz.closed hc) hb).symm)
  · intro i hi _ p r h1 h2
    have hi : i < 4 := hi
    have hin : InClosed [((0, 104) : ℝ × ℝ), (4, 104), (4, 100), (0, 100)] (corner [((0, 104) : ℝ × ℝ), (4, 104), (4, 100), (0, 100)] (i + 1)) := by
      rcases (by omega : i = 0 ∨ i = 1 ∨ i = 2 ∨ i = 3) with rfl | rfl | rfl | rfl <;> simp only [Nat.zero_add, Nat.reduceAdd, c1, c2, c3, c4] <;>
        exact (box_closed (by norm_num) (by norm_num) _).mpr (by norm_num)
    exact (hcl hin h1).trans (hcl hin h2).symm
  · intro p h1 r h2 ht
    exfalso
    obtain ⟨t1, t2, t3⟩ := ht
    have t4 := t3 1 (by norm_num)
    rcases (by omega : p = 0 ∨ p = 1 ∨ p = 2 ∨ p = 3) with rfl | rfl | rfl | rfl <;> rcases (by omega : r = 0 ∨ r = 1 ∨ r = 2 ∨ r = 3) with rfl | rfl | rfl | rfl <;>
      (revert t1 t2 t4; norm_num [out4])

/-- The hypotheses of C122 can be met, with a site that has no area. -/
example : ∃ H : ℝ, ∀ h ≥ H, ∃ poly s', mkPoly ([((0, 104) : ℝ × ℝ), (4, 104), (4, 100), (0, 100)].map (up h)) = .ok poly ∧
    createDiagram (fun p => up h (out4 p)) heapq 4 29 poly true (initSt poly) = .ok ((), s') ∧ area s'.d.heCnt 3 s'.d = .error .attr := by
  obtain ⟨H, hH⟩ := C122_moved out4_general out4_distinct (by norm_num) (List.Perm.refl _) C45_event_queue
  refine ⟨H, fun h hh => ?_⟩
  obtain ⟨poly, hp, hf⟩ := hH h hh
  obtain ⟨s', hs', hA⟩ := hf 29 (by norm_num)
  refine ⟨poly, s', hp, hs', (hA 3 (by norm_num)).1 ⟨out4_far3, Or.inl fun z hz hN => ?_⟩⟩
  obtain ⟨h1, h2, h3, h4⟩ := (box_closed (by norm_num) (by norm_num) z).mp hz
  exact absurd (out4_only h1 h2 h3 h4 hN) (by norm_num)

/-- A site in the middle of the box from `(0, 100)` to `(4, 104)` and three far around it. -/
noncomputable def cov4 : Nat → ℝ × ℝ := fun i => if i = 0 then (2, 102) else if i = 1 then (42, 102) else if i = 2 then (-28, 132) else (-28, 72)

theorem cov4_distinct : Distinct cov4 4 := by
  intro i hi j hj h
  rcases (by omega : i = 0 ∨ i = 1 ∨ i = 2 ∨ i = 3) with rfl | rfl | rfl | rfl <;> rcases (by omega : j = 0 ∨ j = 1 ∨ j = 2 ∨ j = 3) with rfl | rfl | rfl | rfl <;>
    first | rfl | (exfalso; revert h; norm_num [cov4])

theorem cov4_first {z : ℝ × ℝ} (h1 : 0 ≤ z.1) (h2 : z.1 ≤ 4) (h3 : 100 ≤ z.2) (h4 : z.2 ≤ 104) {o : Nat} (ho : o < 4) (hne : o ≠ 0) :
    sqDist (cov4 0) z < sqDist (cov4 o) z := by
  rcases (by omega : o = 1 ∨ o = 2 ∨ o = 3) with rfl | rfl | rfl <;> norm_num [cov4, sqDist] <;> nlinarith

theorem cov4_only {z : ℝ × ℝ} (h1 : 0 ≤ z.1) (h2 : z.1 ≤ 4) (h3 : 100 ≤ z.2) (h4 : z.2 ≤ 104) {p : Nat} (hp : Nearest cov4 4 p z) : p = 0 := by
  by_contra hne
  exact absurd (hp.2 0 (by norm_num)) (not_le.mpr (cov4_first h1 h2 h3 h4 hp.1 hne))

theorem cov4_corners {poly : Poly ℝ} (hp : boundingBox 0 4 100 104 = .ok poly) : FitsCorners cov4 4 poly := by
  have hon : ∀ {p z}, OnBoundary [((0, 104) : ℝ × ℝ), (4, 104), (4, 100), (0, 100)] z → Nearest cov4 4 p z → p = 0 := by
    intro p z hz hn
    obtain ⟨h1, h2, h3, h4⟩ := (box_closed (by norm_num) (by norm_num) z).mp (hz.closed (box_convex (by norm_num) (by norm_num)))
    exact cov4_only h1 h2 h3 h4 hn
  refine fits_corners_far (by norm_num) (by norm_num) (by norm_num) ?_ ?_ ?_ ?_ ?_ hp
  · intro p hp z h1 h2 h3 h4
    rcases (by omega : p = 0 ∨ p = 1 ∨ p = 2 ∨ p = 3) with rfl | rfl | rfl | rfl <;> norm_num [cov4, sqDist] <;> nlinarith
  · intro p r z hne hz h1 h2
    exact absurd ((hon hz h1).trans (hon hz h2).symm) hne
  · rintro z ⟨a, b, c, hab, _, _, ha, hb, _⟩ hz
    exact hab ((hon hz ha).trans (hon hz hb).symm)
  · intro p r z ht _ hn1 hn2
    exfalso
    have h1 := hn1.1
    have h2 := hn2.1
    obtain ⟨t1, t2, t3⟩ := ht
    have t4 := t3 2 (by norm_num)
    rcases (by omega : p = 0 ∨ p = 1 ∨ p = 2 ∨ p = 3) with rfl | rfl | rfl | rfl <;> rcases (by omega : r = 0 ∨ r = 1 ∨ r = 2 ∨ r = 3) with rfl | rfl | rfl | rfl <;>
      (revert t1 t2 t4; norm_num [cov4])
  · intro p r h1 h2
    rw [cov4_only (by norm_num) (by norm_num) (by norm_num) (by norm_num) h1, cov4_only (by norm_num) (by norm_num) (by norm_num) (by norm_num) h2]

/-- The second case of C123 can occur: the site in the box has no area, and no other site has a positive one. -/
example : ∃ poly s', boundingBox (0 : ℝ) 4 100 104 = .ok poly ∧ createDiagram cov4 heapq 4 29 poly false (initSt poly) = .ok ((), s') ∧
    area s'.d.heCnt 0 s'.d = .error .attr ∧ ∀ p < 4, ∀ x, area s'.d.heCnt p s'.d = .ok (x, s'.d) → x = 0 := by
  have hp := box_points (show (0 : ℝ) < 4 by norm_num) (show (100 : ℝ) < 104 by norm_num)
  have hF := cov4_corners hp
  obtain ⟨⟨s', hs'⟩, _⟩ := C58_create_succeeds cov4_distinct C45_event_queue (by norm_num) (by simp) (fun i hi => (hF.low i hi).le) (fuel := 29) (by norm_num)
  have hfar : ¬ FarCell cov4 4 0 := fun h => by
    obtain ⟨z, h1, h2⟩ := h 10000
    have k1 := h1.2 1 (by norm_num)
    have k2 := h1.2 2 (by norm_num)
    have k3 := h1.2 3 (by norm_num)
    norm_num [cov4, sqDist] at h2 k1 k2 k3
    have e1 : z.1 - 2 ≤ 20 := by nlinarith
    have e2 : -(z.1 - 2) + (z.2 - 102) ≤ 30 := by nlinarith
    have e3 : -(z.1 - 2) - (z.2 - 102) ≤ 30 := by nlinarith
    nlinarith
  have hc : ∀ z, StrictlyInside [((0, 104) : ℝ × ℝ), (4, 104), (4, 100), (0, 100)] z → Nearest cov4 4 0 z := fun z hz => by
    obtain ⟨h1, h2, h3, h4⟩ := (box_inside (by norm_num) (by norm_num) z).mp hz
    refine ⟨by norm_num, fun o ho => ?_⟩
    rcases Nat.eq_zero_or_pos o with rfl | h
    · exact le_rfl
    · exact (cov4_first h1.le h2.le h3.le h4.le ho (by omega)).le
  exact ⟨_, s', hp, hs', (C119_no_area hF cov4_distinct C45_event_queue hs' (by norm_num) hfar (Or.inr hc) le_rfl).1,
    C123_covered hF cov4_distinct C45_event_queue hs' le_rfl (by norm_num) hfar hc⟩

end Foronoi
