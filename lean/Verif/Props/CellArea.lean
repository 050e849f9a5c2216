import Verif.Proof.PolyArea
import Verif.Props.Cells

/-!
# C72, C73: `Site.area` is the area of the Voronoi cell, and the areas add up to the area of the polygon
-/

namespace Foronoi

open MeasureTheory
open scoped List

variable {pts : Nat → ℝ × ℝ} {q : PQ (QE ℝ)} {ok : List (QE ℝ) → Prop} {n fuel : Nat} {rz : Bool} {poly : Poly ℝ} {s s1 s2 s' : St ℝ} {vs : List Nat} {V : Nat → Nat} {cell : Nat}

namespace Finish

variable (F : Finish pts q ok n poly rz s s1 s2 s' vs V cell)
include F

/-- The edges of a cell go once around a point inside. -/
theorem star {p e k : Nat} {c : Pt} (hc : Mid pts n poly p c) (hl : LiveIn s s1 s2 s' vs V cell p e) (k0 : 0 < k) (hke : (nxt s'.d)^[k] e = e)
    (hinj : ∀ i < k, ∀ j < k, (nxt s'.d)^[i] e = (nxt s'.d)^[j] e → i = j) (hall : ∀ f, LiveIn s s1 s2 s' vs V cell p f → ∃ i < k, (nxt s'.d)^[i] e = f) :
    Star {z | InCell pts n poly p z} c (fun i => startAt s2.d ((nxt s'.d)^[i] e)) k := by
  have hsucc : ∀ i, startAt s2.d ((nxt s'.d)^[i + 1] e) = startAt s2.d (nxt s2.d ((nxt s'.d)^[i] e)) := by
    intro i
    rw [Function.iterate_succ_apply']
    obtain ⟨_, _, _, _, _, _, _, h⟩ := F.step (F.iter hl i)
    exact h
  refine ⟨?_, ?_, ?_, ?_, ?_, ?_⟩
  · show startAt s2.d ((nxt s'.d)^[k] e) = startAt s2.d e
    rw [hke]
  · intro i _
    show startAt s2.d ((nxt s'.d)^[i] e) = startAt s2.d ((nxt s'.d)^[i + 1] e) ∨ _
    rw [hsucc]
    exact (F.B.seg F.hn (F.iter hl i).1).2.1 c hc
  · obtain ⟨k', k0', hk'⟩ := F.B.period F.hn hl.1
    obtain ⟨j, _, hne⟩ := F.B.moves F.hn hl.1 k0' hk'
    obtain ⟨f, hfe⟩ : ∃ f, f = (nxt s2.d)^[j] e := ⟨_, rfl⟩
    have hfc : OfCell s s1 vs V cell p f := by rw [hfe]; exact F.B.iter F.hn hl.1 j
    rw [Function.iterate_succ_apply', ← hfe] at hne
    obtain ⟨i, hi, rfl⟩ := hall f ⟨hfc, fun hg => hne (F.gone_stays hfc hg)⟩
    refine ⟨i, hi, ?_⟩
    show startAt s2.d ((nxt s'.d)^[i] e) ≠ startAt s2.d ((nxt s'.d)^[i + 1] e)
    rw [hsucc]
    exact hne
  · intro z
    show InCell pts n poly p z ↔ ∀ i < k, 0 ≤ rightOf (startAt s2.d ((nxt s'.d)^[i] e)) (startAt s2.d ((nxt s'.d)^[i + 1] e)) z
    rw [F.region hc]
    constructor
    · intro h i _
      rw [hsucc]
      exact h _ (F.iter hl i)
    · intro h f hf
      obtain ⟨i, hi, rfl⟩ := hall f hf
      rw [← hsucc]
      exact h i hi
  · intro i _
    have := (F.B.seg F.hn (F.iter hl i).1).1 _ (between_left _ _)
    exact ⟨this.1, this.2.1⟩
  · intro i hi j hj w hb w1 w2 hb' w1' w2'
    change Between (startAt s2.d ((nxt s'.d)^[i] e)) (startAt s2.d ((nxt s'.d)^[i + 1] e)) w at hb
    change Between (startAt s2.d ((nxt s'.d)^[j] e)) (startAt s2.d ((nxt s'.d)^[j + 1] e)) w at hb'
    change w ≠ startAt s2.d ((nxt s'.d)^[i + 1] e) at w2
    change w ≠ startAt s2.d ((nxt s'.d)^[j + 1] e) at w2'
    have ne : ∀ {x y : Pt}, Between x y w → w ≠ x → x ≠ y := by
      rintro x y ⟨u, _, _, hu⟩ hw rfl
      exact hw (by rw [hu]; refine Prod.ext ?_ ?_ <;> simp only [] <;> ring)
    rw [hsucc] at hb hb' w2 w2'
    exact hinj i hi j hj (F.B.seg_unique F.hn (F.iter hl i).1 (F.iter hl j).1 (ne hb w1) (ne hb' w1') hb w1 w2 hb')

theorem area {p fuel' : Nat} (hS' : Shown pts n poly p) (hfuel : s'.d.heCnt ≤ fuel') :
    ∃ a, Foronoi.area fuel' p s'.d = .ok (a, s'.d) ∧ 0 < a ∧ volume {z | InCell pts n poly p z} = ENNReal.ofReal a := by
  obtain ⟨e, k, he, hl, k0, hke, hkc, hinj, hall⟩ := F.walk hS'
  obtain ⟨c, hc⟩ := hS'.mid
  have hS := (F.star hc hl k0 hke hinj hall).area
  have hbd := F.walk_borders he hl k0 hke (hkc.trans hfuel) hinj
  have hov : ∀ i, ∃ v, (s'.d.he ((nxt s'.d)^[i] e)).origin = .vtx v ∧ (s'.d.vs v).pos = some (startAt s2.d ((nxt s'.d)^[i] e)) :=
    fun i => (F.ends (F.iter hl i)).1
  choose v hv1 hv2 using hov
  have hcv : cellVertices fuel' p s'.d = .ok ((List.range k).map v, s'.d) := by
    have hgo := cellVertices_go (d := s'.d) ((List.range k).map fun i => (nxt s'.d)^[i] e) ((List.range k).map v) (by simp) (by
      intro j b w hb hw
      rw [List.getElem?_map, Option.map_eq_some_iff] at hb hw
      obtain ⟨x, x1, rfl⟩ := hb
      obtain ⟨y, y1, rfl⟩ := hw
      rw [x1, Option.some.injEq] at y1
      subst y1
      exact hv1 x)
    unfold cellVertices
    simp only [bind, StateT.bind, Except.bind, hbd]
    exact hgo
  refine ⟨_, C35_area (ps := (List.range k).map fun i => startAt s2.d ((nxt s'.d)^[i] e)) hcv ?_, hS.2, hS.1⟩
  rw [List.map_map, List.map_map]
  refine List.map_congr_left fun i _ => ?_
  exact hv2 i

end Finish

/-- C72: `area` of a site is the area (Lebesgue measure) of the part of the polygon to which the site is nearest. -/
theorem C72_area (hF : FitsCorners pts n poly) (hd : Distinct pts n) (hq : q.Spec evLt ok)
    (h : createDiagram pts q n fuel poly rz (initSt poly) = .ok ((), s')) {p : Nat} (hS : Shown pts n poly p) {fuel' : Nat} (hfuel : s'.d.heCnt ≤ fuel') :
    ∃ a, area fuel' p s'.d = .ok (a, s'.d) ∧ 0 < a ∧ volume {z | InClosed poly.points z ∧ Nearest pts n p z} = ENNReal.ofReal a := by
  obtain ⟨s, s1, s2, vs, V, cell, F⟩ := create_finish hF hd hq (Nat.zero_lt_of_lt hS.lt) h
  exact F.area hS hfuel

theorem cell_closed (pts : Nat → ℝ × ℝ) (n : Nat) (poly : Poly ℝ) (p : Nat) : IsClosed {z | InCell pts n poly p z} := by
  have e : {z | InCell pts n poly p z} = (⋂ i, ⋂ (_ : i < poly.points.length), {z | 0 ≤ rightOf (corner poly.points i) (corner poly.points (i + 1)) z}) ∩
      ({z | p < n} ∩ ⋂ o, ⋂ (_ : o < n), {z | sqDist (pts p) z ≤ sqDist (pts o) z}) := by
    ext z
    simp only [Set.mem_setOf_eq, Set.mem_inter_iff, Set.mem_iInter]
    rfl
  rw [e]
  refine IsClosed.inter ?_ (IsClosed.inter isClosed_const ?_)
  · refine isClosed_iInter fun i => isClosed_iInter fun _ => isClosed_le continuous_const ?_
    unfold rightOf; fun_prop
  · refine isClosed_iInter fun i => isClosed_iInter fun _ => isClosed_le ?_ ?_
    · unfold sqDist; fun_prop
    · unfold sqDist; fun_prop

/-- The areas of the cells of distinct sites add up. -/
theorem cells_volume (hd : Distinct pts n) (hn : 0 < n) : volume {z | InClosed poly.points z} = ∑ p ∈ Finset.range n, volume {z | InCell pts n poly p z} := by
  have hu : {z | InClosed poly.points z} = ⋃ p ∈ Finset.range n, {z | InCell pts n poly p z} := by
    ext z
    simp only [Set.mem_setOf_eq, Set.mem_iUnion, Finset.mem_range, exists_prop]
    constructor
    · intro h
      obtain ⟨p, hp, hmin⟩ := Finset.exists_min_image (Finset.range n) (fun p => sqDist (pts p) z) ⟨0, Finset.mem_range.mpr hn⟩
      exact ⟨p, Finset.mem_range.mp hp, h, Finset.mem_range.mp hp, fun o ho => hmin o (Finset.mem_range.mpr ho)⟩
    · rintro ⟨p, _, h⟩
      exact h.1
  rw [hu, measure_biUnion_finset₀]
  · intro p hp o ho hpo
    have hp' := Finset.mem_range.mp (Finset.mem_coe.mp hp)
    have ho' := Finset.mem_range.mp (Finset.mem_coe.mp ho)
    show volume ({z | InCell pts n poly p z} ∩ {z | InCell pts n poly o z}) = 0
    refine measure_mono_null ?_ (volume_line (a := 2 * ((pts o).1 - (pts p).1)) (b := 2 * ((pts o).2 - (pts p).2))
      (c := (pts o).1 ^ 2 + (pts o).2 ^ 2 - (pts p).1 ^ 2 - (pts p).2 ^ 2) ?_)
    · rintro z ⟨h1, h2⟩
      have := le_antisymm (h1.2.2 o ho') (h2.2.2 p hp')
      unfold sqDist at this
      show _ = _
      linarith
    · by_contra hcon
      push Not at hcon
      refine hpo (hd p hp' o ho' (Prod.ext ?_ ?_))
      · linarith [hcon.1]
      · linarith [hcon.2]
  · intro p _
    exact (cell_closed pts n poly p).measurableSet.nullMeasurableSet

/-- C73: the areas of all sites add up to the area of the polygon. -/
theorem C73_areas (hF : FitsBorder pts n poly) (hd : Distinct pts n) (hq : q.Spec evLt ok) (hn : 0 < n)
    (h : createDiagram pts q n fuel poly rz (initSt poly) = .ok ((), s')) {fuel' : Nat} (hfuel : s'.d.heCnt ≤ fuel') {a : Nat → ℝ}
    (ha : ∀ p < n, area fuel' p s'.d = .ok (a p, s'.d)) : ∑ p ∈ Finset.range n, a p = areaOf poly.points := by
  have hpoly := convex_area hF.convex hF.center
  have hcells : ∀ p ∈ Finset.range n, 0 ≤ a p ∧ volume {z | InCell pts n poly p z} = ENNReal.ofReal (a p) := by
    intro p hp
    obtain ⟨x, x1, x2, x3⟩ := C72_area hF.toFitsCorners hd hq h (hF.shown (Finset.mem_range.mp hp)) hfuel
    rw [ha p (Finset.mem_range.mp hp), Except.ok.injEq, Prod.mk.injEq] at x1
    obtain ⟨rfl, _⟩ := x1
    exact ⟨x2.le, x3⟩
  have hsum := cells_volume (poly := poly) hd hn
  rw [hpoly.1, Finset.sum_congr rfl fun p hp => (hcells p hp).2, ← ENNReal.ofReal_sum_of_nonneg fun p hp => (hcells p hp).1] at hsum
  exact ((ENNReal.ofReal_eq_ofReal_iff hpoly.2.le (Finset.sum_nonneg fun p hp => (hcells p hp).1)).mp hsum).symm

/-- The hypotheses can be met: the areas of three sites in a box of width 4 and height 5 add up to 20. -/
example : ∃ poly s', ∃ a : Nat → ℝ, boundingBox (-1 : ℝ) 3 99 104 = .ok poly ∧ createDiagram high3 heapq 3 22 poly false (initSt poly) = .ok ((), s') ∧
    FitsBorder high3 3 poly ∧ (∀ p < 3, area s'.d.heCnt p s'.d = .ok (a p, s'.d) ∧ 0 < a p) ∧ a 0 + a 1 + a 2 = 20 := by
  have hp := box_points (show (-1 : ℝ) < 3 by norm_num) (show (99 : ℝ) < 104 by norm_num)
  have hF := high3_border hp
  obtain ⟨⟨s', hs'⟩, _⟩ := C58_create_succeeds high3_distinct C45_event_queue (by norm_num) (by simp) (fun i hi => (hF.low i hi).le) (fuel := 22) (by norm_num)
  have hall : ∀ p, ∃ x : ℝ, p < 3 → area s'.d.heCnt p s'.d = .ok (x, s'.d) ∧ 0 < x := by
    intro p
    by_cases hlt : p < 3
    · obtain ⟨x, h1, h2, _⟩ := C72_area hF.toFitsCorners high3_distinct C45_event_queue hs' (hF.shown hlt) le_rfl
      exact ⟨x, fun _ => ⟨h1, h2⟩⟩
    · exact ⟨0, fun h => absurd h hlt⟩
  choose a ha using hall
  refine ⟨_, s', a, hp, hs', hF, ha, ?_⟩
  have := C73_areas hF high3_distinct C45_event_queue (by norm_num) hs' le_rfl fun p hlt => (ha p hlt).1
  simp only [Finset.sum_range_succ, Finset.sum_range_zero, zero_add] at this
  rw [this, areaOf_eq]
  simp [signed2, pathSum, cross2]
  norm_num [abs_of_pos, abs_of_neg]

/-- Three sites nearly in a row: their Voronoi vertex is far below. -/
noncomputable def flat3 : Nat → ℝ × ℝ := fun i => if i = 0 then (0, 100) else if i = 1 then (4, 100) else (2, 100 + 1 / 100)

theorem flat3_distinct : Distinct flat3 3 := by
  intro p hp r hr he
  have h1 : p = 0 ∨ p = 1 ∨ p = 2 := by omega
  have h2 : r = 0 ∨ r = 1 ∨ r = 2 := by omega
  rcases h1 with rfl | rfl | rfl <;> rcases h2 with rfl | rfl | rfl <;> simp [flat3] at he ⊢

theorem flat3_vertex {z : ℝ × ℝ} (h : VoronoiVertex flat3 3 z) : z.2 < 0 := by
  obtain ⟨a, b, c, hab, hbc, hac, ha, hb, hc⟩ := h
  have hall : ∀ i < 3, Nearest flat3 3 i z := by
    intro i hi
    have h1 := ha.1
    have h2 := hb.1
    have h3 := hc.1
    rcases (by omega : i = a ∨ i = b ∨ i = c) with rfl | rfl | rfl <;> assumption
  have e1 := (hall 0 (by norm_num)).eq (hall 1 (by norm_num))
  have e2 := (hall 0 (by norm_num)).eq (hall 2 (by norm_num))
  unfold sqDist at e1 e2
  norm_num [flat3] at e1 e2
  nlinarith

theorem flat3_border {poly : Poly ℝ} (hp : boundingBox (-1) 5 99 103 = .ok poly) : FitsBorder flat3 3 poly := by
  refine fits_border_box flat3_distinct (by norm_num) (by norm_num) (by norm_num) (by norm_num) ?_ ?_ ?_ ?_ hp
  · intro p hp
    rcases (by omega : p = 0 ∨ p = 1 ∨ p = 2) with rfl | rfl | rfl <;> norm_num [flat3]
  · intro z hz hb
    have h1 := ((box_closed (by norm_num) (by norm_num) z).mp (hb.closed (box_convex (by norm_num) (by norm_num)))).2.2.1
    have h2 := flat3_vertex hz
    linarith
  · intro p r z _ hz _ _
    have h2 := flat3_vertex hz
    linarith
  · intro p r h1 h2
    by_contra hne
    have hp := h1.1
    have hr := h2.1
    have k0 := h1.2 0 (by norm_num)
    have k1 := h1.2 1 (by norm_num)
    have k2 := h1.2 2 (by norm_num)
    have m0 := h2.2 0 (by norm_num)
    have m1 := h2.2 1 (by norm_num)
    have m2 := h2.2 2 (by norm_num)
    rcases (by omega : p = 0 ∨ p = 1 ∨ p = 2) with rfl | rfl | rfl <;> rcases (by omega : r = 0 ∨ r = 1 ∨ r = 2) with rfl | rfl | rfl <;>
      first
      | exact hne rfl
      | (revert k0 k1 k2 m0 m1 m2; norm_num [flat3, sqDist])

/-- Another case, with the Voronoi vertex outside the polygon and its circle cut by the clipping line: the areas add up to 24. -/
example : ∃ poly s', ∃ a : Nat → ℝ, boundingBox (-1 : ℝ) 5 99 103 = .ok poly ∧ createDiagram flat3 heapq 3 22 poly false (initSt poly) = .ok ((), s') ∧
    FitsBorder flat3 3 poly ∧ (∀ p < 3, area s'.d.heCnt p s'.d = .ok (a p, s'.d) ∧ 0 < a p) ∧ a 0 + a 1 + a 2 = 24 := by
  have hp := box_points (show (-1 : ℝ) < 5 by norm_num) (show (99 : ℝ) < 103 by norm_num)
  have hF := flat3_border hp
  obtain ⟨⟨s', hs'⟩, _⟩ := C58_create_succeeds flat3_distinct C45_event_queue (by norm_num) (by simp) (fun i hi => (hF.low i hi).le) (fuel := 22) (by norm_num)
  have hall : ∀ p, ∃ x : ℝ, p < 3 → area s'.d.heCnt p s'.d = .ok (x, s'.d) ∧ 0 < x := by
    intro p
    by_cases hlt : p < 3
    · obtain ⟨x, h1, h2, _⟩ := C72_area hF.toFitsCorners flat3_distinct C45_event_queue hs' (hF.shown hlt) le_rfl
      exact ⟨x, fun _ => ⟨h1, h2⟩⟩
    · exact ⟨0, fun h => absurd h hlt⟩
  choose a ha using hall
  refine ⟨_, s', a, hp, hs', hF, ha, ?_⟩
  have := C73_areas hF flat3_distinct C45_event_queue (by norm_num) hs' le_rfl fun p hlt => (ha p hlt).1
  simp only [Finset.sum_range_succ, Finset.sum_range_zero, zero_add] at this
  rw [this, areaOf_eq]
  simp [signed2, pathSum, cross2]
  norm_num [abs_of_pos, abs_of_neg]

end Foronoi
