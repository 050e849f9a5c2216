import Verif.Proof.Motion
import Verif.Props.Neighbours
import Verif.Props.Checkable

/-!
# C132: another system of coordinates

The sweep goes from the top to the bottom and the border of the polygon starts at the left, so the code treats the directions differently.  The results do not
depend on this: if the sites and the polygon are turned, mirrored, moved or enlarged, and fit before and after that, then the results are turned, mirrored, moved
or enlarged.
-/

namespace Foronoi

open scoped List

variable {pts : Nat → ℝ × ℝ} {q q2 : PQ (QE ℝ)} {ok ok2 : List (QE ℝ) → Prop} {n fuel fuel2 : Nat} {rz rz2 : Bool} {poly poly2 : Poly ℝ} {s' s2' : St ℝ} {g : Motion}
  {m l l2 : List Pt}

/-- C132: the areas.  Either there is no area in both systems, or they differ by the square of the unit. -/
theorem C132_areas (hC : SameCorners g poly poly2) (hF : FitsCorners pts n poly) (hF2 : FitsCorners (fun i => g.apply (pts i)) n poly2) (hd : Distinct pts n)
    (hq : q.Spec evLt ok) (hq2 : q2.Spec evLt ok2) (h : createDiagram pts q n fuel poly rz (initSt poly) = .ok ((), s'))
    (h2 : createDiagram (fun i => g.apply (pts i)) q2 n fuel2 poly2 rz2 (initSt poly2) = .ok ((), s2')) {p : Nat} (hp : p < n) {f f2 : Nat} (hf : s'.d.heCnt ≤ f)
    (hf2 : s2'.d.heCnt ≤ f2) :
    (area f p s'.d = .error .attr ∧ area f2 p s2'.d = .error .attr) ∨
    ∃ a, area f p s'.d = .ok (a, s'.d) ∧ area f2 p s2'.d = .ok (g.scale * a, s2'.d) := by
  have hd2 := distinct_motion (g := g) hd
  have hcell : ∀ z, InCell (fun i => g.apply (pts i)) n poly2 p (g.apply z) ↔ InCell pts n poly p z := fun z => by
    unfold InCell
    rw [same_closed hC hF hF2, nearest_motion]
  have hNA : NothingOrAll (fun i => g.apply (pts i)) n poly2 p ↔ NothingOrAll pts n poly p := by
    unfold NothingOrAll
    refine or_congr ⟨fun hh z hz => hh _ ((hcell z).mpr hz), fun hh w hw => ?_⟩ ⟨fun hh z hz => nearest_motion.mp (hh _ ((same_inside hC hF hF2).mpr hz)), fun hh w hw => ?_⟩
    · obtain ⟨z, rfl⟩ := motion_onto (g := g) w
      exact hh z ((hcell z).mp hw)
    · obtain ⟨z, rfl⟩ := motion_onto (g := g) w
      exact nearest_motion.mpr (hh z ((same_inside hC hF hF2).mp hw))
  by_cases hb : FarCell pts n p ∨ ¬ NothingOrAll pts n poly p
  · right
    obtain ⟨a, h3, h4, _, h5⟩ := C119_area hF hd hq h hp hb hf
    obtain ⟨b, h6, h7, _, h8⟩ := C119_area hF2 hd2 hq2 h2 hp (by rw [farCell_motion, hNA]; exact hb) hf2
    refine ⟨a, h3, ?_⟩
    have e := volume_motion (g := g) (S := {z | InClosed poly.points z ∧ Nearest pts n p z})
      (T := {z | InClosed poly2.points z ∧ Nearest (fun i => g.apply (pts i)) n p z}) hcell
    have hK := g.scale_pos
    rw [h5, h8, ← ENNReal.ofReal_mul hK.le, ENNReal.ofReal_eq_ofReal_iff h7 (by positivity)] at e
    rw [h6, e]
  · left
    push Not at hb
    exact ⟨(C119_no_area hF hd hq h hp hb.1 hb.2 hf).1, (C119_no_area hF2 hd2 hq2 h2 hp (by rw [farCell_motion]; exact hb.1) (hNA.mpr hb.2) hf2).1⟩

/-- C132: the places of the vertices. -/
theorem C132_vertices (hC : SameCorners g poly poly2) (hF : FitsCorners pts n poly) (hF2 : FitsCorners (fun i => g.apply (pts i)) n poly2) (hd : Distinct pts n)
    (hq : q.Spec evLt ok) (hq2 : q2.Spec evLt ok2) (hn : 0 < n) (h : createDiagram pts q n fuel poly rz (initSt poly) = .ok ((), s'))
    (h2 : createDiagram (fun i => g.apply (pts i)) q2 n fuel2 poly2 rz2 (initSt poly2) = .ok ((), s2')) (z : Pt) :
    (∃ v ∈ s'.verts, (s'.d.vs v).pos = some z) ↔ ∃ v ∈ s2'.verts, (s2'.d.vs v).pos = some (g.apply z) := by
  have hV : ∀ z, DiagramVertex (fun i => g.apply (pts i)) n poly2 (g.apply z) ↔ DiagramVertex pts n poly z := fun z => by
    unfold DiagramVertex
    rw [same_boundary hC hF hF2, same_inside hC hF hF2, vertex_motion, hC.mem_iff, List.mem_map]
    simp only [nearest_motion]
    exact or_congr ⟨fun ⟨y, h1, h2⟩ => motion_inj h2 ▸ h1, fun h => ⟨z, h, rfl⟩⟩ Iff.rfl
  obtain ⟨a1, a2, _⟩ := C88_final_vertices hF hd hq hn h
  obtain ⟨b1, b2, _⟩ := C88_final_vertices hF2 (distinct_motion (g := g) hd) hq2 hn h2
  constructor
  · rintro ⟨v, hv, hp⟩
    obtain ⟨w, h3, h4⟩ := a1 v hv
    rw [hp, Option.some.injEq] at h3
    subst h3
    exact b2 _ ((hV _).mpr h4)
  · rintro ⟨v, hv, hp⟩
    obtain ⟨w, h3, h4⟩ := b1 v hv
    rw [hp, Option.some.injEq] at h3
    subst h3
    exact a2 _ ((hV _).mp h4)

/-- C132: the lines that are drawn. -/
theorem C132_lines (hC : SameCorners g poly poly2) (hF : FitsCorners pts n poly) (hF2 : FitsCorners (fun i => g.apply (pts i)) n poly2) (hd : Distinct pts n)
    (hq : q.Spec evLt ok) (hq2 : q2.Spec evLt ok2) (hn : 0 < n) (h : createDiagram pts q n fuel poly rz (initSt poly) = .ok ((), s'))
    (h2 : createDiagram (fun i => g.apply (pts i)) q2 n fuel2 poly2 rz2 (initSt poly2) = .ok ((), s2')) (cv cv2 : Canvas ℝ) (labels labels2 : Bool) :
    ∃ ds ds2, plotEdges pts cv s' labels = .ok ds ∧ plotEdges (fun i => g.apply (pts i)) cv2 s2' labels2 = .ok ds2 ∧ ∀ z, OnLine ds z ↔ OnLine ds2 (g.apply z) := by
  obtain ⟨ds, h3, h4⟩ := C86_final_picture hF hd hq hn h cv labels
  obtain ⟨ds2, h5, h6⟩ := C86_final_picture hF2 (distinct_motion (g := g) hd) hq2 hn h2 cv2 labels2
  refine ⟨ds, ds2, h3, h5, fun z => ?_⟩
  rw [h4, h6, same_boundary hC hF hF2, same_closed hC hF hF2]
  simp only [nearest_motion]

/-- C132, with the default clean-up: the sites on the other side of the borders of a cell. -/
theorem C132_neighbours (hC : SameCorners g poly poly2) (hF : FitsCorners pts n poly) (hF2 : FitsCorners (fun i => g.apply (pts i)) n poly2) (hd : Distinct pts n)
    (hq : q.Spec evLt ok) (hq2 : q2.Spec evLt ok2) (h : createDiagram pts q n fuel poly true (initSt poly) = .ok ((), s'))
    (h2 : createDiagram (fun i => g.apply (pts i)) q2 n fuel2 poly2 true (initSt poly2) = .ok ((), s2')) {p : Nat} (hS : Shown pts n poly p) {f f2 : Nat}
    (hf : s'.d.heCnt ≤ f) (hf2 : s2'.d.heCnt ≤ f2) :
    ∃ L L2, borders f p s'.d = .ok (L, s'.d) ∧ borders f2 p s2'.d = .ok (L2, s2'.d) ∧ across s2'.d L2 ~ across s'.d L := by
  have hd2 := distinct_motion (g := g) hd
  have hS2 : Shown (fun i => g.apply (pts i)) n poly2 p := by
    refine ⟨hS.lt, ?_, ?_⟩
    · obtain ⟨c, h1, h2⟩ := hS.part
      exact ⟨g.apply c, (same_inside hC hF hF2).mpr h1, fun o ho hne => by
        rw [sqDist_motion, sqDist_motion]; exact mul_lt_mul_of_pos_left (h2 o ho hne) g.scale_pos⟩
    · rcases hS.notAll with ⟨z, h1, h2⟩ | h1
      · exact Or.inl ⟨g.apply z, (same_inside hC hF hF2).mpr h1, fun hh => h2 (nearest_motion.mp hh)⟩
      · exact Or.inr (farCell_motion.mpr h1)
  obtain ⟨L, hL, _⟩ := C71_borders hF hd hq h hS hf
  obtain ⟨L2, hL2, _⟩ := C71_borders hF2 hd2 hq2 h2 hS2 hf2
  obtain ⟨a1, a2⟩ := C128_across hF hd hq h hS hf hL
  obtain ⟨b1, b2⟩ := C128_across hF2 hd2 hq2 h2 hS2 hf2 hL2
  refine ⟨L, L2, hL, hL2, (List.perm_ext_iff_of_nodup b1 a1).mpr fun r => ?_⟩
  rw [a2, b2]
  unfold Neighbours
  refine and_congr_right fun _ => ⟨fun ⟨w, h1, h2, h3, h4⟩ => ?_, fun ⟨z, h1, h2, h3, h4⟩ => ?_⟩
  · obtain ⟨z, rfl⟩ := motion_onto (g := g) w
    exact ⟨z, (same_inside hC hF hF2).mp h1, nearest_motion.mp h2, nearest_motion.mp h3, fun o ho => h4 o (nearest_motion.mpr ho)⟩
  · exact ⟨g.apply z, (same_inside hC hF hF2).mpr h1, nearest_motion.mpr h2, nearest_motion.mpr h3, fun o ho => h4 o (nearest_motion.mp ho)⟩

/-- C132 for sites in general position in both systems of coordinates: far enough up, both runs succeed with their default settings, and the areas agree up to the unit. -/
theorem C132_moved (hG : GeneralPosition pts n m) (hG2 : GeneralPosition (fun i => g.apply (pts i)) n (turned g m)) (hM : AllMeet pts n m) (hd : Distinct pts n) (hn : 0 < n)
    (hl : l ~ m) (hq : q.Spec evLt ok) (hq2 : q2.Spec evLt ok2) :
    ∃ H, ∀ h1 ≥ H, ∀ h2 ≥ H, ∃ po po2, mkPoly (l.map (up h1)) = .ok po ∧ mkPoly ((l.map g.apply).map (up h2)) = .ok po2 ∧ ∀ fuel > 7 * n, ∃ s s2,
      createDiagram (fun i => up h1 (pts i)) q n fuel po true (initSt po) = .ok ((), s) ∧
      createDiagram (fun i => up h2 (g.apply (pts i))) q2 n fuel po2 true (initSt po2) = .ok ((), s2) ∧
      ∀ p < n, ∃ a, 0 < a ∧ area s.d.heCnt p s.d = .ok (a, s.d) ∧ area s2.d.heCnt p s2.d = .ok (g.scale * a, s2.d) := by
  have h3 := hG.convex.1
  have hM2 : AllMeet (fun i => g.apply (pts i)) n (turned g m) := fun p hp => by
    obtain ⟨c, h1, h2⟩ := hM p hp
    exact ⟨g.apply c, (turned_inside (by omega)).mpr h1, fun o ho hne => by
      rw [sqDist_motion, sqDist_motion]; exact mul_lt_mul_of_pos_left (h2 o ho hne) g.scale_pos⟩
  obtain ⟨H1, hH1⟩ := C96_areas hG hM hd hn hl hq
  obtain ⟨H2, hH2⟩ := C96_areas hG2 hM2 (distinct_motion hd) hn ((hl.map g.apply).trans turned_perm.symm) hq2
  refine ⟨max H1 H2, fun h1 e1 h2 e2 => ?_⟩
  obtain ⟨po, p1, p2⟩ := hH1 h1 ((le_max_left _ _).trans e1)
  obtain ⟨po2, p3, p4⟩ := hH2 h2 ((le_max_right _ _).trans e2)
  refine ⟨po, po2, p1, p3, fun fuel hf => ?_⟩
  obtain ⟨s, r1, r2⟩ := p2 fuel hf
  obtain ⟨s2, r3, r4⟩ := p4 fuel hf
  refine ⟨s, s2, r1, r3, fun p hp => ?_⟩
  obtain ⟨a, a1, a2, a3⟩ := r2 p hp
  obtain ⟨b, b1, b2, b3⟩ := r4 p hp
  have e := volume_motion (g := g) (S := {z | InClosed m z ∧ Nearest pts n p z})
    (T := {z | InClosed (turned g m) z ∧ Nearest (fun i => g.apply (pts i)) n p z}) fun z => and_congr (turned_closed (by omega)) nearest_motion
  have hK := g.scale_pos
  rw [a3, b3, ← ENNReal.ofReal_mul hK.le, ENNReal.ofReal_eq_ofReal_iff b2.le (by positivity)] at e
  exact ⟨a, a2, a1, by rw [b1, e]⟩

open Check in
set_option maxRecDepth 100000 in
/-- The hypotheses can be met: the example of the README, and the same with left and right exchanged.  All areas are the same. -/
example : (∀ z, mirror.apply z = (-z.1, z.2)) ∧ ∃ poly poly2 s' s2', mkPoly (quickPolygon.map real) = .ok poly ∧
    mkPoly ((quickPolygon.map real).map mirror.apply) = .ok poly2 ∧ createDiagram (realSites quickSites) heapq 7 60 poly true (initSt poly) = .ok ((), s') ∧
    createDiagram (fun i => mirror.apply (realSites quickSites i)) heapq 7 60 poly2 true (initSt poly2) = .ok ((), s2') ∧
    ∀ p < 7, ∃ a : ℝ, 0 < a ∧ area s'.d.heCnt p s'.d = .ok (a, s'.d) ∧ area s2'.d.heCnt p s2'.d = .ok (a, s2'.d) := by
  let f : QPt → QPt := fun z => (-z.1, z.2)
  have hin2 : Input (quickSites.map f) (quickPolygon.map f).reverse := by decide +kernel
  have hg : ∀ z, mirror.apply z = (-z.1, z.2) := fun z => by
    show ((-1) * z.1 - (-1) * 0 * z.2 + 0, 0 * z.1 + (-1) * (-1) * z.2 + 0) = _
    ext <;> simp only <;> ring
  have hgs : mirror.scale = 1 := by show (-1 : ℝ) ^ 2 + 0 ^ 2 = 1; norm_num
  have hreal : ∀ z : QPt, real (f z) = mirror.apply (real z) := fun z => by rw [hg]; simp [real, f]
  have hsites : realSites (quickSites.map f) = fun i => mirror.apply (realSites quickSites i) := by
    funext i
    unfold realSites
    rw [← hreal]
    simp only [List.getD_eq_getElem?_getD, List.getElem?_map]
    cases quickSites[i]? <;> simp [f]
  have hl2 : (quickPolygon.map real).map mirror.apply ~ (quickPolygon.map f).reverse.map real := by
    have : (quickPolygon.map real).map mirror.apply = (quickPolygon.map f).map real := by
      rw [List.map_map, List.map_map]
      exact List.map_congr_left fun z _ => (hreal z).symm
    rw [this]
    exact (List.reverse_perm _).symm.map _
  obtain ⟨poly, s', hp, hs, hA⟩ := C130_areas C130_quickstart (List.Perm.refl _) C45_event_queue (fuel := 60) (by decide) true
  obtain ⟨poly2, s2', hp2, hs2, _⟩ := C130_areas hin2 hl2 C45_event_queue (fuel := 60) (by decide) true
  obtain ⟨hB, hd⟩ := C130_fits C130_quickstart (List.Perm.refl _) hp
  obtain ⟨hB2, _⟩ := C130_fits hin2 hl2 hp2
  rw [hsites] at hs2 hB2
  refine ⟨hg, poly, poly2, s', s2', hp, hp2, hs, hs2, fun p hpn => ?_⟩
  have hC : SameCorners mirror poly poly2 := (mkPoly_ok hp2).1.trans ((mkPoly_ok hp).1.symm.map _)
  obtain ⟨a, h1, h2, _⟩ := hA p hpn
  rcases C132_areas hC hB.toFitsCorners hB2.toFitsCorners hd C45_event_queue C45_event_queue hs hs2 hpn le_rfl le_rfl with ⟨h3, _⟩ | ⟨b, h3, h4⟩
  · rw [h1] at h3; cases h3
  · rw [h1, Except.ok.injEq, Prod.mk.injEq] at h3
    rw [← h3.1, hgs, one_mul] at h4
    exact ⟨a, h2, h1, h4⟩

open Check in
set_option maxRecDepth 100000 in
/-- The hypotheses of `C132_moved` can be met: the example of the README, and the same turned and five times as large. -/
example : (∀ z, turn34.apply z = (3 * z.1 - 4 * z.2, 4 * z.1 + 3 * z.2)) ∧ GeneralPosition (realSites quickSites) 7 (quickPolygon.map real) ∧
    GeneralPosition (fun i => turn34.apply (realSites quickSites i)) 7 (turned turn34 (quickPolygon.map real)) ∧ AllMeet (realSites quickSites) 7 (quickPolygon.map real) ∧
    Distinct (realSites quickSites) 7 := by
  let f : QPt → QPt := fun z => (3 * z.1 - 4 * z.2, 4 * z.1 + 3 * z.2)
  have hin2 : Input (quickSites.map f) (quickPolygon.map f) := by decide +kernel
  have hg : ∀ z, turn34.apply z = (3 * z.1 - 4 * z.2, 4 * z.1 + 3 * z.2) := fun z => by
    show (3 * z.1 - 1 * 4 * z.2 + 0, 4 * z.1 + 1 * 3 * z.2 + 0) = _
    ext <;> simp only <;> ring
  have hreal : ∀ z : QPt, real (f z) = turn34.apply (real z) := fun z => by rw [hg]; simp [real, f]
  have hsites : realSites (quickSites.map f) = fun i => turn34.apply (realSites quickSites i) := by
    funext i
    unfold realSites
    rw [← hreal]
    simp only [List.getD_eq_getElem?_getD, List.getElem?_map]
    cases quickSites[i]? <;> simp [f]
  have hm : turned turn34 (quickPolygon.map real) = (quickPolygon.map f).map real := by
    unfold turned
    rw [if_pos (show turn34.s = 1 from rfl), List.map_map, List.map_map]
    exact List.map_congr_left fun z _ => (hreal z).symm
  refine ⟨hg, check_general C130_quickstart, ?_, check_meet (check_general C130_quickstart).convex C130_quickstart.2.1, check_distinct C130_quickstart.2.1.2.1⟩
  rw [hm, ← hsites]
  exact check_general hin2

end Foronoi
