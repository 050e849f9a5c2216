import Verif.Props.Symmetry
import Verif.Props.VisFinal
import Verif.Props.FinalVertices
import Verif.Props.InsideBorder
import Verif.Props.Checkable

/-!
# C134: the same sites in a part of the polygon
-/

namespace Foronoi

open MeasureTheory

variable {pts : Nat → ℝ × ℝ} {q q1 q2 : PQ (QE ℝ)} {ok ok1 ok2 : List (QE ℝ) → Prop} {n : Nat} {rz rz1 rz2 : Bool} {poly poly1 poly2 : Poly ℝ} {s' s1' s2' : St ℝ}
  {fuel fuel1 fuel2 : Nat}

/-- What `area` yields is the area of the part of the cell in the polygon. -/
theorem area_volume (hF : FitsCorners pts n poly) (hd : Distinct pts n) (hq : q.Spec evLt ok) (h : createDiagram pts q n fuel poly rz (initSt poly) = .ok ((), s'))
    {p : Nat} (hp : p < n) {f : Nat} (hf : s'.d.heCnt ≤ f) {a : ℝ} (ha : area f p s'.d = .ok (a, s'.d)) :
    0 ≤ a ∧ volume {z | InClosed poly.points z ∧ Nearest pts n p z} = ENNReal.ofReal a := by
  by_cases hc : FarCell pts n p ∨ ¬ NothingOrAll pts n poly p
  · obtain ⟨x, h3, h4, _, h5⟩ := C119_area hF hd hq h hp hc hf
    rw [ha, Except.ok.injEq, Prod.mk.injEq] at h3
    exact h3.1 ▸ ⟨h4, h5⟩
  · push Not at hc
    rw [(C119_no_area hF hd hq h hp hc.1 hc.2 hf).1] at ha; cases ha

/-- The border of a convex polygon has no area. -/
theorem boundary_null {l : List (ℝ × ℝ)} (hc : ClockwiseConvex l) : volume {z | OnBoundary l z} = 0 := by
  have hsub : {z | OnBoundary l z} ⊆ ⋃ i ∈ Finset.range l.length, {z : ℝ × ℝ | ((corner l (i + 1)).2 - (corner l i).2) * z.1 + (-((corner l (i + 1)).1 - (corner l i).1)) * z.2 =
      ((corner l (i + 1)).2 - (corner l i).2) * (corner l i).1 - ((corner l (i + 1)).1 - (corner l i).1) * (corner l i).2} := by
    rintro z ⟨i, hi, t, _, _, rfl⟩
    simp only [Set.mem_iUnion, Finset.mem_range]
    refine ⟨i, hi, ?_⟩
    simp only [Set.mem_setOf_eq]
    ring
  refine measure_mono_null hsub ((measure_biUnion_null_iff (Finset.range l.length).countable_toSet).mpr fun i hi => volume_line ?_)
  by_contra hh
  push Not at hh
  exact corner_ne_succ hc (Finset.mem_range.mp hi) (Prod.ext (by linarith [hh.2]) (by linarith [hh.1]))

/-- The interior of a part is in the interior. -/
theorem inside_part {l m : List (ℝ × ℝ)} (hm : ClockwiseConvex m) (hsub : ∀ z, InClosed l z → InClosed m z) {z : ℝ × ℝ} (hz : StrictlyInside l z) : StrictlyInside m z := by
  intro i hi
  by_contra hle
  have h0 : rightOf (corner m i) (corner m (i + 1)) z = 0 := le_antisymm (not_lt.mp hle) (hsub z hz.closed i hi)
  obtain ⟨t, t0, _, ht⟩ := inside_near hz (z.1 - ((corner m (i + 1)).2 - (corner m i).2), z.2 + ((corner m (i + 1)).1 - (corner m i).1))
  have h1 := hsub _ ht.closed i hi
  rw [along_rightOf, h0] at h1
  have e : rightOf (corner m i) (corner m (i + 1)) (z.1 - ((corner m (i + 1)).2 - (corner m i).2), z.2 + ((corner m (i + 1)).1 - (corner m i).1)) =
      rightOf (corner m i) (corner m (i + 1)) z - (((corner m (i + 1)).2 - (corner m i).2) ^ 2 + ((corner m (i + 1)).1 - (corner m i).1) ^ 2) := by
    unfold rightOf; ring
  rw [e, h0] at h1
  have hne := corner_ne_succ hm hi
  have hpos : 0 < ((corner m (i + 1)).2 - (corner m i).2) ^ 2 + ((corner m (i + 1)).1 - (corner m i).1) ^ 2 := by
    rcases ne_or_eq (corner m (i + 1)).1 (corner m i).1 with h | h
    · have := sq_pos_of_ne_zero (sub_ne_zero.mpr h)
      nlinarith [sq_nonneg ((corner m (i + 1)).2 - (corner m i).2)]
    · have h' : (corner m (i + 1)).2 ≠ (corner m i).2 := fun h2 => hne (Prod.ext h.symm h2.symm)
      have := sq_pos_of_ne_zero (sub_ne_zero.mpr h')
      nlinarith [sq_nonneg ((corner m (i + 1)).1 - (corner m i).1)]
  nlinarith

/-- **C134**: in a part of the polygon no area is larger, and the area of a cell that lies in the part is the same. -/
theorem C134_areas (hsub : ∀ z, InClosed poly1.points z → InClosed poly.points z) (hF : FitsCorners pts n poly) (hF1 : FitsCorners pts n poly1) (hd : Distinct pts n)
    (hq : q.Spec evLt ok) (hq1 : q1.Spec evLt ok1) (h : createDiagram pts q n fuel poly rz (initSt poly) = .ok ((), s'))
    (h1 : createDiagram pts q1 n fuel1 poly1 rz1 (initSt poly1) = .ok ((), s1')) {p : Nat} (hp : p < n) {f f1 : Nat} {a a1 : ℝ} (hf : s'.d.heCnt ≤ f)
    (hf1 : s1'.d.heCnt ≤ f1) (ha : area f p s'.d = .ok (a, s'.d)) (ha1 : area f1 p s1'.d = .ok (a1, s1'.d)) :
    a1 ≤ a ∧ ((∀ z, InCell pts n poly p z → InClosed poly1.points z) → a1 = a) := by
  obtain ⟨p0, v0⟩ := area_volume hF hd hq h hp hf ha
  obtain ⟨p1, v1⟩ := area_volume hF1 hd hq1 h1 hp hf1 ha1
  constructor
  · have := measure_mono (μ := volume) (s := {z | InClosed poly1.points z ∧ Nearest pts n p z}) (t := {z | InClosed poly.points z ∧ Nearest pts n p z})
      fun z hz => ⟨hsub z hz.1, hz.2⟩
    rw [v0, v1] at this
    exact (ENNReal.ofReal_le_ofReal_iff p0).mp this
  · intro hc
    have e : {z | InClosed poly1.points z ∧ Nearest pts n p z} = {z | InClosed poly.points z ∧ Nearest pts n p z} := by
      ext z
      exact ⟨fun hz => ⟨hsub z hz.1, hz.2⟩, fun hz => ⟨hc z hz, hz.2⟩⟩
    exact (ENNReal.ofReal_eq_ofReal_iff p1 p0).mp (by rw [← v1, e, v0])

/-- C134: if a polygon is divided into two, the areas of a cell in the two parts add up to its area. -/
theorem C134_divided (hcov : ∀ z, InClosed poly.points z ↔ InClosed poly1.points z ∨ InClosed poly2.points z)
    (hdis : ∀ z, InClosed poly1.points z → InClosed poly2.points z → OnBoundary poly1.points z) (hF : FitsCorners pts n poly) (hF1 : FitsCorners pts n poly1)
    (hF2 : FitsCorners pts n poly2) (hd : Distinct pts n) (hq : q.Spec evLt ok) (hq1 : q1.Spec evLt ok1) (hq2 : q2.Spec evLt ok2)
    (h : createDiagram pts q n fuel poly rz (initSt poly) = .ok ((), s')) (h1 : createDiagram pts q1 n fuel1 poly1 rz1 (initSt poly1) = .ok ((), s1'))
    (h2 : createDiagram pts q2 n fuel2 poly2 rz2 (initSt poly2) = .ok ((), s2')) {p : Nat} (hp : p < n) {f f1 f2 : Nat} {a a1 a2 : ℝ} (hf : s'.d.heCnt ≤ f)
    (hf1 : s1'.d.heCnt ≤ f1) (hf2 : s2'.d.heCnt ≤ f2) (ha : area f p s'.d = .ok (a, s'.d)) (ha1 : area f1 p s1'.d = .ok (a1, s1'.d))
    (ha2 : area f2 p s2'.d = .ok (a2, s2'.d)) : a = a1 + a2 := by
  obtain ⟨p0, v0⟩ := area_volume hF hd hq h hp hf ha
  obtain ⟨p1, v1⟩ := area_volume hF1 hd hq1 h1 hp hf1 ha1
  obtain ⟨p2, v2⟩ := area_volume hF2 hd hq2 h2 hp hf2 ha2
  have e : {z | InClosed poly.points z ∧ Nearest pts n p z} =
      {z | InClosed poly1.points z ∧ Nearest pts n p z} ∪ {z | InClosed poly2.points z ∧ Nearest pts n p z} := by
    ext z
    simp only [Set.mem_setOf_eq, Set.mem_union, hcov]
    tauto
  have hdj : AEDisjoint volume {z | InClosed poly1.points z ∧ Nearest pts n p z} {z | InClosed poly2.points z ∧ Nearest pts n p z} :=
    measure_mono_null (fun z hz => hdis z hz.1.1 hz.2.1) (boundary_null hF1.convex)
  have := measure_union₀ (show IsClosed {z | InClosed poly2.points z ∧ Nearest pts n p z} from cell_closed pts n poly2 p).measurableSet.nullMeasurableSet hdj
  rw [← e, v0, v1, v2, ← ENNReal.ofReal_add p1 p2] at this
  exact (ENNReal.ofReal_eq_ofReal_iff p0 (add_nonneg p1 p2)).mp this

/-- C134: inside the part the same lines are drawn. -/
theorem C134_lines (hsub : ∀ z, InClosed poly1.points z → InClosed poly.points z) (hF : FitsCorners pts n poly) (hF1 : FitsCorners pts n poly1) (hd : Distinct pts n)
    (hq : q.Spec evLt ok) (hq1 : q1.Spec evLt ok1) (hn : 0 < n) (h : createDiagram pts q n fuel poly rz (initSt poly) = .ok ((), s'))
    (h1 : createDiagram pts q1 n fuel1 poly1 rz1 (initSt poly1) = .ok ((), s1')) (cv cv1 : Canvas ℝ) (labels labels1 : Bool) :
    ∃ ds ds1, plotEdges pts cv s' labels = .ok ds ∧ plotEdges pts cv1 s1' labels1 = .ok ds1 ∧ ∀ z, StrictlyInside poly1.points z → (OnLine ds1 z ↔ OnLine ds z) := by
  obtain ⟨ds, g1, g2⟩ := C86_final_picture hF hd hq hn h cv labels
  obtain ⟨ds1, k1, k2⟩ := C86_final_picture hF1 hd hq1 hn h1 cv1 labels1
  refine ⟨ds, ds1, g1, k1, fun z hz => ?_⟩
  have hz' := inside_part hF.convex hsub hz
  rw [g2, k2]
  have n1 : ¬ OnBoundary poly1.points z := fun hh => hh.not_inside hz
  have n2 : ¬ OnBoundary poly.points z := fun hh => hh.not_inside hz'
  simp only [n1, n2, or_false, hz.closed, hz'.closed, true_and]

/-- C134: inside the part there are vertices at the same places. -/
theorem C134_vertices (hsub : ∀ z, InClosed poly1.points z → InClosed poly.points z) (hF : FitsCorners pts n poly) (hF1 : FitsCorners pts n poly1) (hd : Distinct pts n)
    (hq : q.Spec evLt ok) (hq1 : q1.Spec evLt ok1) (hn : 0 < n) (h : createDiagram pts q n fuel poly rz (initSt poly) = .ok ((), s'))
    (h1 : createDiagram pts q1 n fuel1 poly1 rz1 (initSt poly1) = .ok ((), s1')) {z : ℝ × ℝ} (hz : StrictlyInside poly1.points z) :
    (∃ v ∈ s1'.verts, (s1'.d.vs v).pos = some z) ↔ ∃ v ∈ s'.verts, (s'.d.vs v).pos = some z := by
  have key : ∀ {poly : Poly ℝ} {q ok rz fuel s'}, FitsCorners pts n poly → PQ.Spec (q : PQ (QE ℝ)) evLt ok → createDiagram pts q n fuel poly rz (initSt poly) = .ok ((), s') →
      StrictlyInside poly.points z → ((∃ v ∈ s'.verts, (s'.d.vs v).pos = some z) ↔ VoronoiVertex pts n z) := by
    intro poly q ok rz fuel s' hF hq h hz
    obtain ⟨g1, g2, _⟩ := C88_final_vertices hF hd hq hn h
    have hnb : ¬ OnBoundary poly.points z := fun hh => hh.not_inside hz
    constructor
    · rintro ⟨v, hv, e⟩
      obtain ⟨w, e', hw⟩ := g1 v hv
      rw [e, Option.some.injEq] at e'
      subst e'
      rcases hw with hw | hw | hw
      · obtain ⟨i, hi, rfl⟩ := List.getElem_of_mem hw
        refine absurd ⟨i, hi, ?_⟩ hnb
        have : corner poly.points i = poly.points[i] := by
          unfold corner
          rw [Nat.mod_eq_of_lt hi, getD_elem _ hi]
        rw [← this]
        exact between_left _ _
      · exact absurd hw.1 hnb
      · exact hw.2
    · intro hv
      exact g2 z (Or.inr (Or.inr ⟨hz, hv⟩))
  rw [key hF1 hq1 h1 hz, key hF hq h (inside_part hF.convex hsub hz)]

open Check in
/-- The hypotheses of `C134_divided` can be met: two sites on the line along which a box is divided. -/
example : ∃ poly poly1 poly2 s' s1' s2' a a1 a2, mkPoly [((-5 : ℝ), (9 : ℝ)), (5, 9), (5, 1), (-5, 1)] = .ok poly ∧ mkPoly [((-5 : ℝ), (9 : ℝ)), (0, 9), (0, 1), (-5, 1)] = .ok poly1 ∧
    mkPoly [((0 : ℝ), (9 : ℝ)), (5, 9), (5, 1), (0, 1)] = .ok poly2 ∧ createDiagram (realSites [(0, 3), (0, 7)]) heapq 2 15 poly true (initSt poly) = .ok ((), s') ∧
    createDiagram (realSites [(0, 3), (0, 7)]) heapq 2 15 poly1 true (initSt poly1) = .ok ((), s1') ∧
    createDiagram (realSites [(0, 3), (0, 7)]) heapq 2 15 poly2 true (initSt poly2) = .ok ((), s2') ∧
    area s'.d.heCnt 0 s'.d = .ok (a, s'.d) ∧ area s1'.d.heCnt 0 s1'.d = .ok (a1, s1'.d) ∧ area s2'.d.heCnt 0 s2'.d = .ok (a2, s2'.d) ∧ 0 < a1 ∧ 0 < a2 ∧ a = a1 + a2 := by
  have i0 : Input [(0, 3), (0, 7)] [(-5, 9), (5, 9), (5, 1), (-5, 1)] := by decide +kernel
  have i1 : Input [(0, 3), (0, 7)] [(-5, 9), (0, 9), (0, 1), (-5, 1)] := by decide +kernel
  have i2 : Input [(0, 3), (0, 7)] [(0, 9), (5, 9), (5, 1), (0, 1)] := by decide +kernel
  have m0 : ([(-5, 9), (5, 9), (5, 1), (-5, 1)] : List QPt).map real = [((-5 : ℝ), (9 : ℝ)), (5, 9), (5, 1), (-5, 1)] := by simp [real]
  have m1 : ([(-5, 9), (0, 9), (0, 1), (-5, 1)] : List QPt).map real = [((-5 : ℝ), (9 : ℝ)), (0, 9), (0, 1), (-5, 1)] := by simp [real]
  have m2 : ([(0, 9), (5, 9), (5, 1), (0, 1)] : List QPt).map real = [((0 : ℝ), (9 : ℝ)), (5, 9), (5, 1), (0, 1)] := by simp [real]
  obtain ⟨poly, s', g1, g2, g3⟩ := C130_areas i0 (List.Perm.refl _) C45_event_queue (fuel := 15) (by simp) true
  obtain ⟨poly1, s1', k1, k2, k3⟩ := C130_areas i1 (List.Perm.refl _) C45_event_queue (fuel := 15) (by simp) true
  obtain ⟨poly2, s2', l1, l2, l3⟩ := C130_areas i2 (List.Perm.refl _) C45_event_queue (fuel := 15) (by simp) true
  have hd : Distinct (realSites [(0, 3), (0, 7)]) 2 := check_distinct (by decide)
  have f0 := (C130_fits i0 (List.Perm.refl _) g1).1.toFitsCorners
  have f1 := (C130_fits i1 (List.Perm.refl _) k1).1.toFitsCorners
  have f2 := (C130_fits i2 (List.Perm.refl _) l1).1.toFitsCorners
  obtain ⟨a, a0, _, _⟩ := g3 0 (by simp)
  obtain ⟨a1, b0, b1, _⟩ := k3 0 (by simp)
  obtain ⟨a2, c0, c1, _⟩ := l3 0 (by simp)
  obtain ⟨_, e0, ⟨r0, hr0⟩, _⟩ := C94_clockwise (check_general i0).convex (List.Perm.refl _)
  obtain ⟨_, e1, ⟨r1, hr1⟩, _⟩ := C94_clockwise (check_general i1).convex (List.Perm.refl _)
  obtain ⟨_, e2, ⟨r2, hr2⟩, _⟩ := C94_clockwise (check_general i2).convex (List.Perm.refl _)
  rw [g1, Except.ok.injEq] at e0
  rw [k1, Except.ok.injEq] at e1
  rw [l1, Except.ok.injEq] at e2
  subst e0 e1 e2
  have z0 : ∀ z, InClosed poly.points z ↔ (-5 ≤ z.1 ∧ z.1 ≤ 5 ∧ 1 ≤ z.2 ∧ z.2 ≤ 9) := fun z => by
    rw [hr0, closed_rotate (by simp), m0, box_closed (by norm_num) (by norm_num)]
  have z1 : ∀ z, InClosed poly1.points z ↔ (-5 ≤ z.1 ∧ z.1 ≤ 0 ∧ 1 ≤ z.2 ∧ z.2 ≤ 9) := fun z => by
    rw [hr1, closed_rotate (by simp), m1, box_closed (by norm_num) (by norm_num)]
  have z2 : ∀ z, InClosed poly2.points z ↔ (0 ≤ z.1 ∧ z.1 ≤ 5 ∧ 1 ≤ z.2 ∧ z.2 ≤ 9) := fun z => by
    rw [hr2, closed_rotate (by simp), m2, box_closed (by norm_num) (by norm_num)]
  refine ⟨poly, poly1, poly2, s', s1', s2', a, a1, a2, m0 ▸ g1, m1 ▸ k1, m2 ▸ l1, g2, k2, l2, a0, b0, c0, b1, c1, ?_⟩
  refine C134_divided (fun z => ?_) (fun z h1 h2 => ?_) f0 f1 f2 hd C45_event_queue C45_event_queue C45_event_queue g2 k2 l2 (by simp) le_rfl le_rfl le_rfl a0 b0 c0
  · rw [z0, z1, z2]
    constructor
    · rintro ⟨u, v, w⟩
      rcases le_total z.1 0 with h | h
      · exact Or.inl ⟨u, h, w⟩
      · exact Or.inr ⟨h, v, w⟩
    · rintro (⟨u, v, w⟩ | ⟨u, v, w⟩)
      · exact ⟨u, by linarith, w⟩
      · exact ⟨by linarith, v, w⟩
  · have h1' := (z1 z).mp h1
    have h2' := (z2 z).mp h2
    have hz : z.1 = 0 := le_antisymm h1'.2.1 h2'.1
    rw [hr1, boundary_rotate (by simp), m1]
    refine ⟨1, by simp, (9 - z.2) / 8, by linarith [h1'.2.2.2], by linarith [h1'.2.2.1], ?_⟩
    refine Prod.ext ?_ ?_
    · simp [corner, hz]
    · simp [corner]; ring

end Foronoi
