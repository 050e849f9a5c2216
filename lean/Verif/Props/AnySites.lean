import Verif.Proof.CellAny
import Verif.Props.VisFinal

/-!
# C119: what `area` yields for sites anywhere
-/

namespace Foronoi

open scoped List

variable {pts : Nat → ℝ × ℝ} {q : PQ (QE ℝ)} {ok : List (QE ℝ) → Prop} {n : Nat} {rz : Bool} {poly : Poly ℝ} {s s1 s2 s' : St ℝ} {vs : List Nat} {V : Nat → Nat}
  {cell fuel : Nat}

/-- Nothing of the polygon is in the cell of `p`, or everything. -/
def NothingOrAll (pts : Nat → ℝ × ℝ) (n : Nat) (poly : Poly ℝ) (p : Nat) : Prop :=
  (∀ z, ¬ InCell pts n poly p z) ∨ ∀ z, StrictlyInside poly.points z → Nearest pts n p z

theorem run_lost {fuel' p x v : Nat} {d : Dcel ℝ} (h1 : d.fe p = some x) (h2 : (d.he x).next = some x) (h3 : (d.he x).origin = .vtx v) (h4 : (d.vs v).pos = none)
    (hf : 0 < fuel') : borders fuel' p d = .ok ([x], d) ∧ area fuel' p d = .error .attr := by
  obtain ⟨k, rfl⟩ : ∃ k, fuel' = k + 1 := ⟨fuel' - 1, by omega⟩
  have hb : borders (k + 1) p d = .ok ([x], d) := by
    have e1 : (rdFE p : DM ℝ (Option Nat)) d = .ok (some x, d) := by
      show Except.ok (d.fe p, d) = _
      rw [h1]
    have e2 : (rdE x : DM ℝ _) d = .ok (d.he x, d) := rfl
    unfold borders
    rw [bind_ok e1]
    show bordersLoop x (k + 1) x [x] d = _
    unfold bordersLoop
    rw [bind_ok e2, if_pos h2]
    rfl
  refine ⟨hb, ?_⟩
  have e2 : (rdE x : DM ℝ _) d = .ok (d.he x, d) := rfl
  have hv : cellVertices (k + 1) p d = .ok ([v], d) := by
    unfold cellVertices
    rw [bind_ok hb]
    unfold cellVertices.go
    rw [bind_ok e2]
    have e3 : (cellVertices.go [] : DM ℝ (List Nat)) d = .ok ([], d) := rfl
    rw [bind_ok e3, h3]
    rfl
  have hxy : getXY (k + 1) p d = .error .attr := by
    unfold getXY
    rw [bind_ok hv]
    have e4 : (getXY.go [v] : DM ℝ (List (ℝ × ℝ))) d = .error .attr := by
      unfold getXY.go
      have e5 : (rdV v : DM ℝ _) d = .ok (d.vs v, d) := rfl
      rw [bind_ok e5, h4]
      rfl
    rw [bind_err e4]
  unfold area
  rw [bind_err hxy]

/-- C119: a site with a bounded cell that contains nothing of the polygon or everything has no area.  Its only border is a half-edge that is not part of the diagram. -/
theorem C119_no_area (hF : FitsCorners pts n poly) (hd : Distinct pts n) (hq : q.Spec evLt ok)
    (h : createDiagram pts q n fuel poly rz (initSt poly) = .ok ((), s')) {p : Nat} (hp : p < n) (hb : ¬ FarCell pts n p) (hna : NothingOrAll pts n poly p)
    {fuel' : Nat} (hfuel : s'.d.heCnt ≤ fuel') :
    area fuel' p s'.d = .error .attr ∧ ∃ x, borders fuel' p s'.d = .ok ([x], s'.d) ∧ ¬ HalfEdgeOf s'.d s'.edges x := by
  obtain ⟨s, s1, s2, vs, V, cell, F, hv1⟩ := create_finish_verts hF hd hq (Nat.zero_lt_of_lt hp) h
  obtain ⟨L, hI⟩ := reach_inv F.B.spec F.B.reach
  have hno : ∀ x, EdgesOf s.d s1.edges x → (s.d.he x).incident ≠ some p := by
    intro x hx hinc
    rcases hna with h1 | h1
    · have := (F.B.seg F.hn (Or.inl ⟨hx, hinc⟩)).1 _ (between_left _ _)
      exact h1 _ ⟨this.1, this.2.1⟩
    · obtain ⟨t, i, o, hE⟩ := F.B.edg (F.B.kept_lt hx)
      have e := hE.inc
      rw [hinc, Option.some.injEq] at e
      subst e
      have het := hE.symm hI.dinv
      obtain ⟨a, ha⟩ := Option.isSome_iff_exists.mp ((F.B.half hE).1.mpr hx)
      obtain ⟨b, hb'⟩ := Option.isSome_iff_exists.mp ((F.B.half het).1.mpr ((F.B.half hE).2.1.mp hx))
      obtain ⟨_, _, _, h2⟩ := (F.B.half hE).2.2.1 a b ha hb'
      obtain ⟨h3, h4, h5⟩ := h2 a (between_left _ _)
      obtain ⟨c, hm⟩ := mid_of_cell hF hd h3 h5
      have h6 := hm.near p hp (hE.ne hI.dinv)
      exact absurd ((h1 c hm.inside).2 o h5.1) (not_le.mpr h6)
  obtain ⟨x, v, h1, h2, h3, h4, h5⟩ := F.first_lost hv1 hp hb hno
  obtain ⟨g1, g2⟩ := run_lost h1 h2 h3 h4 (show 0 < fuel' by omega)
  refine ⟨g2, x, g1, fun hx => ?_⟩
  have hop : opos s'.d x = none := by unfold opos; rw [h3]; exact h4
  rcases hx with hx | ⟨e, he, ht⟩
  · obtain ⟨t, p', a, b, hl⟩ := F.listed hx
    rw [hl.org] at hop; cases hop
  · obtain ⟨t, p', a, b, hl⟩ := F.listed he
    have := hl.tw
    rw [ht, Option.some.injEq] at this
    subst this
    rw [hl.torg] at hop; cases hop

/-- C119: in all other cases `area` is the area of the part of the polygon to which the site is nearest, 0 if there is none. -/
theorem C119_area (hF : FitsCorners pts n poly) (hd : Distinct pts n) (hq : q.Spec evLt ok)
    (h : createDiagram pts q n fuel poly rz (initSt poly) = .ok ((), s')) {p : Nat} (hp : p < n) (hb : FarCell pts n p ∨ ¬ NothingOrAll pts n poly p)
    {fuel' : Nat} (hfuel : s'.d.heCnt ≤ fuel') :
    ∃ a, area fuel' p s'.d = .ok (a, s'.d) ∧ 0 ≤ a ∧ (0 < a ↔ ∃ z, InCell pts n poly p z) ∧
      MeasureTheory.volume {z | InClosed poly.points z ∧ Nearest pts n p z} = ENNReal.ofReal a := by
  by_cases hc : ∃ z, InCell pts n poly p z
  · obtain ⟨z, hz⟩ := hc
    obtain ⟨c, hm⟩ := mid_of_cell hF hd hz.1 hz.2
    have hS : Shown pts n poly p := by
      refine ⟨hp, ⟨c, hm.inside, hm.near⟩, ?_⟩
      rcases hb with h1 | h1
      · exact Or.inr h1
      · unfold NothingOrAll at h1
        push Not at h1
        exact Or.inl h1.2
    obtain ⟨a, h1, h2, h3⟩ := C72_area hF hd hq h hS hfuel
    exact ⟨a, h1, h2.le, ⟨fun _ => ⟨z, hz⟩, fun _ => h2⟩, h3⟩
  · have hno : ∀ z, ¬ InCell pts n poly p z := fun z hz => hc ⟨z, hz⟩
    have hfar : FarCell pts n p := hb.resolve_right fun h1 => h1 (Or.inl hno)
    obtain ⟨s, s1, s2, vs, V, cell, F⟩ := create_finish hF hd hq (Nat.zero_lt_of_lt hp) h
    have hfe := F.first_none hfar hno
    have hbs : borders fuel' p s'.d = .ok ([], s'.d) := by
      have e1 : (rdFE p : DM ℝ (Option Nat)) s'.d = .ok (none, s'.d) := by
        show Except.ok (s'.d.fe p, s'.d) = _
        rw [hfe]
      unfold borders
      rw [bind_ok e1]
      rfl
    refine ⟨0, ?_, le_rfl, ⟨fun h => absurd h (lt_irrefl _), fun h => absurd h hc⟩, ?_⟩
    · have hv : cellVertices fuel' p s'.d = .ok ([], s'.d) := by
        unfold cellVertices
        rw [bind_ok hbs]
        rfl
      have hxy : getXY fuel' p s'.d = .ok (([], []), s'.d) := by
        unfold getXY
        rw [bind_ok hv]
        rfl
      unfold area
      rw [bind_ok hxy]
      have e0 : shoelace ([] : List ℝ) [] = 0 := by
        have := areaOf_eq []
        simpa [areaOf, signed2] using this
      show Except.ok (shoelace [] [], s'.d) = _
      rw [e0]
    · have : {z | InClosed poly.points z ∧ Nearest pts n p z} = ∅ := Set.eq_empty_of_forall_notMem fun z hz => hno z hz
      rw [this]
      simp

/-- C119: exactly the sites with a bounded cell that contains nothing of the polygon or everything have no area. -/
theorem C119_exact (hF : FitsCorners pts n poly) (hd : Distinct pts n) (hq : q.Spec evLt ok)
    (h : createDiagram pts q n fuel poly rz (initSt poly) = .ok ((), s')) {p : Nat} (hp : p < n) {fuel' : Nat} (hfuel : s'.d.heCnt ≤ fuel') :
    (∃ e, area fuel' p s'.d = .error e) ↔ ¬ FarCell pts n p ∧ NothingOrAll pts n poly p := by
  constructor
  · rintro ⟨e, he⟩
    by_contra hh
    obtain ⟨a, ha, _⟩ := C119_area hF hd hq h hp (by tauto) hfuel
    rw [he] at ha; cases ha
  · rintro ⟨h1, h2⟩
    exact ⟨_, (C119_no_area hF hd hq h hp h1 h2 hfuel).1⟩

/-- Four sites outside the box from `(0, 100)` to `(4, 104)`; the cell of the first one covers the box, the cell of the last one is bounded. -/
noncomputable def out4 : Nat → ℝ × ℝ := fun i => if i = 0 then (8, 102) else if i = 1 then (11, 104) else if i = 2 then (11, 100) else (10, 102)

theorem out4_distinct : Distinct out4 4 := by
  intro i hi j hj h
  rcases (by omega : i = 0 ∨ i = 1 ∨ i = 2 ∨ i = 3) with rfl | rfl | rfl | rfl <;> rcases (by omega : j = 0 ∨ j = 1 ∨ j = 2 ∨ j = 3) with rfl | rfl | rfl | rfl <;>
    first | rfl | (exfalso; revert h; norm_num [out4])

theorem out4_first {z : ℝ × ℝ} (h1 : 0 ≤ z.1) (h2 : z.1 ≤ 4) (h3 : 100 ≤ z.2) (h4 : z.2 ≤ 104) {o : Nat} (ho : o < 4) (hne : o ≠ 0) :
    sqDist (out4 0) z < sqDist (out4 o) z := by
  rcases (by omega : o = 1 ∨ o = 2 ∨ o = 3) with rfl | rfl | rfl <;> norm_num [out4, sqDist] <;> nlinarith

theorem out4_only {z : ℝ × ℝ} (h1 : 0 ≤ z.1) (h2 : z.1 ≤ 4) (h3 : 100 ≤ z.2) (h4 : z.2 ≤ 104) {p : Nat} (hp : Nearest out4 4 p z) : p = 0 := by
  by_contra hne
  exact absurd (hp.2 0 (by norm_num)) (not_le.mpr (out4_first h1 h2 h3 h4 hp.1 hne))

theorem out4_corners {poly : Poly ℝ} (hp : boundingBox 0 4 100 104 = .ok poly) : FitsCorners out4 4 poly := by
  have hon : ∀ {p z}, OnBoundary [((0, 104) : ℝ × ℝ), (4, 104), (4, 100), (0, 100)] z → Nearest out4 4 p z → p = 0 := by
    intro p z hz hn
    obtain ⟨h1, h2, h3, h4⟩ := (box_closed (by norm_num) (by norm_num) z).mp (hz.closed (box_convex (by norm_num) (by norm_num)))
    exact out4_only h1 h2 h3 h4 hn
  refine fits_corners_far (by norm_num) (by norm_num) (by norm_num) ?_ ?_ ?_ ?_ ?_ hp
  · intro p hp z h1 h2 h3 h4
    rcases (by omega : p = 0 ∨ p = 1 ∨ p = 2 ∨ p = 3) with rfl | rfl | rfl | rfl <;> norm_num [out4, sqDist] <;> nlinarith
  · intro p r z hne hz h1 h2
    exact absurd ((hon hz h1).trans (hon hz h2).symm) hne
  · rintro z ⟨a, b, c, hab, _, _, ha, hb, _⟩ hz
    exact hab ((hon hz ha).trans (hon hz hb).symm)
  · intro p r z ht _ hn1 hn2
    exfalso
    have h1 := hn1.1
    have h2 := hn2.1
    obtain ⟨t1, t2, t3⟩ := ht
    have t4 := t3 1 (by norm_num)
    rcases (by omega : p = 0 ∨ p = 1 ∨ p = 2 ∨ p = 3) with rfl | rfl | rfl | rfl <;> rcases (by omega : r = 0 ∨ r = 1 ∨ r = 2 ∨ r = 3) with rfl | rfl | rfl | rfl <;>
      (revert t1 t2 t4; norm_num [out4])
  · intro p r h1 h2
    rw [out4_only (by norm_num) (by norm_num) (by norm_num) (by norm_num) h1, out4_only (by norm_num) (by norm_num) (by norm_num) (by norm_num) h2]

theorem out4_far0 : FarCell out4 4 0 := fun R => by
  refine ⟨(- |R|, 102), ⟨by norm_num, fun o ho => ?_⟩, ?_⟩
  · have := abs_nonneg R
    rcases (by omega : o = 0 ∨ o = 1 ∨ o = 2 ∨ o = 3) with rfl | rfl | rfl | rfl <;> norm_num [out4, sqDist] <;> nlinarith
  · have := abs_nonneg R
    have := le_abs_self R
    norm_num [out4, sqDist]
    nlinarith

theorem out4_far1 : FarCell out4 4 1 := fun R => by
  refine ⟨(11, 104 + |R| + 1), ⟨by norm_num, fun o ho => ?_⟩, ?_⟩
  · have := abs_nonneg R
    rcases (by omega : o = 0 ∨ o = 1 ∨ o = 2 ∨ o = 3) with rfl | rfl | rfl | rfl <;> norm_num [out4, sqDist] <;> nlinarith
  · have := abs_nonneg R
    have := le_abs_self R
    norm_num [out4, sqDist]
    nlinarith

theorem out4_far2 : FarCell out4 4 2 := fun R => by
  refine ⟨(11, 100 - |R| - 1), ⟨by norm_num, fun o ho => ?_⟩, ?_⟩
  · have := abs_nonneg R
    rcases (by omega : o = 0 ∨ o = 1 ∨ o = 2 ∨ o = 3) with rfl | rfl | rfl | rfl <;> norm_num [out4, sqDist] <;> nlinarith
  · have := abs_nonneg R
    have := le_abs_self R
    norm_num [out4, sqDist]
    nlinarith

theorem out4_far3 : ¬ FarCell out4 4 3 := fun h => by
  obtain ⟨z, h1, h2⟩ := h 100
  have k0 := h1.2 0 (by norm_num)
  have k1 := h1.2 1 (by norm_num)
  have k2 := h1.2 2 (by norm_num)
  norm_num [out4, sqDist] at h2 k0 k1 k2
  have e1 : 9 ≤ z.1 := by nlinarith
  have e2 : 2 * (z.1 - 10) + 4 * (z.2 - 102) ≤ 5 := by nlinarith
  have e3 : 2 * (z.1 - 10) - 4 * (z.2 - 102) ≤ 5 := by nlinarith
  have e4 : z.1 ≤ 25 / 2 := by linarith
  nlinarith

/-- The hypotheses of C119 can be met, with all outcomes: the first site has a positive area, the next two have the area 0 and the last one has none. -/
example : ∃ poly s', ∃ a : ℝ, boundingBox (0 : ℝ) 4 100 104 = .ok poly ∧ createDiagram out4 heapq 4 29 poly false (initSt poly) = .ok ((), s') ∧
    area s'.d.heCnt 0 s'.d = .ok (a, s'.d) ∧ 0 < a ∧ area s'.d.heCnt 1 s'.d = .ok (0, s'.d) ∧ area s'.d.heCnt 2 s'.d = .ok (0, s'.d) ∧
    area s'.d.heCnt 3 s'.d = .error .attr := by
  have hp := box_points (show (0 : ℝ) < 4 by norm_num) (show (100 : ℝ) < 104 by norm_num)
  have hF := out4_corners hp
  obtain ⟨⟨s', hs'⟩, _⟩ := C58_create_succeeds out4_distinct C45_event_queue (by norm_num) (by simp) (fun i hi => (hF.low i hi).le) (fuel := 29) (by norm_num)
  generalize hpo : (⟨[((0 : ℝ), (104 : ℝ)), (4, 104), (4, 100), (0, 100)], _, _, _, _, _⟩ : Poly ℝ) = poly at hp hF hs'
  have hpts : poly.points = [((0 : ℝ), (104 : ℝ)), (4, 104), (4, 100), (0, 100)] := by rw [← hpo]
  have hin : ∀ p ≠ 0, ∀ z, ¬ InCell out4 4 poly p z := fun p hne z hz => by
    obtain ⟨h1, h2, h3, h4⟩ := (box_closed (show (0 : ℝ) < 4 by norm_num) (show (100 : ℝ) < 104 by norm_num) z).mp (hpts ▸ hz.1)
    exact hne (out4_only h1 h2 h3 h4 hz.2)
  have zero : ∀ p, p ≠ 0 → p < 4 → FarCell out4 4 p → area s'.d.heCnt p s'.d = .ok (0, s'.d) := by
    intro p hne hlt hfar
    obtain ⟨a, h1, h2, h3, _⟩ := C119_area hF out4_distinct C45_event_queue hs' hlt (Or.inl hfar) le_rfl
    have : ¬ 0 < a := fun h => by
      obtain ⟨z, hz⟩ := h3.mp h
      exact hin p hne z hz
    rw [h1, le_antisymm (not_lt.mp this) h2]
  obtain ⟨a, h1, _, h3, _⟩ := C119_area hF out4_distinct C45_event_queue hs' (show 0 < 4 by norm_num) (Or.inl out4_far0) le_rfl
  refine ⟨_, s', a, hp, hs', h1, h3.mpr ⟨(2, 102), ?_, by norm_num, fun o ho => ?_⟩, zero 1 (by norm_num) (by norm_num) out4_far1, zero 2 (by norm_num) (by norm_num) out4_far2,
    (C119_no_area hF out4_distinct C45_event_queue hs' (by norm_num) out4_far3 (Or.inl (hin 3 (by norm_num))) le_rfl).1⟩
  · rw [hpts]
    exact (box_closed (by norm_num) (by norm_num) _).mpr (by norm_num)
  · rcases Nat.eq_zero_or_pos o with rfl | h
    · exact le_rfl
    · exact (out4_first (by norm_num) (by norm_num) (by norm_num) (by norm_num) ho (by omega)).le

end Foronoi
