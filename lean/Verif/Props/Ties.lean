import Verif.Props.Euler

/-!
# C100, C101: corners between two cells, and when the clean-up has an effect
-/

namespace Foronoi

open scoped List

variable {pts : Nat → ℝ × ℝ} {q : PQ (QE ℝ)} {ok : List (QE ℝ) → Prop} {n : Nat} {poly : Poly ℝ} {s s1 s2 s' : St ℝ} {vs : List Nat} {V : Nat → Nat}
  {cell fuel : Nat} {rz : Bool} {z : Pt}

/-- Two cells meet in the point. -/
def Tied (pts : Nat → ℝ × ℝ) (n : Nat) (z : Pt) : Prop := ∃ p r, p ≠ r ∧ Nearest pts n p z ∧ Nearest pts n r z

namespace Finish

variable (F : Finish pts q ok n poly rz s s1 s2 s' vs V cell) (hv1 : s1.verts = s.verts)
include F

/-- At a corner between two cells a border edge without a length leads from the corner to the end of an edge. -/
theorem tied {k : Nat} (hk : k < poly.points.length) (ht : Tied pts n (corner poly.points k)) :
    ∃ i, 0 < i ∧ i + 1 < vs.length ∧ V i = k ∧ hd s1.d (V i) = none ∧ (hd s1.d (V (i + 1))).isSome ∧ place s1.d (V i) = corner poly.points k ∧
      place s1.d (V (i + 1)) = corner poly.points k := by
  have B := F.B
  obtain ⟨L, hI⟩ := reach_inv B.spec B.reach
  obtain ⟨p, r, hpr, hp, hr⟩ := ht
  have hon : OnBoundary poly.points (corner poly.points k) := ⟨k, hk, between_left _ _⟩
  obtain ⟨f, t, a, b, hE, _, hx⟩ := B.crossing hon hpr hp hr
  obtain ⟨j, hj, g1, g2, _⟩ := B.start_hd hE.lt hx hon
  obtain ⟨m1, m2⟩ := F.corner_vs hk
  obtain ⟨i, hi, hV⟩ := F.mem_vs.mp m1
  have e : place s1.d (V i) = corner poly.points k := by
    have := (B.mem hi).2
    rw [hV, m2, Option.some.injEq] at this
    rw [hV]
    exact this.symm
  have hn : hd s1.d (V i) = none := by
    rcases B.kind hi with h | ⟨_, h, _⟩
    · exact h.1
    · have := hI.dinv.vcnt
      omega
  rcases Nat.lt_trichotomy i j with h | h | h
  · obtain ⟨t1, rfl, _, t2, _⟩ := B.tie h hj (e.trans g2.symm)
    exact ⟨i, t1, hj, hV, hn, t2, e, g2⟩
  · subst h
    rw [hn] at g1; cases g1
  · obtain ⟨_, _, t1, _⟩ := B.tie h hi (g2.trans e.symm)
    rw [g1] at t1; cases t1

include hv1 in
/-- The vertices on the border. -/
theorem at_border {v : Nat} (hv : v ∈ s2.verts) (hz : (s1.d.vs v).pos = some z) (hb : OnBoundary poly.points z) : ∃ j < vs.length, V j = v ∧ place s1.d (V j) = z := by
  rw [F.verts2, List.mem_append] at hv
  rcases hv with h | h
  · obtain ⟨j, hj, rfl⟩ := F.mem_vs.mp h
    have := (F.B.mem hj).2
    rw [hz, Option.some.injEq] at this
    exact ⟨j, hj, rfl, this.symm⟩
  · obtain ⟨k1, y, k2, k3, _⟩ := (F.mem_keep hv1).mp h
    rw [F.pos_sweep k1, k2, Option.some.injEq] at hz
    rw [hz] at k3
    exact absurd k3 hb.not_inside

end Finish

/-- C100: without the clean-up there are exactly two vertices at a corner between two cells, joined by a border edge of length zero; at the first two half-edges
start, at the second three.  At a corner in only one cell there is exactly one vertex. -/
theorem C100_corners (hF : FitsCorners pts n poly) (hd : Distinct pts n) (hq : q.Spec evLt ok) (hn : 0 < n)
    (h : createDiagram pts q n fuel poly false (initSt poly) = .ok ((), s')) (hz : z ∈ poly.points) :
    (Tied pts n z → z ≠ corner poly.points 0 ∧ ∃ v w e t, v ≠ w ∧ (∀ u, (u ∈ s'.verts ∧ (s'.d.vs u).pos = some z) ↔ u = v ∨ u = w) ∧
      e ∈ s'.edges ∧ (s'.d.he e).twin = some t ∧ (s'.d.he e).origin = .vtx v ∧ (s'.d.he t).origin = .vtx w ∧ (s'.d.he t).incident = none ∧
      (s'.d.vs v).conn.length = 2 ∧ (s'.d.vs w).conn.length = 3) ∧
    (¬ Tied pts n z → ∃! v, v ∈ s'.verts ∧ (s'.d.vs v).pos = some z) := by
  obtain ⟨s, s1, s2, vs, V, cell, F, hv1⟩ := create_finish_verts hF hd hq hn h
  have B := F.B
  obtain ⟨L, hI⟩ := reach_inv B.spec B.reach
  have hpos := F.pos_at
  have hcu := F.cu
  simp only [Bool.false_eq_true, if_false] at hcu
  have e1 : s'.d = s2.d := by rw [hcu]
  have e2 : s'.verts = s2.verts := by rw [hcu]
  have e3 : s'.edges = s2.edges := by rw [hcu]
  rw [e1] at hpos ⊢
  rw [e2, e3]
  obtain ⟨k, hk, e⟩ := List.getElem_of_mem hz
  rw [← corner_eq hk] at e
  have hon : OnBoundary poly.points z := ⟨k, hk, by rw [← e]; exact between_left _ _⟩
  have hvs : ∀ {j}, j < vs.length → V j ∈ s2.verts := fun hj => by
    rw [F.verts2]
    exact List.mem_append_left _ (F.mem_vs.mpr ⟨_, hj, rfl⟩)
  constructor
  · intro ht
    refine ⟨?_, ?_⟩
    · rintro rfl
      obtain ⟨p, r, hpr, h1, h2⟩ := ht
      exact hpr (hF.first p r h1 h2)
    · rw [← e] at ht
      obtain ⟨i, i0, hi, hV, h1, h2, h3, h4⟩ := F.tied hk ht
      have hi' : i < vs.length := by omega
      obtain ⟨b1, b2, _⟩ := B.border hi'
      have hp1 : (s2.d.vs (V i)).pos = some z := by rw [hpos, (B.mem hi').2, h3, e]
      have hp2 : (s2.d.vs (V (i + 1))).pos = some z := by rw [hpos, (B.mem hi).2, h4, e]
      refine ⟨V i, V (i + 1), s1.d.heCnt + 2 * i + 1, s1.d.heCnt + 2 * i, fun hh => ?_, fun u => ⟨?_, ?_⟩, ?_, b1, (B.fp.binv.newE i hi').2.1, (B.fp.binv.newT i hi').2.1, b2, ?_, ?_⟩
      · have := B.fp.pre.inj _ hi' _ hi hh
        omega
      · rintro ⟨u1, u2⟩
        rw [hpos] at u2
        obtain ⟨j, hj, rfl, hp⟩ := F.at_border hv1 u1 u2 hon
        rcases Nat.lt_trichotomy i j with h | h | h
        · obtain ⟨_, rfl, _⟩ := B.tie h hj (by rw [hp, h3, e])
          exact Or.inr rfl
        · exact Or.inl (by rw [h])
        · obtain ⟨_, _, _, t1, _⟩ := B.tie h hi' (by rw [hp, h3, e])
          rw [h1] at t1; cases t1
      · rintro (rfl | rfl)
        · exact ⟨hvs hi', hp1⟩
        · exact ⟨hvs hi, hp2⟩
      · rw [F.edges]
        exact List.mem_append_right _ (List.mem_map.mpr ⟨i, List.mem_range.mpr hi', rfl⟩)
      · obtain ⟨_, _, h | h⟩ := F.degree2 hv1 (hvs hi')
        · exact h.2.2
        · omega
      · obtain ⟨_, _, h | h⟩ := F.degree2 hv1 (hvs hi)
        · rcases B.kind hi with h5 | ⟨_, h5, _⟩
          · rw [h5.1] at h2; cases h2
          · have := hI.dinv.vcnt
            omega
        · exact h.2.1
  · intro ht
    have key : ∀ {i j}, i < j → j < vs.length → place s1.d (V i) = z → place s1.d (V j) = z → False := by
      intro i j hij hj h1 h2
      obtain ⟨_, _, _, t1, _⟩ := B.tie hij hj (h1.trans h2.symm)
      rcases B.kind hj with ⟨g1, _⟩ | ⟨_, _, f, _, g3, _, g5⟩
      · rw [g1] at t1; cases t1
      · obtain ⟨t, a, b, hE, n1, n2⟩ := B.near_two g3 g5
        rw [h2] at n1 n2
        exact ht ⟨a, b, hE.ne hI.dinv, n1, n2⟩
    obtain ⟨m1, m2⟩ := F.corner_mem hk
    refine ⟨k, ⟨m1, by rw [hpos, m2, e]⟩, fun u ⟨u1, u2⟩ => ?_⟩
    rw [hpos] at u2
    obtain ⟨j, hj, rfl, hp⟩ := F.at_border hv1 u1 u2 hon
    obtain ⟨i, hi, hV, hp'⟩ := F.at_border hv1 m1 (by rw [m2, e]) hon
    rw [← hV]
    rcases Nat.lt_trichotomy i j with h | h | h
    · exact (key h hj hp' hp).elim
    · rw [h]
    · exact (key h hi hp hp').elim

/-- C101: the clean-up has no effect exactly if no more than three cells meet in any point inside the polygon and no corner is between two cells. -/
theorem C101_effect (hF : FitsCorners pts n poly) (hd : Distinct pts n) (hq : q.Spec evLt ok) (hn : 0 < n) (hf : 7 * n < fuel) :
    createDiagram pts q n fuel poly true (initSt poly) = createDiagram pts q n fuel poly false (initSt poly) ↔ ThreeMeet pts n poly ∧ NoTies pts n poly := by
  refine ⟨fun heq => ?_, fun h => C75_cleanup_no_effect hF hd hq hn hf h.1 h.2⟩
  obtain ⟨s0, s', h0, h1, _⟩ := C74_cleanup_succeeds (fuel := fuel) hF hd hq hn hf
  have e : s' = s0 := by
    rw [h0, h1, Except.ok.injEq, Prod.mk.injEq] at heq
    exact heq.2
  subst e
  obtain ⟨_, v2, v3⟩ := C88_final_vertices hF hd hq hn h1
  obtain ⟨_, v3⟩ := v3 rfl
  constructor
  · intro z a b c d hz hnd ha hb hc hd'
    have hne : a ≠ b ∧ a ≠ c ∧ b ≠ c := by
      simp only [List.nodup_cons, List.mem_cons, List.not_mem_nil, or_false, not_or] at hnd
      exact ⟨hnd.1.1, hnd.1.2.1, hnd.2.1.1⟩
    have hdv : DiagramVertex pts n poly z := Or.inr (Or.inr ⟨hz, a, b, c, hne.1, hne.2.2, hne.2.1, ha, hb, hc⟩)
    obtain ⟨v, hv, hvz⟩ := v2 z hdv
    obtain ⟨s, s1, s2, vs, V, cell, F, hv1⟩ := create_finish_verts hF hd hq hn h1
    have hstart : ∀ p, Nearest pts n p z → ∃ f ∈ (s'.d.vs v).conn, (s'.d.he f).incident = some p := by
      intro p hp
      obtain ⟨f, hf, hfz⟩ := (F.extreme_starts (mid_of_cell hF hd hz.closed hp).choose_spec).mp (vertex_extreme hF hd hdv ⟨hz.closed, hp⟩)
      obtain ⟨l1, l2⟩ := F.live_iff.mpr hf
      obtain ⟨w, w1, w2⟩ := (F.ends hf).1
      rw [hfz] at w2
      obtain ⟨t, t1, t2, t3, t4, t5, G, hg1⟩ := create_finish_verts hF hd hq hn h0
      obtain ⟨u, u1, u2⟩ := G.org_listed hg1 l1
      have hw : w ∈ s'.verts := by
        rw [w1, Org.vtx.injEq] at u2
        have hcu := G.cu
        simp only [Bool.false_eq_true, if_false] at hcu
        rw [hcu, u2]
        exact u1
      have := v3 w hw v hv (w2.trans hvz.symm)
      subst this
      exact ⟨f, (((C90_connected hF hd hq hn h0).1 w hw).2 f).mpr ⟨l1, w1⟩, l2⟩
    choose! g g1 g2 using hstart
    have hinj : ∀ p r, Nearest pts n p z → Nearest pts n r z → p ≠ r → g p ≠ g r := by
      intro p r hp hr hpr hh
      have := g2 p hp
      rw [hh, g2 r hr, Option.some.injEq] at this
      exact hpr this.symm
    simp only [List.nodup_cons, List.mem_cons, List.not_mem_nil, or_false, not_or, List.nodup_nil, not_false_eq_true, and_true] at hnd
    obtain ⟨⟨n1, n2, n3⟩, ⟨n4, n5⟩, n6⟩ := hnd
    have hsub : [g a, g b, g c, g d] ⊆ (s'.d.vs v).conn := by
      intro f hf
      simp only [List.mem_cons, List.not_mem_nil, or_false] at hf
      rcases hf with rfl | rfl | rfl | rfl
      · exact g1 a ha
      · exact g1 b hb
      · exact g1 c hc
      · exact g1 d hd'
    have hnd : [g a, g b, g c, g d].Nodup := by
      simp only [List.nodup_cons, List.mem_cons, List.not_mem_nil, or_false, not_or, List.nodup_nil, not_false_eq_true, and_true]
      exact ⟨⟨hinj a b ha hb n1, hinj a c ha hc n2, hinj a d ha hd' n3⟩, ⟨hinj b c hb hc n4, hinj b d hb hd' n5⟩, hinj c d hc hd' n6⟩
    have h4 := (List.subperm_of_subset hnd hsub).length_le
    obtain ⟨_, _, k, _⟩ := (C90_degree hF hd hq hn h0).1 v hv
    simp only [List.length_cons, List.length_nil] at h4
    rcases k with ⟨k, _⟩ | k <;> omega
  · intro k hk p r hp hr
    by_contra hpr
    have hz : corner poly.points k ∈ poly.points := by
      rw [corner_eq hk]
      exact List.getElem_mem hk
    obtain ⟨_, v, w, _, _, hvw, hu, _⟩ := (C100_corners hF hd hq hn h0 hz).1 ⟨p, r, hpr, hp, hr⟩
    obtain ⟨a1, a2⟩ := (hu v).mpr (Or.inl rfl)
    obtain ⟨b1, b2⟩ := (hu w).mpr (Or.inr rfl)
    exact hvw (v3 v a1 w b1 (a2.trans b2.symm))

/-- Two sites whose bisector is a diagonal of the box from `(0, 100)` to `(4, 104)`. -/
noncomputable def diag2 : Nat → ℝ × ℝ := fun i => if i = 0 then (1, 102) else (2, 101)

theorem diag2_distinct : Distinct diag2 2 := by
  intro i hi j hj h
  rcases (by omega : i = 0 ∨ i = 1) with rfl | rfl <;> rcases (by omega : j = 0 ∨ j = 1) with rfl | rfl <;> first | rfl | (exfalso; revert h; norm_num [diag2])

theorem diag2_border {poly : Poly ℝ} (hp : boundingBox 0 4 100 104 = .ok poly) : FitsBorder diag2 2 poly := by
  have hnv : ∀ z, ¬ VoronoiVertex diag2 2 z := by
    rintro z ⟨a, b, c, h1, h2, h3, ha, hb, hc⟩
    have := ha.1
    have := hb.1
    have := hc.1
    omega
  refine fits_border_box diag2_distinct (by norm_num) (by norm_num) (by norm_num) (by norm_num) ?_ (fun z hz => absurd hz (hnv z)) (fun _ _ z _ hz => absurd hz (hnv z)) ?_ hp
  · intro p hp
    rcases (by omega : p = 0 ∨ p = 1) with rfl | rfl <;> norm_num [diag2]
  · intro p r h1 h2
    have hp := h1.1
    have hr := h2.1
    have k0 := h1.2 0 (by norm_num)
    have m0 := h2.2 0 (by norm_num)
    rcases (by omega : p = 0 ∨ p = 1) with rfl | rfl <;> rcases (by omega : r = 0 ∨ r = 1) with rfl | rfl <;>
      first
      | rfl
      | (exfalso; revert k0 m0; norm_num [diag2, sqDist])

theorem diag2_tied : Tied diag2 2 (4, 104) := by
  refine ⟨0, 1, by norm_num, ⟨by norm_num, fun r hr => ?_⟩, ⟨by norm_num, fun r hr => ?_⟩⟩ <;>
    rcases (by omega : r = 0 ∨ r = 1) with rfl | rfl <;> norm_num [diag2, sqDist]

/-- The hypotheses can be met with a corner between two cells: the clean-up has an effect. Without it there are two vertices at the corner and six in all,
with it one. -/
example : ∃ poly s0 s', boundingBox (0 : ℝ) 4 100 104 = .ok poly ∧ createDiagram diag2 heapq 2 15 poly false (initSt poly) = .ok ((), s0) ∧
    createDiagram diag2 heapq 2 15 poly true (initSt poly) = .ok ((), s') ∧ s0 ≠ s' ∧ s0.verts.length = 6 ∧
    (∃ v w, v ≠ w ∧ ∀ u, (u ∈ s0.verts ∧ (s0.d.vs u).pos = some (4, 104)) ↔ u = v ∨ u = w) ∧ ∃! v, v ∈ s'.verts ∧ (s'.d.vs v).pos = some (4, 104) := by
  have hp := box_points (show (0 : ℝ) < 4 by norm_num) (show (100 : ℝ) < 104 by norm_num)
  have hF := diag2_border hp
  obtain ⟨s0, s', h0, h1, _⟩ := C74_cleanup_succeeds (fuel := 15) hF.toFitsCorners diag2_distinct C45_event_queue (by norm_num) (by norm_num)
  have hmem : ((4, 104) : Pt) ∈ [((0, 104) : Pt), (4, 104), (4, 100), (0, 100)] := by simp
  refine ⟨_, s0, s', hp, h0, h1, ?_, ?_, ?_, ?_⟩
  · rintro rfl
    have := ((C101_effect hF.toFitsCorners diag2_distinct C45_event_queue (by norm_num) (fuel := 15) (by norm_num)).mp (h1.trans h0.symm)).2 1 (by simp)
    obtain ⟨p, r, hpr, k1, k2⟩ := diag2_tied
    exact hpr (this p r k1 k2)
  · have := (C93_counts hF.toFitsCorners diag2_distinct C45_event_queue (by norm_num) h0).1
    rw [C93_cells.2 hF] at this
    simpa using this
  · obtain ⟨_, v, w, _, _, h2, h3, _⟩ := (C100_corners hF.toFitsCorners diag2_distinct C45_event_queue (by norm_num) h0 hmem).1 diag2_tied
    exact ⟨v, w, h2, h3⟩
  · obtain ⟨_, v2, v3⟩ := C88_final_vertices hF.toFitsCorners diag2_distinct C45_event_queue (by norm_num) h1
    obtain ⟨v, k1, k2⟩ := v2 (4, 104) (Or.inl hmem)
    exact ⟨v, ⟨k1, k2⟩, fun w hw => (v3 rfl).2 w hw.1 v k1 (hw.2.trans k2.symm)⟩

end Foronoi
