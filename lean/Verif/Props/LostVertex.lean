import Verif.Props.Ties

/-!
# C112: where the clean-up loses a vertex that is still in use
-/

namespace Foronoi

open scoped List

variable {pts : Nat → ℝ × ℝ} {q : PQ (QE ℝ)} {ok : List (QE ℝ) → Prop} {n : Nat} {poly : Poly ℝ} {s s1 s2 s' : St ℝ} {vs : List Nat} {V : Nat → Nat}
  {cell fuel : Nat} {rz : Bool} {z : Pt}

/-- Four cells meet in the point. -/
def FourMeet (pts : Nat → ℝ × ℝ) (n : Nat) (z : Pt) : Prop :=
  ∃ a b c d, [a, b, c, d].Nodup ∧ Nearest pts n a z ∧ Nearest pts n b z ∧ Nearest pts n c z ∧ Nearest pts n d z

theorem FourMeet.vertex (h : FourMeet pts n z) : VoronoiVertex pts n z := by
  obtain ⟨a, b, c, d, hnd, ha, hb, hc, _⟩ := h
  simp only [List.nodup_cons, List.mem_cons, List.not_mem_nil, or_false, not_or] at hnd
  exact ⟨a, b, c, hnd.1.1, hnd.2.1.1, hnd.1.2.1, ha, hb, hc⟩

/-- Every cell at a Voronoi vertex has a half-edge that starts there. -/
theorem every_corner (hd : Distinct pts n) (hq : q.Spec evLt ok) (h : Reach pts q n poly s) (hend : s.queue = []) (hz : VoronoiVertex pts n z) {p : Nat}
    (hp : Nearest pts n p z) : ∃ v ∈ s.verts, ∃ f, Corner s z p v f := by
  obtain ⟨L, hI⟩ := reach_inv hq h
  obtain ⟨v, hv, hvz⟩ := (C60_vertices hd hq h hend z).mp hz
  obtain ⟨_, _, p', x, r, e1, e2, e3, hk⟩ := hI.dinv.vts v hv
  have hc : Corner s z x v e1 := ⟨hk.lt.1, hk.org.1, hk.inc.1, hvz⟩
  obtain ⟨w, f, hw⟩ := around_circle (pts := pts) (n := n) (z := z) (P := fun r => ∃ w g, Corner s z r w g) (by
    intro a b hab ha hb _ hno
    obtain ⟨u, _, g1, _, c2⟩ := chord_corners hd hq h hend hz hab ha hb hno
    exact ⟨u, g1, c2⟩) _ x p le_rfl (corner_nearest hd hq h hc) hp ⟨v, e1, hc⟩
  exact ⟨w, (hI.dinv.ovt f hw.lt w hw.st).1, f, hw⟩

/-- Where four cells meet the oldest vertex is the start of an edge of length zero. -/
theorem oldest_climbs (hd : Distinct pts n) (hq : q.Spec evLt ok) (h : Reach pts q n poly s) (hend : s.queue = []) (hz : FourMeet pts n z) :
    ∃ v ∈ s.verts, (s.d.vs v).pos = some z ∧ (∃ w, Climb s z v w) ∧ ∀ w, ¬ Climb s z w v := by
  classical
  obtain ⟨L, hI⟩ := reach_inv hq h
  obtain ⟨v, hv⟩ : ∃ v, v ∈ s.verts ∧ (s.d.vs v).pos = some z := (C60_vertices hd hq h hend z).mp hz.vertex
  have hex : ∃ v, v ∈ s.verts ∧ (s.d.vs v).pos = some z := ⟨v, hv⟩
  obtain ⟨v0, h0, hmin⟩ : ∃ v0, (v0 ∈ s.verts ∧ (s.d.vs v0).pos = some z) ∧ ∀ w ∈ s.verts, (s.d.vs w).pos = some z → v0 ≤ w :=
    ⟨Nat.find hex, Nat.find_spec hex, fun w h1 h2 => Nat.find_min' hex ⟨h1, h2⟩⟩
  obtain ⟨_, _, hZ0⟩ := reach_zero hd.injOn hq h
  obtain ⟨l, _, hZ⟩ := hZ0.resolve_left (by
    intro h1
    obtain ⟨_, _, p, x, r, e1, e2, e3, hk⟩ := hI.dinv.vts v hv.1
    obtain ⟨t, o, hE⟩ := Corner.edg hq h (⟨hk.lt.1, hk.org.1, hk.inc.1, hv.2⟩ : Corner s z x v e1)
    obtain ⟨k, hk⟩ := Option.isSome_iff_exists.mp (hE.site_lt hI).2
    have := (hI.sinv.nmLt _ k hk).1
    omega)
  have hno : ∀ w, ¬ Climb s z w v0 := by
    rintro w ⟨f, t, i, j, c1, c2, c3, c4, c5, c6⟩
    have := hZ.ord _ _ _ _ _ _ c1 c2 c3 c6
    have := hmin w (hI.dinv.ovt f c1.lt w c2).1 c4
    omega
  refine ⟨v0, h0.1, h0.2, ?_, hno⟩
  obtain ⟨w, hw, hwz, hne⟩ : ∃ w ∈ s.verts, (s.d.vs w).pos = some z ∧ w ≠ v0 := by
    by_contra hcon
    push Not at hcon
    have hall : ∀ p, Nearest pts n p z → ∃ f ∈ (s.d.vs v0).conn, (s.d.he f).incident = some p := by
      intro p hp
      obtain ⟨w, hw, f, hf⟩ := every_corner hd hq h hend hz.vertex hp
      have := hcon w hw hf.pos
      subst this
      exact ⟨f, (hI.dinv.ovt f hf.lt w hf.st).2, hf.inc⟩
    choose! g g1 g2 using hall
    obtain ⟨a, b, c, d, hnd, ha, hb, hc, hd'⟩ := hz
    have hinj : ∀ p r, Nearest pts n p z → Nearest pts n r z → g p = g r → p = r := by
      intro p r hp hr hh
      have := g2 p hp
      rw [hh, g2 r hr, Option.some.injEq] at this
      exact this.symm
    have hsub : ([a, b, c, d].map g) ⊆ (s.d.vs v0).conn := by
      intro f hf
      simp only [List.map_cons, List.map_nil, List.mem_cons, List.not_mem_nil, or_false] at hf
      rcases hf with rfl | rfl | rfl | rfl
      exacts [g1 a ha, g1 b hb, g1 c hc, g1 d hd']
    have hnd' : ([a, b, c, d].map g).Nodup := by
      refine List.Nodup.map_on ?_ hnd
      have hnear : ∀ x ∈ [a, b, c, d], Nearest pts n x z := by
        intro x hx
        simp only [List.mem_cons, List.not_mem_nil, or_false] at hx
        rcases hx with rfl | rfl | rfl | rfl <;> assumption
      exact fun x hx y hy => hinj x y (hnear x hx) (hnear y hy)
    have := (hnd'.subperm hsub).length_le
    obtain ⟨_, _, p, x, r, e1, e2, e3, hk⟩ := hI.dinv.vts v0 h0.1
    rcases hk.conn with e | e <;> rw [e] at this <;> simp at this
  rcases Relation.ReflTransGen.cases_head (place_linked hd hq h hend h0.1 hw h0.2 hwz) with e | ⟨y, hy, _⟩
  · exact absurd e.symm hne
  · obtain ⟨f, t, i, j, h1, h2, h3, h4, h5⟩ := hy
    rcases hZ.both _ _ _ _ _ _ _ h1 h2 h3 h4 h5 with h6 | h6
    · exact ⟨y, f, t, i, j, h1, h2, h3, h4, h5, h6⟩
    · exact absurd ⟨t, f, j, i, h1.symm hI.dinv, h3, h2, h5, h4, h6⟩ (hno y)

namespace Finish

variable (F : Finish pts q ok n poly true s s1 s2 s' vs V cell) (hv1 : s1.verts = s.verts)
include F

theorem cuT : CU s2.edges s2 s'.edges { s' with edges := s2.edges, log := s2.log } := by
  have := F.cu
  simpa using this

include hv1 in
theorem alive2 {f : Nat} (hf : EdgesOf s2.d s2.edges f) : Alive s2.d f := by
  obtain ⟨v, h1, h2⟩ := F.org2 hv1 hf
  obtain ⟨z, h3, _⟩ := F.degree2 hv1 h1
  obtain ⟨h4, h5⟩ := F.conn2 hv1 h1
  exact ⟨v, z, h2, by rw [F.B.fp.binv.pos]; exact h3, (h5 f).mpr ⟨hf, h2⟩, h4, fun c hc => ((h5 c).mp hc).2⟩

include hv1 in
/-- No half-edge is left at a corner whose vertex is removed. -/
theorem corner_clear {j : Nat} (hj : j < vs.length) (hp : place s1.d (V j) = place s1.d (V (j + 1))) {f : Nat} (hf : HalfEdgeOf s'.d s'.edges f) :
    (s'.d.he f).origin ≠ .vtx (V j) := by
  have B := F.B
  obtain ⟨j0, j1, hn, hs, ⟨k, _, hk, hV, _⟩, _⟩ := B.flat_border hj hp
  obtain ⟨he, hfl⟩ := F.flat_edge hj hp
  have hf2 : EdgesOf s2.d s'.edges f := by
    unfold HalfEdgeOf at hf
    simp only [F.twin] at hf
    exact hf
  have hmem : V j ∈ s2.verts := by
    rw [F.verts2]
    exact List.mem_append_left _ (F.mem_vs.mpr ⟨j, hj, rfl⟩)
  have hcn : (s2.d.vs (V j)).conn = [s1.d.heCnt + 2 * (j - 1), s1.d.heCnt + 2 * j + 1] := by
    obtain ⟨_, _, ⟨_, _, hl⟩ | ⟨h, _⟩⟩ := F.degree2 hv1 hmem
    · have hh := B.fp.binv.head j hj
      rw [hn, if_neg (by omega), if_pos (by omega)] at hh
      unfold hd at hh
      have hE := (B.fp.binv.connE j hj).1
      match hc : (s2.d.vs (V j)).conn, hl, hh, hE with
      | [x, y], _, hh, hE =>
        simp only [List.head?_cons, Option.none_or, Option.some.injEq] at hh
        simp only [List.mem_cons, List.not_mem_nil, or_false] at hE
        subst hh
        rcases hE with hE | hE
        · omega
        · rw [hE]
    · omega
  refine F.cuT.clear (F.safe hv1).dist _ he hfl (V j) _ (B.fp.binv.newE j hj).2.1 hcn ?_ f (F.alive2 hv1 (hf2.sub F.cuT.sub.subset)) fun _ => hf2
  intro g hg hgl t ht ho
  rcases F.flat_at hg hgl with ⟨_, t', i, j', v, w, z, hA⟩ | ⟨i, hi, rfl, hp'⟩
  · rw [B.twin2 hA.edg.lt, hA.edg.tw, Option.some.injEq] at ht
    subst ht
    rw [hA.torg2, Org.vtx.injEq] at ho
    exact F.fresh hj hA.wmem ho.symm
  · rw [(B.border hi).1, Option.some.injEq] at ht
    subst ht
    rw [(B.fp.binv.newT i hi).2.1, Org.vtx.injEq] at ho
    obtain ⟨_, _, _, hs', _⟩ := B.flat_border hi hp'
    rw [ho, hn] at hs'
    cases hs'

include hv1 in
/-- Where four cells meet a half-edge is left at a vertex that is removed. -/
theorem four_lost (hz : FourMeet pts n z) (hi : StrictlyInside poly.points z) :
    ∃ f, HalfEdgeOf s'.d s'.edges f ∧ ∃ v, (s'.d.he f).origin = .vtx v ∧ (s'.d.vs v).pos = some z ∧ v ∉ s'.verts := by
  have B := F.B
  obtain ⟨L, hI⟩ := reach_inv B.spec B.reach
  obtain ⟨v, hv, hvz, hcl, hno⟩ := oldest_climbs B.dist B.spec B.reach B.done hz
  obtain ⟨e, he, hfl, ho⟩ := (F.flat_start hv hvz hi).mpr hcl
  have hkeep : v ∈ keepInside poly s1.d.vs s1.verts := (F.mem_keep hv1).mpr ⟨hv, z, hvz, hi, hz.vertex⟩
  have hmem : v ∈ s2.verts := by rw [F.verts2]; exact List.mem_append_right _ hkeep
  obtain ⟨hpc, hlt, p, x, r, e1, e2, e3, hk⟩ := hI.dinv.vts v hv
  have hlen : (s.d.vs v).conn.length = 3 := by rcases hk.conn with e | e <;> rw [e] <;> rfl
  have h1 : (s1.d.vs v).conn = (s.d.vs v).conn :=
    (B.clip.keeps.sub v hlt).eq_of_length ((F.inner_conn hv1 hkeep).2.1.trans hlen.symm)
  have h2 : (s2.d.vs v).conn = (s.d.vs v).conn := by
    obtain ⟨l, e, _, _⟩ := B.fp.binv.conn v
    obtain ⟨_, _, ⟨h, _⟩ | ⟨_, h, _⟩⟩ := F.degree2 hv1 hmem
    · omega
    · rw [e, h1, List.length_append, hlen] at h
      have : l = [] := List.eq_nil_of_length_eq_zero (by omega)
      rw [e, this, List.append_nil, h1]
  obtain ⟨he1, t, i, j, v', w, z', hA⟩ := (F.flat_at he hfl).resolve_right (by
    rintro ⟨j, hj, rfl, hh⟩
    rw [(F.flat_corner hj hh).1, Org.vtx.injEq] at ho
    exact F.fresh hj hv ho)
  have := hA.org2
  rw [ho, Org.vtx.injEq] at this
  subst this
  have hlast := F.flat_last he1 hA
  obtain ⟨a, b, hab⟩ : ∃ a b, (s2.d.vs v).conn = [a, b, e] := by
    rw [h2]
    unfold LastAt at hlast
    match hc : (s.d.vs v).conn, hlen, hlast with
    | [x, y, u], _, hl =>
      simp only [List.getLast?_cons_cons, List.getLast?_singleton, Option.some.injEq] at hl
      exact ⟨x, y, by rw [hl]⟩
  have hend : NoFlatEnd s2.d s2.edges v := by
    intro g hg hgl t' ht' hto
    rcases F.flat_at hg hgl with ⟨g1, t1, i1, j1, v1, w1, z1, hB⟩ | ⟨i1, hi1, rfl, _⟩
    · rw [B.twin2 hB.edg.lt, hB.edg.tw, Option.some.injEq] at ht'
      subst ht'
      rw [hB.torg2, Org.vtx.injEq] at hto
      subst hto
      have hz1 := hB.tpos
      rw [hvz, Option.some.injEq] at hz1
      subst hz1
      exact hno v1 ⟨g, t1, i1, j1, hB.edg, hB.org, hB.torg, hB.pos, hB.tpos, F.flat_last g1 hB⟩
    · rw [(B.border hi1).1, Option.some.injEq] at ht'
      subst ht'
      rw [(B.fp.binv.newT i1 hi1).2.1, Org.vtx.injEq] at hto
      rcases Nat.lt_or_ge (i1 + 1) vs.length with h | h
      · exact F.fresh h hv hto
      · rw [show i1 + 1 = vs.length by omega, B.fp.V_end] at hto
        exact F.fresh (by omega) hv hto
  obtain ⟨hnd, hconn⟩ := F.conn2 hv1 hmem
  have hb : EdgesOf s2.d s2.edges b ∧ (s2.d.he b).origin = .vtx v := (hconn b).mp (by rw [hab]; simp)
  have hbe : b ≠ e := by
    rw [hab] at hnd
    simp only [List.nodup_cons, List.mem_cons, List.not_mem_nil, or_false, not_or] at hnd
    exact hnd.2.1
  have hlost : (s'.d.he b).origin = .vtx v := F.cuT.lost (F.safe hv1).dist e he hfl v a b ho hab hend
  refine ⟨b, ?_, v, hlost, by rw [F.pos_at, F.pos_sweep hv, hvz], ?_⟩
  · have hkept : ∀ g ∈ s2.edges, ¬ Flat s2.d g → g ∈ s'.edges := by
      intro g hg hgl
      refine (F.cuT.kept g hg).mpr fun t' ht' heq => hgl fun u hu => ?_
      rw [ht', Option.some.injEq] at hu
      rw [← hu]; exact heq
    unfold HalfEdgeOf
    simp only [F.twin]
    rcases hb.1 with h | ⟨g, hg, ht⟩
    · exact Or.inl (hkept b h fun hbl => hbe ((F.safe hv1).dist b h e he hbl hfl (hb.2.trans ho.symm)))
    · exact Or.inr ⟨g, hkept g hg fun hgl => hend g hg hgl b ht hb.2, ht⟩
  · intro hh
    exact ((F.cuT.left (F.safe hv1).dist (F.nodup2 hv1) v).mp hh).2 e he hfl ho

end Finish

/-- C112: the clean-up leaves a half-edge at a vertex that is not in `vertices` any more exactly at those points inside the polygon where four or more cells
meet. -/
theorem C112_lost_where (hF : FitsCorners pts n poly) (hd : Distinct pts n) (hq : q.Spec evLt ok) (hn : 0 < n)
    (h : createDiagram pts q n fuel poly true (initSt poly) = .ok ((), s')) (z : Pt) :
    (∃ f, HalfEdgeOf s'.d s'.edges f ∧ ∃ v, (s'.d.he f).origin = .vtx v ∧ (s'.d.vs v).pos = some z ∧ v ∉ s'.verts) ↔
      StrictlyInside poly.points z ∧ FourMeet pts n z := by
  obtain ⟨s, s1, s2, vs, V, cell, F, hv1⟩ := create_finish_verts hF hd hq hn h
  have B := F.B
  obtain ⟨L, hI⟩ := reach_inv B.spec B.reach
  refine ⟨?_, fun ⟨hi, hz⟩ => F.four_lost hv1 hz hi⟩
  rintro ⟨f, hf, v, ho, hz, hv⟩
  obtain ⟨w, hw, ho'⟩ := F.org_listed hv1 hf
  rw [ho, Org.vtx.injEq] at ho'
  subst ho'
  obtain ⟨e, he, hfl, hev⟩ : ∃ e ∈ s2.edges, Flat s2.d e ∧ (s2.d.he e).origin = .vtx v := by
    by_contra hcon
    push Not at hcon
    exact hv ((F.cuT.left (F.safe hv1).dist (F.nodup2 hv1) v).mpr ⟨hw, hcon⟩)
  rcases F.flat_at he hfl with ⟨_, t, i, j, v', w', z', hA⟩ | ⟨j, hj, rfl, hp⟩
  · have := hA.org2
    rw [hev, Org.vtx.injEq] at this
    subst this
    rw [F.pos_at, F.pos_sweep hA.vmem, hA.pos, Option.some.injEq] at hz
    subst hz
    obtain ⟨k1, k2⟩ := F.flat_nodup hA
    exact ⟨k1, k2⟩
  · rw [(F.flat_corner hj hp).1, Org.vtx.injEq] at hev
    exact absurd ho (hev ▸ F.corner_clear hv1 hj hp hf)

/-- C112: with the clean-up every half-edge starts at a vertex in `vertices` exactly if no four cells meet in a point inside the polygon. -/
theorem C112_all_listed (hF : FitsCorners pts n poly) (hd : Distinct pts n) (hq : q.Spec evLt ok) (hn : 0 < n)
    (h : createDiagram pts q n fuel poly true (initSt poly) = .ok ((), s')) :
    (∀ f, HalfEdgeOf s'.d s'.edges f → ∃ v ∈ s'.verts, (s'.d.he f).origin = .vtx v) ↔ ThreeMeet pts n poly := by
  constructor
  · intro hall z a b c d hi hnd ha hb hc hd'
    obtain ⟨f, hf, v, h1, _, h2⟩ := (C112_lost_where hF hd hq hn h z).mpr ⟨hi, a, b, c, d, hnd, ha, hb, hc, hd'⟩
    obtain ⟨w, h3, h4⟩ := hall f hf
    rw [h1, Org.vtx.injEq] at h4
    exact h2 (h4 ▸ h3)
  · intro h3 f hf
    obtain ⟨s, s1, s2, vs, V, cell, F, hv1⟩ := create_finish_verts hF hd hq hn h
    obtain ⟨v, hv, ho⟩ := F.org_listed hv1 hf
    refine ⟨v, ?_, ho⟩
    by_contra hcon
    obtain ⟨z, hz, _⟩ := F.degree2 hv1 hv
    obtain ⟨hi, a, b, c, d, k1, k2, k3, k4, k5⟩ := (C112_lost_where hF hd hq hn h z).mp ⟨f, hf, v, ho, by rw [F.pos_at]; exact hz, hcon⟩
    exact h3 z a b c d hi k1 k2 k3 k4 k5

/-- The two cases occur: with four sites on a circle a vertex is lost, at the centre and nowhere else. -/
example : ∃ poly s', boundingBox (-3 : ℝ) 4 98 106 = .ok poly ∧ createDiagram square4 heapq 4 30 poly true (initSt poly) = .ok ((), s') ∧
    ∀ z, (∃ f, HalfEdgeOf s'.d s'.edges f ∧ ∃ v, (s'.d.he f).origin = .vtx v ∧ (s'.d.vs v).pos = some z ∧ v ∉ s'.verts) ↔ z = (0, 100) := by
  have hp := box_points (show (-3 : ℝ) < 4 by norm_num) (show (98 : ℝ) < 106 by norm_num)
  have hF := square4_border hp
  obtain ⟨_, s', _, h, _⟩ := C74_cleanup_succeeds (fuel := 30) hF.toFitsCorners square4_distinct C45_event_queue (by norm_num) (by norm_num)
  refine ⟨_, s', hp, h, fun z => ?_⟩
  rw [C112_lost_where hF.toFitsCorners square4_distinct C45_event_queue (by norm_num) h z]
  constructor
  · exact fun ⟨_, h⟩ => square4_vertex h.vertex
  · rintro rfl
    refine ⟨(box_inside (by norm_num) (by norm_num) _).mpr (by norm_num), 0, 1, 2, 3, by decide, ?_, ?_, ?_, ?_⟩ <;>
    · refine ⟨by norm_num, fun r hr => ?_⟩
      rcases (by omega : r = 0 ∨ r = 1 ∨ r = 2 ∨ r = 3) with rfl | rfl | rfl | rfl <;> norm_num [square4, sqDist]

end Foronoi
