import Verif.Props.Cells
import Verif.Props.CreateReal
import Verif.Proof.ZeroEdges

/-!
# The clean-up does not raise

If the sites fit the polygon, every edge of length zero that is left after clipping is the edge registered last at its start, which is a
vertex of the diagram.  So different edges of length zero start at different vertices, and none of these vertices is removed before its
turn.
-/

namespace Foronoi

open scoped List

variable {pts : Nat → ℝ × ℝ} {q : PQ (QE ℝ)} {ok : List (QE ℝ) → Prop} {n : Nat} {poly : Poly ℝ} {s s1 s2 s' : St ℝ} {vs : List Nat} {V : Nat → Nat} {cell : Nat}

/-- What is known of an edge of length zero after the sweep. -/
structure FlatAt (s s2 : St ℝ) (poly : Poly ℝ) (e t i j v w : Nat) (z : Pt) : Prop where
  edg : Edg s.d e t i j
  vmem : v ∈ s.verts
  wmem : w ∈ s.verts
  org : (s.d.he e).origin = .vtx v
  torg : (s.d.he t).origin = .vtx w
  pos : (s.d.vs v).pos = some z
  tpos : (s.d.vs w).pos = some z
  ins : inside poly.points z = some true
  org2 : (s2.d.he e).origin = .vtx v
  torg2 : (s2.d.he t).origin = .vtx w

namespace Finish

variable {rz : Bool} (F : Finish pts q ok n poly rz s s1 s2 s' vs V cell)
include F

/-- A border edge of length zero. -/
theorem flat_border {j : Nat} (hj : j < vs.length) (h : Flat s2.d (s1.d.heCnt + 2 * j) ∨ Flat s2.d (s1.d.heCnt + 2 * j + 1)) :
    place s1.d (V j) = place s1.d (V (j + 1)) := by
  obtain ⟨b1, b2, b3, b4, b5⟩ := F.B.border hj
  rcases h with h | h
  · have := h _ (F.B.fp.binv.newT j hj).1
    rw [b4, b5] at this
    exact (Option.some.inj this).symm
  · have := h _ b1
    rw [b4, b5] at this
    exact Option.some.inj this

/-- An edge of length zero is linked. -/
theorem flat_linked {f : Nat} (hf : EdgesOf s2.d s2.edges f) (hfl : Flat s2.d f) : CellLinked s s1 vs V cell f := by
  have B := F.B
  obtain ⟨L, hI⟩ := reach_inv B.spec B.reach
  have key : EdgesOf s.d s1.edges f → CellLinked s s1 vs V cell f := by
    intro h2
    have h3 := B.kept_lt h2
    obtain ⟨t, i, o, hE⟩ := B.edg h3
    exact Or.inl ⟨i, F.ofCell_iff.mpr ⟨hf, by rw [B.inc2 h3, hE.inc]⟩⟩
  rcases hf with hf | ⟨e, he, h2⟩
  · rw [F.edges] at hf
    rcases List.mem_append.mp hf with h | h
    · exact key (Or.inl h)
    · obtain ⟨j, hj, rfl⟩ := List.mem_map.mp h
      have hj := List.mem_range.mp hj
      obtain ⟨p, h1, _⟩ := B.labels F.hn hj
      exact Or.inl ⟨p, Or.inr ⟨j, hj, rfl, h1⟩⟩
  · rw [F.edges] at he
    rcases List.mem_append.mp he with h | h
    · have hel := hI.dinv.elt e (B.clip.sub.subset h)
      rw [B.twin2 hel] at h2
      exact key (Or.inr ⟨e, h, h2⟩)
    · obtain ⟨j, hj, rfl⟩ := List.mem_map.mp h
      have hj := List.mem_range.mp hj
      rw [(B.border hj).1, Option.some.injEq] at h2
      rw [← h2] at hfl ⊢
      exact Or.inr ⟨j, hj, rfl, F.flat_border hj (Or.inl hfl)⟩

/-- The ends of an edge of length zero. -/
theorem flat_at {e : Nat} (he : e ∈ s2.edges) (hfl : Flat s2.d e) : (e ∈ s1.edges ∧ ∃ t i j v w z, FlatAt s s2 poly e t i j v w z) ∨
    ∃ j < vs.length, e = s1.d.heCnt + 2 * j + 1 ∧ place s1.d (V j) = place s1.d (V (j + 1)) := by
  have B := F.B
  obtain ⟨L, hI⟩ := reach_inv B.spec B.reach
  have he1 : e ∈ s1.edges ∨ ∃ j < vs.length, e = s1.d.heCnt + 2 * j + 1 ∧ place s1.d (V j) = place s1.d (V (j + 1)) := by
    rw [F.edges] at he
    rcases List.mem_append.mp he with h | h
    · exact Or.inl h
    · obtain ⟨j, hj, rfl⟩ := List.mem_map.mp h
      have hj := List.mem_range.mp hj
      exact Or.inr ⟨j, hj, rfl, F.flat_border hj (Or.inr hfl)⟩
  refine he1.imp_left fun he1 => ⟨he1, ?_⟩
  have hel := hI.dinv.elt e (B.clip.sub.subset he1)
  obtain ⟨t, i, j, hE⟩ := B.edg hel
  have htl := (hE.symm hI.dinv).lt
  obtain ⟨g1, _⟩ := B.clip.good e he1
  obtain ⟨v, z, o1, o2, o3, _⟩ := g1
  have hz : opos s1.d e = some z := by rw [opos_vtx o1, o3]
  have hz' : opos s1.d t = some z := by
    rw [← B.opos2 htl, ← hfl t (by rw [B.twin2 hel, hE.tw]), B.opos2 hel, hz]
  have hnb : ¬ OnBoundary poly.points z := by
    intro hb
    obtain ⟨a, ha, a1, a2, _⟩ := B.start_hd hel hz hb
    obtain ⟨b, hb', b1, b2, _⟩ := B.start_hd htl hz' hb
    have : a = b := by
      rcases B.same ha hb' (a2.trans b2.symm) with h | ⟨h, _⟩ | ⟨_, h⟩
      · exact h
      · rw [a1] at h; cases h
      · rw [b1] at h; cases h
    subst this
    rw [a1, Option.some.injEq] at b1
    subst b1
    exact hE.ne hI.dinv (Option.some.inj (hE.inc.symm.trans hE.tinc))
  have hside : ∀ f < s.d.heCnt, opos s1.d f = some z → ∃ v ∈ s.verts, (s.d.he f).origin = .vtx v ∧ (s.d.vs v).pos = some z ∧
      (s2.d.he f).origin = .vtx v ∧ inside poly.points z = some true := by
    intro f hf h
    rcases B.start hf h with ⟨h1, ⟨v, h2, h3, h4⟩, _⟩ | ⟨h, _⟩
    · refine ⟨v, h2, h3, h4, by rw [B.fp.binv.org f (by rw [B.heCnt]; exact hf), h1, h3], ?_⟩
      rcases B.clip.org f (B.all hf) with ⟨_, p, h5, h6⟩ | ⟨_, v', _, h5, h6⟩
      · rw [opos_vtx h3, h4, Option.some.injEq] at h5
        subst h5; exact h6
      · rw [h1, h3, Org.vtx.injEq] at h6
        have := (hI.dinv.vts v h2).2.1
        omega
    · exact absurd h hnb
  obtain ⟨v, v1, v2, v3, v4, v5⟩ := hside e hel hz
  obtain ⟨w, w1, w2, w3, w4, _⟩ := hside t htl hz'
  exact ⟨t, i, j, v, w, z, hE, v1, w1, v2, w2, v3, w3, v5, v4, w4⟩

/-- It is registered last at its start. -/
theorem flat_last {e t i j v w : Nat} {z : Pt} (he : e ∈ s1.edges) (h : FlatAt s s2 poly e t i j v w z) : LastAt s.d v e := by
  have B := F.B
  obtain ⟨L, hI, h0 | ⟨l, _, hZ⟩⟩ := reach_zero B.dist.injOn B.spec B.reach
  · obtain ⟨k, hk⟩ := Option.isSome_iff_exists.mp (h.edg.site_lt hI).2
    have := (hI.sinv.nmLt _ k hk).1
    omega
  · rcases hZ.both e t i j v w z h.edg h.org h.torg h.pos h.tpos with h1 | h1
    · exact h1
    · exfalso
      obtain ⟨e', h2, h3⟩ := hZ.last w h.wmem
      unfold LastAt at h1 h3
      rw [h1, Option.some.injEq] at h3
      subst h3
      exact (hI.dinv.etw e h.edg.lt t h.edg.tw).mp (B.clip.sub.subset he) h2

/-- A border edge of length zero starts at a corner. -/
theorem flat_corner {j : Nat} (hj : j < vs.length) (h : place s1.d (V j) = place s1.d (V (j + 1))) :
    (s2.d.he (s1.d.heCnt + 2 * j + 1)).origin = .vtx (V j) ∧ V j < poly.points.length := by
  obtain ⟨_, _, _, _, ⟨k, _, h1, h2, _⟩, _⟩ := F.B.flat_border hj h
  exact ⟨(F.B.fp.binv.newE j hj).2.1, by omega⟩

theorem safe (hv : s1.verts = s.verts) : Safe s2.edges s2 := by
  have B := F.B
  obtain ⟨L, hI⟩ := reach_inv B.spec B.reach
  refine ⟨?_, ?_, s2.d, _, _, F.lnk0, F.closed, fun _ => rfl, ?_⟩
  · intro e he f hf h1 h2 h3
    rcases F.flat_at he h1 with ⟨k1, t, i, j, v, w, z, hA⟩ | ⟨j, hj, rfl, hp⟩ <;> rcases F.flat_at hf h2 with ⟨k2, t', i', j', v', w', z', hA'⟩ | ⟨j', hj', rfl, hp'⟩
    · rw [hA.org2, hA'.org2, Org.vtx.injEq] at h3
      subst h3
      have l1 := F.flat_last k1 hA
      have l2 := F.flat_last k2 hA'
      unfold LastAt at l1 l2
      rw [l1, Option.some.injEq] at l2
      exact l2
    · obtain ⟨c1, c2⟩ := F.flat_corner hj' hp'
      rw [hA.org2, c1, Org.vtx.injEq] at h3
      have := (hI.dinv.vts v hA.vmem).1
      omega
    · obtain ⟨c1, c2⟩ := F.flat_corner hj hp
      rw [hA'.org2, c1, Org.vtx.injEq] at h3
      have := (hI.dinv.vts v' hA'.vmem).1
      omega
    · rw [(F.flat_corner hj hp).1, (F.flat_corner hj' hp').1, Org.vtx.injEq] at h3
      rw [B.fp.pre.inj j hj j' hj' h3]
  · intro e he h1 v hv'
    rw [B.fp.eq]
    rcases F.flat_at he h1 with ⟨k1, t, i, j, v1, w, z, hA⟩ | ⟨j, hj, rfl, hp⟩
    · rw [hA.org2, Org.vtx.injEq] at hv'
      subst hv'
      refine List.mem_append_right _ ?_
      unfold keepInside
      rw [List.mem_filter, hv]
      refine ⟨hA.vmem, ?_⟩
      rw [B.clip.keeps.pos v1 (hI.dinv.vts v1 hA.vmem).2.1, hA.pos]
      simp [hA.ins]
    · rw [(F.flat_corner hj hp).1, Org.vtx.injEq] at hv'
      rw [← hv']
      exact List.mem_append_left _ (List.mem_of_getElem? (B.fp.V_eq j hj))
  · intro f hf h1
    have := F.flat_linked hf h1
    exact ⟨not_not.mpr this, Or.inl this⟩

end Finish

/-- Running the last stage on the result of the others. -/
theorem create_of_stages {rz : Bool} {fuel : Nat} (hq : q.Spec evLt ok) (hn : 0 < n) (hne : poly.points ≠ [])
    (h : createDiagram pts q n fuel poly false (initSt poly) = .ok ((), s')) :
    ∃ sr s1 s2 vs V cell, Reach pts q n poly sr ∧ q.pop sr.queue = none ∧
      Stages pts n poly false { sr with log := sr.log ++ [.debug] ++ [.sweepFinished] } s1 s2 s' vs V cell ∧
      createDiagram pts q n fuel poly rz (initSt poly) = (do whenDo rz (cleanUp pts); notify .debug; notify .voronoiFinished : AM ℝ Unit) s2 := by
  obtain ⟨sr, s0, s1, s2, vs, V, cell, hr, hp, h0, hs, hst⟩ := createDiagram_stages hq hn hne h
  refine ⟨sr, s1, s2, vs, V, cell, hr, hp, by rw [← h0]; exact hst, ?_⟩
  have hdef : ∀ rz, createDiagram pts q n fuel poly rz = (do
      sweepAll pts q n fuel
      finishEdgesSt pts poly
      finishPolygon pts n poly
      (do whenDo rz (cleanUp pts); notify .debug; notify .voronoiFinished)) := fun _ => rfl
  rw [hdef, bind_ok hs] at h ⊢
  cases h1 : finishEdgesSt pts poly s0 with
  | error e => rw [bind_err h1] at h; cases h
  | ok a =>
    obtain ⟨_, sa⟩ := a
    rw [bind_ok h1] at h ⊢
    cases h2 : finishPolygon pts n poly sa with
    | error e => rw [bind_err h2] at h; cases h
    | ok b =>
      obtain ⟨_, sb⟩ := b
      rw [bind_ok h2] at h ⊢
      have h3 : s' = { sb with log := sb.log ++ [.debug] ++ [.voronoiFinished] } := by
        have : (Except.ok ((), { sb with log := sb.log ++ [.debug] ++ [.voronoiFinished] }) : Except Err (Unit × St ℝ)) = .ok ((), s') := h
        cases this; rfl
      have h4 : s' = { s2 with log := s'.log } := hst.cu
      have h5 := hst.log
      have h6 : sb.log = s2.log := by
        rw [h3] at h5
        simpa using h5
      have : sb = s2 := by
        have : ({ sb with log := s2.log } : St ℝ) = { s2 with log := s2.log } := by
          have e1 : ({ sb with log := s2.log } : St ℝ) = { s' with log := s2.log } := by rw [h3]
          rw [e1, h4]
        rw [← h6] at this
        exact this
      rw [this]

end Foronoi
