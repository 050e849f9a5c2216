import Verif.Proof.Place
import Verif.Props.CleanTotal

/-!
# C88: the vertices of the finished diagram
-/

namespace Foronoi

open scoped List

variable {pts : Nat → ℝ × ℝ} {q : PQ (QE ℝ)} {ok : List (QE ℝ) → Prop} {n : Nat} {poly : Poly ℝ} {s s1 s2 s' : St ℝ} {vs : List Nat} {V : Nat → Nat}
  {cell fuel : Nat} {rz : Bool} {z : Pt}

/-- An edge of length zero that is registered last at its start. -/
def Climb (s : St ℝ) (z : Pt) (v w : Nat) : Prop :=
  ∃ f t i j, Edg s.d f t i j ∧ (s.d.he f).origin = .vtx v ∧ (s.d.he t).origin = .vtx w ∧ (s.d.vs v).pos = some z ∧ (s.d.vs w).pos = some z ∧ LastAt s.d v f

theorem Climb.unique {v w w' : Nat} (h : Climb s z v w) (h' : Climb s z v w') : w = w' := by
  obtain ⟨f, t, i, j, h1, _, h2, _, _, h3⟩ := h
  obtain ⟨f', t', i', j', k1, _, k2, _, _, k3⟩ := h'
  unfold LastAt at h3 k3
  rw [h3, Option.some.injEq] at k3
  subst k3
  have := h1.tw
  rw [k1.tw, Option.some.injEq] at this
  subst this
  rw [h2, Org.vtx.injEq] at k2
  exact k2

/-- Among the vertices at one place exactly one is not the start of an edge of length zero registered there last. -/
theorem one_root (hd : Distinct pts n) (hq : q.Spec evLt ok) (h : Reach pts q n poly s) (hend : s.queue = []) {v : Nat} (hv : v ∈ s.verts)
    (hz : (s.d.vs v).pos = some z) : ∃ r ∈ s.verts, (s.d.vs r).pos = some z ∧ (∀ w, ¬ Climb s z r w) ∧
      ∀ r' ∈ s.verts, (s.d.vs r').pos = some z → (∀ w, ¬ Climb s z r' w) → r' = r := by
  obtain ⟨L, hI, h0 | ⟨l, _, hZ⟩⟩ := reach_zero hd.injOn hq h
  · exfalso
    obtain ⟨_, _, p, x, r, e1, e2, e3, hk⟩ := hI.dinv.vts v hv
    obtain ⟨t, o, hE⟩ := Corner.edg hq h (⟨hk.lt.1, hk.org.1, hk.inc.1, hz⟩ : Corner s z x v e1)
    obtain ⟨k, hk⟩ := Option.isSome_iff_exists.mp (hE.site_lt hI).2
    have := (hI.sinv.nmLt _ k hk).1
    omega
  have hup : ∀ {v w : Nat}, Climb s z v w → v < w ∧ w ∈ s.verts := by
    rintro v w ⟨f, t, i, j, h1, h2, h3, h4, h5, h6⟩
    exact ⟨hZ.ord _ _ _ _ _ _ h1 h2 h3 h6, (hI.dinv.ovt t (h1.symm hI.dinv).lt w h3).1⟩
  have hstep : ∀ {v w : Nat}, ZStep s z v w → Climb s z v w ∨ Climb s z w v := by
    rintro v w ⟨f, t, i, j, h1, h2, h3, h4, h5⟩
    rcases hZ.both _ _ _ _ _ _ _ h1 h2 h3 h4 h5 with h6 | h6
    · exact Or.inl ⟨f, t, i, j, h1, h2, h3, h4, h5, h6⟩
    · exact Or.inr ⟨t, f, j, i, h1.symm hI.dinv, h3, h2, h5, h4, h6⟩
  obtain ⟨r, r1, r2, r3⟩ : ∃ r ∈ s.verts, (s.d.vs r).pos = some z ∧ ∀ w, ¬ Climb s z r w := by
    suffices hs : ∀ k v, v ∈ s.verts → (s.d.vs v).pos = some z → s.d.vCnt ≤ v + k → ∃ r ∈ s.verts, (s.d.vs r).pos = some z ∧ ∀ w, ¬ Climb s z r w from
      hs s.d.vCnt v hv hz (by omega)
    intro k
    induction k with
    | zero =>
      intro v hv _ hk
      have := (hI.dinv.vts v hv).2.1
      omega
    | succ k ih =>
      intro v hv hz hk
      by_cases hr : ∀ w, ¬ Climb s z v w
      · exact ⟨v, hv, hz, hr⟩
      · push Not at hr
        obtain ⟨w, hw⟩ := hr
        obtain ⟨k1, k2⟩ := hup hw
        obtain ⟨_, _, _, _, _, _, _, _, k3, _⟩ := hw
        exact ih w k2 k3 (by omega)
  refine ⟨r, r1, r2, r3, fun r' q1 q2 q3 => ?_⟩
  have hreach : ∀ x, Linked s z r x → Relation.ReflTransGen (Climb s z) x r := by
    intro x hx
    induction hx with
    | refl => exact .refl
    | tail _ hs ih =>
      rcases hstep hs with h1 | h1
      · rcases Relation.ReflTransGen.cases_head ih with h2 | ⟨y, h2, h3⟩
        · subst h2
          exact absurd h1 (r3 _)
        · exact (h1.unique h2) ▸ h3
      · exact .head h1 ih
  rcases Relation.ReflTransGen.cases_head (hreach r' (place_linked hd hq h hend r1 q1 r2 q2)) with h1 | ⟨y, h1, _⟩
  · exact h1
  · exact absurd h1 (q3 y)

/-- The points at which a diagram in a polygon has a vertex: the corners of the polygon, the points of the border between two cells, and the
Voronoi vertices inside. -/
def DiagramVertex (pts : Nat → ℝ × ℝ) (n : Nat) (poly : Poly ℝ) (z : Pt) : Prop :=
  z ∈ poly.points ∨ (OnBoundary poly.points z ∧ ∃ p r, p ≠ r ∧ Nearest pts n p z ∧ Nearest pts n r z) ∨
    (StrictlyInside poly.points z ∧ VoronoiVertex pts n z)

theorem create_finish_verts (hF : FitsCorners pts n poly) (hd : Distinct pts n) (hq : q.Spec evLt ok) (hn : 0 < n)
    (h : createDiagram pts q n fuel poly rz (initSt poly) = .ok ((), s')) :
    ∃ s s1 s2 vs V cell, Finish pts q ok n poly rz s s1 s2 s' vs V cell ∧ s1.verts = s.verts := by
  have hne : poly.points ≠ [] := by
    intro hh
    have := hF.convex.1
    rw [hh] at this; simp at this
  obtain ⟨sr, s0, s1, s2, vs, V, cell, hr, hp, h0, hs, hst⟩ := createDiagram_stages hq hn hne h
  subst h0
  obtain ⟨L, hI⟩ := reach_inv hq hr
  have hfe := hst.fe
  refine ⟨sr, s1, s2, vs, V, cell, ⟨⟨⟨hF, hd, hq, hr, (hq.pop_none _ hI.qinv.ok).mp hp, ?_⟩, hst.fp⟩, hn, by rw [hst.fp.eq], hst.cu⟩, ?_⟩
  · exact ⟨hfe.ok, hfe.keeps, hfe.sub, hfe.good, hfe.pos, hfe.pv, hfe.from_, hfe.org, hfe.links⟩
  · have := congrArg St.verts hfe.eq
    exact this

namespace Finish

variable (F : Finish pts q ok n poly rz s s1 s2 s' vs V cell) (hv1 : s1.verts = s.verts)
include F

theorem mem_vs {v : Nat} : v ∈ vs ↔ ∃ j < vs.length, V j = v := by
  constructor
  · intro h
    obtain ⟨j, hj, e⟩ := List.getElem_of_mem h
    refine ⟨j, hj, ?_⟩
    have := F.B.fp.V_eq j hj
    rw [List.getElem?_eq_getElem hj, e, Option.some.injEq] at this
    exact this.symm
  · rintro ⟨j, hj, rfl⟩
    exact List.mem_of_getElem? (F.B.fp.V_eq j hj)

theorem pos_at (v : Nat) : (s'.d.vs v).pos = (s1.d.vs v).pos := by
  rw [← F.B.fp.binv.pos v]
  have h := F.cu
  cases rz with
  | false =>
    simp only [Bool.false_eq_true, if_false] at h
    rw [h]
  | true =>
    simp only [if_true] at h
    exact h.same.pos v

/-- A border vertex is not a vertex of the sweep. -/
theorem fresh {j v : Nat} (hj : j < vs.length) (hv : v ∈ s.verts) : V j ≠ v := by
  obtain ⟨L, hI⟩ := reach_inv F.B.spec F.B.reach
  obtain ⟨h1, h2, _⟩ := hI.dinv.vts v hv
  rcases F.B.kind hj with ⟨_, k, h3, h4, _⟩ | ⟨_, h3, _⟩ <;> omega

theorem pos_sweep {v : Nat} (hv : v ∈ s.verts) : (s1.d.vs v).pos = (s.d.vs v).pos := by
  obtain ⟨L, hI⟩ := reach_inv F.B.spec F.B.reach
  exact F.B.clip.keeps.pos v (hI.dinv.vts v hv).2.1

include hv1 in
theorem mem_keep {v : Nat} : v ∈ keepInside poly s1.d.vs s1.verts ↔ v ∈ s.verts ∧ ∃ z, (s.d.vs v).pos = some z ∧ StrictlyInside poly.points z ∧ VoronoiVertex pts n z := by
  have B := F.B
  have hP := B.fits.toFitsPolygon
  unfold keepInside
  rw [List.mem_filter, hv1]
  refine and_congr_right fun hv => ?_
  rw [F.pos_sweep hv]
  constructor
  · intro h
    cases hp : (s.d.vs v).pos with
    | none => rw [hp] at h; cases h
    | some z =>
      rw [hp] at h
      have hvv := (C60_vertices B.dist B.spec B.reach B.done z).mpr ⟨v, hv, hp⟩
      refine ⟨z, rfl, ?_, hvv⟩
      by_cases hc : InClosed poly.points z
      · exact (closed_cases hP.convex hc).resolve_right (hP.border z hvv)
      · simp only at h
        rw [(C31_convex hP.convex z).2 (not_closed.mpr hc)] at h
        cases h
  · rintro ⟨z, hp, hi, _⟩
    rw [hp]
    simp only [(C31_convex hP.convex z).1 hi, beq_self_eq_true]

theorem verts2 : s2.verts = vs ++ keepInside poly s1.d.vs s1.verts := by rw [F.B.fp.eq]

include hv1 in
theorem nodup2 : s2.verts.Nodup := by
  obtain ⟨L, hI⟩ := reach_inv F.B.spec F.B.reach
  rw [F.verts2, List.nodup_append']
  refine ⟨?_, ?_, ?_⟩
  · rw [List.nodup_iff_injective_getElem]
    intro a b hab
    have e : ∀ k (hk : k < vs.length), vs[k] = V k := by
      intro k hk
      have := F.B.fp.V_eq k hk
      rw [List.getElem?_eq_getElem hk, Option.some.injEq] at this
      exact this
    simp only [e] at hab
    exact Fin.ext (F.B.fp.pre.inj _ a.2 _ b.2 hab)
  · unfold keepInside
    rw [hv1]
    exact hI.dinv.vnd.filter _
  · intro v h1 h2
    obtain ⟨j, hj, rfl⟩ := F.mem_vs.mp h1
    exact F.fresh hj ((F.mem_keep hv1).mp h2).1 rfl

/-- The starts of the edges of length zero. -/
theorem flat_start {v : Nat} (hv : v ∈ s.verts) (hz : (s.d.vs v).pos = some z) (hi : StrictlyInside poly.points z) :
    (∃ e ∈ s2.edges, Flat s2.d e ∧ (s2.d.he e).origin = .vtx v) ↔ ∃ w, Climb s z v w := by
  have B := F.B
  obtain ⟨L, hI⟩ := reach_inv B.spec B.reach
  have hP := B.fits.toFitsPolygon
  constructor
  · rintro ⟨e, he, hfl, ho⟩
    obtain ⟨he1, t, i, j, v', w, z', hA⟩ := (F.flat_at he hfl).resolve_right (by
      rintro ⟨j, hj, rfl, hh⟩
      rw [(F.flat_corner hj hh).1, Org.vtx.injEq] at ho
      exact F.fresh hj hv ho)
    rw [hA.org2, Org.vtx.injEq] at ho
    subst ho
    have := hA.pos
    rw [hz, Option.some.injEq] at this
    subst this
    exact ⟨w, e, t, i, j, hA.edg, hA.org, hA.torg, hA.pos, hA.tpos, F.flat_last he1 hA⟩
  · rintro ⟨w, f, t, i, j, hE, ho, ho', _, hz', hl⟩
    have hE' := hE.symm hI.dinv
    have hfe : f ∈ s.edges := by
      obtain ⟨L', hI', h0 | ⟨l, _, hZ⟩⟩ := reach_zero B.dist.injOn B.spec B.reach
      · obtain ⟨k, hk⟩ := Option.isSome_iff_exists.mp (hE.site_lt hI').2
        have := (hI'.sinv.nmLt _ k hk).1
        omega
      · obtain ⟨e, h1, h2⟩ := hZ.last v hv
        unfold LastAt at h2 hl
        rw [h2, Option.some.injEq] at hl
        exact hl ▸ h1
    have hins := (C31_convex hP.convex z).1 hi
    have hside : ∀ {g u}, g < s.d.heCnt → (s.d.he g).origin = .vtx u → (s.d.vs u).pos = some z → (s1.d.he g).origin = .vtx u ∧ opos s1.d g = some z := by
      intro g u hg h1 h2
      have hu := (hI.dinv.ovt g hg u h1).1
      rcases B.clip.org g (B.all hg) with ⟨h3, _⟩ | ⟨h3, _⟩
      · exact ⟨by rw [h3, h1], by rw [opos_vtx (h3.trans h1), F.pos_sweep hu, h2]⟩
      · have := h3 z (by rw [opos_vtx h1, h2])
        rw [hins] at this; cases this
    obtain ⟨k1, k2⟩ := hside hE.lt ho hz
    obtain ⟨k3, k4⟩ := hside hE'.lt ho' hz'
    have hf1 : f ∈ s1.edges := by
      obtain ⟨a, b, _, _, h3, h4, h5⟩ := B.clip.pos f hfe t hE.tw
      rw [k2] at h3
      rw [k4] at h4
      exact h5.mpr ⟨by rw [← h3]; rfl, by rw [← h4]; rfl⟩
    refine ⟨f, by rw [F.edges]; exact List.mem_append_left _ hf1, ?_, ?_⟩
    · intro t' ht'
      rw [B.twin2 hE.lt, hE.tw, Option.some.injEq] at ht'
      subst ht'
      rw [B.opos2 hE.lt, B.opos2 hE'.lt, k2, k4]
    · rw [B.fp.binv.org f (by rw [B.heCnt]; exact hE.lt), k1]

theorem flat_edge {j : Nat} (hj : j < vs.length) (h : place s1.d (V j) = place s1.d (V (j + 1))) :
    s1.d.heCnt + 2 * j + 1 ∈ s2.edges ∧ Flat s2.d (s1.d.heCnt + 2 * j + 1) := by
  obtain ⟨b1, _, _, b4, b5⟩ := F.B.border hj
  refine ⟨by rw [F.edges]; exact List.mem_append_right _ (List.mem_map.mpr ⟨j, List.mem_range.mpr hj, rfl⟩), fun t ht => ?_⟩
  rw [b1, Option.some.injEq] at ht
  rw [← ht, b4, b5, h]

include hv1 in
/-- The vertices of the result. -/
theorem mem_verts {v : Nat} : v ∈ s'.verts ↔ (v ∈ vs ∧ (rz = true → ∀ j < vs.length, V j = v → place s1.d (V j) ≠ place s1.d (V (j + 1)))) ∨ ∃ z, v ∈ s.verts ∧ (s.d.vs v).pos = some z ∧ StrictlyInside poly.points z ∧ VoronoiVertex pts n z ∧
    (rz = true → ∀ w, ¬ Climb s z v w) := by
  have h := F.cu
  have h2 : v ∈ s2.verts ↔ v ∈ vs ∨ ∃ z, v ∈ s.verts ∧ (s.d.vs v).pos = some z ∧ StrictlyInside poly.points z ∧ VoronoiVertex pts n z := by
    rw [F.verts2, List.mem_append, F.mem_keep hv1]
    grind
  cases rz with
  | false =>
    simp only [Bool.false_eq_true, if_false] at h
    have : s'.verts = s2.verts := by rw [h]
    rw [this, h2]
    simp
  | true =>
    simp only [if_true] at h
    have h3 := h.left (F.safe hv1).dist (F.nodup2 hv1) v
    rw [h2] at h3
    refine h3.trans ?_
    constructor
    · rintro ⟨h4 | ⟨z, h4, h5, h6, h7⟩, h8⟩
      · refine Or.inl ⟨h4, fun _ j hj hV hh => ?_⟩
        obtain ⟨k1, k2⟩ := F.flat_edge hj hh
        exact h8 _ k1 k2 (by rw [(F.flat_corner hj hh).1, hV])
      · refine Or.inr ⟨z, h4, h5, h6, h7, fun _ w hw => ?_⟩
        obtain ⟨e, k1, k2, k3⟩ := (F.flat_start h4 h5 h6).mpr ⟨w, hw⟩
        exact h8 e k1 k2 k3
    · rintro (⟨h4, h8⟩ | ⟨z, h4, h5, h6, h7, h8⟩)
      · refine ⟨Or.inl h4, fun e he hfl ho => ?_⟩
        obtain ⟨_, t, i, j, v', w, z', hA⟩ := (F.flat_at he hfl).resolve_right (by
          rintro ⟨j, hj, rfl, hh⟩
          rw [(F.flat_corner hj hh).1, Org.vtx.injEq] at ho
          exact h8 rfl j hj ho hh)
        rw [hA.org2, Org.vtx.injEq] at ho
        subst ho
        obtain ⟨j, hj, e⟩ := F.mem_vs.mp h4
        exact F.fresh hj hA.vmem e
      · refine ⟨Or.inr ⟨z, h4, h5, h6, h7⟩, fun e he hfl ho => ?_⟩
        obtain ⟨w, hw⟩ := (F.flat_start h4 h5 h6).mp ⟨e, he, hfl, ho⟩
        exact h8 rfl w hw

/-- The places on the border. -/
theorem border_places : (∃ j < vs.length, place s1.d (V j) = z) ↔
    z ∈ poly.points ∨ (OnBoundary poly.points z ∧ ∃ p r, p ≠ r ∧ Nearest pts n p z ∧ Nearest pts n r z) := by
  have B := F.B
  obtain ⟨L, hI⟩ := reach_inv B.spec B.reach
  constructor
  · rintro ⟨j, hj, rfl⟩
    rcases B.kind hj with ⟨_, k, h3, _, h5⟩ | ⟨h1, _, f, _, h3, _, h5⟩
    · left
      rw [h5, corner_eq h3]
      exact List.getElem_mem h3
    · right
      refine ⟨h1, ?_⟩
      obtain ⟨t, i, o, hE⟩ := B.edg h3
      obtain ⟨y, hy⟩ := B.ends hE h5
      obtain ⟨_, _, k3, _⟩ := B.half hE
      obtain ⟨_, _, _, k4⟩ := k3 _ _ h5 hy
      exact ⟨i, o, hE.ne hI.dinv, (k4 _ (between_left _ _)).2⟩
  · rintro (h | ⟨h1, p, r, h2, h3, h4⟩)
    · obtain ⟨k, hk, e⟩ := List.getElem_of_mem h
      obtain ⟨j, hj, h5⟩ := B.ring.corners k hk
      exact ⟨j, hj, by rw [← e, ← corner_eq hk]; exact h5⟩
    · obtain ⟨f, t, i, j, hE, _, h5⟩ := B.crossing h1 h2 h3 h4
      obtain ⟨a, ha, _, h6, _⟩ := B.start_hd hE.lt h5 h1
      exact ⟨a, ha, h6⟩

end Finish

/-- C88: the vertices of the finished diagram, with and without clean-up: every vertex is at a corner of the polygon, on the border between two
cells, or a Voronoi vertex inside, and at every such point is a vertex.  With clean-up there is exactly one at every such point, even where
many cells meet. -/
theorem C88_final_vertices (hF : FitsCorners pts n poly) (hd : Distinct pts n) (hq : q.Spec evLt ok) (hn : 0 < n)
    (h : createDiagram pts q n fuel poly rz (initSt poly) = .ok ((), s')) :
    (∀ v ∈ s'.verts, ∃ z, (s'.d.vs v).pos = some z ∧ DiagramVertex pts n poly z) ∧
    (∀ z, DiagramVertex pts n poly z → ∃ v ∈ s'.verts, (s'.d.vs v).pos = some z) ∧
    (rz = true → s'.verts.Nodup ∧ ∀ v ∈ s'.verts, ∀ w ∈ s'.verts, (s'.d.vs v).pos = (s'.d.vs w).pos → v = w) := by
  obtain ⟨s, s1, s2, vs, V, cell, F, hv1⟩ := create_finish_verts hF hd hq hn h
  have B := F.B
  have hvs : ∀ v ∈ vs, ∃ j < vs.length, V j = v ∧ (s'.d.vs v).pos = some (place s1.d (V j)) ∧ OnBoundary poly.points (place s1.d (V j)) := by
    intro v hv
    obtain ⟨j, hj, rfl⟩ := F.mem_vs.mp hv
    exact ⟨j, hj, rfl, by rw [F.pos_at, (B.mem hj).2], B.ring.on j hj⟩
  refine ⟨fun v hv => ?_, fun z hz => ?_, ?_⟩
  · rcases (F.mem_verts hv1).mp hv with ⟨h1, _⟩ | ⟨z, h1, h2, h3, h4, _⟩
    · obtain ⟨j, hj, rfl, h2, _⟩ := hvs v h1
      refine ⟨_, h2, ?_⟩
      rcases F.border_places.mp ⟨j, hj, rfl⟩ with h3 | h3
      · exact Or.inl h3
      · exact Or.inr (Or.inl h3)
    · exact ⟨z, by rw [F.pos_at, F.pos_sweep h1, h2], Or.inr (Or.inr ⟨h3, h4⟩)⟩
  · have hb : (z ∈ poly.points ∨ (OnBoundary poly.points z ∧ ∃ p r, p ≠ r ∧ Nearest pts n p z ∧ Nearest pts n r z)) → ∃ v ∈ s'.verts, (s'.d.vs v).pos = some z := by
      intro h1
      obtain ⟨j, hj, hne, rfl⟩ := F.B.turn_at (F.border_places.mpr h1)
      refine ⟨V j, (F.mem_verts hv1).mpr (Or.inl ⟨F.mem_vs.mpr ⟨j, hj, rfl⟩, fun _ i hi e => ?_⟩), by rw [F.pos_at, (B.mem hj).2]⟩
      rw [B.fp.pre.inj i hi j hj e]
      exact hne
    rcases hz with h1 | h1 | ⟨h1, h2⟩
    · exact hb (Or.inl h1)
    · exact hb (Or.inr h1)
    · obtain ⟨v, h3, h4⟩ := (C60_vertices hd hq B.reach B.done z).mp h2
      obtain ⟨r, r1, r2, r3, _⟩ := one_root hd hq B.reach B.done h3 h4
      exact ⟨r, (F.mem_verts hv1).mpr (Or.inr ⟨z, r1, r2, h1, h2, fun _ => r3⟩), by rw [F.pos_at, F.pos_sweep r1, r2]⟩
  · intro hrz
    subst hrz
    constructor
    · have hc := F.cu
      simp only [if_true] at hc
      exact hc.verts.nodup (F.nodup2 hv1)
    · intro v hv w hw he
      rcases (F.mem_verts hv1).mp hv with ⟨h1, h6⟩ | ⟨z, h1, h2, h3, h4, h5⟩ <;> rcases (F.mem_verts hv1).mp hw with ⟨k1, k6⟩ | ⟨y, k1, k2, k3, k4, k5⟩
      · obtain ⟨i, hi, rfl, a1, _⟩ := hvs v h1
        obtain ⟨j, hj, rfl, a2, _⟩ := hvs w k1
        rw [a1, a2, Option.some.injEq] at he
        rw [B.inj_turn hi hj (h6 rfl i hi rfl) (k6 rfl j hj rfl) he]
      · obtain ⟨i, hi, rfl, a1, a2⟩ := hvs v h1
        rw [a1, F.pos_at, F.pos_sweep k1, k2, Option.some.injEq] at he
        rw [he] at a2
        exact absurd k3 a2.not_inside
      · obtain ⟨i, hi, rfl, a1, a2⟩ := hvs w k1
        rw [a1, F.pos_at, F.pos_sweep h1, h2, Option.some.injEq] at he
        rw [← he] at a2
        exact absurd h3 a2.not_inside
      · rw [F.pos_at, F.pos_sweep h1, h2, F.pos_at, F.pos_sweep k1, k2, Option.some.injEq] at he
        subst he
        obtain ⟨r, _, _, _, r4⟩ := one_root hd hq B.reach B.done h1 h2
        rw [r4 v h1 h2 (h5 rfl), r4 w k1 k2 (k5 rfl)]

/-- The hypotheses can be met with four sites on a circle: the centre is a vertex of the result, and only once. -/
example : ∃ poly s', boundingBox (-3 : ℝ) 4 98 106 = .ok poly ∧ createDiagram square4 heapq 4 30 poly true (initSt poly) = .ok ((), s') ∧
    ∃! v, v ∈ s'.verts ∧ (s'.d.vs v).pos = some (0, 100) := by
  have hp := box_points (show (-3 : ℝ) < 4 by norm_num) (show (98 : ℝ) < 106 by norm_num)
  obtain ⟨_, s', _, h, _⟩ := C74_cleanup_succeeds (fuel := 30) (square4_border hp).toFitsCorners square4_distinct C45_event_queue (by norm_num) (by norm_num)
  obtain ⟨_, h2, h3⟩ := C88_final_vertices (square4_border hp).toFitsCorners square4_distinct C45_event_queue (by norm_num) h
  have hn : ∀ p < 4, Nearest square4 4 p (0, 100) := by
    intro p hp
    refine ⟨hp, fun r hr => ?_⟩
    rcases (by omega : p = 0 ∨ p = 1 ∨ p = 2 ∨ p = 3) with rfl | rfl | rfl | rfl <;> rcases (by omega : r = 0 ∨ r = 1 ∨ r = 2 ∨ r = 3) with rfl | rfl | rfl | rfl <;>
      norm_num [square4, sqDist]
  obtain ⟨v, h4, h5⟩ := h2 (0, 100) (Or.inr (Or.inr ⟨(box_inside (by norm_num) (by norm_num) _).mpr (by norm_num),
    0, 1, 2, by norm_num, by norm_num, by norm_num, hn 0 (by norm_num), hn 1 (by norm_num), hn 2 (by norm_num)⟩))
  exact ⟨_, s', hp, h, v, ⟨h4, h5⟩, fun w hw => (h3 rfl).2 w hw.1 v h4 (hw.2.trans h5.symm)⟩

end Foronoi
