import Verif.Props.FinalVertices

/-!
# C90–C92: `connected_edges` and `target` in the finished diagram, deleting twice
-/

namespace Foronoi

open scoped List

variable {pts : Nat → ℝ × ℝ} {q : PQ (QE ℝ)} {ok : List (QE ℝ) → Prop} {n : Nat} {poly : Poly ℝ} {s s1 s2 s' : St ℝ} {vs : List Nat} {V : Nat → Nat}
  {cell fuel : Nat} {rz : Bool} {z : Pt}

theorem convex_ne {l : List Pt} (hc : ClockwiseConvex l) {i j : Nat} (hij : i < j) (hj : j < l.length) : corner l i ≠ corner l j := by
  obtain ⟨h3, h⟩ := hc
  intro e
  have key : ∀ {a b c : Pt}, 0 < rightOf a b c → a ≠ b ∧ b ≠ c ∧ a ≠ c := by
    intro a b c h
    refine ⟨?_, ?_, ?_⟩ <;> rintro rfl <;> unfold rightOf at h <;> simp [mul_comm] at h
  rcases Nat.lt_or_ge (j + 1) l.length with h1 | h1
  · exact (key (h i j (j + 1) hij (by omega) h1)).1 e
  · rcases Nat.eq_zero_or_pos i with rfl | h2
    · exact (key (h 0 1 j (by omega) (by omega) hj)).2.2 e
    · exact (key (h 0 i j h2 hij hj)).2.1 e

namespace Finish

variable (F : Finish pts q ok n poly rz s s1 s2 s' vs V cell) (hv1 : s1.verts = s.verts)
include F

theorem good1 {f : Nat} (h : EdgesOf s.d s1.edges f) : Good poly s1.d f := by
  rcases h with h | ⟨e, h, ht⟩
  · exact (F.B.clip.good f h).1
  · exact (F.B.clip.good e h).2 f ht

/-- The register of a border vertex before the border edges are made. -/
theorem border_conn {j : Nat} (hj : j < vs.length) :
    ((s1.d.vs (V j)).conn = [] ∧ V j < poly.points.length ∧ place s1.d (V j) ∈ poly.points) ∨
    ∃ f, (s1.d.vs (V j)).conn = [f] ∧ EdgesOf s.d s1.edges f ∧ (s1.d.he f).origin = .vtx (V j) ∧ poly.points.length ≤ V j ∧
      (NoTies pts n poly → place s1.d (V j) ∉ poly.points) := by
  have B := F.B
  obtain ⟨L, hI⟩ := reach_inv B.spec B.reach
  rcases B.kind hj with ⟨h1, k, hk, h2, h3⟩ | ⟨h1, h2, f, h3, h4, h5, h6⟩
  · left
    refine ⟨?_, by omega, ?_⟩
    · unfold hd at h1
      exact List.head?_eq_none_iff.mp h1
    · rw [h3, corner_eq hk]
      exact List.getElem_mem hk
  · right
    obtain ⟨t, i, o, hE⟩ := B.edg h4
    refine ⟨f, ?_, (B.half hE).1.mp (by rw [h6]; rfl), h5, by have := hI.dinv.vcnt; omega, ?_⟩
    · rcases B.start h4 h6 with ⟨_, _, _, h7⟩ | ⟨_, v, _, _, h8, h9⟩
      · exact absurd h7 h1.not_inside
      · rw [h5, Org.vtx.injEq] at h8
        rw [h8]; exact h9
    · intro hN hmem
      obtain ⟨k, hk, e⟩ := List.getElem_of_mem hmem
      obtain ⟨y, hy⟩ := B.ends hE h6
      obtain ⟨_, _, _, k4⟩ := (B.half hE).2.2.1 _ _ h6 hy
      have := (k4 _ (between_left _ _)).2
      rw [← e, ← corner_eq hk] at this
      exact hE.ne hI.dinv (hN k hk i o this.1 this.2)

include hv1 in
/-- The register of a vertex of the sweep that is kept. -/
theorem inner_conn {v : Nat} (hv : v ∈ keepInside poly s1.d.vs s1.verts) :
    (s1.d.vs v).conn.Nodup ∧ (s1.d.vs v).conn.length = 3 ∧ ∀ f ∈ (s1.d.vs v).conn, EdgesOf s.d s1.edges f ∧ (s1.d.he f).origin = .vtx v := by
  have B := F.B
  have hP := B.fits.toFitsPolygon
  obtain ⟨L, hI⟩ := reach_inv B.spec B.reach
  obtain ⟨hvs, z, hz, hi, _⟩ := (F.mem_keep hv1).mp hv
  obtain ⟨_, hlt, p, x, r, e1, e2, e3, ho⟩ := hI.dinv.vts v hvs
  have hins := (C31_convex hP.convex z).1 hi
  have hall : ∀ c < s.d.heCnt, (s.d.he c).origin = .vtx v → EdgesOf s.d s1.edges c ∧ (s1.d.he c).origin = .vtx v := by
    intro c hc hco
    rcases B.clip.org c (B.all hc) with ⟨h3, _⟩ | ⟨h3, _⟩
    · have h4 := h3.trans hco
      obtain ⟨t, i, o, hE⟩ := B.edg hc
      refine ⟨(B.half hE).1.mp ?_, h4⟩
      rw [opos_vtx h4, F.pos_sweep hvs, hz]; rfl
    · have := h3 z (by rw [opos_vtx hco, hz])
      rw [hins] at this; cases this
  have hmem : ∀ c, c ∈ (s.d.vs v).conn ↔ c = e1 ∨ c = e2 ∨ c = e3 := by
    intro c
    rcases ho.conn with h | h <;> rw [h] <;> simp only [List.mem_cons, List.not_mem_nil, or_false] <;> grind
  have horg : ∀ c ∈ (s.d.vs v).conn, c < s.d.heCnt ∧ (s.d.he c).origin = .vtx v := by
    intro c hc
    rcases (hmem c).mp hc with rfl | rfl | rfl
    · exact ⟨ho.lt.1, ho.org.1⟩
    · exact ⟨ho.lt.2.1, ho.org.2.1⟩
    · exact ⟨ho.lt.2.2, ho.org.2.2⟩
  have hnd : (s1.d.vs v).conn.Nodup := B.clip.ok.cnd v (hlt.trans_le B.clip.keeps.vCnt)
  have hin : ∀ c, c ∈ (s1.d.vs v).conn ↔ c ∈ (s.d.vs v).conn := by
    intro c
    refine ⟨B.clip.keeps.conn v hlt c, fun hc => ?_⟩
    obtain ⟨k1, k2⟩ := horg c hc
    obtain ⟨k3, k4⟩ := hall c k1 k2
    obtain ⟨w, _, g1, _, _, g2, _⟩ := F.good1 k3
    rw [k4, Org.vtx.injEq] at g1
    rw [g1]; exact g2
  refine ⟨hnd, ?_, fun f hf => ?_⟩
  · have hp : (s1.d.vs v).conn ~ [e1, e2, e3] := by
      rw [List.perm_ext_iff_of_nodup hnd (by simp [ho.ne12, ho.ne13, ho.ne23])]
      intro c
      rw [hin, hmem]
      simp
    rw [hp.length_eq]; rfl
  · obtain ⟨k1, k2⟩ := horg f ((hin f).mp hf)
    exact hall f k1 k2

theorem new_edge {j : Nat} (hj : j < vs.length) : EdgesOf s2.d s2.edges (s1.d.heCnt + 2 * j + 1) ∧ EdgesOf s2.d s2.edges (s1.d.heCnt + 2 * j) := by
  have hm : s1.d.heCnt + 2 * j + 1 ∈ s2.edges := by
    rw [F.edges]
    exact List.mem_append_right _ (List.mem_map.mpr ⟨j, List.mem_range.mpr hj, rfl⟩)
  exact ⟨Or.inl hm, Or.inr ⟨_, hm, (F.B.fp.binv.newE j hj).1⟩⟩

theorem old_or_new {f : Nat} : EdgesOf s2.d s2.edges f ↔ EdgesOf s.d s1.edges f ∨ ∃ j < vs.length, f = s1.d.heCnt + 2 * j + 1 ∨ f = s1.d.heCnt + 2 * j := by
  have B := F.B
  have htw : ∀ e ∈ s1.edges, (s2.d.he e).twin = (s.d.he e).twin := fun e he => B.twin2 (B.kept_lt (Or.inl he))
  constructor
  · rintro (h | ⟨e, h, ht⟩) <;> rw [F.edges, List.mem_append] at h <;> rcases h with h | h
    · exact Or.inl (Or.inl h)
    · obtain ⟨j, hj, rfl⟩ := List.mem_map.mp h
      exact Or.inr ⟨j, List.mem_range.mp hj, Or.inl rfl⟩
    · rw [htw e h] at ht
      exact Or.inl (Or.inr ⟨e, h, ht⟩)
    · obtain ⟨j, hj, rfl⟩ := List.mem_map.mp h
      rw [(B.fp.binv.newE j (List.mem_range.mp hj)).1, Option.some.injEq] at ht
      exact Or.inr ⟨j, List.mem_range.mp hj, Or.inr ht.symm⟩
  · rintro ((h | ⟨e, h, ht⟩) | ⟨j, hj, rfl | rfl⟩)
    · exact Or.inl (by rw [F.edges]; exact List.mem_append_left _ h)
    · exact Or.inr ⟨e, by rw [F.edges]; exact List.mem_append_left _ h, by rw [htw e h]; exact ht⟩
    · exact (F.new_edge hj).1
    · exact (F.new_edge hj).2

theorem old_org {f : Nat} (h : EdgesOf s.d s1.edges f) : (s2.d.he f).origin = (s1.d.he f).origin :=
  F.B.fp.binv.org f (by rw [F.B.heCnt]; exact F.B.kept_lt h)

include hv1 in
/-- The registers before the clean-up. -/
theorem conn2 {v : Nat} (hv : v ∈ s2.verts) : (s2.d.vs v).conn.Nodup ∧ ∀ f, f ∈ (s2.d.vs v).conn ↔ EdgesOf s2.d s2.edges f ∧ (s2.d.he f).origin = .vtx v := by
  have B := F.B
  have h1 : (s1.d.vs v).conn.Nodup ∧ ∀ f ∈ (s1.d.vs v).conn, EdgesOf s.d s1.edges f ∧ (s1.d.he f).origin = .vtx v := by
    rw [F.verts2, List.mem_append] at hv
    rcases hv with hv | hv
    · obtain ⟨j, hj, rfl⟩ := F.mem_vs.mp hv
      rcases F.border_conn hj with ⟨h, _⟩ | ⟨f, h, h2, h3, _⟩
      · rw [h]; simp
      · rw [h]
        refine ⟨by simp, fun g hg => ?_⟩
        rw [List.mem_singleton] at hg
        subst hg
        exact ⟨h2, h3⟩
    · obtain ⟨h2, _, h3⟩ := F.inner_conn hv1 hv
      exact ⟨h2, h3⟩
  obtain ⟨l, e, hl, hc⟩ := B.fp.binv.conn v
  have hcnt := B.fp.binv.heCnt
  have hlt1 := B.heCnt
  constructor
  · rw [e, List.nodup_append']
    refine ⟨h1.1, hl, fun c h2 h3 => ?_⟩
    have := B.kept_lt (h1.2 c h2).1
    have := (hc c h3).1
    omega
  · intro f
    constructor
    · intro hf
      rw [e, List.mem_append] at hf
      rcases hf with hf | hf
      · obtain ⟨k1, k2⟩ := h1.2 f hf
        exact ⟨F.old_or_new.mpr (Or.inl k1), by rw [F.old_org k1]; exact k2⟩
      · obtain ⟨k1, k2, k3⟩ := hc f hf
        refine ⟨F.old_or_new.mpr (Or.inr ⟨(f - s1.d.heCnt) / 2, by omega, by omega⟩), k3⟩
    · rintro ⟨hf, ho⟩
      rcases F.old_or_new.mp hf with h | ⟨j, hj, rfl | rfl⟩
      · rw [F.old_org h] at ho
        obtain ⟨w, _, g1, _, _, g2, _⟩ := F.good1 h
        rw [ho, Org.vtx.injEq] at g1
        rw [e, List.mem_append, g1]
        exact Or.inl g2
      · rw [(B.fp.binv.newE j hj).2.1, Org.vtx.injEq] at ho
        rw [← ho]
        exact (B.fp.binv.connE j hj).1
      · rw [(B.fp.binv.newT j hj).2.1, Org.vtx.injEq] at ho
        rw [← ho]
        exact (B.fp.binv.connE j hj).2

include hv1 in
/-- Before the clean-up all half-edges start at listed vertices. -/
theorem org2 {f : Nat} (hf : EdgesOf s2.d s2.edges f) : ∃ v ∈ s2.verts, (s2.d.he f).origin = .vtx v := by
  have B := F.B
  rw [F.verts2]
  rcases F.old_or_new.mp hf with h | ⟨j, hj, rfl | rfl⟩
  · rw [F.old_org h]
    obtain ⟨t, i, o, hE⟩ := B.edg (B.kept_lt h)
    obtain ⟨x, hx⟩ := Option.isSome_iff_exists.mp ((B.half hE).1.mpr h)
    rcases B.start hE.lt hx with ⟨h1, ⟨v, h2, h3, h4⟩, h5, h6⟩ | ⟨h1, _⟩
    · refine ⟨v, List.mem_append_right _ ((F.mem_keep hv1).mpr ⟨h2, x, h4, h6, h5⟩), h1.trans h3⟩
    · obtain ⟨j, hj, _, _, h2⟩ := B.start_hd hE.lt hx h1
      exact ⟨V j, List.mem_append_left _ (F.mem_vs.mpr ⟨j, hj, rfl⟩), h2⟩
  · exact ⟨V j, List.mem_append_left _ (F.mem_vs.mpr ⟨j, hj, rfl⟩), (B.fp.binv.newE j hj).2.1⟩
  · refine ⟨V (j + 1), List.mem_append_left _ (F.mem_vs.mpr ?_), (B.fp.binv.newT j hj).2.1⟩
    rcases Nat.lt_or_ge (j + 1) vs.length with h | h
    · exact ⟨j + 1, h, rfl⟩
    · exact ⟨0, by omega, by rw [show j + 1 = vs.length by omega, B.fp.V_end]⟩

include hv1 in
theorem connected {v : Nat} (hv : v ∈ s2.verts) : (s'.d.vs v).conn.Nodup ∧ ∀ f, f ∈ (s'.d.vs v).conn ↔ HalfEdgeOf s'.d s'.edges f ∧ (s'.d.he f).origin = .vtx v := by
  have hE : ∀ f, HalfEdgeOf s'.d s'.edges f ↔ EdgesOf s2.d s'.edges f := by
    intro f
    unfold HalfEdgeOf EdgesOf
    simp only [F.twin]
  have hcu := F.cu
  cases rz with
  | false =>
    simp only [Bool.false_eq_true, if_false] at hcu
    have e1 : s'.d = s2.d := by rw [hcu]
    have e2 : s'.edges = s2.edges := by rw [hcu]
    simp only [hE]
    rw [e1, e2]
    exact F.conn2 hv1 hv
  | true =>
    simp only [if_true] at hcu
    obtain ⟨r1, _, r2⟩ := hcu.reg (· ∈ s2.verts) (fun w hw => ⟨(F.conn2 hv1 hw).1, fun c hc => (((F.conn2 hv1 hw).2 c).mp hc).2⟩) (by
      intro f hf v hv
      obtain ⟨w, h1, h2⟩ := F.org2 hv1 hf
      rw [hv, Org.vtx.injEq] at h2
      rw [h2]; exact h1)
    have hO := r1 v hv
    refine ⟨hO.1, fun f => ⟨fun hf => ⟨(hE f).mpr ?_, hO.2 f hf⟩, ?_⟩⟩
    · by_contra hh
      refine r2 f ?_ v hv hf
      by_cases h2 : EdgesOf s2.d s2.edges f
      · exact Or.inl ⟨h2, hh⟩
      · exact Or.inr fun w hw hc => h2 (((F.conn2 hv1 hw).2 f).mp hc).1
    · rintro ⟨h1, h2⟩
      have hal : Alive s'.d f := by
        rcases (hE f).mp h1 with h | ⟨e, h, ht⟩
        · exact (hcu.alive f h).1
        · exact (hcu.alive e h).2 f ht
      obtain ⟨w, _, g1, _, g2, _⟩ := hal
      rw [h2, Org.vtx.injEq] at g1
      rw [g1]; exact g2

include hv1 in
theorem org_listed {f : Nat} (hf : HalfEdgeOf s'.d s'.edges f) : ∃ v ∈ s2.verts, (s'.d.he f).origin = .vtx v := by
  have hE : EdgesOf s2.d s'.edges f := by
    unfold HalfEdgeOf at hf
    simp only [F.twin] at hf
    exact hf
  have hcu := F.cu
  cases rz with
  | false =>
    simp only [Bool.false_eq_true, if_false] at hcu
    rw [hcu] at hE ⊢
    exact F.org2 hv1 hE
  | true =>
    simp only [if_true] at hcu
    obtain ⟨_, r0, _⟩ := hcu.reg (· ∈ s2.verts) (fun w hw => ⟨(F.conn2 hv1 hw).1, fun c hc => (((F.conn2 hv1 hw).2 c).mp hc).2⟩) (by
      intro f hf v hv
      obtain ⟨w, h1, h2⟩ := F.org2 hv1 hf
      rw [hv, Org.vtx.injEq] at h2
      rw [h2]; exact h1)
    have hal : Alive s'.d f := by
      rcases hE with h | ⟨e, h, ht⟩
      · exact (hcu.alive f h).1
      · exact (hcu.alive e h).2 f ht
    obtain ⟨w, _, g1, _⟩ := hal
    refine ⟨w, r0 f ?_ w g1, g1⟩
    intro v hv
    obtain ⟨w, h1, h2⟩ := F.org2 hv1 (hE.sub hcu.sub.subset)
    rw [hv, Org.vtx.injEq] at h2
    rw [h2]; exact h1

/-- The corners of the polygon are vertices. -/
theorem corner_vs {k : Nat} (hk : k < poly.points.length) : k ∈ vs ∧ (s1.d.vs k).pos = some (corner poly.points k) := by
  have B := F.B
  obtain ⟨L, hI⟩ := reach_inv B.spec B.reach
  have hc := reach_corner B.spec B.reach
  obtain ⟨new, p1, _, p3⟩ := B.clip.split
  have hpos : (s1.d.vs k).pos = some (corner poly.points k) := by
    rw [B.clip.keeps.pos k (by have := hI.dinv.vcnt; omega), hc.pos k hk, corner_eq hk, List.getElem?_eq_getElem hk]
  refine ⟨?_, hpos⟩
  refine B.fp.perm.mem_iff.mpr (List.mem_filter.mpr ⟨?_, by rw [hpos]; rfl⟩)
  rw [p1, hc.pv]
  exact List.mem_append_left _ (List.mem_range.mpr hk)

theorem corner_mem {k : Nat} (hk : k < poly.points.length) : k ∈ s2.verts ∧ (s1.d.vs k).pos = some (corner poly.points k) := by
  obtain ⟨h1, h2⟩ := F.corner_vs hk
  rw [F.verts2]
  exact ⟨List.mem_append_left _ h1, h2⟩

include hv1 in
/-- Degrees before the clean-up. -/
theorem degree2 {v : Nat} (hv : v ∈ s2.verts) :
    ∃ z, (s1.d.vs v).pos = some z ∧ ((v < poly.points.length ∧ z ∈ poly.points ∧ (s2.d.vs v).conn.length = 2) ∨
      (poly.points.length ≤ v ∧ (s2.d.vs v).conn.length = 3 ∧ (NoTies pts n poly → z ∉ poly.points))) := by
  have B := F.B
  have hP := B.fits.toFitsPolygon
  obtain ⟨l, e, hl, hc⟩ := B.fp.binv.conn v
  have hcnt := B.fp.binv.heCnt
  have hlt1 := B.heCnt
  have hv' := hv
  rw [F.verts2, List.mem_append] at hv'
  rcases hv' with h | h
  · obtain ⟨j, hj, rfl⟩ := F.mem_vs.mp h
    -- the two border edges at a border vertex
    obtain ⟨i, hi, hij⟩ : ∃ i < vs.length, V (i + 1) = V j ∧ ∀ a < vs.length, V (a + 1) = V j → a = i := by
      have hinj := B.fp.pre.inj
      have hend := B.fp.V_end
      rcases Nat.eq_zero_or_pos j with h0 | h0
      · refine ⟨vs.length - 1, by omega, by rw [show vs.length - 1 + 1 = vs.length by omega, hend, h0], fun a ha hh => ?_⟩
        rcases Nat.lt_or_ge (a + 1) vs.length with h1 | h1
        · have := hinj _ h1 _ hj hh
          omega
        · omega
      · refine ⟨j - 1, by omega, by rw [show j - 1 + 1 = j by omega], fun a ha hh => ?_⟩
        rcases Nat.lt_or_ge (a + 1) vs.length with h1 | h1
        · have := hinj _ h1 _ hj hh
          omega
        · rw [show a + 1 = vs.length by omega, hend] at hh
          have := hinj _ (by omega) _ hj hh
          omega
    have hlen : l.length = 2 := by
      have hp : l ~ [s1.d.heCnt + 2 * j + 1, s1.d.heCnt + 2 * i] := by
        rw [List.perm_ext_iff_of_nodup hl (by simp; omega)]
        intro c
        simp only [List.mem_cons, List.not_mem_nil, or_false]
        constructor
        · intro hcl
          obtain ⟨k1, k2, k3⟩ := hc c hcl
          obtain ⟨a, ha⟩ : ∃ a, a = (c - s1.d.heCnt) / 2 := ⟨_, rfl⟩
          have hal : a < vs.length := by omega
          rcases (by omega : c = s1.d.heCnt + 2 * a + 1 ∨ c = s1.d.heCnt + 2 * a) with h1 | h1
          · rw [h1, (B.fp.binv.newE a hal).2.1, Org.vtx.injEq] at k3
            rw [B.fp.pre.inj a hal j hj k3] at h1
            exact Or.inl h1
          · rw [h1, (B.fp.binv.newT a hal).2.1, Org.vtx.injEq] at k3
            rw [hij.2 a hal k3] at h1
            exact Or.inr h1
        · have hnot : ∀ c, s1.d.heCnt ≤ c → c ∈ (s2.d.vs (V j)).conn → c ∈ l := by
            intro c h1 h2
            rw [e, List.mem_append] at h2
            refine h2.resolve_left fun h3 => ?_
            rcases F.border_conn hj with ⟨h4, _⟩ | ⟨f, h4, h5, _⟩
            · rw [h4] at h3; cases h3
            · rw [h4, List.mem_singleton] at h3
              have := B.kept_lt h5
              omega
          rintro (rfl | rfl)
          · exact hnot _ (by omega) (B.fp.binv.connE j hj).1
          · refine hnot _ (by omega) ?_
            have := (B.fp.binv.connE i hi).2
            rw [hij.1] at this
            exact this
      rw [hp.length_eq]; rfl
    refine ⟨_, (B.mem hj).2, ?_⟩
    rw [e, List.length_append, hlen]
    rcases F.border_conn hj with ⟨h4, h5, h6⟩ | ⟨f, h4, _, _, h5, h6⟩
    · exact Or.inl ⟨h5, h6, by rw [h4]; rfl⟩
    · exact Or.inr ⟨h5, by rw [h4]; rfl, h6⟩
  · obtain ⟨_, h3, _⟩ := F.inner_conn hv1 h
    obtain ⟨hvs, z, hz, hi, _⟩ := (F.mem_keep hv1).mp h
    obtain ⟨L, hI⟩ := reach_inv B.spec B.reach
    refine ⟨z, by rw [F.pos_sweep hvs, hz], Or.inr ⟨(hI.dinv.vts v hvs).1, ?_, fun _ hmem => ?_⟩⟩
    rotate_left
    · obtain ⟨k, hk, ek⟩ := List.getElem_of_mem hmem
      have := hi k hk
      rw [corner_eq hk, ek] at this
      unfold rightOf at this
      simp at this
    · have hnil : l = [] := by
        rw [List.eq_nil_iff_forall_not_mem]
        intro c hcl
        obtain ⟨k1, k2, k3⟩ := hc c hcl
        obtain ⟨a, ha⟩ : ∃ a, a = (c - s1.d.heCnt) / 2 := ⟨_, rfl⟩
        have hal : a < vs.length := by omega
        rcases (by omega : c = s1.d.heCnt + 2 * a + 1 ∨ c = s1.d.heCnt + 2 * a) with h1 | h1
        · rw [h1, (B.fp.binv.newE a hal).2.1, Org.vtx.injEq] at k3
          exact F.fresh hal hvs k3
        · rw [h1, (B.fp.binv.newT a hal).2.1, Org.vtx.injEq] at k3
          rcases Nat.lt_or_ge (a + 1) vs.length with h | h
          · exact F.fresh h hvs k3
          · rw [show a + 1 = vs.length by omega, B.fp.V_end] at k3
            exact F.fresh (by omega) hvs k3
      rw [e, hnil, List.append_nil, h3]

end Finish

/-- C90: `connected_edges` of each vertex of the finished diagram lists exactly the half-edges that start at it, each once. -/
theorem C90_connected (hF : FitsCorners pts n poly) (hd : Distinct pts n) (hq : q.Spec evLt ok) (hn : 0 < n)
    (h : createDiagram pts q n fuel poly rz (initSt poly) = .ok ((), s')) :
    (∀ v ∈ s'.verts, (s'.d.vs v).conn.Nodup ∧ ∀ f, f ∈ (s'.d.vs v).conn ↔ HalfEdgeOf s'.d s'.edges f ∧ (s'.d.he f).origin = .vtx v) ∧
    (∀ e, HalfEdgeOf s'.d s'.edges e → ∃ v, (s'.d.he e).origin = .vtx v ∧ (s'.d.vs v).conn.Nodup ∧
      ∀ f, f ∈ (s'.d.vs v).conn ↔ HalfEdgeOf s'.d s'.edges f ∧ (s'.d.he f).origin = .vtx v) := by
  obtain ⟨s, s1, s2, vs, V, cell, F, hv1⟩ := create_finish_verts hF hd hq hn h
  refine ⟨fun v hv => F.connected hv1 ?_, fun e he => ?_⟩
  · have hcu := F.cu
    cases rz with
    | false =>
      simp only [Bool.false_eq_true, if_false] at hcu
      rw [hcu] at hv
      exact hv
    | true =>
      simp only [if_true] at hcu
      exact hcu.verts.subset hv
  · obtain ⟨v, h1, h2⟩ := F.org_listed hv1 he
    exact ⟨v, h2, F.connected hv1 h1⟩

/-- C90: without the clean-up two or three half-edges start at each vertex, two only at the corners of the polygon, and for each corner at exactly one vertex.
If no corner is between two cells, then two half-edges start at each corner and three at every other vertex. -/
theorem C90_degree (hF : FitsCorners pts n poly) (hd : Distinct pts n) (hq : q.Spec evLt ok) (hn : 0 < n)
    (h : createDiagram pts q n fuel poly false (initSt poly) = .ok ((), s')) :
    (∀ v ∈ s'.verts, ∃ z, (s'.d.vs v).pos = some z ∧ (((s'.d.vs v).conn.length = 2 ∧ z ∈ poly.points) ∨ (s'.d.vs v).conn.length = 3) ∧
      (NoTies pts n poly → z ∈ poly.points → (s'.d.vs v).conn.length = 2)) ∧
    ∀ z ∈ poly.points, ∃! v, v ∈ s'.verts ∧ (s'.d.vs v).pos = some z ∧ (s'.d.vs v).conn.length = 2 := by
  obtain ⟨s, s1, s2, vs, V, cell, F, hv1⟩ := create_finish_verts hF hd hq hn h
  have hpos := F.pos_at
  have hcu := F.cu
  simp only [Bool.false_eq_true, if_false] at hcu
  have e1 : s'.d = s2.d := by rw [hcu]
  have e2 : s'.verts = s2.verts := by rw [hcu]
  rw [e1] at hpos ⊢
  rw [e2]
  constructor
  · intro v hv
    obtain ⟨z, h1, h2⟩ := F.degree2 hv1 hv
    refine ⟨z, by rw [hpos, h1], ?_, fun hN hz => ?_⟩
    · exact h2.imp (fun h => ⟨h.2.2, h.2.1⟩) (fun h => h.2.1)
    · rcases h2 with h2 | h2
      · exact h2.2.2
      · exact absurd hz (h2.2.2 hN)
  · intro z hz
    obtain ⟨k, hk, e⟩ := List.getElem_of_mem hz
    obtain ⟨m1, m2⟩ := F.corner_mem hk
    have k2 : (s2.d.vs k).conn.length = 2 := by
      obtain ⟨_, _, h | h⟩ := F.degree2 hv1 m1
      · exact h.2.2
      · omega
    refine ⟨k, ⟨m1, by rw [hpos, m2, corner_eq hk, e], k2⟩, fun v ⟨h1, h2, h3⟩ => ?_⟩
    obtain ⟨y, h4, h5 | h5⟩ := F.degree2 hv1 h1
    · obtain ⟨m3, m4⟩ := F.corner_mem h5.1
      rw [hpos, m4, Option.some.injEq] at h2
      have : corner poly.points v = corner poly.points k := by rw [h2, corner_eq hk, e]
      have hconv := hF.toFitsPolygon.convex
      by_contra hne
      rcases Nat.lt_or_gt_of_ne hne with hlt | hlt
      · exact convex_ne hconv hlt hk this
      · exact convex_ne hconv hlt h5.1 this.symm
    · omega

namespace Finish

variable (F : Finish pts q ok n poly rz s s1 s2 s' vs V cell)
include F

/-- Before the clean-up a half-edge ends at the vertex where the next one starts. -/
theorem next_org {p f t : Nat} (hf : OfCell s s1 vs V cell p f) (ht : (s2.d.he f).twin = some t) : (s2.d.he (nxt s2.d f)).origin = (s2.d.he t).origin := by
  obtain ⟨g, t', y, h0, _, h2, _, h4, _⟩ := F.B.cell_next' F.hn hf
  rw [ht, Option.some.injEq] at h4
  subst h4
  unfold nxt
  rw [h2]
  exact h0

end Finish

/-- C91: every half-edge has a target, the vertex where its twin starts, and the next half-edge of a cell starts there; after the clean-up at least at the
same point. -/
theorem C91_target (hF : FitsCorners pts n poly) (hd : Distinct pts n) (hq : q.Spec evLt ok) (hn : 0 < n)
    (h : createDiagram pts q n fuel poly rz (initSt poly) = .ok ((), s')) {f : Nat} (hf : HalfEdgeOf s'.d s'.edges f) :
    ∃ t v z, (s'.d.he f).twin = some t ∧ target f s'.d = .ok (some (.vtx v), s'.d) ∧ t ∈ (s'.d.vs v).conn ∧ (s'.d.vs v).pos = some z ∧
      ∀ p, (s'.d.he f).incident = some p → ∃ g w, (s'.d.he f).next = some g ∧ (s'.d.he g).origin = .vtx w ∧ (s'.d.vs w).pos = some z ∧ (rz = false → w = v) := by
  obtain ⟨s, s1, s2, vs, V, cell, F, hv1⟩ := create_finish_verts hF hd hq hn h
  have hE : ∀ f, HalfEdgeOf s'.d s'.edges f ↔ EdgesOf s2.d s'.edges f := by
    intro f
    unfold HalfEdgeOf EdgesOf
    simp only [F.twin]
  have hsub : ∀ e ∈ s'.edges, e ∈ s2.edges := (cleaned F.cu).2.2.2.1
  obtain ⟨t, ht, hft⟩ : ∃ t, (s2.d.he f).twin = some t ∧ HalfEdgeOf s'.d s'.edges t := by
    rcases hf with h1 | ⟨e, h1, h2⟩
    · obtain ⟨t, ht⟩ : ∃ t, (s2.d.he f).twin = some t := by
        rcases F.old_or_new.mp (Or.inl (hsub f h1)) with h3 | ⟨j, hj, rfl | rfl⟩
        · obtain ⟨t, _, _, k⟩ := F.B.edg (F.B.kept_lt h3)
          exact ⟨t, by rw [F.B.twin2 (F.B.kept_lt h3), k.tw]⟩
        · exact ⟨_, (F.B.fp.binv.newE j hj).1⟩
        · exact ⟨_, (F.B.fp.binv.newT j hj).1⟩
      exact ⟨t, ht, Or.inr ⟨f, h1, by rw [F.twin]; exact ht⟩⟩
    · rw [F.twin] at h2
      exact ⟨e, F.twin_twin (hsub e h1) h2, Or.inl h1⟩
  obtain ⟨v, hv, hvo⟩ := F.org_listed hv1 hft
  have htc := ((F.connected hv1 hv).2 t).mpr ⟨hft, hvo⟩
  obtain ⟨z, hz⟩ : ∃ z, (s'.d.vs v).pos = some z := by
    rw [F.pos_at]
    obtain ⟨z, hz, _⟩ := F.degree2 hv1 hv
    exact ⟨z, hz⟩
  have htw : (s'.d.he f).twin = some t := by rw [F.twin]; exact ht
  refine ⟨t, v, z, htw, ?_, htc, hz, fun p hp => ?_⟩
  · unfold target rdE
    simp only [bind, StateT.bind, Except.bind, htw, hvo]
    rfl
  · have hlive := F.live_iff.mp ⟨hf, hp⟩
    obtain ⟨m, m0, hnx, hm, hgone, hl, _, hs⟩ := F.step hlive
    obtain ⟨w, w1, w2⟩ := (F.ends hl).1
    obtain ⟨_, _, _, t', k1, k2⟩ := F.B.step F.hn hlive.1
    rw [ht, Option.some.injEq] at k1
    subst k1
    refine ⟨_, w, hnx, w1, ?_, fun hrz => ?_⟩
    · rw [w2, hs, ← k2, ← (cleaned F.cu).2.2.1 t, opos_vtx hvo, hz]
    · subst hrz
      have hcu := F.cu
      simp only [Bool.false_eq_true, if_false] at hcu
      have e1 : s'.d = s2.d := by rw [hcu]
      have := F.next_org hlive.1 ht
      rw [e1] at w1 hvo
      rw [w1, hvo, Org.vtx.injEq] at this
      exact this

/-- The hypotheses can be met with four sites on a circle. Without the clean-up three half-edges start at each vertex at the centre. -/
example : ∃ poly s', boundingBox (-3 : ℝ) 4 98 106 = .ok poly ∧ createDiagram square4 heapq 4 30 poly false (initSt poly) = .ok ((), s') ∧
    ∀ v ∈ s'.verts, (s'.d.vs v).pos = some (0, 100) → (s'.d.vs v).conn.Nodup ∧ (s'.d.vs v).conn.length = 3 ∧
      ∀ f ∈ (s'.d.vs v).conn, ∃ w, target f s'.d = .ok (some (.vtx w), s'.d) := by
  have hp := box_points (show (-3 : ℝ) < 4 by norm_num) (show (98 : ℝ) < 106 by norm_num)
  obtain ⟨s', _, h, _⟩ := C74_cleanup_succeeds (fuel := 30) (square4_border hp).toFitsCorners square4_distinct C45_event_queue (by norm_num) (by norm_num)
  refine ⟨_, s', hp, h, fun v hv hz => ?_⟩
  obtain ⟨h1, h2⟩ := (C90_connected (square4_border hp).toFitsCorners square4_distinct C45_event_queue (by norm_num) h).1 v hv
  obtain ⟨z, k1, k2, _⟩ := (C90_degree (square4_border hp).toFitsCorners square4_distinct C45_event_queue (by norm_num) h).1 v hv
  rw [hz, Option.some.injEq] at k1
  subst k1
  refine ⟨h1, k2.resolve_left (by simp), fun f hf => ?_⟩
  obtain ⟨_, w, _, _, hw, _⟩ := C91_target (square4_border hp).toFitsCorners square4_distinct C45_event_queue (by norm_num) h ((h2 f).mp hf).1
  exact ⟨w, hw⟩

section

variable {K : Type} {d d' : Dcel K} {e v : Nat}

/-- C92: `delete` of a half-edge that its origin does not list raises `ValueError`. -/
theorem C92_not_listed (ho : (d.he e).origin = .vtx v) (h : e ∉ (d.vs v).conn) : deleteHE e d = .error .value := by
  unfold deleteHE detachOrigin rdE removeConn rdV
  simp only [bind, StateT.bind, Except.bind, ho, if_neg h]
  rfl

/-- C92: a half-edge listed once by its origin can be deleted only once. -/
theorem C92_delete_again (ho : (d.he e).origin = .vtx v) (hnd : (d.vs v).conn.Nodup) (h : deleteHE e d = .ok ((), d')) :
    e ∈ (d.vs v).conn ∧ deleteHE e d' = .error .value := by
  have hm : e ∈ (d.vs v).conn := by
    by_contra hm
    rw [C92_not_listed ho hm] at h
    cases h
  have hw : Wp (· = .assertion) (deleteHE e) d (fun _ d' => d' = delD d e) := by
    refine wp_deleteHE (fun w hw => ?_) (fun hh => absurd rfl hh) rfl
    rw [ho, Org.vtx.injEq] at hw
    exact hw ▸ hm
  have hd := hw.ok h
  subst hd
  refine ⟨hm, C92_not_listed (v := v) (by rw [delD_org, ho]) ?_⟩
  rw [delD_conn, if_pos ho]
  exact hnd.not_mem_erase

/-- C92: in the finished diagram deleting a half-edge that is no longer in it, but starts at a listed vertex, raises `ValueError`, and so does deleting one twice. -/
theorem C92_finished {d : Dcel ℝ} (hF : FitsCorners pts n poly) (hd : Distinct pts n) (hq : q.Spec evLt ok) (hn : 0 < n)
    (h : createDiagram pts q n fuel poly rz (initSt poly) = .ok ((), s')) {f v : Nat} (hv : v ∈ s'.verts) (ho : (s'.d.he f).origin = .vtx v) :
    (¬ HalfEdgeOf s'.d s'.edges f → deleteHE f s'.d = .error .value) ∧ (HalfEdgeOf s'.d s'.edges f → deleteHE f s'.d = .ok ((), d) → deleteHE f d = .error .value) := by
  obtain ⟨h1, h2⟩ := (C90_connected hF hd hq hn h).1 v hv
  exact ⟨fun hf => C92_not_listed ho fun hc => hf ((h2 f).mp hc).1, fun _ hk => (C92_delete_again ho h1 hk).2⟩

/-- A half-edge that can be deleted, once. -/
example : ∃ d d' : Dcel ℚ, (d.he 0).origin = .vtx 0 ∧ (d.vs 0).conn.Nodup ∧ deleteHE 0 d = .ok ((), d') ∧ deleteHE 0 d' = .error .value := by
  let d : Dcel ℚ := ⟨fun _ => ⟨.vtx 0, none, none, none, none⟩, 2, fun _ => ⟨some (0, 0), [0, 1]⟩, 1, fun _ => none⟩
  obtain ⟨d', h, _⟩ := C37_delete (d := d) (e := 0) (fun v _ => by simp [d]) (fun f hf => by simp [d] at hf) (fun p hp => by simp [d] at hp)
  exact ⟨d, d', rfl, by simp [d], h, (C92_delete_again rfl (by simp [d]) h).2⟩

end

end Foronoi
