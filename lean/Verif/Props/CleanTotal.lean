import Verif.Proof.CleanTotal
import Verif.Props.CellArea

/-!
# C74, C75: the default clean-up of edges of length zero
-/

namespace Foronoi

open scoped List

variable {pts : Nat → ℝ × ℝ} {q : PQ (QE ℝ)} {ok : List (QE ℝ) → Prop} {n fuel : Nat} {poly : Poly ℝ} {s s1 s2 s' : St ℝ} {vs : List Nat} {V : Nat → Nat} {cell : Nat}

/-- The run with clean-up that belongs to a run without. -/
theorem clean_run (hF : FitsCorners pts n poly) (hd : Distinct pts n) (hq : q.Spec evLt ok) (hn : 0 < n) {s0 : St ℝ}
    (h0 : createDiagram pts q n fuel poly false (initSt poly) = .ok ((), s0)) :
    ∃ s s1 s2 s' vs V cell, Finish pts q ok n poly false s s1 s2 s0 vs V cell ∧ createDiagram pts q n fuel poly true (initSt poly) = .ok ((), s') ∧
      s0 = { s2 with log := s2.log ++ [.debug] ++ [.voronoiFinished] } ∧ s2.edges.Nodup ∧
      CU s2.edges s2 s'.edges { s' with edges := s2.edges, log := s2.log } ∧ s'.log = s2.log ++ [.debug] ++ [.voronoiFinished] ∧
      (∀ e ∈ s2.edges, ∃ z, opos s2.d e = some z) ∧ s1.verts = s.verts := by
  have hne : poly.points ≠ [] := by
    intro hh
    have := hF.convex.1
    rw [hh] at this; simp at this
  obtain ⟨sr, s1, s2, vs, V, cell, hr, hp, hst, heq⟩ := create_of_stages (rz := true) hq hn hne h0
  obtain ⟨L, hI⟩ := reach_inv hq hr
  have hfe := hst.fe
  have hB : Closing pts q ok n poly sr s1 s2 vs V cell := by
    refine ⟨⟨hF, hd, hq, hr, (hq.pop_none _ hI.qinv.ok).mp hp, ?_⟩, hst.fp⟩
    exact ⟨hfe.ok, hfe.keeps, hfe.sub, hfe.good, hfe.pos, hfe.pv, hfe.from_, hfe.org, hfe.links⟩
  have hFin : Finish pts q ok n poly false sr s1 s2 s0 vs V cell := ⟨hB, hn, by rw [hst.fp.eq], hst.cu⟩
  have hv : s1.verts = sr.verts := by
    have := congrArg St.verts hfe.eq
    exact this
  have hsafe := hFin.safe hv
  have hw : Wp (fun _ => False) (do whenDo true (cleanUp pts); notify .debug; notify .voronoiFinished : AM ℝ Unit) s2
      (fun _ s' => CU s2.edges s2 s'.edges { s' with edges := s2.edges, log := s2.log } ∧ s'.log = s2.log ++ [.debug] ++ [.voronoiFinished]) := by
    rw [wp_bind, wp_whenDo]
    refine ⟨fun _ => ?_, fun h => by cases h⟩
    unfold cleanUp
    rw [wp_bind, wp_get, wp_bind]
    refine wp_mono (wp_cleanUpLoop s2.edges s2 (Or.inr hsafe) hst.nodup hst.alive) ?_
    intro r2 s3 hcu
    rw [wp_modify, wp_bind, wp_notify, wp_notify]
    constructor
    · have h1 : s3.edges = s2.edges := by rw [hcu.eq]
      have h2 : s3.log = s2.log := by rw [hcu.eq]
      have : ({ s3 with edges := s2.edges, log := s2.log } : St ℝ) = s3 := by rw [← h1, ← h2]
      show CU s2.edges s2 r2 { s3 with edges := s2.edges, log := s2.log }
      rw [this]
      exact hcu
    · show s3.log ++ _ ++ _ = _
      rw [hcu.eq]
  have hs0 : s0 = { s2 with log := s2.log ++ [.debug] ++ [.voronoiFinished] } := by
    rw [← hst.log]; exact hst.cu
  cases hc : (do whenDo true (cleanUp pts); notify .debug; notify .voronoiFinished : AM ℝ Unit) s2 with
  | error e => exact absurd (hw.err hc) id
  | ok v =>
    obtain ⟨h1, h2⟩ := hw.ok (a := v.1) (s' := v.2) hc
    refine ⟨sr, s1, s2, v.2, vs, V, cell, hFin, by rw [heq, hc], hs0, hst.nodup, h1, h2, ?_, hv⟩
    intro e he
    obtain ⟨_, _, _, _, _, ⟨w, z, g1, g2, _⟩, _⟩ := hst.alive e he
    exact ⟨z, by rw [opos_vtx g1, g2]⟩

/-- Both runs. -/
theorem clean_runs (hF : FitsCorners pts n poly) (hd : Distinct pts n) (hq : q.Spec evLt ok) (hn : 0 < n) (hf : 7 * n < fuel) :
    ∃ s s1 s2 s0 s' vs V cell, Finish pts q ok n poly false s s1 s2 s0 vs V cell ∧
      createDiagram pts q n fuel poly false (initSt poly) = .ok ((), s0) ∧ createDiagram pts q n fuel poly true (initSt poly) = .ok ((), s') ∧
      s0 = { s2 with log := s2.log ++ [.debug] ++ [.voronoiFinished] } ∧ s2.edges.Nodup ∧
      CU s2.edges s2 s'.edges { s' with edges := s2.edges, log := s2.log } ∧ s'.log = s2.log ++ [.debug] ++ [.voronoiFinished] ∧
      ∀ e ∈ s2.edges, ∃ z, opos s2.d e = some z := by
  have hne : poly.points ≠ [] := by
    intro hh
    have := hF.convex.1
    rw [hh] at this; simp at this
  obtain ⟨⟨s0, h0⟩, _⟩ := C58_create_succeeds hd hq hn hne (fun i hi => (hF.low i hi).le) hf
  obtain ⟨s, s1, s2, s', vs, V, cell, h1, h2, h3, h4, h5, h6, h7, _⟩ := clean_run hF hd hq hn h0
  exact ⟨s, s1, s2, s0, s', vs, V, cell, h1, h0, h2, h3, h4, h5, h6, h7⟩

theorem originAt_congr {d d' : Dcel ℝ} {f : Nat} (h : opos d' f = opos d f) (z : Pt) : OriginAt d' f z ↔ OriginAt d f z := by
  rw [originAt_iff, originAt_iff, h]

/-- C74: if the sites fit the polygon, `create_diagram` succeeds with the default settings, that is with the clean-up of edges of length
zero, and the clean-up removes exactly the edges that start and end in the same place.  The other edges keep their ends and their cells. -/
theorem C74_cleanup_succeeds (hF : FitsCorners pts n poly) (hd : Distinct pts n) (hq : q.Spec evLt ok) (hn : 0 < n) (hf : 7 * n < fuel) :
    ∃ s0 s', createDiagram pts q n fuel poly false (initSt poly) = .ok ((), s0) ∧ createDiagram pts q n fuel poly true (initSt poly) = .ok ((), s') ∧
      s'.edges <+ s0.edges ∧ (∀ e, e ∈ s'.edges ↔ e ∈ s0.edges ∧ ¬ ∃ z, OriginAt s0.d e z ∧ TargetAt s0.d e z) ∧
      ∀ f, (s'.d.he f).twin = (s0.d.he f).twin ∧ (s'.d.he f).incident = (s0.d.he f).incident ∧ (∀ z, OriginAt s'.d f z ↔ OriginAt s0.d f z) ∧
        ∀ z, TargetAt s'.d f z ↔ TargetAt s0.d f z := by
  obtain ⟨s, s1, s2, s0, s', vs, V, cell, F, h0, h1, hs0, hnd, hcu, _, hpos⟩ := clean_runs (fuel := fuel) hF hd hq hn hf
  have e1 : s0.d = s2.d := by rw [hs0]
  have e2 : s0.edges = s2.edges := by rw [hs0]
  have htw : ∀ f, (s'.d.he f).twin = (s2.d.he f).twin := hcu.same.twin
  have hop : ∀ f, opos s'.d f = opos s2.d f := hcu.opos
  refine ⟨s0, s', h0, h1, by rw [e2]; exact hcu.sub, ?_, ?_⟩
  · intro e
    rw [e1, e2]
    constructor
    · intro he
      have he2 := hcu.sub.subset he
      refine ⟨he2, ?_⟩
      rintro ⟨z, hz, t, ht, hz'⟩
      refine (hcu.kept e he2).mp he t ht ?_
      rw [originAt_iff.mp hz, originAt_iff.mp hz']
    · rintro ⟨he, hno⟩
      refine (hcu.kept e he).mpr fun t ht heq => ?_
      obtain ⟨z, hz⟩ := hpos e he
      exact hno ⟨z, originAt_iff.mpr hz, t, ht, originAt_iff.mpr (by rw [← heq, hz])⟩
  · intro f
    rw [e1]
    refine ⟨htw f, hcu.same.inc f, originAt_congr (hop f), fun z => ?_⟩
    unfold TargetAt
    simp only [htw]
    exact exists_congr fun t => and_congr_right fun _ => originAt_congr (hop t) z

/-- C74: all in one.  With the default settings `create_diagram` succeeds and the area of every site is the area of its Voronoi cell. -/
theorem C74_default_areas (hF : FitsBorder pts n poly) (hd : Distinct pts n) (hq : q.Spec evLt ok) (hn : 0 < n) (hf : 7 * n < fuel) :
    ∃ s', createDiagram pts q n fuel poly true (initSt poly) = .ok ((), s') ∧ ∀ p < n, ∃ a, area s'.d.heCnt p s'.d = .ok (a, s'.d) ∧ 0 < a ∧
      MeasureTheory.volume {z | InClosed poly.points z ∧ Nearest pts n p z} = ENNReal.ofReal a := by
  obtain ⟨_, s', _, h, _⟩ := C74_cleanup_succeeds (fuel := fuel) hF.toFitsCorners hd hq hn hf
  exact ⟨s', h, fun p hp => C72_area hF.toFitsCorners hd hq h (hF.shown hp) le_rfl⟩

/-- No point in the polygon is nearest to four sites: the Voronoi vertices are where three cells meet. -/
def ThreeMeet (pts : Nat → ℝ × ℝ) (n : Nat) (poly : Poly ℝ) : Prop :=
  ∀ z a b c d, StrictlyInside poly.points z → [a, b, c, d].Nodup → Nearest pts n a z → Nearest pts n b z → Nearest pts n c z → ¬ Nearest pts n d z

/-- The third cell at the start of an edge. -/
theorem third_cell (hd : Distinct pts n) (hq : q.Spec evLt ok) (h : Reach pts q n poly s) {f t i j v : Nat} {z : Pt} (hE : Edg s.d f t i j)
    (hv : v ∈ s.verts) (ho : (s.d.he f).origin = .vtx v) (hz : (s.d.vs v).pos = some z) :
    ∃ k, Nearest pts n k z ∧ Nearest pts n i z ∧ det (pts j) (pts i) (pts k) < 0 := by
  obtain ⟨L, hI⟩ := reach_inv hq h
  obtain ⟨_, _, p, x, r, e1, e2, e3, hk⟩ := hI.dinv.vts v hv
  obtain ⟨m, ev, hev, _⟩ := hk.pos
  have hdet := (mkEv_spec hev 0).1
  simp only at hdet
  have np := C25_nearest hd hq h hk.lt.2.2 hk.org.2.2 hk.inc.2.2 hz
  have nx := C25_nearest hd hq h hk.lt.1 hk.org.1 hk.inc.1 hz
  have nr := C25_nearest hd hq h hk.lt.2.1 hk.org.2.1 hk.inc.2.1 hz
  have hf := (hI.dinv.ovt f hE.lt v ho).2
  obtain ⟨⟨t1, a1, b1⟩, ⟨t2, a2, b2⟩, ⟨t3, a3, b3⟩⟩ := hk.tinc
  have hcase : f = e1 ∨ f = e2 ∨ f = e3 := by
    rcases hk.conn with hc | hc <;> rw [hc] at hf <;> simp at hf <;> grind
  have ht := hE.tw
  have hi := hE.inc
  have hj := hE.tinc
  rcases hcase with rfl | rfl | rfl
  · rw [a1, Option.some.injEq] at ht
    rw [hk.inc.1, Option.some.injEq] at hi
    subst ht hi
    rw [b1, Option.some.injEq] at hj
    subst hj
    exact ⟨r, nr, nx, hdet⟩
  · rw [a2, Option.some.injEq] at ht
    rw [hk.inc.2.1, Option.some.injEq] at hi
    subst ht hi
    rw [b2, Option.some.injEq] at hj
    subst hj
    refine ⟨p, np, nr, ?_⟩
    unfold det at hdet ⊢
    linarith
  · rw [a3, Option.some.injEq] at ht
    rw [hk.inc.2.2, Option.some.injEq] at hi
    subst ht hi
    rw [b3, Option.some.injEq] at hj
    subst hj
    refine ⟨x, nx, np, ?_⟩
    unfold det at hdet ⊢
    linarith

/-- Four cells meet at an edge of length zero inside the polygon. -/
theorem Finish.flat_nodup {s s1 s2 s' : St ℝ} {vs : List Nat} {V : Nat → Nat} {cell : Nat} {rz : Bool} (F : Finish pts q ok n poly rz s s1 s2 s' vs V cell)
    {e t i j v w : Nat} {z : Pt} (hA : FlatAt s s2 poly e t i j v w z) : StrictlyInside poly.points z ∧
      ∃ a b c d, [a, b, c, d].Nodup ∧ Nearest pts n a z ∧ Nearest pts n b z ∧ Nearest pts n c z ∧ Nearest pts n d z := by
  have hd := F.B.dist
  have hq := F.B.spec
  obtain ⟨L, hI⟩ := reach_inv hq F.B.reach
  obtain ⟨k, k1, k2, k3⟩ := third_cell hd hq F.B.reach hA.edg hA.vmem hA.org hA.pos
  obtain ⟨l, l1, l2, l3⟩ := third_cell hd hq F.B.reach (hA.edg.symm hI.dinv) hA.wmem hA.torg hA.tpos
  have hins : StrictlyInside poly.points z := by
    have hP := F.B.fits.toFitsPolygon
    by_cases hc : InClosed poly.points z
    · exact (closed_cases hP.convex hc).resolve_right (hP.border z ((C60_vertices hd hq F.B.reach F.B.done z).mpr ⟨v, hA.vmem, hA.pos⟩))
    · have := hA.ins
      rw [(C31_convex hP.convex z).2 (not_closed.mpr hc)] at this
      cases this
  refine ⟨hins, i, j, k, l, ?_, k2, l2, k1, l1⟩
  have hij := hA.edg.ne hI.dinv
  have nd : ∀ a b c : Pt, det a b c < 0 → a ≠ b ∧ b ≠ c ∧ a ≠ c := by
    intro a b c h
    refine ⟨?_, ?_, ?_⟩ <;> rintro rfl <;> unfold det at h <;> linarith
  have hkl : k ≠ l := by
    rintro rfl
    unfold det at k3 l3
    linarith
  have d1 := nd _ _ _ k3
  have d2 := nd _ _ _ l3
  simp only [List.nodup_cons, List.mem_cons, List.not_mem_nil, or_false, not_or, List.nodup_nil, not_false_eq_true, and_true]
  refine ⟨⟨hij, ?_, ?_⟩, ⟨?_, ?_⟩, hkl⟩
  · rintro rfl; exact d1.2.1 rfl
  · rintro rfl; exact d2.2.2 rfl
  · rintro rfl; exact d1.2.2 rfl
  · rintro rfl; exact d2.2.1 rfl

/-- C75: if no more than three cells meet in any point inside the polygon and no corner is between two cells, the clean-up has no effect: the results with and
without it are the same. -/
theorem C75_cleanup_no_effect (hF : FitsCorners pts n poly) (hd : Distinct pts n) (hq : q.Spec evLt ok) (hn : 0 < n) (hf : 7 * n < fuel)
    (h3 : ThreeMeet pts n poly) (hN : NoTies pts n poly) : createDiagram pts q n fuel poly true (initSt poly) = createDiagram pts q n fuel poly false (initSt poly) := by
  obtain ⟨s, s1, s2, s0, s', vs, V, cell, F, h0, h1, hs0, hnd, hcu, hlog, _⟩ := clean_runs (fuel := fuel) hF hd hq hn hf
  rw [h0, h1]
  have hall : ∀ e ∈ s2.edges, e ∈ s'.edges := by
    intro e he
    refine (hcu.kept e he).mpr fun t ht heq => ?_
    have hfl : Flat s2.d e := fun t' ht' => by rw [ht] at ht'; cases ht'; exact heq
    obtain ⟨_, t, i, j, v, w, z, hA⟩ := (F.flat_at he hfl).resolve_right fun ⟨j, hj, _, hh⟩ => F.B.edge_ne' hN hj hh
    obtain ⟨hi, a, b, c, d, k1, k2, k3, k4, k5⟩ := F.flat_nodup hA
    exact h3 z a b c d hi k1 k2 k3 k4 k5
  have hr : s'.edges = s2.edges := by
    refine hcu.sub.eq_of_length ?_
    exact ((List.perm_ext_iff_of_nodup (hcu.sub.nodup hnd) hnd).mpr fun e => ⟨fun h => hcu.sub.subset h, hall e⟩).length_eq
  have hid := hcu.id hr
  have : s' = s0 := by
    have h2 : s' = { ({ s' with edges := s2.edges, log := s2.log } : St ℝ) with edges := s'.edges, log := s'.log } := rfl
    rw [hid, hr, hlog] at h2
    rw [h2, hs0]
  rw [this]

/-! ### Four sites on a circle -/

/-- Four sites on a circle around `(0, 100)`. -/
noncomputable def square4 : Nat → ℝ × ℝ := fun i => if i = 0 then (1, 100) else if i = 1 then (0, 101) else if i = 2 then (-1, 100) else (0, 99)

theorem square4_distinct : Distinct square4 4 := by
  intro p hp r hr he
  have h1 : p = 0 ∨ p = 1 ∨ p = 2 ∨ p = 3 := by omega
  have h2 : r = 0 ∨ r = 1 ∨ r = 2 ∨ r = 3 := by omega
  rcases h1 with rfl | rfl | rfl | rfl <;> rcases h2 with rfl | rfl | rfl | rfl <;>
    first
    | rfl
    | (exfalso; norm_num [square4] at he)

theorem square4_vertex {z : ℝ × ℝ} (h : VoronoiVertex square4 4 z) : z = (0, 100) := by
  obtain ⟨a, b, c, hab, hbc, hac, ha, hb, hc⟩ := h
  have key : ∀ p r, Nearest square4 4 p z → Nearest square4 4 r z → sqDist (square4 p) z = sqDist (square4 r) z :=
    fun p r hp hr => le_antisymm (hp.2 r hr.1) (hr.2 p hp.1)
  have e1 := key a b ha hb
  have e2 := key b c hb hc
  have ha' := ha.1
  have hb' := hb.1
  have hc' := hc.1
  obtain ⟨x, y⟩ := z
  have h1 : a = 0 ∨ a = 1 ∨ a = 2 ∨ a = 3 := by omega
  have h2 : b = 0 ∨ b = 1 ∨ b = 2 ∨ b = 3 := by omega
  have h3 : c = 0 ∨ c = 1 ∨ c = 2 ∨ c = 3 := by omega
  unfold sqDist at e1 e2
  rcases h1 with rfl | rfl | rfl | rfl <;> rcases h2 with rfl | rfl | rfl | rfl <;> rcases h3 with rfl | rfl | rfl | rfl <;>
    first
    | exact absurd rfl hab
    | exact absurd rfl hbc
    | exact absurd rfl hac
    | (norm_num [square4] at e1 e2
       exact Prod.ext (by simp only; linarith) (by simp only; linarith))

theorem square4_border {poly : Poly ℝ} (hp : boundingBox (-3) 4 98 106 = .ok poly) : FitsBorder square4 4 poly := by
  refine fits_border_box square4_distinct (by norm_num) (by norm_num) (by norm_num) (by norm_num) ?_ ?_ ?_ ?_ hp
  · intro p hp
    rcases (by omega : p = 0 ∨ p = 1 ∨ p = 2 ∨ p = 3) with rfl | rfl | rfl | rfl <;> norm_num [square4]
  · intro z hz hb
    refine hb.not_inside ((box_inside (by norm_num) (by norm_num) z).mpr ?_)
    rw [square4_vertex hz]
    norm_num
  · intro p r z _ hz _ _
    rw [square4_vertex hz]
    norm_num
  · intro p r h1 h2
    have hp := h1.1
    have hr := h2.1
    have k0 := h1.2 0 (by norm_num)
    have k1 := h1.2 1 (by norm_num)
    have k2 := h1.2 2 (by norm_num)
    have m0 := h2.2 0 (by norm_num)
    have m1 := h2.2 1 (by norm_num)
    have m2 := h2.2 2 (by norm_num)
    rcases (by omega : p = 0 ∨ p = 1 ∨ p = 2 ∨ p = 3) with rfl | rfl | rfl | rfl <;> rcases (by omega : r = 0 ∨ r = 1 ∨ r = 2 ∨ r = 3) with rfl | rfl | rfl | rfl <;>
      first
      | rfl
      | (exfalso
         revert k0 k1 k2 m0 m1 m2; norm_num [square4, sqDist])

/-- The hypotheses of C74 can be met with four sites on a circle. -/
example : ∃ poly s', boundingBox (-3 : ℝ) 4 98 106 = .ok poly ∧ createDiagram square4 heapq 4 30 poly true (initSt poly) = .ok ((), s') := by
  have hp := box_points (show (-3 : ℝ) < 4 by norm_num) (show (98 : ℝ) < 106 by norm_num)
  obtain ⟨_, s', _, h, _⟩ := C74_cleanup_succeeds (fuel := 30) (square4_border hp).toFitsCorners square4_distinct C45_event_queue (by norm_num) (by norm_num)
  exact ⟨_, s', hp, h⟩

/-- And those of C75 with three sites. -/
example : ∃ poly, boundingBox (-1 : ℝ) 3 99 104 = .ok poly ∧
    createDiagram high3 heapq 3 22 poly true (initSt poly) = createDiagram high3 heapq 3 22 poly false (initSt poly) := by
  have hp := box_points (show (-1 : ℝ) < 3 by norm_num) (show (99 : ℝ) < 104 by norm_num)
  refine ⟨_, hp, C75_cleanup_no_effect (high3_border hp).toFitsCorners high3_distinct C45_event_queue (by norm_num) (by norm_num) ?_
    (box_noTies (by norm_num) (by norm_num) high3_corner hp)⟩
  intro z a b c d _ hnd ha hb hc hd
  have := ha.1
  have := hb.1
  have := hc.1
  have := hd.1
  simp only [List.nodup_cons, List.mem_cons, List.not_mem_nil, or_false, not_or, List.nodup_nil, not_false_eq_true, and_true] at hnd
  omega

end Foronoi
