import Verif.Proof.CellNext

/-!
# C70: the border of the polygon is divided among the cells as the Voronoi diagram divides it
-/

namespace Foronoi

open scoped List

variable {pts : Nat → ℝ × ℝ} {q : PQ (QE ℝ)} {ok : List (QE ℝ) → Prop} {n fuel : Nat} {rz : Bool} {poly : Poly ℝ} {s' : St ℝ}

/-- The stages of a run, with what is known about each. -/
theorem create_closing (hF : FitsCorners pts n poly) (hd : Distinct pts n) (hq : q.Spec evLt ok) (hn : 0 < n)
    (h : createDiagram pts q n fuel poly rz (initSt poly) = .ok ((), s')) :
    ∃ s s1 s2 vs V cell, Closing pts q ok n poly s s1 s2 vs V cell ∧ (s.d.heCnt = s1.d.heCnt) ∧
      s2.edges = s1.edges ++ (List.range vs.length).map (fun j => s1.d.heCnt + 2 * j + 1) ∧
      (if rz then CU s2.edges s2 s'.edges { s' with edges := s2.edges, log := s2.log } else s' = { s2 with log := s'.log }) := by
  have hne : poly.points ≠ [] := by
    intro hh
    have := hF.convex.1
    rw [hh] at this; simp at this
  obtain ⟨sr, s0, s1, s2, vs, V, cell, hr, hp, h0, hs, hst⟩ := createDiagram_stages hq hn hne h
  subst h0
  obtain ⟨L, hI⟩ := reach_inv hq hr
  have hfe := hst.fe
  refine ⟨sr, s1, s2, vs, V, cell, ⟨⟨hF, hd, hq, hr, (hq.pop_none _ hI.qinv.ok).mp hp, ?_⟩, hst.fp⟩, hfe.keeps.heCnt.symm, by rw [hst.fp.eq], hst.cu⟩
  exact ⟨hfe.ok, hfe.keeps, hfe.sub, hfe.good, hfe.pos, hfe.pv, hfe.from_, hfe.org, hfe.links⟩

section
variable {s s1 s2 : St ℝ} {vs : List Nat} {V : Nat → Nat} {cell : Nat}

/-- The last stage changes no twins, sites or ends. -/
theorem cleaned (hcu : if rz then CU s2.edges s2 s'.edges { s' with edges := s2.edges, log := s2.log } else s' = { s2 with log := s'.log }) :
    (∀ f, (s'.d.he f).twin = (s2.d.he f).twin) ∧ (∀ f, (s'.d.he f).incident = (s2.d.he f).incident) ∧ (∀ f, opos s'.d f = opos s2.d f) ∧
      (∀ e ∈ s'.edges, e ∈ s2.edges) ∧ ∀ e ∈ s2.edges, (∀ t, (s2.d.he e).twin = some t → opos s2.d e ≠ opos s2.d t) → e ∈ s'.edges := by
  cases rz with
  | false =>
    simp only [Bool.false_eq_true, if_false] at hcu
    have e1 : s'.d = s2.d := by rw [hcu]
    have e2 : s'.edges = s2.edges := by rw [hcu]
    rw [e1, e2]
    exact ⟨fun _ => rfl, fun _ => rfl, fun _ => rfl, fun _ h => h, fun _ h _ => h⟩
  | true =>
    simp only [if_true] at hcu
    exact ⟨hcu.same.twin, hcu.same.inc, hcu.opos, fun e he => hcu.sub.subset he, fun e he h => (hcu.kept e he).mpr h⟩

end

/-- C70: a listed edge without a cell on its other side is a piece of one side of the polygon, in clockwise direction, and the cell it belongs
to is that of a site nearest to all its points.  With the clean-up, or if no corner is between two cells, its ends are different. -/
theorem C70_border_sound (hF : FitsCorners pts n poly) (hd : Distinct pts n) (hq : q.Spec evLt ok) (hn : 0 < n)
    (h : createDiagram pts q n fuel poly rz (initSt poly) = .ok ((), s')) {e t : Nat} (he : e ∈ s'.edges) (ht : (s'.d.he e).twin = some t)
    (hi : (s'.d.he t).incident = none) :
    ∃ p a b k, (s'.d.he e).incident = some p ∧ OriginAt s'.d e a ∧ TargetAt s'.d e b ∧ (rz = true ∨ NoTies pts n poly → a ≠ b) ∧ OnSide poly.points k a ∧ OnSide poly.points k b ∧
      Between a (corner poly.points (k + 1)) b ∧ ∀ z, Between a b z → Nearest pts n p z := by
  obtain ⟨s, s1, s2, vs, V, cell, B, hcnt, hed, hcu⟩ := create_closing hF hd hq hn h
  obtain ⟨c1, c2, c3, c4, _⟩ := cleaned hcu
  obtain ⟨L, hI⟩ := reach_inv B.spec B.reach
  have he2 := c4 e he
  rw [hed] at he2
  rw [c1] at ht
  rw [c2] at hi
  rcases List.mem_append.mp he2 with he2 | he2
  · exfalso
    have hel : e < s.d.heCnt := hI.dinv.elt e (B.clip.sub.subset he2)
    obtain ⟨t', p, r, hE⟩ := B.edg hel
    rw [B.fp.binv.twin e (by omega), B.clip.keeps.twin, hE.tw, Option.some.injEq] at ht
    subst ht
    have := (hE.symm hI.dinv).lt
    rw [B.fp.binv.inc t' (by omega), B.clip.keeps.inc, hE.tinc] at hi
    cases hi
  obtain ⟨j, hj, rfl⟩ := List.mem_map.mp he2
  have hj := List.mem_range.mp hj
  obtain ⟨b1, b2, b3, b4, b5⟩ := B.border hj
  rw [b1, Option.some.injEq] at ht
  subst ht
  obtain ⟨p, l1, l2⟩ := B.labels hn hj
  obtain ⟨⟨k, s1', s2'⟩, hturn⟩ := B.ring.step hF.convex hF.center B.keySorted hj
  refine ⟨p, _, _, k, by rw [c2, b3, l1], originAt_iff.mpr (by rw [c3, b4]), (targetAt_iff (by rw [c1, b1])).mpr (by rw [c3, b5]), ?_, s1', s2', ?_, l2⟩
  · rintro (rfl | hN)
    · simp only [if_true] at hcu
      intro he'
      refine (hcu.kept _ (by rw [hed]; exact List.mem_append_right _ he2)).mp he _ b1 ?_
      rw [b4, b5, he']
    · exact B.edge_ne' hN hj
  exact side_order hF.center s1' s2' hturn

/-- C70: every border point is on a listed border edge of every site nearest to it. -/
theorem C70_border_complete (hF : FitsCorners pts n poly) (hd : Distinct pts n) (hq : q.Spec evLt ok)
    (h : createDiagram pts q n fuel poly rz (initSt poly) = .ok ((), s')) {p : Nat} {z : ℝ × ℝ} (hz : OnBoundary poly.points z) (hp : Nearest pts n p z) :
    ∃ e ∈ s'.edges, ∃ t a b, (s'.d.he e).twin = some t ∧ (s'.d.he t).incident = none ∧ (s'.d.he e).incident = some p ∧ OriginAt s'.d e a ∧ TargetAt s'.d e b ∧
      Between a b z := by
  have hn : 0 < n := by have := hp.1; omega
  obtain ⟨s, s1, s2, vs, V, cell, B, hcnt, hed, hcu⟩ := create_closing hF hd hq hn h
  obtain ⟨c1, c2, c3, c4, c5⟩ := cleaned hcu
  obtain ⟨j, hj, l1, l2, l3⟩ := B.cover hn hz hp
  obtain ⟨b1, b2, b3, b4, b5⟩ := B.border hj
  refine ⟨s1.d.heCnt + 2 * j + 1, c5 _ ?_ ?_, s1.d.heCnt + 2 * j, _, _, by rw [c1, b1], by rw [c2, b2], by rw [c2, b3, l1],
    originAt_iff.mpr (by rw [c3, b4]), (targetAt_iff (by rw [c1, b1])).mpr (by rw [c3, b5]), l2⟩
  · rw [hed]
    exact List.mem_append_right _ (List.mem_map.mpr ⟨j, List.mem_range.mpr hj, rfl⟩)
  · intro t ht
    rw [b1, Option.some.injEq] at ht
    subst ht
    rw [b4, b5]
    exact fun hh => l3 (Option.some.inj hh)

/-- A box with no Voronoi vertex on its border and none above it between two neighbours in the topmost row, that is higher above the axis than
any of its points is away from any site, whose upper left corner is not between two cells, and through whose interior
each bisector passes that is between two cells at its border. -/
theorem fits_corners_far {l r b t : ℝ} (hlr : l < r) (hbt : b < t) (hn : 0 < n)
    (hfar : ∀ p < n, ∀ z : ℝ × ℝ, l ≤ z.1 → z.1 ≤ r → b ≤ z.2 → z.2 ≤ t → sqDist (pts p) z < t ^ 2)
    (htouch : ∀ p r' z, p ≠ r' → OnBoundary [(l, t), (r, t), (r, b), (l, b)] z → Nearest pts n p z → Nearest pts n r' z →
      ∃ u, StrictlyInside [(l, t), (r, t), (r, b), (l, b)] u ∧ sqDist (pts p) u = sqDist (pts r') u)
    (hv : ∀ z, VoronoiVertex pts n z → ¬ OnBoundary [(l, t), (r, t), (r, b), (l, b)] z)
    (htop : ∀ p r' z, TopRowPair pts n p r' → VoronoiVertex pts n z → Nearest pts n p z → Nearest pts n r' z → z.2 ≤ t)
    (hc : ∀ p r, Nearest pts n p (l, t) → Nearest pts n r (l, t) → p = r) {poly : Poly ℝ}
    (hp : boundingBox l r b t = .ok poly) : FitsCorners pts n poly := by
  have hF := fits_far hlr hbt hn hfar htouch hv htop hp
  have hp' := hp
  rw [box_points hlr hbt, Except.ok.injEq] at hp'
  refine ⟨hF, ⟨_, hp⟩, ?_, ?_⟩
  · rw [← hp']
    refine (box_inside hlr hbt _).mpr ⟨?_, ?_, ?_, ?_⟩ <;> simp only <;> linarith
  · rw [← hp']
    exact hc

/-- In addition the box meets the interiors of all cells. -/
theorem fits_border_far {l r b t : ℝ} (hlr : l < r) (hbt : b < t) (hn : 0 < n)
    (hfar : ∀ p < n, ∀ z : ℝ × ℝ, l ≤ z.1 → z.1 ≤ r → b ≤ z.2 → z.2 ≤ t → sqDist (pts p) z < t ^ 2)
    (hm : ∀ p < n, ∃ c : ℝ × ℝ, (l < c.1 ∧ c.1 < r ∧ b < c.2 ∧ c.2 < t) ∧ ∀ o < n, o ≠ p → sqDist (pts p) c < sqDist (pts o) c)
    (hv : ∀ z, VoronoiVertex pts n z → ¬ OnBoundary [(l, t), (r, t), (r, b), (l, b)] z)
    (htop : ∀ p r' z, TopRowPair pts n p r' → VoronoiVertex pts n z → Nearest pts n p z → Nearest pts n r' z → z.2 ≤ t)
    (hc : ∀ p r, Nearest pts n p (l, t) → Nearest pts n r (l, t) → p = r) {poly : Poly ℝ}
    (hp : boundingBox l r b t = .ok poly) : FitsBorder pts n poly := by
  have hm' : ∀ p < n, ∃ c, StrictlyInside [(l, t), (r, t), (r, b), (l, b)] c ∧ ∀ o < n, o ≠ p → sqDist (pts p) c < sqDist (pts o) c := fun p hp => by
    obtain ⟨c, h1, h2⟩ := hm p hp
    exact ⟨c, (box_inside hlr hbt _).mpr h1, h2⟩
  refine ⟨fits_corners_far hlr hbt hn hfar (fun p r' _ hne _ h1 h2 => by
    obtain ⟨c, c1, c2⟩ := hm' p h1.1
    obtain ⟨d, d1, d2⟩ := hm' r' h2.1
    exact touch_of_meets c1 d1 (c2 r' h2.1 hne.symm) (d2 p h1.1 hne)) hv htop hc hp, ?_⟩
  rw [box_points hlr hbt, Except.ok.injEq] at hp
  rw [← hp]
  exact hm'

/-- A box with all sites, with no Voronoi vertex on its border and none above it between two neighbours in the topmost row, high above the
axis, whose upper left corner is not between two cells. -/
theorem fits_border_box {l r b t : ℝ} (hd : Distinct pts n) (hlr : l < r) (hbt : b < t) (hdiag : (r - l) ^ 2 + (t - b) ^ 2 < t ^ 2) (hn : 0 < n)
    (hs : ∀ p < n, l ≤ (pts p).1 ∧ (pts p).1 ≤ r ∧ b ≤ (pts p).2 ∧ (pts p).2 ≤ t)
    (hv : ∀ z, VoronoiVertex pts n z → ¬ OnBoundary [(l, t), (r, t), (r, b), (l, b)] z)
    (htop : ∀ p r' z, TopRowPair pts n p r' → VoronoiVertex pts n z → Nearest pts n p z → Nearest pts n r' z → z.2 ≤ t)
    (hc : ∀ p r, Nearest pts n p (l, t) → Nearest pts n r (l, t) → p = r) {poly : Poly ℝ}
    (hp : boundingBox l r b t = .ok poly) : FitsBorder pts n poly := by
  refine fits_border_far hlr hbt hn (box_far hdiag hs) (fun p hp => ?_) hv htop hc hp
  obtain ⟨c, h1, h2⟩ := meets_of_sites (w := ((l + r) / 2, (b + t) / 2)) (l := [(l, t), (r, t), (r, b), (l, b)])
    ((box_inside hlr hbt _).mpr ⟨by simp only; linarith, by simp only; linarith, by simp only; linarith, by simp only; linarith⟩)
    (fun p hp => (box_closed hlr hbt _).mpr (hs p hp)) hd hp
  exact ⟨c, (box_inside hlr hbt _).mp h1, h2⟩

/-- No corner of a box is between two cells. -/
theorem box_noTies {l r b t : ℝ} (hlr : l < r) (hbt : b < t)
    (hc : ∀ z ∈ [((l, t) : ℝ × ℝ), (r, t), (r, b), (l, b)], ∀ p r, Nearest pts n p z → Nearest pts n r z → p = r) {poly : Poly ℝ}
    (hp : boundingBox l r b t = .ok poly) : NoTies pts n poly := by
  rw [box_points hlr hbt, Except.ok.injEq] at hp
  intro k hk p o h1 h2
  rw [corner_eq hk] at h1 h2
  refine hc _ ?_ p o h1 h2
  have : poly.points = [((l, t) : ℝ × ℝ), (r, t), (r, b), (l, b)] := by rw [← hp]
  rw [← this]
  exact List.getElem_mem hk

theorem high3_corner : ∀ z ∈ [((-1, 104) : ℝ × ℝ), (3, 104), (3, 99), (-1, 99)], ∀ p r, Nearest high3 3 p z → Nearest high3 3 r z → p = r := by
  intro z hz p r h1 h2
  by_contra hne
  have hp := h1.1
  have hr := h2.1
  have k0 := h1.2 0 (by norm_num)
  have k1 := h1.2 1 (by norm_num)
  have k2 := h1.2 2 (by norm_num)
  have m0 := h2.2 0 (by norm_num)
  have m1 := h2.2 1 (by norm_num)
  have m2 := h2.2 2 (by norm_num)
  rcases (by omega : p = 0 ∨ p = 1 ∨ p = 2) with rfl | rfl | rfl <;> rcases (by omega : r = 0 ∨ r = 1 ∨ r = 2) with rfl | rfl | rfl <;>
    first
    | exact hne rfl
    | (simp only [List.mem_cons, List.not_mem_nil, or_false] at hz
       rcases hz with rfl | rfl | rfl | rfl <;> revert k0 k1 k2 m0 m1 m2 <;> norm_num [high3, sqDist])

theorem high3_border {poly : Poly ℝ} (hp : boundingBox (-1) 3 99 104 = .ok poly) : FitsBorder high3 3 poly := by
  refine fits_border_box high3_distinct (by norm_num) (by norm_num) (by norm_num) (by norm_num) ?_ ?_ ?_ ?_ hp
  · intro p hp
    rcases (by omega : p = 0 ∨ p = 1 ∨ p = 2) with rfl | rfl | rfl <;> norm_num [high3]
  · intro z hz hb
    refine hb.not_inside ((box_inside (by norm_num) (by norm_num) z).mpr ?_)
    rw [high3_vertex hz]
    norm_num
  · intro p r z _ hz _ _
    rw [high3_vertex hz]
    norm_num
  · exact high3_corner _ (List.mem_cons_self ..)

/-- The hypotheses can be met: three sites in a box.  The point `(1, 99)` in the middle of the lower side is on a border edge of the cell of
site 0 and on one of the cell of site 1. -/
example : ∃ poly s', boundingBox (-1 : ℝ) 3 99 104 = .ok poly ∧ createDiagram high3 heapq 3 22 poly false (initSt poly) = .ok ((), s') ∧
    FitsBorder high3 3 poly ∧ ∀ p < 2, ∃ e ∈ s'.edges, ∃ t a b, (s'.d.he e).twin = some t ∧ (s'.d.he t).incident = none ∧ (s'.d.he e).incident = some p ∧
      OriginAt s'.d e a ∧ TargetAt s'.d e b ∧ Between a b (1, 99) := by
  have hp := box_points (show (-1 : ℝ) < 3 by norm_num) (show (99 : ℝ) < 104 by norm_num)
  have hF := high3_border hp
  obtain ⟨⟨s', hs'⟩, _⟩ := C58_create_succeeds high3_distinct C45_event_queue (by norm_num) (by simp) (fun i hi => (hF.low i hi).le) (fuel := 22) (by norm_num)
  refine ⟨_, s', hp, hs', hF, fun p hp => C70_border_complete hF.toFitsCorners high3_distinct C45_event_queue hs' ?_ ?_⟩
  · refine ⟨2, by simp, 1 / 2, by norm_num, by norm_num, ?_⟩
    simp only [corner]
    norm_num
  · refine ⟨by omega, fun c hc => ?_⟩
    have h1 : p = 0 ∨ p = 1 := by omega
    have h2 : c = 0 ∨ c = 1 ∨ c = 2 := by omega
    rcases h1 with rfl | rfl <;> rcases h2 with rfl | rfl | rfl <;> norm_num [high3, sqDist]

end Foronoi
