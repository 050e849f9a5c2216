import Verif.Props.AnySites
import Verif.Props.Unique

/-!
# C128: the sites on the other side of the borders of a cell are its neighbours
-/

namespace Foronoi

open scoped List

variable {pts : Nat → ℝ × ℝ} {q : PQ (QE ℝ)} {ok : List (QE ℝ) → Prop} {n : Nat} {rz : Bool} {poly : Poly ℝ} {s s1 s2 s' : St ℝ} {vs : List Nat} {V : Nat → Nat}
  {cell fuel : Nat}

/-- The cells of `p` and `r` have a common border in the interior of the polygon: a point inside to which exactly the two are nearest. -/
def Neighbours (pts : Nat → ℝ × ℝ) (n : Nat) (poly : Poly ℝ) (p r : Nat) : Prop :=
  p ≠ r ∧ ∃ z, StrictlyInside poly.points z ∧ Nearest pts n p z ∧ Nearest pts n r z ∧ ∀ o, Nearest pts n o z → o = p ∨ o = r

theorem Neighbours.symm {p r : Nat} (h : Neighbours pts n poly p r) : Neighbours pts n poly r p := by
  obtain ⟨h1, z, h2, h3, h4, h5⟩ := h
  exact ⟨h1.symm, z, h2, h4, h3, fun o ho => (h5 o ho).symm⟩

/-- Three points are not all equally far from each of two points. -/
theorem two_centers {a b c z w : Pt} (hab : a ≠ b) (hac : a ≠ c) (hbc : b ≠ c) (hzw : z ≠ w) (h1 : sqDist a z = sqDist b z) (h2 : sqDist a z = sqDist c z)
    (h3 : sqDist a w = sqDist b w) (h4 : sqDist a w = sqDist c w) : False := by
  exact hzw (center_unique (circle_det (z := z) (R := sqDist a z) rfl h1.symm h2.symm hab hac hbc) h1.symm h2.symm h3.symm h4.symm)

/-- In the middle of a common border of two cells no third site is nearest. -/
theorem middle_two (hd : Distinct pts n) {p r o : Nat} (hpr : p ≠ r) {x y : Pt} (hxy : x ≠ y) (hpx : Nearest pts n p x) (hrx : Nearest pts n r x)
    (hpy : Nearest pts n p y) (hry : Nearest pts n r y) (ho : Nearest pts n o (along x y (1 / 2))) : o = p ∨ o = r := by
  by_contra hh
  push Not at hh
  have e := along_diff (pts o) (pts p) x y (1 / 2)
  have h0 : dsq (pts o) (along x y (1 / 2)) ≤ dsq (pts p) (along x y (1 / 2)) := ho.2 p hpx.1
  have h1 : dsq (pts p) x ≤ dsq (pts o) x := hpx.2 o ho.1
  have h2 : dsq (pts p) y ≤ dsq (pts o) y := hpy.2 o ho.1
  have e1 : dsq (pts p) x = dsq (pts o) x := by linarith
  have e2 : dsq (pts p) y = dsq (pts o) y := by linarith
  have ne : ∀ {i j : Nat}, i < n → j < n → i ≠ j → pts i ≠ pts j := fun hi hj hij h => hij (hd _ hi _ hj h)
  exact two_centers (ne hpx.1 hrx.1 hpr) (ne hpx.1 ho.1 hh.1.symm) (ne hrx.1 ho.1 hh.2.symm) hxy (hpx.eq hrx) e1 (hpy.eq hry) e2

namespace Finish

variable (F : Finish pts q ok n poly rz s s1 s2 s' vs V cell)
include F

/-- A half-edge of the result between two cells. -/
theorem between_cells {p r f : Nat} (hf : HalfEdgeOf s'.d s'.edges f) (hs : Separates s'.d f p r) :
    ∃ t x y, Edg s.d f t p r ∧ opos s1.d f = some x ∧ opos s1.d t = some y ∧ OriginAt s'.d f x ∧ TargetAt s'.d f y := by
  have B := F.B
  obtain ⟨L, hI⟩ := reach_inv B.spec B.reach
  obtain ⟨hi, t, ht, hti⟩ := hs
  obtain ⟨hc, _⟩ := F.live_iff.mp ⟨hf, hi⟩
  rcases hc with ⟨hk, hp⟩ | ⟨j, hj, rfl, hl⟩
  · obtain ⟨t', i, o, hE⟩ := B.edg (B.kept_lt hk)
    have e := hE.inc
    rw [hp, Option.some.injEq] at e
    subst e
    have het := hE.symm hI.dinv
    rw [F.twin, B.twin2 hE.lt, hE.tw, Option.some.injEq] at ht
    subst ht
    rw [F.inc, B.inc2 het.lt, het.inc, Option.some.injEq] at hti
    subst hti
    obtain ⟨x, hx⟩ := Option.isSome_iff_exists.mp ((B.half hE).1.mpr hk)
    obtain ⟨y, hy⟩ := B.ends hE hx
    refine ⟨t', x, y, hE, hx, hy, originAt_iff.mpr (by rw [F.op, B.opos2 hE.lt, hx]), (targetAt_iff (by rw [F.twin, B.twin2 hE.lt, hE.tw])).mpr
      (by rw [F.op, B.opos2 het.lt, hy])⟩
  · obtain ⟨b1, b2, _⟩ := B.border hj
    rw [F.twin, b1, Option.some.injEq] at ht
    subst ht
    rw [F.inc, b2] at hti; cases hti

/-- If it has a length in the result, it had one when the sweep had ended. -/
theorem length_before {p r f t : Nat} {x y : Pt} (hE : Edg s.d f t p r) (hx : opos s1.d f = some x) (hy : opos s1.d t = some y) (hxy : x ≠ y) : HasLength s.d f := by
  have B := F.B
  have hF := B.fits.toFitsPolygon
  obtain ⟨L, hI⟩ := reach_inv B.spec B.reach
  have key : ∀ {e t i j : Nat} {x y : Pt}, Edg s.d e t i j → e ∈ s.edges → opos s1.d e = some x → opos s1.d t = some y → x ≠ y → HasLength s.d e := by
    intro e t i j x y hE he hx hy hxy
    rintro ⟨v, w, z, g1, ⟨t', g2, g3⟩, g4, g5⟩
    rw [hE.tw, Option.some.injEq] at g2
    subst g2
    obtain ⟨xa, xb, h1, h2, h3, h4, h5⟩ := B.clip.pos e he t hE.tw
    obtain ⟨a, b, E⟩ := edge_ends hF B.dist B.spec B.reach B.done hE
    have ha : a = z := (E.va z (by rw [opos_vtx g1, g4])).1
    have hb : b = z := (E.vb z (by rw [opos_vtx g3, g5])).1
    rw [E.ra, E.rb] at h1
    rw [E.rb] at h2
    obtain ⟨c1, _⟩ := clip_two hF.convex E.ca E.cb h1 h2
    obtain ⟨_, _, ⟨u, _, _, k1⟩, ⟨u', _, _, k2⟩, _⟩ := c1 x y (by rw [← h3, hx]) (by rw [← h4, hy])
    refine hxy ?_
    rw [k1, k2, ha, hb]
    apply Prod.ext <;> simp only <;> ring
  have het := hE.symm hI.dinv
  by_cases hf : f ∈ s.edges
  · exact key hE hf hx hy hxy
  · have ht : t ∈ s.edges := by
      by_contra hh
      exact hf ((hI.dinv.etw f hE.lt t hE.tw).mpr hh)
    exact hasLength_twin hE.tw het.tw (key het ht hy hx hxy.symm)

end Finish

/-- C128: two cells have a common border in the interior of the polygon exactly if one of the borders of the one cell has a length and the other cell on its other
side. -/
theorem C128_neighbours (hF : FitsCorners pts n poly) (hd : Distinct pts n) (hq : q.Spec evLt ok)
    (h : createDiagram pts q n fuel poly rz (initSt poly) = .ok ((), s')) {p r : Nat} (hS : Shown pts n poly p) {fuel' : Nat} (hfuel : s'.d.heCnt ≤ fuel') {l : List Nat}
    (hl : borders fuel' p s'.d = .ok (l, s'.d)) :
    Neighbours pts n poly p r ↔ ∃ e ∈ l, Separates s'.d e p r ∧ ∃ x y, OriginAt s'.d e x ∧ TargetAt s'.d e y ∧ x ≠ y := by
  have hn : 0 < n := Nat.zero_lt_of_lt hS.lt
  obtain ⟨l', h1, h2⟩ := C71_borders hF hd hq h hS hfuel
  rw [hl, Except.ok.injEq, Prod.mk.injEq] at h1
  obtain ⟨rfl, _⟩ := h1
  obtain ⟨s, s1, s2, vs, V, cell, F⟩ := create_finish hF hd hq hn h
  obtain ⟨L, hI⟩ := reach_inv F.B.spec F.B.reach
  constructor
  · rintro ⟨hpr, z, hz, hp, hr, ho⟩
    have hv : ¬ VoronoiVertex pts n z := by
      rintro ⟨a, b, c, hab, hbc, hac, ha, hb, hc⟩
      rcases ho a ha with rfl | rfl <;> rcases ho b hb with rfl | rfl <;> rcases ho c hc with rfl | rfl <;> simp_all
    obtain ⟨e, he, hs, a, b, hea, heb, hab⟩ := C65_edges_complete hF.toFitsPolygon hd hq h hpr hz hp hr hv
    have hne : a ≠ b := by
      rintro rfl
      have : z = a := by
        obtain ⟨u, _, _, rfl⟩ := hab
        apply Prod.ext <;> simp only <;> ring
      have hk : VoronoiVertex pts n a ∨ OnBoundary poly.points a := by
        rcases hs with hs | hs <;> obtain ⟨a', b', k1, _, k3, _⟩ := C65_edges_sound hF.toFitsPolygon hd hq hn h he hs
        all_goals
          rw [originAt_iff] at hea k1
          rw [hea, Option.some.injEq] at k1
          rw [k1]; exact k3
      rw [← this] at hk
      rcases hk with hk | ⟨i, hi, hk⟩
      · exact hv hk
      · have := rightOf_side hk
        have := hz i hi
        simp_all
    obtain ⟨t, p', a', b', Hl⟩ := F.listed he
    rcases hs with hs | hs
    · exact ⟨e, (h2.all e).mpr ⟨Or.inl he, hs.1⟩, hs, a, b, hea, heb, hne⟩
    · obtain ⟨g1, t', g2, g3⟩ := hs
      rw [Hl.tw, Option.some.injEq] at g2
      subst g2
      rw [originAt_iff] at hea
      rw [targetAt_iff Hl.tw] at heb
      exact ⟨t, (h2.all t).mpr ⟨Or.inr ⟨e, he, Hl.tw⟩, g3⟩, ⟨g3, e, Hl.ttw, g1⟩, b, a, originAt_iff.mpr heb, (targetAt_iff Hl.ttw).mpr hea, hne.symm⟩
  · rintro ⟨e, he, hs, x, y, hx, hy, hxy⟩
    obtain ⟨hf, _⟩ := (h2.all e).mp he
    obtain ⟨t, x', y', hE, ox, oy, hx', hy'⟩ := F.between_cells hf hs
    have ex : x' = x := by rw [originAt_iff] at hx hx'; rw [hx, Option.some.injEq] at hx'; exact hx'.symm
    have tw : (s'.d.he e).twin = some t := by rw [F.twin, F.B.twin2 hE.lt, hE.tw]
    have ey : y' = y := by rw [targetAt_iff tw] at hy hy'; rw [hy, Option.some.injEq] at hy'; exact hy'.symm
    subst ex; subst ey
    have hpr := hE.ne hI.dinv
    obtain ⟨_, ⟨z, hz, hb⟩, _, hall⟩ := (F.B.half hE).2.2.1 x' y' ox oy
    obtain ⟨_, nx1, nx2⟩ := hall x' (between_left _ _)
    obtain ⟨_, ny1, ny2⟩ := hall y' (between_right _ _)
    obtain ⟨_, nz1, nz2⟩ := hall z hb
    have fin : ∀ w, w ≠ z → InClosed poly.points w → Nearest pts n p w → Nearest pts n r w → Neighbours pts n poly p r := by
      intro w hw hc n1 n2
      have b : Between w z (along w z (1 / 2)) := along_between (by norm_num) (by norm_num)
      refine ⟨hpr, along w z (1 / 2), along_inside hc hz (by norm_num) (by norm_num), ?_, ?_, fun o ho => middle_two hd hpr hw n1 n2 nz1 nz2 ho⟩
      · exact n1.between nz1 b
      · exact n2.between nz2 b
    by_cases hxz : x' = z
    · exact fin y' (fun hh => hxy (hxz.trans hh.symm)) (hall y' (between_right _ _)).1 ny1 ny2
    · exact fin x' hxz (hall x' (between_left _ _)).1 nx1 nx2

/-- C128: each neighbour is on the other side of one border only. -/
theorem C128_once (hF : FitsCorners pts n poly) (hd : Distinct pts n) (hq : q.Spec evLt ok)
    (h : createDiagram pts q n fuel poly rz (initSt poly) = .ok ((), s')) {p r : Nat} (hS : Shown pts n poly p) {fuel' : Nat} (hfuel : s'.d.heCnt ≤ fuel') {l : List Nat}
    (hl : borders fuel' p s'.d = .ok (l, s'.d)) {e e' : Nat} (he : e ∈ l) (he' : e' ∈ l) (hs : Separates s'.d e p r) (hs' : Separates s'.d e' p r)
    (hlen : ∃ x y, OriginAt s'.d e x ∧ TargetAt s'.d e y ∧ x ≠ y) (hlen' : ∃ x y, OriginAt s'.d e' x ∧ TargetAt s'.d e' y ∧ x ≠ y) : e = e' := by
  have hn : 0 < n := Nat.zero_lt_of_lt hS.lt
  obtain ⟨l', h1, h2⟩ := C71_borders hF hd hq h hS hfuel
  rw [hl, Except.ok.injEq, Prod.mk.injEq] at h1
  obtain ⟨rfl, _⟩ := h1
  obtain ⟨s, s1, s2, vs, V, cell, F⟩ := create_finish hF hd hq hn h
  have key : ∀ {e}, e ∈ l → Separates s'.d e p r → (∃ x y, OriginAt s'.d e x ∧ TargetAt s'.d e y ∧ x ≠ y) →
      e < s.d.heCnt ∧ Separates s.d e p r ∧ HasLength s.d e := by
    rintro e he hs ⟨x, y, hx, hy, hxy⟩
    obtain ⟨hf, _⟩ := (h2.all e).mp he
    obtain ⟨t, x', y', hE, ox, oy, hx', hy'⟩ := F.between_cells hf hs
    have ex : x' = x := by rw [originAt_iff] at hx hx'; rw [hx, Option.some.injEq] at hx'; exact hx'.symm
    have tw : (s'.d.he e).twin = some t := by rw [F.twin, F.B.twin2 hE.lt, hE.tw]
    have ey : y' = y := by rw [targetAt_iff tw] at hy hy'; rw [hy, Option.some.injEq] at hy'; exact hy'.symm
    subst ex; subst ey
    exact ⟨hE.lt, ⟨hE.inc, t, hE.tw, hE.tinc⟩, F.length_before hE ox oy hxy⟩
  obtain ⟨a1, a2, a3⟩ := key he hs hlen
  obtain ⟨b1, b2, b3⟩ := key he' hs' hlen'
  exact C69_no_duplicate hd hq F.B.reach F.B.done a1 b1 a2 b2 a3 b3

/-- The sites on the other side of the half-edges `l`: `[b.twin.incident_point for b in l]` without `None`. -/
def across (d : Dcel ℝ) (l : List Nat) : List Nat := l.filterMap fun e => (d.he e).twin.bind fun t => (d.he t).incident

theorem mem_across {d : Dcel ℝ} {l : List Nat} {p r : Nat} (hp : ∀ e ∈ l, (d.he e).incident = some p) : r ∈ across d l ↔ ∃ e ∈ l, Separates d e p r := by
  unfold across
  rw [List.mem_filterMap]
  refine exists_congr fun e => and_congr_right fun he => ?_
  rw [Option.bind_eq_some_iff]
  exact ⟨fun h => ⟨hp e he, h⟩, fun h => h.2⟩

/-- C128 with the default settings: the sites on the other side of the borders of a cell are its neighbours, each once. -/
theorem C128_across (hF : FitsCorners pts n poly) (hd : Distinct pts n) (hq : q.Spec evLt ok)
    (h : createDiagram pts q n fuel poly true (initSt poly) = .ok ((), s')) {p : Nat} (hS : Shown pts n poly p) {fuel' : Nat} (hfuel : s'.d.heCnt ≤ fuel') {l : List Nat}
    (hl : borders fuel' p s'.d = .ok (l, s'.d)) : (across s'.d l).Nodup ∧ ∀ r, r ∈ across s'.d l ↔ Neighbours pts n poly p r := by
  have hn : 0 < n := Nat.zero_lt_of_lt hS.lt
  obtain ⟨l', h1, h2⟩ := C71_borders hF hd hq h hS hfuel
  have hll := hl
  rw [hl, Except.ok.injEq, Prod.mk.injEq] at h1
  obtain ⟨rfl, _⟩ := h1
  obtain ⟨s, s1, s2, vs, V, cell, F⟩ := create_finish hF hd hq hn h
  obtain ⟨_, _, _, _, _, _, hres, _⟩ := create_edge hF.toFitsPolygon hd hq hn h
  have hinc : ∀ e ∈ l, (s'.d.he e).incident = some p := fun e he => ((h2.all e).mp he).2
  have hlen : ∀ e ∈ l, ∃ x y, OriginAt s'.d e x ∧ TargetAt s'.d e y ∧ x ≠ y := by
    intro e he
    rcases ((h2.all e).mp he).1 with h3 | ⟨f, h3, h4⟩
    · obtain ⟨t, x, y, g1, g2, g3, g4⟩ := hres.ends e h3
      exact ⟨x, y, originAt_iff.mpr g2, (targetAt_iff g1).mpr g3, g4 rfl⟩
    · obtain ⟨t, x, y, g1, g2, g3, g4⟩ := hres.ends f h3
      obtain ⟨t', p', a', b', Hl⟩ := F.listed h3
      rw [g1, Option.some.injEq] at h4
      subst h4
      have := Hl.tw
      rw [g1, Option.some.injEq] at this
      subst this
      exact ⟨y, x, originAt_iff.mpr g3, (targetAt_iff Hl.ttw).mpr g2, (g4 rfl).symm⟩
  constructor
  · unfold across
    unfold List.Nodup
    rw [List.pairwise_filterMap]
    refine List.Pairwise.imp_of_mem ?_ h2.once
    rintro a b ha hb hab r hr r' hr' rfl
    rw [Option.bind_eq_some_iff] at hr hr'
    exact hab (C128_once hF hd hq h hS hfuel hll ha hb ⟨hinc a ha, hr⟩ ⟨hinc b hb, hr'⟩ (hlen a ha) (hlen b hb))
  · intro r
    rw [mem_across hinc, C128_neighbours hF hd hq h hS hfuel hll]
    exact ⟨fun ⟨e, he, hs⟩ => ⟨e, he, hs, hlen e he⟩, fun ⟨e, he, hs, _⟩ => ⟨e, he, hs⟩⟩

/-- C128: being a neighbour is mutual. -/
theorem C128_mutual (hF : FitsCorners pts n poly) (hd : Distinct pts n) (hq : q.Spec evLt ok)
    (h : createDiagram pts q n fuel poly true (initSt poly) = .ok ((), s')) {p r : Nat} (hS : Shown pts n poly p) {fuel' : Nat} (hfuel : s'.d.heCnt ≤ fuel') {l : List Nat}
    (hl : borders fuel' p s'.d = .ok (l, s'.d)) (hr : r ∈ across s'.d l) :
    Shown pts n poly r ∧ ∃ l', borders fuel' r s'.d = .ok (l', s'.d) ∧ p ∈ across s'.d l' := by
  have hN := ((C128_across hF hd hq h hS hfuel hl).2 r).mp hr
  have hS' : Shown pts n poly r := by
    obtain ⟨hpr, z, h1, h2, h3, _⟩ := hN
    obtain ⟨c, hc⟩ := mid_of_cell hF hd h1.closed h3
    obtain ⟨c', hc'⟩ := mid_of_cell hF hd h1.closed h2
    exact ⟨h3.1, ⟨c, hc.inside, hc.near⟩, Or.inl ⟨c', hc'.inside, fun hh => absurd (hh.2 p h2.1) (not_le.mpr (hc'.near r h3.1 hpr.symm))⟩⟩
  obtain ⟨l', h1, _⟩ := C71_borders hF hd hq h hS' hfuel
  exact ⟨hS', l', h1, ((C128_across hF hd hq h hS' hfuel h1).2 p).mpr hN.symm⟩

/-- The hypotheses can be met: four sites on a circle.  The cells of opposite sites meet in a point only, so each site has two neighbours. -/
example : ∃ poly s' l, boundingBox (-3 : ℝ) 4 98 106 = .ok poly ∧ createDiagram square4 heapq 4 30 poly true (initSt poly) = .ok ((), s') ∧
    borders s'.d.heCnt 0 s'.d = .ok (l, s'.d) ∧ across s'.d l ~ [1, 3] := by
  have hp := box_points (show (-3 : ℝ) < 4 by norm_num) (show (98 : ℝ) < 106 by norm_num)
  have hB := square4_border hp
  obtain ⟨_, s', _, h, _⟩ := C74_cleanup_succeeds (fuel := 30) hB.toFitsCorners square4_distinct C45_event_queue (by norm_num) (by norm_num)
  have hS := hB.shown (p := 0) (by norm_num)
  obtain ⟨l, hl, _⟩ := C71_borders hB.toFitsCorners square4_distinct C45_event_queue h hS le_rfl
  obtain ⟨h1, h2⟩ := C128_across hB.toFitsCorners square4_distinct C45_event_queue h hS le_rfl hl
  refine ⟨_, s', l, hp, h, hl, (List.perm_ext_iff_of_nodup h1 (by simp)).mpr fun r => ?_⟩
  rw [h2]
  constructor
  · rintro ⟨hne, z, _, n0, nr, ho⟩
    have hr := nr.1
    rcases (by omega : r = 0 ∨ r = 1 ∨ r = 2 ∨ r = 3) with rfl | rfl | rfl | rfl
    · exact absurd rfl hne
    · simp
    · exfalso
      have k2 := n0.2 2 (by norm_num)
      have k1 := n0.2 1 (by norm_num)
      have k3 := n0.2 3 (by norm_num)
      have m0 := nr.2 0 (by norm_num)
      norm_num [square4, sqDist] at k1 k2 k3 m0
      have e1 : z.1 = 0 := by nlinarith
      rw [e1] at k1 k3
      have e2 : z.2 = 100 := by nlinarith
      have : z = (0, 100) := Prod.ext e1 e2
      have := ho 1 ⟨by norm_num, fun o ho => by
        rcases (by omega : o = 0 ∨ o = 1 ∨ o = 2 ∨ o = 3) with rfl | rfl | rfl | rfl <;> rw [this] <;> norm_num [square4, sqDist]⟩
      omega
    · simp
  · intro hr
    have inside : ∀ z : ℝ × ℝ, -3 < z.1 → z.1 < 4 → 98 < z.2 → z.2 < 106 → StrictlyInside [((-3, 106) : ℝ × ℝ), (4, 106), (4, 98), (-3, 98)] z := by
      intro z h1 h2 h3 h4
      exact (box_inside (by norm_num) (by norm_num) z).mpr ⟨h1, h2, h3, h4⟩
    simp only [List.mem_cons, List.not_mem_nil, or_false] at hr
    rcases hr with rfl | rfl
    · refine ⟨by norm_num, (1 / 2, 201 / 2), inside _ (by norm_num) (by norm_num) (by norm_num) (by norm_num), ⟨by norm_num, fun o ho => ?_⟩, ⟨by norm_num, fun o ho => ?_⟩, fun o ho => ?_⟩
      · rcases (by omega : o = 0 ∨ o = 1 ∨ o = 2 ∨ o = 3) with rfl | rfl | rfl | rfl <;> norm_num [square4, sqDist]
      · rcases (by omega : o = 0 ∨ o = 1 ∨ o = 2 ∨ o = 3) with rfl | rfl | rfl | rfl <;> norm_num [square4, sqDist]
      · have := ho.1
        have k := ho.2 0 (by norm_num)
        rcases (by omega : o = 0 ∨ o = 1 ∨ o = 2 ∨ o = 3) with rfl | rfl | rfl | rfl <;> (revert k; norm_num [square4, sqDist])
    · refine ⟨by norm_num, (1 / 2, 199 / 2), inside _ (by norm_num) (by norm_num) (by norm_num) (by norm_num), ⟨by norm_num, fun o ho => ?_⟩, ⟨by norm_num, fun o ho => ?_⟩, fun o ho => ?_⟩
      · rcases (by omega : o = 0 ∨ o = 1 ∨ o = 2 ∨ o = 3) with rfl | rfl | rfl | rfl <;> norm_num [square4, sqDist]
      · rcases (by omega : o = 0 ∨ o = 1 ∨ o = 2 ∨ o = 3) with rfl | rfl | rfl | rfl <;> norm_num [square4, sqDist]
      · have := ho.1
        have k := ho.2 0 (by norm_num)
        rcases (by omega : o = 0 ∨ o = 1 ∨ o = 2 ∨ o = 3) with rfl | rfl | rfl | rfl <;> (revert k; norm_num [square4, sqDist])

end Foronoi
