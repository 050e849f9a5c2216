import Verif.Props.VisArgs
import Verif.Props.Neighbours

/-!
# C133: drawing given points and the pointers of one site
-/

namespace Foronoi

variable {pts : Nat → ℝ × ℝ} {q : PQ (QE ℝ)} {ok : List (QE ℝ) → Prop} {n : Nat} {rz : Bool} {poly : Poly ℝ} {s s1 s2 s' : St ℝ} {vs : List Nat} {V : Nat → Nat}
  {cell fuel : Nat}

theorem Finish.pointers_of (F : Finish pts q ok n poly rz s s1 s2 s' vs V cell) (cv : Canvas ℝ) (w : Option ℝ) (L : List Nat)
    (hL : ∀ e ∈ L, HalfEdgeOf s'.d s'.edges e) : ∃ ds, drawEach (fun e => do
      let x ← plotPointer pts cv s' w e
      let t ← exD (s'.d.he e).twin
      let y ← plotPointer pts cv s' w t
      pure (x ++ y)) L = .ok ds ∧ ∀ d, d ∈ ds ↔ ∃ e r a b, HalfEdgeOf s'.d L e ∧ (s'.d.he e).incident = some r ∧ OriginAt s'.d e a ∧ TargetAt s'.d e b ∧
        d = .line ((a.1 + b.1) / 2, .fin ((a.2 + b.2) / 2)) ((pts r).1, .fin (pts r).2) (if s'.d.fe r = some e then .firstEdge else .pointer) := by
  obtain ⟨ds, hds, hmem⟩ := drawEach_ex (f := fun e => do
    let x ← plotPointer pts cv s' w e
    let t ← exD (s'.d.he e).twin
    let y ← plotPointer pts cv s' w t
    pure (x ++ y)) L (fun e he => by
      obtain ⟨t, a, b, h1, h2, h3, h4⟩ := F.half_both (hL e he)
      exact ⟨_, pointBoth_opos h1 h2 h3 h4⟩)
  refine ⟨ds, hds, fun d => ?_⟩
  rw [hmem]
  constructor
  · rintro ⟨e, he, x, hx, hm⟩
    obtain ⟨t, a, b, h1, h2, h3, h4⟩ := F.half_both (hL e he)
    rw [pointBoth_opos h1 h2 h3 h4, Except.ok.injEq] at hx
    rw [← hx, List.mem_append] at hm
    rcases hm with hm | hm
    · cases hi : (s'.d.he e).incident with
      | none => rw [hi] at hm; cases hm
      | some r =>
        rw [hi] at hm
        exact ⟨e, r, a, b, Or.inl he, hi, originAt_iff.mpr h3, (targetAt_iff h1).mpr h4, List.mem_singleton.mp hm⟩
    · cases hi : (s'.d.he t).incident with
      | none => rw [hi] at hm; cases hm
      | some r =>
        rw [hi] at hm
        exact ⟨t, r, b, a, Or.inr ⟨e, he, h1⟩, hi, originAt_iff.mpr h4, (targetAt_iff h2).mpr h3, List.mem_singleton.mp hm⟩
  · rintro ⟨e, r, a, b, he, hi, ha, hb, rfl⟩
    rcases he with he | ⟨f, hf, h5⟩
    · obtain ⟨t, a', b', h1, h2, h3, h4⟩ := F.half_both (hL e he)
      rw [originAt_iff, h3, Option.some.injEq] at ha
      rw [targetAt_iff h1, h4, Option.some.injEq] at hb
      subst ha hb
      refine ⟨e, he, _, pointBoth_opos h1 h2 h3 h4, List.mem_append_left _ ?_⟩
      rw [hi]
      exact List.mem_singleton.mpr rfl
    · obtain ⟨t, a', b', h1, h2, h3, h4⟩ := F.half_both (hL f hf)
      rw [h1, Option.some.injEq] at h5
      subst h5
      rw [originAt_iff, h4, Option.some.injEq] at ha
      rw [targetAt_iff h2, h3, Option.some.injEq] at hb
      subst ha hb
      refine ⟨f, hf, _, pointBoth_opos h1 h2 h3 h4, List.mem_append_right _ ?_⟩
      rw [hi]
      exact List.mem_singleton.mpr rfl

/-- **C133**: `plot_border_to_site(site.borders())` on the finished diagram draws exactly one line for each border of the cell of the site and one for the other side of it
if there is a cell, from the middle of the border to the site of the cell, whatever sweep line is given. -/
theorem C133_pointers (hF : FitsCorners pts n poly) (hd : Distinct pts n) (hq : q.Spec evLt ok)
    (h : createDiagram pts q n fuel poly rz (initSt poly) = .ok ((), s')) {p : Nat} (hS : Shown pts n poly p) {fuel' : Nat} (hfuel : s'.d.heCnt ≤ fuel')
    (cv : Canvas ℝ) (w : Option ℝ) :
    ∃ l ds, borders fuel' p s'.d = .ok (l, s'.d) ∧ plotBorderToSiteOf pts cv s' (some l) w = .ok ds ∧
      ∀ d, d ∈ ds ↔ ∃ e r a b, HalfEdgeOf s'.d l e ∧ (s'.d.he e).incident = some r ∧ OriginAt s'.d e a ∧ TargetAt s'.d e b ∧
        d = .line ((a.1 + b.1) / 2, .fin ((a.2 + b.2) / 2)) ((pts r).1, .fin (pts r).2) (if s'.d.fe r = some e then .firstEdge else .pointer) := by
  obtain ⟨l, h1, h2⟩ := C71_borders hF hd hq h hS hfuel
  obtain ⟨s, s1, s2, vs, V, cell, F⟩ := create_finish hF hd hq (Nat.zero_lt_of_lt hS.lt) h
  obtain ⟨ds, h4, h5⟩ := F.pointers_of cv (orSweep s' w) l fun e he => ((h2.all e).mp he).1
  refine ⟨l, ds, h1, ?_, h5⟩
  have : orList (some l) s'.edges = l := by
    cases l with
    | nil => exact absurd rfl h2.nonempty
    | cons a l => rfl
  unfold plotBorderToSiteOf
  rw [this]
  exact h4

/-- C133: after the clean-up the lines drawn by `plot_border_to_site(site.borders())` end at the site and at its neighbours, and at no other sites. -/
theorem C133_ends (hF : FitsCorners pts n poly) (hd : Distinct pts n) (hq : q.Spec evLt ok)
    (h : createDiagram pts q n fuel poly true (initSt poly) = .ok ((), s')) {p : Nat} (hS : Shown pts n poly p) {fuel' : Nat} (hfuel : s'.d.heCnt ≤ fuel')
    (cv : Canvas ℝ) (w : Option ℝ) :
    ∃ l ds, borders fuel' p s'.d = .ok (l, s'.d) ∧ plotBorderToSiteOf pts cv s' (some l) w = .ok ds ∧
      ∀ z : ℝ × ℝ, (∃ a c, Draw.line a (z.1, .fin z.2) c ∈ ds) ↔ ∃ r, z = pts r ∧ (r = p ∨ Neighbours pts n poly p r) := by
  obtain ⟨l, ds, h1, h2, h3⟩ := C133_pointers hF hd hq h hS hfuel cv w
  obtain ⟨l', k1, hA⟩ := C71_borders hF hd hq h hS hfuel
  rw [h1, Except.ok.injEq, Prod.mk.injEq] at k1
  obtain ⟨rfl, _⟩ := k1
  obtain ⟨s, s1, s2, vs, V, cell, F⟩ := create_finish hF hd hq (Nat.zero_lt_of_lt hS.lt) h
  have hac := (C128_across hF hd hq h hS hfuel h1).2
  have hmem : ∀ r, r ∈ across s'.d l ↔ ∃ e ∈ l, ∃ t, (s'.d.he e).twin = some t ∧ (s'.d.he t).incident = some r := fun r => by
    unfold across
    simp [List.mem_filterMap, Option.bind_eq_some_iff]
  refine ⟨l, ds, h1, h2, fun z => ?_⟩
  constructor
  · rintro ⟨a, c, hm⟩
    obtain ⟨e, r, u, v, he, hi, _, _, hh⟩ := (h3 _).mp hm
    simp only [Draw.line.injEq, Prod.mk.injEq, Ext.fin.injEq] at hh
    refine ⟨r, Prod.ext hh.2.1.1 hh.2.1.2, ?_⟩
    rcases he with he | ⟨f, hf, h5⟩
    · rw [((hA.all e).mp he).2, Option.some.injEq] at hi
      exact Or.inl hi.symm
    · exact Or.inr ((hac r).mp ((hmem r).mpr ⟨f, hf, e, h5, hi⟩))
  · rintro ⟨r, rfl, hr⟩
    have key : ∃ e, HalfEdgeOf s'.d l e ∧ HalfEdgeOf s'.d s'.edges e ∧ (s'.d.he e).incident = some r := by
      rcases hr with rfl | hr
      · obtain ⟨e, he⟩ := List.exists_mem_of_ne_nil l hA.nonempty
        obtain ⟨g1, g2⟩ := (hA.all e).mp he
        exact ⟨e, Or.inl he, g1, g2⟩
      · obtain ⟨e, he, t, ht, hi⟩ := (hmem r).mp ((hac r).mpr hr)
        obtain ⟨g1, g2⟩ := (hA.all e).mp he
        refine ⟨t, Or.inr ⟨e, he, ht⟩, ?_, hi⟩
        rcases g1 with g1 | ⟨f, hf, g1⟩
        · exact Or.inr ⟨e, g1, ht⟩
        · obtain ⟨t', a, b, k1, k2, _, _⟩ := F.half_both (Or.inl hf)
          rw [k1, Option.some.injEq] at g1
          subst g1
          rw [k2, Option.some.injEq] at ht
          exact Or.inl (ht ▸ hf)
    obtain ⟨e, g1, g2, g3⟩ := key
    obtain ⟨t, a, b, k1, k2, k3, k4⟩ := F.half_both g2
    exact ⟨_, _, (h3 _).mpr ⟨e, r, a, b, g1, g3, originAt_iff.mpr k3, (targetAt_iff k1).mpr k4, rfl⟩⟩

/-- C133: `plot_sites(points)` draws a dot at each given point and, if wanted, its name beside it, and nothing else; if no points are given or the list is empty, it
does so for all sites. -/
theorem C133_sites (s : St ℝ) (points : Option (List Nat)) (labels : Bool) :
    ∃ l : List Nat, (∀ p, p ∈ l ↔ (∃ L, points = some L ∧ p ∈ L) ∨ ((points = none ∨ points = some []) ∧ p < n)) ∧
      (∀ z, (∃ zs c, Draw.dots zs c ∈ plotSitesOf pts n s points labels ∧ z ∈ zs) ↔ ∃ p ∈ l, z = pts p) ∧
      (∀ x y t, Draw.text x y t ∈ plotSitesOf pts n s points labels ↔ labels = true ∧ ∃ p ∈ l, x = (pts p).1 ∧ y = some (.fin (pts p).2) ∧ t = .site (s.names p)) ∧
      ∀ d ∈ plotSitesOf pts n s points labels, (∃ zs c, d = .dots zs c) ∨ ∃ x y t, d = .text x y t := by
  refine ⟨orList points (List.range n), fun p => ?_, fun z => ?_, fun x y t => ?_, fun d hd => ?_⟩
  · rcases points with _ | _ | ⟨a, L⟩ <;> simp [orList]
  · unfold plotSitesOf plotPoints
    constructor
    · rintro ⟨zs, c, hm, hz⟩
      rcases List.mem_cons.mp hm with hm | hm
      · simp only [Draw.dots.injEq] at hm
        rw [hm.1] at hz
        obtain ⟨p, hp, rfl⟩ := List.mem_map.mp hz
        exact ⟨p, hp, rfl⟩
      · cases labels <;> simp at hm
    · rintro ⟨p, hp, rfl⟩
      exact ⟨_, _, List.mem_cons_self, List.mem_map_of_mem hp⟩
  · unfold plotSitesOf plotPoints
    cases labels
    · simp
    · simp only [if_true, List.mem_cons, reduceCtorEq, false_or, List.mem_map, Draw.text.injEq, true_and]
      constructor
      · rintro ⟨p, hp, h1, h2, h3⟩
        exact ⟨p, hp, h1.symm, h2.symm, h3.symm⟩
      · rintro ⟨p, hp, h1, h2, h3⟩
        exact ⟨p, hp, h1.symm, h2.symm, h3.symm⟩
  · unfold plotSitesOf plotPoints at hd
    rcases List.mem_cons.mp hd with hd | hd
    · exact Or.inl ⟨_, _, hd⟩
    · cases labels
      · simp at hd
      · simp only [if_true, List.mem_map] at hd
        obtain ⟨p, _, rfl⟩ := hd
        exact Or.inr ⟨_, _, _, rfl⟩

/-- The hypotheses can be met: four sites on a circle.  One of the lines drawn for site 0 ends at site 1. -/
example (cv : Canvas ℝ) : ∃ poly s' l ds, boundingBox (-3 : ℝ) 4 98 106 = .ok poly ∧ createDiagram square4 heapq 4 30 poly true (initSt poly) = .ok ((), s') ∧
    borders s'.d.heCnt 0 s'.d = .ok (l, s'.d) ∧ plotBorderToSiteOf square4 cv s' (some l) (some 7) = .ok ds ∧
    ∃ a c, Draw.line a ((square4 1).1, .fin (square4 1).2) c ∈ ds := by
  have hp := box_points (show (-3 : ℝ) < 4 by norm_num) (show (98 : ℝ) < 106 by norm_num)
  have hB := square4_border hp
  obtain ⟨_, s', _, h, _⟩ := C74_cleanup_succeeds (fuel := 30) hB.toFitsCorners square4_distinct C45_event_queue (by norm_num) (by norm_num)
  have hS := hB.shown (p := 0) (by norm_num)
  obtain ⟨l, ds, h1, h2, h3⟩ := C133_ends hB.toFitsCorners square4_distinct C45_event_queue h hS le_rfl cv (some 7)
  refine ⟨_, s', l, ds, hp, h, h1, h2, (h3 _).mpr ⟨1, rfl, Or.inr ?_⟩⟩
  refine ⟨by norm_num, (1 / 2, 201 / 2), (box_inside (by norm_num) (by norm_num) _).mpr ⟨by norm_num, by norm_num, by norm_num, by norm_num⟩, ⟨by norm_num, fun o ho => ?_⟩,
    ⟨by norm_num, fun o ho => ?_⟩, fun o ho => ?_⟩
  · rcases (by omega : o = 0 ∨ o = 1 ∨ o = 2 ∨ o = 3) with rfl | rfl | rfl | rfl <;> norm_num [square4, sqDist]
  · rcases (by omega : o = 0 ∨ o = 1 ∨ o = 2 ∨ o = 3) with rfl | rfl | rfl | rfl <;> norm_num [square4, sqDist]
  · have := ho.1
    have k := ho.2 0 (by norm_num)
    rcases (by omega : o = 0 ∨ o = 1 ∨ o = 2 ∨ o = 3) with rfl | rfl | rfl | rfl <;> (revert k; norm_num [square4, sqDist])

end Foronoi
