import Verif.Model.VisArgs
import Verif.Props.AnySites
import Verif.Props.SiteVertices
import Verif.Props.PlotAll
import Verif.Props.Outside

/-!
# C121: drawing given objects
-/

namespace Foronoi

variable {pts : Nat → ℝ × ℝ} {q : PQ (QE ℝ)} {ok : List (QE ℝ) → Prop} {n : Nat} {rz : Bool} {poly : Poly ℝ} {s s1 s2 s' : St ℝ} {vs : List Nat} {V : Nat → Nat}
  {cell fuel : Nat}

theorem Finish.half_both (F : Finish pts q ok n poly rz s s1 s2 s' vs V cell) {e : Nat} (he : HalfEdgeOf s'.d s'.edges e) :
    ∃ t a b, (s'.d.he e).twin = some t ∧ (s'.d.he t).twin = some e ∧ opos s'.d e = some a ∧ opos s'.d t = some b := by
  rcases he with he | ⟨f, hf, h5⟩
  · obtain ⟨t, p, a, b, hl⟩ := F.listed he
    exact ⟨t, a, b, hl.tw, hl.ttw, hl.org, hl.torg⟩
  · obtain ⟨t, p, a, b, hl⟩ := F.listed hf
    rw [hl.tw, Option.some.injEq] at h5
    subst h5
    exact ⟨f, b, a, hl.ttw, hl.tw, hl.torg, hl.org⟩

theorem Finish.lines_of (F : Finish pts q ok n poly rz s s1 s2 s' vs V cell) (cv : Canvas ℝ) (w : Option ℝ) (labels : Bool) (L : List Nat)
    (hL : ∀ e ∈ L, HalfEdgeOf s'.d s'.edges e) : ∃ ds, drawEach (fun e => do
      let x ← plotEdge pts cv s' w labels e
      let t ← exD (s'.d.he e).twin
      let y ← plotEdge pts cv s' w false t
      pure (x ++ y)) L = .ok ds ∧ ∀ z, OnLine ds z ↔ OnSomeEdge s'.d L z := by
  obtain ⟨ds, hds, hmem⟩ := drawEach_ex (f := fun e => do
    let x ← plotEdge pts cv s' w labels e
    let t ← exD (s'.d.he e).twin
    let y ← plotEdge pts cv s' w false t
    pure (x ++ y)) L (fun e he => by
      obtain ⟨t, a, b, h1, h2, h3, h4⟩ := F.half_both (hL e he)
      exact ⟨_, plotBoth_opos h1 h2 h3 h4 labels⟩)
  refine ⟨ds, hds, fun z => ?_⟩
  constructor
  · rintro ⟨a, b, c, hm, hz⟩
    obtain ⟨e, he, x, hx, hm⟩ := (hmem _).mp hm
    obtain ⟨t, a', b', h1, h2, h3, h4⟩ := F.half_both (hL e he)
    rw [plotBoth_opos h1 h2 h3 h4 labels, Except.ok.injEq] at hx
    refine ⟨e, he, a', b', originAt_iff.mpr h3, (targetAt_iff h1).mpr h4, ?_⟩
    rw [← hx] at hm
    have hm' : (a = a' ∧ b = b') ∨ (a = b' ∧ b = a') := by
      cases labels <;> simp [Prod.ext_iff] at hm ⊢ <;> grind
    rcases hm' with ⟨rfl, rfl⟩ | ⟨rfl, rfl⟩
    · exact hz
    · exact hz.symm
  · rintro ⟨e, he, a, b, ha, hb, hz⟩
    obtain ⟨t, a', b', h1, h2, h3, h4⟩ := F.half_both (hL e he)
    rw [originAt_iff, h3, Option.some.injEq] at ha
    rw [targetAt_iff h1, h4, Option.some.injEq] at hb
    subst ha hb
    exact ⟨a', b', .edge, (hmem _).mpr ⟨e, he, _, plotBoth_opos h1 h2 h3 h4 labels, by simp⟩, hz⟩

/-- **C121**: `plot_edges(site.borders())` draws the rim of the cell of the site, whatever sweep line is given. -/
theorem C121_cell_drawn (hF : FitsCorners pts n poly) (hd : Distinct pts n) (hq : q.Spec evLt ok)
    (h : createDiagram pts q n fuel poly rz (initSt poly) = .ok ((), s')) {p : Nat} (hS : Shown pts n poly p) {fuel' : Nat} (hfuel : s'.d.heCnt ≤ fuel')
    (cv : Canvas ℝ) (w : Option ℝ) (labels : Bool) :
    ∃ l ds, borders fuel' p s'.d = .ok (l, s'.d) ∧ plotEdgesOf pts cv s' (some l) w labels = .ok ds ∧
      ∀ z, OnLine ds z ↔ InCell pts n poly p z ∧ ((∃ o, o ≠ p ∧ Nearest pts n o z) ∨ OnBoundary poly.points z) := by
  obtain ⟨l, h1, h2⟩ := C71_borders hF hd hq h hS hfuel
  have h3 := C71_rim hF hd hq h hS hfuel h1
  obtain ⟨s, s1, s2, vs, V, cell, F⟩ := create_finish hF hd hq (Nat.zero_lt_of_lt hS.lt) h
  obtain ⟨ds, h4, h5⟩ := F.lines_of cv (orSweep s' w) labels l fun e he => ((h2.all e).mp he).1
  refine ⟨l, ds, h1, ?_, fun z => (h5 z).trans (h3 z)⟩
  have : orList (some l) s'.edges = l := by
    cases l with
    | nil => exact absurd rfl h2.nonempty
    | cons a l => rfl
  unfold plotEdgesOf
  rw [this]
  exact h4

/-- C121: for a site with an unbounded cell outside the polygon `borders()` is empty, and `plot_edges(site.borders())` draws not nothing, but the whole diagram. -/
theorem C121_empty_draws_all (hF : FitsCorners pts n poly) (hd : Distinct pts n) (hq : q.Spec evLt ok)
    (h : createDiagram pts q n fuel poly rz (initSt poly) = .ok ((), s')) {p : Nat} (hp : p < n) (hb : FarCell pts n p) (hno : ∀ z, ¬ InCell pts n poly p z) {fuel' : Nat}
    (cv : Canvas ℝ) (w : Option ℝ) (labels : Bool) :
    ∃ l ds, borders fuel' p s'.d = .ok (l, s'.d) ∧ plotEdgesOf pts cv s' (some l) w labels = .ok ds ∧
      ∀ z, OnLine ds z ↔ InClosed poly.points z ∧ ((∃ p r, p ≠ r ∧ Nearest pts n p z ∧ Nearest pts n r z) ∨ OnBoundary poly.points z) := by
  have hn := Nat.zero_lt_of_lt hp
  obtain ⟨s, s1, s2, vs, V, cell, F⟩ := create_finish hF hd hq hn h
  have hfe := F.first_none hb hno
  obtain ⟨ds, h1, h2⟩ := F.lines_of cv (orSweep s' w) labels s'.edges fun e he => Or.inl he
  obtain ⟨d0, h3, h4⟩ := F.lines_of cv s'.sweep labels s'.edges fun e he => Or.inl he
  obtain ⟨d1, h5, h6⟩ := C86_final_picture hF hd hq hn h cv labels
  have : d0 = d1 := by
    have := h3.symm.trans h5
    rwa [Except.ok.injEq] at this
  subst this
  refine ⟨[], ds, ?_, h1, fun z => by rw [h2, ← h4, h6]⟩
  have e1 : (rdFE p : DM ℝ (Option Nat)) s'.d = .ok (none, s'.d) := by
    show Except.ok (s'.d.fe p, s'.d) = _
    rw [hfe]
  unfold borders
  rw [bind_ok e1]
  rfl

/-- C121: `plot_vertices(site.vertices())` draws the corners of the cell of the site. -/
theorem C121_corners_drawn (hF : FitsCorners pts n poly) (hd : Distinct pts n) (hq : q.Spec evLt ok)
    (h : createDiagram pts q n fuel poly rz (initSt poly) = .ok ((), s')) {p : Nat} (hS : Shown pts n poly p) {fuel' : Nat} (hfuel : s'.d.heCnt ≤ fuel') :
    ∃ l zs, cellVertices fuel' p s'.d = .ok (l, s'.d) ∧ plotVerticesOf s' (some l) = .ok [.dots zs .vertices] ∧
      ∀ z, z ∈ zs ↔ z ∈ Set.extremePoints ℝ {z | InClosed poly.points z ∧ Nearest pts n p z} := by
  obtain ⟨l, ps, h1, h2, h3, _⟩ := C89_site_vertices hF hd hq h hS hfuel
  have hne : l ≠ [] := by
    rintro rfl
    obtain ⟨a, k1, k2, _⟩ := C72_area hF hd hq h hS hfuel
    have hxy : getXY fuel' p s'.d = .ok (([], []), s'.d) := by
      unfold getXY
      rw [bind_ok h1]
      rfl
    have e0 : shoelace ([] : List ℝ) [] = 0 := by
      have := areaOf_eq []
      simpa [areaOf, signed2] using this
    unfold area at k1
    rw [bind_ok hxy] at k1
    change Except.ok (shoelace [] [], s'.d) = _ at k1
    rw [e0, Except.ok.injEq, Prod.mk.injEq] at k1
    exact absurd k1.1 k2.ne
  have hor : orList (some l) s'.verts = l := by
    cases l with
    | nil => exact absurd rfl hne
    | cons a l => rfl
  have hmap : ∀ (L : List Nat) (P : List Pt), L.map (fun v => (s'.d.vs v).pos) = P.map some → L.mapM (fun v => exD (s'.d.vs v).pos) = .ok P := by
    intro L
    induction L with
    | nil =>
      intro P hP
      cases P with
      | nil => rfl
      | cons a P => cases hP
    | cons v L ih =>
      intro P hP
      cases P with
      | nil => cases hP
      | cons a P =>
        simp only [List.map_cons, List.cons.injEq] at hP
        rw [List.mapM_cons, hP.1, ih P hP.2]
        rfl
  refine ⟨l, ps, h1, ?_, h3⟩
  unfold plotVerticesOf
  rw [hor, hmap l ps h2]
  rfl

/-- C121: a sweep line given to `plot_sweep_line` is drawn, unless it is at height 0: then the one of the diagram is drawn. -/
theorem C121_sweep_line (cv : Canvas ℝ) {l : ℝ} (hl : s.sweep = some l) (y : ℝ) {d : Draw ℝ} :
    d ∈ plotSweepLineOf cv s (some y) ↔ ∃ h, (y = 0 ∧ h = l ∨ y ≠ 0 ∧ h = y) ∧ d = .line (cv.minX, .fin h) (cv.maxX, .fin h) .sweepLine := by
  have e0 : (lit 0 : ℝ) = 0 := by simp [lit, rI]
  unfold plotSweepLineOf orSweep
  rw [e0]
  by_cases hy : y = 0
  · simp [hy, hl]
  · simp [hy]

/-- The hypotheses can be met: of four sites outside the box the second has an empty list of borders, and drawing it draws the border of the box. -/
example (cv : Canvas ℝ) : ∃ poly s' l ds, boundingBox (0 : ℝ) 4 100 104 = .ok poly ∧ createDiagram out4 heapq 4 29 poly false (initSt poly) = .ok ((), s') ∧
    borders s'.d.heCnt 1 s'.d = .ok (l, s'.d) ∧ plotEdgesOf out4 cv s' (some l) none true = .ok ds ∧ OnLine ds (0, 104) := by
  have hp := box_points (show (0 : ℝ) < 4 by norm_num) (show (100 : ℝ) < 104 by norm_num)
  have hF := out4_corners hp
  obtain ⟨⟨s', hs'⟩, _⟩ := C58_create_succeeds out4_distinct C45_event_queue (by norm_num) (by simp) (fun i hi => (hF.low i hi).le) (fuel := 29) (by norm_num)
  generalize hpo : (⟨[((0 : ℝ), (104 : ℝ)), (4, 104), (4, 100), (0, 100)], _, _, _, _, _⟩ : Poly ℝ) = poly at hp hF hs'
  have hpts : poly.points = [((0 : ℝ), (104 : ℝ)), (4, 104), (4, 100), (0, 100)] := by rw [← hpo]
  have hin : ∀ z, ¬ InCell out4 4 poly 1 z := fun z hz => by
    obtain ⟨h1, h2, h3, h4⟩ := (box_closed (show (0 : ℝ) < 4 by norm_num) (show (100 : ℝ) < 104 by norm_num) z).mp (hpts ▸ hz.1)
    exact absurd (out4_only h1 h2 h3 h4 hz.2) (by norm_num)
  obtain ⟨l, ds, h1, h2, h3⟩ := C121_empty_draws_all hF out4_distinct C45_event_queue hs' (by norm_num) out4_far1 hin (fuel' := s'.d.heCnt) cv none true
  refine ⟨poly, s', l, ds, hp, hs', h1, h2, (h3 _).mpr ?_⟩
  have hon : OnBoundary poly.points (0, 104) := by
    rw [hpts]
    exact ⟨0, by simp, 0, by norm_num, by norm_num, by simp [corner]⟩
  exact ⟨hon.closed hF.convex, Or.inr hon⟩

/-- The hypotheses can be met: of two sites, one of them outside the box, both get their part drawn. -/
example (cv : Canvas ℝ) : ∃ poly s', boundingBox (0 : ℝ) 4 100 104 = .ok poly ∧ createDiagram out2 heapq 2 15 poly false (initSt poly) = .ok ((), s') ∧
    ∀ p < 2, ∃ l ds, borders s'.d.heCnt p s'.d = .ok (l, s'.d) ∧ plotEdgesOf out2 cv s' (some l) (some 7) true = .ok ds ∧ OnLine ds (3, 102) := by
  have hp := box_points (show (0 : ℝ) < 4 by norm_num) (show (100 : ℝ) < 104 by norm_num)
  have hF := out2_border hp
  obtain ⟨⟨s', hs'⟩, _⟩ := C58_create_succeeds out2_distinct C45_event_queue (by norm_num) (by simp) (fun i hi => (hF.low i hi).le) (fuel := 15) (by norm_num)
  refine ⟨_, s', hp, hs', fun p hlt => ?_⟩
  obtain ⟨l, ds, h1, h2, h3⟩ := C121_cell_drawn hF.toFitsCorners out2_distinct C45_event_queue hs' (hF.shown hlt) le_rfl cv (some 7) true
  refine ⟨l, ds, h1, h2, (h3 _).mpr ?_⟩
  have hn : ∀ o < 2, Nearest out2 2 o (3, 102) := by
    intro o ho
    refine ⟨ho, fun c hc => ?_⟩
    rcases (by omega : o = 0 ∨ o = 1) with rfl | rfl <;> rcases (by omega : c = 0 ∨ c = 1) with rfl | rfl <;> norm_num [out2, sqDist]
  refine ⟨⟨(box_closed (by norm_num) (by norm_num) _).mpr (by norm_num), hn p hlt⟩, Or.inl ⟨1 - p, by omega, hn _ (by omega)⟩⟩

/-- The hypotheses of C120 can be met: with its default options `plot_all` draws the edge between the cells of two sites. -/
example (cv : Canvas ℝ) (med : List ℝ → ℝ) : ∃ poly s' ds, boundingBox (0 : ℝ) 4 100 104 = .ok poly ∧ createDiagram out2 heapq 2 15 poly false (initSt poly) = .ok ((), s') ∧
    plotAll out2 2 poly cv s' med [] [] { scale := 1 / 2 } = .ok ds ∧ (∃ a b, .line (a.1, .fin a.2) (b.1, .fin b.2) .edge ∈ ds ∧ Between a b (3, 102)) ∧
    ∀ a b, .line a b .sweepLine ∉ ds := by
  have hp := box_points (show (0 : ℝ) < 4 by norm_num) (show (100 : ℝ) < 104 by norm_num)
  have hF := out2_border hp
  obtain ⟨⟨s', hs'⟩, _⟩ := C58_create_succeeds out2_distinct C45_event_queue (by norm_num) (by simp) (fun i hi => (hF.low i hi).le) (fuel := 15) (by norm_num)
  obtain ⟨ds, h1, h2, _⟩ := C120_finished hF.toFitsCorners out2_distinct C45_event_queue (by norm_num) hs' cv med [] [] { scale := 1 / 2 } (by simp) (by norm_num)
  refine ⟨_, s', ds, hp, hs', h1, (h2 _).mpr ⟨rfl, (box_closed (by norm_num) (by norm_num) _).mpr (by norm_num), Or.inl ⟨0, 1, by norm_num, ?_, ?_⟩⟩, fun a b hab => ?_⟩
  · refine ⟨by norm_num, fun c hc => ?_⟩
    rcases (by omega : c = 0 ∨ c = 1) with rfl | rfl <;> norm_num [out2, sqDist]
  · refine ⟨by norm_num, fun c hc => ?_⟩
    rcases (by omega : c = 0 ∨ c = 1) with rfl | rfl <;> norm_num [out2, sqDist]
  · have := (C120_only_wanted h1).1 _ hab
    simp [Draw.part, PlotOpts.wants] at this

end Foronoi
