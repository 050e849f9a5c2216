import Verif.Props.VisArgs
import Verif.Props.Neighbours

/-!
# C131: labels of the edges of the finished diagram
-/

namespace Foronoi

variable {pts : Nat → ℝ × ℝ} {q : PQ (QE ℝ)} {ok : List (QE ℝ) → Prop} {n : Nat} {rz : Bool} {poly : Poly ℝ} {s s1 s2 s' : St ℝ} {vs : List Nat} {V : Nat → Nat}
  {cell fuel : Nat}

/-- The label of the half-edge `e`: in the middle of it, with the names of the sites on the two sides. -/
def LabelOf (d : Dcel ℝ) (e : Nat) (x : ℝ) (y : Option (Ext ℝ)) (t : Label) : Prop :=
  ∃ a b, OriginAt d e a ∧ TargetAt d e b ∧ x = (a.1 + b.1) / 2 ∧ y = some (.fin ((a.2 + b.2) / 2)) ∧
    ∃ f, (d.he e).twin = some f ∧ t = .edge (d.he e).incident (d.he f).incident

theorem Finish.texts_of (F : Finish pts q ok n poly rz s s1 s2 s' vs V cell) {cv : Canvas ℝ} {w : Option ℝ} {labels : Bool} {L : List Nat}
    (hL : ∀ e ∈ L, HalfEdgeOf s'.d s'.edges e) {ds : List (Draw ℝ)} (hds : drawEach (fun e => do
      let x ← plotEdge pts cv s' w labels e
      let t ← exD (s'.d.he e).twin
      let y ← plotEdge pts cv s' w false t
      pure (x ++ y)) L = .ok ds) (x : ℝ) (y : Option (Ext ℝ)) (t : Label) :
    Draw.text x y t ∈ ds ↔ labels = true ∧ ∃ e ∈ L, LabelOf s'.d e x y t := by
  obtain ⟨ds', hds', hmem⟩ := drawEach_ex (f := fun e => do
    let x ← plotEdge pts cv s' w labels e
    let t ← exD (s'.d.he e).twin
    let y ← plotEdge pts cv s' w false t
    pure (x ++ y)) L (fun e he => by
      obtain ⟨t, a, b, h1, h2, h3, h4⟩ := F.half_both (hL e he)
      exact ⟨_, plotBoth_opos h1 h2 h3 h4 labels⟩)
  rw [hds, Except.ok.injEq] at hds'
  subst hds'
  rw [hmem]
  constructor
  · rintro ⟨e, he, ds1, h5, hm⟩
    obtain ⟨f, a, b, h1, h2, h3, h4⟩ := F.half_both (hL e he)
    rw [plotBoth_opos h1 h2 h3 h4 labels, Except.ok.injEq] at h5
    rw [← h5] at hm
    cases labels with
    | false => simp at hm
    | true =>
      simp at hm
      obtain ⟨rfl, rfl, rfl⟩ := hm
      exact ⟨rfl, e, he, a, b, originAt_iff.mpr h3, (targetAt_iff h1).mpr h4, by ring, by rw [add_comm], f, h1, rfl⟩
  · rintro ⟨rfl, e, he, a, b, ha, hb, rfl, rfl, f, hf, rfl⟩
    obtain ⟨f', a', b', h1, h2, h3, h4⟩ := F.half_both (hL e he)
    rw [hf, Option.some.injEq] at h1
    subst h1
    rw [originAt_iff, h3, Option.some.injEq] at ha
    rw [targetAt_iff hf, h4, Option.some.injEq] at hb
    subst ha hb
    refine ⟨e, he, _, plotBoth_opos hf h2 h3 h4 true, ?_⟩
    simp [add_comm]

/-- C131: `plot_edges` of a finished diagram draws, if wanted, one label for each edge of `v.edges` in its middle, and no other text. -/
theorem C131_labels (hF : FitsCorners pts n poly) (hd : Distinct pts n) (hq : q.Spec evLt ok) (hn : 0 < n)
    (h : createDiagram pts q n fuel poly rz (initSt poly) = .ok ((), s')) (cv : Canvas ℝ) (labels : Bool) :
    ∃ ds, plotEdges pts cv s' labels = .ok ds ∧ ∀ x y t, Draw.text x y t ∈ ds ↔ labels = true ∧ ∃ e ∈ s'.edges, LabelOf s'.d e x y t := by
  obtain ⟨s, s1, s2, vs, V, cell, F⟩ := create_finish hF hd hq hn h
  obtain ⟨ds, h1, _⟩ := F.lines_of cv s'.sweep labels s'.edges fun e he => Or.inl he
  exact ⟨ds, h1, F.texts_of (fun e he => Or.inl he) h1⟩

/-- C131: for given half-edges there are labels for these, not for their twins. -/
theorem C131_given (hF : FitsCorners pts n poly) (hd : Distinct pts n) (hq : q.Spec evLt ok) (hn : 0 < n)
    (h : createDiagram pts q n fuel poly rz (initSt poly) = .ok ((), s')) (cv : Canvas ℝ) (w : Option ℝ) (labels : Bool) {L : List Nat} (hne : L ≠ [])
    (hL : ∀ e ∈ L, HalfEdgeOf s'.d s'.edges e) :
    ∃ ds, plotEdgesOf pts cv s' (some L) w labels = .ok ds ∧ ∀ x y t, Draw.text x y t ∈ ds ↔ labels = true ∧ ∃ e ∈ L, LabelOf s'.d e x y t := by
  obtain ⟨s, s1, s2, vs, V, cell, F⟩ := create_finish hF hd hq hn h
  obtain ⟨ds, h1, _⟩ := F.lines_of cv (orSweep s' w) labels L hL
  have : orList (some L) s'.edges = L := by
    cases L with
    | nil => exact absurd rfl hne
    | cons a l => rfl
  refine ⟨ds, ?_, F.texts_of hL h1⟩
  unfold plotEdgesOf
  rw [this]
  exact h1

/-- C131 with the default clean-up: for a site with a cell, a label with its name and that of another site is drawn exactly for its neighbours; all labels for one neighbour
stand at one point, to which exactly the two sites are nearest. -/
theorem C131_neighbours (hF : FitsCorners pts n poly) (hd : Distinct pts n) (hq : q.Spec evLt ok)
    (h : createDiagram pts q n fuel poly true (initSt poly) = .ok ((), s')) {p : Nat} (hS : Shown pts n poly p) (cv : Canvas ℝ) :
    ∃ ds, plotEdges pts cv s' true = .ok ds ∧ ∀ r,
      (Neighbours pts n poly p r ↔ ∃ x y, Draw.text x y (.edge (some p) (some r)) ∈ ds ∨ Draw.text x y (.edge (some r) (some p)) ∈ ds) ∧
      ∃ z : ℝ × ℝ, ∀ x y, Draw.text x y (.edge (some p) (some r)) ∈ ds ∨ Draw.text x y (.edge (some r) (some p)) ∈ ds →
        x = z.1 ∧ y = some (.fin z.2) ∧ Nearest pts n p z ∧ Nearest pts n r z ∧ ∀ o, Nearest pts n o z → o = p ∨ o = r := by
  have hn : 0 < n := Nat.zero_lt_of_lt hS.lt
  obtain ⟨ds, hds, htx⟩ := C131_labels hF hd hq hn h cv true
  obtain ⟨l, hl, hA⟩ := C71_borders hF hd hq h hS le_rfl
  obtain ⟨s, s1, s2, vs, V, cell, F⟩ := create_finish hF hd hq hn h
  obtain ⟨_, _, _, _, _, _, hres, _⟩ := create_edge hF.toFitsPolygon hd hq hn h
  -- a label for `p` and `r` belongs to a border of `p`
  have key : ∀ {r x y}, (Draw.text x y (.edge (some p) (some r)) ∈ ds ∨ Draw.text x y (.edge (some r) (some p)) ∈ ds) →
      ∃ e ∈ l, Separates s'.d e p r ∧ ∃ a b, OriginAt s'.d e a ∧ TargetAt s'.d e b ∧ a ≠ b ∧ x = (a.1 + b.1) / 2 ∧ y = some (.fin ((a.2 + b.2) / 2)) := by
    rintro r x y (hm | hm) <;> rw [htx] at hm <;> obtain ⟨_, e, he, a, b, ha, hb, rfl, rfl, f, hf, ht⟩ := hm <;> rw [Label.edge.injEq] at ht <;>
      obtain ⟨t', x', y', g1, g2, g3, g4⟩ := hres.ends e he <;> rw [hf, Option.some.injEq] at g1 <;> subst g1 <;> have ha' := ha <;> have hb' := hb <;>
      rw [originAt_iff, g2, Option.some.injEq] at ha' <;> rw [targetAt_iff hf, g3, Option.some.injEq] at hb' <;> subst ha' hb'
    · exact ⟨e, (hA.all e).mpr ⟨Or.inl he, ht.1.symm⟩, ⟨ht.1.symm, f, hf, ht.2.symm⟩, _, _, ha, hb, g4 rfl, rfl, rfl⟩
    · obtain ⟨t'', p', a', b', Hl⟩ := F.listed he
      have e1 := Hl.tw
      rw [hf, Option.some.injEq] at e1
      subst e1
      exact ⟨f, (hA.all f).mpr ⟨Or.inr ⟨e, he, hf⟩, ht.2.symm⟩, ⟨ht.2.symm, e, Hl.ttw, ht.1.symm⟩, _, _, originAt_iff.mpr g3, (targetAt_iff Hl.ttw).mpr g2, (g4 rfl).symm,
        by ring, by rw [add_comm]⟩
  refine ⟨ds, hds, fun r => ⟨?_, ?_⟩⟩
  · rw [C128_neighbours hF hd hq h hS le_rfl hl]
    constructor
    · rintro ⟨e, he, hs, a, b, ha, hb, hab⟩
      obtain ⟨hi, f, hf, hfi⟩ := hs
      rcases ((hA.all e).mp he).1 with h1 | ⟨g, hg, hge⟩
      · exact ⟨_, _, Or.inl ((htx _ _ _).mpr ⟨rfl, e, h1, a, b, ha, hb, rfl, rfl, f, hf, by rw [hi, hfi]⟩)⟩
      · obtain ⟨t'', p', a', b', Hl⟩ := F.listed hg
        have e1 := Hl.tw
        rw [hge, Option.some.injEq] at e1
        subst e1
        have e2 := Hl.ttw
        rw [hf, Option.some.injEq] at e2
        subst e2
        exact ⟨_, _, Or.inr ((htx _ _ _).mpr ⟨rfl, f, hg, _, _, originAt_iff.mpr Hl.org, (targetAt_iff hge).mpr Hl.torg, rfl, rfl, e, hge, by rw [hi, hfi]⟩)⟩
    · rintro ⟨x, y, hm⟩
      obtain ⟨e, he, hs, a, b, ha, hb, hab, _⟩ := key hm
      exact ⟨e, he, hs, a, b, ha, hb, hab⟩
  · by_cases hex : ∃ x y, Draw.text x y (.edge (some p) (some r)) ∈ ds ∨ Draw.text x y (.edge (some r) (some p)) ∈ ds
    · obtain ⟨x, y, hm⟩ := hex
      obtain ⟨e, he, hs, a, b, ha, hb, hab, rfl, rfl⟩ := key hm
      refine ⟨((a.1 + b.1) / 2, (a.2 + b.2) / 2), fun x y hm' => ?_⟩
      obtain ⟨e', he', hs', a', b', ha', hb', hab', rfl, rfl⟩ := key hm'
      obtain rfl := C128_once hF hd hq h hS le_rfl hl he he' hs hs' ⟨a, b, ha, hb, hab⟩ ⟨a', b', ha', hb', hab'⟩
      rw [originAt_iff] at ha ha'
      rw [ha, Option.some.injEq] at ha'
      obtain ⟨hi, f, hf, hfi⟩ := hs
      rw [targetAt_iff hf] at hb hb'
      rw [hb, Option.some.injEq] at hb'
      subst ha' hb'
      refine ⟨rfl, rfl, ?_⟩
      -- both ends are on the border of the two cells
      have hall : ∀ z, Between a b z → Nearest pts n p z ∧ Nearest pts n r z := by
        rcases ((hA.all e).mp he).1 with h1 | ⟨g, hg, hge⟩
        · obtain ⟨a', b', k1, k2, _, _, k3⟩ := C65_edges_sound hF.toFitsPolygon hd hq hn h h1 (p := p) (r := r) ⟨hi, f, hf, hfi⟩
          rw [originAt_iff, ha, Option.some.injEq] at k1
          rw [targetAt_iff hf, hb, Option.some.injEq] at k2
          subst k1 k2
          exact fun z hz => (k3 z hz).2
        · obtain ⟨t'', p', a'', b'', Hl⟩ := F.listed hg
          have e1 := Hl.tw
          rw [hge, Option.some.injEq] at e1
          subst e1
          have e2 := Hl.ttw
          rw [hf, Option.some.injEq] at e2
          subst e2
          obtain ⟨a', b', k1, k2, _, _, k3⟩ := C65_edges_sound hF.toFitsPolygon hd hq hn h hg (p := r) (r := p) ⟨hfi, e, hge, hi⟩
          rw [originAt_iff, hb, Option.some.injEq] at k1
          rw [targetAt_iff hge, ha, Option.some.injEq] at k2
          subst k1 k2
          exact fun z hz => (k3 z hz.symm).2.symm
      have hmid : along a b (1 / 2) = ((a.1 + b.1) / 2, (a.2 + b.2) / 2) := by
        unfold along
        apply Prod.ext <;> simp only <;> ring
      have hpr : p ≠ r := by
        rintro rfl
        have := (C128_neighbours hF hd hq h hS le_rfl hl (r := p)).mpr ⟨e, he, ⟨hi, f, hf, hfi⟩, a, b, originAt_iff.mpr ha, (targetAt_iff hf).mpr hb, hab⟩
        exact this.1 rfl
      have hz := hall ((a.1 + b.1) / 2, (a.2 + b.2) / 2) ⟨1 / 2, by norm_num, by norm_num, by apply Prod.ext <;> simp only <;> ring⟩
      refine ⟨hz.1, hz.2, fun o ho => ?_⟩
      rw [← hmid] at ho
      have k1 := hall a (between_left _ _)
      have k2 := hall b (between_right _ _)
      exact middle_two hd hpr hab k1.1 k1.2 k2.1 k2.2 ho
    · exact ⟨(0, 0), fun x y hm => absurd ⟨x, y, hm⟩ hex⟩

/-- The hypotheses can be met: four sites on a circle.  Sites 0 and 1 get a label. -/
example : ∃ poly s' ds, boundingBox (-3 : ℝ) 4 98 106 = .ok poly ∧ createDiagram square4 heapq 4 30 poly true (initSt poly) = .ok ((), s') ∧
    plotEdges square4 ⟨-3, 4, 98, 106⟩ s' true = .ok ds ∧ ∃ x y, Draw.text x y (.edge (some 0) (some 1)) ∈ ds ∨ Draw.text x y (.edge (some 1) (some 0)) ∈ ds := by
  have hp := box_points (show (-3 : ℝ) < 4 by norm_num) (show (98 : ℝ) < 106 by norm_num)
  have hB := square4_border hp
  obtain ⟨_, s', _, h, _⟩ := C74_cleanup_succeeds (fuel := 30) hB.toFitsCorners square4_distinct C45_event_queue (by norm_num) (by norm_num)
  have hS := hB.shown (p := 0) (by norm_num)
  obtain ⟨ds, hds, hh⟩ := C131_neighbours hB.toFitsCorners square4_distinct C45_event_queue h hS ⟨-3, 4, 98, 106⟩
  refine ⟨_, s', ds, hp, h, hds, (hh 1).1.mp ?_⟩
  refine ⟨by norm_num, (1 / 2, 201 / 2), (box_inside (by norm_num) (by norm_num) _).mpr ⟨by norm_num, by norm_num, by norm_num, by norm_num⟩, ⟨by norm_num, fun o ho => ?_⟩,
    ⟨by norm_num, fun o ho => ?_⟩, fun o ho => ?_⟩
  · rcases (by omega : o = 0 ∨ o = 1 ∨ o = 2 ∨ o = 3) with rfl | rfl | rfl | rfl <;> norm_num [square4, sqDist]
  · rcases (by omega : o = 0 ∨ o = 1 ∨ o = 2 ∨ o = 3) with rfl | rfl | rfl | rfl <;> norm_num [square4, sqDist]
  · have := ho.1
    have k := ho.2 0 (by norm_num)
    rcases (by omega : o = 0 ∨ o = 1 ∨ o = 2 ∨ o = 3) with rfl | rfl | rfl | rfl <;> (revert k; norm_num [square4, sqDist])

end Foronoi
