import Verif.Props.VisEdges
import Verif.Props.CleanTotal

/-!
# Pictures of the finished diagram (C86, C87)
-/

namespace Foronoi

open scoped List

variable {pts : Nat → ℝ × ℝ} {q : PQ (QE ℝ)} {ok : List (QE ℝ) → Prop} {n : Nat} {poly : Poly ℝ} {s s1 s2 s' : St ℝ} {vs : List Nat} {V : Nat → Nat}
  {cell fuel : Nat} {rz : Bool}

/-- A listed edge of the result and its ends. -/
structure Listed (pts : Nat → ℝ × ℝ) (n : Nat) (d : Dcel ℝ) (e t p : Nat) (a b : Pt) : Prop where
  tw : (d.he e).twin = some t
  ttw : (d.he t).twin = some e
  inc : (d.he e).incident = some p
  lt : p < n
  tlt : ∀ r, (d.he t).incident = some r → r < n
  org : opos d e = some a
  torg : opos d t = some b

theorem Finish.listed (F : Finish pts q ok n poly rz s s1 s2 s' vs V cell) {e : Nat} (he : e ∈ s'.edges) : ∃ t p a b, Listed pts n s'.d e t p a b := by
  have B := F.B
  obtain ⟨L, hI⟩ := reach_inv B.spec B.reach
  have he2 := (cleaned F.cu).2.2.2.1 e he
  have hmem := he2
  rw [F.edges] at he2
  rcases List.mem_append.mp he2 with h | h
  · have hel := hI.dinv.elt e (B.clip.sub.subset h)
    obtain ⟨t, i, o, hE⟩ := B.edg hel
    have hE' := hE.symm hI.dinv
    have htl := hE'.lt
    obtain ⟨g1, _⟩ := B.clip.good e h
    obtain ⟨v, z, o1, o2, o3, _⟩ := g1
    have hz : opos s1.d e = some z := by rw [opos_vtx o1, o3]
    obtain ⟨y, hy⟩ := B.ends hE hz
    have hlt : ∀ {f t i o}, Edg s.d f t i o → i < n := by
      intro f t i o h
      exact (h.site_lt hI).1
    refine ⟨t, i, z, y, ?_, ?_, ?_, hlt hE, ?_, ?_, ?_⟩
    · rw [F.twin, B.twin2 hel, hE.tw]
    · rw [F.twin, B.twin2 htl, hE'.tw]
    · rw [F.inc, B.inc2 hel, hE.inc]
    · intro r hr
      rw [F.inc, B.inc2 htl, hE'.inc, Option.some.injEq] at hr
      exact hr ▸ hlt hE'
    · rw [F.op, B.opos2 hel, hz]
    · rw [F.op, B.opos2 htl, hy]
  · obtain ⟨j, hj, rfl⟩ := List.mem_map.mp h
    have hj := List.mem_range.mp hj
    obtain ⟨b1, b2, b3, b4, b5⟩ := B.border hj
    obtain ⟨i, c1, c2⟩ := B.labels F.hn hj
    refine ⟨s1.d.heCnt + 2 * j, i, _, _, by rw [F.twin, b1], ?_, by rw [F.inc, b3, c1], (c2 _ (between_left _ _)).1, ?_, by rw [F.op, b4], by rw [F.op, b5]⟩
    · rw [F.twin]; exact F.twin_twin hmem b1
    · intro r hr
      rw [F.inc, b2] at hr; cases hr

theorem getOrigin_opos {w m : Option ℝ} {e : Nat} {a : Pt} (h : opos s.d e = some a) : getOrigin pts s.bps s.d e w m = some (some (a.1, .fin a.2)) := by
  unfold opos at h
  unfold getOrigin
  cases ho : (s.d.he e).origin with
  | bp b => rw [ho] at h; cases h
  | vtx v =>
    rw [ho] at h
    simp only at h ⊢
    rw [h]; rfl

theorem originsOf_opos {cv : Canvas ℝ} {w : Option ℝ} {e t : Nat} {a b : Pt} (ht : (s.d.he e).twin = some t) (ha : opos s.d e = some a) (hb : opos s.d t = some b) :
    originsOf pts cv s e w = .ok (some (a.1, .fin a.2), some (b.1, .fin b.2)) := by
  unfold originsOf
  rw [getOrigin_opos ha, ht]
  show (do let b ← exA (getOrigin pts s.bps s.d t w (some cv.maxY)); pure (some (a.1, Ext.fin a.2), b)) = _
  rw [getOrigin_opos hb]
  rfl

theorem plotEdge_opos {cv : Canvas ℝ} {w : Option ℝ} {e t : Nat} {a b : Pt} (ht : (s.d.he e).twin = some t) (ha : opos s.d e = some a) (hb : opos s.d t = some b)
    (labels : Bool) : plotEdge pts cv s w labels e = .ok (.line (a.1, .fin a.2) (b.1, .fin b.2) .edge ::
      if labels then [.text ((b.1 + a.1) / 2) (some (.fin ((b.2 + a.2) / 2))) (.edge (s.d.he e).incident (s.d.he t).incident)] else []) := by
  have e2 : ((2 : ℤ) : ℝ) = 2 := by norm_num
  have hdiv : ∀ x : ℝ, Arith.div x 2 = some (x / 2) := fun x => rDiv _ _ (by norm_num)
  unfold plotEdge
  rw [originsOf_opos ht ha hb]
  cases labels with
  | false => rfl
  | true =>
    simp only [bind, Except.bind, midE, lit, rI, rAdd, e2, hdiv, ht, exA, exD, if_true, pure, Except.pure, Option.map_some]

theorem plotPointer_opos {cv : Canvas ℝ} {w : Option ℝ} {e t : Nat} {a b : Pt} (ht : (s.d.he e).twin = some t) (ha : opos s.d e = some a) (hb : opos s.d t = some b) :
    plotPointer pts cv s w e = .ok (match (s.d.he e).incident with
      | some p => [.line ((a.1 + b.1) / 2, .fin ((a.2 + b.2) / 2)) ((pts p).1, .fin (pts p).2) (if s.d.fe p = some e then .firstEdge else .pointer)]
      | none => []) := by
  have e2 : ((2 : ℤ) : ℝ) = 2 := by norm_num
  have hdiv : ∀ x : ℝ, Arith.div x 2 = some (x / 2) := fun x => rDiv _ _ (by norm_num)
  unfold plotPointer
  rw [originsOf_opos ht ha hb]
  cases hi : (s.d.he e).incident with
  | none => simp only [bind, Except.bind, pure, Except.pure]
  | some p => simp only [bind, Except.bind, midE, lit, rI, rAdd, e2, hdiv, exA, pure, Except.pure, Option.map_some]

theorem plotBoth_opos {cv : Canvas ℝ} {w : Option ℝ} {e t : Nat} {a b : Pt} (ht : (s.d.he e).twin = some t) (ht' : (s.d.he t).twin = some e)
    (ha : opos s.d e = some a) (hb : opos s.d t = some b) (labels : Bool) :
    (do
      let x ← plotEdge pts cv s w labels e
      let t ← exD (s.d.he e).twin
      let y ← plotEdge pts cv s w false t
      pure (x ++ y)) = Except.ok ((.line (a.1, .fin a.2) (b.1, .fin b.2) .edge ::
        if labels then [.text ((b.1 + a.1) / 2) (some (.fin ((b.2 + a.2) / 2))) (.edge (s.d.he e).incident (s.d.he t).incident)] else []) ++
        [.line (b.1, .fin b.2) (a.1, .fin a.2) .edge]) := by
  rw [plotEdge_opos ht ha hb, ht]
  show (do let y ← plotEdge pts cv s w false t; pure (_ ++ y)) = _
  rw [plotEdge_opos ht' hb ha]
  rfl

theorem pointBoth_opos {cv : Canvas ℝ} {w : Option ℝ} {e t : Nat} {a b : Pt} (ht : (s.d.he e).twin = some t) (ht' : (s.d.he t).twin = some e)
    (ha : opos s.d e = some a) (hb : opos s.d t = some b) :
    (do
      let x ← plotPointer pts cv s w e
      let t ← exD (s.d.he e).twin
      let y ← plotPointer pts cv s w t
      pure (x ++ y)) = Except.ok ((match (s.d.he e).incident with
      | some p => [.line ((a.1 + b.1) / 2, .fin ((a.2 + b.2) / 2)) ((pts p).1, .fin (pts p).2) (if s.d.fe p = some e then .firstEdge else .pointer)]
      | none => []) ++ (match (s.d.he t).incident with
      | some p => [.line ((b.1 + a.1) / 2, .fin ((b.2 + a.2) / 2)) ((pts p).1, .fin (pts p).2) (if s.d.fe p = some t then .firstEdge else .pointer)]
      | none => [])) := by
  rw [plotPointer_opos ht ha hb, ht]
  show (do let y ← plotPointer pts cv s w t; pure (_ ++ y)) = _
  rw [plotPointer_opos ht' hb ha]
  rfl

/-- C86: the lines drawn for the finished diagram are the points of the polygon that are on its border or have two nearest sites. -/
theorem C86_final_picture (hF : FitsCorners pts n poly) (hd : Distinct pts n) (hq : q.Spec evLt ok) (hn : 0 < n)
    (h : createDiagram pts q n fuel poly rz (initSt poly) = .ok ((), s')) (cv : Canvas ℝ) (labels : Bool) :
    ∃ ds, plotEdges pts cv s' labels = .ok ds ∧
      ∀ z, OnLine ds z ↔ InClosed poly.points z ∧ ((∃ p r, p ≠ r ∧ Nearest pts n p z ∧ Nearest pts n r z) ∨ OnBoundary poly.points z) := by
  obtain ⟨s, s1, s2, vs, V, cell, F⟩ := create_finish hF hd hq hn h
  obtain ⟨ds, hds, hmem⟩ := drawEach_ex (f := fun e => do
    let x ← plotEdge pts cv s' s'.sweep labels e
    let t ← exD (s'.d.he e).twin
    let y ← plotEdge pts cv s' s'.sweep false t
    pure (x ++ y)) s'.edges (fun e he => by
      obtain ⟨t, p, a, b, hl⟩ := F.listed he
      exact ⟨_, plotBoth_opos hl.tw hl.ttw hl.org hl.torg labels⟩)
  have hline : ∀ z, OnLine ds z ↔ ∃ e ∈ s'.edges, ∃ a b, OriginAt s'.d e a ∧ TargetAt s'.d e b ∧ Between a b z := by
    intro z
    constructor
    · rintro ⟨a, b, c, hm, hz⟩
      obtain ⟨e, he, x, hx, hm⟩ := (hmem _).mp hm
      obtain ⟨t, p, a', b', hl⟩ := F.listed he
      rw [plotBoth_opos hl.tw hl.ttw hl.org hl.torg labels, Except.ok.injEq] at hx
      refine ⟨e, he, a', b', originAt_iff.mpr hl.org, (targetAt_iff hl.tw).mpr hl.torg, ?_⟩
      rw [← hx] at hm
      have hm' : (a = a' ∧ b = b') ∨ (a = b' ∧ b = a') := by
        cases labels <;> simp [Prod.ext_iff] at hm ⊢ <;> grind
      rcases hm' with ⟨rfl, rfl⟩ | ⟨rfl, rfl⟩
      · exact hz
      · exact hz.symm
    · rintro ⟨e, he, a, b, ha, hb, hz⟩
      obtain ⟨t, p, a', b', hl⟩ := F.listed he
      rw [originAt_iff, hl.org, Option.some.injEq] at ha
      rw [targetAt_iff hl.tw, hl.torg, Option.some.injEq] at hb
      subst ha hb
      refine ⟨a', b', .edge, (hmem _).mpr ⟨e, he, _, plotBoth_opos hl.tw hl.ttw hl.org hl.torg labels, by simp⟩, hz⟩
  refine ⟨ds, hds, fun z => ?_⟩
  rw [hline]
  constructor
  · rintro ⟨e, he, a, b, ha, hb, hz⟩
    obtain ⟨t, p, a', b', hl⟩ := F.listed he
    have hlive := F.live_iff.mp ⟨Or.inl he, hl.inc⟩
    obtain ⟨rfl, rfl⟩ := F.ends_eq hlive ha hb
    obtain ⟨h3, h4⟩ := F.rim_point hlive hz
    refine ⟨h3.1, h4.imp (fun ⟨o, ho, ho'⟩ => ⟨p, o, ho.symm, h3.2, ho'⟩) id⟩
  · rintro ⟨hz, h3⟩
    obtain ⟨p, hp, h4⟩ : ∃ p, Nearest pts n p z ∧ ((∃ o, o ≠ p ∧ Nearest pts n o z) ∨ OnBoundary poly.points z) := by
      rcases h3 with ⟨p, r, h5, h6, h7⟩ | h3
      · exact ⟨p, h6, Or.inl ⟨r, h5.symm, h7⟩⟩
      · obtain ⟨p, hp⟩ := nearest_exists (pts := pts) hn z
        exact ⟨p, hp, Or.inr h3⟩
    obtain ⟨c, hm⟩ := mid_of_cell hF hd hz hp
    obtain ⟨e, he, hz⟩ := (F.rim hm).mp ⟨hz, hp, h4⟩
    obtain ⟨ha, hb⟩ := F.ends he
    obtain ⟨a, ea⟩ : ∃ a, a = startAt s2.d e := ⟨_, rfl⟩
    obtain ⟨b, eb⟩ : ∃ b, b = startAt s2.d (nxt s2.d e) := ⟨_, rfl⟩
    rw [← ea] at ha hz
    rw [← eb] at hb hz
    rcases (F.live_iff.mpr he).1 with h5 | ⟨f, hf, h5⟩
    · exact ⟨e, h5, a, b, ha, hb, hz⟩
    · obtain ⟨t, p', a', b', hl⟩ := F.listed hf
      rw [hl.tw, Option.some.injEq] at h5
      subst h5
      exact ⟨f, hf, b, a, by rw [originAt_iff]; rwa [targetAt_iff hl.ttw] at hb, by rw [targetAt_iff hl.tw]; rwa [originAt_iff] at ha, hz.symm⟩

/-- C87: `plot_border_to_site` on the finished diagram draws exactly one line for each half-edge of a cell, from the middle of the edge to the
site of the cell.  Its points have this site nearest, and if the site is in the polygon, the line does not leave the cell.  For each site with a part of the polygon, of which it
does not take everything with a bounded cell, exactly one of its lines has the colour of the first edge. -/
theorem C87_border_to_site (hF : FitsCorners pts n poly) (hd : Distinct pts n) (hq : q.Spec evLt ok) (hn : 0 < n)
    (h : createDiagram pts q n fuel poly rz (initSt poly) = .ok ((), s')) (cv : Canvas ℝ) :
    ∃ ds, plotBorderToSite pts cv s' = .ok ds ∧
      (∀ d, d ∈ ds ↔ ∃ e p a b, HalfEdgeOf s'.d s'.edges e ∧ (s'.d.he e).incident = some p ∧ OriginAt s'.d e a ∧ TargetAt s'.d e b ∧
        d = .line ((a.1 + b.1) / 2, .fin ((a.2 + b.2) / 2)) ((pts p).1, .fin (pts p).2) (if s'.d.fe p = some e then .firstEdge else .pointer)) ∧
      (∀ a b c, Draw.line (a.1, .fin a.2) (b.1, .fin b.2) c ∈ ds → ∃ p, b = pts p ∧
        ∀ z, Between a b z → Nearest pts n p z ∧ (InClosed poly.points (pts p) → InCell pts n poly p z)) ∧
      ∀ p, Shown pts n poly p → ∃! a, Draw.line a ((pts p).1, .fin (pts p).2) .firstEdge ∈ ds := by
  obtain ⟨s, s1, s2, vs, V, cell, F⟩ := create_finish hF hd hq hn h
  obtain ⟨ds, hds, hmem⟩ := drawEach_ex (f := fun e => do
    let x ← plotPointer pts cv s' s'.sweep e
    let t ← exD (s'.d.he e).twin
    let y ← plotPointer pts cv s' s'.sweep t
    pure (x ++ y)) s'.edges (fun e he => by
      obtain ⟨t, p, a, b, hl⟩ := F.listed he
      exact ⟨_, pointBoth_opos hl.tw hl.ttw hl.org hl.torg⟩)
  have hiff : ∀ d, d ∈ ds ↔ ∃ e p a b, HalfEdgeOf s'.d s'.edges e ∧ (s'.d.he e).incident = some p ∧ OriginAt s'.d e a ∧ TargetAt s'.d e b ∧
        d = .line ((a.1 + b.1) / 2, .fin ((a.2 + b.2) / 2)) ((pts p).1, .fin (pts p).2) (if s'.d.fe p = some e then .firstEdge else .pointer) := by
    intro d
    rw [hmem]
    constructor
    · rintro ⟨e, he, x, hx, hm⟩
      obtain ⟨t, p, a, b, hl⟩ := F.listed he
      rw [pointBoth_opos hl.tw hl.ttw hl.org hl.torg, Except.ok.injEq] at hx
      rw [← hx, List.mem_append] at hm
      rcases hm with hm | hm
      · rw [hl.inc] at hm
        exact ⟨e, p, a, b, Or.inl he, hl.inc, originAt_iff.mpr hl.org, (targetAt_iff hl.tw).mpr hl.torg, List.mem_singleton.mp hm⟩
      · cases hi : (s'.d.he t).incident with
        | none => rw [hi] at hm; cases hm
        | some r =>
          rw [hi] at hm
          exact ⟨t, r, b, a, Or.inr ⟨e, he, hl.tw⟩, hi, originAt_iff.mpr hl.torg, (targetAt_iff hl.ttw).mpr hl.org, List.mem_singleton.mp hm⟩
    · rintro ⟨e, p, a, b, he, hi, ha, hb, rfl⟩
      rcases he with he | ⟨f, hf, h5⟩
      · obtain ⟨t, p', a', b', hl⟩ := F.listed he
        rw [originAt_iff, hl.org, Option.some.injEq] at ha
        rw [targetAt_iff hl.tw, hl.torg, Option.some.injEq] at hb
        subst ha hb
        refine ⟨e, he, _, pointBoth_opos hl.tw hl.ttw hl.org hl.torg, List.mem_append_left _ ?_⟩
        rw [hi]
        exact List.mem_singleton.mpr rfl
      · obtain ⟨t, p', a', b', hl⟩ := F.listed hf
        rw [hl.tw, Option.some.injEq] at h5
        subst h5
        rw [originAt_iff, hl.torg, Option.some.injEq] at ha
        rw [targetAt_iff hl.ttw, hl.org, Option.some.injEq] at hb
        subst ha hb
        refine ⟨f, hf, _, pointBoth_opos hl.tw hl.ttw hl.org hl.torg, List.mem_append_right _ ?_⟩
        rw [hi]
        exact List.mem_singleton.mpr rfl
  have hlt : ∀ e p, HalfEdgeOf s'.d s'.edges e → (s'.d.he e).incident = some p → p < n := by
    rintro e p (he | ⟨f, hf, h5⟩) hi
    · obtain ⟨t, p', a', b', hl⟩ := F.listed he
      rw [hl.inc, Option.some.injEq] at hi
      exact hi ▸ hl.lt
    · obtain ⟨t, p', a', b', hl⟩ := F.listed hf
      rw [hl.tw, Option.some.injEq] at h5
      exact hl.tlt p (h5 ▸ hi)
  refine ⟨ds, hds, hiff, ?_, ?_⟩
  · intro a b c hm
    obtain ⟨e, p, u, v, he, hi, hu, hv, hh⟩ := (hiff _).mp hm
    simp only [Draw.line.injEq, Prod.mk.injEq, Ext.fin.injEq] at hh
    obtain ⟨⟨e1, e2⟩, ⟨e3, e4⟩, _⟩ := hh
    have hpn := hlt e p he hi
    refine ⟨p, Prod.ext e3 e4, fun z hz => ?_⟩
    have ha : InCell pts n poly p a := by
      have hlive := F.live_iff.mp ⟨he, hi⟩
      obtain ⟨eu, ev⟩ := F.ends_eq hlive hu hv
      refine (F.rim_point hlive (z := a) ?_).1
      rw [← eu, ← ev]
      have : a = ((u.1 + v.1) / 2, (u.2 + v.2) / 2) := Prod.ext e1 e2
      rw [this]
      exact between_mid u v
    have hb : Nearest pts n p b := by
      have : b = pts p := Prod.ext e3 e4
      rw [this]
      exact ⟨hpn, fun c _ => by
        have : sqDist (pts p) (pts p) = 0 := by unfold sqDist; ring
        rw [this]; unfold sqDist; positivity⟩
    refine ⟨ha.2.between hb hz, fun hin => ⟨ha.1.between ?_ hz, ha.2.between hb hz⟩⟩
    rw [show b = pts p from Prod.ext e3 e4]
    exact hin
  · intro p hS
    have hp := hS.lt
    obtain ⟨e, he, hl⟩ := F.first hS
    obtain ⟨h1, h2⟩ := F.live_iff.mpr hl
    obtain ⟨h3, h4⟩ := F.ends hl
    refine ⟨_, (hiff _).mpr ⟨e, p, _, _, h1, h2, h3, h4, by rw [if_pos he]⟩, ?_⟩
    intro a hm
    obtain ⟨e', p', u, v, he', hi, hu, hv, hh⟩ := (hiff _).mp hm
    simp only [Draw.line.injEq, Prod.mk.injEq, Ext.fin.injEq] at hh
    obtain ⟨e1, ⟨e2, e3⟩, e4⟩ := hh
    have hpp : p' = p := (hd p hp p' (hlt e' p' he' hi) (Prod.ext e2 e3)).symm
    subst hpp
    have hee : e' = e := by
      by_contra hne
      rw [he, if_neg (by simpa using Ne.symm hne)] at e4
      cases e4
    subst hee
    obtain ⟨rfl, rfl⟩ := F.ends_eq hl hu hv
    exact e1

/-- The hypotheses can be met: three sites in a box.  The Voronoi vertex is on a drawn line, a site is not, and one line to this site has the
colour of the first edge. -/
example : ∃ poly s' ds ds', boundingBox (-1 : ℝ) 3 99 104 = .ok poly ∧ createDiagram high3 heapq 3 22 poly true (initSt poly) = .ok ((), s') ∧
    FitsBorder high3 3 poly ∧ plotEdges high3 (canvasSize poly 1) s' true = .ok ds ∧ OnLine ds (1, 101) ∧ ¬ OnLine ds (high3 0) ∧
    plotBorderToSite high3 (canvasSize poly 1) s' = .ok ds' ∧ ∃ a, Draw.line a ((high3 0).1, .fin (high3 0).2) .firstEdge ∈ ds' := by
  have hp := box_points (show (-1 : ℝ) < 3 by norm_num) (show (99 : ℝ) < 104 by norm_num)
  have hF := high3_border hp
  obtain ⟨_, s', _, h, _⟩ := C74_cleanup_succeeds (fuel := 22) hF.toFitsCorners high3_distinct C45_event_queue (by norm_num) (by norm_num)
  obtain ⟨ds, h1, h2⟩ := C86_final_picture hF.toFitsCorners high3_distinct C45_event_queue (by norm_num) h (canvasSize _ 1) true
  obtain ⟨ds', h3, _, _, h4⟩ := C87_border_to_site hF.toFitsCorners high3_distinct C45_event_queue (by norm_num) h (canvasSize _ 1)
  obtain ⟨a, ha, _⟩ := h4 0 (hF.shown (by norm_num))
  have hn : ∀ p < 3, Nearest high3 3 p (1, 101) := by
    intro p hp
    refine ⟨hp, fun c hc => ?_⟩
    rcases (by omega : p = 0 ∨ p = 1 ∨ p = 2) with rfl | rfl | rfl <;> rcases (by omega : c = 0 ∨ c = 1 ∨ c = 2) with rfl | rfl | rfl <;>
      norm_num [high3, sqDist]
  refine ⟨_, s', ds, ds', hp, h, hF, h1, (h2 _).mpr ⟨?_, Or.inl ⟨0, 1, by norm_num, hn 0 (by norm_num), hn 1 (by norm_num)⟩⟩, ?_, h3, a, ha⟩
  · exact (box_closed (by norm_num) (by norm_num) _).mpr (by norm_num)
  · rintro hz
    rcases ((h2 _).mp hz).2 with ⟨p, r, hpr, hp, hr⟩ | hb
    · have key : ∀ p, Nearest high3 3 p (high3 0) → p = 0 := by
        intro p hp
        have := hp.2 0 (by norm_num)
        have := hp.1
        rcases (by omega : p = 0 ∨ p = 1 ∨ p = 2) with rfl | rfl | rfl
        · rfl
        · norm_num [high3, sqDist] at *
        · norm_num [high3, sqDist] at *
      exact hpr ((key p hp).trans (key r hr).symm)
    · exact hb.not_inside ((box_inside (by norm_num) (by norm_num) _).mpr (by norm_num [high3]))

end Foronoi
