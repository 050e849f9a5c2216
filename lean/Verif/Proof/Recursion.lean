import Verif.Model.Recursion
import Verif.Props.Row

/-! # The run with a recursion limit agrees with the run without one, as long as it does not raise -/

namespace Foronoi

open scoped List

/-- Two runs agree unless one of them ran out of its number of calls. -/
def CutOff {α : Type} (r r' : Except Err α) : Prop := r = .error .fuel ∨ r' = .error .fuel ∨ r = r'

section
variable {σ τ α β : Type}

theorem CutOff.refl (r : Except Err α) : CutOff r r := Or.inr (Or.inr rfl)

theorem CutOff.bind {m m' : EM σ α} {k k' : α → EM σ β} {s : σ} (h : CutOff (m s) (m' s)) (hk : ∀ a t, CutOff (k a t) (k' a t)) :
    CutOff ((m >>= k) s) ((m' >>= k') s) := by
  simp only [Bind.bind, StateT.bind, Except.bind]
  rcases h with h | h | h
  · rw [h]; exact Or.inl rfl
  · rw [h]; exact Or.inr (Or.inl rfl)
  · rw [h]
    cases m' s with
    | error e => exact .refl _
    | ok v => exact hk v.1 v.2

theorem CutOff.zoom {g : σ → τ} {p : τ → σ → σ} {m m' : EM τ α} {s : σ} (h : CutOff (m (g s)) (m' (g s))) :
    CutOff (Foronoi.zoom g p m s) (Foronoi.zoom g p m' s) := by
  unfold Foronoi.zoom
  rcases h with h | h | h
  · rw [h]; exact Or.inl rfl
  · rw [h]; exact Or.inr (Or.inl rfl)
  · rw [h]; exact .refl _

theorem CutOff.optDo {o : Option α} {f f' : α → EM σ Unit} {s : σ} (h : ∀ a, CutOff (f a s) (f' a s)) :
    CutOff (Foronoi.optDo o f s) (Foronoi.optDo o f' s) := by
  cases o with
  | none => exact .refl _
  | some a => exact h a

end

section
variable {D : Type}

theorem agree_updateHeights (hf : Nat) : ∀ (f f' i : Nat) (s : NS D), CutOff (updateHeights hf f i s) (updateHeights hf f' i s) := by
  intro f
  induction f with
  | zero => intro f' i s; exact Or.inl rfl
  | succ f ih =>
    intro f' i s
    cases f' with
    | zero => exact Or.inr (Or.inl rfl)
    | succ f' =>
      exact .bind (.refl _) fun _ t => .bind (.refl _) fun r t => .optDo fun p => ih f' p t

theorem agree_replaceLeaf (lim fuel i : Nat) (o root : Option Nat) (s : NS D) :
    CutOff (replaceLeafR lim fuel i o root s) (replaceLeaf fuel i o root s) := by
  refine .bind (.refl _) fun r t => .bind (.refl _) fun _ t => .bind (.refl _) fun ro t => .bind ?_ fun _ t => .refl _
  cases o with
  | some q => exact agree_updateHeights _ _ _ _ _
  | none => exact .bind (.refl _) fun r t => .optDo fun p => agree_updateHeights _ _ _ _ _

end

variable {K : Type} [LinearOrder K] [Arith K]

theorem agree_replaceLeafSt (lim n : Nat) (o : Option Nat) (s : St K) : CutOff (replaceLeafStR lim n o s) (replaceLeafSt n o s) :=
  .bind (.refl _) fun _ t => .bind (.refl _) fun _ t => .bind (.zoom (agree_replaceLeaf _ _ _ _ _ _)) fun _ _ => .refl _

theorem agree_handleSite (lim : Nat) (pts : Nat → K × K) (q : PQ (QE K)) (pi : Nat) (s : St K) :
    CutOff (handleSiteR lim pts q pi s) (handleSite pts q pi s) := by
  refine .bind (.refl _) fun ai t => .bind (.refl _) fun _ t => .bind (.refl _) fun s t => ?_
  cases s.root with
  | none => exact .refl _
  | some rt =>
    exact .bind (.refl _) fun l t => .bind (.refl _) fun o t => .bind (.refl _) fun above t => .bind (.refl _) fun a t =>
      .bind (.refl _) fun s t => .bind (.refl _) fun _ t => .bind (.refl _) fun bl t => .bind (.refl _) fun br t => .bind (.refl _) fun aj t =>
      .bind (.refl _) fun root t => .bind (agree_replaceLeafSt _ _ _ _) fun _ _ => .refl _

theorem agree_handleEvent (lim : Nat) (pts : Nat → K × K) (q : PQ (QE K)) (e : QE K) (s : St K) :
    CutOff (handleEventR lim pts q e s) (handleEvent pts q e s) := by
  unfold handleEventR
  by_cases h : e.circ
  · rw [if_pos h]; exact .refl _
  · unfold handleEvent
    rw [if_neg h, if_neg h]
    exact .bind (.refl _) fun s t => .bind (.refl _) fun _ t => .bind (.refl _) fun _ t => .bind (agree_handleSite _ _ _ _ _) fun _ _ => .refl _

theorem agree_sweepLoop (lim : Nat) (pts : Nat → K × K) (q : PQ (QE K)) : ∀ (fuel : Nat) (s : St K),
    CutOff (sweepLoopR lim pts q fuel s) (sweepLoop pts q fuel s) := by
  intro fuel
  induction fuel with
  | zero => intro s; exact .refl _
  | succ fuel ih =>
    intro s
    refine .bind (.refl _) fun s t => ?_
    cases q.pop s.queue with
    | none => exact .refl _
    | some er => exact .bind (.refl _) fun _ t => .bind (agree_handleEvent _ _ _ _ _) fun _ t => ih t

theorem agree_sweepAll (lim : Nat) (pts : Nat → K × K) (q : PQ (QE K)) (n fuel : Nat) (s : St K) :
    CutOff (sweepAllR lim pts q n fuel s) (sweepAll pts q n fuel s) :=
  .bind (.refl _) fun _ t => .bind (agree_sweepLoop _ _ _ _ _) fun _ _ => .refl _

/-! ### How many calls a run needs -/

/-- Node `i` has less than `f` ancestors. -/
def Short {D : Type} (n : Nat → NodeR D) : Nat → Nat → Prop
  | 0, _ => False
  | f + 1, i => ∀ p, (n i).parent = some p → Short n f p

theorem Short.congr {D : Type} {n n' : Nat → NodeR D} (h : ∀ i, (n' i).parent = (n i).parent) : ∀ {f i : Nat}, Short n f i → Short n' f i := by
  intro f
  induction f with
  | zero => exact id
  | succ f ih =>
    intro i hs p hp
    rw [h] at hp
    exact ih (hs p hp)

/-- Parents are as before. -/
def SamePar {D : Type} (s s' : NS D) : Prop := ∀ i, (s'.n i).parent = (s.n i).parent

theorem SamePar.trans {D : Type} {a b c : NS D} (h : SamePar a b) (h' : SamePar b c) : SamePar a c := fun i => (h' i).trans (h i)

abbrev any : Err → Prop := fun _ => True

theorem samePar_setHeight {D : Type} (s : NS D) (i : Nat) (h : Option Nat) :
    SamePar s { s with n := Function.update s.n i { s.n i with height := h } } := by
  intro j
  by_cases hj : j = i
  · subst hj; simp
  · simp [Function.update_of_ne hj]

theorem part_height {D : Type} : ∀ (f i : Nat) (s : NS D), Wp any (height f i) s (fun _ s' => SamePar s s') := by
  intro f
  induction f with
  | zero => intro i s; trivial
  | succ f ih =>
    intro i s
    have ho : ∀ (o : Option Nat) (s : NS D), Wp any (match o with | some c => height f c | none => pure 0) s (fun _ s' => SamePar s s') := by
      intro o s
      cases o with
      | none => exact fun _ => rfl
      | some c => exact ih c s
    unfold height
    simp only [wp_bind, wp_rd]
    cases (s.n i).height with
    | some h => exact fun _ => rfl
    | none =>
      simp only [wp_bind]
      refine wp_mono (ho _ _) fun lh s1 h1 => ?_
      refine wp_mono (ho _ _) fun rh s2 h2 => ?_
      simp only [wp_updN, wp_pure]
      exact (h1.trans h2).trans (samePar_setHeight _ _ _)

theorem part_updateHeight {D : Type} (f i : Nat) (s : NS D) : Wp any (updateHeight f i) s (fun _ s' => SamePar s s') := by
  have ho : ∀ (o : Option Nat) (s : NS D), Wp any (heightO f o) s (fun _ s' => SamePar s s') := by
    intro o s
    cases o with
    | none => exact fun _ => rfl
    | some c => exact part_height f c s
  unfold updateHeight calcHeight
  simp only [wp_bind, wp_rd]
  refine wp_mono (ho _ _) fun lh s1 h1 => ?_
  refine wp_mono (ho _ _) fun rh s2 h2 => ?_
  simp only [wp_updN, wp_pure]
  exact (h1.trans h2).trans (samePar_setHeight _ _ _)

theorem part_updateHeights {D : Type} (hf : Nat) : ∀ (f i : Nat) (s : NS D),
    Wp any (updateHeights hf f i) s (fun _ s' => SamePar s s' ∧ Short s'.n f i) := by
  intro f
  induction f with
  | zero => intro i s; trivial
  | succ f ih =>
    intro i s
    unfold updateHeights
    simp only [wp_bind, wp_rd]
    refine wp_mono (part_updateHeight _ _ _) fun _ s1 h1 => ?_
    rw [wp_optDo]
    refine ⟨fun p hp => ?_, fun hp => ?_⟩
    · refine wp_mono (ih p s1) fun _ s2 ⟨h2, h3⟩ => ⟨h1.trans h2, fun p' hp' => ?_⟩
      rw [h2 i, hp] at hp'
      cases hp'
      exact h3
    · exact ⟨h1, fun p' hp' => by rw [hp] at hp'; cases hp'⟩

theorem part_replaceLeaf {D : Type} (lim fuel i r : Nat) (root : Option Nat) (s : NS D) :
    Wp any (replaceLeafR lim fuel i (some r) root) s (fun _ s' => Short s'.n lim r) := by
  unfold replaceLeafR refreshHeightsR
  simp only [wp_bind]
  have triv : ∀ {α : Type} (m : TM D α) (s : NS D), Wp any m s (fun _ _ => True) := by
    intro α m s
    unfold Wp
    split <;> trivial
  refine wp_mono (triv _ _) fun _ s1 _ => ?_
  refine wp_mono (triv _ _) fun _ s1 _ => ?_
  refine wp_mono (triv _ _) fun _ s1 _ => ?_
  exact wp_mono (part_updateHeights _ _ _ _) fun _ s2 h => h.2

theorem part_findLeaf {D : Type} {key : D → Option K} {x : K} : ∀ (f : Nat) (o : Option Nat) (s : NS D),
    Wp any (findLeaf key x f o) s (fun _ s' => s' = s) := by
  have hmax : ∀ (f i : Nat) (s : NS D), Wp any (maximum f i) s (fun _ s' => s' = s) := by
    intro f
    induction f with
    | zero => intro i s; trivial
    | succ f ih =>
      intro i s
      unfold maximum
      simp only [wp_bind, wp_rd]
      cases (s.n i).right with
      | none => rfl
      | some c => exact ih c s
  have hmin : ∀ (f i : Nat) (s : NS D), Wp any (minimum f i) s (fun _ s' => s' = s) := by
    intro f
    induction f with
    | zero => intro i s; trivial
    | succ f ih =>
      intro i s
      unfold minimum
      simp only [wp_bind, wp_rd]
      cases (s.n i).left with
      | none => rfl
      | some c => exact ih c s
  intro f
  induction f with
  | zero => intro o s; trivial
  | succ f ih =>
    intro o s
    cases o with
    | none => rfl
    | some i =>
      unfold findLeaf
      simp only [wp_bind, isLeaf, wp_rd, wp_pure]
      rw [wp_ite]
      refine ⟨fun _ => rfl, fun _ => ?_⟩
      simp only [wp_bind, wp_rd, wp_liftA]
      refine ⟨fun k _ => ?_, fun _ => trivial⟩
      rw [wp_ite]
      refine ⟨fun _ => ?_, fun _ => ?_⟩
      · cases (s.n i).left with
        | some l =>
          simp only [wp_bind, wp_pure]
          exact wp_mono (hmax _ _ _) fun _ _ h => h
        | none =>
          simp only [wp_bind, wp_pure, wp_deref]
          cases (s.n i).right with
          | none => exact Or.inr ⟨rfl, trivial⟩
          | some c => exact Or.inl ⟨c, rfl, wp_mono (hmin _ _ _) fun _ _ h => h⟩
      · rw [wp_ite]
        exact ⟨fun _ => ih _ _, fun _ => ih _ _⟩

/-- If handling a site that does not split an arc succeeds, the new inner node has less than `lim` ancestors. -/
theorem part_handleSite {lim : Nat} {pts : Nat → K × K} {q : PQ (QE K)} {pi : Nat} {s : St K} {t : T Dat} (hroot : s.root = some t.id)
    (htok : TOk s.ns t) (hb : BOk s.og s.pr s.arcCnt s.bpCnt t.io)
    (hint : ∀ o ∈ origs s.og t.io, doesIntersect (pts pi) (pts o) = false) :
    Wp any (handleSiteR lim pts q pi) s (fun _ s' => Short s'.ns.n lim s.ns.cnt) := by
  have hdep := htok.depth
  simp only [handleSiteR, wp_bind, wp_newArc, wp_modify, wp_get, hroot, wp_zT, wp_deref]
  cases hl : s.sweep with
  | none => exact Or.inr ⟨rfl, trivial⟩
  | some l =>
  refine Or.inl ⟨l, rfl, ?_⟩
  refine wp_mono (wp_findLeaf htok.repr (by omega) (Or.inr trivial)) ?_
  rintro o ns1 ⟨rfl, y, hy, rfl⟩
  obtain ⟨hym, hyl⟩ := lookup_mem hy
  obtain ⟨n, f, dd⟩ := y
  simp only at hyl
  subst hyl
  obtain ⟨a, rfl, ha⟩ : ∃ a, dd = .arc a ∧ a < s.arcCnt := by
    rcases hb.kind _ hym with ⟨a, _, h1, h2⟩ | ⟨b, h0, _⟩
    · exact ⟨a, h1, h2⟩
    · cases h0
  have hdata := htok.repr.data hym
  simp only at hdata
  simp only [Option.some.injEq, exists_eq_left', reduceCtorEq, false_and, or_false]
  rw [wp_arcOf (a := a) (by exact hdata)]
  have hau : Function.update s.arcs s.arcCnt ⟨pi, none⟩ a = s.arcs a := Function.update_of_ne (by omega) _ _
  simp only [hau]
  have hmem : (s.arcs a).origin ∈ origs s.og t.io := by
    obtain ⟨pre, post, hsplit⟩ := List.append_of_mem hym
    rw [hsplit]
    simp [origs_append, St.og]
  have hno := hint _ hmem
  have hkill : ∀ (Q : Unit → St K → Prop) (s1 : St K), (∀ evs, Q () { s1 with evs := evs }) → Wp any (optDo (s.arcs a).cev removeEv) s1 Q := by
    intro Q s1 h
    rw [wp_optDo]
    exact ⟨fun c hc => h _, fun hc => h _⟩
  refine hkill _ _ fun evs => ?_
  simp only [wp_newBp]
  refine wp_mono (wp_mkSubtree _ _ _ _ _ _ (by exact htok.hinv)) ?_
  rintro r s2 ⟨ns2, rfl, rfl, -, -, -, -⟩
  simp only [hno, Bool.false_eq_true, if_false, replaceLeafStR, wp_bind, wp_treeFuel, wp_get, wp_zT, wp_modify, wp_whenDo]
  refine wp_mono (part_replaceLeaf _ _ _ _ _ _) fun r2 ns3 h3 => ?_
  refine wp_newSiteEdges (by simp) ?_
  simpa using h3

/-- A node of the tree has less than `f` ancestors only if it is at depth less than `f`. -/
theorem short_plug {D : Type} {n : Nat → NodeR D} {c : Ctx D} : ∀ {t : T D} {f : Nat}, Repr n none (plug c t) → Short n f t.id → c.length < f := by
  induction c with
  | nil =>
    intro t f _ h
    cases f with
    | zero => exact h.elim
    | succ f => simp
  | cons fr c ih =>
    intro t f hr h
    cases f with
    | zero => exact h.elim
    | succ f =>
      have hp := ((repr_plug _ _ _).mp hr).1.parent_eq
      cases fr with
      | L i d r =>
        have := ih (t := .node i d t r) (f := f) hr (h i hp)
        simp only [List.length_cons]; omega
      | R i d l =>
        have := ih (t := .node i d l t) (f := f) hr (h i hp)
        simp only [List.length_cons]; omega

theorem plug_short {D : Type} {n : Nat → NodeR D} {c : Ctx D} : ∀ {t : T D} {f : Nat}, Repr n none (plug c t) → c.length < f → Short n f t.id := by
  induction c with
  | nil =>
    intro t f hr h
    cases f with
    | zero => simp at h
    | succ f =>
      intro p hp
      have := Repr.parent_eq (t := t) hr
      rw [this] at hp
      cases hp
  | cons fr c ih =>
    intro t f hr h
    cases f with
    | zero => simp at h
    | succ f =>
      intro p hp
      rw [((repr_plug _ _ _).mp hr).1.parent_eq] at hp
      simp only [List.length_cons] at h
      cases fr with
      | L i d r =>
        cases hp
        exact ih (t := .node p d t r) (f := f) hr (by omega)
      | R i d l =>
        cases hp
        exact ih (t := .node p d l t) (f := f) hr (by omega)

theorem RP.length {D : Type} {c : Ctx D} : ∀ {t : T D} {k : Nat}, RP (Foronoi.plug c t) k → ioR c = [] → ∃ k', RP t k' ∧ k = c.length + k' := by
  induction c with
  | nil => intro t k h _; exact ⟨k, h, by simp⟩
  | cons f c ih =>
    intro t k h hc
    cases f with
    | L i d r => simp [ioR] at hc
    | R i d l =>
      obtain ⟨k', h2, h3⟩ := ih (t := .node i d l t) h hc
      cases h2 with
      | @node _ _ j e _ k2 h4 => exact ⟨k2, h4, by simp; omega⟩

/-! ### Enough calls -/

theorem okBind {σ α β : Type} {m : EM σ α} {k : α → EM σ β} {s : σ} {r : β × σ} :
    (m >>= k) s = .ok r ↔ ∃ a t, m s = .ok (a, t) ∧ k a t = .ok r := by
  simp only [Bind.bind, StateT.bind, Except.bind]
  cases m s with
  | error e => simp
  | ok v =>
    refine ⟨fun h => ⟨v.1, v.2, rfl, h⟩, ?_⟩
    rintro ⟨a, t, h1, h2⟩
    cases h1
    exact h2

theorem enough_updateHeights {D : Type} {hf : Nat} : ∀ {f f' i : Nat} {s s' : NS D}, updateHeights hf f' i s = .ok ((), s') → Short s.n f i →
    updateHeights hf f i s = .ok ((), s') := by
  intro f
  induction f with
  | zero => intro f' i s s' _ h; exact h.elim
  | succ f ih =>
    intro f' i s s' h hs
    cases f' with
    | zero => cases h
    | succ f' =>
      unfold updateHeights at h ⊢
      simp only [okBind] at h ⊢
      obtain ⟨⟨⟩, t, h1, r, t2, h2, h3⟩ := h
      refine ⟨(), t, h1, r, t2, h2, ?_⟩
      cases h2
      have hpar := (part_updateHeight hf i s).ok h1
      cases hp : (t.n i).parent with
      | none => rw [hp] at h3; exact h3
      | some p =>
        rw [hp] at h3
        refine ih h3 ((hs p ?_).congr hpar)
        rw [← hpar i, hp]

theorem enough_replaceLeaf {D : Type} {lim fuel i r : Nat} {root root' : Option Nat} {s s' : NS D}
    (h : replaceLeaf fuel i (some r) root s = .ok (root', s')) (hs : Short s'.n lim r) :
    replaceLeafR lim fuel i (some r) root s = .ok (root', s') := by
  unfold replaceLeaf refreshHeights at h
  unfold replaceLeafR refreshHeightsR
  simp only [okBind] at h ⊢
  obtain ⟨x, t, h1, ⟨⟩, t2, h2, y, t3, h3, ⟨⟩, t4, h4, h5⟩ := h
  cases h5
  exact ⟨x, t, h1, (), t2, h2, root', t3, h3, (), s', enough_updateHeights h4 (hs.congr fun i => ((part_updateHeights _ _ _ _).ok h4).1 i |>.symm), rfl⟩

/-- If handling a site that splits no arc succeeds without a limit, and the new inner node has less than `lim` ancestors, it succeeds with the limit. -/
theorem enough_handleSite {lim : Nat} {pts : Nat → K × K} {q : PQ (QE K)} {pi : Nat} {s s' : St K} {t : T Dat} (hroot : s.root = some t.id)
    (htok : TOk s.ns t) (hb : BOk s.og s.pr s.arcCnt s.bpCnt t.io)
    (hint : ∀ o ∈ origs s.og t.io, doesIntersect (pts pi) (pts o) = false)
    (h : handleSite pts q pi s = .ok ((), s')) (hs : Short s'.ns.n lim s.ns.cnt) : handleSiteR lim pts q pi s = .ok ((), s') := by
  have hdep := htok.depth
  unfold handleSite at h
  unfold handleSiteR
  simp only [okBind] at h ⊢
  obtain ⟨ai, s1, h1, ⟨⟩, s2, h2, s2', s2'', h3, h⟩ := h
  refine ⟨ai, s1, h1, (), s2, h2, s2', s2'', h3, ?_⟩
  cases h1; cases h2; cases h3
  simp only [hroot] at h ⊢
  simp only [okBind] at h ⊢
  obtain ⟨l, s3, h1, o, s4, h2, above, s5, h3, a, s6, h4, s6', s7, h5, ⟨⟩, s8, h6, bl, s9, h7, br, s10, h8, aj, s11, h9, root, s12, h10, ⟨⟩, s13, h11, ⟨⟩, s14, h12, h13⟩ := h
  have hsw : s.sweep = some l := by
    cases hsw : s.sweep with
    | none => rw [hsw] at h1; cases h1
    | some l' => rw [hsw] at h1; cases h1; rfl
  rw [hsw] at h1
  have hns3 : s3.ns = s.ns := by cases h1; rfl
  have har3 : s3.arcs = Function.update s.arcs s.arcCnt ⟨pi, none⟩ := by cases h1; rfl
  obtain ⟨y, hy, rfl, hns4, har4⟩ : ∃ y, t.lookup _ _ = some y ∧ o = some y.id ∧ s4.ns = s.ns ∧ s4.arcs = s3.arcs := by
    have hw : Wp any (zT (findLeaf (keyOf pts s.bps (Function.update s.arcs s.arcCnt ⟨pi, none⟩) l) (pts pi).1 (s.ns.cnt + 1) (some t.id))) s3
        (fun o s4 => ∃ y, t.lookup (keyOf pts s.bps (Function.update s.arcs s.arcCnt ⟨pi, none⟩) l) (pts pi).1 = some y ∧ o = some y.id ∧
          s4.ns = s.ns ∧ s4.arcs = s3.arcs) := by
      rw [wp_zT, hns3]
      refine wp_mono (wp_findLeaf htok.repr (by omega) (Or.inr trivial)) ?_
      rintro o ns1 ⟨rfl, y, hy, rfl⟩
      exact ⟨y, hy, rfl, rfl, rfl⟩
    exact hw.ok h2
  obtain ⟨hym, hyl⟩ := lookup_mem hy
  cases h3
  obtain ⟨n, f, dd⟩ := y
  simp only at hyl
  subst hyl
  obtain ⟨a', rfl, ha⟩ : ∃ a, dd = .arc a ∧ a < s.arcCnt := by
    rcases hb.kind _ hym with ⟨a, _, h1, h2⟩ | ⟨b, h0, _⟩
    · exact ⟨a, h1, h2⟩
    · cases h0
  have hdata := htok.repr.data hym
  simp only at hdata h4 h11 ⊢
  have ha' : a = a' ∧ s6 = s4 := by
    have hw := (wp_arcOf (E := any) (s := s4) (n := n) (a := a') (by rw [hns4]; exact hdata) (fun x u => x = a' ∧ u = s4)).mpr ⟨rfl, rfl⟩
    exact hw.ok h4
  obtain ⟨rfl, rfl⟩ := ha'
  cases h5
  have hmem : (s.arcs a).origin ∈ origs s.og t.io := by
    obtain ⟨pre, post, hsplit⟩ := List.append_of_mem hym
    rw [hsplit]
    simp [origs_append, St.og]
  have hor : (s6.arcs a).origin = (s.arcs a).origin := by
    rw [har4, har3, Function.update_of_ne (by omega)]
  have hno : doesIntersect (pts pi) (pts (s6.arcs a).origin) = false := by rw [hor]; exact hint _ hmem
  have hns8 : s8.ns = s.ns := by
    cases hc : (s6.arcs a).cev with
    | none => rw [hc] at h6; cases h6; exact hns4
    | some c => rw [hc] at h6; cases h6; exact hns4
  have hns11 : s11.ns = s.ns := by cases h7; cases h8; cases h9; exact hns8
  have hroot12 : root = s.ns.cnt := by
    obtain ⟨_, h, _⟩ := (wp_mkSubtree (E := any) _ _ _ _ _ _ (by rw [hns11]; exact htok.hinv)).ok h10
    rw [h, hns11]
  have hbp : bl ≠ br := by cases h7; cases h8; simp
  rw [hno] at h13
  cases h13
  have hns14 : s'.ns = s13.ns :=
    (wp_newSiteEdges (E := any) (Q := fun _ u => u.ns = s13.ns) hbp rfl).ok h12
  refine ⟨l, s3, by rw [hsw]; exact h1, _, s6, h2, n, s6, rfl, a, s6, h4, s6, s6, rfl, (), s8, h6, bl, s9, h7, br, s10, h8, aj, s11, h9, root, s12, h10, (), s13, ?_,
    (), s', h12, by rw [hno]; rfl⟩
  unfold replaceLeafSt at h11
  unfold replaceLeafStR
  simp only [okBind] at h11 ⊢
  obtain ⟨f, u1, g1, u2, u3, g2, r, u4, g3, g4⟩ := h11
  refine ⟨f, u1, g1, u2, u3, g2, r, u4, ?_, g4⟩
  cases g4
  unfold zT zoom at g3 ⊢
  cases hrl : replaceLeaf f n (some root) u2.root u3.ns with
  | error x => rw [hrl] at g3; cases g3
  | ok v =>
    obtain ⟨r', ns'⟩ := v
    rw [hrl] at g3
    cases g3
    have hs' : Short ns'.n lim root := by
      have h : s'.ns = ns' := hns14
      rw [hroot12, ← h]
      exact hs
    rw [enough_replaceLeaf hrl hs']

end Foronoi
