import Verif.Proof.Beach
import Mathlib.Data.List.Perm.Subperm
import Mathlib.Data.List.Range

/-!
# What one event does, without pointers

The effect of `handleSite` and `handleCircle` on all components of the state except the status tree
is given by pure functions (`siteMid`, `circMid`, `checkAdd`); the status tree is represented by its
in-order list.
-/

namespace Foronoi

variable {K : Type} [LinearOrder K] [Arith K] {E : Err → Prop}

/-- The store contains the tree `t`, all of it allocated, heights sane. -/
structure TOk (ns : NS Dat) (t : T Dat) : Prop where
  repr : Repr ns.n none t
  nd : t.ids.Nodup
  lt : ∀ i ∈ t.ids, i < ns.cnt
  hinv : HInv ns

/-- The status tree of the state has in-order list `L`. -/
def TreeOk (ns : NS Dat) (root : Option Nat) (L : List (Item Dat)) : Prop :=
  HInv ns ∧ ((root = none ∧ L = []) ∨ ∃ t, root = some t.id ∧ TOk ns t ∧ t.io = L)

theorem nodup_length_le {l : List Nat} {n : Nat} (h : l.Nodup) (hl : ∀ i ∈ l, i < n) : l.length ≤ n := by
  have : l ⊆ List.range n := fun i hi => List.mem_range.mpr (hl i hi)
  simpa using (h.subperm this).length_le

theorem TOk.len {ns : NS Dat} {t : T Dat} (h : TOk ns t) : t.ids.length ≤ ns.cnt := nodup_length_le h.nd h.lt

theorem TOk.depth {ns : NS Dat} {t : T Dat} (h : TOk ns t) : t.depth ≤ ns.cnt := t.depth_le_length.trans h.len

theorem Repr.data {D : Type} {n : Nat → NodeR D} {p : Option Nat} {t : T D} (h : Repr n p t) {x : Item D}
    (hx : x ∈ t.io) : (n x.id).data = x.d := by
  induction t generalizing p with
  | leaf i d =>
    simp only [T.io, List.mem_singleton] at hx
    subst hx; exact h.1
  | node i d l r ihl ihr =>
    obtain ⟨h1, _, _, _, h5, h6⟩ := h
    simp only [T.io, List.mem_append, List.mem_cons] at hx
    rcases hx with hx | rfl | hx
    · exact ihl h5 hx
    · exact h1
    · exact ihr h6 hx

@[simp] theorem wp_zT {α : Type} (m : TM Dat α) (s : St K) (Q : α → St K → Prop) :
    Wp E (zT m) s Q ↔ Wp E m s.ns (fun a t => Q a { s with ns := t }) := wp_zoom _ _ _ _ _

@[simp] theorem wp_zD {α : Type} (m : DM K α) (s : St K) (Q : α → St K → Prop) :
    Wp E (zD m) s Q ↔ Wp E m s.d (fun a t => Q a { s with d := t }) := wp_zoom _ _ _ _ _

@[simp] theorem wp_treeFuel (s : St K) (Q : Nat → St K → Prop) :
    Wp E treeFuel s Q ↔ Q (s.ns.cnt + 1) s := Iff.rfl

@[simp] theorem wp_notify (m : Msg) (s : St K) (Q : Unit → St K → Prop) :
    Wp E (notify m) s Q ↔ Q () { s with log := s.log ++ [m] } := Iff.rfl

@[simp] theorem wp_newArc (o : Nat) (s : St K) (Q : Nat → St K → Prop) :
    Wp E (newArc o) s Q ↔
      Q s.arcCnt { s with arcs := Function.update s.arcs s.arcCnt ⟨o, none⟩, arcCnt := s.arcCnt + 1 } := Iff.rfl

@[simp] theorem wp_newBp (p : Nat × Nat) (s : St K) (Q : Nat → St K → Prop) :
    Wp E (newBp p) s Q ↔
      Q s.bpCnt { s with bps := Function.update s.bps s.bpCnt ⟨p, none⟩, bpCnt := s.bpCnt + 1 } := Iff.rfl

@[simp] theorem wp_updBp (b : Nat) (f : BpR → BpR) (s : St K) (Q : Unit → St K → Prop) :
    Wp E (updBp b f) s Q ↔ Q () { s with bps := Function.update s.bps b (f (s.bps b)) } := Iff.rfl

@[simp] theorem wp_updArc (b : Nat) (f : ArcR → ArcR) (s : St K) (Q : Unit → St K → Prop) :
    Wp E (updArc b f) s Q ↔ Q () { s with arcs := Function.update s.arcs b (f (s.arcs b)) } := Iff.rfl

@[simp] theorem wp_removeEv (c : Nat) (s : St K) (Q : Unit → St K → Prop) :
    Wp E (removeEv c) s Q ↔ Q () { s with evs := Function.update s.evs c { s.evs c with valid := false } } := Iff.rfl

theorem wp_arcOf {s : St K} {n a : Nat} (h : (s.ns.n n).data = .arc a) (Q : Nat → St K → Prop) :
    Wp E (arcOf n) s Q ↔ Q a s := by
  simp [arcOf, h]

theorem wp_bpOf {s : St K} {n b : Nat} (h : (s.ns.n n).data = .bp b) (Q : Nat → St K → Prop) :
    Wp E (bpOf n) s Q ↔ Q b s := by
  simp [bpOf, h]

theorem wp_originOf {s : St K} {n a : Nat} (h : (s.ns.n n).data = .arc a) (Q : Nat → St K → Prop) :
    Wp E (originOf n) s Q ↔ Q (s.arcs a).origin s := by
  simp only [originOf, wp_bind, wp_arcOf h, wp_get, wp_pure]

/-! ### circle events -/

/-- The circle event of a triple with middle leaf `n`, if it is one: circle and clockwise. -/
def mkEv (pts : Nat → K × K) (n : Nat) (t : Nat × Nat × Nat) : Option (CevR K) :=
  match createCircle (pts t.1) (pts t.2.1) (pts t.2.2) with
  | some (some c) =>
    if checkClockwise (pts t.1) (pts t.2.1) (pts t.2.2) (c.x, c.y) then some ⟨(c.x, c.y), c.r, n, true, t⟩ else none
  | _ => none

/-- The triple of sites of an arc and its neighbours. -/
def tripleAt (og : Nat → Nat) (A : List (Item Dat)) (a : Nat) (B : List (Item Dat)) : Option (Nat × Nat × Nat) :=
  match (origs og A).getLast?, (origs og B).head? with
  | some p, some r => some (p, og a, r)
  | _, _ => none

/-- Queue an event and store it at its arc. -/
def addEv (q : PQ (QE K)) (a : Nat) (s : St K) (ev : CevR K) : St K :=
  { s with
    evs := Function.update s.evs s.evCnt ev
    evCnt := s.evCnt + 1
    queue := q.push (cevQE ev s.evCnt) s.queue
    arcs := Function.update s.arcs a { s.arcs a with cev := some s.evCnt } }

/-- Queue an event, if there is one. -/
def addOpt (q : PQ (QE K)) (a : Nat) (s : St K) : Option (CevR K) → St K
  | some ev => addEv q a s ev
  | none => s

/-- The right event, unless it equals the left one. -/
def dropRight (le re : Option (CevR K)) : Option (CevR K) :=
  match le, re with
  | some l, some r => if eventsDiffer l r then some r else none
  | _, re => re

/-- The effect of `_check_circles`: middle arcs `al`, `ar`, events `le`, `re`. -/
def checkAdd (q : PQ (QE K)) (al ar : Nat) (le re : Option (CevR K)) (s : St K) : St K :=
  addOpt q ar (addOpt q al s le) (dropRight le re)

/-- Only debug messages were appended. -/
def DebugOnly (l l' : List Msg) : Prop := ∃ k, l' = l ++ List.replicate k .debug

theorem DebugOnly.refl (l : List Msg) : DebugOnly l l := ⟨0, by simp⟩

theorem DebugOnly.snoc {l l' : List Msg} (h : DebugOnly l l') : DebugOnly l (l' ++ [.debug]) := by
  obtain ⟨k, rfl⟩ := h
  exact ⟨k + 1, by rw [List.replicate_succ', List.append_assoc]⟩

theorem DebugOnly.trans {l l' l'' : List Msg} (h : DebugOnly l l') (h' : DebugOnly l' l'') : DebugOnly l l'' := by
  obtain ⟨k, rfl⟩ := h
  obtain ⟨m, rfl⟩ := h'
  exact ⟨k + m, by rw [List.append_assoc, ← List.replicate_add]⟩

/-- The origins of arcs in a state. -/
abbrev St.og (s : St K) : Nat → Nat := fun a => (s.arcs a).origin

/-- The pairs of breakpoints in a state. -/
abbrev St.pr (s : St K) : Nat → Nat × Nat := fun b => (s.bps b).pair

/-- Sites of the second entry. -/
theorem second_post {og : Nat → Nat} {pr : Nat → Nat × Nat} {aC bC : Nat} {A B : List (Item Dat)} {n a : Nat}
    (h : BOk og pr aC bC (A ++ ⟨n, true, .arc a⟩ :: B)) :
    (B = [] ∧ second B = none ∧ origs og B = []) ∨
      ∃ n' a', second B = some ⟨n', true, .arc a'⟩ ∧ (⟨n', true, .arc a'⟩ : Item Dat) ∈ B ∧
        (origs og B).head? = some (og a') := by
  rcases h.post_cases with rfl | ⟨m, b, n', a', B', rfl, _⟩
  · exact Or.inl ⟨rfl, rfl, rfl⟩
  · exact Or.inr ⟨n', a', rfl, by simp, by simp⟩

theorem second_pre {og : Nat → Nat} {pr : Nat → Nat × Nat} {aC bC : Nat} {A B : List (Item Dat)} {n a : Nat}
    (h : BOk og pr aC bC (A ++ ⟨n, true, .arc a⟩ :: B)) :
    (A = [] ∧ second A.reverse = none ∧ origs og A = []) ∨
      ∃ n' a', second A.reverse = some ⟨n', true, .arc a'⟩ ∧ (⟨n', true, .arc a'⟩ : Item Dat) ∈ A ∧
        (origs og A).getLast? = some (og a') := by
  rcases h.pre_cases with rfl | ⟨A', n', a', m, b, rfl, _⟩
  · exact Or.inl ⟨rfl, rfl, rfl⟩
  · exact Or.inr ⟨n', a', by simp [second], by simp, by simp⟩

/-- `createCircleEvent` then `keepClockwise`, for the arc at a place of the beach line. -/
theorem wp_createCircleEvent {pts : Nat → K × K} {s : St K} {t : T Dat} {A B : List (Item Dat)} {n a : Nat}
    (hr : Repr s.ns.n none t) (hio : t.io = A ++ ⟨n, true, .arc a⟩ :: B)
    (hb : BOk s.og s.pr s.arcCnt s.bpCnt t.io)
    (hC : E .arith ∨ ∀ p q r, (createCircle (pts p) (pts q) (pts r)).isSome) :
    Wp E (createCircleEvent pts ((second A.reverse).map (·.id)) (some n) ((second B).map (·.id))) s (fun o s' =>
      s' = s ∧ o = (tripleAt s.og A a B).bind (fun t => match createCircle (pts t.1) (pts t.2.1) (pts t.2.2) with
        | some (some c) => some ⟨(c.x, c.y), c.r, n, true, t⟩
        | _ => none)) := by
  have hn := hr.data (x := ⟨n, true, .arc a⟩) (by rw [hio]; simp)
  rw [hio] at hb
  rcases second_pre hb with ⟨rfl, h1, h2⟩ | ⟨n1, a1, h1, hm1, h2⟩
  · simp [createCircleEvent, tripleAt, second]
  rcases second_post hb with ⟨rfl, h3, h4⟩ | ⟨n3, a3, h3, hm3, h4⟩
  · simp [createCircleEvent, tripleAt, second]
  have hn1 := hr.data (x := ⟨n1, true, .arc a1⟩) (by rw [hio]; simp [hm1])
  have hn3 := hr.data (x := ⟨n3, true, .arc a3⟩) (by rw [hio]; simp [hm3])
  simp only at hn hn1 hn3
  simp only [h1, h3, Option.map_some, createCircleEvent, wp_bind, wp_originOf hn, wp_originOf hn1, wp_originOf hn3, wp_liftA]
  simp only [tripleAt, h2, h4, Option.bind_some]
  refine ⟨?_, ?_⟩
  · intro o ho
    rw [ho]
    cases o <;> simp
  · intro ho
    rcases hC with h | h
    · exact h
    · have := h (s.arcs a1).origin (s.arcs a).origin (s.arcs a3).origin
      simp [ho] at this

theorem wp_keepClockwise {pts : Nat → K × K} {s : St K} {n : Nat} (ot : Option (Nat × Nat × Nat)) :
    Wp E (keepClockwise pts (ot.bind (fun t => match createCircle (pts t.1) (pts t.2.1) (pts t.2.2) with
        | some (some c) => some ⟨(c.x, c.y), c.r, n, true, t⟩
        | _ => none))) s (fun o s' => (∃ log', s' = { s with log := log' } ∧ DebugOnly s.log log') ∧
          o = ot.bind (mkEv pts n)) := by
  cases ot with
  | none => exact ⟨⟨s.log, rfl, .refl _⟩, rfl⟩
  | some t =>
    simp only [Option.bind_some, mkEv]
    rcases createCircle (pts t.1) (pts t.2.1) (pts t.2.2) with _ | _ | c
    · exact ⟨⟨s.log, rfl, .refl _⟩, rfl⟩
    · exact ⟨⟨s.log, rfl, .refl _⟩, rfl⟩
    · simp only [keepClockwise]
      split
      · exact ⟨⟨s.log, rfl, .refl _⟩, rfl⟩
      · simp only [wp_bind, wp_notify, wp_pure, and_true]
        exact ⟨_, rfl, DebugOnly.snoc (.refl _)⟩

theorem wp_putCircle {q : PQ (QE K)} {s : St K} {ev : CevR K} {a : Nat} (h : (s.ns.n ev.arcPtr).data = .arc a)
    (Q : Unit → St K → Prop) : Wp E (putCircle q ev) s Q ↔ Q () (addEv q a s ev) := by
  simp only [putCircle, wp_bind, wp_get, wp_set]
  rw [wp_arcOf (a := a) (by exact h)]
  simp only [wp_updArc, addEv]

@[simp] theorem addEv_ns (q : PQ (QE K)) (a : Nat) (s : St K) (ev : CevR K) : (addEv q a s ev).ns = s.ns := rfl

@[simp] theorem addOpt_ns (q : PQ (QE K)) (a : Nat) (s : St K) (o : Option (CevR K)) : (addOpt q a s o).ns = s.ns := by
  cases o <;> rfl

theorem mkEv_ptr {pts : Nat → K × K} {n : Nat} {ot : Option (Nat × Nat × Nat)} {ev : CevR K}
    (h : ot.bind (mkEv pts n) = some ev) : ev.arcPtr = n := by
  obtain ⟨t, -, h⟩ := Option.bind_eq_some_iff.mp h
  unfold mkEv at h
  split at h
  · split at h
    · simp only [Option.some.injEq] at h; rw [← h]
    · cases h
  · cases h

@[simp] theorem addOpt_d (q : PQ (QE K)) (a : Nat) (s : St K) (o : Option (CevR K)) : (addOpt q a s o).d = s.d := by
  cases o <;> rfl

@[simp] theorem addOpt_bps (q : PQ (QE K)) (a : Nat) (s : St K) (o : Option (CevR K)) : (addOpt q a s o).bps = s.bps := by
  cases o <;> rfl

@[simp] theorem addOpt_bpCnt (q : PQ (QE K)) (a : Nat) (s : St K) (o : Option (CevR K)) : (addOpt q a s o).bpCnt = s.bpCnt := by
  cases o <;> rfl

@[simp] theorem addOpt_arcCnt (q : PQ (QE K)) (a : Nat) (s : St K) (o : Option (CevR K)) : (addOpt q a s o).arcCnt = s.arcCnt := by
  cases o <;> rfl

@[simp] theorem addOpt_names (q : PQ (QE K)) (a : Nat) (s : St K) (o : Option (CevR K)) : (addOpt q a s o).names = s.names := by
  cases o <;> rfl

@[simp] theorem addOpt_nextName (q : PQ (QE K)) (a : Nat) (s : St K) (o : Option (CevR K)) : (addOpt q a s o).nextName = s.nextName := by
  cases o <;> rfl

@[simp] theorem addOpt_root (q : PQ (QE K)) (a : Nat) (s : St K) (o : Option (CevR K)) : (addOpt q a s o).root = s.root := by
  cases o <;> rfl

@[simp] theorem addOpt_sweep (q : PQ (QE K)) (a : Nat) (s : St K) (o : Option (CevR K)) : (addOpt q a s o).sweep = s.sweep := by
  cases o <;> rfl

@[simp] theorem addOpt_arcSet (q : PQ (QE K)) (a : Nat) (s : St K) (o : Option (CevR K)) : (addOpt q a s o).arcSet = s.arcSet := by
  cases o <;> rfl

@[simp] theorem addOpt_edges (q : PQ (QE K)) (a : Nat) (s : St K) (o : Option (CevR K)) : (addOpt q a s o).edges = s.edges := by
  cases o <;> rfl

@[simp] theorem addOpt_verts (q : PQ (QE K)) (a : Nat) (s : St K) (o : Option (CevR K)) : (addOpt q a s o).verts = s.verts := by
  cases o <;> rfl

@[simp] theorem addOpt_polyVerts (q : PQ (QE K)) (a : Nat) (s : St K) (o : Option (CevR K)) : (addOpt q a s o).polyVerts = s.polyVerts := by
  cases o <;> rfl

@[simp] theorem addOpt_event (q : PQ (QE K)) (a : Nat) (s : St K) (o : Option (CevR K)) : (addOpt q a s o).event = s.event := by
  cases o <;> rfl

theorem addOpt_log (q : PQ (QE K)) (a : Nat) (s : St K) (o : Option (CevR K)) (l : List Msg) :
    addOpt q a { s with log := l } o = { addOpt q a s o with log := l } := by
  cases o <;> rfl

/-- `_check_circles` at two places of the beach line. -/
theorem wp_checkCircles {pts : Nat → K × K} {q : PQ (QE K)} {s : St K} {t : T Dat}
    {A B C D : List (Item Dat)} {n m al ar : Nat}
    (hr : Repr s.ns.n none t) (hb : BOk s.og s.pr s.arcCnt s.bpCnt t.io)
    (h1 : t.io = A ++ ⟨n, true, .arc al⟩ :: B) (h2 : t.io = C ++ ⟨m, true, .arc ar⟩ :: D)
    (hC : E .arith ∨ ∀ p q r, (createCircle (pts p) (pts q) (pts r)).isSome) :
    Wp E (checkCircles pts q ((second A.reverse).map (·.id)) (some n) ((second B).map (·.id))
      ((second C.reverse).map (·.id)) (some m) ((second D).map (·.id))) s (fun _ s' =>
      ∃ log', s' = { checkAdd q al ar ((tripleAt s.og A al B).bind (mkEv pts n))
        ((tripleAt s.og C ar D).bind (mkEv pts m)) s with log := log' } ∧ DebugOnly s.log log') := by
  have hn := hr.data (x := ⟨n, true, .arc al⟩) (by rw [h1]; simp)
  have hm := hr.data (x := ⟨m, true, .arc ar⟩) (by rw [h2]; simp)
  simp only at hn hm
  simp only [checkCircles, wp_bind]
  refine wp_mono (wp_createCircleEvent hr h1 hb hC) ?_
  rintro o s' ⟨rfl, rfl⟩
  refine wp_mono (wp_createCircleEvent hr h2 hb hC) ?_
  rintro o s' ⟨rfl, rfl⟩
  refine wp_mono (wp_keepClockwise _) ?_
  rintro le s1 ⟨⟨log1, rfl, hlog1⟩, hle⟩
  refine wp_mono (wp_keepClockwise _) ?_
  rintro re s1 ⟨⟨log2, rfl, hlog2⟩, hre⟩
  rw [← hle, ← hre]
  have hlog := hlog1.trans hlog2
  simp only [wp_optDo]
  have hright : ∀ (s2 : St K) (Q : Unit → St K → Prop), s2.ns = s'.ns →
      (Q () (addOpt q ar s2 (dropRight le re))) →
      (∀ a, re = some a → Wp E (putRight q le a) s2 Q) ∧ (re = none → Q () s2) := by
    intro s2 Q hs2 hQ
    cases re with
    | none => simp only [reduceCtorEq, false_imp_iff, implies_true, true_imp_iff, true_and]
              cases le <;> simpa [dropRight, addOpt] using hQ
    | some ev =>
      simp only [Option.some.injEq, forall_eq', reduceCtorEq, false_imp_iff, and_true]
      have hp := mkEv_ptr hre.symm
      cases le with
      | none =>
        rw [putRight, wp_putCircle (a := ar) (by rw [hp, hs2]; exact hm)]
        exact hQ
      | some l =>
        simp only [putRight]
        simp only [dropRight] at hQ
        split
        · rename_i h
          rw [wp_putCircle (a := ar) (by rw [hp, hs2]; exact hm)]
          simpa [h, addOpt] using hQ
        · rename_i h
          simpa [h, addOpt] using hQ
  have hfin : ∀ (l : List Msg), DebugOnly s'.log l → ∀ (Q : Unit → St K → Prop),
      (∀ l', DebugOnly s'.log l' → Q () { checkAdd q al ar le re s' with log := l' }) →
      (∀ a, le = some a → Wp E (notify .debug) { checkAdd q al ar le re s' with log := l } fun _ s' =>
        (∀ a, re = some a → Wp E (notify .debug) s' Q) ∧ (re = none → Q () s')) ∧
      (le = none → (∀ a, re = some a → Wp E (notify .debug) { checkAdd q al ar le re s' with log := l } Q) ∧
        (re = none → Q () { checkAdd q al ar le re s' with log := l })) := by
    intro l hl Q hQ
    simp only [wp_notify]
    refine ⟨fun _ _ => ⟨fun _ _ => ?_, fun _ => ?_⟩, fun _ => ⟨fun _ _ => ?_, fun _ => ?_⟩⟩
    · exact hQ _ hl.snoc.snoc
    · exact hQ _ hl.snoc
    · exact hQ _ hl.snoc
    · exact hQ _ hl
  refine ⟨?_, ?_⟩
  · rintro ev rfl
    have hp := mkEv_ptr hle.symm
    rw [wp_putCircle (a := al) (by rw [hp]; exact hn)]
    refine hright _ _ rfl ?_
    have := hfin log2 hlog (fun _ s'' => ∃ log', s'' = { checkAdd q al ar (some ev) re s' with log := log' } ∧ DebugOnly s'.log log')
      (fun l' hl' => ⟨l', rfl, hl'⟩)
    have e : addOpt q ar (addEv q al { s' with log := log2 } ev) (dropRight (some ev) re) =
      { checkAdd q al ar (some ev) re s' with log := log2 } := by
      rw [checkAdd, ← addOpt_log]; rfl
    rw [e]
    exact this
  · rintro rfl
    refine hright _ _ rfl ?_
    have := hfin log2 hlog (fun _ s'' => ∃ log', s'' = { checkAdd q al ar none re s' with log := log' } ∧ DebugOnly s'.log log')
      (fun l' hl' => ⟨l', rfl, hl'⟩)
    have e : addOpt q ar { s' with log := log2 } (dropRight none re) =
      { checkAdd q al ar none re s' with log := log2 } := by
      rw [checkAdd, ← addOpt_log]; rfl
    rw [e]
    exact this

/-! ### Tree operations on the state -/

theorem wp_replaceLeafSt {s : St K} {c : Ctx Dat} {t t2 : T Dat} {p : Option Nat}
    (hr : Repr s.ns.n none (plug c t)) (hroot : s.root = some (plug c t).id) (hr2 : Repr s.ns.n p t2)
    (hnd : (plug c t).ids.Nodup) (hnd2 : (plug c t2).ids.Nodup) (hlt : ∀ i ∈ (plug c t2).ids, i < s.ns.cnt)
    (hid : t.id ∉ t2.ids) (hi : HInv s.ns) :
    Wp E (replaceLeafSt t.id (some t2.id)) s (fun _ s' =>
      ∃ ns', s' = { s with ns := ns', root := some (plug c t2).id } ∧ DataSame s.ns ns' ∧ TOk ns' (plug c t2)) := by
  simp only [replaceLeafSt, wp_bind, wp_treeFuel, wp_get, hroot, wp_zT, wp_modify]
  have hlen := nodup_length_le hnd2 hlt
  refine wp_mono (wp_replaceLeaf hr hr2 hnd hnd2 hid hi (by omega)) ?_
  rintro r ns' ⟨rfl, hd, hi', hr'⟩
  exact ⟨ns', rfl, hd, ⟨hr', hnd2, by rw [hd.1]; exact hlt, hi'⟩⟩

theorem wp_balanceSt {s : St K} {c : Ctx Dat} {t : T Dat} (h : TOk s.ns (plug c t)) :
    Wp E (balanceSt t.id) s (fun _ s' =>
      ∃ ns' t', s' = { s with ns := ns', root := some t'.id } ∧ DataSame s.ns ns' ∧ TOk ns' t' ∧ t'.io = (plug c t).io) := by
  simp only [balanceSt, wp_bind, wp_treeFuel, wp_zT, wp_modify]
  have hlen := h.len
  have hdep := h.depth
  have hd := depth_plug c t
  refine wp_mono (wp_balanceAndPropagate h.repr h.nd h.hinv (by omega) (by omega)) ?_
  rintro r ns' ⟨t', rfl, hio, hd, hi', hr'⟩
  have hids := ids_of_io hio
  refine ⟨ns', t', rfl, hd, ⟨hr', by rw [hids]; exact h.nd, ?_, hi'⟩, hio⟩
  rw [hids, hd.1]; exact h.lt

theorem TOk.data {ns ns' : NS Dat} {t : T Dat} (h : TOk ns t) (hd : DataSame ns ns') {x : Item Dat} (hx : x ∈ t.io) :
    (ns'.n x.id).data = x.d := by rw [hd.2]; exact h.repr.data hx

/-- The replacement subtree. -/
def newSub (c bl br aj ai aj2 : Nat) (inter : Bool) : T Dat :=
  if inter then
    .node c (.bp bl) (.leaf (c + 1) (.arc aj)) (.node (c + 2) (.bp br) (.leaf (c + 3) (.arc ai)) (.leaf (c + 4) (.arc aj2)))
  else .node c (.bp bl) (.leaf (c + 1) (.arc aj)) (.leaf (c + 2) (.arc ai))

theorem wp_newNode' {D : Type} {d : D} {s : NS D} {Q : Nat → NS D → Prop}
    (h : ∀ n', n' s.cnt = ⟨d, none, none, none, none⟩ → (∀ i, i ≠ s.cnt → n' i = s.n i) → Q s.cnt ⟨n', s.cnt + 1⟩) :
    Wp E (newNode d) s Q := by
  rw [wp_newNode]
  exact h _ (by simp) (fun i hi => by simp [Function.update_of_ne hi])

theorem wp_setLeft' {D : Type} {i c : Nat} {s : NS D} {Q : Unit → NS D → Prop} (hic : i ≠ c)
    (h : ∀ n', n' c = { s.n c with parent := some i } → n' i = { s.n i with left := some c } →
      (∀ j, j ≠ c → j ≠ i → n' j = s.n j) → Q () ⟨n', s.cnt⟩) :
    Wp E (setLeft i (some c)) s Q := by
  rw [wp_setLeft]
  refine h _ ?_ ?_ ?_
  · simp [Function.update_of_ne hic.symm]
  · simp [Function.update_of_ne hic]
  · intro j h1 h2; simp [Function.update_of_ne h1, Function.update_of_ne h2]

theorem wp_setRight' {D : Type} {i c : Nat} {s : NS D} {Q : Unit → NS D → Prop} (hic : i ≠ c)
    (h : ∀ n', n' c = { s.n c with parent := some i } → n' i = { s.n i with right := some c } →
      (∀ j, j ≠ c → j ≠ i → n' j = s.n j) → Q () ⟨n', s.cnt⟩) :
    Wp E (setRight i (some c)) s Q := by
  rw [wp_setRight]
  refine h _ ?_ ?_ ?_
  · simp [Function.update_of_ne hic.symm]
  · simp [Function.update_of_ne hic]
  · intro j h1 h2; simp [Function.update_of_ne h1, Function.update_of_ne h2]

theorem wp_mkSubtree {s : St K} (bl br aj ai pj : Nat) (inter : Bool) (hi : HInv s.ns) :
    Wp E (mkSubtree bl br aj ai pj inter) s (fun r s' => ∃ ns',
      r = s.ns.cnt ∧ s' = { s with
        ns := ns'
        arcs := if inter then Function.update s.arcs s.arcCnt ⟨pj, none⟩ else s.arcs
        arcCnt := if inter then s.arcCnt + 1 else s.arcCnt } ∧
      ns'.cnt = s.ns.cnt + (if inter then 5 else 3) ∧ (∀ i < s.ns.cnt, ns'.n i = s.ns.n i) ∧ HInv ns' ∧
      Repr ns'.n none (newSub s.ns.cnt bl br aj ai s.arcCnt inter)) := by
  obtain ⟨c, hc⟩ : ∃ c, c = s.ns.cnt := ⟨_, rfl⟩
  obtain ⟨c1, h1⟩ : ∃ c1, c1 = c + 1 := ⟨_, rfl⟩
  obtain ⟨c2, h2⟩ : ∃ c2, c2 = c1 + 1 := ⟨_, rfl⟩
  have n01 : c ≠ c1 := by omega
  have n02 : c ≠ c2 := by omega
  have n12 : c1 ≠ c2 := by omega
  simp only [mkSubtree, wp_bind, wp_zT]
  refine wp_newNode' fun m0 a0 r0 => wp_newNode' fun m1 a1 r1 => ?_
  simp only [← hc, ← h1] at a0 r0 a1 r1 ⊢
  refine wp_setLeft' (s := ⟨m1, c1 + 1⟩) n01 fun m2 a2 b2 r2 => ?_
  simp only at a2 b2 r2
  cases inter with
  | true =>
    obtain ⟨c3, h3⟩ : ∃ c3, c3 = c2 + 1 := ⟨_, rfl⟩
    obtain ⟨c4, h4⟩ : ∃ c4, c4 = c3 + 1 := ⟨_, rfl⟩
    have n03 : c ≠ c3 := by omega
    have n04 : c ≠ c4 := by omega
    have n13 : c1 ≠ c3 := by omega
    have n14 : c1 ≠ c4 := by omega
    have n23 : c2 ≠ c3 := by omega
    have n24 : c2 ≠ c4 := by omega
    have n34 : c3 ≠ c4 := by omega
    simp only [mkRight, if_true, wp_bind, wp_zT, ← h2]
    refine wp_newNode' (s := ⟨m2, c2⟩) fun m3 a3 r3 => wp_setRight' (s := ⟨m3, c2 + 1⟩) n02 fun m4 a4 b4 r4 => ?_
    simp only [← h3] at a3 r3 a4 b4 r4 ⊢
    refine wp_newNode' (s := ⟨m4, c3⟩) fun m5 a5 r5 => wp_setLeft' (s := ⟨m5, c3 + 1⟩) n23 fun m6 a6 b6 r6 => ?_
    simp only [← h4] at a5 r5 a6 b6 r6 ⊢
    simp only [wp_newArc]
    refine wp_newNode' (s := ⟨m6, c4⟩) fun m7 a7 r7 => wp_setRight' (s := ⟨m7, c4 + 1⟩) n24 fun m8 a8 b8 r8 => ?_
    simp only at a3 r3 a4 b4 r4 a5 r5 a6 b6 r6 a7 r7 a8 b8 r8
    have e0 : m8 c = ⟨.bp bl, some c1, some c2, none, none⟩ := by
      rw [r8 _ n04 n02, r7 _ n04, r6 _ n03 n02, r5 _ n03, b4, r3 _ n02, b2, r1 _ n01, a0]
    have e1 : m8 c1 = ⟨.arc aj, none, none, some c, none⟩ := by
      rw [r8 _ n14 n12, r7 _ n14, r6 _ n13 n12, r5 _ n13, r4 _ n12 n01.symm, r3 _ n12, a2, a1]
    have e2 : m8 c2 = ⟨.bp br, some c3, some c4, some c, none⟩ := by
      rw [b8, r7 _ n24, b6, r5 _ n23, a4, a3]
    have e3 : m8 c3 = ⟨.arc ai, none, none, some c2, none⟩ := by
      rw [r8 _ n34 n23.symm, r7 _ n34, a6, a5]
    have e4 : m8 c4 = ⟨.arc s.arcCnt, none, none, some c2, none⟩ := by
      rw [a8, a7]
    have er : ∀ i, i ≠ c → i ≠ c1 → i ≠ c2 → i ≠ c3 → i ≠ c4 → m8 i = s.ns.n i := by
      intro i g0 g1 g2 g3 g4
      rw [r8 _ g4 g2, r7 _ g4, r6 _ g3 g2, r5 _ g3, r4 _ g2 g0, r3 _ g2, r2 _ g1 g0, r1 _ g1, r0 _ g0]
    simp only [wp_pure]
    refine ⟨_, by trivial, rfl, by simp; omega, fun i hi => er i (by omega) (by omega) (by omega) (by omega) (by omega),
      fun i => ?_, ?_⟩
    · by_cases g0 : i = c
      · subst g0; simp [HOk, e0]
      by_cases g1 : i = c1
      · subst g1; simp [HOk, e1]
      by_cases g2 : i = c2
      · subst g2; simp [HOk, e2]
      by_cases g3 : i = c3
      · subst g3; simp [HOk, e3]
      by_cases g4 : i = c4
      · subst g4; simp [HOk, e4]
      · simp only [er i g0 g1 g2 g3 g4]; exact hi i
    · have q1 : c + 1 = c1 := by omega
      have q2 : c + 2 = c2 := by omega
      have q3 : c + 3 = c3 := by omega
      have q4 : c + 4 = c4 := by omega
      simp only [newSub, if_true, Repr, T.id, q1, q2, q3, q4, e0, e1, e2, e3, e4, and_self]
  | false =>
    simp only [mkRight, Bool.false_eq_true, if_false, wp_bind, wp_zT, ← h2]
    refine wp_newNode' (s := ⟨m2, c2⟩) fun m3 a3 r3 => wp_setRight' (s := ⟨m3, c2 + 1⟩) n02 fun m4 a4 b4 r4 => ?_
    simp only at a3 r3 a4 b4 r4
    have e0 : m4 c = ⟨.bp bl, some c1, some c2, none, none⟩ := by
      rw [b4, r3 _ n02, b2, r1 _ n01, a0]
    have e1 : m4 c1 = ⟨.arc aj, none, none, some c, none⟩ := by
      rw [r4 _ n12 n01.symm, r3 _ n12, a2, a1]
    have e2 : m4 c2 = ⟨.arc ai, none, none, some c, none⟩ := by
      rw [a4, a3]
    have er : ∀ i, i ≠ c → i ≠ c1 → i ≠ c2 → m4 i = s.ns.n i := by
      intro i g0 g1 g2
      rw [r4 _ g2 g0, r3 _ g2, r2 _ g1 g0, r1 _ g1, r0 _ g0]
    simp only [wp_pure]
    refine ⟨_, by trivial, rfl, by simp; omega, fun i hi => er i (by omega) (by omega) (by omega),
      fun i => ?_, ?_⟩
    · by_cases g0 : i = c
      · subst g0; simp [HOk, e0]
      by_cases g1 : i = c1
      · subst g1; simp [HOk, e1]
      by_cases g2 : i = c2
      · subst g2; simp [HOk, e2]
      · simp only [er i g0 g1 g2]; exact hi i
    · have q1 : c + 1 = c1 := by omega
      have q2 : c + 2 = c2 := by omega
      simp only [newSub, Bool.false_eq_true, if_false, Repr, T.id, q1, q2, e0, e1, e2, and_self]

end Foronoi
