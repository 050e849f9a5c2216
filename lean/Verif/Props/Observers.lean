import Verif.Model.Observers
import Verif.Props.ClipExamples

/-!
# Subjects and observers (C40–C43)
-/

namespace Foronoi

/-! ### attach, detach and inherit -/

/-- The calls considered: subject 0 is the parent, all others are possible children. -/
inductive SOp where
  | attach (s o : Nat)
  | detach (s o : Nat)
  | inherit (c : Nat)

def SOp.run : SOp → SubjSt → Except Err SubjSt
  | .attach s o, st => .ok (attachObs s o st)
  | .detach s o, st => detachObs s o st
  | .inherit c, st => .ok (inheritObs c 0 st)

def runOps (ops : List SOp) (st : SubjSt) : Except Err SubjSt := ops.foldlM (fun st op => op.run st) st

/-- Specification without list objects: what the parent's observers are, and per child its own observers, whether it has inherited,
and whether it takes part in the parent's list. -/
structure ObsSpec where
  main : List Nat
  own : Nat → List Nat
  inh : Nat → Bool
  shared : Nat → Bool

def ObsSpec.start : ObsSpec := ⟨[], fun _ => [], fun _ => false, fun _ => false⟩

/-- The observers of a subject. -/
def ObsSpec.list (a : ObsSpec) (s : Nat) : List Nat := if s = 0 ∨ a.shared s = true then a.main else a.own s

/-- Replace the observers of a subject; a change made through the parent is passed on to all children that have inherited. -/
def ObsSpec.put (a : ObsSpec) (s : Nat) (l : List Nat) : ObsSpec :=
  if s = 0 then { a with main := l, shared := fun c => a.shared c || a.inh c }
  else if a.shared s then { a with main := l }
  else { a with own := Function.update a.own s l }

def ObsSpec.step (a : ObsSpec) : SOp → Except Err ObsSpec
  | .attach s o => .ok (a.put s (a.list s ++ [o]))
  | .detach s o => if o ∈ a.list s then .ok (a.put s ((a.list s).erase o)) else .error .value
  | .inherit c => .ok { a with inh := Function.update a.inh c true }

/-- The store agrees with the specification. -/
structure Agree (st : SubjSt) (a : ObsSpec) : Prop where
  main : st.lists 0 = a.main
  obs0 : (st.subj 0).observers = 0
  send0 : (st.subj 0).rootSender = 0
  kids : ∀ c, c ∈ (st.subj 0).children ↔ a.inh c = true
  kid0 : 0 ∉ (st.subj 0).children
  leafk : ∀ c, c ≠ 0 → (st.subj c).children = []
  obs : ∀ c, c ≠ 0 → (st.subj c).observers = if a.shared c then 0 else c
  send : ∀ c, c ≠ 0 → (st.subj c).rootSender = if a.inh c then 0 else c
  own : ∀ c, c ≠ 0 → a.shared c = false → st.lists c = a.own c
  shinh : ∀ c, a.shared c = true → a.inh c = true

theorem foldl_share (s : Nat) : ∀ (l : List Nat) (f : Nat → SubjR), s ∉ l → ∀ c,
    l.foldl (fun f c => Function.update f c { f c with observers := (f s).observers }) f c =
      if c ∈ l then { f c with observers := (f s).observers } else f c := by
  intro l
  induction l with
  | nil => intro f _ c; rfl
  | cons d l ih =>
    intro f hs c
    have hsd : s ≠ d := fun h => hs (by simp [h])
    have hsl : s ∉ l := fun h => hs (by simp [h])
    rw [List.foldl_cons, ih _ hsl c, Function.update_of_ne hsd]
    by_cases hcd : c = d
    · subst hcd
      rw [Function.update_self]
      split_ifs <;> simp_all
    · rw [Function.update_of_ne hcd]
      simp [hcd]

theorem agree_start : Agree SubjSt.fresh ObsSpec.start := by
  constructor <;> simp [SubjSt.fresh, ObsSpec.start]

theorem Agree.list {st : SubjSt} {a : ObsSpec} (h : Agree st a) (s : Nat) : st.lists (st.subj s).observers = a.list s := by
  unfold ObsSpec.list
  by_cases hs : s = 0
  · subst hs; rw [h.obs0, h.main]; simp
  · rw [h.obs s hs]
    cases hsh : a.shared s with
    | true => simp [h.main]
    | false => simp [hs, h.own s hs hsh]

theorem Agree.put {st : SubjSt} {a : ObsSpec} (h : Agree st a) (s : Nat) (l : List Nat) :
    Agree (updateChildren s { st with lists := Function.update st.lists (st.subj s).observers l }) (a.put s l) := by
  unfold ObsSpec.put
  by_cases hs : s = 0
  · subst hs
    rw [if_pos rfl]
    have hf := foldl_share 0 (st.subj 0).children st.subj h.kid0
    have h0 : (updateChildren 0 { st with lists := Function.update st.lists (st.subj 0).observers l }).subj 0 = st.subj 0 := by
      unfold updateChildren
      exact (hf 0).trans (if_neg h.kid0)
    have hc : ∀ c, c ≠ 0 → (updateChildren 0 { st with lists := Function.update st.lists (st.subj 0).observers l }).subj c =
        if a.inh c then { st.subj c with observers := 0 } else st.subj c := by
      intro c _
      unfold updateChildren
      refine (hf c).trans ?_
      rw [h.obs0]
      cases hi : a.inh c with
      | true => rw [if_pos ((h.kids c).mpr hi)]; rfl
      | false => rw [if_neg (fun hm => by rw [(h.kids c).mp hm] at hi; cases hi)]; rfl
    refine ⟨?_, ?_, ?_, ?_, ?_, ?_, ?_, ?_, ?_, ?_⟩
    · show Function.update st.lists (st.subj 0).observers l 0 = l
      rw [h.obs0, Function.update_self]
    · rw [h0]; exact h.obs0
    · rw [h0]; exact h.send0
    · rw [h0]; exact h.kids
    · rw [h0]; exact h.kid0
    · intro c hc0
      rw [hc c hc0]
      split_ifs <;> exact h.leafk c hc0
    · intro c hc0
      show _ = if (a.shared c || a.inh c) = true then 0 else c
      rw [hc c hc0]
      cases hi : a.inh c with
      | true => simp
      | false => simp [h.obs c hc0]
    · intro c hc0
      rw [hc c hc0]
      have := h.send c hc0
      split_ifs <;> simp_all
    · intro c hc0 hsh
      show Function.update st.lists (st.subj 0).observers l c = _
      rw [h.obs0, Function.update_of_ne hc0]
      simp only [Bool.or_eq_false_iff] at hsh
      exact h.own c hc0 hsh.1
    · intro c hsh
      simp only [Bool.or_eq_true] at hsh
      rcases hsh with hsh | hsh
      · exact h.shinh c hsh
      · exact hsh
  · rw [if_neg hs]
    simp only [updateChildren, h.leafk s hs, List.foldl_nil]
    cases hsh : a.shared s with
    | true =>
      rw [h.obs s hs, hsh]
      simp only [if_true]
      refine ⟨by simp, h.obs0, h.send0, h.kids, h.kid0, h.leafk, h.obs, h.send, ?_, h.shinh⟩
      intro c hc hcs
      show Function.update st.lists 0 l c = _
      rw [Function.update_of_ne hc]
      exact h.own c hc hcs
    | false =>
      rw [h.obs s hs, hsh]
      simp only [Bool.false_eq_true, if_false]
      refine ⟨?_, h.obs0, h.send0, h.kids, h.kid0, h.leafk, h.obs, h.send, ?_, h.shinh⟩
      · show Function.update st.lists s l 0 = _
        rw [Function.update_of_ne (Ne.symm hs)]; exact h.main
      · intro c hc hcs
        show Function.update st.lists s l c = Function.update a.own s l c
        by_cases hcs' : c = s
        · subst hcs'; simp
        · rw [Function.update_of_ne hcs', Function.update_of_ne hcs']
          exact h.own c hc hcs

theorem Agree.inherit {st : SubjSt} {a : ObsSpec} (h : Agree st a) {c : Nat} (hc : c ≠ 0) :
    Agree (inheritObs c 0 st) { a with inh := Function.update a.inh c true } := by
  have e0 : (inheritObs c 0 st).subj 0 = { st.subj 0 with children := (st.subj 0).children ++ [c] } := by
    simp only [inheritObs]
    rw [Function.update_of_ne (Ne.symm hc), Function.update_self]
  have ec : (inheritObs c 0 st).subj c = { st.subj c with rootSender := 0 } := by
    simp only [inheritObs]
    rw [Function.update_self, Function.update_of_ne hc]
  have ed : ∀ d, d ≠ 0 → d ≠ c → (inheritObs c 0 st).subj d = st.subj d := by
    intro d h1 h2
    simp only [inheritObs]
    rw [Function.update_of_ne h2, Function.update_of_ne h1]
  refine ⟨h.main, ?_, ?_, ?_, ?_, ?_, ?_, ?_, h.own, ?_⟩
  · rw [e0]; exact h.obs0
  · rw [e0]; exact h.send0
  · intro d
    rw [e0]
    simp only [List.mem_append, List.mem_singleton, h.kids]
    by_cases hd : d = c
    · subst hd; simp
    · simp [hd, Function.update_of_ne hd]
  · rw [e0]
    simp only [List.mem_append, List.mem_singleton, not_or]
    exact ⟨h.kid0, Ne.symm hc⟩
  · intro d hd
    by_cases hdc : d = c
    · subst hdc; rw [ec]; exact h.leafk d hd
    · rw [ed d hd hdc]; exact h.leafk d hd
  · intro d hd
    by_cases hdc : d = c
    · subst hdc; rw [ec]; exact h.obs d hd
    · rw [ed d hd hdc]; exact h.obs d hd
  · intro d hd
    by_cases hdc : d = c
    · subst hdc; rw [ec]; simp
    · rw [ed d hd hdc]
      simp only [Function.update_of_ne hdc]
      exact h.send d hd
  · intro d hd
    show Function.update a.inh c true d = true
    by_cases hdc : d = c
    · subst hdc; simp
    · rw [Function.update_of_ne hdc]; exact h.shinh d hd

/-- The parent does not inherit from itself. -/
def SOp.Ok : SOp → Prop
  | .inherit c => c ≠ 0
  | _ => True

theorem Agree.step {st : SubjSt} {a : ObsSpec} (h : Agree st a) {op : SOp} (hop : op.Ok) :
    (∃ st' a', op.run st = .ok st' ∧ a.step op = .ok a' ∧ Agree st' a') ∨ (op.run st = .error .value ∧ a.step op = .error .value) := by
  cases op with
  | attach s o =>
    refine Or.inl ⟨_, _, rfl, rfl, ?_⟩
    have := h.put s (a.list s ++ [o])
    rw [← h.list s] at this ⊢
    exact this
  | detach s o =>
    simp only [SOp.run, detachObs, ObsSpec.step, h.list s]
    by_cases hm : o ∈ a.list s
    · rw [if_pos hm, if_pos hm]
      refine Or.inl ⟨_, _, rfl, rfl, h.put s _⟩
    · rw [if_neg hm, if_neg hm]
      exact Or.inr ⟨rfl, rfl⟩
  | inherit c => exact Or.inl ⟨_, _, rfl, rfl, h.inherit hop⟩

/-- Any sequence of calls agrees with the specification. -/
theorem agree_run {ops : List SOp} : ∀ {st : SubjSt} {a : ObsSpec}, Agree st a → (∀ op ∈ ops, op.Ok) →
    (∃ st' a', runOps ops st = .ok st' ∧ ops.foldlM ObsSpec.step a = .ok a' ∧ Agree st' a') ∨
      (runOps ops st = .error .value ∧ ops.foldlM ObsSpec.step a = .error .value) := by
  induction ops with
  | nil => intro st a h _; exact Or.inl ⟨st, a, rfl, rfl, h⟩
  | cons op ops ih =>
    intro st a h hops
    unfold runOps
    rw [List.foldlM_cons, List.foldlM_cons]
    rcases h.step (hops op (by simp)) with ⟨st', a', h1, h2, h3⟩ | ⟨h1, h2⟩
    · rw [h1, h2]; exact ih h3 (fun o ho => hops o (by simp [ho]))
    · rw [h1, h2]; exact Or.inr ⟨rfl, rfl⟩

/-- C41: any sequence of calls on the parent and its children gives the observers, the senders and the exceptions of the specification
without shared lists. -/
theorem C41_spec (ops : List SOp) (hops : ∀ op ∈ ops, op.Ok) :
    (∃ st a, runOps ops .fresh = .ok st ∧ ops.foldlM ObsSpec.step .start = .ok a ∧ ∀ {M : Type} (s : Nat) (m : M),
      notifyObs s m st = (a.list s).map fun o => (o, if a.inh s ∧ s ≠ 0 then 0 else s, m)) ∨
    (runOps ops .fresh = .error .value ∧ ops.foldlM ObsSpec.step .start = .error .value) := by
  rcases agree_run agree_start hops with ⟨st, a, h1, h2, h3⟩ | h
  · refine Or.inl ⟨st, a, h1, h2, fun s m => ?_⟩
    unfold notifyObs
    rw [h3.list s]
    by_cases hs : s = 0
    · subst hs; rw [h3.send0]; simp
    · rw [h3.send s hs]; simp [hs]
  · exact Or.inr h

/-- A call on the parent. -/
def SOp.OnParent : SOp → Prop
  | .attach s _ => s = 0
  | .detach s _ => s = 0
  | .inherit c => c ≠ 0

/-- A call that passes the observers on. -/
def SOp.Passes : SOp → Prop
  | .inherit _ => False
  | _ => True

theorem SOp.OnParent.ok {op : SOp} (h : op.OnParent) : op.Ok := by cases op <;> simp_all [SOp.OnParent, SOp.Ok]

/-- How often an observer has been attached minus how often it has been detached. -/
def netCount (o : Nat) : List SOp → Int
  | [] => 0
  | .attach _ o' :: ops => (if o' = o then 1 else 0) + netCount o ops
  | .detach _ o' :: ops => (if o' = o then -1 else 0) + netCount o ops
  | .inherit _ :: ops => netCount o ops

/-- The observers attached, in order. -/
def attached : List SOp → List Nat
  | [] => []
  | .attach _ o :: ops => o :: attached ops
  | _ :: ops => attached ops

theorem spec_parent {ops : List SOp} : ∀ {a a' : ObsSpec}, (∀ op ∈ ops, op.OnParent) → ops.foldlM ObsSpec.step a = .ok a' →
    (∀ o, (a'.main.count o : Int) = a.main.count o + netCount o ops) ∧ List.Sublist a'.main (a.main ++ attached ops) ∧
    (∀ c, a.inh c = true → a'.inh c = true) ∧ (∀ c, a.shared c = true → a'.shared c = true) ∧
    (∀ c, a.inh c = true → (∃ op ∈ ops, op.Passes) → a'.shared c = true) := by
  induction ops with
  | nil =>
    intro a a' _ h
    cases h
    refine ⟨fun o => by simp [netCount], by simp [attached], fun _ h => h, fun _ h => h, ?_⟩
    rintro c _ ⟨op, h, _⟩; cases h
  | cons op ops ih =>
    intro a a' hops h
    have hop := hops op (by simp)
    have hrest : ∀ op ∈ ops, op.OnParent := fun o ho => hops o (by simp [ho])
    rw [List.foldlM_cons] at h
    cases op with
    | attach s o =>
      obtain rfl : s = 0 := hop
      obtain ⟨h1, h2, h3, h4, h5⟩ := ih hrest h
      simp only [ObsSpec.put, ObsSpec.list, if_true, true_or] at h1 h2 h3 h4 h5
      refine ⟨fun o' => ?_, ?_, h3, fun c hc => h4 c (by simp [hc]), fun c hc _ => h4 c (by simp [hc])⟩
      · rw [h1 o', List.count_append, netCount]
        by_cases ho : o = o'
        · subst ho; simp; omega
        · simp [ho, List.count_singleton]
      · simpa [attached] using h2
    | detach s o =>
      obtain rfl : s = 0 := hop
      simp only [ObsSpec.step, ObsSpec.list, true_or, if_true] at h
      by_cases hm : o ∈ a.main
      · rw [if_pos hm] at h
        obtain ⟨h1, h2, h3, h4, h5⟩ := ih hrest h
        simp only [ObsSpec.put, if_true] at h1 h2 h3 h4 h5
        refine ⟨fun o' => ?_, ?_, h3, fun c hc => h4 c (by simp [hc]), fun c hc _ => h4 c (by simp [hc])⟩
        · rw [h1 o', netCount, List.count_erase]
          have hpos := List.count_pos_iff.mpr hm
          by_cases ho : o = o'
          · subst ho; simp; omega
          · simp [ho]
        · exact h2.trans ((List.erase_sublist).append_right _)
      · rw [if_neg hm] at h; cases h
    | inherit c =>
      obtain ⟨h1, h2, h3, h4, h5⟩ := ih hrest h
      have hu : ∀ d, a.inh d = true → Function.update a.inh c true d = true := by
        intro d hd
        by_cases hdc : d = c
        · subst hdc; simp
        · rw [Function.update_of_ne hdc]; exact hd
      refine ⟨h1, h2, fun d hd => h3 d (hu d hd), h4, ?_⟩
      rintro d hd ⟨op, ho, hp⟩
      rcases List.mem_cons.mp ho with rfl | ho
      · exact hp.elim
      · exact h5 d (hu d hd) ⟨op, ho, hp⟩

/-- C41, the parent: after any successful sequence of calls the parent notifies, with itself as sender, observers in the order in which
they were attached, each as often as it was attached and not detached. -/
theorem C41_parent {ops : List SOp} (hops : ∀ op ∈ ops, op.OnParent) {st : SubjSt} (h : runOps ops .fresh = .ok st) :
    ∃ l, List.Sublist l (attached ops) ∧ (∀ o, (l.count o : Int) = netCount o ops) ∧
      ∀ {M : Type} (m : M), notifyObs 0 m st = l.map fun o => (o, 0, m) := by
  rcases C41_spec ops (fun op ho => (hops op ho).ok) with ⟨st', a, h1, h2, h3⟩ | ⟨h1, _⟩
  · rw [h1] at h; cases h
    obtain ⟨g1, g2, _⟩ := spec_parent hops h2
    refine ⟨a.main, by simpa [ObsSpec.start] using g2, fun o => by simpa [ObsSpec.start] using g1 o, fun m => ?_⟩
    rw [h3]
    simp [ObsSpec.list]
  · rw [h1] at h; cases h

/-- C41, the children: once the parent has attached or detached something after the child has inherited, the child notifies the same
observers in the same order, with the parent as sender. -/
theorem C41_child {ops1 ops2 : List SOp} {c : Nat} (hc : c ≠ 0) (h1 : ∀ op ∈ ops1, op.OnParent) (h2 : ∀ op ∈ ops2, op.OnParent)
    (hp : ∃ op ∈ ops2, op.Passes) {st : SubjSt} (h : runOps (ops1 ++ .inherit c :: ops2) .fresh = .ok st) {M : Type} (m : M) :
    notifyObs c m st = notifyObs 0 m st := by
  have hall : ∀ op ∈ ops1 ++ .inherit c :: ops2, op.OnParent := by
    intro op ho
    rcases List.mem_append.mp ho with ho | ho
    · exact h1 op ho
    · rcases List.mem_cons.mp ho with rfl | ho
      · exact hc
      · exact h2 op ho
  rcases C41_spec _ (fun op ho => (hall op ho).ok) with ⟨st', a, e1, e2, e3⟩ | ⟨e1, _⟩
  · rw [e1] at h; cases h
    rw [List.foldlM_append] at e2
    cases e4 : List.foldlM ObsSpec.step ObsSpec.start ops1 with
    | error e => rw [e4] at e2; cases e2
    | ok b =>
      rw [e4] at e2
      have e5 : List.foldlM ObsSpec.step { b with inh := Function.update b.inh c true } ops2 = .ok a := e2
      obtain ⟨_, _, g3, g4, g5⟩ := spec_parent h2 e5
      have hi : a.inh c = true := g3 c (by simp)
      have hs : a.shared c = true := g5 c (by simp) hp
      rw [e3, e3]
      simp [ObsSpec.list, hi, hs, hc]
  · rw [e1] at h; cases h

/-- An observer attached to a child that shares the list of the parent is an observer of the parent. -/
theorem C56_child_attach {ops1 ops2 : List SOp} {c o : Nat} (hc : c ≠ 0) (h1 : ∀ op ∈ ops1, op.OnParent) (h2 : ∀ op ∈ ops2, op.OnParent)
    (hp : ∃ op ∈ ops2, op.Passes) {st : SubjSt} (h : runOps (ops1 ++ .inherit c :: ops2) .fresh = .ok st) {M : Type} (m : M) :
    notifyObs 0 m (attachObs c o st) = notifyObs 0 m st ++ [(o, 0, m)] := by
  have hall : ∀ op ∈ ops1 ++ .inherit c :: ops2, op.OnParent := by
    intro op ho
    rcases List.mem_append.mp ho with ho | ho
    · exact h1 op ho
    · rcases List.mem_cons.mp ho with rfl | ho
      · exact hc
      · exact h2 op ho
  rcases agree_run agree_start (fun op ho => (hall op ho).ok) with ⟨st', a, e1, e2, e3⟩ | ⟨e1, _⟩
  · rw [e1] at h; cases h
    rw [List.foldlM_append] at e2
    cases e4 : List.foldlM ObsSpec.step ObsSpec.start ops1 with
    | error e => rw [e4] at e2; cases e2
    | ok b =>
      rw [e4] at e2
      have e5 : List.foldlM ObsSpec.step { b with inh := Function.update b.inh c true } ops2 = .ok a := e2
      obtain ⟨_, _, g3, g4, g5⟩ := spec_parent h2 e5
      have hs : a.shared c = true := g5 c (by simp) hp
      rcases e3.step (op := .attach c o) trivial with ⟨st2, a2, f1, f2, f3⟩ | ⟨f1, _⟩
      · cases f1; cases f2
        simp only [notifyObs, e3.list, f3.list, e3.send0, f3.send0]
        simp [ObsSpec.put, ObsSpec.list, hc, hs]
      · cases f1
  · rw [e1] at h; cases h

/-- Non-vacuity: observer 7 is attached before the polygon (subject 1) inherits, then 8 and 9 are attached and 8 is detached. -/
example : ∃ st, runOps [.attach 0 7, .inherit 1, .attach 0 8, .attach 0 9, .detach 0 8] .fresh = .ok st ∧
    notifyObs 0 () st = [(7, 0, ()), (9, 0, ())] ∧ notifyObs 1 () st = [(7, 0, ()), (9, 0, ())] := ⟨_, rfl, by decide, by decide⟩

/-- Inheriting alone passes nothing on. -/
example : ∃ st, runOps [.attach 0 7, .inherit 1] .fresh = .ok st ∧ notifyObs 0 () st = [(7, 0, ())] ∧ notifyObs 1 () st = [] :=
  ⟨_, rfl, by decide, by decide⟩

/-! ### TreeObserver and VoronoiObserver -/

def TreeObs.run : List (Bool × Msg) → TreeObs → Except Err (List Nat × TreeObs)
  | [], t => .ok ([], t)
  | (b, m) :: ms, t => match t.update b m with
    | .error e => .error e
    | .ok (c, t1) => match TreeObs.run ms t1 with
      | .error e => .error e
      | .ok (cs, t2) => .ok (c.toList ++ cs, t2)

/-- The messages a `TreeObserver` is interested in. -/
def treeSel (steps result : Bool) : Msg → Bool
  | .stepFinished => steps
  | .voronoiFinished => result && !steps
  | _ => false

/-- C42: a `TreeObserver` calls back exactly for the selected messages, `n_messages` counts the calls (and is the number of earlier
calls during a call). -/
theorem C42_tree {ms : List (Bool × Msg)} (hms : ∀ x ∈ ms, x.1 = true) : ∀ (t : TreeObs),
    TreeObs.run ms t = .ok (List.range' t.nMessages ((ms.map Prod.snd).filter (treeSel t.visualizeSteps t.visualizeResult)).length,
      { t with
        nMessages := t.nMessages + ((ms.map Prod.snd).filter (treeSel t.visualizeSteps t.visualizeResult)).length
        messages := t.messages ++ (ms.map Prod.snd).filter (treeSel t.visualizeSteps t.visualizeResult) }) := by
  induction ms with
  | nil => intro t; simp [TreeObs.run]
  | cons x ms ih =>
    intro t
    obtain ⟨b, m⟩ := x
    obtain rfl : b = true := hms (b, m) (by simp)
    have ih := ih (fun x hx => hms x (by simp [hx]))
    simp only [TreeObs.run, TreeObs.update, List.map_cons, List.filter_cons, if_true]
    have hsel : ((m == .stepFinished && t.visualizeSteps) || (m == .voronoiFinished && t.visualizeResult && !t.visualizeSteps)) =
        treeSel t.visualizeSteps t.visualizeResult m := by
      cases m <;> simp [treeSel]
    rw [hsel]
    cases hb : treeSel t.visualizeSteps t.visualizeResult m with
    | true =>
      simp only [if_true]
      rw [ih]
      simp only [Option.toList_some, List.cons_append, List.nil_append, List.length_cons, List.range'_succ, Except.ok.injEq, Prod.mk.injEq,
        List.append_assoc, true_and, TreeObs.mk.injEq, and_true]
      omega
    | false =>
      simp only [Bool.false_eq_true, if_false]
      rw [ih]
      simp

def VorObs.run : List (Bool × Msg) → VorObs → PresetSt → Except Err (List (Nat × Dict) × VorObs × PresetSt)
  | [], v, p => .ok ([], v, p)
  | (b, m) :: ms, v, p => match v.update p b m with
    | .error e => .error e
    | .ok (c, v1, p1) => match VorObs.run ms v1 p1 with
      | .error e => .error e
      | .ok (cs, v2, p2) => .ok (c.toList ++ cs, v2, p2)

/-- The messages a `VoronoiObserver` is interested in. -/
def vorSel (v : VorObs) : Msg → Bool
  | .stepFinished => v.visualizeSteps
  | .sweepFinished => v.visualizeBeforeClipping
  | .voronoiFinished => v.visualizeResult
  | .debug => false

/-- The preset used for a message. -/
def PresetSt.at (p : PresetSt) : Msg → Dict
  | .stepFinished => p.construction
  | .sweepFinished => p.clipping
  | .voronoiFinished => p.final
  | .debug => fun _ => none

/-- `update`, once: called for the selected messages only, drawing with the preset overridden by the settings, which it keeps. -/
theorem VorObs.update_eq (v : VorObs) (p : PresetSt) (m : Msg) :
    ∃ p', v.update p true m = .ok (if vorSel v m then some (v.nMessages, (p.at m).upd v.settings) else none,
      (if vorSel v m then { v with nMessages := v.nMessages + 1, messages := v.messages ++ [m] } else v), p') ∧
      ∀ m', m' ≠ .debug → p'.at m' = if m' = m ∧ vorSel v m = true then (p.at m).upd v.settings else p.at m' := by
  cases m with
  | stepFinished =>
    cases hv : v.visualizeSteps
    · refine ⟨p, by simp [VorObs.update, vorSel, hv], fun m' _ => by simp [vorSel, hv]⟩
    · refine ⟨_, by simp only [VorObs.update, vorSel, hv]; rfl, fun m' _ => by cases m' <;> simp [vorSel, hv, PresetSt.at]⟩
  | sweepFinished =>
    cases hv : v.visualizeBeforeClipping
    · refine ⟨p, by simp [VorObs.update, vorSel, hv], fun m' _ => by simp [vorSel, hv]⟩
    · refine ⟨_, by simp only [VorObs.update, vorSel, hv]; rfl, fun m' _ => by cases m' <;> simp [vorSel, hv, PresetSt.at]⟩
  | voronoiFinished =>
    cases hv : v.visualizeResult
    · refine ⟨p, by simp [VorObs.update, vorSel, hv], fun m' _ => by simp [vorSel, hv]⟩
    · refine ⟨_, by simp only [VorObs.update, vorSel, hv]; rfl, fun m' _ => by cases m' <;> simp [vorSel, hv, PresetSt.at]⟩
  | debug => exact ⟨p, rfl, fun m' _ => by simp [vorSel]⟩

theorem vorSel_upd (v : VorObs) (k : Nat) (l : List Msg) : vorSel { v with nMessages := k, messages := l } = vorSel v := by
  funext m; cases m <;> rfl

theorem VorObs.update_flag (v : VorObs) (p : PresetSt) {b : Bool} {m : Msg} (h : m = .stepFinished → b = true) :
    v.update p b m = v.update p true m := by
  cases m <;> first | rfl | rw [h rfl]

/-- C42: a `VoronoiObserver` calls back exactly for the selected messages, and `n_messages` counts the calls. -/
theorem C42_voronoi {ms : List (Bool × Msg)} (hms : ∀ x ∈ ms, x.2 = .stepFinished → x.1 = true) : ∀ (v : VorObs) (p : PresetSt),
    ∃ cs v' p', VorObs.run ms v p = .ok (cs, v', p') ∧
      cs.map Prod.fst = List.range' v.nMessages ((ms.map Prod.snd).filter (vorSel v)).length ∧
      v' = { v with
        nMessages := v.nMessages + ((ms.map Prod.snd).filter (vorSel v)).length
        messages := v.messages ++ (ms.map Prod.snd).filter (vorSel v) } := by
  induction ms with
  | nil => intro v p; exact ⟨[], v, p, rfl, by simp, by simp⟩
  | cons x ms ih =>
    intro v p
    obtain ⟨b, m⟩ := x
    have hb0 := v.update_flag p (hms (b, m) (by simp))
    have ih := ih (fun x hx => hms x (by simp [hx]))
    obtain ⟨p1, h1, _⟩ := v.update_eq p m
    simp only [VorObs.run, hb0, h1, List.map_cons, List.filter_cons]
    cases hb : vorSel v m with
    | true =>
      simp only [if_true]
      obtain ⟨cs, v', p', g1, g2, g3⟩ := ih { v with nMessages := v.nMessages + 1, messages := v.messages ++ [m] } p1
      rw [vorSel_upd] at g2 g3
      refine ⟨_, v', p', by rw [g1], ?_, ?_⟩
      · simp only [Option.toList_some, List.cons_append, List.nil_append, List.map_cons, g2, List.length_cons, List.range'_succ]
      · rw [g3]
        simp only [List.length_cons, List.append_assoc, List.cons_append, List.nil_append, VorObs.mk.injEq, and_true, true_and]
        omega
    | false =>
      simp only [Bool.false_eq_true, if_false]
      obtain ⟨cs, v', p', g1, g2, g3⟩ := ih v p1
      exact ⟨_, v', p', by rw [g1], by simpa using g2, g3⟩

/-! ### The presets are shared -/

/-- Several observers in one process, each with the dictionaries of `Presets`: the list of (observer, message, settings drawn with). -/
def drawAll : List (Nat × Msg) → (Nat → VorObs) → PresetSt → Except Err (List (Nat × Msg × Dict))
  | [], _, _ => .ok []
  | (i, m) :: ms, obs, p => match (obs i).update p true m with
    | .error e => .error e
    | .ok (c, v1, p1) => match drawAll ms (Function.update obs i v1) p1 with
      | .error e => .error e
      | .ok cs => .ok ((c.toList.map fun c => (i, m, c.2)) ++ cs)

/-- The draws made: the selected messages. -/
def draws (obs : Nat → VorObs) (ms : List (Nat × Msg)) : List (Nat × Msg) := ms.filter fun x => vorSel (obs x.1) x.2

/-- The value a key has after the draws `ds` of kind `m`: the setting of the latest draw that has it, or the preset. -/
def lastSet (st : Nat → Dict) (m : Msg) (base : Option Bool) (k : Nat) : List (Nat × Msg) → Option Bool
  | [] => base
  | (i, m') :: ds => lastSet st m (if m' = m then ((st i k).orElse fun _ => base) else base) k ds

theorem drawAll_spec {ms : List (Nat × Msg)} : ∀ (obs : Nat → VorObs) (p : PresetSt), ∃ l, drawAll ms obs p = .ok l ∧
    l.map (fun x => (x.1, x.2.1)) = draws obs ms ∧
    ∀ (j i : Nat) (m : Msg) (d : Dict), l[j]? = some (i, m, d) → ∀ k, d k = lastSet (fun i => (obs i).settings) m (p.at m k) k ((draws obs ms).take (j + 1)) := by
  induction ms with
  | nil => intro obs p; exact ⟨[], rfl, rfl, by simp⟩
  | cons x ms ih =>
    intro obs p
    obtain ⟨i, m⟩ := x
    obtain ⟨p1, h1, h2⟩ := (obs i).update_eq p m
    set v1 := (if vorSel (obs i) m then { obs i with nMessages := (obs i).nMessages + 1, messages := (obs i).messages ++ [m] } else obs i) with hv1
    obtain ⟨l, g1, g2, g3⟩ := ih (Function.update obs i v1) p1
    have hsel : ∀ j, vorSel (Function.update obs i v1 j) = vorSel (obs j) := by
      intro j
      by_cases hj : j = i
      · subst hj
        rw [Function.update_self, hv1]
        split_ifs
        · rw [vorSel_upd]
        · rfl
      · rw [Function.update_of_ne hj]
    have hset : (fun j => (Function.update obs i v1 j).settings) = fun j => (obs j).settings := by
      funext j
      by_cases hj : j = i
      · subst hj
        rw [Function.update_self, hv1]
        split_ifs <;> rfl
      · rw [Function.update_of_ne hj]
    have hdr : draws (Function.update obs i v1) ms = draws obs ms := by
      unfold draws
      congr 1
      funext x
      rw [hsel]
    rw [hdr] at g2 g3
    rw [hset] at g3
    have hl : ∀ x ∈ l, x.2.1 ≠ .debug := by
      intro x hx
      have : (x.1, x.2.1) ∈ draws obs ms := by rw [← g2]; exact List.mem_map_of_mem hx
      have := (List.mem_filter.mp this).2
      intro hd
      rw [hd] at this
      cases this
    simp only [drawAll, h1, g1]
    cases hb : vorSel (obs i) m with
    | false =>
      refine ⟨_, rfl, ?_, ?_⟩
      · simp only [Bool.false_eq_true, if_false, Option.toList_none, List.map_nil, List.nil_append, g2, draws, List.filter_cons, hb]
      · intro j i' m' d hj k
        simp only [Bool.false_eq_true, if_false, Option.toList_none, List.map_nil, List.nil_append] at hj
        have := g3 j i' m' d hj k
        rw [h2 m' (hl _ (List.mem_of_getElem? hj)), if_neg (by rw [hb]; simp)] at this
        rw [this]
        simp only [draws, List.filter_cons, hb]
        rfl
    | true =>
      have hm : m ≠ .debug := by rintro rfl; cases hb
      refine ⟨_, rfl, ?_, ?_⟩
      · simp only [if_true, Option.toList_some, List.map_cons, List.map_nil, List.cons_append, List.nil_append, g2, draws, List.filter_cons, hb]
      · intro j i' m' d hj k
        simp only [if_true, Option.toList_some, List.map_cons, List.map_nil, List.cons_append, List.nil_append] at hj
        have hd : draws obs ((i, m) :: ms) = (i, m) :: draws obs ms := by simp only [draws, List.filter_cons, hb, if_true]
        rw [hd, List.take_succ_cons]
        cases j with
        | zero =>
          simp only [List.getElem?_cons_zero, Option.some.injEq, Prod.mk.injEq] at hj
          obtain ⟨rfl, rfl, rfl⟩ := hj
          simp [lastSet, Dict.upd]
        | succ j =>
          simp only [List.getElem?_cons_succ] at hj
          have := g3 j i' m' d hj k
          rw [this, h2 m' (hl _ (List.mem_of_getElem? hj))]
          simp only [lastSet]
          congr 1
          by_cases hmm : m' = m
          · subst hmm; rw [if_pos ⟨rfl, hb⟩, if_pos rfl]; rfl
          · rw [if_neg (fun h => hmm h.1), if_neg (Ne.symm hmm)]

/-- What an observer draws with: for each key the setting of the latest draw of the same kind, by any observer up to and including this
draw, that has the key; only if there is none, the preset. -/
theorem C57_settings_leak (ms : List (Nat × Msg)) (obs : Nat → VorObs) (p : PresetSt) : ∃ l, drawAll ms obs p = .ok l ∧
    l.map (fun x => (x.1, x.2.1)) = draws obs ms ∧
    ∀ (j i : Nat) (m : Msg) (d : Dict), l[j]? = some (i, m, d) → ∀ k, d k = lastSet (fun i => (obs i).settings) m (p.at m k) k ((draws obs ms).take (j + 1)) :=
  drawAll_spec obs p

theorem lastSet_own {st : Nat → Dict} {m : Msg} {k : Nat} {i : Nat} {b : Bool} (h : st i k = some b) : ∀ (ds : List (Nat × Msg)) (base : Option Bool),
    lastSet st m base k (ds ++ [(i, m)]) = some b := by
  intro ds
  induction ds with
  | nil => intro base; simp [lastSet, h]
  | cons x ds ih => intro base; exact ih _

theorem lastSet_none {st : Nat → Dict} {m : Msg} {k : Nat} : ∀ (ds : List (Nat × Msg)) (base : Option Bool),
    (∀ x ∈ ds, st x.1 k = none) → lastSet st m base k ds = base := by
  intro ds
  induction ds with
  | nil => intro base _; rfl
  | cons x ds ih =>
    intro base h
    obtain ⟨i, m'⟩ := x
    rw [lastSet, ih _ (fun y hy => h y (by simp [hy]))]
    simp [h (i, m') (by simp)]

theorem drawAll_last {ms : List (Nat × Msg)} {obs : Nat → VorObs} {p : PresetSt} {l : List (Nat × Msg × Dict)} (h : drawAll ms obs p = .ok l)
    {j i : Nat} {m : Msg} {d : Dict} (hj : l[j]? = some (i, m, d)) : (draws obs ms).take (j + 1) = (draws obs ms).take j ++ [(i, m)] := by
  obtain ⟨l', h1, h2, _⟩ := drawAll_spec (ms := ms) obs p
  rw [h] at h1
  cases h1
  rw [List.take_add_one, ← h2, List.getElem?_map, hj]
  rfl

/-- C43, what holds: the settings an observer is given are the ones it draws with, and a key no observer sets has the preset's value.
The full claim is false, see `C57_settings_leak` and `C43_counterexample`. -/
theorem C43_own_settings_partial {ms : List (Nat × Msg)} {obs : Nat → VorObs} {p : PresetSt} {l : List (Nat × Msg × Dict)} (h : drawAll ms obs p = .ok l)
    {j i : Nat} {m : Msg} {d : Dict} (hj : l[j]? = some (i, m, d)) (k : Nat) :
    (∀ b, (obs i).settings k = some b → d k = some b) ∧ ((∀ i', (obs i').settings k = none) → d k = p.at m k) := by
  obtain ⟨l', h1, _, h3⟩ := drawAll_spec (ms := ms) obs p
  rw [h] at h1
  cases h1
  refine ⟨fun b hb => ?_, fun hn => ?_⟩
  · rw [h3 j i m d hj k, drawAll_last h hj]
    exact lastSet_own (st := fun i => (obs i).settings) hb _ _
  · rw [h3 j i m d hj k]
    exact lastSet_none _ _ (fun x _ => hn x.1)

/-- C43 is false: what observer 1 draws with depends on the settings of observer 0. -/
theorem C43_counterexample : ∃ (ms : List (Nat × Msg)) (obs obs' : Nat → VorObs) (p : PresetSt) (l l' : List (Nat × Msg × Dict)) (d d' : Dict),
    obs 1 = obs' 1 ∧ drawAll ms obs p = .ok l ∧ drawAll ms obs' p = .ok l' ∧ l[1]? = some (1, .stepFinished, d) ∧
    l'[1]? = some (1, .stepFinished, d') ∧ d 0 ≠ d' 0 := by
  refine ⟨[(0, .stepFinished), (1, .stepFinished)], fun i => if i = 0 then { settings := fun _ => some false } else {}, fun _ => {},
    ⟨fun _ => some true, fun _ => none, fun _ => none⟩, _, _, _, _, rfl, rfl, rfl, rfl, rfl, ?_⟩
  decide

/-! ### The whole run -/

variable {K : Type} [LinearOrder K] [Arith K] [ArithLaws K]
variable {pts : Nat → K × K} {q : PQ (QE K)} {ok : List (QE K) → Prop} {n : Nat} {poly : Poly K} {fuel : Nat} {rz : Bool} {s' : St K} [MidLt pts n]

/-- One event: a `STEP_FINISHED` exactly if it is handled. -/
theorem EvStep.log {s s1 : St K} {L L' : List (Item Dat)} {e : QE K} {rest : List (QE K)}
    (h : EvStep pts q e rest s L s1 L') :
    steps s1.log = steps s.log ++ (if !e.circ || (s.evs e.ref).valid then [.stepFinished] else []) ∧
    ((!e.circ || (s.evs e.ref).valid) = true → s1.event.isSome = true ∧ L' ≠ []) := by
  cases h with
  | skip hc hv => exact ⟨by simp [hc, hv], by simp [hc, hv]⟩
  | @first s1 _ hc hf =>
    refine ⟨?_, fun _ => ⟨rfl, by rw [hf.list]; simp⟩⟩
    have e1 : s1.log = s.log ++ [.debug] := by rw [hf.eq]; rfl
    show steps (s1.log ++ [.stepFinished]) = _
    rw [e1]
    simp [steps, hc]
  | @site s1 _ pre post m a inter hc hpost hn =>
    refine ⟨?_, fun _ => ⟨rfl, by rw [hn.list]; cases inter <;> simp [siteItems]⟩⟩
    obtain ⟨log', hlog, hfeq⟩ := hn.eq
    have e1 : s1.log = log' := by rw [hfeq]
    have e2 : steps log' = steps s.log := hlog.count.trans (steps_debug _)
    show steps (s1.log ++ [.stepFinished]) = _
    rw [e1, ← e2]
    simp [steps, hc]
  | @circle s1 _ P m u le ri tl tr ue re hc hv hcev hmk hpre hn =>
    refine ⟨?_, fun _ => ⟨rfl, by rw [hn.list]; simp [Place.rest]⟩⟩
    obtain ⟨log', hlog, hfeq⟩ := hn.eq
    have e1 : s1.log = log' := by rw [hfeq]
    have e2 : steps log' = steps s.log := hlog.count.trans (steps_debug _)
    show steps (s1.log ++ [.stepFinished]) = _
    rw [e1, ← e2]
    simp [steps, hc, hv]

/-- The loop with recorded notifications is the loop, and what it records is what is sent. -/
theorem obsLoop_spec (hq : q.Spec evLt ok) : ∀ {fuel : Nat} {s : St K}, Reach pts q n poly s → sweepLoop pts q fuel s = .ok ((), s') →
    ∃ tr, obsLoop pts q fuel s = .ok (tr, s') ∧ steps s'.log = steps s.log ++ tr.map Prod.fst ∧
      ∀ x ∈ tr, x.1 = .stepFinished ∧ Reach pts q n poly x.2 ∧ x.2.event.isSome = true ∧ x.2.root.isSome = true := by
  intro fuel
  induction fuel with
  | zero => intro s _ h; cases h
  | succ fuel ih =>
    intro s hr h
    unfold sweepLoop at h
    simp only [bind, StateT.bind, Except.bind, get, getThe, MonadStateOf.get, StateT.get, pure, Except.pure] at h
    unfold obsLoop
    cases hp : q.pop s.queue with
    | none =>
      rw [hp] at h
      simp only [StateT.pure, pure, Except.pure, Except.ok.injEq, Prod.mk.injEq, true_and] at h
      subst h
      exact ⟨[], rfl, by simp, by simp⟩
    | some er =>
      obtain ⟨e, rest⟩ := er
      rw [hp] at h
      simp only [set, StateT.set, pure, Except.pure, StateT.bind, bind, Except.bind] at h
      cases hv : handleEvent pts q e { s with queue := rest } with
      | error e => rw [hv] at h; cases h
      | ok v =>
        obtain ⟨_, s1⟩ := v
        rw [hv] at h
        have hr1 : Reach pts q n poly s1 := .step hr hp hv
        obtain ⟨tr, h1, h2, h3⟩ := ih hr1 h
        obtain ⟨L, hI⟩ := reach_inv hq hr
        obtain ⟨L', hst⟩ := (wp_handleEvent (E := (· = .arith)) hI hq hp (Or.inl rfl) (Or.inl rfl)).ok hv
        have hI1 := (hI.step hq hp hst).1
        obtain ⟨g1, g2⟩ := hst.log
        simp only [hv, h1]
        refine ⟨_, rfl, ?_, ?_⟩
        · rw [h2, g1]
          split_ifs <;> simp
        · split_ifs with hb
          · intro x hx
            rcases List.mem_cons.mp hx with rfl | hx
            · refine ⟨rfl, hr1, (g2 hb).1, ?_⟩
              rcases hI1.tree.2 with ⟨_, hL⟩ | ⟨t, ht, _⟩
              · exact ((g2 hb).2 hL).elim
              · show s1.root.isSome = true
                rw [ht]; rfl
            · exact h3 x hx
          · exact h3

/-- C40: the notifications of a run with the states in which they are sent: one `STEP_FINISHED` per handled event, at which the sweep
line is at the event, then `SWEEP_FINISHED`, then `VORONOI_FINISHED`; there always is a status tree. -/
theorem C40_observed (hq : q.Spec evLt ok) (hn : 0 < n) (hne : poly.points ≠ [])
    (h : createDiagram pts q n fuel poly rz (initSt poly) = .ok ((), s')) :
    ∃ tr s0, obsCreate pts q n fuel poly rz (initSt poly) = .ok (tr, s') ∧ sweepAll pts q n fuel (initSt poly) = .ok ((), s0) ∧
      tr.map Prod.fst = steps s'.log ∧
      tr.map Prod.fst = List.replicate (n + s0.verts.length) .stepFinished ++ [.sweepFinished, .voronoiFinished] ∧
      ∀ x ∈ tr, x.2.root.isSome = true ∧ (x.1 = .stepFinished → x.2.event.isSome = true ∧ x.2.sweep = eventY pts x.2) := by
  obtain ⟨sr, s0, s1, s2, vs, V, cell, hr, hp, h0, hs, hst⟩ := createDiagram_stages hq hn hne h
  obtain ⟨s0', hs', hlog⟩ := C40_log hq hn hne h
  rw [hs] at hs'
  cases hs'
  have hinit : initQueue pts q n (initSt poly) = .ok ((), startSt pts q n poly) := rfl
  obtain ⟨sl, hloop, hsl⟩ : ∃ sl, sweepLoop pts q fuel (startSt pts q n poly) = .ok ((), sl) ∧
      s0 = { sl with log := sl.log ++ [.debug] ++ [.sweepFinished] } := by
    have h := hs
    unfold sweepAll at h
    simp only [bind, StateT.bind, Except.bind, hinit] at h
    cases hl : sweepLoop pts q fuel (startSt pts q n poly) with
    | error e => rw [hl] at h; cases h
    | ok v =>
      obtain ⟨_, s⟩ := v
      rw [hl] at h
      have : (.ok ((), { s with log := s.log ++ [.debug] ++ [.sweepFinished] }) : Except Err (Unit × St K)) = .ok ((), s0) := h
      exact ⟨s, rfl, by simpa using this.symm⟩
  obtain ⟨tr, ht, htl, htr⟩ := obsLoop_spec hq (.start hinit) hloop
  have hdef : createDiagram pts q n fuel poly rz = (do
      sweepAll pts q n fuel
      (do finishEdgesSt pts poly; finishPolygon pts n poly; whenDo rz (cleanUp pts); notify .debug; notify .voronoiFinished)) := rfl
  rw [hdef, bind_ok hs] at h
  have hnot : (do notify .debug; notify .sweepFinished : AM K Unit) sl = .ok ((), s0) := by rw [hsl]; rfl
  have hrun : obsCreate pts q n fuel poly rz (initSt poly) = .ok (tr ++ [(.sweepFinished, s0), (.voronoiFinished, s')], s') := by
    simp only [obsCreate, hinit, ht, hnot, h]
  have hmap : (tr ++ [(Msg.sweepFinished, s0), (Msg.voronoiFinished, s')]).map Prod.fst =
      List.replicate (n + s0.verts.length) .stepFinished ++ [.sweepFinished, .voronoiFinished] := by
    have e1 := C40_sweep_log hq hs
    have e2 : steps s0.log = steps sl.log ++ [.sweepFinished] := by rw [hsl]; simp [steps]
    have e3 : steps (startSt pts q n poly).log = [] := rfl
    rw [e2, htl, e3, List.nil_append] at e1
    rw [List.map_append, List.append_cancel_right e1]
    rfl
  have hroot : s0.root.isSome = true := by
    have hr' := (sweepLoop_reach (.start hinit) hloop)
    obtain ⟨L, hI, hJ⟩ := reach_follow (J := fun s L => steps s.log ≠ [] → L ≠ []) hq (fun h => (h rfl).elim) (by
      intro s L e rest s' L' _ hJ _ hst _
      obtain ⟨g1, g2⟩ := hst.log
      cases hb : (!e.circ || (s.evs e.ref).valid) with
      | true => exact fun _ => (g2 hb).2
      | false =>
        simp only [Bool.or_eq_false_iff, Bool.not_eq_false'] at hb
        cases hst with
        | skip => exact hJ
        | first hc => rw [hb.1] at hc; cases hc
        | site hc => rw [hb.1] at hc; cases hc
        | circle _ hv => rw [hb.2] at hv; cases hv) hr'.1
    have e1 := C40_sweep_log hq hs
    have e2 : steps s0.log = steps sl.log ++ [.sweepFinished] := by rw [hsl]; simp [steps]
    rw [e2] at e1
    have hne' : steps sl.log ≠ [] := by
      rw [List.append_cancel_right e1]
      intro h
      have := congrArg List.length h
      simp at this
      omega
    rcases hI.tree.2 with ⟨_, hL⟩ | ⟨t, ht, _⟩
    · exact (hJ hne' hL).elim
    · rw [hsl]
      show sl.root.isSome = true
      rw [ht]; rfl
  have hroot' : s'.root = s0.root := by
    have e1 : s1.root = s0.root := by have := congrArg St.root hst.fe.eq; exact this
    have e2 : s2.root = s1.root := by rw [hst.fp.eq]
    have e3 : s'.root = s2.root := by
      have := hst.cu
      cases rz with
      | true => simp only [if_true] at this; have := congrArg St.root this.eq; exact this
      | false => simp only [Bool.false_eq_true, if_false] at this; rw [this]
    rw [e3, e2, e1]
  refine ⟨_, s0, hrun, hs, by rw [hmap, hlog], hmap, ?_⟩
  intro x hx
  simp only [List.mem_append, List.mem_cons, List.not_mem_nil, or_false] at hx
  rcases hx with hx | rfl | rfl
  · obtain ⟨h1, h2, h3, h4⟩ := htr x hx
    refine ⟨h4, fun _ => ⟨h3, ?_⟩⟩
    have hl := reach_log hq h2
    unfold eventY
    cases he : x.2.event with
    | none => rw [he] at h3; cases h3
    | some ev =>
      cases ev with
      | site p => rw [hl.site p he]; rfl
      | circle c => rw [(hl.circ c he).2]; rfl
  · exact ⟨hroot, fun h => by cases h⟩
  · exact ⟨by rw [hroot']; exact hroot, fun h => by cases h⟩

/-- C40, per observer: an observer attached once receives all notifications of the run in order, from the algorithm. -/
theorem C40_deliver {ops : List SOp} (hops : ∀ op ∈ ops, op.OnParent) {st : SubjSt} (h : runOps ops .fresh = .ok st) {o : Nat}
    (ho : netCount o ops = 1) {M : Type} (tr : List M) :
    (tr.flatMap fun m => notifyObs 0 m st).filter (fun x => x.1 == o) = tr.map fun m => (o, 0, m) := by
  obtain ⟨l, _, h2, h3⟩ := C41_parent hops h
  have hc : l.count o = 1 := by have := h2 o; omega
  have hl : l.filter (fun x => x == o) = [o] := by rw [List.filter_beq, hc]; rfl
  induction tr with
  | nil => rfl
  | cons m tr ih =>
    rw [List.flatMap_cons, List.filter_append, ih, h3, List.filter_map]
    have : ((fun x : Nat × Nat × M => x.1 == o) ∘ fun o => (o, 0, m)) = fun x => x == o := rfl
    rw [this, hl]
    rfl

/-- C40, within one notification the observers are called in attachment order. -/
theorem C40_order {ops : List SOp} (hops : ∀ op ∈ ops, op.OnParent) {st : SubjSt} (h : runOps ops .fresh = .ok st) {M : Type} (m : M) :
    List.Sublist ((notifyObs 0 m st).map Prod.fst) (attached ops) := by
  obtain ⟨l, h1, _, h3⟩ := C41_parent hops h
  rw [h3, List.map_map]
  simpa [Function.comp_def] using h1

/-- What the assertion of `VoronoiObserver.update` compares, and the message. -/
def seen (pts : Nat → K × K) (x : Msg × St K) : Bool × Msg := (decide (x.2.sweep = eventY pts x.2), x.1)

/-- C42, for a whole run: a `VoronoiObserver` never fails its assertion, and is called for the steps, the end of the sweep and the
result as its options say. -/
theorem C42_voronoi_run (hq : q.Spec evLt ok) (hn : 0 < n) (hne : poly.points ≠ [])
    (h : createDiagram pts q n fuel poly rz (initSt poly) = .ok ((), s')) (v : VorObs) (p : PresetSt) :
    ∃ tr s0 cs v' p', obsCreate pts q n fuel poly rz (initSt poly) = .ok (tr, s') ∧ sweepAll pts q n fuel (initSt poly) = .ok ((), s0) ∧
      VorObs.run (tr.map (seen pts)) v p = .ok (cs, v', p') ∧
      cs.length = (if v.visualizeSteps then n + s0.verts.length else 0) + (if v.visualizeBeforeClipping then 1 else 0) +
        (if v.visualizeResult then 1 else 0) ∧ v'.nMessages = v.nMessages + cs.length := by
  obtain ⟨tr, s0, h1, h2, _, h4, h5⟩ := C40_observed hq hn hne h
  obtain ⟨cs, v', p', g1, g2, g3⟩ := C42_voronoi (ms := tr.map (seen pts))
    (by
      intro x hx
      obtain ⟨y, hy, rfl⟩ := List.mem_map.mp hx
      exact fun hs => decide_eq_true ((h5 y hy).2 hs).2) v p
  have hlen : cs.length = (((tr.map (seen pts)).map Prod.snd).filter (vorSel v)).length := by
    have := congrArg List.length g2
    simpa using this
  refine ⟨tr, s0, cs, v', p', h1, h2, g1, ?_, by rw [g3, hlen]⟩
  have e : (tr.map (seen pts)).map Prod.snd = tr.map Prod.fst := by simp [Function.comp_def, seen]
  rw [hlen, e, h4, List.filter_append, List.filter_replicate]
  cases h6 : v.visualizeSteps <;> cases h7 : v.visualizeBeforeClipping <;> cases h8 : v.visualizeResult <;>
    simp [vorSel, h6, h7, h8, List.filter_cons]

/-- C42, for a whole run: a `TreeObserver` always finds a status tree. -/
theorem C42_tree_run (hq : q.Spec evLt ok) (hn : 0 < n) (hne : poly.points ≠ [])
    (h : createDiagram pts q n fuel poly rz (initSt poly) = .ok ((), s')) (t : TreeObs) :
    ∃ tr s0 cs t', obsCreate pts q n fuel poly rz (initSt poly) = .ok (tr, s') ∧ sweepAll pts q n fuel (initSt poly) = .ok ((), s0) ∧
      TreeObs.run (tr.map fun x => (x.2.root.isSome, x.1)) t = .ok (cs, t') ∧
      cs.length = (if t.visualizeSteps then n + s0.verts.length else if t.visualizeResult then 1 else 0) ∧
      t'.nMessages = t.nMessages + cs.length := by
  obtain ⟨tr, s0, h1, h2, _, h4, h5⟩ := C40_observed hq hn hne h
  have hrun := C42_tree (ms := tr.map fun x => (x.2.root.isSome, x.1))
    (by intro x hx; obtain ⟨y, hy, rfl⟩ := List.mem_map.mp hx; exact (h5 y hy).1) t
  refine ⟨tr, s0, _, _, h1, h2, hrun, ?_, by simp⟩
  have e : (tr.map fun x => (x.2.root.isSome, x.1)).map Prod.snd = tr.map Prod.fst := by simp [Function.comp_def]
  rw [List.length_range', e, h4, List.filter_append, List.filter_replicate]
  cases h6 : t.visualizeSteps <;> cases h7 : t.visualizeResult <;> simp [treeSel, List.filter_cons]

/-- C42: a `DebugObserver` is called for every other notification. -/
theorem C42_debug (l : List Msg) : (l.filter debugUpdate).length + (steps l).length = l.length := by
  induction l with
  | nil => rfl
  | cons m l ih => cases m <;> simp_all [steps, debugUpdate, List.filter_cons] <;> omega

/-- Non-vacuity: five sites; a default `VoronoiObserver` is called for every step and for the result. -/
example : ∃ (s' : St ℚ) (tr : List (Msg × St ℚ)) (s0 : St ℚ) (cs : List (Nat × Dict)) (v' : VorObs) (p' : PresetSt),
    obsCreate ex5 heapq 5 40 exBox false (initSt exBox) = .ok (tr, s') ∧
    VorObs.run (tr.map (seen ex5)) {} ⟨fun _ => some true, fun _ => none, fun _ => none⟩ = .ok (cs, v', p') ∧ cs.length = 5 + s0.verts.length + 1 := by
  obtain ⟨s', h, _⟩ := ex5_create
  obtain ⟨tr, s0, cs, v', p', h1, _, h3, h4, _⟩ := C42_voronoi_run C45_event_queue (by decide) (by decide) h {} ⟨fun _ => some true, fun _ => none, fun _ => none⟩
  exact ⟨s', tr, s0, cs, v', p', h1, h3, h4⟩

end Foronoi
