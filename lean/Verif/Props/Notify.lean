import Verif.Model.Notify
import Mathlib.Data.List.Basic
import Mathlib.Tactic.Common

/-!
# C109: observers that attach or detach observers while being notified
-/

namespace Foronoi

variable {M : Type} {react : Nat → M → SubjSt → Except Err SubjSt} {s l : Nat} {m : M}

theorem updateChildren_self (s : Nat) (st : SubjSt) :
    ((updateChildren s st).subj s).observers = (st.subj s).observers ∧ ((updateChildren s st).subj s).rootSender = (st.subj s).rootSender := by
  unfold updateChildren
  suffices h : ∀ (cs : List Nat) (f : Nat → SubjR), (cs.foldl (fun f c => Function.update f c { f c with observers := (f s).observers }) f s).observers =
      (f s).observers ∧ (cs.foldl (fun f c => Function.update f c { f c with observers := (f s).observers }) f s).rootSender = (f s).rootSender from h _ _
  intro cs
  induction cs with
  | nil => intro f; exact ⟨rfl, rfl⟩
  | cons c cs ih =>
    intro f
    obtain ⟨h1, h2⟩ := ih (Function.update f c { f c with observers := (f s).observers })
    rw [List.foldl_cons, h1, h2]
    by_cases hc : s = c
    · subst hc; simp
    · simp [Function.update_of_ne hc]

theorem attachObs_lists (s o : Nat) (st : SubjSt) : (attachObs s o st).lists (st.subj s).observers = st.lists (st.subj s).observers ++ [o] := by
  simp [attachObs, updateChildren]

theorem attachObs_self (s o : Nat) (st : SubjSt) : ((attachObs s o st).subj s).observers = (st.subj s).observers ∧
    ((attachObs s o st).subj s).rootSender = (st.subj s).rootSender := updateChildren_self s _

/-! ### No change of the list -/

theorem notifyLoop_quiet (h : ∀ o (st : SubjSt), ∃ st', react o m st = .ok st' ∧ st'.lists l = st.lists l ∧
    (st'.subj s).rootSender = (st.subj s).rootSender) : ∀ {fuel i : Nat} {st : SubjSt}, (st.lists l).length - i < fuel →
    ∃ st', notifyLoop react s l m fuel i st = .ok (((st.lists l).drop i).map fun o => (o, (st.subj s).rootSender, m), st') := by
  intro fuel
  induction fuel with
  | zero => intro i st hf; omega
  | succ fuel ih =>
    intro i st hf
    unfold notifyLoop
    cases hi : (st.lists l)[i]? with
    | none =>
      rw [List.drop_eq_nil_of_le (List.getElem?_eq_none_iff.mp hi)]
      exact ⟨_, rfl⟩
    | some o =>
      obtain ⟨hlt, ho⟩ := List.getElem?_eq_some_iff.mp hi
      obtain ⟨st1, h1, h2, h3⟩ := h o st
      obtain ⟨st2, h4⟩ := ih (i := i + 1) (st := st1) (by rw [h2]; omega)
      rw [h2, h3] at h4
      refine ⟨st2, ?_⟩
      simp only [h1, h4]
      rw [List.drop_eq_getElem_cons hlt, ho]
      rfl

/-- C109: if no observer changes the list, all of them are called, in order. -/
theorem C109_quiet {st : SubjSt} (h : ∀ o (st' : SubjSt), ∃ st'', react o m st' = .ok st'' ∧
      st''.lists (st.subj s).observers = st'.lists (st.subj s).observers ∧ (st''.subj s).rootSender = (st'.subj s).rootSender)
    {fuel : Nat} (hf : (st.lists (st.subj s).observers).length < fuel) :
    ∃ st', notifyR react s m fuel st = .ok (notifyObs s m st, st') := by
  obtain ⟨st', h'⟩ := notifyLoop_quiet h (i := 0) (st := st) (by simpa using hf)
  exact ⟨st', by simpa [notifyR, notifyObs] using h'⟩

/-! ### Observers that detach themselves -/

/-- What is heard of a list in which some observers leave when called. -/
def heard (once : Nat → Bool) : List Nat → List Nat
  | [] => []
  | [a] => [a]
  | a :: b :: t => if once a then a :: heard once t else a :: heard once (b :: t)

/-- Who is left. -/
def left (once : Nat → Bool) : List Nat → List Nat
  | [] => []
  | [a] => if once a then [] else [a]
  | a :: b :: t => if once a then b :: left once t else a :: left once (b :: t)

theorem notifyLoop_once {once : Nat → Bool} (h1 : ∀ o, once o = true → ∀ st, react o m st = detachObs s o st)
    (h0 : ∀ o, once o = false → ∀ st, react o m st = .ok st) : ∀ {fuel : Nat} {pre suf : List Nat} {st : SubjSt},
    (st.subj s).observers = l → st.lists l = pre ++ suf → (pre ++ suf).Nodup → suf.length < fuel → ∃ st', notifyLoop react s l m fuel pre.length st =
      .ok ((heard once suf).map fun o => (o, (st.subj s).rootSender, m), st') ∧ st'.lists l = pre ++ left once suf ∧
        (st'.subj s).observers = l := by
  intro fuel
  induction fuel with
  | zero => intro pre suf st _ _ _ hf; omega
  | succ fuel ih =>
    intro pre suf st hl hlist hnd hf
    unfold notifyLoop
    cases suf with
    | nil =>
      rw [hlist, List.getElem?_eq_none (by simp)]
      exact ⟨_, rfl, by rw [hlist]; rfl, hl⟩
    | cons a t =>
      rw [hlist, List.getElem?_append_right (Nat.le_refl _), Nat.sub_self, List.getElem?_cons_zero]
      simp only
      have hnotin : a ∉ pre := by
        intro h
        have := List.nodup_append.mp hnd
        exact this.2.2 a h a (by simp) rfl
      by_cases ho : once a = true
      · -- the list loses `a`
        have hin : a ∈ st.lists (st.subj s).observers := by rw [hl, hlist]; simp
        have hd : ∃ st1, detachObs s a st = .ok st1 ∧ st1.lists l = pre ++ t ∧ (st1.subj s).observers = l ∧
            (st1.subj s).rootSender = (st.subj s).rootSender := by
          unfold detachObs
          rw [if_pos hin]
          refine ⟨_, rfl, ?_, ?_, ?_⟩
          · rw [hl, hlist]
            simp [updateChildren, List.erase_append_right _ hnotin]
          · rw [(updateChildren_self s _).1]; exact hl
          · rw [(updateChildren_self s _).2]
        obtain ⟨st1, hr, hl1, ho1, hs1⟩ := hd
        simp only [h1 a ho, hr]
        cases t with
        | nil =>
          cases fuel with
          | zero => simp at hf
          | succ fuel =>
            unfold notifyLoop
            rw [hl1, List.getElem?_eq_none (by simp)]
            exact ⟨st1, by simp [heard], by rw [hl1]; simp [left, ho], ho1⟩
        | cons b t =>
          have hnd' : ((pre ++ [b]) ++ t).Nodup := by
            have : (pre ++ (b :: t)).Nodup := hnd.sublist (List.Sublist.append_left (List.sublist_cons_self _ _) _)
            simpa using this
          obtain ⟨st2, g1, g2, g3⟩ := ih (pre := pre ++ [b]) (suf := t) (st := st1) ho1 (by rw [hl1]; simp) hnd'
            (by simp only [List.length_cons] at hf; omega)
          rw [List.length_append, List.length_singleton, hs1] at g1
          refine ⟨st2, ?_, ?_, g3⟩
          · simp only [g1]
            simp [heard, ho]
          · rw [g2]; simp [left, ho]
      · have ho' : once a = false := by simpa using ho
        simp only [h0 a ho']
        have hnd' : ((pre ++ [a]) ++ t).Nodup := by simpa using hnd
        obtain ⟨st2, g1, g2, g3⟩ := ih (pre := pre ++ [a]) (suf := t) (st := st) hl (by rw [hlist]; simp) hnd'
          (by simp only [List.length_cons] at hf; omega)
        rw [List.length_append, List.length_singleton] at g1
        refine ⟨st2, ?_, ?_, g3⟩
        · simp only [g1]
          cases t <;> simp [heard, ho']
        · rw [g2]
          cases t <;> simp [left, ho']

theorem heard_sublist (once : Nat → Bool) : ∀ L, (heard once L).Sublist L
  | [] => by simp [heard]
  | [a] => by simp [heard]
  | a :: b :: t => by
    unfold heard
    split
    · exact ((heard_sublist once t).trans (List.sublist_cons_self _ _)).cons_cons a
    · exact (heard_sublist once (b :: t)).cons_cons a

theorem head_heard (once : Nat → Bool) (a : Nat) (t : List Nat) : a ∈ heard once (a :: t) := by
  cases t with
  | nil => simp [heard]
  | cons b t => unfold heard; split <;> simp

theorem heard_iff (once : Nat → Bool) : ∀ {L : List Nat}, L.Nodup → ∀ {i : Nat} (h : i < L.length),
    L[i] ∈ heard once L ↔ ∀ j, (hj : j + 1 = i) → ¬ (L[j] ∈ heard once L ∧ once L[j] = true)
  | [], _, i, h => by simp at h
  | [a], _, i, h => by
    have : i = 0 := by simpa using h
    subst this
    simp [heard]
  | a :: b :: t, hnd, i, h => by
    have hnd1 : (b :: t).Nodup := (List.nodup_cons.mp hnd).2
    have hnd2 : t.Nodup := (List.nodup_cons.mp hnd1).2
    have ha : a ∉ b :: t := (List.nodup_cons.mp hnd).1
    have hb : b ∉ t := (List.nodup_cons.mp hnd1).1
    by_cases ho : once a = true
    · have hh : heard once (a :: b :: t) = a :: heard once t := by simp [heard, ho]
      have hbn : b ∉ heard once (a :: b :: t) := by
        rw [hh]
        intro hm
        rcases List.mem_cons.mp hm with h | h
        · exact ha (by simp [h])
        · exact hb ((heard_sublist once t).subset h)
      match i with
      | 0 => simp [hh]
      | 1 =>
        have : ¬ (∀ j, (hj : j + 1 = 1) → ¬ ((a :: b :: t)[j] ∈ heard once (a :: b :: t) ∧ once (a :: b :: t)[j] = true)) := by
          intro h
          exact h 0 rfl ⟨by simp [hh], ho⟩
        constructor
        · intro h; exact absurd h hbn
        · intro h; exact absurd h this
      | k + 2 =>
        have hk : k < t.length := by simpa using h
        have hmem : ∀ x ∈ t, x ∈ heard once (a :: b :: t) ↔ x ∈ heard once t := by
          intro x hx
          rw [hh, List.mem_cons]
          exact or_iff_right (fun h => ha (by rw [← h]; simp [hx]))
        have hik := heard_iff once hnd2 hk
        simp only [List.getElem_cons_succ]
        rw [hmem _ (List.getElem_mem hk), hik]
        constructor
        · intro g j hj
          obtain rfl : j = k + 1 := by omega
          cases k with
          | zero => exact fun hc => hbn hc.1
          | succ k =>
            simp only [List.getElem_cons_succ]
            rw [hmem _ (List.getElem_mem _)]
            exact g k rfl
        · intro g j hj
          subst hj
          have := g (j + 2) rfl
          simp only [List.getElem_cons_succ] at this
          rwa [hmem _ (List.getElem_mem _)] at this
    · have hh : heard once (a :: b :: t) = a :: heard once (b :: t) := by simp [heard, ho]
      have hmem : ∀ x ∈ b :: t, x ∈ heard once (a :: b :: t) ↔ x ∈ heard once (b :: t) := by
        intro x hx
        rw [hh, List.mem_cons]
        exact or_iff_right (fun h => ha (by rw [← h]; exact hx))
      match i with
      | 0 => simp [hh]
      | k + 1 =>
        have hk : k < (b :: t).length := by simpa using h
        have hik := heard_iff once hnd1 hk
        simp only [List.getElem_cons_succ (as := b :: t)]
        rw [hmem _ (List.getElem_mem hk), hik]
        constructor
        · intro g j hj
          obtain rfl : j = k := by omega
          cases j with
          | zero => exact fun hc => ho hc.2
          | succ k =>
            simp only [List.getElem_cons_succ (as := b :: t)]
            rw [hmem _ (List.getElem_mem _)]
            exact g k rfl
        · intro g j hj
          subst hj
          have := g (j + 1) rfl
          simp only [List.getElem_cons_succ (as := b :: t)] at this
          rwa [hmem _ (List.getElem_mem _)] at this

theorem left_eq (once : Nat → Bool) : ∀ {L : List Nat}, L.Nodup → left once L = L.filter fun o => !(decide (o ∈ heard once L) && once o)
  | [], _ => rfl
  | [a], _ => by by_cases h : once a = true <;> simp [left, heard, h]
  | a :: b :: t, hnd => by
    have hnd1 : (b :: t).Nodup := (List.nodup_cons.mp hnd).2
    have ha : a ∉ b :: t := (List.nodup_cons.mp hnd).1
    have hb : b ∉ t := (List.nodup_cons.mp hnd1).1
    by_cases ho : once a = true
    · have hh : heard once (a :: b :: t) = a :: heard once t := by simp [heard, ho]
      have hbn : b ∉ heard once t := fun h => hb ((heard_sublist once t).subset h)
      have hba : b ≠ a := fun h => ha (by simp [h])
      have hl : left once (a :: b :: t) = b :: left once t := by simp [left, ho]
      rw [hl, left_eq once (List.nodup_cons.mp hnd1).2, hh]
      simp only [List.filter_cons]
      simp only [List.mem_cons, true_or, decide_true, ho, Bool.and_self, Bool.not_true, Bool.false_eq_true, if_false, hba, hbn, or_self, decide_false,
        Bool.false_and, Bool.not_false, if_true]
      congr 1
      apply List.filter_congr
      intro x hx
      have : x ≠ a := fun h => ha (by rw [← h]; simp [hx])
      simp [this]
    · have hh : heard once (a :: b :: t) = a :: heard once (b :: t) := by simp [heard, ho]
      have hl : left once (a :: b :: t) = a :: left once (b :: t) := by simp [left, ho]
      have ho' : once a = false := by simpa using ho
      rw [hl, left_eq once hnd1, hh, List.filter_cons (x := a)]
      simp only [ho', Bool.and_false, Bool.not_false, if_true]
      congr 1
      apply List.filter_congr
      intro x hx
      have : x ≠ a := fun h => ha (by rw [← h]; exact hx)
      simp [this]

/-- **C109**: some observers detach themselves when they are notified, the others change nothing.  An observer is called unless the one before it was
called and left.  Those that were called and leave are gone afterwards, the others are attached as before. -/
theorem C109_self_detach {once : Nat → Bool} (h1 : ∀ o, once o = true → ∀ st, react o m st = detachObs s o st)
    (h0 : ∀ o, once o = false → ∀ st, react o m st = .ok st) {st : SubjSt} (hnd : (st.lists (st.subj s).observers).Nodup)
    {fuel : Nat} (hf : (st.lists (st.subj s).observers).length < fuel) :
    ∃ (C : List Nat) (st' : SubjSt), notifyR react s m fuel st = .ok (C.map fun o => (o, (st.subj s).rootSender, m), st') ∧
      C.Sublist (st.lists (st.subj s).observers) ∧
      (∀ i, (h : i < (st.lists (st.subj s).observers).length) → ((st.lists (st.subj s).observers)[i] ∈ C ↔
        ∀ j, (hj : j + 1 = i) → ¬ ((st.lists (st.subj s).observers)[j] ∈ C ∧ once (st.lists (st.subj s).observers)[j] = true))) ∧
      st'.lists (st'.subj s).observers = (st.lists (st.subj s).observers).filter fun o => !(decide (o ∈ C) && once o) := by
  obtain ⟨st', g1, g2, g3⟩ := notifyLoop_once (s := s) (m := m) (once := once) h1 h0 (pre := []) (suf := st.lists (st.subj s).observers) (st := st) rfl rfl
    hnd hf
  refine ⟨_, st', g1, heard_sublist _ _, fun i h => heard_iff _ hnd h, ?_⟩
  rw [g3, g2, List.nil_append, left_eq _ hnd]

/-- C109: if every observer detaches itself, exactly those at even positions are called, and the others stay attached. -/
theorem C109_every_other (h1 : ∀ o st, react o m st = detachObs s o st) {st : SubjSt} (hnd : (st.lists (st.subj s).observers).Nodup)
    {fuel : Nat} (hf : (st.lists (st.subj s).observers).length < fuel) :
    ∃ (C : List Nat) (st' : SubjSt), notifyR react s m fuel st = .ok (C.map fun o => (o, (st.subj s).rootSender, m), st') ∧
      C.Sublist (st.lists (st.subj s).observers) ∧
      (∀ i, (h : i < (st.lists (st.subj s).observers).length) → ((st.lists (st.subj s).observers)[i] ∈ C ↔ i % 2 = 0)) ∧
      st'.lists (st'.subj s).observers = (st.lists (st.subj s).observers).filter fun o => !decide (o ∈ C) := by
  obtain ⟨C, st', g1, g2, g3, g4⟩ := C109_self_detach (s := s) (m := m) (once := fun _ => true) (fun o _ st => h1 o st) (fun o h => by cases h) hnd hf
  refine ⟨C, st', g1, g2, ?_, by simpa using g4⟩
  intro i
  induction i with
  | zero => intro h; rw [g3 0 h]; simp
  | succ i ih =>
    intro h
    rw [g3 (i + 1) h]
    have := ih (by omega)
    constructor
    · intro hall
      have h2 := hall i rfl
      rw [this] at h2
      simp at h2
      omega
    · intro hm j hj
      obtain rfl : j = i := by omega
      rw [this]
      simp
      omega

/-! ### Observers that attach observers -/

theorem notifyLoop_forever {a : Nat} (h1 : ∀ st, react a m st = .ok (attachObs s a st)) (h0 : ∀ o, o ≠ a → ∀ st, react o m st = .ok st) :
    ∀ {fuel i : Nat} {st : SubjSt}, (st.subj s).observers = l → a ∈ (st.lists l).drop i → notifyLoop react s l m fuel i st = .error .fuel := by
  intro fuel
  induction fuel with
  | zero => intro i st _ _; rfl
  | succ fuel ih =>
    intro i st hl ha
    have hlt : i < (st.lists l).length := by
      by_contra hc
      rw [List.drop_eq_nil_of_le (by omega)] at ha
      simp at ha
    unfold notifyLoop
    rw [List.getElem?_eq_getElem hlt]
    simp only
    by_cases ho : (st.lists l)[i] = a
    · rw [ho]
      simp only [h1]
      rw [ih]
      · rw [(attachObs_self s a st).1]; exact hl
      · have := attachObs_lists s a st
        rw [hl] at this
        rw [this, List.drop_append_of_le_length (by omega)]
        simp
    · simp only [h0 _ ho]
      rw [ih hl]
      rw [List.drop_eq_getElem_cons hlt] at ha
      rcases List.mem_cons.mp ha with h | h
      · exact absurd h.symm ho
      · exact h

/-- C109: if an attached observer attaches itself again whenever it is notified, `notify_observers` never ends. -/
theorem C109_forever {a : Nat} (h1 : ∀ st, react a m st = .ok (attachObs s a st)) (h0 : ∀ o, o ≠ a → ∀ st, react o m st = .ok st)
    {st : SubjSt} (ha : a ∈ st.lists (st.subj s).observers) (fuel : Nat) : notifyR react s m fuel st = .error .fuel :=
  notifyLoop_forever h1 h0 rfl (by simpa using ha)

theorem notifyLoop_attach {a b : Nat} (hab : b ≠ a) (h1 : ∀ st, react a m st = .ok (attachObs s b st)) (h0 : ∀ o, o ≠ a → ∀ st, react o m st = .ok st) :
    ∀ {fuel i : Nat} {st : SubjSt}, (st.subj s).observers = l → (st.lists l).length + ((st.lists l).drop i).count a - i < fuel → i ≤ (st.lists l).length →
      ∃ st', notifyLoop react s l m fuel i st =
        .ok (((st.lists l).drop i ++ List.replicate (((st.lists l).drop i).count a) b).map fun o => (o, (st.subj s).rootSender, m), st') ∧
        st'.lists l = st.lists l ++ List.replicate (((st.lists l).drop i).count a) b ∧ (st'.subj s).observers = l := by
  intro fuel
  induction fuel with
  | zero => intro i st _ h; omega
  | succ fuel ih =>
    intro i st hl hf hi
    unfold notifyLoop
    by_cases hlt : i < (st.lists l).length
    · rw [List.getElem?_eq_getElem hlt]
      have hdrop := List.drop_eq_getElem_cons hlt
      simp only
      by_cases ho : (st.lists l)[i] = a
      · rw [ho]
        simp only [h1]
        have hl2 := attachObs_lists s b st
        obtain ⟨ho2, hs2⟩ := attachObs_self s b st
        rw [hl] at hl2 ho2
        have hd2 : ((attachObs s b st).lists l).drop (i + 1) = (st.lists l).drop (i + 1) ++ [b] := by
          rw [hl2, List.drop_append_of_le_length (by omega)]
        have hc2 : (((attachObs s b st).lists l).drop (i + 1)).count a = ((st.lists l).drop (i + 1)).count a := by
          rw [hd2, List.count_append, List.count_singleton]
          simp [hab]
        have hc : ((st.lists l).drop i).count a = ((st.lists l).drop (i + 1)).count a + 1 := by
          rw [hdrop, ho, List.count_cons_self]
        obtain ⟨st2, g1, g2, g3⟩ := ih (i := i + 1) (st := attachObs s b st) ho2
          (by rw [hc2, hl2, List.length_append, List.length_singleton]; rw [hc] at hf; omega)
          (by rw [hl2, List.length_append]; omega)
        refine ⟨st2, ?_, ?_, g3⟩
        · simp only [g1]
          rw [hs2, hc2, hd2, hc, hdrop, ho, List.replicate_succ]
          simp
        · rw [g2, hc2, hl2, hc, List.replicate_succ]
          simp
      · simp only [h0 _ ho]
        have hc : ((st.lists l).drop i).count a = ((st.lists l).drop (i + 1)).count a := by
          rw [hdrop, List.count_cons_of_ne ho]
        obtain ⟨st2, g1, g2, g3⟩ := ih (i := i + 1) (st := st) hl (by rw [hc] at hf; omega) (by omega)
        refine ⟨st2, ?_, by rw [g2, hc], g3⟩
        simp only [g1]
        rw [hc, hdrop]
        rfl
    · rw [List.getElem?_eq_none (by omega), List.drop_eq_nil_of_le (by omega)]
      exact ⟨st, by simp, by simp, hl⟩

/-- C109: an observer `b` that is attached by another one while a message is sent gets this message too, after all the others, as often as it was
attached. -/
theorem C109_attach {a b : Nat} (hab : b ≠ a) (h1 : ∀ st, react a m st = .ok (attachObs s b st)) (h0 : ∀ o, o ≠ a → ∀ st, react o m st = .ok st)
    {st : SubjSt} {fuel : Nat} (hf : 2 * (st.lists (st.subj s).observers).length < fuel) :
    ∃ st', notifyR react s m fuel st = .ok (notifyObs s m st ++ List.replicate ((st.lists (st.subj s).observers).count a) (b, (st.subj s).rootSender, m), st') ∧
      st'.lists (st'.subj s).observers = st.lists (st.subj s).observers ++ List.replicate ((st.lists (st.subj s).observers).count a) b := by
  obtain ⟨st', g1, g2, g3⟩ := notifyLoop_attach (s := s) (m := m) hab h1 h0 (fuel := fuel) (i := 0) (st := st) rfl
    (by have := List.count_le_length (a := a) (l := st.lists (st.subj s).observers); simp only [List.drop_zero]; omega) (by omega)
  refine ⟨st', ?_, ?_⟩
  · unfold notifyR
    rw [g1]
    simp [notifyObs]
  · rw [g3, g2]; simp

/-- Three observers, each of which detaches itself: the second one is not called and stays. -/
example : let st := attachObs 0 3 (attachObs 0 2 (attachObs 0 1 SubjSt.fresh))
    ∃ st', notifyR (fun o (_ : Unit) st => detachObs 0 o st) 0 () 10 st = .ok ([(1, 0, ()), (3, 0, ())], st') ∧ st'.lists 0 = [2] :=
  ⟨_, rfl, rfl⟩

end Foronoi
