import Verif.Proof.CircStep

/-!
# The event queue invariant
-/

namespace Foronoi

open scoped List

variable {K : Type} [LinearOrder K] [Arith K] {E : Err → Prop}

/-- The event `ev` (number `c`) describes an arc that is still on the beach line, between the same neighbours. -/
def EvOk (pts : Nat → K × K) (arcs : Nat → ArcR) (L : List (Item Dat)) (c : Nat) (ev : CevR K) : Prop :=
  ∃ A n a B t, L = A ++ ⟨n, true, .arc a⟩ :: B ∧ (arcs a).cev = some c ∧
    tripleAt (fun a => (arcs a).origin) A a B = some t ∧ mkEv pts n t = some ev

/-- The invariant of the circle events in the queue. -/
structure QInv (pts : Nat → K × K) (ok : List (QE K) → Prop) (s : St K) (L : List (Item Dat)) : Prop where
  ok : ok s.queue
  nd : (s.queue.map (fun e => (e.circ, e.ref))).Nodup
  lt : ∀ e ∈ s.queue, e.circ = true → e.ref < s.evCnt
  qe : ∀ e ∈ s.queue, e.circ = true → e = cevQE (s.evs e.ref) e.ref
  ev : ∀ e ∈ s.queue, e.circ = true → (s.evs e.ref).valid = true → EvOk pts s.arcs L e.ref (s.evs e.ref)
  cevLt : ∀ a c, (s.arcs a).cev = some c → c < s.evCnt
  cevInj : ∀ a a' c, (s.arcs a).cev = some c → (s.arcs a').cev = some c → a = a'
  fresh : ∀ a, s.arcCnt ≤ a → (s.arcs a).cev = none

/-- No valid event of the queue belongs to arc `a`. -/
def NoEv (s : St K) (a : Nat) : Prop :=
  ∀ e ∈ s.queue, e.circ = true → (s.evs e.ref).valid = true → (s.arcs a).cev ≠ some e.ref

theorem mkEv_valid {pts : Nat → K × K} {n : Nat} {t : Nat × Nat × Nat} {ev : CevR K}
    (h : mkEv pts n t = some ev) : ev.valid = true ∧ ev.triple = t ∧ ev.arcPtr = n := by
  unfold mkEv at h
  split at h
  · split at h
    · simp only [Option.some.injEq] at h; rw [← h]; simp
    · cases h
  · cases h

theorem tripleAt_congr {og og' : Nat → Nat} {A A' B B' : List (Item Dat)} {a : Nat}
    (h1 : (origs og' A').getLast? = (origs og A).getLast?) (h2 : (origs og' B').head? = (origs og B).head?)
    (h3 : og' a = og a) : tripleAt og' A' a B' = tripleAt og A a B := by
  unfold tripleAt
  rw [h1, h2, h3]

variable {pts : Nat → K × K} {q : PQ (QE K)} {ok : List (QE K) → Prop}

theorem QInv.addEv {s : St K} {L : List (Item Dat)} (h : QInv pts ok s L) (hq : q.Spec evLt ok)
    {A B : List (Item Dat)} {n a : Nat} {t : Nat × Nat × Nat} {ev : CevR K}
    (hL : L = A ++ ⟨n, true, .arc a⟩ :: B) (ha : a < s.arcCnt) (ht : tripleAt s.og A a B = some t)
    (hev : mkEv pts n t = some ev) (hno : NoEv s a) :
    QInv pts ok (addEv q a s ev) L := by
  have hperm := hq.push_perm (cevQE ev s.evCnt) s.queue h.ok
  have hog : (fun x => ((Function.update s.arcs a { s.arcs a with cev := some s.evCnt }) x).origin) = s.og := by
    funext x
    by_cases hx : x = a
    · subst hx; simp
    · simp [Function.update_of_ne hx]
  have hmem : ∀ e ∈ q.push (cevQE ev s.evCnt) s.queue, e = cevQE ev s.evCnt ∨ e ∈ s.queue := by
    intro e he; simpa using hperm.mem_iff.mp he
  refine ⟨hq.push_ok _ _ h.ok, ?_, ?_, ?_, ?_, ?_, ?_, ?_⟩
  · have := (hperm.map (fun e => (e.circ, e.ref))).nodup_iff
    refine this.mpr ?_
    rw [List.map_cons, List.nodup_cons]
    refine ⟨?_, h.nd⟩
    rw [List.mem_map]
    rintro ⟨e, he, heq⟩
    simp only [cevQE, Prod.mk.injEq] at heq
    have := h.lt e he heq.1
    omega
  · intro e he hc
    rcases hmem e he with rfl | he
    · simp [Foronoi.addEv, cevQE]
    · have := h.lt e he hc
      simp only [Foronoi.addEv]; omega
  · intro e he hc
    rcases hmem e he with rfl | he
    · simp [Foronoi.addEv, cevQE]
    · have := h.lt e he hc
      have h' := h.qe e he hc
      simp only [Foronoi.addEv]
      rw [Function.update_of_ne (by omega)]
      exact h'
  · intro e he hc hv
    rcases hmem e he with rfl | he
    · simp only [Foronoi.addEv, cevQE, Function.update_self]
      exact ⟨A, n, a, B, t, hL, by simp, by rw [hog]; exact ht, hev⟩
    · have hlt := h.lt e he hc
      simp only [Foronoi.addEv] at hv ⊢
      rw [Function.update_of_ne (by omega)] at hv ⊢
      obtain ⟨A', n', a', B', t', g1, g2, g3, g4⟩ := h.ev e he hc hv
      have hne : a' ≠ a := by
        intro hh
        exact hno e he hc hv (hh ▸ g2)
      exact ⟨A', n', a', B', t', g1, by rw [Function.update_of_ne hne]; exact g2, by rw [hog]; exact g3, g4⟩
  · intro x c hc
    simp only [Foronoi.addEv] at hc ⊢
    by_cases hx : x = a
    · subst hx; simp at hc; omega
    · rw [Function.update_of_ne hx] at hc
      have := h.cevLt x c hc; omega
  · intro x y c hx hy
    simp only [Foronoi.addEv] at hx hy
    by_cases gx : x = a <;> by_cases gy : y = a
    · rw [gx, gy]
    · rw [Function.update_of_ne gy] at hy; subst gx; simp at hx
      have := h.cevLt y c hy; omega
    · rw [Function.update_of_ne gx] at hx; subst gy; simp at hy
      have := h.cevLt x c hx; omega
    · rw [Function.update_of_ne gx] at hx; rw [Function.update_of_ne gy] at hy
      exact h.cevInj x y c hx hy
  · intro x hx
    simp only [Foronoi.addEv] at hx ⊢
    rw [Function.update_of_ne (by omega)]
    exact h.fresh x hx

theorem NoEv.addEv {s : St K} {L : List (Item Dat)} (h : QInv pts ok s L) (hq : q.Spec evLt ok) {a a' : Nat} {ev : CevR K}
    (hne : a' ≠ a) (hno : NoEv s a') : NoEv (addEv q a s ev) a' := by
  have hperm := hq.push_perm (cevQE ev s.evCnt) s.queue h.ok
  intro e he hc hv
  simp only [Foronoi.addEv] at hv he ⊢
  rw [Function.update_of_ne hne]
  rcases List.mem_cons.mp (hperm.mem_iff.mp he) with rfl | he
  · intro hcev
    have := h.cevLt _ _ hcev
    simp [cevQE] at this
  · have := h.lt e he hc
    rw [Function.update_of_ne (by omega)] at hv
    exact hno e he hc hv

theorem addOpt_og (q : PQ (QE K)) (a : Nat) (s : St K) (o : Option (CevR K)) : (addOpt q a s o).og = s.og := by
  cases o with
  | none => rfl
  | some ev =>
    funext x
    simp only [addOpt, St.og, addEv]
    by_cases hx : x = a
    · subst hx; simp
    · simp [Function.update_of_ne hx]

theorem QInv.addOpt {s : St K} {L : List (Item Dat)} (h : QInv pts ok s L) (hq : q.Spec evLt ok)
    {A B : List (Item Dat)} {n a : Nat} {o : Option (CevR K)}
    (hL : L = A ++ ⟨n, true, .arc a⟩ :: B) (ha : a < s.arcCnt)
    (ho : ∀ ev, o = some ev → (tripleAt s.og A a B).bind (mkEv pts n) = some ev) (hno : NoEv s a) :
    QInv pts ok (addOpt q a s o) L := by
  cases o with
  | none => exact h
  | some ev =>
    obtain ⟨t, h1, h2⟩ := Option.bind_eq_some_iff.mp (ho ev rfl)
    exact h.addEv hq hL ha h1 h2 hno

theorem dropRight_some {le re : Option (CevR K)} {ev : CevR K} (h : dropRight le re = some ev) : re = some ev := by
  unfold dropRight at h
  split at h
  · split at h
    · exact h
    · cases h
  · exact h

/-- `_check_circles` keeps the queue invariant. -/
theorem QInv.checkAdd {s : St K} {L : List (Item Dat)} (h : QInv pts ok s L) (hq : q.Spec evLt ok)
    {A B C D : List (Item Dat)} {n m al ar : Nat}
    (h1 : L = A ++ ⟨n, true, .arc al⟩ :: B) (h2 : L = C ++ ⟨m, true, .arc ar⟩ :: D) (hal : al < s.arcCnt) (har : ar < s.arcCnt)
    (hne : al ≠ ar) (hno1 : NoEv s al) (hno2 : NoEv s ar) :
    QInv pts ok (checkAdd q al ar ((tripleAt s.og A al B).bind (mkEv pts n)) ((tripleAt s.og C ar D).bind (mkEv pts m)) s) L := by
  unfold Foronoi.checkAdd
  have h' := h.addOpt hq (o := (tripleAt s.og A al B).bind (mkEv pts n)) h1 hal (fun ev hev => hev) hno1
  refine h'.addOpt hq h2 (by simpa using har) ?_ ?_
  · intro ev hev
    rw [addOpt_og]
    exact dropRight_some hev
  · cases hle : (tripleAt s.og A al B).bind (mkEv pts n) with
    | none => exact hno2
    | some ev => exact NoEv.addEv h hq hne.symm hno2

/-- The new queue: the old one and at most two circle events. -/
theorem checkAdd_queue {s : St K} (hq : q.Spec evLt ok) (hok : ok s.queue) (al ar : Nat) (le re : Option (CevR K)) :
    ∃ X : List (QE K), (checkAdd q al ar le re s).queue ~ X ++ s.queue ∧ X.length ≤ 2 ∧ ∀ e ∈ X, e.circ = true := by
  have one : ∀ (s : St K) a o, ok s.queue → ok (addOpt q a s o).queue ∧
      ∃ X : List (QE K), (addOpt q a s o).queue ~ X ++ s.queue ∧ X.length ≤ 1 ∧ ∀ e ∈ X, e.circ = true := by
    intro s a o hok
    cases o with
    | none => exact ⟨hok, [], List.Perm.refl _, by simp, by simp⟩
    | some ev =>
      refine ⟨hq.push_ok _ _ hok, [cevQE ev s.evCnt], ?_, by simp, by simp [cevQE]⟩
      exact hq.push_perm _ _ hok
  obtain ⟨h1, X, hX, hl, hc⟩ := one s al le hok
  obtain ⟨h2, Y, hY, hl', hc'⟩ := one _ ar (dropRight le re) h1
  refine ⟨Y ++ X, ?_, by simp; omega, ?_⟩
  · refine hY.trans ?_
    rw [List.append_assoc]
    exact List.Perm.append_left Y hX
  · intro e he
    rcases List.mem_append.mp he with h | h
    · exact hc' e h
    · exact hc e h

theorem checkAdd_og (al ar : Nat) (le re : Option (CevR K)) (s : St K) : (checkAdd q al ar le re s).og = s.og := by
  unfold checkAdd; rw [addOpt_og, addOpt_og]

section fields
variable (al ar : Nat) (le re : Option (CevR K)) (s : St K)
@[simp] theorem checkAdd_ns : (checkAdd q al ar le re s).ns = s.ns := by simp [checkAdd]
@[simp] theorem checkAdd_d : (checkAdd q al ar le re s).d = s.d := by simp [checkAdd]
@[simp] theorem checkAdd_bps : (checkAdd q al ar le re s).bps = s.bps := by simp [checkAdd]
@[simp] theorem checkAdd_bpCnt : (checkAdd q al ar le re s).bpCnt = s.bpCnt := by simp [checkAdd]
@[simp] theorem checkAdd_arcCnt : (checkAdd q al ar le re s).arcCnt = s.arcCnt := by simp [checkAdd]
@[simp] theorem checkAdd_names : (checkAdd q al ar le re s).names = s.names := by simp [checkAdd]
@[simp] theorem checkAdd_nextName : (checkAdd q al ar le re s).nextName = s.nextName := by simp [checkAdd]
@[simp] theorem checkAdd_root : (checkAdd q al ar le re s).root = s.root := by simp [checkAdd]
@[simp] theorem checkAdd_sweep : (checkAdd q al ar le re s).sweep = s.sweep := by simp [checkAdd]
@[simp] theorem checkAdd_arcSet : (checkAdd q al ar le re s).arcSet = s.arcSet := by simp [checkAdd]
@[simp] theorem checkAdd_edges : (checkAdd q al ar le re s).edges = s.edges := by simp [checkAdd]
@[simp] theorem checkAdd_verts : (checkAdd q al ar le re s).verts = s.verts := by simp [checkAdd]
@[simp] theorem checkAdd_polyVerts : (checkAdd q al ar le re s).polyVerts = s.polyVerts := by simp [checkAdd]
@[simp] theorem checkAdd_event : (checkAdd q al ar le re s).event = s.event := by simp [checkAdd]
end fields

/-- Two different elements of a list, in one order or the other. -/
theorem two_splits {α : Type} {L A B C D : List α} {x y : α} (h1 : L = A ++ x :: B) (h2 : L = C ++ y :: D) (hne : x ≠ y) :
    (∃ M, C = A ++ x :: M ∧ B = M ++ y :: D) ∨ (∃ M, A = C ++ y :: M ∧ D = M ++ x :: B) := by
  rw [h1, List.append_eq_append_iff] at h2
  rcases h2 with ⟨M, h3, h4⟩ | ⟨M, h3, h4⟩
  · cases M with
    | nil => simp only [List.nil_append, List.cons.injEq] at h4; exact absurd h4.1 hne
    | cons z M =>
      simp only [List.cons_append, List.cons.injEq] at h4
      exact Or.inl ⟨M, by rw [h3, h4.1], h4.2⟩
  · cases M with
    | nil => simp only [List.nil_append, List.cons.injEq] at h4; exact absurd h4.1.symm hne
    | cons z M =>
      simp only [List.cons_append, List.cons.injEq] at h4
      exact Or.inr ⟨M, by rw [h3, h4.1], h4.2⟩

theorem head?_app {α : Type} (A B C : List α) (h : B.head? = C.head?) : (A ++ B).head? = (A ++ C).head? := by
  cases A <;> simp [h]

theorem getLast?_app {α : Type} (A B C : List α) (h : B.getLast? = C.getLast?) : (B ++ A).getLast? = (C ++ A).getLast? := by
  rw [List.getLast?_append, List.getLast?_append, h]

/-- An event stays right when a part of the beach line away from its arc is replaced by a part with the same first and last
site. -/
theorem EvOk.replace {arcs arcs' : Nat → ArcR} {pre post Y Y' : List (Item Dat)} {c : Nat} {ev : CevR K}
    (h : EvOk pts arcs (pre ++ (Y ++ post)) c ev)
    (hY : ∀ n a, (⟨n, true, .arc a⟩ : Item Dat) ∈ Y → (arcs a).cev ≠ some c)
    (hYne : Y ≠ [])
    (harcs : ∀ x ∈ pre ++ post, ∀ a, x.d = .arc a → (arcs' a) = (arcs a))
    (hog : ∀ x ∈ Y, ∀ a, x.d = .arc a → (arcs' a).origin = (arcs a).origin)
    (hh : (origs (fun a => (arcs' a).origin) Y').head? = (origs (fun a => (arcs a).origin) Y).head?)
    (hl : (origs (fun a => (arcs' a).origin) Y').getLast? = (origs (fun a => (arcs a).origin) Y).getLast? ∨ post = []) :
    EvOk pts arcs' (pre ++ (Y' ++ post)) c ev := by
  obtain ⟨A, n, a, B, t, h1, h2, h3, h4⟩ := h
  have hcong : ∀ Z : List (Item Dat), (∀ x ∈ Z, x ∈ pre ++ post) →
      origs (fun a => (arcs' a).origin) Z = origs (fun a => (arcs a).origin) Z := by
    intro Z hZ
    exact origs_congr fun x hx a ha => by rw [harcs x (hZ x hx) a ha]
  -- where is the arc
  rw [List.append_eq_append_iff] at h1
  have hcases : (∃ M, pre = A ++ ⟨n, true, .arc a⟩ :: M ∧ B = M ++ (Y ++ post)) ∨
      (∃ M, A = pre ++ Y ++ M ∧ post = M ++ ⟨n, true, .arc a⟩ :: B) := by
    rcases h1 with ⟨M, h5, h6⟩ | ⟨M, h5, h6⟩
    · -- A = pre ++ M, Y ++ post = M ++ x :: B
      rw [List.append_eq_append_iff] at h6
      rcases h6 with ⟨N, h7, h8⟩ | ⟨N, h7, h8⟩
      · exact Or.inr ⟨N, by rw [h5, h7, List.append_assoc], h8⟩
      · cases N with
        | nil =>
          simp only [List.nil_append] at h8
          simp only [List.append_nil] at h7
          exact Or.inr ⟨[], by rw [h5, h7]; simp, by simp [h8]⟩
        | cons z N =>
          simp only [List.cons_append, List.cons.injEq] at h8
          exact absurd h2 (hY n a (by rw [h7, ← h8.1]; simp))
    · -- pre = A ++ M, x :: B = M ++ (Y ++ post)
      cases M with
      | nil =>
        simp only [List.nil_append] at h6
        cases Y with
        | nil => exact absurd rfl hYne
        | cons z Y =>
          simp only [List.cons_append, List.cons.injEq] at h6
          exact absurd h2 (hY n a (by rw [← h6.1]; simp))
      | cons z M =>
        simp only [List.cons_append, List.cons.injEq] at h6
        exact Or.inl ⟨M, by rw [h5, ← h6.1], h6.2⟩
  rcases hcases with ⟨M, rfl, rfl⟩ | ⟨M, rfl, rfl⟩
  · have ha := harcs ⟨n, true, .arc a⟩ (by simp) a rfl
    refine ⟨A, n, a, M ++ (Y' ++ post), t, by simp, by rw [ha]; exact h2, ?_, h4⟩
    rw [← h3]
    refine tripleAt_congr ?_ ?_ (by rw [ha])
    · rw [hcong]; intro x hx; simp [hx]
    · simp only [origs_append]
      rw [hcong M (by intro x hx; simp [hx]), hcong post (by intro x hx; simp [hx])]
      refine head?_app _ _ _ ?_
      rw [List.head?_append, List.head?_append, hh]
  · have ha := harcs ⟨n, true, .arc a⟩ (by simp) a rfl
    refine ⟨pre ++ Y' ++ M, n, a, B, t, by simp, by rw [ha]; exact h2, ?_, h4⟩
    rcases hl with hl | hl
    · rw [← h3]
      refine tripleAt_congr ?_ ?_ (by rw [ha])
      · simp only [origs_append]
        rw [hcong M (by intro x hx; simp [hx]), hcong pre (by intro x hx; simp [hx])]
        refine getLast?_app _ _ _ ?_
        rw [List.getLast?_append, List.getLast?_append, hl]
      · rw [hcong]; intro x hx; simp [hx]
    · simp at hl

theorem killEv_valid {evs : Nat → CevR K} {o : Option Nat} {c : Nat} (h : (killEv evs o c).valid = true) :
    o ≠ some c ∧ killEv evs o c = evs c := by
  cases o with
  | none => exact ⟨by simp, rfl⟩
  | some d =>
    simp only [killEv] at h ⊢
    by_cases hd : c = d
    · subst hd; simp at h
    · rw [Function.update_of_ne hd]
      exact ⟨by simpa using Ne.symm hd, rfl⟩

theorem killEv_qe (evs : Nat → CevR K) (o : Option Nat) (c r : Nat) : cevQE (killEv evs o c) r = cevQE (evs c) r := by
  cases o with
  | none => rfl
  | some d =>
    simp only [killEv]
    by_cases hd : c = d
    · subst hd; simp [cevQE]
    · rw [Function.update_of_ne hd]

theorem killEv_isValid (evs : Nat → CevR K) (o : Option Nat) (c : Nat) :
    (killEv evs o c).valid = true ↔ o ≠ some c ∧ (evs c).valid = true := by
  cases o with
  | none => simp [killEv]
  | some d =>
    simp only [killEv, Function.update_apply]
    split
    · rename_i h; simp [h]
    · rename_i h; simp [Ne.symm h]

end Foronoi
