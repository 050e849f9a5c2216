import Verif.Spec.Sweep
import Verif.Proof.Run

/-!
# From the invariants to the specification
-/

namespace Foronoi

open scoped List

variable {K : Type} [LinearOrder K] [Arith K]
variable {pts : Nat → K × K} {q : PQ (QE K)} {ok : List (QE K) → Prop} {n : Nat} {poly : Poly K}

theorem evLt_site_false {a b : Nat} (h : evLt (siteQE pts a) (siteQE pts b) = false) : ¬ Before (pts a) (pts b) := by
  unfold evLt siteQE at h
  intro hb
  rcases hb with hb | ⟨h1, h2⟩
  · have h1 : ¬ (pts a).2 = (pts b).2 := fun hh => by rw [hh] at hb; exact lt_irrefl _ hb
    simp [h1] at h
    exact absurd hb (not_lt_of_ge h)
  · simp [h1, ne_of_lt h2] at h
    exact absurd h2 (not_lt_of_ge h)

/-- The nodes and arcs of the leaves. -/
def lvs (L : List (Item Dat)) : List (Nat × Nat) :=
  L.filterMap fun x => match x with
    | ⟨i, _, .arc a⟩ => some (i, a)
    | _ => none

@[simp] theorem lvs_append (A B : List (Item Dat)) : lvs (A ++ B) = lvs A ++ lvs B := by simp [lvs]

@[simp] theorem lvs_arc (i a : Nat) (f : Bool) (A : List (Item Dat)) : lvs (⟨i, f, .arc a⟩ :: A) = (i, a) :: lvs A := by simp [lvs]

@[simp] theorem lvs_bp (i b : Nat) (f : Bool) (A : List (Item Dat)) : lvs (⟨i, f, .bp b⟩ :: A) = lvs A := by
  unfold lvs; exact List.filterMap_cons_none rfl

@[simp] theorem lvs_nil : lvs [] = [] := rfl

/-- Breakpoints carry the sites of their two neighbours. -/
def PairsOk (og : Nat → Nat) (pr : Nat → Nat × Nat) (L : List (Item Dat)) : Prop :=
  ∀ A m b B, L = A ++ ⟨m, false, .bp b⟩ :: B → ∃ A' n a n' a' B', A = A' ++ [⟨n, true, .arc a⟩] ∧ B = ⟨n', true, .arc a'⟩ :: B' ∧
    pr b = (og a, og a')

/-- Kinds of entries. -/
def KindsOk (L : List (Item Dat)) : Prop :=
  ∀ x ∈ L, (∃ a, x.lf = true ∧ x.d = .arc a) ∨ (∃ b, x.lf = false ∧ x.d = .bp b)

theorem BOk.kindsOk {og : Nat → Nat} {pr : Nat → Nat × Nat} {aC bC : Nat} {L : List (Item Dat)} (h : BOk og pr aC bC L) : KindsOk L := by
  intro x hx
  rcases h.kind x hx with ⟨a, h1, h2, _⟩ | ⟨b, h1, h2, _⟩
  · exact Or.inl ⟨a, h1, h2⟩
  · exact Or.inr ⟨b, h1, h2⟩

theorem BOk.pairsOk {og : Nat → Nat} {pr : Nat → Nat × Nat} {aC bC : Nat} {L : List (Item Dat)} (h : BOk og pr aC bC L) :
    PairsOk og pr L := by
  intro A m b B hL
  rw [hL] at h
  obtain ⟨pre', n, a, n', a', post', h1, h2, h3⟩ := h.bp_cases
  exact ⟨pre', n, a, n', a', post', h1, h2, h3⟩

theorem T.last_lf (t : T Dat) : t.last.lf = true := by
  induction t with
  | leaf => rfl
  | node _ _ _ _ _ ih => exact ih

theorem T.first_lf (t : T Dat) : t.first.lf = true := by
  induction t with
  | leaf => rfl
  | node _ _ _ _ ih _ => exact ih

theorem beachTree_of_repr {ns : Nat → NodeR Dat} {arcs : Nat → ArcR} {bps : Nat → BpR} {t : T Dat} :
    ∀ {p : Option Nat} {A B : List (Item Dat)}, Repr ns p t → KindsOk t.io →
      PairsOk (fun a => (arcs a).origin) (fun b => (bps b).pair) (A ++ t.io ++ B) →
      BeachTree ns arcs bps p t.id t.ids (origs (fun a => (arcs a).origin) t.io) := by
  induction t with
  | leaf i d =>
    intro p A B hr hk hb
    obtain ⟨h1, h2, h3, h4⟩ := hr
    rcases hk ⟨i, true, d⟩ (by simp [T.io]) with ⟨a, _, ha⟩ | ⟨b, hf, _⟩
    · simp only at ha; subst ha
      exact .leaf h4 h2 h3 h1
    · cases hf
  | node i d l r ihl ihr =>
    intro p A B hr hk hb
    obtain ⟨h1, h2, h3, h4, h5, h6⟩ := hr
    rcases hk ⟨i, false, d⟩ (by simp [T.io]) with ⟨a, hf, _⟩ | ⟨b, _, hd⟩
    · cases hf
    simp only at hd; subst hd
    have bl := ihl (A := A) (B := ⟨i, false, .bp b⟩ :: r.io ++ B) h5 (fun x hx => hk x (by simp [T.io, hx]))
      (by simpa [T.io] using hb)
    have br := ihr (A := A ++ l.io ++ [⟨i, false, .bp b⟩]) (B := B) h6 (fun x hx => hk x (by simp [T.io, hx]))
      (by simpa [T.io] using hb)
    obtain ⟨A', n1, a1, n2, a2, B', e1, e2, e3⟩ := hb (A ++ l.io) i b (r.io ++ B) (by simp [T.io])
    obtain ⟨l', hl'⟩ := l.io_last
    obtain ⟨r', hr'⟩ := r.io_head
    rw [hl', ← List.append_assoc] at e1
    rw [hr'] at e2
    have e1' := (List.append_inj' e1 rfl).2
    simp only [List.cons_append, List.cons.injEq, and_true] at e1' e2
    have e2' := e2.1
    simp only [T.io, origs_append, origs_bp, T.ids]
    refine .node (x := (arcs a1).origin) (y := (arcs a2).origin) h4 h2 h3 h1 bl br ?_ ?_ e3
    · rw [hl', e1']; simp
    · rw [hr', e2']; simp

theorem leaves_of_repr {ns : Nat → NodeR Dat} {t : T Dat} :
    ∀ {p : Option Nat}, Repr ns p t → KindsOk t.io → Leaves ns t.id (lvs t.io) := by
  induction t with
  | leaf i d =>
    intro p hr hk
    obtain ⟨h1, h2, h3, h4⟩ := hr
    rcases hk ⟨i, true, d⟩ (by simp [T.io]) with ⟨a, _, ha⟩ | ⟨b, hf, _⟩
    · simp only at ha; subst ha
      exact .leaf h2 h3 h1
    · cases hf
  | node i d l r ihl ihr =>
    intro p hr hk
    obtain ⟨h1, h2, h3, h4, h5, h6⟩ := hr
    rcases hk ⟨i, false, d⟩ (by simp [T.io]) with ⟨a, hf, _⟩ | ⟨b, _, hd⟩
    · cases hf
    simp only at hd; subst hd
    simp only [T.io, lvs_append, lvs_bp]
    exact .node h2 h3 (ihl h5 (fun x hx => hk x (by simp [T.io, hx]))) (ihr h6 (fun x hx => hk x (by simp [T.io, hx])))

variable [ArithLaws K] [MidLt pts n]

/-- A property kept by every step holds in all reachable states. -/
theorem reach_follow {J : St K → List (Item Dat) → Prop} (hq : q.Spec evLt ok) (h0 : J (startSt pts q n poly) [])
    (hstep : ∀ s L e rest s' L', Inv pts ok n poly.points.length s L → J s L → q.pop s.queue = some (e, rest) →
      EvStep pts q e rest s L s' L' → Inv pts ok n poly.points.length s' L' → J s' L')
    {s : St K} (h : Reach pts q n poly s) : ∃ L, Inv pts ok n poly.points.length s L ∧ J s L := by
  induction h with
  | start h =>
    have : initQueue pts q n (initSt poly) = .ok ((), startSt pts q n poly) := rfl
    rw [this] at h
    cases h
    exact ⟨[], inv_start hq poly, h0⟩
  | @step s s' e rest _ hp hr ih =>
    obtain ⟨L, hI, hJ⟩ := ih
    have hw := wp_handleEvent (E := (· = .arith)) hI hq hp (Or.inl rfl) (Or.inl rfl)
    obtain ⟨L', hst⟩ := hw.ok hr
    have hI' := (hI.step hq hp hst).1
    exact ⟨L', hI', hstep s L e rest s' L' hI hJ hp hst hI'⟩

theorem reach_inv (hq : q.Spec evLt ok) {s : St K} (h : Reach pts q n poly s) : ∃ L, Inv pts ok n poly.points.length s L := by
  obtain ⟨L, h, _⟩ := reach_follow (J := fun _ _ => True) hq trivial (fun _ _ _ _ _ _ _ _ _ _ _ => trivial) h
  exact ⟨L, h⟩

/-- The sweep only goes through reachable states, and ends in one with an empty queue. -/
theorem sweepLoop_reach {fuel : Nat} : ∀ {s s' : St K}, Reach pts q n poly s → sweepLoop pts q fuel s = .ok ((), s') →
    Reach pts q n poly s' ∧ q.pop s'.queue = none := by
  induction fuel with
  | zero => intro s s' _ h; cases h
  | succ fuel ih =>
    intro s s' hr h
    unfold sweepLoop at h
    simp only [bind, StateT.bind, Except.bind, get, getThe, MonadStateOf.get, StateT.get, pure, Except.pure] at h
    cases hp : q.pop s.queue with
    | none =>
      rw [hp] at h
      simp only [StateT.pure, pure, Except.pure, Except.ok.injEq, Prod.mk.injEq, true_and] at h
      subst h
      exact ⟨hr, hp⟩
    | some er =>
      obtain ⟨e, rest⟩ := er
      rw [hp] at h
      simp only [set, StateT.set, pure, Except.pure, StateT.bind, bind, Except.bind] at h
      cases hv : handleEvent pts q e { s with queue := rest } with
      | error e => rw [hv] at h; cases h
      | ok v =>
        obtain ⟨_, s1⟩ := v
        rw [hv] at h
        exact ih (.step hr hp hv) h

theorem sweepAll_reach {fuel : Nat} {s' : St K} (h : sweepAll pts q n fuel (initSt poly) = .ok ((), s')) :
    ∃ s, Reach pts q n poly s ∧ q.pop s.queue = none ∧ s' = { s with log := s.log ++ [.debug] ++ [.sweepFinished] } := by
  have hstart : Reach pts q n poly (startSt pts q n poly) := .start rfl
  have hinit : initQueue pts q n (initSt poly) = .ok ((), startSt pts q n poly) := rfl
  unfold sweepAll at h
  simp only [bind, StateT.bind, Except.bind, hinit] at h
  cases hl : sweepLoop pts q fuel (startSt pts q n poly) with
  | error e => rw [hl] at h; cases h
  | ok v =>
    obtain ⟨_, s⟩ := v
    rw [hl] at h
    obtain ⟨h1, h2⟩ := sweepLoop_reach hstart hl
    refine ⟨s, h1, h2, ?_⟩
    have : (.ok ((), { s with log := s.log ++ [.debug] ++ [.sweepFinished] }) : Except Err (Unit × St K)) = .ok ((), s') := h
    simpa using this.symm

/-! ### what a step does to the simple components -/

theorem DebugOnly.count {l l' : List Msg} (h : DebugOnly l l') : steps l' = steps l := by
  obtain ⟨k, rfl⟩ := h
  unfold steps
  rw [List.filter_append, List.filter_replicate]
  simp

theorem addOpt_evs (q : PQ (QE K)) (a : Nat) (s : St K) (o : Option (CevR K)) :
    s.evCnt ≤ (addOpt q a s o).evCnt ∧ ∀ c < s.evCnt, (addOpt q a s o).evs c = s.evs c := by
  cases o with
  | none => exact ⟨le_rfl, fun _ _ => rfl⟩
  | some ev =>
    refine ⟨by simp [addOpt, addEv], fun c hc => ?_⟩
    simp only [addOpt, addEv]
    rw [Function.update_of_ne (by omega)]

theorem checkAdd_evs (q : PQ (QE K)) (al ar : Nat) (le re : Option (CevR K)) (s : St K) :
    s.evCnt ≤ (checkAdd q al ar le re s).evCnt ∧ ∀ c < s.evCnt, (checkAdd q al ar le re s).evs c = s.evs c := by
  obtain ⟨h1, h2⟩ := addOpt_evs q al s le
  obtain ⟨h3, h4⟩ := addOpt_evs q ar (addOpt q al s le) (dropRight le re)
  exact ⟨h1.trans h3, fun c hc => (h4 c (by omega)).trans (h2 c hc)⟩

/-- The notifications, sweep line and last event. -/
structure LogInv (pts : Nat → K × K) (s : St K) : Prop where
  log : steps s.log = List.replicate (s.nextName + s.verts.length) .stepFinished
  site : ∀ p, s.event = some (.site p) → s.sweep = some (pts p).2
  circ : ∀ c, s.event = some (.circle c) → c < s.evCnt ∧ s.sweep = some (cevQE (s.evs c) c).yd

theorem steps_end (l : List Msg) (k : Nat) (h : steps l = List.replicate k .stepFinished) :
    steps (l ++ [.stepFinished]) = List.replicate (k + 1) .stepFinished := by
  have : steps (l ++ [.stepFinished]) = steps l ++ [.stepFinished] := by simp [steps]
  rw [this, h, List.replicate_succ']

theorem steps_debug (l : List Msg) : steps (l ++ [.debug]) = steps l := by simp [steps]

theorem LogInv.step {pc : Nat} {s s' : St K} {L L' : List (Item Dat)} {e : QE K} {rest : List (QE K)} (hI : Inv pts ok n pc s L)
    (h : LogInv pts s) (hq : q.Spec evLt ok) (hp : q.pop s.queue = some (e, rest)) (hst : EvStep pts q e rest s L s' L') :
    LogInv pts s' := by
  have hperm := hq.pop_perm _ _ _ hI.qinv.ok hp
  have hmem : e ∈ s.queue := hperm.mem_iff.mpr (by simp)
  cases hst with
  | skip hc hv => exact ⟨h.log, h.site, h.circ⟩
  | @first s1 _ hc hf =>
    obtain ⟨he, _⟩ := pop_site hI hq hp hc
    have hfeq := hf.eq
    refine ⟨?_, ?_, ?_⟩
    · have e1 : s1.log = s.log ++ [.debug] := by rw [hfeq]; rfl
      have e2 : s1.nextName = s.nextName + 1 := by rw [hfeq]; rfl
      have e3 : s1.verts = s.verts := by rw [hfeq]; rfl
      show steps (s1.log ++ [.stepFinished]) = List.replicate (s1.nextName + s1.verts.length) .stepFinished
      rw [steps_end _ (s.nextName + s.verts.length) (by rw [e1, steps_debug, h.log]), e2, e3]
      congr 1; omega
    · intro p hp'
      have : e.ref = p := by simpa [stepEnd] using hp'
      subst this
      show s1.sweep = _
      rw [hfeq]
      show some e.yd = _
      rw [he]; rfl
    · intro c hc'; simp [stepEnd] at hc'
  | @site s1 _ pre post m a inter hc hpost hn =>
    obtain ⟨he, _⟩ := pop_site hI hq hp hc
    obtain ⟨log', hlog, hfeq⟩ := hn.eq
    have hf : s1.sweep = some e.yd ∧ s1.nextName = s.nextName + 1 ∧ s1.verts = s.verts := by
      cases inter
      · rw [hfeq]; exact ⟨rfl, rfl, rfl⟩
      · rw [hfeq]; exact ⟨checkAdd_sweep .., checkAdd_nextName .., checkAdd_verts ..⟩
    refine ⟨?_, ?_, ?_⟩
    · have e1 : s1.log = log' := by rw [hfeq]
      show steps (s1.log ++ [.stepFinished]) = List.replicate (s1.nextName + s1.verts.length) .stepFinished
      rw [steps_end _ (s.nextName + s.verts.length) (by
        rw [e1, hlog.count]; show steps (s.log ++ [.debug]) = _; rw [steps_debug, h.log]), hf.2.1, hf.2.2]
      congr 1; omega
    · intro p hp'
      have : e.ref = p := by simpa [stepEnd] using hp'
      subst this
      show s1.sweep = _
      rw [hf.1, he]; rfl
    · intro c hc'; simp [stepEnd] at hc'
  | @circle s1 _ P m u le ri tl tr ue re hc hv hcev hmk hpre hn =>
    obtain ⟨log', hlog, hfeq⟩ := hn.eq
    have hlt := hI.qinv.lt e hmem hc
    have hqe := hI.qinv.qe e hmem hc
    have hf : s1.sweep = some e.yd ∧ s1.nextName = s.nextName ∧ s1.verts = s.d.vCnt :: s.verts := by
      rw [hfeq]; exact ⟨checkAdd_sweep .., checkAdd_nextName .., checkAdd_verts ..⟩
    have hev : s.evCnt ≤ s1.evCnt ∧ s1.evs e.ref = killEv (killEv s.evs (s.arcs P.a1).cev) (s.arcs P.a3).cev e.ref := by
      rw [hfeq]
      obtain ⟨h1, h2⟩ := checkAdd_evs q P.a1 P.a3
        ((tripleAt (circStart e rest s).og P.pre P.a1 (⟨m, false, .bp u⟩ :: ⟨P.n3, true, .arc P.a3⟩ :: P.post)).bind (mkEv pts P.n1))
        ((tripleAt (circStart e rest s).og (P.pre ++ [⟨P.n1, true, .arc P.a1⟩, ⟨m, false, .bp u⟩]) P.a3 P.post).bind (mkEv pts P.n3))
        (circMid (circStart e rest s) ((circStart e rest s).evs e.ref).center P.a1 P.a P.a3 u le ri tl tr ue re)
      exact ⟨h1, h2 e.ref hlt⟩
    refine ⟨?_, ?_, ?_⟩
    · have e1 : s1.log = log' := by rw [hfeq]
      show steps (s1.log ++ [.stepFinished]) = List.replicate (s1.nextName + s1.verts.length) .stepFinished
      rw [steps_end _ (s.nextName + s.verts.length) (by
        rw [e1, hlog.count]; show steps (s.log ++ [.debug]) = _; rw [steps_debug, h.log]), hf.2.1, hf.2.2, List.length_cons]
      rfl
    · intro p hp'; simp [stepEnd] at hp'
    · intro c hc'
      have : e.ref = c := by simpa [stepEnd] using hc'
      subst this
      refine ⟨lt_of_lt_of_le hlt hev.1, ?_⟩
      show s1.sweep = some (cevQE (s1.evs e.ref) e.ref).yd
      rw [hf.1, hev.2, killEv_qe, killEv_qe, ← hqe]

theorem reach_log (hq : q.Spec evLt ok) {s : St K} (h : Reach pts q n poly s) : LogInv pts s := by
  obtain ⟨L, _, h⟩ := reach_follow (J := fun s _ => LogInv pts s) hq ⟨rfl, by simp [startSt, initSt], by simp [startSt, initSt]⟩
    (fun s L e rest s' L' hI hJ hp hst _ => LogInv.step hI hJ hq hp hst) h
  exact h

end Foronoi
