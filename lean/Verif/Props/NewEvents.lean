import Verif.Proof.Bridge

/-! # C107: the events put by handling one event

`_check_circles` (algorithm.py:443-478) puts the circle event of the left triple, and that of the right
triple if it is not equal to the left one (`Event.__eq__`, events/event.py:22-25: same x and same y).
Nothing here uses exact arithmetic. -/

namespace Foronoi


variable {K : Type} [LinearOrder K] [Arith K]
variable {pts : Nat → K × K} {q : PQ (QE K)} {ok : List (QE K) → Prop} {n : Nat} {poly : Poly K}

/-- The queue entries `new` were put, on top of `rest`, by a step from a state with `evCnt` circle events:
they are new circle events, at most two, and no two are at the same place. -/
structure PutEvents (new rest : List (QE K)) (evCnt : Nat) (s' : St K) : Prop where
  queue : s'.queue.Perm (new ++ rest)
  two : new.length ≤ 2
  cnt : s'.evCnt = evCnt + new.length
  circ : ∀ x ∈ new, x.circ = true ∧ evCnt ≤ x.ref ∧ x.ref < s'.evCnt
  apart : new.Pairwise fun x y => x.yd ≠ y.yd ∨ x.xd ≠ y.xd
  /-- Each is stored at an arc, is valid, and the entry holds the lowest point of its circle. -/
  stored : ∀ x ∈ new, (∃ a, (s'.arcs a).cev = some x.ref) ∧ (s'.evs x.ref).valid = true ∧
    x.xd = (s'.evs x.ref).center.1 ∧ x.yd = Arith.sub (s'.evs x.ref).center.2 (s'.evs x.ref).radius

theorem PutEvents.nil {s : St K} {rest : List (QE K)} {k : Nat} (h : s.queue = rest) (hk : s.evCnt = k) :
    PutEvents [] rest k s :=
  ⟨by simp [h], by simp, by simp [hk], by simp, List.Pairwise.nil, by simp⟩

/-- The entries put by `checkAdd`. -/
theorem PutEvents.checkAdd {s s' : St K} (hq : q.Spec evLt ok) (hok : ok s.queue) {al ar : Nat} (hne : al ≠ ar)
    {le re : Option (CevR K)} (hl : ∀ ev, le = some ev → ev.valid = true) (hr : ∀ ev, re = some ev → ev.valid = true)
    (hQ : s'.queue = (Foronoi.checkAdd q al ar le re s).queue) (hC : s'.evCnt = (Foronoi.checkAdd q al ar le re s).evCnt)
    (hE : s'.evs = (Foronoi.checkAdd q al ar le re s).evs) (hA : s'.arcs = (Foronoi.checkAdd q al ar le re s).arcs) :
    ∃ new, PutEvents new s.queue s.evCnt s' := by
  have one : ∀ (a : Nat) (ev : CevR K), ev.valid = true → s'.queue = (addEv q a s ev).queue →
      s'.evCnt = (addEv q a s ev).evCnt → s'.evs = (addEv q a s ev).evs → s'.arcs = (addEv q a s ev).arcs →
      ∃ new, PutEvents new s.queue s.evCnt s' := by
    intro a ev hv h1 h2 h3 h4
    refine ⟨[cevQE ev s.evCnt], ?_, by simp, by simpa [addEv] using h2, ?_, by simp, ?_⟩
    · rw [h1]; exact hq.push_perm _ _ hok
    · intro x hx
      simp only [List.mem_singleton] at hx
      subst hx
      simp [cevQE, h2, addEv]
    · intro x hx
      simp only [List.mem_singleton] at hx
      subst hx
      exact ⟨⟨a, by rw [h4]; simp [addEv, cevQE]⟩, by rw [h3]; simp [addEv, cevQE, hv]⟩
  cases le with
  | none =>
    cases re with
    | none => exact ⟨[], .nil hQ hC⟩
    | some r => exact one ar r (hr r rfl) hQ hC hE hA
  | some l =>
    cases re with
    | none => exact one al l (hl l rfl) hQ hC hE hA
    | some r =>
      by_cases hd : eventsDiffer l r = true
      · have hce : Foronoi.checkAdd q al ar (some l) (some r) s = addEv q ar (addEv q al s l) r := by
          simp [Foronoi.checkAdd, dropRight, addOpt, hd]
        rw [hce] at hQ hC hE hA
        have hp1 := hq.push_perm (cevQE l s.evCnt) _ hok
        have hp2 := hq.push_perm (cevQE r (s.evCnt + 1)) _ (hq.push_ok (cevQE l s.evCnt) _ hok)
        refine ⟨[cevQE r (s.evCnt + 1), cevQE l s.evCnt], ?_, by simp, by simpa [addEv] using hC, ?_, ?_, ?_⟩
        · rw [hQ]; exact hp2.trans (hp1.cons _)
        · intro x hx
          simp only [List.mem_cons, List.not_mem_nil, or_false] at hx
          rcases hx with rfl | rfl <;> simp [cevQE, hC, addEv]; omega
        · rw [List.pairwise_pair]
          by_contra hc
          push_neg at hc
          have : eventsDiffer l r = false := by
            have h1 : (cevQE l 0).yd = (cevQE r 0).yd := hc.1.symm
            have h2 : (cevQE l 0).xd = (cevQE r 0).xd := hc.2.symm
            simp [eventsDiffer, evEq, h1, h2]
          rw [this] at hd
          cases hd
        · intro x hx
          simp only [List.mem_cons, List.not_mem_nil, or_false] at hx
          rcases hx with rfl | rfl
          · refine ⟨⟨ar, by rw [hA]; simp [addEv, cevQE]⟩, ?_⟩
            rw [hE]; simp [addEv, cevQE, hr r rfl]
          · refine ⟨⟨al, by rw [hA]; simp [addEv, cevQE, Function.update_of_ne hne]⟩, ?_⟩
            rw [hE]; simp [addEv, cevQE, hl l rfl]
      · have hce : Foronoi.checkAdd q al ar (some l) (some r) s = addEv q al s l := by
          simp [Foronoi.checkAdd, dropRight, addOpt, hd]
        rw [hce] at hQ hC hE hA
        exact one al l (hl l rfl) hQ hC hE hA

theorem mkEv_bind_valid {o : Option (Nat × Nat × Nat)} {k : Nat} {ev : CevR K} (h : o.bind (mkEv pts k) = some ev) :
    ev.valid = true := by
  obtain ⟨t, _, h⟩ := Option.bind_eq_some_iff.mp h
  exact (mkEv_valid h).1

variable [ArithLaws K] [MidLt pts n]

/-- **C107**: whatever event is handled, the queue afterwards consists of the entries that were left and at most two
new circle events, which do not have the same x and y; each is stored at an arc and is valid. -/
theorem C107_new_events (hq : q.Spec evLt ok) {s s' : St K} (h : Reach pts q n poly s) {e : QE K} {rest : List (QE K)}
    (hp : q.pop s.queue = some (e, rest)) (hr : handleEvent pts q e { s with queue := rest } = .ok ((), s')) :
    ∃ new, PutEvents new rest s.evCnt s' := by
  obtain ⟨L, hI⟩ := reach_inv hq h
  have hw := wp_handleEvent (E := (· = .arith)) hI hq hp (Or.inl rfl) (Or.inl rfl)
  obtain ⟨L', hst⟩ := hw.ok hr
  have hok := hq.pop_ok _ _ _ hI.qinv.ok hp
  cases hst with
  | skip _ _ => exact ⟨[], .nil rfl rfl⟩
  | @first s1 _ _ hs =>
    refine ⟨[], .nil ?_ ?_⟩
    · show s1.queue = rest
      rw [hs.eq]; rfl
    · show s1.evCnt = _
      rw [hs.eq]; rfl
  | @site s1 _ pre post m a inter _ _ hs =>
    obtain ⟨lg, _, heq⟩ := hs.eq
    cases inter with
    | false =>
      refine ⟨[], .nil ?_ ?_⟩
      · show s1.queue = rest
        rw [heq]; rfl
      · show s1.evCnt = _
        rw [heq]; rfl
    | true =>
      simp only [if_true] at heq
      have := PutEvents.checkAdd (s := siteMid (siteStart e rest s) e.ref a true) (s' := stepEnd (.site e.ref) s1) hq hok
        (al := (siteStart e rest s).arcCnt + 1) (ar := (siteStart e rest s).arcCnt + 2)
        (le := siteLe pts (siteStart e rest s) (siteMid (siteStart e rest s) e.ref a true) pre post)
        (re := siteRe pts (siteStart e rest s) (siteMid (siteStart e rest s) e.ref a true) pre post) (by omega)
        (fun ev h => mkEv_bind_valid h) (fun ev h => mkEv_bind_valid h)
        (by show s1.queue = _; rw [heq]) (by show s1.evCnt = _; rw [heq]) (by show s1.evs = _; rw [heq])
        (by show s1.arcs = _; rw [heq])
      exact this
  | @circle s1 _ P m u le ri tl tr ue re _ _ _ _ hpre hs =>
    obtain ⟨lg, _, heq⟩ := hs.eq
    have hne : P.a1 ≠ P.a3 := fun h => hpre.ne (by rw [h])
    have := PutEvents.checkAdd
      (s := circMid (circStart e rest s) ((circStart e rest s).evs e.ref).center P.a1 P.a P.a3 u le ri tl tr ue re)
      (s' := stepEnd (.circle e.ref) s1) hq hok hne
      (le := (tripleAt (circStart e rest s).og P.pre P.a1 (⟨m, false, .bp u⟩ :: ⟨P.n3, true, .arc P.a3⟩ :: P.post)).bind (mkEv pts P.n1))
      (re := (tripleAt (circStart e rest s).og (P.pre ++ [⟨P.n1, true, .arc P.a1⟩, ⟨m, false, .bp u⟩]) P.a3 P.post).bind (mkEv pts P.n3))
      (fun ev h => mkEv_bind_valid h) (fun ev h => mkEv_bind_valid h)
      (by show s1.queue = _; rw [heq]) (by show s1.evCnt = _; rw [heq]) (by show s1.evs = _; rw [heq])
      (by show s1.arcs = _; rw [heq])
    exact this

end Foronoi
