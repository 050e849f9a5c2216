import Verif.Proof.Events

/-!
# Site and circle events keep the event queue invariant and the beach line invariant
-/

namespace Foronoi

open scoped List

variable {K : Type} [LinearOrder K] [Arith K]
variable {pts : Nat → K × K} {q : PQ (QE K)} {ok : List (QE K) → Prop}

theorem QInv.congr {s s' : St K} {L : List (Item Dat)} (h : QInv pts ok s L) (h1 : s'.queue = s.queue)
    (h2 : s'.evs = s.evs) (h3 : s'.evCnt = s.evCnt) (h4 : s'.arcs = s.arcs) (h5 : s'.arcCnt = s.arcCnt) : QInv pts ok s' L := by
  obtain ⟨g1, g2, g3, g4, g5, g6, g7, g8⟩ := h
  refine ⟨?_, ?_, ?_, ?_, ?_, ?_, ?_, ?_⟩ <;> simp only [h1, h2, h3, h4, h5] <;> assumption

theorem SiteFirst.qinv {pi : Nat} {s s' : St K} {L L' : List (Item Dat)} (hs : SiteFirst pi s L s' L')
    (h : QInv pts ok s L) : QInv pts ok s' L' := by
  have heq := hs.eq
  have hm : QInv pts ok { s with arcs := Function.update s.arcs s.arcCnt ⟨pi, none⟩, arcCnt := s.arcCnt + 1 } L' := by
    refine ⟨h.ok, h.nd, h.lt, h.qe, ?_, ?_, ?_, ?_⟩
    · intro e he hc hv
      obtain ⟨A, n, a, B, t, h1, _⟩ := h.ev e he hc hv
      rw [hs.nil] at h1
      simp at h1
    · intro a c hc
      simp only [Function.update_apply] at hc
      split at hc
      · cases hc
      · exact h.cevLt a c hc
    · intro a a' c hc hc'
      simp only [Function.update_apply] at hc hc'
      split at hc
      · cases hc
      · split at hc'
        · cases hc'
        · exact h.cevInj a a' c hc hc'
    · intro a ha
      simp only at ha
      simp only [Function.update_apply]
      split
      · rfl
      · exact h.fresh a (by omega)
  exact hm.congr (by rw [heq]) (by rw [heq]) (by rw [heq]) (by rw [heq]) (by rw [heq])

theorem SiteFirst.bok {pi : Nat} {s s' : St K} {L L' : List (Item Dat)} (hs : SiteFirst pi s L s' L') :
    BOk s'.og s'.pr s'.arcCnt s'.bpCnt L' := by
  have e1 : s'.arcCnt = s.arcCnt + 1 := by rw [hs.eq]
  have e2 : s'.bpCnt = s.bpCnt := by rw [hs.eq]
  rw [e1, hs.list]
  refine ⟨by simp, ?_, by simp, ?_, by simp, by simp⟩
  · simp only [List.mem_singleton, forall_eq]
    exact Or.inl ⟨s.arcCnt, trivial, rfl, by omega⟩
  · intro a b _ h
    have := h.length_le
    simp at this

/-- The arcs on the beach line after a site event, except the new ones, are unchanged. -/
theorem siteMid_arcs {s : St K} {pi a x : Nat} {inter : Bool} (hx : x < s.arcCnt) : (siteMid s pi a inter).arcs x = s.arcs x := by
  cases inter
  · simp only [siteMid, Bool.false_eq_true, if_false, Function.update_apply]
    rw [if_neg (by omega), if_neg (by omega)]
  · simp only [siteMid, if_true, Function.update_apply]
    rw [if_neg (by omega), if_neg (by omega), if_neg (by omega)]

theorem siteMid_fresh {s : St K} {pi a x : Nat} {inter : Bool} (hf : ∀ a, s.arcCnt ≤ a → (s.arcs a).cev = none) (hx : s.arcCnt ≤ x) :
    ((siteMid s pi a inter).arcs x).cev = none := by
  have := hf x hx
  cases inter
  · simp only [siteMid, Bool.false_eq_true, if_false, Function.update_apply]
    split
    · rfl
    · split
      · rfl
      · exact this
  · simp only [siteMid, if_true, Function.update_apply]
    split
    · rfl
    · split
      · rfl
      · split
        · rfl
        · exact this

theorem siteMid_qinv {pi n a : Nat} {s : St K} {pre post : List (Item Dat)} {inter : Bool}
    (hb : BOk s.og s.pr s.arcCnt s.bpCnt (pre ++ ⟨n, true, .arc a⟩ :: post))
    (h : QInv pts ok s (pre ++ ⟨n, true, .arc a⟩ :: post)) (hpost : inter = false → post = []) :
    QInv pts ok (siteMid s pi a inter) (pre ++ (siteItems s inter ++ post)) := by
  have hcev : ∀ x c, ((siteMid s pi a inter).arcs x).cev = some c → x < s.arcCnt ∧ (s.arcs x).cev = some c := by
    intro x c hc
    by_cases hx : x < s.arcCnt
    · rw [siteMid_arcs hx] at hc; exact ⟨hx, hc⟩
    · rw [siteMid_fresh h.fresh (by omega)] at hc; cases hc
  have hlt : ∀ x ∈ pre ++ ⟨n, true, .arc a⟩ :: post, ∀ b, x.d = .arc b → b < s.arcCnt := by
    intro x hx b hbx
    rcases hb.kind x hx with ⟨b', _, h1, h2⟩ | ⟨b', _, h1, _⟩
    · rw [hbx] at h1; cases h1; exact h2
    · rw [hbx] at h1; cases h1
  refine ⟨h.ok, h.nd, h.lt, ?_, ?_, ?_, ?_, ?_⟩
  · intro e he hc
    have := h.qe e he hc
    simp only [siteMid, killEv_qe]
    exact this
  · intro e he hc hv
    obtain ⟨hk, hke⟩ := killEv_valid (evs := s.evs) (o := (s.arcs a).cev) hv
    have hv' : (s.evs e.ref).valid = true := by rw [← hke]; exact hv
    have hok := h.ev e he hc hv'
    show EvOk pts (siteMid s pi a inter).arcs _ e.ref (killEv s.evs (s.arcs a).cev e.ref)
    rw [hke]
    have hok' : EvOk pts s.arcs (pre ++ ([⟨n, true, .arc a⟩] ++ post)) e.ref (s.evs e.ref) := hok
    refine hok'.replace ?_ (by simp) ?_ ?_ ?_ ?_
    · intro n' a' hm
      simp only [List.mem_singleton, Item.mk.injEq, Dat.arc.injEq, true_and] at hm
      rw [hm.2]; exact hk
    · intro x hx b hbx
      exact siteMid_arcs (hlt x (by simp at hx ⊢; tauto) b hbx)
    · intro x hx b hbx
      rw [siteMid_arcs]
      simp only [List.mem_singleton] at hx
      exact hlt x (by simp [hx]) b hbx
    · cases inter
      · simp [siteItems, siteMid, Function.update_apply]
      · simp [siteItems, siteMid, Function.update_apply]
    · cases inter
      · exact Or.inr (hpost rfl)
      · left; simp [siteItems, siteMid, Function.update_apply]
  · intro x c hc
    exact h.cevLt x c (hcev x c hc).2
  · intro x y c hx hy
    exact h.cevInj x y c (hcev x c hx).2 (hcev y c hy).2
  · intro x hx
    refine siteMid_fresh h.fresh ?_
    simp only [siteMid] at hx
    omega

theorem SiteNext.post_nil_or {pi : Nat} {s s' : St K} {L L' pre post : List (Item Dat)} {n a : Nat} {inter : Bool}
    (hs : SiteNext pts q pi s L s' L' pre post n a inter) (hb : BOk s.og s.pr s.arcCnt s.bpCnt L) (h : QInv pts ok s L)
    (hq : q.Spec evLt ok) (hpost : inter = false → post = []) (hpi : pi ∉ origs s.og L) :
    QInv pts ok s' L' ∧ BOk s'.og s'.pr s'.arcCnt s'.bpCnt L' := by
  obtain ⟨log', _, heq⟩ := hs.eq
  have hL := hs.split
  rw [hL] at hb h hpi
  have hm := siteMid_qinv (pi := pi) (inter := inter) hb h hpost
  have hno : ∀ x, s.arcCnt ≤ x → NoEv (siteMid s pi a inter) x := by
    intro x hx e _ _ _ hc
    rw [siteMid_fresh h.fresh hx] at hc
    cases hc
  rw [hs.list]
  cases inter with
  | false =>
    simp only [Bool.false_eq_true, if_false] at heq
    refine ⟨hm.congr (by rw [heq]) (by rw [heq]) (by rw [heq]) (by rw [heq]) (by rw [heq]), ?_⟩
    have hp := hpost rfl
    subst hp
    have := hb.siteNI hpi
    have e1 : s'.og = (siteMid s pi a false).og := by rw [heq]
    have e2 : s'.pr = (siteMid s pi a false).pr := by rw [heq]
    have e3 : s'.arcCnt = (siteMid s pi a false).arcCnt := by rw [heq]
    have e4 : s'.bpCnt = (siteMid s pi a false).bpCnt := by rw [heq]
    rw [e1, e2, e3, e4]
    exact this
  | true =>
    simp only [if_true] at heq
    constructor
    · have := hm.checkAdd hq (A := pre) (B := (siteItems s true).drop 1 ++ post) (C := pre ++ (siteItems s true).take 4) (D := post)
        (n := s.ns.cnt + 1) (m := s.ns.cnt + 4) (al := s.arcCnt + 1) (ar := s.arcCnt + 2)
        (by simp [siteItems]) (by simp [siteItems]) (by simp [siteMid]) (by simp [siteMid]) (by omega)
        (hno _ (by omega)) (hno _ (by omega))
      exact this.congr (by rw [heq]; rfl) (by rw [heq]; rfl) (by rw [heq]; rfl) (by rw [heq]; rfl) (by rw [heq]; rfl)
    · have := hb.siteInter hpi
      have e1 : s'.og = (siteMid s pi a true).og := by rw [heq]; exact checkAdd_og ..
      have e2 : s'.pr = (siteMid s pi a true).pr := by rw [heq]; simp only [St.pr, checkAdd_bps]
      have e3 : s'.arcCnt = (siteMid s pi a true).arcCnt := by rw [heq]; exact checkAdd_arcCnt ..
      have e4 : s'.bpCnt = (siteMid s pi a true).bpCnt := by rw [heq]; exact checkAdd_bpCnt ..
      rw [e1, e2, e3, e4]
      exact this

theorem circMid_qinv {c : Nat} {s : St K} {P : Place} {m u le ri tl tr ue re : Nat} {center : K × K} (h : QInv pts ok s P.list)
    (hc : ∀ e ∈ s.queue, e.circ = true → e.ref ≠ c) (hcev : (s.arcs P.a).cev = some c) :
    QInv pts ok (circMid s center P.a1 P.a P.a3 u le ri tl tr ue re) (P.rest m u) := by
  refine ⟨h.ok, h.nd, h.lt, ?_, ?_, h.cevLt, h.cevInj, h.fresh⟩
  · intro e he hc
    have := h.qe e he hc
    simp only [circMid, killEv_qe]
    exact this
  · intro e he hc' hv
    obtain ⟨hk2, hke2⟩ := killEv_valid (evs := killEv s.evs (s.arcs P.a1).cev) (o := (s.arcs P.a3).cev) hv
    have hv2 : (killEv s.evs (s.arcs P.a1).cev e.ref).valid = true := by rw [← hke2]; exact hv
    obtain ⟨hk1, hke1⟩ := killEv_valid hv2
    have hv1 : (s.evs e.ref).valid = true := by rw [← hke1]; exact hv2
    have hok := h.ev e he hc' hv1
    show EvOk pts s.arcs _ e.ref (killEv (killEv s.evs (s.arcs P.a1).cev) (s.arcs P.a3).cev e.ref)
    rw [hke2, hke1]
    refine EvOk.replace (Y := [⟨P.n1, true, .arc P.a1⟩, ⟨P.m1, false, .bp P.b1⟩, ⟨P.n, true, .arc P.a⟩, ⟨P.m2, false, .bp P.b2⟩,
      ⟨P.n3, true, .arc P.a3⟩]) hok ?_ (by simp) (fun _ _ _ _ => rfl) (fun _ _ _ _ => rfl) ?_ ?_
    · intro n' a' hm
      simp only [List.mem_cons, Item.mk.injEq, Dat.arc.injEq, true_and, List.not_mem_nil, or_false, reduceCtorEq, and_false,
        false_or] at hm
      rcases hm with ⟨_, rfl⟩ | ⟨_, rfl⟩ | ⟨_, rfl⟩
      · exact hk1
      · rw [hcev]; intro hh; exact hc e he hc' (by simpa using hh.symm)
      · exact hk2
    · simp
    · left; simp

theorem circMid_noEv {s : St K} {P : Place} {u le ri tl tr ue re : Nat} {center : K × K} :
    NoEv (circMid s center P.a1 P.a P.a3 u le ri tl tr ue re) P.a1 := by
  intro e _ _ hv hh
  obtain ⟨hk2, hke2⟩ := killEv_valid (evs := killEv s.evs (s.arcs P.a1).cev) (o := (s.arcs P.a3).cev) hv
  have hv2 : (killEv s.evs (s.arcs P.a1).cev e.ref).valid = true := by rw [← hke2]; exact hv
  exact (killEv_valid hv2).1 hh

theorem CircNext.keep {c : Nat} {s s' : St K} {L L' : List (Item Dat)} {P : Place} {m u le ri tl tr ue re : Nat}
    (hs : CircNext pts q c s L s' L' P m u le ri tl tr ue re) (hb : BOk s.og s.pr s.arcCnt s.bpCnt L) (h : QInv pts ok s L)
    (hq : q.Spec evLt ok) (hc : ∀ e ∈ s.queue, e.circ = true → e.ref ≠ c) (hcev : (s.arcs P.a).cev = some c)
    (hne : (s.arcs P.a1).origin ≠ (s.arcs P.a3).origin) :
    QInv pts ok s' L' ∧ BOk s'.og s'.pr s'.arcCnt s'.bpCnt L' := by
  obtain ⟨log', _, heq⟩ := hs.eq
  have hL := hs.split
  subst hL
  have hnd : P.a1 ≠ P.a3 := fun h => hne (by rw [h])
  have hlt : ∀ n a, (⟨n, true, .arc a⟩ : Item Dat) ∈ P.list → a < s.arcCnt := by
    intro n a hx
    rcases hb.kind _ hx with ⟨b', _, h1, h2⟩ | ⟨b', _, h1, _⟩
    · cases h1; exact h2
    · cases h1
  have hm : QInv pts ok (circMid s (s.evs c).center P.a1 P.a P.a3 u le ri tl tr ue re) (P.rest m u) := circMid_qinv h hc hcev
  have hno1 : NoEv (circMid s (s.evs c).center P.a1 P.a P.a3 u le ri tl tr ue re) P.a1 := circMid_noEv
  have hno3 : NoEv (circMid s (s.evs c).center P.a1 P.a P.a3 u le ri tl tr ue re) P.a3 := by
    intro e _ _ hv hh
    exact (killEv_valid (evs := killEv s.evs (s.arcs P.a1).cev) (o := (s.arcs P.a3).cev) hv).1 hh
  rw [hs.list]
  constructor
  · have := hm.checkAdd hq (A := P.pre) (B := ⟨m, false, .bp u⟩ :: ⟨P.n3, true, .arc P.a3⟩ :: P.post)
      (C := P.pre ++ [⟨P.n1, true, .arc P.a1⟩, ⟨m, false, .bp u⟩]) (D := P.post)
      (n := P.n1) (m := P.n3) (al := P.a1) (ar := P.a3)
      (by simp [Place.rest]) (by simp [Place.rest]) (hlt P.n1 _ (by simp [Place.list])) (hlt P.n3 _ (by simp [Place.list])) hnd hno1 hno3
    exact this.congr (by rw [heq]; rfl) (by rw [heq]; rfl) (by rw [heq]; rfl) (by rw [heq]; rfl) (by rw [heq]; rfl)
  · have hb2 : BOk s.og (circMid s (s.evs c).center P.a1 P.a P.a3 u le ri tl tr ue re).pr s.arcCnt s.bpCnt (P.rest m u) := by
      refine hb.remove (m := m) (b := u) ?_ ?_ ?_ hne
      · rcases hs.upd with ⟨h1, h2, _⟩ | ⟨h1, h2, _⟩
        · exact Or.inl ⟨h1, h2⟩
        · exact Or.inr ⟨h1, h2⟩
      · intro x hx; simp [St.pr, circMid, Function.update_of_ne hx]
      · simp [St.pr, circMid]
    have e1 : s'.og = s.og := by rw [heq]; exact checkAdd_og ..
    have e2 : s'.pr = (circMid s (s.evs c).center P.a1 P.a P.a3 u le ri tl tr ue re).pr := by
      rw [heq]; simp only [St.pr, checkAdd_bps]
    have e3 : s'.arcCnt = s.arcCnt := by rw [heq]; exact checkAdd_arcCnt ..
    have e4 : s'.bpCnt = s.bpCnt := by rw [heq]; exact checkAdd_bpCnt ..
    rw [e1, e2, e3, e4]
    exact hb2

end Foronoi
