import Verif.Proof.Inv

/-!
# The main loop
-/

namespace Foronoi

open scoped List

variable {K : Type} [LinearOrder K] [Arith K] [ArithLaws K] {E : Err → Prop}
variable {pts : Nat → K × K} {q : PQ (QE K)} {ok : List (QE K) → Prop} {n pc : Nat} [MidLt pts n]

/-- The place of a valid circle event. -/
theorem EvOk.place {s : St K} {L : List (Item Dat)} {c : Nat} (hb : BOk s.og s.pr s.arcCnt s.bpCnt L)
    {ev : CevR K} (h : EvOk pts s.arcs L c ev) :
    ∃ P : Place, L = P.list ∧ (s.arcs P.a).cev = some c ∧ ev.arcPtr = P.n ∧
      mkEv pts P.n ((s.arcs P.a1).origin, (s.arcs P.a).origin, (s.arcs P.a3).origin) = some ev ∧
      (s.bps P.b1).pair = ((s.arcs P.a1).origin, (s.arcs P.a).origin) ∧
      (s.bps P.b2).pair = ((s.arcs P.a).origin, (s.arcs P.a3).origin) := by
  obtain ⟨A, m, a, B, t, rfl, h2, h3, h4⟩ := h
  rcases hb.pre_cases with rfl | ⟨pre, n1, a1, m1, b1, rfl, e1⟩
  · simp [tripleAt] at h3
  rcases hb.post_cases with rfl | ⟨m2, b2, n3, a3, post, rfl, e2⟩
  · unfold tripleAt at h3
    simp only [origs_nil, List.head?_nil] at h3
    split at h3
    · rename_i hh; cases hh
    · cases h3
  have ht : t = ((s.arcs a1).origin, (s.arcs a).origin, (s.arcs a3).origin) := by
    simp [tripleAt] at h3
    exact h3.symm
  subst ht
  exact ⟨⟨pre, post, n1, a1, m1, b1, m, a, m2, b2, n3, a3⟩, by simp [Place.list], h2, (mkEv_valid h4).2.2, h4, e1, e2⟩

/-- The half-edges needed by a circle event. -/
theorem Inv.circPre {s : St K} {L : List (Item Dat)} (h : Inv pts ok n pc s L) {P : Place} (hL : L = P.list) {ev : CevR K}
    (hev : mkEv pts P.n ((s.arcs P.a1).origin, (s.arcs P.a).origin, (s.arcs P.a3).origin) = some ev)
    (h1 : (s.bps P.b1).pair = ((s.arcs P.a1).origin, (s.arcs P.a).origin))
    (h2 : (s.bps P.b2).pair = ((s.arcs P.a).origin, (s.arcs P.a3).origin)) :
    ∃ le ri tl tr, CircPre s P le ri tl tr := by
  have hne := mkEv_ne hev
  obtain ⟨le, ri, tl, tr, g1, g2, g3, g4, g5, g6, _⟩ := h.dinv.pre (m1 := P.m1) (m2 := P.m2) (b1 := P.b1) (b2 := P.b2)
    (by rw [hL]; simp [Place.list]) (by rw [hL]; simp [Place.list]) h1 h2 hne
  exact ⟨le, ri, tl, tr, g1, g2, g3, g4, g5, g6, hne⟩

theorem pop_site {s : St K} {L : List (Item Dat)} (h : Inv pts ok n pc s L) (hq : q.Spec evLt ok) {e : QE K} {rest : List (QE K)}
    (hp : q.pop s.queue = some (e, rest)) (hc : e.circ = false) :
    e = siteQE pts e.ref ∧ e.ref < n ∧ s.names e.ref = none ∧ (∀ p, (s.names p).isSome → evLt e (siteQE pts p) = false) := by
  have hperm := hq.pop_perm _ _ _ h.qinv.ok hp
  have hmem : e ∈ s.queue := hperm.mem_iff.mpr (by simp)
  obtain ⟨h1, h2, h3⟩ := h.sinv.qe e hmem hc
  exact ⟨h1, h2, h3, fun p hp => h.sinv.pend p hp e hmem hc⟩

/-- One iteration of the main loop does one step. -/
theorem wp_handleEvent {s : St K} {L : List (Item Dat)} (h : Inv pts ok n pc s L) (hq : q.Spec evLt ok) {e : QE K} {rest : List (QE K)}
    (hp : q.pop s.queue = some (e, rest))
    (hK : E .arith ∨ ((e.circ = true → (s.evs e.ref).valid = true) → ∀ x ∈ L, (keyOf pts s.bps s.arcs e.yd x.d).isSome))
    (hC : E .arith ∨ ∀ p q r, (createCircle (pts p) (pts q) (pts r)).isSome) :
    Wp E (handleEvent pts q e) { s with queue := rest } (fun _ s' => ∃ L', EvStep pts q e rest s L s' L') := by
  unfold handleEvent
  rw [wp_ite]
  refine ⟨fun hc => ?_, fun hc => ?_⟩
  · simp only [wp_bind, wp_get]
    rw [wp_ite]
    refine ⟨fun hv => ?_, fun hv => ?_⟩
    · have hperm := hq.pop_perm _ _ _ h.qinv.ok hp
      have hmem : e ∈ s.queue := hperm.mem_iff.mpr (by simp)
      have hev := h.qinv.ev e hmem hc hv
      obtain ⟨P, hL, hcev, hptr, hmk, hp1, hp2⟩ := hev.place h.beach
      obtain ⟨le, ri, tl, tr, hpre⟩ := h.circPre hL hmk hp1 hp2
      simp only [wp_bind, wp_set, wp_notify]
      have hw := wp_handleCircle (E := E) (pts := pts) (q := q) (c := e.ref) (s := circStart e rest s) (P := P) (le := le) (ri := ri)
        (tl := tl) (tr := tr) (by rw [← hL]; exact h.tree) (by rw [← hL]; exact h.beach) hptr
        ⟨hpre.el, hpre.er, hpre.twl, hpre.twr, hpre.nd, hpre.lt, hpre.ne⟩ (by simp [circStart]) ?_ hC
      · refine wp_mono hw ?_
        rintro _ s1 ⟨L', m, u, ue, re, hcn⟩
        simp only [wp_modify, wp_notify]
        exact ⟨L', .circle hc hv hcev hmk hpre (hL ▸ hcn)⟩
      · refine hK.imp id fun hk x hx l hl => ?_
        simp only [circStart, Option.some.injEq] at hl
        subst hl
        exact hk (fun _ => hv) x (by rw [hL]; exact hx)
    · simp only [wp_pure]
      exact ⟨L, .skip hc (by simpa using hv)⟩
  · have hc' : e.circ = false := by simpa using hc
    obtain ⟨he, hlt, hnone, hpend⟩ := pop_site h hq hp hc'
    simp only [wp_bind, wp_get, wp_set, wp_notify]
    have hpi : e.ref ∉ origs s.og L := by
      intro hh
      have := h.sinv.used _ hh
      rw [hnone] at this; cases this
    have hw := wp_handleSite (E := E) (pts := pts) (q := q) (pi := e.ref) (s := siteStart e rest s) (L := L) h.tree h.beach hpi
      (by simp [siteStart]) ?_ hC
    · refine wp_mono hw ?_
      rintro _ s1 ⟨L', hf | ⟨pre, post, m, a, inter, hn⟩⟩
      · simp only [wp_modify, wp_notify]
        exact ⟨L', .first hc' hf⟩
      · simp only [wp_modify, wp_notify]
        refine ⟨L', .site hc' ?_ hn⟩
        refine hn.last (n := n) h.tree h.beach ?_ ?_ hlt fun p hp => ?_
        · simp only [siteStart]; rw [he]; rfl
        · intro p hp
          rw [← he]
          exact hpend p (h.sinv.used p hp)
        · obtain ⟨k, hk⟩ := Option.isSome_iff_exists.mp (h.sinv.used p hp)
          exact (h.sinv.nmLt p k hk).2
    · refine hK.imp id fun hk x hx hlf l hl => ?_
      simp only [siteStart, Option.some.injEq] at hl
      subst hl
      exact hk (fun hh => absurd hh hc) x hx

/-- Number of leaves. -/
def leaves (L : List (Item Dat)) : Nat := (origs id L).length

theorem origs_length (og : Nat → Nat) (L : List (Item Dat)) : (origs og L).length = leaves L := by
  unfold leaves
  induction L with
  | nil => rfl
  | cons x L ih =>
    obtain ⟨i, f, d⟩ := x
    cases d <;> simp [ih]

/-- The measure that decreases with every iteration. -/
def measure (n : Nat) (s : St K) (L : List (Item Dat)) : Nat := s.queue.length + 2 * leaves L + 6 * (n - s.nextName)

end Foronoi
