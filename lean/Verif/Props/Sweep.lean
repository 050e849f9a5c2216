import Verif.Proof.Bridge
import Verif.Proof.Borders

/-!
# Properties of the sweep that hold for every arithmetic (C02, C04–C12, C34, C40)

All theorems are for every list of `n` sites (`pts`), every priority queue that meets its specification and every arithmetic
satisfying `ArithLaws`.  Concrete runs meeting the hypotheses are in `Verif/Props/SweepExamples.lean`.
-/

namespace Foronoi

open scoped List

variable {K : Type} [LinearOrder K] [Arith K] [ArithLaws K]
variable {pts : Nat → K × K} {q : PQ (QE K)} {ok : List (QE K) → Prop} {n : Nat} {poly : Poly K} {s : St K} [MidLt pts n]

/-- C02: after the sweep the names are `0 … n-1`, each given to exactly one site, in sweep order. -/
theorem C02_names (hq : q.Spec evLt ok) {fuel : Nat} (h : sweepAll pts q n fuel (initSt poly) = .ok ((), s)) :
    (∀ p, (s.names p).isSome ↔ p < n) ∧ (∀ p k, s.names p = some k → k < n) ∧ (∀ k < n, ∃ p < n, s.names p = some k ∧
      ∀ p', s.names p' = some k → p' = p) ∧
    ∀ p p' i j, s.names p = some i → s.names p' = some j → i < j → ¬ Before (pts p') (pts p) := by
  obtain ⟨s0, hr, hp, rfl⟩ := sweepAll_reach h
  obtain ⟨L, hI⟩ := reach_inv hq hr
  obtain ⟨h1, h2⟩ := hI.done ((hq.pop_none _ hI.qinv.ok).mp hp)
  refine ⟨h2, fun p k hk => h1 ▸ (hI.sinv.nmLt p k hk).1, fun k hk => ?_, fun p p' i j h3 h4 hij => ?_⟩
  · obtain ⟨p, hp⟩ := hI.sinv.nmSurj k (by omega)
    exact ⟨p, (hI.sinv.nmLt p k hp).2, hp, fun p' hp' => hI.sinv.nmInj _ _ k hp' hp⟩
  · exact evLt_site_false (hI.sinv.ord p p' i j h3 h4 hij)

/-- C04, C05: with fuel for `7 n` events the sweep ends normally or with a Decimal signal: it does not run out of fuel (so it
terminates), and no other exception occurs. -/
theorem C05_sweep_errors (hq : q.Spec evLt ok) {fuel : Nat} (hf : 7 * n < fuel) {err : Err}
    (h : sweepAll pts q n fuel (initSt poly) = .error err) : err = .arith :=
  (wp_sweepAll (E := (· = .arith)) poly Follows.trivial hq trivial hf).err h

/-- C04: more fuel changes nothing: the run of the loop is the same for every fuel above `7 n`. -/
theorem C04_terminates (hq : q.Spec evLt ok) {fuel : Nat} (hf : 7 * n < fuel) :
    sweepAll pts q n fuel (initSt poly) ≠ .error .fuel := by
  intro h
  have := C05_sweep_errors hq hf h
  cases this

/-- C04: every site is handled once, and at most `2 n - 3` circle events are handled: the number of handled events
(`STEP_FINISHED` notifications) is `n` plus the number of vertices. -/
theorem C04_events (hq : q.Spec evLt ok) {fuel : Nat} (h : sweepAll pts q n fuel (initSt poly) = .ok ((), s)) :
    (s.log.filter (fun m => decide (m = .stepFinished))).length = n + s.verts.length ∧ (2 ≤ n → s.verts.length + 3 ≤ 2 * n) := by
  obtain ⟨s0, hr, hp, rfl⟩ := sweepAll_reach h
  obtain ⟨L, hI⟩ := reach_inv hq hr
  obtain ⟨h1, _⟩ := hI.done ((hq.pop_none _ hI.qinv.ok).mp hp)
  refine ⟨?_, fun hn => ?_⟩
  · have hl := (reach_log hq hr).log
    have hc : ∀ l : List Msg, (steps l).filter (fun m => decide (m = .stepFinished)) = l.filter (fun m => decide (m = .stepFinished)) := by
      intro l; unfold steps; rw [List.filter_filter]
      congr 1; funext m; cases m <;> simp
    simp only [List.filter_append]
    rw [← hc, hl, h1]
    simp
  · have ha := hI.cinv.arcs
    have ht := hI.cinv.two (by omega)
    show s0.verts.length + 3 ≤ 2 * n
    omega

/-- C06: twins. -/
theorem C06_twins (hq : q.Spec evLt ok) (h : Reach pts q n poly s) : TwinsMirror s.d := by
  obtain ⟨L, hI⟩ := reach_inv hq h
  intro e he
  obtain ⟨t, h1, h2, h3, h4⟩ := hI.dinv.tw e he
  exact ⟨t, h2, h3, h1, h4⟩

theorem links_of_dinv {pc : Nat} {L : List (Item Dat)} (hd : s.DInv pts pc L) : LinksCoherent s.d := by
  have hvb : ∀ o : Org, (¬ ∃ b, o = .bp b) ↔ ∃ v, o = .vtx v := by
    intro o; cases o <;> simp
  refine ⟨fun e he f hf => ?_, fun e he f hf => ?_, fun e he f hf => ?_, fun e he f hf => ?_, fun e he => ?_, fun e he => ?_⟩
  · exact ⟨(hd.nx e he f hf).1, (hd.nx e he f hf).2.1⟩
  · exact hd.pv e he f hf
  · exact (hd.nx e he f hf).2.2.1
  · obtain ⟨t, h1, _⟩ := hd.tw e he
    have h2 := (hd.nx e he f hf).2.2.2 t h1
    have h3 := (hd.nxn e he t h1).not
    rw [hf] at h3
    obtain ⟨v, hv⟩ := (hvb _).mp (h3.mp (by simp))
    exact ⟨v, ⟨t, h1, hv⟩, by rw [StartsAt, h2, hv]⟩
  · obtain ⟨t, h1, _⟩ := hd.tw e he
    have h3 := (hd.nxn e he t h1).not
    rw [hvb] at h3
    rw [← Option.ne_none_iff_isSome]
    refine h3.trans ⟨fun ⟨v, hv⟩ => ⟨v, t, h1, hv⟩, fun ⟨v, t', h4, hv⟩ => ?_⟩
    rw [h1] at h4; cases h4; exact ⟨v, hv⟩
  · have h3 := (hd.pvn e he).not
    rw [hvb] at h3
    rw [← Option.ne_none_iff_isSome]
    exact h3

/-- C07: `next`/`prev`. -/
theorem C07_links (hq : q.Spec evLt ok) (h : Reach pts q n poly s) : LinksCoherent s.d := by
  obtain ⟨L, hI⟩ := reach_inv hq h
  exact links_of_dinv hI.dinv

/-- C08: every listed vertex joins exactly three edges, between three different sites, and conversely every half-edge that starts
at a vertex is connected to it. -/
theorem C08_degree (hq : q.Spec evLt ok) (h : Reach pts q n poly s) :
    (∀ v ∈ s.verts, JoinsThree s.d v) ∧
    ∀ e < s.d.heCnt, ∀ v, StartsAt s.d e v → v ∈ s.verts ∧ e ∈ (s.d.vs v).conn := by
  obtain ⟨L, hI⟩ := reach_inv hq h
  refine ⟨fun v hv => ?_, fun e he v hv => hI.dinv.ovt e he v hv⟩
  obtain ⟨_, _, p, x, r, e1, e2, e3, ho⟩ := hI.dinv.vts v hv
  obtain ⟨⟨t1, a1, b1⟩, ⟨t2, a2, b2⟩, ⟨t3, a3, b3⟩⟩ := ho.tinc
  have n1 := hI.dinv.incne e1 ho.lt.1 t1 a1
  have n2 := hI.dinv.incne e2 ho.lt.2.1 t2 a2
  have n3 := hI.dinv.incne e3 ho.lt.2.2 t3 a3
  rw [b1, ho.inc.1] at n1
  rw [b2, ho.inc.2.1] at n2
  rw [b3, ho.inc.2.2] at n3
  refine ⟨e1, e3, e2, x, p, r, ?_, ho.ne13, ho.ne12, Ne.symm ho.ne23, ho.org.1, ho.org.2.2, ho.org.2.1, ?_, ?_, ?_,
    ⟨ho.inc.1, t1, a1, b1⟩, ⟨ho.inc.2.2, t3, a3, b3⟩, ⟨ho.inc.2.1, t2, a2, b2⟩⟩
  · rcases ho.conn with hc | hc
    · rw [hc]; exact (List.Perm.swap _ _ _).cons _
    · rw [hc]; exact (List.Perm.swap _ _ _).trans ((List.Perm.swap _ _ _).cons _)
  · intro hh; exact n1 (by rw [hh])
  · intro hh; exact n3 (by rw [hh])
  · intro hh; exact n2 (by rw [hh])

/-- C09: the two sides of an edge are different sites that were already met, and exactly one half of each edge is listed. -/
theorem C09_sides (hq : q.Spec evLt ok) (h : Reach pts q n poly s) :
    (∀ e < s.d.heCnt, ∃ t p r, (s.d.he e).twin = some t ∧ (s.d.he e).incident = some p ∧ (s.d.he t).incident = some r ∧
      p ≠ r ∧ p < n ∧ r < n ∧ (e ∈ s.edges ↔ t ∉ s.edges)) ∧
    s.edges.Nodup ∧ (∀ e ∈ s.edges, e < s.d.heCnt) ∧ 2 * s.edges.length = s.d.heCnt := by
  obtain ⟨L, hI⟩ := reach_inv hq h
  refine ⟨fun e he => ?_, hI.dinv.end_, hI.dinv.elt, hI.dinv.ecnt⟩
  obtain ⟨t, h1, h2, _⟩ := hI.dinv.tw e he
  obtain ⟨p, h3, h4⟩ := hI.dinv.inc e he
  obtain ⟨r, h5, h6⟩ := hI.dinv.inc t h2
  have h7 := hI.dinv.incne e he t h1
  obtain ⟨k, hk⟩ := Option.isSome_iff_exists.mp h4
  obtain ⟨k', hk'⟩ := Option.isSome_iff_exists.mp h6
  refine ⟨t, p, r, h1, h3, h5, ?_, (hI.sinv.nmLt _ _ hk).2, (hI.sinv.nmLt _ _ hk').2, hI.dinv.etw e he t h1⟩
  intro hh
  rw [h3, h5, hh] at h7
  exact h7 rfl

/-- C10: Euler's relation, and the size is linear. -/
theorem C10_euler (hq : q.Spec evLt ok) {fuel : Nat} (hn : 1 ≤ n) (h : sweepAll pts q n fuel (initSt poly) = .ok ((), s)) :
    s.edges.length = (n - 1) + s.verts.length ∧ (2 ≤ n → s.verts.length + 3 ≤ 2 * n) := by
  have h2 := (C04_events hq h).2
  obtain ⟨s0, hr, hp, rfl⟩ := sweepAll_reach h
  obtain ⟨L, hI⟩ := reach_inv hq hr
  obtain ⟨h1, _⟩ := hI.done ((hq.pop_none _ hI.qinv.ok).mp hp)
  refine ⟨?_, h2⟩
  have he := hI.cinv.edges
  show s0.edges.length = n - 1 + s0.verts.length
  omega

/-- C11: a valid event in the queue describes the current beach line, and no two of them belong to the same leaf. -/
theorem C11_events (hq : q.Spec evLt ok) (h : Reach pts q n poly s) :
    (∀ e ∈ s.queue, e.circ = true → (s.evs e.ref).valid = true → EventCurrent s e.ref) ∧
    (∀ e ∈ s.queue, ∀ e' ∈ s.queue, e.circ = true → e'.circ = true → (s.evs e.ref).valid = true → (s.evs e'.ref).valid = true →
      (s.evs e.ref).arcPtr = (s.evs e'.ref).arcPtr → e = e') := by
  obtain ⟨L, hI⟩ := reach_inv hq h
  have key : ∀ e ∈ s.queue, e.circ = true → (s.evs e.ref).valid = true → ∃ A n a B t, L = A ++ ⟨n, true, .arc a⟩ :: B ∧
      (s.arcs a).cev = some e.ref ∧ tripleAt s.og A a B = some t ∧ mkEv pts n t = some (s.evs e.ref) :=
    fun e he hc hv => hI.qinv.ev e he hc hv
  rcases hI.tree with ⟨hh, ⟨hr, hL⟩ | ⟨t, hr, ht, hL⟩⟩
  · refine ⟨fun e he hc hv => ?_, fun e he e' he' hc hc' hv hv' _ => ?_⟩ <;>
    · obtain ⟨A, n, a, B, t, h1, _⟩ := key e he hc hv
      rw [hL] at h1; simp at h1
  · refine ⟨fun e he hc hv => ?_, fun e he e' he' hc hc' hv hv' hpt => ?_⟩
    · have hev := hI.qinv.ev e he hc hv
      obtain ⟨P, hLP, hcev, hptr, hmk, _⟩ := hev.place hI.beach
      refine ⟨t.id, lvs L, lvs P.pre, lvs P.post, P.n1, P.a1, P.a, P.n3, P.a3, hr, ?_, ?_, hcev, (mkEv_valid hmk).2.1⟩
      · rw [← hL]; exact leaves_of_repr ht.repr (hL ▸ hI.beach.kindsOk)
      · rw [hLP, hptr]; simp [Place.list]
    · obtain ⟨A, m, a, B, t1, h1, h2, h3, h4⟩ := key e he hc hv
      obtain ⟨A', m', a', B', t1', h1', h2', h3', h4'⟩ := key e' he' hc' hv'
      have hm : m = m' := by rw [← (mkEv_valid h4).2.2, ← (mkEv_valid h4').2.2, hpt]
      subst hm
      have hnd : (L.map (·.id)).Nodup := by rw [← hL, ← T.ids_eq]; exact ht.nd
      have haa : (⟨m, true, .arc a⟩ : Item Dat) = ⟨m, true, .arc a'⟩ := by
        have m1 : (⟨m, true, .arc a⟩ : Item Dat) ∈ L := by rw [h1]; simp
        have m2 : (⟨m, true, .arc a'⟩ : Item Dat) ∈ L := by rw [h1']; simp
        exact List.inj_on_of_nodup_map hnd m1 m2 rfl
      cases haa
      rw [h2] at h2'
      have hre : e.ref = e'.ref := by simpa using h2'
      rw [hI.qinv.qe e he hc, hI.qinv.qe e' he' hc', hre]

/-- C12: the status tree is well formed; its arcs belong to sites already met. -/
theorem C12_tree (hq : q.Spec evLt ok) (h : Reach pts q n poly s) :
    ∃ sites, StatusTree s sites ∧ ∀ p ∈ sites, (s.names p).isSome := by
  obtain ⟨L, hI⟩ := reach_inv hq h
  refine ⟨origs s.og L, ?_, fun p hp => hI.sinv.used p hp⟩
  rcases hI.tree with ⟨hh, ⟨hr, hL⟩ | ⟨t, hr, ht, hL⟩⟩
  · exact Or.inl ⟨hr, by rw [hL]; rfl⟩
  · refine Or.inr ⟨t.id, t.ids, hr, ht.nd, ?_⟩
    rw [← hL]
    refine beachTree_of_repr (A := []) (B := []) ht.repr (hL ▸ hI.beach.kindsOk) ?_
    simp only [List.nil_append, List.append_nil]
    exact hL ▸ hI.beach.pairsOk

/-- C34: on a coherent structure `borders` terminates (fuel: number of half-edges), starts with `first_edge`, follows `next`,
repeats nothing, stays at the site, and stops at a missing link or back at the first edge. -/
theorem C34_borders {d : Dcel K} (hd : LinksCoherent d) {p e : Nat} (hfe : d.fe p = some e) (he : e < d.heCnt)
    (hp : (d.he e).incident = some p) {fuel : Nat} (hf : d.heCnt ≤ fuel) :
    ∃ l, borders fuel p d = .ok (l, d) ∧ l.head? = some e ∧ l.Nodup ∧ (∀ x ∈ l, (d.he x).incident = some p) ∧
      l.IsChain (fun x y => (d.he x).next = some y) ∧
      ∃ z, l.getLast? = some z ∧ ((d.he z).next = none ∨ (d.he z).next = some e) := by
  have hw : Wp (fun _ => False) (borders fuel p) d (fun l d' => d' = d ∧ l.head? = some e ∧ l.Nodup ∧
      (∀ x ∈ l, (d.he x).incident = some p) ∧ l.IsChain (fun x y => (d.he x).next = some y) ∧
      ∃ z, l.getLast? = some z ∧ ((d.he z).next = none ∨ (d.he z).next = some e)) := by
    unfold borders
    simp only [wp_bind, wp_rdFE', hfe]
    refine wp_mono (wp_bordersLoop (E := fun _ => False) (first := e) hd.next_prev fuel [] e (by simp) (by simpa using he) (by simp) (by simp)
      (by simp; omega)) ?_
    rintro l d' ⟨h1, h2, h3, h4, h5, h6⟩
    refine ⟨h1, h4, h2, ?_, h5, h6⟩
    refine chain_incident hd.same_cell h3 h5 ?_
    intro x hx
    rw [h4] at hx; cases hx; exact hp
  unfold Wp at hw
  cases hb : borders fuel p d with
  | error er => rw [hb] at hw; exact absurd hw (by simp)
  | ok v =>
    obtain ⟨l, d'⟩ := v
    rw [hb] at hw
    obtain ⟨rfl, h2⟩ := hw
    exact ⟨l, rfl, h2⟩

/-- C34 for the states of the sweep: `borders()` of every site succeeds. -/
theorem C34_borders_sweep (hq : q.Spec evLt ok) (h : Reach pts q n poly s) (p : Nat) {fuel : Nat} (hf : s.d.heCnt ≤ fuel) :
    ∃ l, borders fuel p s.d = .ok (l, s.d) ∧ l.Nodup ∧ (∀ x ∈ l, (s.d.he x).incident = some p) ∧ l.head? = s.d.fe p := by
  obtain ⟨L, hI⟩ := reach_inv hq h
  cases hfe : s.d.fe p with
  | none =>
    refine ⟨[], ?_, by simp, by simp, rfl⟩
    simp [borders, rdFE, hfe, bind, StateT.bind, Except.bind, pure, StateT.pure, Except.pure]
  | some e =>
    obtain ⟨h1, h2⟩ := hI.dinv.fe p e hfe
    obtain ⟨l, g1, g2, g3, g4, _⟩ := C34_borders (links_of_dinv hI.dinv) hfe h1 h2 hf
    exact ⟨l, g1, g3, g4, g2⟩

/-- C40 (sweep part): at every step notification the sweep line is at the height of the event just handled, and the notifications
of the sweep are one `STEP_FINISHED` per handled event followed by one `SWEEP_FINISHED`. -/
theorem C40_sweep_line (hq : q.Spec evLt ok) (h : Reach pts q n poly s) :
    (∀ p, s.event = some (.site p) → s.sweep = some (pts p).2) ∧
    (∀ c, s.event = some (.circle c) → s.sweep = some (Arith.sub (s.evs c).center.2 (s.evs c).radius)) := by
  have hl := reach_log hq h
  exact ⟨hl.site, fun c hc => (hl.circ c hc).2⟩

theorem C40_sweep_log (hq : q.Spec evLt ok) {fuel : Nat} (h : sweepAll pts q n fuel (initSt poly) = .ok ((), s)) :
    steps s.log = List.replicate (n + s.verts.length) .stepFinished ++ [.sweepFinished] := by
  obtain ⟨s0, hr, hp, rfl⟩ := sweepAll_reach h
  obtain ⟨L, hI⟩ := reach_inv hq hr
  obtain ⟨h1, _⟩ := hI.done ((hq.pop_none _ hI.qinv.ok).mp hp)
  have hl := (reach_log hq hr).log
  show steps (s0.log ++ [.debug] ++ [.sweepFinished]) = _
  have : steps (s0.log ++ [.debug] ++ [.sweepFinished]) = steps s0.log ++ [.sweepFinished] := by simp [steps]
  rw [this, hl, h1]

end Foronoi
