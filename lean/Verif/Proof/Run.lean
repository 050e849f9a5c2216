import Verif.Proof.SweepInv

/-!
# Whole runs of the sweep
-/

namespace Foronoi

open scoped List

variable {K : Type} [LinearOrder K] [Arith K] {E : Err → Prop}
variable {pts : Nat → K × K} {q : PQ (QE K)} {ok : List (QE K) → Prop} {n pc : Nat}

/-- The queue `initQueue` makes. -/
def startQueue (pts : Nat → K × K) (q : PQ (QE K)) (n : Nat) : List (QE K) :=
  (List.range n).foldl (fun l p => q.push (siteQE pts p) l) []

/-- The state before the first event. -/
def startSt (pts : Nat → K × K) (q : PQ (QE K)) (n : Nat) (poly : Poly K) : St K :=
  { initSt poly with queue := startQueue pts q n }

theorem startQueue_spec (hq : q.Spec evLt ok) (n : Nat) :
    ok (startQueue pts q n) ∧ startQueue pts q n ~ (List.range n).map (siteQE pts) := by
  induction n with
  | zero => exact ⟨hq.ok_nil, by simp [startQueue]⟩
  | succ n ih =>
    have heq : startQueue pts q (n + 1) = q.push (siteQE pts n) (startQueue pts q n) := by
      simp [startQueue, List.range_succ, List.foldl_append]
    rw [heq]
    refine ⟨hq.push_ok _ _ ih.1, (hq.push_perm _ _ ih.1).trans ?_⟩
    rw [List.range_succ, List.map_append, List.map_cons, List.map_nil]
    exact (ih.2.cons _).trans (List.perm_append_singleton _ _).symm

theorem inv_start (hq : q.Spec evLt ok) (poly : Poly K) :
    Inv pts ok n poly.points.length (startSt pts q n poly) [] := by
  obtain ⟨h1, h2⟩ := startQueue_spec (pts := pts) hq n
  have hmem : ∀ e ∈ startQueue pts q n, ∃ p < n, e = siteQE pts p := by
    intro e he
    obtain ⟨p, hp, rfl⟩ := List.mem_map.mp (h2.mem_iff.mp he)
    exact ⟨p, by simpa using hp, rfl⟩
  refine ⟨?_, ?_, ?_, ?_, ?_, ?_⟩
  · refine ⟨?_, Or.inl ⟨rfl, rfl⟩⟩
    intro i h hh; simp [startSt, initSt] at hh
  · constructor <;> simp [NoABAB]
  · refine ⟨h1, ?_, ?_, ?_, ?_, ?_, ?_, ?_⟩
    · refine ((h2.map _).nodup_iff).mpr ?_
      rw [List.map_map]
      refine List.Nodup.map ?_ List.nodup_range
      intro a b hab
      simpa [siteQE] using hab
    · intro e he hc; obtain ⟨p, _, rfl⟩ := hmem e he; simp [siteQE] at hc
    · intro e he hc; obtain ⟨p, _, rfl⟩ := hmem e he; simp [siteQE] at hc
    · intro e he hc; obtain ⟨p, _, rfl⟩ := hmem e he; simp [siteQE] at hc
    · intro a c h; simp [startSt, initSt] at h
    · intro a a' c h; simp [startSt, initSt] at h
    · intro a _; simp [startSt, initSt]
  · refine ⟨?_, ?_, ?_, ?_, ?_, ?_, ?_, ?_, ?_⟩
    · intro e he hc; obtain ⟨p, hp, rfl⟩ := hmem e he; exact ⟨rfl, hp, rfl⟩
    · intro p k h; simp [startSt, initSt] at h
    · intro p p' k h; simp [startSt, initSt] at h
    · intro k hk; simp [startSt, initSt] at hk
    · intro p p' i j h; simp [startSt, initSt] at h
    · intro p h; simp [startSt, initSt] at h
    · intro p hp _
      exact ⟨siteQE pts p, h2.mem_iff.mpr (List.mem_map.mpr ⟨p, by simpa using hp, rfl⟩), rfl, rfl⟩
    · intro p hp; simp at hp
    · simp [startSt, initSt]
  · refine { tw := ?_, inc := ?_, incne := ?_, obp := ?_, tbp := ?_, ovt := ?_, vts := ?_, vnd := ?_, vcnt := ?_, nx := ?_, pv := ?_, nxn := ?_
             pvn := ?_, end_ := ?_, elt := ?_, etw := ?_, ecnt := ?_, fe := ?_, feAll := ?_, poly := ?_ }
    all_goals simp [startSt, initSt]
    intro v _; rfl
  · refine ⟨Or.inr rfl, Or.inr ⟨rfl, rfl, rfl⟩, ?_⟩
    intro h; simp [startSt, initSt] at h

theorem measure_start (hq : q.Spec evLt ok) (poly : Poly K) : measure n (startSt pts q n poly) [] = 7 * n := by
  obtain ⟨_, h2⟩ := startQueue_spec (pts := pts) hq n
  have h3 : (startQueue pts q n).length = n := by rw [h2.length_eq]; simp
  simp only [measure, startSt, initSt, leaves, origs_nil, List.length_nil, h3]
  omega

variable [ArithLaws K] [MidLt pts n]

/-- Hypotheses under which a property `J` of states and beach lines follows the sweep: it gives the keys the searches need, and
every step keeps it. -/
structure Follows (E : Err → Prop) (pts : Nat → K × K) (q : PQ (QE K)) (ok : List (QE K) → Prop) (n pc : Nat)
    (J : St K → List (Item Dat) → Prop) : Prop where
  keys : ∀ s L e rest, Inv pts ok n pc s L → J s L → q.pop s.queue = some (e, rest) →
    (E .arith ∨ ((e.circ = true → (s.evs e.ref).valid = true) → ∀ x ∈ L, (keyOf pts s.bps s.arcs e.yd x.d).isSome))
  circ : E .arith ∨ ∀ p q r, (createCircle (pts p) (pts q) (pts r)).isSome
  step : ∀ s L e rest s' L', Inv pts ok n pc s L → J s L → q.pop s.queue = some (e, rest) →
    EvStep pts q e rest s L s' L' → Inv pts ok n pc s' L' → J s' L'

/-- Nothing but `Err.arith` can go wrong, without any further assumption. -/
theorem Follows.trivial : Follows (· = .arith) pts q ok n pc (fun _ _ => True) :=
  ⟨fun _ _ _ _ _ _ _ => Or.inl rfl, Or.inl rfl, fun _ _ _ _ _ _ _ _ _ _ _ => True.intro⟩

theorem wp_sweepLoop {J : St K → List (Item Dat) → Prop} (hJ : Follows E pts q ok n pc J) (hq : q.Spec evLt ok) :
    ∀ (fuel : Nat) (s : St K) (L : List (Item Dat)), Inv pts ok n pc s L → J s L → measure n s L < fuel →
      Wp E (sweepLoop pts q fuel) s (fun _ s' => ∃ L', Inv pts ok n pc s' L' ∧ J s' L' ∧ s'.queue = []) := by
  intro fuel
  induction fuel with
  | zero => intro s L _ _ h; omega
  | succ fuel ih =>
    intro s L h hj hm
    unfold sweepLoop
    simp only [wp_bind, wp_get]
    cases hp : q.pop s.queue with
    | none =>
      simp only [wp_pure]
      exact ⟨L, h, hj, (hq.pop_none _ h.qinv.ok).mp hp⟩
    | some er =>
      obtain ⟨e, rest⟩ := er
      simp only [wp_bind, wp_set]
      refine wp_mono (wp_handleEvent h hq hp (hJ.keys s L e rest h hj hp) hJ.circ) ?_
      rintro _ s' ⟨L', hst⟩
      obtain ⟨h', hm'⟩ := h.step hq hp hst
      exact ih s' L' h' (hJ.step s L e rest s' L' h hj hp hst h') (by omega)

/-- The end of the sweep: every site was named. -/
theorem Inv.done {s : St K} {L : List (Item Dat)} (h : Inv pts ok n pc s L) (hq : s.queue = []) :
    s.nextName = n ∧ ∀ p, (s.names p).isSome ↔ p < n := by
  have hall : ∀ p < n, s.names p ≠ none := by
    intro p hp hnone
    obtain ⟨e, he, _⟩ := h.sinv.all p hp hnone
    rw [hq] at he; cases he
  refine ⟨h.sinv.eq hall, fun p => ⟨fun hp => ?_, fun hp => ?_⟩⟩
  · obtain ⟨k, hk⟩ := Option.isSome_iff_exists.mp hp
    exact (h.sinv.nmLt p k hk).2
  · exact Option.ne_none_iff_isSome.mp (hall p hp)

theorem wp_sweepAll {J : St K → List (Item Dat) → Prop} (poly : Poly K) (hJ : Follows E pts q ok n poly.points.length J)
    (hq : q.Spec evLt ok) (hj0 : J (startSt pts q n poly) []) {fuel : Nat} (hf : 7 * n < fuel) :
    Wp E (sweepAll pts q n fuel) (initSt poly) (fun _ s' => ∃ s L, Inv pts ok n poly.points.length s L ∧ J s L ∧ s.queue = [] ∧
      s' = { s with log := s.log ++ [.debug] ++ [.sweepFinished] }) := by
  unfold sweepAll initQueue
  simp only [wp_bind, wp_modify, wp_notify]
  refine wp_mono (wp_sweepLoop hJ hq fuel (startSt pts q n poly) [] (inv_start hq poly) hj0 (by rw [measure_start hq]; exact hf)) ?_
  rintro _ s' ⟨L', h1, h2, h3⟩
  exact ⟨s', L', h1, h2, h3, rfl⟩

end Foronoi
