import Verif.Props.NewEvents
import Verif.Props.SweepExamples

/-! # An event whose handling puts two circle events (C107) -/

namespace Foronoi

/-- The first `k` iterations of the main loop. -/
def firstSteps {K : Type} [LinearOrder K] [Arith K] [FrcOf K] (pts : Nat → K × K) (q : PQ (QE K)) (n : Nat) : Nat → St K → Except Err (Unit × St K)
  | 0, s => .ok ((), s)
  | k + 1, s =>
    match q.pop s.queue with
    | none => .error .fuel
    | some (e, rest) => thenF n (handleEvent pts q e { s with queue := rest }) fun _ s => firstSteps pts q n k s

theorem firstSteps_reach {K : Type} [LinearOrder K] [Arith K] [FrcOf K] {pts : Nat → K × K} {q : PQ (QE K)} {n : Nat} {poly : Poly K} :
    ∀ {k : Nat} {s s' : St K}, Reach pts q n poly s → firstSteps pts q n k s = .ok ((), s') → Reach pts q n poly s' := by
  intro k
  induction k with
  | zero => intro s s' hr h; cases h; exact hr
  | succ k ih =>
    intro s s' hr h
    unfold firstSteps at h
    cases hp : q.pop s.queue with
    | none => rw [hp] at h; cases h
    | some er =>
      obtain ⟨e, rest⟩ := er
      rw [hp] at h
      simp only at h
      rw [thenF_eq n (handleEvent pts q e) _ (fun _ => firstSteps pts q n k)] at h
      simp only [bind, StateT.bind, Except.bind] at h
      cases hh : handleEvent pts q e { s with queue := rest } with
      | error x => rw [hh] at h; cases h
      | ok v =>
        obtain ⟨⟨⟩, s1⟩ := v
        rw [hh] at h
        exact ih (hr.step hp hh) h

/-- The fourth site is below the arc between the breakpoints of the second and the third. -/
def exNew : Nat → ℚ × ℚ := ptsOf [(0, 10), (-6, 5), (6, 4), (0, 0)]

/-- What happens after three iterations: one circle event so far, and the next iteration makes two more. -/
def exNewNext (s : St ℚ) : Bool :=
  match heapq.pop s.queue with
  | some (e, rest) =>
    match handleEvent exNew heapq e { s with queue := rest } with
    | .ok (_, s') => decide (s.evCnt = 1 ∧ s'.evCnt = 3 ∧ e.circ = false)
    | .error _ => false
  | none => false

set_option maxRecDepth 100000

/-- C107 on a run: handling the fourth site puts exactly two circle events. -/
example : ∃ s e rest s' new, Reach exNew heapq 4 exBox s ∧ heapq.pop s.queue = some (e, rest) ∧
    handleEvent exNew heapq e { s with queue := rest } = .ok ((), s') ∧ PutEvents new rest s.evCnt s' ∧ new.length = 2 := by
  have h : chk (firstSteps exNew heapq 4 3 (startSt exNew heapq 4 exBox)) (fun _ s => exNewNext s) = true := by decide +kernel
  obtain ⟨⟨⟩, s, h1, h2⟩ := chk_ok h
  have hr : Reach exNew heapq 4 exBox s := firstSteps_reach (.start rfl) h1
  unfold exNewNext at h2
  cases hp : heapq.pop s.queue with
  | none => rw [hp] at h2; cases h2
  | some er =>
    obtain ⟨e, rest⟩ := er
    rw [hp] at h2
    simp only at h2
    cases hh : handleEvent exNew heapq e { s with queue := rest } with
    | error x => rw [hh] at h2; cases h2
    | ok v =>
      obtain ⟨⟨⟩, s'⟩ := v
      rw [hh] at h2
      obtain ⟨g1, g2, _⟩ := of_decide_eq_true h2
      obtain ⟨new, hn⟩ := C107_new_events C45_event_queue hr hp hh
      exact ⟨s, e, rest, s', new, hr, hp, hh, hn, by have := hn.cnt; omega⟩

end Foronoi
