import Verif.Props.Sweep
import Verif.Props.Queue
import Verif.Proof.Force

/-!
# Concrete runs meeting the hypotheses of `Verif/Props/Sweep.lean`

Five sites in general position, and a grid with ties (equal heights, four cocircular sites), evaluated by the kernel with exact
rational arithmetic and the model of `heapq`.
-/

namespace Foronoi

def ptsOf (l : List (ℚ × ℚ)) : Nat → ℚ × ℚ := fun i => l.getD i (0, 0)

def ex5 : Nat → ℚ × ℚ := ptsOf [(0, 0), (4, 1), (1, 3), (5, -2), (2, 7)]

/-- Two rows; the sites 0, 1, 3, 4 lie on a circle. -/
def exGrid : Nat → ℚ × ℚ := ptsOf [(0, 0), (2, 0), (5, 0), (0, 2), (2, 2)]

/-- `BoundingBox(-10, 10, -10, 10)`. -/
def exBox : Poly ℚ := ⟨[(-10, 10), (10, 10), (10, -10), (-10, -10)], -10, -10, 10, 10, (0, 0)⟩

example : (boundingBox (-10) 10 (-10) (10 : ℚ)).toOption.map (fun p => (p.points, [p.minY, p.minX, p.maxY, p.maxX, p.center.1, p.center.2])) =
    some (exBox.points, [exBox.minY, exBox.minX, exBox.maxY, exBox.maxX, exBox.center.1, exBox.center.2]) := by decide +kernel

set_option maxRecDepth 100000

theorem ex5_run : ∃ s, sweepAll ex5 heapq 5 40 (initSt exBox) = .ok ((), s) ∧ s.verts.length = 4 ∧ s.edges.length = 8 ∧
    (List.range 5).map s.names = [some 3, some 2, some 1, some 4, some 0] := by
  have h : chk (sweepAllF ex5 heapq 5 40 (initSt exBox)) (fun _ s => decide (s.verts.length = 4 ∧ s.edges.length = 8 ∧
    (List.range 5).map s.names = [some 3, some 2, some 1, some 4, some 0])) = true := by decide +kernel
  obtain ⟨a, s, h1, h2⟩ := chk_ok h
  rw [sweepAllF_eq] at h1
  exact ⟨s, h1, of_decide_eq_true h2⟩

theorem exGrid_run : ∃ s, sweepAll exGrid heapq 5 40 (initSt exBox) = .ok ((), s) ∧ s.edges.length = 4 + s.verts.length ∧
    2 ≤ s.verts.length := by
  have h : chk (sweepAllF exGrid heapq 5 40 (initSt exBox)) (fun _ s => decide (s.edges.length = 4 + s.verts.length ∧
    2 ≤ s.verts.length)) = true := by decide +kernel
  obtain ⟨a, s, h1, h2⟩ := chk_ok h
  rw [sweepAllF_eq] at h1
  exact ⟨s, h1, of_decide_eq_true h2⟩

/-- A reachable state with four vertices (the last one of the run), to which every theorem about `Reach` applies. -/
theorem ex5_reach : ∃ s, Reach ex5 heapq 5 exBox s ∧ s.verts.length = 4 ∧ s.edges.length = 8 := by
  obtain ⟨s, h, h1, h2, _⟩ := ex5_run
  obtain ⟨s0, hr, hp, rfl⟩ := sweepAll_reach h
  exact ⟨s0, hr, h1, h2⟩

example : ∃ s, Reach ex5 heapq 5 exBox s ∧ s.verts.length = 4 ∧ TwinsMirror s.d ∧ LinksCoherent s.d ∧ ∀ v ∈ s.verts, JoinsThree s.d v := by
  obtain ⟨s, hr, h1, _⟩ := ex5_reach
  exact ⟨s, hr, h1, C06_twins C45_event_queue hr, C07_links C45_event_queue hr, (C08_degree C45_event_queue hr).1⟩

/-- C02 on the run: the names given above are those of the theorem. -/
example : ∃ s, sweepAll ex5 heapq 5 40 (initSt exBox) = .ok ((), s) ∧ ∀ p, (s.names p).isSome ↔ p < 5 := by
  obtain ⟨s, h, _⟩ := ex5_run
  exact ⟨s, h, (C02_names C45_event_queue h).1⟩

end Foronoi
