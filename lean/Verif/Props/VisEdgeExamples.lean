import Verif.Props.VisEdges
import Verif.Props.VisExamples

/-!
# Pictures of the edges: concrete cases, and an edge that is not drawn

C83: with the top of the canvas at height 0 (`max_y or inf`) the edge between two neighbours in the topmost row is not drawn.
-/

namespace Foronoi

open scoped List

/-- C80 and C82 apply: in the last state over a right triangle, the point halfway between two corners is on a drawn line. -/
example (poly : Poly ℝ) : ∃ s ds zs, Reach tri3 heapq 3 poly s ∧ plotEdges tri3 ⟨-10, 10, -10, 10⟩ s false = .ok ds ∧
    OnLine ds (0, 1) ∧ (∀ z : ℝ × ℝ, z.2 < 10 → OnLine ds z → ∃ p r, p ≠ r ∧ Nearest tri3 3 p z ∧ Nearest tri3 3 r z) ∧
    plotVertices s = .ok [.dots zs .vertices] ∧ ∀ z ∈ zs, VoronoiVertex tri3 3 z := by
  obtain ⟨s, l, hr, hl, hnm, hup⟩ := tri3_last poly
  obtain ⟨ds, h1, h2, h3⟩ := C80_edges_drawn tri3_distinct C45_event_queue hr hl ⟨-10, 10, -10, 10⟩ false
  obtain ⟨zs, h4, h5, _⟩ := C82_vertices_drawn tri3_distinct C45_event_queue hr
  have hl0 : l < 0 := by
    have := hup _ ⟨0, hnm 0 (by norm_num), rfl⟩
    simpa [tri3] using this
  refine ⟨s, ds, zs, hr, h1, h3 _ (by norm_num) (by norm_num) ⟨by dsimp only; linarith, tri3 0, ⟨0, hnm 0 (by norm_num), rfl⟩, ?_⟩ ⟨0, 2, by norm_num, ⟨by norm_num, ?_⟩, ⟨by norm_num, ?_⟩⟩,
    fun z hz hz' => (h2 z hz hz').2, h4, h5⟩
  · simp only [sqDist, tri3, if_true]
    nlinarith
  · intro q hq
    have h9 : q = 0 ∨ q = 1 ∨ q = 2 := by omega
    rcases h9 with rfl | rfl | rfl <;> norm_num [sqDist, tri3]
  · intro q hq
    have h9 : q = 0 ∨ q = 1 ∨ q = 2 := by omega
    rcases h9 with rfl | rfl | rfl <;> norm_num [sqDist, tri3]

/-- Two sites in a row, and one below. -/
def exTop : Nat → ℚ × ℚ := ptsOf [(-3, -4), (3, -4), (4, -11)]

set_option maxRecDepth 100000

/-- Whether all ends of a drawn line with finite ends are below `y`. -/
def endsBelow (y : ℚ) : Draw ℚ → Bool
  | .line (_, .fin a) (_, .fin b) _ => a < y && b < y
  | _ => true

/-- C83: the point (0, -1) is on the edge between the cells of the first two sites, but no visible line comes near it. -/
theorem C83_top_edge_missing : ∃ s ds, Reach exTop heapq 3 exBox s ∧ s.sweep = some (-13) ∧
    plotEdges exTop ⟨-10, 10, -20, 0⟩ s false = .ok ds ∧
    (∀ (a b : ℚ × ℚ) c, Draw.line (a.1, .fin a.2) (b.1, .fin b.2) c ∈ ds → a.2 < -6 ∧ b.2 < -6) ∧
    (∀ i < 3, 18 ≤ ((exTop i).1 - 0) ^ 2 + ((exTop i).2 - (-1)) ^ 2) ∧
    (∀ i < 2, ((exTop i).1 - 0) ^ 2 + ((exTop i).2 - (-1)) ^ 2 = 18) ∧ (18 : ℚ) < (-1 - (-13)) ^ 2 := by
  have h : chk (sweepAllF exTop heapq 3 40 (initSt exBox)) (fun _ s => decide (s.sweep = some (-13) ∧
      ((plotEdges exTop ⟨-10, 10, -20, 0⟩ s false).toOption.map (·.all (endsBelow (-6)))) = some true)) = true := by decide +kernel
  obtain ⟨a, s, h1, h2⟩ := chk_ok h
  rw [sweepAllF_eq] at h1
  obtain ⟨s0, hr, hp, rfl⟩ := sweepAll_reach h1
  obtain ⟨k1, k2⟩ := of_decide_eq_true h2
  have k2 : ((plotEdges exTop ⟨-10, 10, -20, 0⟩ s0 false).toOption.map (·.all (endsBelow (-6)))) = some true := k2
  cases hds : plotEdges exTop ⟨-10, 10, -20, 0⟩ s0 false with
  | error er =>
    rw [hds] at k2
    cases k2
  | ok ds =>
    rw [hds] at k2
    simp only [Except.toOption, Option.map_some, Option.some.injEq, List.all_eq_true] at k2
    refine ⟨s0, ds, hr, k1, hds, ?_, by decide +kernel, by decide +kernel, by norm_num⟩
    intro a b c hm
    have := k2 _ hm
    simpa [endsBelow] using this

end Foronoi
