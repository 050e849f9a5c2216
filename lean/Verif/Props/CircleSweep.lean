import Verif.Props.BoundingCircle
import Verif.Props.Complete

/-!
# What is left of C39: the sweep before the clipping to a circle

`C55_circle_raises`: `create_diagram` with a bounding circle always raises.  The sweep is not to blame.
-/

namespace Foronoi

variable {pts : Nat → ℝ × ℝ} {q : PQ (QE ℝ)} {ok : List (QE ℝ) → Prop} {n : Nat}

/-- C39, partial: with exact arithmetic and distinct sites the sweep of `create_diagram` with a bounding circle completes and has found
exactly the Voronoi vertices; what raises (`C55_circle_raises`) is `finish_edges` or `finish_polygon`, run on the state `s`.  Missing:
that these two complete, which is false. -/
theorem C39_sweep_partial (hd : Distinct pts n) (hq : q.Spec evLt ok) (k : BCirc ℝ) {fuel : Nat} (hf : 7 * n < fuel) :
    ∃ s, sweepAll pts q n fuel (initSt k.poly) = .ok ((), s) ∧ s.queue = [] ∧
      (∀ z, VoronoiVertex pts n z ↔ ∃ v ∈ s.verts, (s.d.vs v).pos = some z) ∧
      ∃ e, (finishEdgesC pts k s.edges >>= fun _ => finishPolygonT pts n k) s = .error e := by
  obtain ⟨s, log', h1, h2, h3⟩ := C23_no_errors (poly := k.poly) hd hq hf
  refine ⟨_, h1, h3, fun z => C60_vertices hd hq h2 h3 z, ?_⟩
  obtain ⟨e, he⟩ := C55_circle_raises pts q n fuel k (initSt k.poly)
  refine ⟨e, ?_⟩
  unfold createDiagramC at he
  simp only [bind, StateT.bind, Except.bind, h1] at he ⊢
  exact he

/-- The hypotheses can be met. -/
example (k : BCirc ℝ) : ∃ s, sweepAll tri3 heapq 3 22 (initSt k.poly) = .ok ((), s) ∧ ∃ v ∈ s.verts, (s.d.vs v).pos = some (1, 1) := by
  obtain ⟨s, h1, _, h2, _⟩ := C39_sweep_partial tri3_distinct C45_event_queue k (fuel := 22) (by norm_num)
  exact ⟨s, h1, (h2 (1, 1)).mp
    ⟨0, 1, 2, by norm_num, by norm_num, by norm_num, tri3_nearest (by norm_num), tri3_nearest (by norm_num), tri3_nearest (by norm_num)⟩⟩

end Foronoi
