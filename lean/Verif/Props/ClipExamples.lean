import Verif.Props.SweepExamples
import Verif.Props.Clip
import Verif.Props.Single

/-!
# Concrete results of `create_diagram`, and what they refute

Runs of the whole of `create_diagram`, evaluated by the kernel with exact rational arithmetic and the model of `heapq`.  They meet the
hypotheses of `Verif/Props/Clip.lean` and `Verif/Props/Single.lean`, and two of them refute properties one would expect:

* two sites at equal height in the middle of a box: the only Voronoi edge is lost and one site has no cell (`C46_lost_edge`);
* four cocircular sites with clean-up: an edge starts at a vertex that is not listed any more (`C47_lost_vertex`).

Neither run takes a square root that is not exact.
-/

namespace Foronoi

set_option maxRecDepth 100000

deriving instance DecidableEq for Poly

/-- The corners of a square. -/
def exSq : Nat → ℚ × ℚ := ptsOf [(1, 1), (-1, 1), (1, -1), (-1, -1)]

/-- Two sites at the same height. -/
def exTwo : Nat → ℚ × ℚ := ptsOf [(-1, 0), (1, 0)]

theorem ofToOption {α : Type} {x : Except Err α} {a : α} (h : x.toOption = some a) : x = .ok a := by
  cases x with
  | error e => cases h
  | ok b => exact congrArg Except.ok (Option.some.inj h)

/-- The runner with forced evaluation is the runner. -/
theorem createRun {pts : Nat → ℚ × ℚ} {n fuel : Nat} {poly : Poly ℚ} {rz : Bool} {P : St ℚ → Prop} [DecidablePred P]
    (h : chk (createDiagramF pts heapq n fuel poly rz (initSt poly)) (fun _ s => decide (P s)) = true) :
    ∃ s, createDiagram pts heapq n fuel poly rz (initSt poly) = .ok ((), s) ∧ P s := by
  obtain ⟨a, s, h1, h2⟩ := chk_ok h
  rw [createDiagramF_eq] at h1
  exact ⟨s, h1, of_decide_eq_true h2⟩

/-- Five sites in general position: 6 Voronoi edges and 8 border edges are left. -/
theorem ex5_create : ∃ s, createDiagram ex5 heapq 5 40 exBox false (initSt exBox) = .ok ((), s) ∧ s.edges.length = 14 := by
  apply createRun
  decide +kernel

theorem exSq_create : ∃ s, createDiagram exSq heapq 4 40 exBox true (initSt exBox) = .ok ((), s) ∧ s.edges.length = 12 ∧
    0 ∈ s.edges ∧ (s.d.he 0).origin = .vtx 4 ∧ (s.d.vs 4).pos = some (0, 0) ∧ 4 ∉ s.verts := by
  apply createRun
  decide +kernel

theorem exTwo_create : ∃ s, createDiagram exTwo heapq 2 40 exBox false (initSt exBox) = .ok ((), s) ∧
    s.edges = [3, 5, 7, 9] ∧ (∀ e ∈ s.edges, (s.d.he e).incident ≠ some 1 ∧ ∀ t ∈ (s.d.he e).twin, (s.d.he t).incident ≠ some 1) ∧
    s.d.fe 1 = none := by
  apply createRun
  decide +kernel

theorem exOne_create : ∃ s, createDiagram (ptsOf [(2, 3)]) heapq 1 40 exBox true (initSt exBox) = .ok ((), s) ∧ s.edges.length = 4 := by
  apply createRun
  decide +kernel

/-! ### Refutations -/

/-- C46: clipping can lose a Voronoi edge.  The sites `(-1, 0)`, `(1, 0)` in the box from `-10` to `10`: the origin of the plane is a
point strictly inside the box at equal distance from both sites, so the Voronoi diagram inside the box has an edge between their
cells, but the result lists no edge between them, and no edge at all that borders the cell of site 1. -/
theorem C46_lost_edge : ∃ s', createDiagram exTwo heapq 2 40 exBox false (initSt exBox) = .ok ((), s') ∧
    boundingBox (-10) 10 (-10) (10 : ℚ) = .ok exBox ∧
    (∀ i < 2, -10 < (exTwo i).1 ∧ (exTwo i).1 < 10 ∧ -10 < (exTwo i).2 ∧ (exTwo i).2 < 10) ∧
    ((exTwo 0).1 - 0) ^ 2 + ((exTwo 0).2 - 0) ^ 2 = ((exTwo 1).1 - 0) ^ 2 + ((exTwo 1).2 - 0) ^ 2 ∧
    (∀ e ∈ s'.edges, (s'.d.he e).incident ≠ some 1 ∧ ∀ t ∈ (s'.d.he e).twin, (s'.d.he t).incident ≠ some 1) ∧
    s'.d.fe 1 = none := by
  obtain ⟨s, h, _, h2, h3⟩ := exTwo_create
  exact ⟨s, h, ofToOption (by decide +kernel), by decide +kernel, by decide +kernel, h2, h3⟩

/-- C47: clean-up can lose a vertex that is still in use: after `create_diagram` with `remove_zero_length_edges` on the corners of a
square, a listed edge starts at a vertex that is not listed. -/
theorem C47_lost_vertex : ∃ s', createDiagram exSq heapq 4 40 exBox true (initSt exBox) = .ok ((), s') ∧
    ∃ e ∈ s'.edges, ∃ v, StartsAt s'.d e v ∧ v ∉ s'.verts := by
  obtain ⟨s, h, _, h1, h2, _, h3⟩ := exSq_create
  exact ⟨s, h, 0, h1, 4, h2, h3⟩

/-- A wide box and three sites inside it: the Voronoi vertex is at `(0, -25/3)`, below the box. -/
def flatBox : Poly ℚ := (boundingBox (-20) 20 (-7) 1).toOption.getD exBox

def exFlat : Nat → ℚ × ℚ := ptsOf [(-8, -6), (8, -6), (0, 0)]

theorem exFlat_create : ∃ s, createDiagram exFlat heapq 3 40 flatBox false (initSt flatBox) = .ok ((), s) ∧
    5 ∈ s.edges ∧ Separates s.d 5 0 1 ∧ OriginAt s.d 5 (0, -7) ∧ TargetAt s.d 5 (0, 1) := by
  obtain ⟨s, h, h1, h2, t, h3, h4, v, h5, h6, w, h7, h8⟩ : ∃ s, createDiagram exFlat heapq 3 40 flatBox false (initSt flatBox) = .ok ((), s) ∧
      5 ∈ s.edges ∧ (s.d.he 5).incident = some 0 ∧ ∃ t ∈ (s.d.he 5).twin, (s.d.he t).incident = some 1 ∧
      ∃ v ∈ (match (s.d.he 5).origin with | .vtx v => some v | .bp _ => none), (s.d.vs v).pos = some (0, -7) ∧
      ∃ w ∈ (match (s.d.he t).origin with | .vtx v => some v | .bp _ => none), (s.d.vs w).pos = some (0, 1) := by
    apply createRun
    decide +kernel
  have key : ∀ (o : Org) (v : Nat), v ∈ (match o with | .vtx v => some v | .bp _ => none) → o = .vtx v := by
    intro o v hv
    cases o with
    | vtx u => simp at hv; rw [hv]
    | bp b => simp at hv
  exact ⟨s, h, h1, ⟨h2, t, h3, h4⟩, ⟨v, key _ _ h5, h6⟩, ⟨t, h3, w, key _ _ h7, h8⟩⟩

/-- C63: clipping can add an edge that is no Voronoi edge.  The result lists an edge between the cells of sites 0 and 1, straight through
the box from its lower to its upper side, although all its points, the ends included, are nearer to site 2 than to either of them. -/
theorem C63_wrong_edge : ∃ s', createDiagram exFlat heapq 3 40 flatBox false (initSt flatBox) = .ok ((), s') ∧
    boundingBox (-20) 20 (-7) (1 : ℚ) = .ok flatBox ∧
    (∀ i < 3, -20 < (exFlat i).1 ∧ (exFlat i).1 < 20 ∧ -7 < (exFlat i).2 ∧ (exFlat i).2 < 1) ∧
    ∃ e ∈ s'.edges, Separates s'.d e 0 1 ∧ OriginAt s'.d e (0, -7) ∧ TargetAt s'.d e (0, 1) ∧
      ∀ y : ℚ, -7 ≤ y → y ≤ 1 → ∀ i < 2, ((exFlat 2).1 - 0) ^ 2 + ((exFlat 2).2 - y) ^ 2 < ((exFlat i).1 - 0) ^ 2 + ((exFlat i).2 - y) ^ 2 := by
  obtain ⟨s, h, h1, h2, h3, h4⟩ := exFlat_create
  refine ⟨s, h, ofToOption (by decide +kernel), by decide +kernel, 5, h1, h2, h3, h4, ?_⟩
  intro y hy _ i hi
  have : i = 0 ∨ i = 1 := by omega
  rcases this with rfl | rfl <;> simp [exFlat, ptsOf] <;> nlinarith

/-! ### The theorems of `Verif/Props/Clip.lean` on these runs -/

example : ∃ s, s.edges.length = 14 ∧ TwinsMirror s.d ∧ s.edges.Nodup ∧ (∀ e ∈ s.edges, ∃ p r, OriginAt s.d e p ∧ TargetAt s.d e r) ∧
    createDiagram ex5 heapq 5 40 exBox false (initSt exBox) = .ok ((), s) := by
  obtain ⟨s, h, h1⟩ := ex5_create
  have h2 := C06_result_twins C45_event_queue (by norm_num) (by simp [exBox]) h
  exact ⟨s, h1, h2.1, h2.2.1, (C27_listed_edges C45_event_queue (by norm_num) (by simp [exBox]) h).1, h⟩

/-- Four sites on a circle: the zero length edge between the two vertices in the centre is removed, eight and four edges stay. -/
example : ∃ s, s.edges.length = 12 ∧ (∀ e ∈ s.edges, ∃ p r, OriginAt s.d e p ∧ TargetAt s.d e r ∧ p ≠ r) ∧
    createDiagram exSq heapq 4 40 exBox true (initSt exBox) = .ok ((), s) := by
  obtain ⟨s, h, h1, _⟩ := exSq_create
  exact ⟨s, h1, C36_zero_length_partial C45_event_queue (by norm_num) (by simp [exBox]) h, h⟩

example : ∃ (s : St ℚ) (d1 : Dcel ℚ) (kept vs bs : List Nat), s.edges.length = 14 ∧ ClosesBorder d1 s.d vs bs ∧ s.edges = kept ++ bs := by
  obtain ⟨s, h, h1⟩ := ex5_create
  obtain ⟨d1, kept, vs, bs, h2, h3, _⟩ := C33_create C45_event_queue (by norm_num) (by simp [exBox]) h
  exact ⟨s, d1, kept, vs, bs, h1, h2, h3⟩

/-- One site: the cell is the box. -/
example : ∃ (s : St ℚ) (bs : List Nat), borders 4 0 s.d = .ok (bs, s.d) ∧ bs.length = 4 ∧ s.edges = bs := by
  obtain ⟨s, h, h1⟩ := exOne_create
  have hb : mkPoly [(10, 10), (-10, -10), (10, -10), (-10, 10)] = .ok exBox := ofToOption (by decide +kernel)
  obtain ⟨bs, vs, h2, _, h3, h4, _⟩ := C32_single_site C45_event_queue hb (fun _ => by decide +kernel) h (fuel' := 4) (by decide)
  exact ⟨s, bs, h2, h4, h3⟩

end Foronoi
