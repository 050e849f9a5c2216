import Verif.Props.Whole
import Verif.Props.VisExamples
import Verif.Props.ClipExamples
import Mathlib.Tactic.IntervalCases

/-!
# Concrete cases for the theorems on the sweep (C04, C09–C12, C23–C26, C34, C40, C62)
-/

namespace Foronoi

/-! ### Five sites, rational arithmetic -/

example : ∃ s, sweepAll ex5 heapq 5 40 (initSt exBox) = .ok ((), s) ∧ (s.log.filter (fun m => decide (m = .stepFinished))).length = 9 ∧ s.edges.length = 8 := by
  obtain ⟨s, h, h1, _⟩ := ex5_run
  refine ⟨s, h, ?_, ?_⟩
  · rw [(C04_events C45_event_queue h).1, h1]
  · rw [(C10_euler C45_event_queue (by norm_num) h).1, h1]

example : ∃ s, Reach ex5 heapq 5 exBox s ∧ s.verts.length = 4 ∧ s.d.heCnt = 16 ∧ s.edges.Nodup ∧ (∃ sites, StatusTree s sites) ∧
    ∀ p, ∃ l, borders 16 p s.d = .ok (l, s.d) ∧ l.Nodup := by
  obtain ⟨s, hr, h1, h2⟩ := ex5_reach
  obtain ⟨_, g1, _, g2⟩ := C09_sides C45_event_queue hr
  obtain ⟨sites, g3, _⟩ := C12_tree C45_event_queue hr
  have hc : s.d.heCnt = 16 := by omega
  refine ⟨s, hr, h1, hc, g1, ⟨sites, g3⟩, fun p => ?_⟩
  obtain ⟨l, k1, k2, _⟩ := C34_borders_sweep C45_event_queue hr p (fuel := 16) hc.le
  exact ⟨l, k1, k2⟩

example : ∃ s, createDiagram ex5 heapq 5 40 exBox false (initSt exBox) = .ok ((), s) ∧ steps s.log = List.replicate 9 .stepFinished ++ [.sweepFinished, .voronoiFinished] := by
  obtain ⟨s, h, _⟩ := ex5_create
  obtain ⟨s0, h0, h1⟩ := C40_log C45_event_queue (by norm_num) (by simp [exBox]) h
  obtain ⟨s1, h2, h3, _⟩ := ex5_run
  rw [h0, Except.ok.injEq, Prod.mk.injEq] at h2
  refine ⟨s, h, ?_⟩
  rw [h1, h2.2, h3]

/-! ### Three sites, exact arithmetic -/

/-- C23, C24 apply to the last state of a sweep over three sites, and none of them is on the sweep line: the leaves are the lower envelope of the parabolas. -/
example (poly : Poly ℝ) : ∃ s l sites cuts, Reach tri3 heapq 3 poly s ∧ s.sweep = some l ∧ (∀ e ∈ s.queue, e.yd ≤ l) ∧ StatusTree s sites ∧
    LowerEnvelope {x | ∃ p, (s.names p).isSome ∧ tri3 p = x} l (sites.map tri3) cuts := by
  obtain ⟨s, l, hr, hl, hnm, hup⟩ := tri3_last poly
  have hroot : s.root ≠ none := by
    intro h0
    obtain ⟨L, hI, hJ⟩ := reach_geo tri3_distinct.injOn C45_event_queue hr
    have hL : L = [] := by
      rcases hI.tree with ⟨_, ⟨_, hL⟩ | ⟨t, ht, _⟩⟩
      · exact hL
      · rw [h0] at ht; cases ht
    have h1 := hI.sinv.empty.mp hL
    obtain ⟨k, hk⟩ := Option.isSome_iff_exists.mp (hnm 0 (by norm_num))
    have := (hI.sinv.nmLt 0 k hk).1
    omega
  obtain ⟨l', sites, h1, h2, h3⟩ := C24_envelope tri3_distinct C45_event_queue hr hroot
  rw [hl, Option.some.injEq] at h1
  subst h1
  rcases h3 with h3 | ⟨cuts, h3, _⟩
  · exfalso
    have := h3.height (tri3 0) ⟨0, hnm 0 (by norm_num), rfl⟩
    exact (hup _ ⟨0, hnm 0 (by norm_num), rfl⟩).ne' this
  · exact ⟨s, l, sites, cuts, hr, hl, (C23_monotone tri3_distinct C45_event_queue hr hl).1, h2, h3⟩

/-! ### Four sites with a bounded edge -/

/-- Four sites: the edge between the first two is bounded by the other two. -/
noncomputable def kite : Nat → ℝ × ℝ := fun i => if i = 0 then (-1, 0) else if i = 1 then (1, 0) else if i = 2 then (0, 2) else (0, -3)

theorem kite_distinct : Distinct kite 4 := by
  intro p hp r hr h
  interval_cases p <;> interval_cases r <;> first | rfl | (exfalso; norm_num [kite, Prod.ext_iff] at h)

theorem kite_nearest {y : ℝ} (h1 : -4 / 3 ≤ y) (h2 : y ≤ 3 / 4) {p : Nat} (hp : p < 2) : Nearest kite 4 p (0, y) := by
  refine ⟨by omega, fun c hc => ?_⟩
  interval_cases p <;> interval_cases c <;> norm_num [kite, sqDist] <;> nlinarith

theorem kite_far {y : ℝ} (h : Nearest kite 4 0 (0, y)) : -4 / 3 ≤ y ∧ y ≤ 3 / 4 := by
  have h2 := h.2 2 (by norm_num)
  have h3 := h.2 3 (by norm_num)
  norm_num [kite, sqDist] at h2 h3
  constructor <;> nlinarith

/-- The edge between the first two sites has vertices at both ends; C25, C26 and C62 apply to it. -/
theorem kite_edge (poly : Poly ℝ) : ∃ s e v w zv zw, Reach kite heapq 4 poly s ∧ e < s.d.heCnt ∧ Separates s.d e 0 1 ∧ StartsAt s.d e v ∧ EndsAt s.d e w ∧
    (s.d.vs v).pos = some zv ∧ (s.d.vs w).pos = some zw ∧ zv ≠ zw := by
  obtain ⟨s, _, _, hr, hend⟩ := C23_no_errors (poly := poly) kite_distinct C45_event_queue (fuel := 29) (by norm_num)
  obtain ⟨e, he, hs, hl⟩ := C64_edge_exists kite_distinct C45_event_queue hr hend (p := 0) (r := 1) (by norm_num) (z := (0, 0)) (w := (0, 1 / 2)) (by norm_num)
    (kite_nearest (by norm_num) (by norm_num) (by norm_num)) (kite_nearest (by norm_num) (by norm_num) (by norm_num))
    (kite_nearest (by norm_num) (by norm_num) (by norm_num)) (kite_nearest (by norm_num) (by norm_num) (by norm_num))
  have hx := C64_edge_exact kite_distinct C45_event_queue hr hend he hs hl
  have hbis : ∀ y : ℝ, sqDist (kite 0) (0, y) = sqDist (kite 1) (0, y) := fun y => by norm_num [kite, sqDist]
  have hah : ∀ v z : ℝ × ℝ, ahead (kite 0) (kite 1) v z = -2 * (z.2 - v.2) := fun v z => by norm_num [kite, ahead]; ring
  have hzero := (hx (0, 0)).mpr ⟨kite_nearest (by norm_num) (by norm_num) (by norm_num), kite_nearest (by norm_num) (by norm_num) (by norm_num)⟩
  have hstart : ∃ v zv, StartsAt s.d e v ∧ (s.d.vs v).pos = some zv := by
    by_contra hcon
    push Not at hcon
    have := (hx (0, 100)).mp ⟨hbis 100, fun v zv h1 h2 => absurd h2 (hcon v zv h1), fun w zw h1 h2 => by
      have := hzero.stop w zw h1 h2
      rw [hah] at this ⊢
      simp only at this ⊢
      linarith⟩
    linarith [(kite_far this.1).2]
  have hstop : ∃ w zw, EndsAt s.d e w ∧ (s.d.vs w).pos = some zw := by
    by_contra hcon
    push Not at hcon
    have := (hx (0, -100)).mp ⟨hbis (-100), fun v zv h1 h2 => by
      have := hzero.start v zv h1 h2
      rw [hah] at this ⊢
      simp only at this ⊢
      linarith, fun w zw h1 h2 => absurd h2 (hcon w zw h1)⟩
    linarith [(kite_far this.1).1]
  obtain ⟨v, zv, h1, h2⟩ := hstart
  obtain ⟨w, zw, h3, h4⟩ := hstop
  exact ⟨s, e, v, w, zv, zw, hr, he, hs, h1, h3, h2, h4, fun h => hl ⟨v, w, zv, h1, h3, h2, h ▸ h4⟩⟩

example (poly : Poly ℝ) : ∃ s e v w zv zw, Reach kite heapq 4 poly s ∧ Separates s.d e 0 1 ∧ StartsAt s.d e v ∧ EndsAt s.d e w ∧
    (s.d.vs v).pos = some zv ∧ (s.d.vs w).pos = some zw ∧ VoronoiVertex kite 4 zv ∧ ∀ z, Between zv zw z ↔ z.1 = 0 ∧ -4 / 3 ≤ z.2 ∧ z.2 ≤ 3 / 4 := by
  obtain ⟨s, e, v, w, zv, zw, hr, he, hs, h1, h2, h3, h4, h5⟩ := kite_edge poly
  have hB := C62_bounded_edge kite_distinct C45_event_queue hr he hs h1 h2 h3 h4 h5
  have hC := C26_edges kite_distinct C45_event_queue hr he hs h1 h2 h3 h4
  obtain ⟨z, k1, k2⟩ := C25_vertices kite_distinct C45_event_queue hr v ((C08_degree C45_event_queue hr).2 e he v h1).1
  rw [h3, Option.some.injEq] at k1
  refine ⟨s, e, v, w, zv, zw, hr, hs, h1, h2, h3, h4, k1 ▸ k2, fun z => ⟨fun hz => ?_, fun hz => ?_⟩⟩
  · obtain ⟨x, y⟩ := z
    obtain ⟨n1, _, heq⟩ := hC _ hz
    have hx : x = 0 := by
      norm_num [kite, sqDist] at heq
      nlinarith
    subst hx
    exact ⟨rfl, kite_far n1⟩
  · obtain ⟨x, y⟩ := z
    obtain ⟨rfl, hz1, hz2⟩ := hz
    exact (hB _).mp ⟨kite_nearest hz1 hz2 (by norm_num), kite_nearest hz1 hz2 (by norm_num)⟩

end Foronoi
