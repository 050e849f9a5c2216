import Verif.Props.BorderVertex
import Verif.Props.CellArea

/-!
# C118: sites outside the polygon

Runs with the rounding of `decimal` on integer sites in `BoundingBox(0, 6, 100, 106)`.
-/

namespace Foronoi

set_option maxRecDepth 100000

/-- What `area` gives or raises for every site. -/
def outcomes (n : Nat) (s : St D28) : List (Err ⊕ ℚ) :=
  (List.range n).map fun p => match area s.d.heCnt p s.d with
    | .error e => .inl e
    | .ok (a, _) => .inr (show ℚ from a)

/-- C118: a site (11, 103) outside the box whose bounded cell is outside the box has no area: `area` raises `TypeError`.  The sites with an unbounded
cell outside the box have the area 0. -/
theorem C118_far_cell : ∀ rz, ∃ s, createDiagram (decPts [(9, 103), (13, 104), (11, 101), (11, 103)]) heapq 4 60 (sixBox 100) rz (initSt (sixBox 100)) = .ok ((), s) ∧
    outcomes 4 s = [.inr 36, .inr 0, .inr 0, .inl .attr] := by
  intro rz
  cases rz
  · apply createRunD; decide +kernel
  · apply createRunD; decide +kernel

/-- C118: three sites far outside around a site in the middle of the box, so that its bounded cell covers the box: it has no area, `area` raises `TypeError`. -/
theorem C118_covering_cell : ∀ rz, ∃ s, createDiagram (decPts [(3, 103), (20, 110), (-15, 111), (2, 83)]) heapq 4 60 (sixBox 100) rz (initSt (sixBox 100)) = .ok ((), s) ∧
    outcomes 4 s = [.inl .attr, .inr 0, .inr 0, .inr 0] := by
  intro rz
  cases rz
  · apply createRunD; decide +kernel
  · apply createRunD; decide +kernel

/-- Two sites, the second outside the box from `(0, 100)` to `(4, 104)`. -/
noncomputable def out2 : Nat → ℝ × ℝ := fun i => if i = 0 then (1, 102) else (5, 102)

theorem out2_distinct : Distinct out2 2 := by
  intro i hi j hj h
  rcases (by omega : i = 0 ∨ i = 1) with rfl | rfl <;> rcases (by omega : j = 0 ∨ j = 1) with rfl | rfl <;> first | rfl | (exfalso; revert h; norm_num [out2])

theorem out2_border {poly : Poly ℝ} (hp : boundingBox 0 4 100 104 = .ok poly) : FitsBorder out2 2 poly := by
  have hnv : ∀ z, ¬ VoronoiVertex out2 2 z := by
    rintro z ⟨a, b, c, h1, h2, h3, ha, hb, hc⟩
    have := ha.1
    have := hb.1
    have := hc.1
    omega
  refine fits_border_far (by norm_num) (by norm_num) (by norm_num) ?_ ?_ (fun z hz => absurd hz (hnv z)) (fun _ _ z _ hz => absurd hz (hnv z)) ?_ hp
  · intro p hp z h1 h2 h3 h4
    rcases (by omega : p = 0 ∨ p = 1) with rfl | rfl <;> norm_num [out2, sqDist] <;> nlinarith
  · intro p hp
    rcases (by omega : p = 0 ∨ p = 1) with rfl | rfl
    · refine ⟨(1, 102), by norm_num, fun o ho hne => ?_⟩
      have : o = 1 := by omega
      subst this
      norm_num [out2, sqDist]
    · refine ⟨(7 / 2, 102), by norm_num, fun o ho hne => ?_⟩
      have : o = 0 := by omega
      subst this
      norm_num [out2, sqDist]
  · intro p r h1 h2
    have hp := h1.1
    have hr := h2.1
    have k0 := h1.2 0 (by norm_num)
    have m0 := h2.2 0 (by norm_num)
    rcases (by omega : p = 0 ∨ p = 1) with rfl | rfl <;> rcases (by omega : r = 0 ∨ r = 1) with rfl | rfl <;>
      first
      | rfl
      | (exfalso; revert k0 m0; norm_num [out2, sqDist])

/-- The hypotheses of C70 to C73 can be met with a site outside the box: both sites get the part of the box that is nearest to them, 16 together. -/
example : ∃ poly s', ∃ a b : ℝ, boundingBox (0 : ℝ) 4 100 104 = .ok poly ∧ ¬ InClosed poly.points (out2 1) ∧
    createDiagram out2 heapq 2 15 poly false (initSt poly) = .ok ((), s') ∧ area s'.d.heCnt 0 s'.d = .ok (a, s'.d) ∧ area s'.d.heCnt 1 s'.d = .ok (b, s'.d) ∧
    0 < a ∧ 0 < b ∧ a + b = 16 := by
  have hp := box_points (show (0 : ℝ) < 4 by norm_num) (show (100 : ℝ) < 104 by norm_num)
  have hF := out2_border hp
  obtain ⟨⟨s', hs'⟩, _⟩ := C58_create_succeeds out2_distinct C45_event_queue (by norm_num) (by simp) (fun i hi => (hF.low i hi).le) (fuel := 15) (by norm_num)
  obtain ⟨a, a1, a2, _⟩ := C72_area hF.toFitsCorners out2_distinct C45_event_queue hs' (hF.shown (p := 0) (by norm_num)) le_rfl
  obtain ⟨b, b1, b2, _⟩ := C72_area hF.toFitsCorners out2_distinct C45_event_queue hs' (hF.shown (p := 1) (by norm_num)) le_rfl
  refine ⟨_, s', a, b, hp, ?_, hs', a1, b1, a2, b2, ?_⟩
  · rw [box_closed (by norm_num) (by norm_num)]
    norm_num [out2]
  have := C73_areas (a := fun p => if p = 0 then a else b) hF out2_distinct C45_event_queue (by norm_num) hs' le_rfl fun p hlt => by
    rcases (by omega : p = 0 ∨ p = 1) with rfl | rfl
    · exact a1
    · exact b1
  simp only [Finset.sum_range_succ, Finset.sum_range_zero, zero_add, if_true, one_ne_zero, if_false] at this
  rw [this, areaOf_eq]
  simp [signed2, pathSum, cross2]
  norm_num [abs_of_pos, abs_of_neg]

end Foronoi
