import Verif.Props.DecimalExamples
import Mathlib.Tactic.Linarith

/-!
# C115: a Voronoi vertex on the border of the box

Runs with the rounding of `decimal` on integer sites in integer boxes.
-/

namespace Foronoi

set_option maxRecDepth 100000

/-- The sizes that `area` gives for the first `n` cells; `none` if it raises. -/
def sizes (n : Nat) (s : St D28) : List (Option ℚ) :=
  (List.range n).map fun p => match area s.d.heCnt p s.d with
    | .error _ => none
    | .ok (a, _) => some (show ℚ from a)

theorem createRunD {pts : Nat → D28 × D28} {n fuel : Nat} {poly : Poly D28} {rz : Bool} {P : St D28 → Prop} [DecidablePred P]
    (h : chk (createDiagramF pts heapq n fuel poly rz (initSt poly)) (fun _ s => decide (P s)) = true) :
    ∃ s, createDiagram pts heapq n fuel poly rz (initSt poly) = .ok ((), s) ∧ P s := by
  obtain ⟨a, s, h1, h2⟩ := chk_ok h
  rw [createDiagramF_eq] at h1
  exact ⟨s, h1, of_decide_eq_true h2⟩

/-- The box `BoundingBox(0, 6, b, b + 6)`. -/
def sixBox (b : ℚ) : Poly D28 :=
  ⟨([(0, b + 6), (6, b + 6), (6, b), (0, b)] : List (ℚ × ℚ)), (b : ℚ), (0 : ℚ), (b + 6 : ℚ), (6 : ℚ), (((3 : ℚ), (b + 3 : ℚ)) : ℚ × ℚ)⟩

/-- The box `BoundingBox(0, 6, -1, 6)`, which is larger by a strip below. -/
def lowBox : Poly D28 :=
  ⟨([(0, 6), (6, 6), (6, -1), (0, -1)] : List (ℚ × ℚ)), (-1 : ℚ), (0 : ℚ), (6 : ℚ), (6 : ℚ), (((3 : ℚ), (5 / 2 : ℚ)) : ℚ × ℚ)⟩

def polyData (p : Poly D28) : List (ℚ × ℚ) × List ℚ := (p.points, [p.minY, p.minX, p.maxY, p.maxX, p.center.1, p.center.2])

theorem sixBox_made : ((boundingBox (0 : ℚ) (6 : ℚ) (0 : ℚ) (6 : ℚ) : Except Err (Poly D28)).toOption.map polyData = some (polyData (sixBox 0))) ∧
    ((boundingBox (0 : ℚ) (6 : ℚ) (100 : ℚ) (106 : ℚ) : Except Err (Poly D28)).toOption.map polyData = some (polyData (sixBox 100))) ∧
    ((boundingBox (0 : ℚ) (6 : ℚ) (-1 : ℚ) (6 : ℚ) : Except Err (Poly D28)).toOption.map polyData = some (polyData lowBox)) := by
  refine ⟨?_, ?_, ?_⟩ <;> decide +kernel

def sqd (p q : ℚ × ℚ) : ℚ := (p.1 - q.1) ^ 2 + (p.2 - q.2) ^ 2

/-- Three sites whose circle has its centre on the lower side of the box. -/
def exLow : List (ℚ × ℚ) := [(1, 1), (2, 2), (4, 2)]

/-- C115: sites (1, 1), (2, 2), (4, 2) in `BoundingBox(0, 6, 0, 6)`.  The centre of their circle is the point (3, 0) of the lower side.  The square with the corners
(0, 0) and (1, 1) belongs to the cell of the first site, but `area` gives 0 for it, with and without the clean-up.  In `BoundingBox(0, 6, -1, 6)` the cell has an
area above 7. -/
theorem C115_cell_lost : (∀ p ∈ exLow, sqd (3, 0) p = 5) ∧
    (∀ x y : ℚ, 0 ≤ x → x ≤ 1 → 0 ≤ y → y ≤ 1 → ∀ p ∈ exLow, sqd (x, y) (1, 1) ≤ sqd (x, y) p) ∧
    (∀ rz, ∃ s, createDiagram (decPts exLow) heapq 3 60 (sixBox 0) rz (initSt (sixBox 0)) = .ok ((), s) ∧ sizes 3 s = [some 0, some (27 / 2), some (45 / 2)]) ∧
    ∃ s, createDiagram (decPts exLow) heapq 3 60 lowBox true (initSt lowBox) = .ok ((), s) ∧ ∃ a, sizes 1 s = [some a] ∧ 7 < a := by
  refine ⟨by decide +kernel, ?_, fun rz => ?_, ?_⟩
  · intro x y h1 h2 h3 h4 p hp
    simp only [exLow, List.mem_cons, List.not_mem_nil, or_false] at hp
    rcases hp with rfl | rfl | rfl <;> (simp only [sqd]; nlinarith)
  · cases rz
    · apply createRunD; decide +kernel
    · apply createRunD; decide +kernel
  · obtain ⟨s, h, h2⟩ := createRunD (pts := decPts exLow) (n := 3) (fuel := 60) (poly := lowBox) (rz := true)
      (P := fun s => ((sizes 1 s).all fun a => match a with | none => false | some a => decide (7 < a)) = true) (by decide +kernel)
    refine ⟨s, h, ?_⟩
    simp only [sizes, List.range_succ, List.range_zero, List.nil_append, List.map_cons, List.map_nil, List.all_cons, List.all_nil, Bool.and_true] at h2 ⊢
    split at h2
    · cases h2
    · rename_i a ha
      exact ⟨a, by rw [ha], of_decide_eq_true h2⟩

/-- Three sites whose circle has its centre on the upper side of the box. -/
def exHigh (b : ℚ) : List (ℚ × ℚ) := [(1, b + 3), (3, b + 3), (5, b + 5)]

/-- C115: sites (1, 3), (3, 3), (5, 5) in `BoundingBox(0, 6, 0, 6)`.  The centre of their circle is the point (2, 6) of the upper side.  All three cells get the
area of the whole box.  With everything moved up by 100, `create_diagram` with the default settings ends in an `AssertionError`. -/
theorem C115_all_cells : (∀ b : ℚ, ∀ p ∈ exHigh b, sqd (2, b + 6) p = 10) ∧
    (∀ rz, ∃ s, createDiagram (decPts (exHigh 0)) heapq 3 60 (sixBox 0) rz (initSt (sixBox 0)) = .ok ((), s) ∧ sizes 3 s = [some 36, some 36, some 36]) ∧
    createDiagram (decPts (exHigh 100)) heapq 3 60 (sixBox 100) true (initSt (sixBox 100)) = .error .assertion ∧
    ∃ s, createDiagram (decPts (exHigh 100)) heapq 3 60 (sixBox 100) false (initSt (sixBox 100)) = .ok ((), s) ∧ sizes 3 s = [some 36, some 36, some 36] := by
  refine ⟨?_, fun rz => ?_, ?_, ?_⟩
  · intro b p hp
    simp only [exHigh, List.mem_cons, List.not_mem_nil, or_false] at hp
    rcases hp with rfl | rfl | rfl <;> (simp only [sqd]; ring)
  · cases rz
    · apply createRunD; decide +kernel
    · apply createRunD; decide +kernel
  · rw [← createDiagramF_eq]; exact chkErr_eq (by decide +kernel)
  · apply createRunD; decide +kernel

/-- All sizes are numbers between `a` and `b`. -/
def sizesIn (n : Nat) (a b : ℚ) (s : St D28) : Bool :=
  (sizes n s).all fun c => match c with
    | none => false
    | some c => decide (a < c) && decide (c < b)

set_option maxHeartbeats 1000000 in
/-- C115: if the third site is moved up or down by 1/100, the centre is not on the border and the cells get sensible areas. -/
theorem C115_nearby :
    (∀ d ∈ [(1 / 100 : ℚ), -1 / 100], ∃ s, createDiagram (decPts [(1, 1), (2, 2), (4, 2 + d)]) heapq 3 60 (sixBox 0) true (initSt (sixBox 0)) = .ok ((), s) ∧
      sizesIn 3 4 19 s = true) ∧
    ∀ b ∈ [(0 : ℚ), 100], ∀ d ∈ [(1 / 100 : ℚ), -1 / 100], ∃ s,
      createDiagram (decPts [(1, b + 3), (3, b + 3), (5, b + 5 + d)]) heapq 3 60 (sixBox b) true (initSt (sixBox b)) = .ok ((), s) ∧ sizesIn 3 7 17 s = true := by
  simp only [List.mem_cons, List.not_mem_nil, or_false, forall_eq_or_imp, forall_eq]
  refine ⟨⟨?_, ?_⟩, ⟨?_, ?_⟩, ?_, ?_⟩ <;> (apply createRunD; decide +kernel)

end Foronoi
