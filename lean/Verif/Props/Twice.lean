import Verif.Props.BorderVertex

/-!
# C117: sites given twice

Runs with the rounding of `decimal` on integer sites in an integer box.
-/

namespace Foronoi

set_option maxRecDepth 100000

/-- C117: sites (2, 3), (4, 2) in `BoundingBox(0, 6, 0, 6)`.  If the lower site is given twice, every site gets almost the area 36 of the whole box. -/
theorem C117_lower_twice : (∃ s, createDiagram (decPts [(2, 3), (4, 2)]) heapq 2 60 (sixBox 0) true (initSt (sixBox 0)) = .ok ((), s) ∧ sizesIn 2 16 20 s = true) ∧
    ∀ rz, ∃ s, createDiagram (decPts [(2, 3), (4, 2), (4, 2)]) heapq 3 60 (sixBox 0) rz (initSt (sixBox 0)) = .ok ((), s) ∧
      sizesIn 3 (359 / 10) (361 / 10) s = true := by
  refine ⟨?_, fun rz => ?_⟩
  · apply createRunD; decide +kernel
  · cases rz
    · apply createRunD; decide +kernel
    · apply createRunD; decide +kernel

/-- The first area is between `a` and `b`, the second is 0, the third between `a` and `b`. -/
def sizesTop (a b : ℚ) (s : St D28) : Bool :=
  match sizes 3 s with
  | [some x, some y, some z] => decide (a < x) && decide (x < b) && decide (y = 0) && decide (a < z) && decide (z < b)
  | _ => false

/-- C117: if the upper site is given twice, one of the two gets the cell and the other the area 0. -/
theorem C117_upper_twice : ∀ rz, ∃ s, createDiagram (decPts [(2, 3), (2, 3), (4, 2)]) heapq 3 60 (sixBox 0) rz (initSt (sixBox 0)) = .ok ((), s) ∧
    sizesTop 16 20 s = true := by
  intro rz
  cases rz
  · apply createRunD; decide +kernel
  · apply createRunD; decide +kernel

end Foronoi
