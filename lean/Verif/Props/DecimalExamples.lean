import Verif.Props.Decimal
import Verif.Props.CreateReal

/-!
# C104, C105: runs with the rounding of `decimal`
-/

namespace Foronoi

/-- Numbers with 28 digits, the default of `decimal`. -/
abbrev D28 := Dec 28

def decPts (l : List (ℚ × ℚ)) : Nat → D28 × D28 := fun i => let p := l.getD i (0, 0); ((p.1 : ℚ), (p.2 : ℚ))

set_option maxRecDepth 100000

/-- Box around the four sites. -/
def exInvBox : Poly D28 := ⟨([(-10, 60), (20, 60), (20, 20), (-10, 20)] : List (ℚ × ℚ)), (20 : ℚ), (-10 : ℚ), (60 : ℚ), (20 : ℚ), (((5 : ℚ), (40 : ℚ)) : ℚ × ℚ)⟩

def exInv : Nat → D28 × D28 := decPts [(-5, 47), (5, 47), (8, 38), (0, 32)]

example : (boundingBox (-10 : ℚ) (20 : ℚ) (20 : ℚ) (60 : ℚ) : Except Err (Poly D28)).toOption.map (fun p => (p.points, [p.minY, p.minX, p.maxY, p.maxX, p.center.1, p.center.2])) =
    some (exInvBox.points, [exInvBox.minY, exInvBox.minX, exInvBox.maxY, exInvBox.maxX, exInvBox.center.1, exInvBox.center.2]) := by decide +kernel

/-- C104: with 28 digits, four sites with small integer coordinates inside a box of small integers on which `create_diagram` raises `decimal.InvalidOperation`,
with and without the clean-up, already in the sweep.  (The fourth site is the lowest point of the circle through the others; the computed event is slightly below
it.) -/
theorem C104_raises : sweepAll exInv heapq 4 40 (initSt exInvBox) = .error .arith ∧
    ∀ rz, createDiagram exInv heapq 4 40 exInvBox rz (initSt exInvBox) = .error .arith := by
  refine ⟨?_, fun rz => ?_⟩
  · rw [← sweepAllF_eq]; exact chkErr_eq (by decide +kernel)
  · cases rz
    · rw [← createDiagramF_eq]; exact chkErr_eq (by decide +kernel)
    · rw [← createDiagramF_eq]; exact chkErr_eq (by decide +kernel)

/-- They meet the assumption of C102 and, in threes, of C103. -/
theorem C104_short : ShortX 28 exInv 4 ∧ ∀ i < 4, OnGrid 0 (6 * 10 ^ 8) (exInv i) := by
  refine ⟨fun i hi => ?_, fun i hi => ?_⟩
  · obtain _ | _ | _ | _ | i := i
    · exact ⟨-5, 0, by decide +kernel, by norm_num⟩
    · exact ⟨5, 0, by decide +kernel, by norm_num⟩
    · exact ⟨8, 0, by decide +kernel, by norm_num⟩
    · exact ⟨0, 0, by decide +kernel, by norm_num⟩
    · omega
  · obtain _ | _ | _ | _ | i := i
    · exact ⟨-5, 47, by decide +kernel, by decide +kernel, by norm_num, by norm_num⟩
    · exact ⟨5, 47, by decide +kernel, by decide +kernel, by norm_num, by norm_num⟩
    · exact ⟨8, 38, by decide +kernel, by decide +kernel, by norm_num, by norm_num⟩
    · exact ⟨0, 32, by decide +kernel, by decide +kernel, by norm_num, by norm_num⟩
    · omega

/-! ### coordinates with all digits -/

def exRowBox : Poly D28 :=
  ⟨([(7999999999999999999999999990, 10), (8000000000000000000000000030, 10), (8000000000000000000000000030, -10), (7999999999999999999999999990, -10)] : List (ℚ × ℚ)),
    (-10 : ℚ), (7999999999999999999999999990 : ℚ), (10 : ℚ), (8000000000000000000000000030 : ℚ), (((8000000000000000000000000010 : ℚ), (0 : ℚ)) : ℚ × ℚ)⟩

/-- Three sites of 28 digits in a row. -/
def exRow : Nat → D28 × D28 := decPts [(8000000000000000000000000007, 0), (8000000000000000000000000008, 0), (8000000000000000000000000009, 0)]

/-- The sites of the two sides of the listed edges. -/
def sides (s : St D28) : List (Option (Option Nat × Option Nat)) :=
  s.edges.map fun e => match (s.d.he e).twin with
    | none => none
    | some t => some ((s.d.he e).incident, (s.d.he t).incident)

/-- C105: with 28 digits the sweep separates the third of three sites in a row from the first, although the second is between them: their middle is rounded up
to the third.  With 27 digits this cannot happen (C102). -/
theorem C105_row : (exRow 0).1 < (exRow 1).1 ∧ (exRow 1).1 < (exRow 2).1 ∧
    ∃ s, sweepAll exRow heapq 3 40 (initSt exRowBox) = .ok ((), s) ∧ sides s = [some (some 1, some 0), some (some 2, some 0)] := by
  refine ⟨by decide +kernel, by decide +kernel, ?_⟩
  have h : chk (sweepAllF exRow heapq 3 40 (initSt exRowBox)) (fun _ s => decide (sides s = [some (some 1, some 0), some (some 2, some 0)])) = true := by decide +kernel
  obtain ⟨u, s, h1, h2⟩ := chk_ok h
  rw [sweepAllF_eq] at h1
  exact ⟨s, h1, of_decide_eq_true h2⟩

end Foronoi
