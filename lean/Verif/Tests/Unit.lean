import Verif.Props.BorderVertex

/-!
# The unit tests of the library, run on the model

Not theorems about all inputs: these are the test cases of /repo/foronoi/tests/unit.py with the numbers expected there, evaluated by the kernel on the model with the
rounding of `decimal` (28 digits) and of floats.  They check the model, not the program.  The larger test cases are in tools/conformance.
-/

namespace Foronoi.Tests

set_option maxRecDepth 100000

/-- `round(x, 2)`. -/
def round2 (x : ℚ) : ℚ :=
  let f := (x * 100).floor
  let d := x * 100 - f
  (if d < 1 / 2 then (f : ℚ) else if 1 / 2 < d then f + 1 else if f % 2 = 0 then f else f + 1) / 100

def floats (p : ℚ × ℚ) : ℚ × ℚ := (Arith.toF (K := D28) p.1, Arith.toF (K := D28) p.2)

def posOf (s : St D28) (v : Nat) : Option (ℚ × ℚ) := (s.d.vs v).pos.map fun p => (p.1, p.2)

def orgOf (s : St D28) (e : Nat) : Option (ℚ × ℚ) :=
  match (s.d.he e).origin with
  | .vtx v => posOf s v
  | .bp _ => none

def twinOrg (s : St D28) (e : Nat) : Option (ℚ × ℚ) := (s.d.he e).twin.bind (orgOf s)

/-- unit.py `_execute`: the rounded areas, and no two vertices at one place. -/
def checkSizes (poly : Except Err (Poly D28)) (l : List (ℚ × ℚ)) (expected : List ℚ) : Bool :=
  match poly with
  | .error _ => false
  | .ok poly => chk (createDiagramF (decPts l) heapq l.length 200 poly true (initSt poly)) fun _ s =>
    decide ((sizes l.length s).map (·.map round2) = expected.map some) && decide ((s.verts.map fun v => (posOf s v).map floats).Nodup)

def beforeYX (p q : Option (ℚ × ℚ)) : Prop :=
  match p, q with
  | some p, some q => p.2 < q.2 ∨ (p.2 = q.2 ∧ p.1 ≤ q.1)
  | _, _ => False

instance (p q : Option (ℚ × ℚ)) : Decidable (beforeYX p q) := by unfold beforeYX; split <;> infer_instance

/-- unit.py `_test_vertices_correct`: the vertices sorted, with the half-edges that start there in the order of `connected_edges`. -/
def checkVerts (poly : Except Err (Poly D28)) (l : List (ℚ × ℚ)) (rz : Bool) (expected : List (List ((ℚ × ℚ) × (ℚ × ℚ)))) : Bool :=
  match poly with
  | .error _ => false
  | .ok poly => chk (createDiagramF (decPts l) heapq l.length 200 poly rz (initSt poly)) fun _ s =>
    decide (((s.verts.insertionSort fun a b => beforeYX (posOf s a) (posOf s b)).map fun v =>
        ((s.d.vs v).conn.insertionSort fun a b => beforeYX (orgOf s a) (orgOf s b)).map fun e => ((orgOf s e).map floats, (twinOrg s e).map floats)) =
      expected.map fun r => r.map fun p => (some (floats p.1), some (floats p.2)))

def box (l r b t : ℚ) : Except Err (Poly D28) := boundingBox (K := D28) l r b t

def polygon (l : List (ℚ × ℚ)) : Except Err (Poly D28) := mkPoly (K := D28) l

/-- unit.py `test_single_point_triangle`. -/
example : checkSizes (polygon [(0,100), (100,100), (50,0)])
    [(50,50)]
    [5000] = true := by decide +kernel

/-- unit.py `test_diamond`. -/
example : checkSizes (box 0 10 0 10)
    [(5,15/2), (5/2,5), (15/2,5), (5,5/2)]
    [25, 25, 25, 25] = true := by decide +kernel

/-- unit.py `test_rounding_errors`. -/
example : checkSizes (box 0 25 0 25)
    [(10,3), (139/10,169/25), (12,6/5)]
    [12859/100, 46507/100, 1567/50] = true := by decide +kernel

/-- unit.py `test_corners`. -/
example : checkSizes (box 0 10 0 10)
    [(0,10), (10,0), (0,0), (10,10)]
    [25, 25, 25, 25] = true := by decide +kernel

/-- unit.py `test_horizontal`. -/
example : checkSizes (box 0 8 0 10)
    [(2,5/2), (4,5/2), (6,5/2)]
    [30, 20, 30] = true := by decide +kernel

end Foronoi.Tests
