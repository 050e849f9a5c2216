import Verif.Props.DecimalExamples
open Foronoi
inductive PD | box (a b c d : ℚ) | poly (l : List (ℚ × ℚ))
def PD.mk : PD → Except Err (Poly D28)
 | .box a b c d => boundingBox (K := D28) a b c d
 | .poly l => mkPoly (K := D28) l
def errS : Err → String
 | .attr => "attr" | .value => "value" | .index => "index" | .assertion => "assert" | .arith => "arith" | .fuel => "fuel"
/-- round half even to 2 digits -/
def r2 (x : ℚ) : ℚ :=
  let y := x * 100
  let f := y.floor
  let d := y - f
  (if d < 1/2 then (f : ℚ) else if d > 1/2 then f + 1 else if f % 2 = 0 then f else f + 1) / 100
def run (pd : PD) (l : List (ℚ × ℚ)) (rz : Bool) : Except String (St D28) :=
  match pd.mk with
  | .error e => .error ("poly " ++ errS e)
  | .ok poly =>
    match createDiagram (decPts l) heapq l.length 3000 poly rz (initSt poly) with
    | .error e => .error (errS e)
    | .ok (_, s) => .ok s
def chkSizes (name : String) (pd : PD) (l : List (ℚ × ℚ)) (ex : List ℚ) : IO Unit := do
  match run pd l true with
  | .error e => IO.println s!"{name}: ERROR {e}"
  | .ok s =>
    let ars := (List.range l.length).map fun p => match area s.d.heCnt p s.d with
        | .error _ => none
        | .ok (a, _) => some (r2 (show ℚ from a))
    let vs : List (Option (ℚ × ℚ)) := s.verts.map fun v => ((s.d.vs v).pos).map fun p => (Arith.toF p.1, Arith.toF p.2)
    let dup := vs.length - vs.eraseDups.length
    if ars = ex.map some ∧ dup = 0 then IO.println s!"{name}: ok" else IO.println s!"{name}: DIFF dup {dup} {ars} expected {ex}"

def posOf (s : St D28) (v : Nat) : ℚ × ℚ := match (s.d.vs v).pos with | some p => (p.1, p.2) | none => (0, 0)
def fl (p : ℚ × ℚ) : ℚ × ℚ := (Arith.toF (K := D28) p.1, Arith.toF (K := D28) p.2)
def orgOf (s : St D28) (e : Nat) : ℚ × ℚ := match (s.d.he e).origin with | .vtx v => posOf s v | _ => (-1000, -1000)
def leYX (p q : ℚ × ℚ) : Bool := decide (p.2 < q.2 ∨ (p.2 = q.2 ∧ p.1 ≤ q.1))
def chkVerts (name : String) (pd : PD) (l : List (ℚ × ℚ)) (rz : Bool) (ex : List (List ((ℚ × ℚ) × (ℚ × ℚ)))) : IO Unit := do
  match run pd l rz with
  | .error e => IO.println s!"{name}: ERROR {e}"
  | .ok s =>
    let vs := s.verts.insertionSort fun a b => leYX (posOf s a) (posOf s b)
    let res := vs.map fun v => ((s.d.vs v).conn.insertionSort fun a b => leYX (orgOf s a) (orgOf s b)).map fun e =>
      (fl (orgOf s e), fl (match (s.d.he e).twin with | some t => orgOf s t | none => (-2000, 0)))
    -- the literals of the test are floats
    let ex := ex.map fun r => r.map fun p => (fl p.1, fl p.2)
    if res = ex then IO.println s!"{name}: ok" else IO.println s!"{name}: DIFF {res} expected {ex}"
