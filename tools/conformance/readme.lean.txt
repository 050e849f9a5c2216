def chkAreas (name : String) (pd : PD) (l : List (ℚ × ℚ)) (ex : List ℚ) : IO Unit := do
  match run pd l true with
  | .error e => IO.println s!"{name}: ERROR {e}"
  | .ok s =>
    let ars := (List.range l.length).map fun p => match area s.d.heCnt p s.d with
        | .error _ => none
        | .ok (a, _) => some (show ℚ from a)
    let ex : List (Option ℚ) := ex.map fun x => some (show ℚ from Arith.toF (K := D28) x)
    IO.println s!"{name}: {(ars.zip ex).map fun (a, b) => if a = b then "ok" else toString (a.getD 0 - b.getD 0)}"
    IO.println s!"{(List.range l.length).map fun p => ((match cellVertices s.d.heCnt p s.d with | .error _ => [] | .ok (vs, _) => vs).map fun v => let z := posOf s v; (Float.ofInt (z.1*1000).floor / 1000, Float.ofInt (z.2*1000).floor/1000))}"
#eval chkAreas "README" (.poly [(5/2, 10), (5, 10), (10, 5), (10, 5/2), (5, 0), (5/2, 0), (0, 5/2), (0, 5)]) [(5/2, 5/2), (4, 15/2), (15/2, 5/2), (6, 15/2), (4, 4), (3, 3), (6, 3)] [(2305952380952381/200000000000000), (7532031250000003/500000000000000), (47/4), (10520833333333329/1000000000000000), (489/64), (2973177083333333/500000000000000), (1884672619047619/200000000000000)]
