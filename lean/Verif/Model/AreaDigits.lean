import Verif.Model.Dcel

/-!
# `area(digits)`

point.py:54-74 with the argument `digits`.  `_shoelace` returns a `np.float64`, so `round(x, digits)` is the `round` of numpy, which multiplies by a power of ten,
rounds to an integer with `rint` and divides again (for negative `digits` it divides first).  `rint`, the nearest integer and of two the even one, is a parameter.
-/

namespace Foronoi

variable {K : Type} [LinearOrder K] [Arith K]

open Arith

/-- numpy's `round(x, d)` of a float. -/
def npRound (rint : K → K) (x : K) (d : Int) : K :=
  let t : K := toF (ofInt (10 ^ d.natAbs))
  if 0 ≤ d then fdiv (rint (fmul x t)) t else fmul (rint (fdiv x t)) t

/-- point.py:54-74 `area(digits)`. -/
def areaDigits (rint : K → K) (fuel p : Nat) (digits : Option Int) : DM K K := do
  let (x, y) ← getXY fuel p
  match digits with
  | some d => pure (npRound rint (shoelace x y) d)
  | none => pure (shoelace x y)

end Foronoi
