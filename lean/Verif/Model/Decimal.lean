import Verif.Model.Rat
import Mathlib.Data.Int.Log
import Mathlib.Data.Rat.Floor

/-!
# Decimal arithmetic with rounding

The arithmetic of Python's `decimal` with `p` digits (the default context has 28) and rounding ROUND_HALF_EVEN, and of floats with 53 bits, as functions on
the rational numbers.  Limits of the exponents are not modelled.  The angle is the diamond angle of Model/Rat.lean in place of `atan2`.
-/

namespace Foronoi

/-- The nearest integer, the even one of two. -/
def roundEven (x : ℚ) : ℤ :=
  let f := ⌊x⌋
  if x - f < 1 / 2 then f else if 1 / 2 < x - f then f + 1 else if f % 2 = 0 then f else f + 1

/-- The unit of the last of `p` digits of `x` in base `b`. -/
def ulp (b p : Nat) (x : ℚ) : ℚ := (b : ℚ) ^ (Int.log b |x| + 1 - p)

/-- `x` rounded to `p` digits in base `b`. -/
def rnd (b p : Nat) (x : ℚ) : ℚ := roundEven (x / ulp b p x) * ulp b p x

/-- The root of `x`, rounded to `p` digits in base `b`: a truncated root with more than `p` digits, followed by a digit that is 0 only if the root is exact. -/
def rndSqrt (b p : Nat) (x : ℚ) : ℚ :=
  if x ≤ 0 then 0
  else
    let k : ℤ := p + 1 - Int.log b x / 2
    let y := x * (b : ℚ) ^ (2 * k)
    let m := ⌊y⌋.toNat
    let r := isqrt (m.log2 + 1) m
    let t : ℚ := if (r * r : ℚ) = y then r else r + 1 / (b * b)
    rnd b p (t * (b : ℚ) ^ (-k))

/-- `Decimal(str(x))` for a float, with at least `d` digits: the number with the fewest digits that is read back as `x`, the nearest one if there are several.  Only the
two decimals next to `x` are tried. -/
def shortest (x : ℚ) : Nat → Nat → ℚ
  | 0, d => rnd 10 d x
  | f + 1, d =>
    let y := rnd 10 d x
    let z := if y < x then y + ulp 10 d x else y - ulp 10 d x
    if rnd 2 53 y = x then y else if rnd 2 53 z = x then z else shortest x f (d + 1)

/-- Values of `decimal.Decimal` and `float`; `p` is the precision of the decimal context. -/
def Dec (_ : Nat) : Type := ℚ

variable {p : Nat}

/-- The number. -/
def Dec.val (x : Dec p) : ℚ := x

instance : LinearOrder (Dec p) := inferInstanceAs (LinearOrder ℚ)

/-- The operations of `decimal` round the exact result; `x ** 2` rounds first to three more digits (libmpdec, `_mpd_qpow_int`).  `InvalidOperation` for the root
of a negative number and `DivisionByZero` are signals. -/
instance decArith : Arith (Dec p) where
  ofInt n := (n : ℚ)
  add (a b : ℚ) := rnd 10 p (a + b)
  sub (a b : ℚ) := rnd 10 p (a - b)
  mul (a b : ℚ) := rnd 10 p (a * b)
  neg (a : ℚ) := rnd 10 p (-a)
  sq (x : ℚ) := rnd 10 p (rnd 10 (p + 3) (x * x))
  div (a b : ℚ) := if b = 0 then none else some (rnd 10 p (a / b))
  sqrt (x : ℚ) := if x < 0 then none else some (rndSqrt 10 p x)
  fadd (a b : ℚ) := rnd 2 53 (a + b)
  fsub (a b : ℚ) := rnd 2 53 (a - b)
  fmul (a b : ℚ) := rnd 2 53 (a * b)
  fdiv (a b : ℚ) := rnd 2 53 (a / b)
  fsqrt (x : ℚ) := rndSqrt 2 53 x
  toF (x : ℚ) := rnd 2 53 x
  ofF (x : ℚ) := shortest x 16 1
  angleDeg (dy dx : ℚ) := rnd 2 53 (diamond dy dx)
  fmod360 (x : ℚ) := rnd 2 53 (x - 360 * ((x / 360).floor : ℚ))

end Foronoi
