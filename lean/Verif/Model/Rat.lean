import Verif.Model.Heapq
import Mathlib.Algebra.Order.Ring.Rat
import Mathlib.Tactic.Ring
import Mathlib.Tactic.Linarith
import Mathlib.Tactic.FieldSimp

/-!
# An executable arithmetic: exact rationals

Used for concrete runs of the model (examples, refutations).  Every operation is exact except `sqrt`, which is exact on squares of
rationals and otherwise rounded down to about 20 digits, and the angle, which is replaced by the diamond angle (same cyclic order:
0, 90, 180, 270 on the axes, monotone in between).
-/

namespace Foronoi

/-- Integer square root, one binary digit pair per step. -/
def isqrt : Nat → Nat → Nat
  | 0, _ => 0
  | f + 1, n =>
    if n = 0 then 0
    else
      let r := 2 * isqrt f (n / 4)
      if (r + 1) * (r + 1) ≤ n then r + 1 else r

/-- Square root of a nonnegative rational. -/
def qsqrt (x : ℚ) : ℚ :=
  let m := x.num.toNat * x.den * 10 ^ 40
  mkRat (isqrt (m.log2 + 1) m) (x.den * 10 ^ 20)

/-- Diamond angle of the vector `(dx, dy)`, scaled to a full turn of 360. -/
def diamond (dy dx : ℚ) : ℚ :=
  if dy = 0 ∧ dx = 0 then 0
  else if 0 ≤ dy then
    if 0 ≤ dx then 90 * (dy / (dx + dy)) else 90 * (1 + (-dx) / (-dx + dy))
  else
    if dx < 0 then 90 * (2 + (-dy) / (-dx - dy)) else 90 * (3 + dx / (dx - dy))

instance ratArith : Arith ℚ where
  ofInt n := (n : ℚ)
  add := (· + ·)
  sub := (· - ·)
  mul := (· * ·)
  neg := (- ·)
  sq x := x * x
  div a b := if b = 0 then none else some (a / b)
  sqrt x := if x < 0 then none else some (qsqrt x)
  fadd := (· + ·)
  fsub := (· - ·)
  fmul := (· * ·)
  fdiv := (· / ·)
  fsqrt := qsqrt
  toF := id
  ofF := id
  angleDeg := diamond
  fmod360 x := x - 360 * ((x / 360).floor : ℚ)

instance ratLaws : ArithLaws ℚ where
  sub_mul := by intro a b c d; simp only [Arith.mul, Arith.sub]; ring
  mul_comm := by intro a b; simp only [Arith.mul]; ring
  sub_self := by intro a; simp [Arith.sub, Arith.ofInt]
  two_mul_zero := by simp [Arith.mul, Arith.ofInt]

instance ratMid (pts : Nat → ℚ × ℚ) (n : Nat) : MidLt pts n where
  mid_lt := by
    intro p _ r _ b _ m hx hy h
    simp only [Arith.div, Arith.add, Arith.ofInt, Int.cast_ofNat, OfNat.ofNat_ne_zero, if_false, Option.some.injEq] at h
    linarith

end Foronoi
