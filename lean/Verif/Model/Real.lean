import Verif.Model.Geometry
import Mathlib.Analysis.SpecialFunctions.Complex.Arg
import Mathlib.Analysis.Real.Sqrt
import Mathlib.Tactic.Ring
import Mathlib.Tactic.Linarith

/-!
# The model over exact real arithmetic

The instance of the numeric functions in which nothing is rounded: what the formulas of the code mean.  A division by zero and the
root of a negative number are the only signals.
-/

namespace Foronoi

/-- `atan2` in degrees, in `[0, 360)`. -/
noncomputable def angleR (dy dx : ℝ) : ℝ :=
  let d := Complex.arg ⟨dx, dy⟩ * 180 / Real.pi
  d - 360 * (⌊d / 360⌋ : ℝ)

open Classical in
noncomputable instance realArith : Arith ℝ where
  ofInt n := (n : ℝ)
  add := (· + ·)
  sub := (· - ·)
  mul := (· * ·)
  neg := (- ·)
  sq x := x * x
  div a b := if b = 0 then none else some (a / b)
  sqrt x := if x < 0 then none else some (Real.sqrt x)
  fadd := (· + ·)
  fsub := (· - ·)
  fmul := (· * ·)
  fdiv := (· / ·)
  fsqrt := Real.sqrt
  toF := id
  ofF := id
  angleDeg := angleR
  fmod360 x := x - 360 * (⌊x / 360⌋ : ℝ)

instance realLaws : ArithLaws ℝ where
  sub_mul := by intro a b c d; simp only [Arith.mul, Arith.sub]; ring
  mul_comm := by intro a b; simp only [Arith.mul]; ring
  sub_self := by intro a; simp [Arith.sub, Arith.ofInt]
  two_mul_zero := by simp [Arith.mul, Arith.ofInt]

instance realMid (pts : Nat → ℝ × ℝ) (n : Nat) : MidLt pts n where
  mid_lt := by
    intro p _ r _ b _ m hx hy h
    simp only [Arith.div, Arith.add, Arith.ofInt, Int.cast_ofNat, OfNat.ofNat_ne_zero, if_false, Option.some.injEq] at h
    linarith

end Foronoi
