import Mathlib.Data.Real.Basic

/-!
# Numbers with a limited number of digits

Stated without reference to the model.
-/

namespace Foronoi

/-- `x` has at most `p` digits in base `b`. -/
def HasDigits (b p : Nat) (x : ℚ) : Prop := ∃ n e : ℤ, x = n * (b : ℚ) ^ e ∧ |n| < (b : ℤ) ^ p

/-- `y` is `x` rounded to `p` digits in base `b`: no number with `p` digits is nearer, and if another one is equally near the last of the `p` digits of `y` is even. -/
def RoundsTo (b p : Nat) (x : ℝ) (y : ℚ) : Prop :=
  HasDigits b p y ∧ (∀ z, HasDigits b p z → |(y : ℝ) - x| ≤ |(z : ℝ) - x|) ∧
    ∀ z, HasDigits b p z → z ≠ y → |(z : ℝ) - x| = |(y : ℝ) - x| → ∃ n e : ℤ, y = 2 * n * (b : ℚ) ^ e ∧ (b : ℤ) ^ (p - 1) ≤ |2 * n| ∧ |2 * n| < (b : ℤ) ^ p

/-- `y` is the decimal number that is written for the float `x`: it is read back as `x`, no number with fewer digits is, and no number with as many digits that is read
back as `x` is nearer to it; if `x` rounded to as many digits is read back as `x`, it is this number. -/
def WrittenAs (x y : ℚ) : Prop :=
  ∃ d, HasDigits 10 d y ∧ RoundsTo 2 53 y x ∧ ∀ e w, HasDigits 10 e w → RoundsTo 2 53 w x → d ≤ e ∧ (e = d → |y - x| ≤ |w - x| ∧ (1 < d → RoundsTo 10 d x w → y = w))

end Foronoi
