import Verif.Props.Decimal

/-!
# C124: floats and decimals
-/

namespace Foronoi

variable {p : Nat}

/-- **C124**: the float operations of the model are correctly rounded to 53 bits. -/
theorem C124_float_operations (a b : Dec p) :
    RoundsTo 2 53 a.val (Arith.toF a).val ∧ RoundsTo 2 53 (a.val + b.val : ℚ) (Arith.fadd a b).val ∧ RoundsTo 2 53 (a.val - b.val : ℚ) (Arith.fsub a b).val ∧
    RoundsTo 2 53 (a.val * b.val : ℚ) (Arith.fmul a b).val ∧ RoundsTo 2 53 (a.val / b.val : ℚ) (Arith.fdiv a b).val ∧
    (0 ≤ a.val → RoundsTo 2 53 (Real.sqrt a.val) (Arith.fsqrt a).val) :=
  ⟨reads_iff.mpr rfl, reads_iff.mpr rfl, reads_iff.mpr rfl, reads_iff.mpr rfl, reads_iff.mpr rfl, rndSqrt_roundsTo (by norm_num) (by norm_num) (by decide)⟩

/-- C124: `Decimal(str(x))` of a float is the shortest decimal number that is read back as this float. -/
theorem C124_written {f : Dec p} (hf : HasDigits 2 53 f.val) : WrittenAs f.val (Arith.ofF f).val := shortest_written hf

/-- C124: a coordinate given as a float is returned as the same float. -/
theorem C124_float_back {f : Dec p} (hf : HasDigits 2 53 f.val) : Arith.toF (Arith.ofF f) = f := by
  obtain ⟨_, _, h, _⟩ := C124_written hf
  exact reads_iff.mp h

/-- C124: a decimal with at most 15 digits that is converted to a float and back is not changed. -/
theorem C124_decimal_back {a : Dec p} (ha : HasDigits 10 15 a.val) : Arith.ofF (Arith.toF a) = a :=
  fifteen ha (shortest_written (rnd_digits (by norm_num) (by norm_num)))

/-- A decimal with 16 digits. -/
def long16 : Dec 28 := show ℚ from 9007199254740993

/-- C124: with 16 digits it can be: 9007199254740993 becomes 9007199254740992. -/
theorem C124_sixteen : ∃ a : Dec 28, HasDigits 10 16 a.val ∧ Arith.ofF (Arith.toF a) ≠ a :=
  ⟨long16, ⟨9007199254740993, 0, by norm_num [Dec.val, long16], by norm_num⟩, by decide +kernel⟩

/-- One tenth. -/
def tenth : Dec 28 := show ℚ from 1 / 10

/-- The hypotheses of C124 can be met: one tenth has one digit and is no float; the float read for it is written as one tenth. -/
example : Arith.toF tenth ≠ tenth ∧ Arith.ofF (Arith.toF tenth) = tenth :=
  ⟨by decide +kernel, C124_decimal_back ⟨1, -1, by norm_num [Dec.val, tenth], by norm_num⟩⟩

/-- The float `2 ^ -44` is written with the second nearest decimal of 16 digits, as the nearest one is read as another float. -/
example : shortest (1 / 2 ^ 44) 16 1 = 5684341886080802 / 10 ^ 29 ∧ rnd 10 16 (1 / 2 ^ 44) = 5684341886080801 / 10 ^ 29 := by decide +kernel

end Foronoi
