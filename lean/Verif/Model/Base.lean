import Mathlib.Logic.Function.Basic
import Mathlib.Order.Defs.LinearOrder

/-!
# Base of the model: errors, stores, arithmetic

Python objects are references (`Nat`) into stores; a method is a function
`state → Except Err (result × state)`, i.e. an action of `StateT state (Except Err)`.
-/

namespace Foronoi

/-- The exceptions the modelled code can raise, as values.
* `attr`      AttributeError / TypeError, e.g. attribute access on `None`
* `value`     ValueError, e.g. `list.remove(x)` with `x` not in the list, `min([])`
* `index`     IndexError
* `assertion` AssertionError
* `arith`     a signal of `decimal` (DivisionByZero, InvalidOperation)
* `fuel`      not an exception: the modelled loop did not stop within the fuel it was given -/
inductive Err where
  | attr | value | index | assertion | arith | fuel
  deriving DecidableEq, Repr

/-- Arithmetic used by the code.  The values of `decimal.Decimal` (finite ones) and of `float` are
elements of one linearly ordered type `K`; every operation is an arbitrary function on `K`, so that
theorems stated for all `Arith K` hold for every rounding behaviour.
`none` stands for a signal raised by the `decimal` module.

* `add sub mul neg sq div sqrt` : `Decimal` operations (`sq x` is `x ** 2`)
* `fadd fsub fmul fdiv fsqrt`   : float/numpy operations (their divisors are tested against 0 by the code)
* `toF`                         : `float(decimal)`
* `ofF`                         : `Decimal(str(float))`, coordinate.py:25-27
* `angleDeg dy dx`              : `np.math.degrees(np.math.atan2(dy, dx)) % 360`, algebra.py:66
* `fmod360 x`                   : `x % 360` on floats
* `ofInt`                       : integer literals -/
class Arith (K : Type) [LinearOrder K] where
  ofInt : Int → K
  add : K → K → K
  sub : K → K → K
  mul : K → K → K
  neg : K → K
  sq : K → K
  div : K → K → Option K
  sqrt : K → Option K
  fadd : K → K → K
  fsub : K → K → K
  fmul : K → K → K
  fdiv : K → K → K
  fsqrt : K → K
  toF : K → K
  ofF : K → K
  angleDeg : K → K → K
  fmod360 : K → K

/-- The laws of Decimal arithmetic the structural theorems need: subtraction is symmetric up to the sign and multiplication is
commutative, also in the sign; `x - x = 0`, `2 * 0 = 0`.  They hold for `decimal` with every precision and its default rounding
ROUND_HALF_EVEN (`decLaws` in Model/Decimal.lean). -/
class ArithLaws (K : Type) [LinearOrder K] [Arith K] : Prop where
  sub_mul : ∀ a b c d : K, Arith.mul (Arith.sub a b) (Arith.sub c d) = Arith.mul (Arith.sub b a) (Arith.sub d c)
  mul_comm : ∀ a b : K, Arith.mul a b = Arith.mul b a
  sub_self : ∀ a : K, Arith.sub a a = Arith.ofInt 0
  two_mul_zero : Arith.mul (Arith.ofInt 2) (Arith.ofInt 0 : K) = Arith.ofInt 0

/-- What the structural theorems need of the sites: the computed middle between a site and another is left of a third site, if the first is
left of it and the second not right of it.  It holds in exact arithmetic, and in `decimal` for coordinates with less digits than the precision
(`decMid` in Props/Decimal.lean), so for all floats. -/
class MidLt {K : Type} [LinearOrder K] [Arith K] (pts : Nat → K × K) (n : Nat) : Prop where
  mid_lt : ∀ p < n, ∀ r < n, ∀ b < n, ∀ m, (pts p).1 < (pts b).1 → (pts r).1 ≤ (pts b).1 → Arith.div (Arith.add (pts p).1 (pts r).1) (Arith.ofInt 2) = some m → m < (pts b).1

instance {K : Type} [LinearOrder K] [Arith K] (pts : Nat → K × K) : MidLt pts 1 where
  mid_lt := by
    intro p hp r _ b hb m h
    obtain rfl : p = b := by omega
    exact absurd h (lt_irrefl _)

/-- Actions on a state `σ` that may raise. -/
abbrev EM (σ : Type) := StateT σ (Except Err)

/-- A Decimal operation inside an action: `none` raises `Err.arith`. -/
def liftA {σ α : Type} (o : Option α) : EM σ α :=
  match o with
  | some a => pure a
  | none => throw .arith

/-- Attribute access on a possibly-`None` reference. -/
def deref {σ α : Type} (o : Option α) : EM σ α :=
  match o with
  | some a => pure a
  | none => throw .attr

/-- `if x is not None: f(x)`. -/
def optDo {σ α : Type} (o : Option α) (f : α → EM σ Unit) : EM σ Unit :=
  match o with
  | some a => f a
  | none => pure ()

/-- `if b: m`. -/
def whenDo {σ : Type} (b : Bool) (m : EM σ Unit) : EM σ Unit :=
  if b then m else pure ()

/-- Run an action on a component of the state. -/
def zoom {σ τ α : Type} (g : σ → τ) (p : τ → σ → σ) (m : EM τ α) : EM σ α :=
  fun s => match m (g s) with
    | .ok (a, t) => .ok (a, p t s)
    | .error e => .error e

end Foronoi
