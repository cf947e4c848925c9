import Mathlib.Algebra.Order.Field.Rat
import Mathlib.Algebra.Order.AbsoluteValue.Basic

/-!
# Floating point values with infinities and NaN

The comparisons and operations of IEEE 754 on the special values, as C++ has them.  Operations on finite numbers are exact here
(rounding and overflow are left out: the sign of a zero is, too).
-/

namespace Verif.Common

/-- a floating point value -/
inductive Fp
  | fin (q : ℚ)
  | inf (neg : Bool)
  | nan
  deriving DecidableEq

namespace Fp

/-- `isfinite` -/
def isFinite : Fp → Bool
  | fin _ => true
  | _ => false

/-- `isnan` -/
def isNan : Fp → Bool
  | nan => true
  | _ => false

/-- `a < b`: false if one of them is NaN -/
def lt : Fp → Fp → Bool
  | nan, _ => false
  | _, nan => false
  | fin a, fin b => decide (a < b)
  | fin _, inf n => !n
  | inf n, fin _ => n
  | inf n, inf m => n && !m

/-- `a == b`: a NaN differs from everything -/
def eq : Fp → Fp → Bool
  | nan, _ => false
  | _, nan => false
  | fin a, fin b => decide (a = b)
  | inf n, inf m => n == m
  | _, _ => false

/-- `a <= b` -/
def le (a b : Fp) : Bool := lt a b || eq a b

/-- `fabs` -/
def abs : Fp → Fp
  | fin q => fin |q|
  | inf _ => inf false
  | nan => nan

/-- `-a` -/
def neg : Fp → Fp
  | fin q => fin (-q)
  | inf n => inf (!n)
  | nan => nan

/-- `a + b` -/
def add : Fp → Fp → Fp
  | nan, _ => nan
  | _, nan => nan
  | fin a, fin b => fin (a + b)
  | fin _, inf n => inf n
  | inf n, fin _ => inf n
  | inf n, inf m => if n = m then inf n else nan

/-- `a - b` -/
def sub (a b : Fp) : Fp := add a b.neg

/-- `a * b` -/
def mul : Fp → Fp → Fp
  | nan, _ => nan
  | _, nan => nan
  | fin a, fin b => fin (a * b)
  | fin a, inf n => if a = 0 then nan else inf (decide (a < 0) != n)
  | inf n, fin a => if a = 0 then nan else inf (decide (a < 0) != n)
  | inf n, inf m => inf (n != m)

/-- `a / b` (a division by zero is taken to be by the positive zero) -/
def div : Fp → Fp → Fp
  | nan, _ => nan
  | _, nan => nan
  | fin a, fin b => if b = 0 then (if a = 0 then nan else inf (decide (a < 0))) else fin (a / b)
  | fin _, inf _ => fin 0
  | inf n, fin b => inf (decide (b < 0) != n)
  | inf _, inf _ => nan

/-- `std::max(a, b)`: `a < b ? b : a` -/
def max (a b : Fp) : Fp := if lt a b then b else a

end Fp

end Verif.Common
