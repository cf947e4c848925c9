import Mathlib.Analysis.Real.Sqrt
import Mathlib.Algebra.Order.Floor.Ring
import Mathlib.Tactic.Linarith

/-!
# Model of the small numeric helpers of `sm_common`

`numerical_comparisons.hpp`, `maths.hpp`, `round.hpp`.  Numbers are exact reals instead of IEEE
floating point values (no rounding, NaN or infinities); a division by zero, which yields a non-finite
floating point value, is the explicit outcome `none`.
-/

namespace Verif.Numeric

/-- `std::invalid_argument` thrown by the `SM_ASSERT_GT` guards. -/
inductive Err where
  | invalidArgument
  | runtimeError
deriving DecidableEq

/-- `internal::maxTimesEpsilon` (numerical_comparisons.hpp:44-49).  The debug-only assertion is
redundant with the callers' check. -/
noncomputable def maxTimesEpsilon (a b eps : ℝ) : ℝ := max |a| |b| * eps

/-- `approximatelyEqual` (numerical_comparisons.hpp:60-65). -/
noncomputable def approximatelyEqual (a b eps : ℝ) : Except Err Prop :=
  if eps > 0 then .ok (|a - b| ≤ maxTimesEpsilon a b eps) else .error .invalidArgument

/-- `definitelyGreaterThan` (numerical_comparisons.hpp:74-79). -/
noncomputable def definitelyGreaterThan (a b eps : ℝ) : Except Err Prop :=
  if eps > 0 then .ok ((a - b) > maxTimesEpsilon a b eps) else .error .invalidArgument

/-- `definitelyLessThan` (numerical_comparisons.hpp:88-93). -/
noncomputable def definitelyLessThan (a b eps : ℝ) : Except Err Prop :=
  if eps > 0 then .ok ((b - a) > maxTimesEpsilon a b eps) else .error .invalidArgument

/-- Floating point division: `none` stands for the non-finite result of dividing by zero. -/
noncomputable def fdiv (x y : ℝ) : Option ℝ := if y = 0 then none else some (x / y)

/-- `solveQuadratic` (maths.hpp:21-39).  Each component of the returned pair is `none` if it is
computed by a division by zero. -/
noncomputable def solveQuadratic (a b c : ℝ) : Except Err (Option ℝ × Option ℝ) :=
  let disc := b * b - 4 * c * a
  if disc ≥ 0 then
    let n := if b < 0 then Real.sqrt disc - b else -Real.sqrt disc - b
    .ok (fdiv n (2 * a), fdiv (2 * c) n)
  else .error .runtimeError

/-- `sgn` (maths.hpp:49-51). -/
noncomputable def sgn (v : ℝ) : ℤ := (if 0 < v then 1 else 0) - (if v < 0 then 1 else 0)

/-- `sm::round(double)` / `sm::round(float)` (round.hpp:6-14). -/
noncomputable def round (x : ℝ) : ℤ := if x < 0 then ⌈x - 1 / 2⌉ else ⌊x + 1 / 2⌋

/-- `static_cast<int>` of a floating point number with integral value: undefined behaviour (`none`)
outside the range of a 32-bit `int`. -/
def castInt (n : ℤ) : Option ℤ := if -2 ^ 31 ≤ n ∧ n < 2 ^ 31 then some n else none
/-- `static_cast<long int>` (64-bit). -/
def castLong (n : ℤ) : Option ℤ := if -2 ^ 63 ≤ n ∧ n < 2 ^ 63 then some n else none
/-- Integer conversion `long → int` in a `return` statement: reduction modulo `2^32`. -/
def wrapInt (n : ℤ) : ℤ := (n + 2 ^ 31) % 2 ^ 32 - 2 ^ 31

/-- `rint(double)` (round.hpp:16-19). -/
noncomputable def rintDouble (x : ℝ) : Option ℤ := castInt (round x)
/-- `rint(float)` (round.hpp:21-24). -/
noncomputable def rintFloat (x : ℝ) : Option ℤ := (castLong (round x)).map wrapInt
/-- `lrint(double)` (round.hpp:26-29): note the cast to `int`. -/
noncomputable def lrintDouble (x : ℝ) : Option ℤ := castInt (round x)
/-- `lrint(float)` (round.hpp:31-34). -/
noncomputable def lrintFloat (x : ℝ) : Option ℤ := castLong (round x)

end Verif.Numeric
