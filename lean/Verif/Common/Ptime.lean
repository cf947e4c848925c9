import Mathlib.Data.Int.Basic
import Mathlib.Algebra.Order.Group.Int
import Mathlib.Tactic.Ring
import Mathlib.Tactic.Linarith
import Mathlib.Tactic.NormNum

/-!
# Model of sm_boost/include/sm/boost/ptime.hpp

A `boost::posix_time::ptime` that is not a special value is a number of ticks since the Unix epoch, in an `int64`; the resolution (`res` ticks in a second) is
10^6, or 10^9 when Boost is configured for nanoseconds (`BOOST_DATE_TIME_POSIX_TIME_STD_CONFIG`).  `total_seconds()` converts its result to a
signed integer of `bits` bits: 32 before Boost 1.67, 64 since; the conversion is modulo 2^bits.  Special values (not-a-date-time, ±infinity;
the `todo` of line 12) are not modelled.
-/

namespace Verif.Common.Ptime

/-- the fields of a `timeval` -/
structure Timeval where
  sec : ℤ
  usec : ℤ
deriving DecidableEq

/-- how a call ends -/
inductive Outcome
  | returns (tv : Timeval)
  /-- the behaviour is undefined -/
  | undefined
deriving DecidableEq

/-- conversion to a signed integer of `bits` bits -/
def wrap (bits : ℕ) (n : ℤ) : ℤ := (n + 2 ^ (bits - 1)) % 2 ^ bits - 2 ^ (bits - 1)

/-- the local variable `tv` at the end of the function (ptime.hpp:13-16): `duration.total_seconds()`, `duration.fractional_seconds()`, which
truncate towards zero -/
def locals (bits : ℕ) (res ticks : ℤ) : Timeval := ⟨wrap bits (ticks.tdiv res), ticks.tmod res⟩

/-- `ptimeToTimeval` (8-20): it computes `tv` and reaches its end without a `return`, which is undefined (C++ standard, stmt.return) -/
def ptimeToTimeval (bits : ℕ) (res ticks : ℤ) : Outcome :=
  let _tv := locals bits res ticks
  .undefined

end Verif.Common.Ptime
