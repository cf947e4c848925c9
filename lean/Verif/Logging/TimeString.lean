import Verif.Common.DoubleEven

/-!
# Model of the time stamps of log messages (`sm_logging/src/Logger.cpp:11-29`)

`currentTimeImplementation` (virtual; `system_clock::now()` by default, Logger.cpp:43-45) is an argument: a count of nanoseconds since the epoch in an `int64_t`.
`rnd` is the rounding of the machine (to double); the conversion of a double to decimal text is that of the C library: the exact value of the double, rounded to the nearest multiple of 10⁻⁶, ties to even.
The stream is a fresh `stringstream`, so its locale is the global one, taken to be the classic one.
-/

namespace Verif.Logging.Stamp

open Verif.Common

/-- `duration_cast<microseconds>(t.time_since_epoch()).count()` (Logger.cpp:14): integer division, toward zero -/
def micros (ns : ℤ) : ℤ := ns.tdiv 1000

/-- `Logger::currentTimeSecondsUtc` (Logger.cpp:11-16) -/
def currentTimeSecondsUtc (rnd : ℚ → ℚ) (ns : ℤ) : ℚ := rnd (rnd (micros ns) / 1000000)

/-- `w` decimal digits of `n`, with leading zeros (the digits after the point, of Logger.cpp:22-25) -/
def padded : ℕ → ℕ → List Char
  | 0, _ => []
  | w + 1, n => padded w (n / 10) ++ [Nat.digitChar (n % 10)]

/-- `ss << cts` with `fixed` and `precision(6)` (Logger.cpp:21-25): sign, integer part, point, six digits -/
def fixed6 (x : ℚ) : List Char :=
  let n := (roundEven (1000000 * x)).natAbs
  (if x < 0 then ['-'] else []) ++ Nat.toDigits 10 (n / 1000000) ++ ['.'] ++ padded 6 (n % 1000000)

/-- `Logger::currentTimeString` (Logger.cpp:18-29) -/
def currentTimeString (rnd : ℚ → ℚ) (ns : ℤ) : List Char := fixed6 (currentTimeSecondsUtc rnd ns)

end Verif.Logging.Stamp
