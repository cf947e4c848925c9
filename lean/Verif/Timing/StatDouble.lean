import Verif.Timing.Spec
import Verif.Common.Double

/-!
# The statistics of a timer in double precision

`Verif.Timing.Model` keeps a timer's samples and statistics as exact numbers.  Here is what boost's accumulators compute in `double` (Timer.cpp:17-31, 151-204): `sum`, the sum of squares behind `lazy_variance`, and the extremes are updated with every sample, `mean` and `variance` are computed from them when asked for.  `rnd` is the rounding of double arithmetic.  Not modelled: overflow (samples are at most some `2 ^ 64` nanoseconds), contraction of `a * b + c` into one rounding, the rolling mean of `getHz` (its algorithm depends on the version of boost).
-/

namespace Verif.Timing

open Verif.Common

/-- count, sum, sum of squares, minimum and maximum (Timer.cpp:20-27) -/
structure DAcc where
  count : ℕ
  sum : ℚ
  sumSq : ℚ
  min : Option ℚ
  max : Option ℚ

def DAcc.init : DAcc := ⟨0, 0, 0, none, none⟩

/-- `m_acc(seconds)` (Timer.cpp:151-154) -/
def DAcc.push (rnd : ℚ → ℚ) (a : DAcc) (x : ℚ) : DAcc :=
  { count := a.count + 1
    sum := rnd (a.sum + x)
    sumSq := rnd (a.sumSq + rnd (x * x))
    min := some (match a.min with | none => x | some m => if x < m then x else m)
    max := some (match a.max with | none => x | some m => if m < x then x else m) }

/-- all samples of a timer, in order -/
def DAcc.pushAll (rnd : ℚ → ℚ) (xs : List ℚ) : DAcc := xs.foldl (DAcc.push rnd) .init

/-- `getTotalSeconds` (Timer.cpp:156-162) -/
def DAcc.total (a : DAcc) : ℚ := a.sum
/-- `getMeanSeconds` (Timer.cpp:163-169) of at least one sample: sum / count -/
def DAcc.mean (rnd : ℚ → ℚ) (a : DAcc) : ℚ := rnd (a.sum / a.count)
/-- `getVarianceSeconds` (Timer.cpp:177-183), boost's `lazy_variance`: the mean of the squares less the square of the mean -/
def DAcc.variance (rnd : ℚ → ℚ) (a : DAcc) : ℚ :=
  rnd (rnd (a.sumSq / a.count) - rnd (a.mean rnd * a.mean rnd))

/-- `double stddev = sqrt(getVarianceSeconds(i))` in `print` (Timer.cpp:253) and in the sorting by `SORT_BY_STD` (Timer.cpp:296-298); `none` = not a number -/
def DAcc.stddev (sqrtD : ℚ → ℚ) (rnd : ℚ → ℚ) (a : DAcc) : Option ℚ :=
  if a.variance rnd < 0 then none else some (sqrtD (a.variance rnd))

/-- `secondsToTimeString(stddev)` (Timer.cpp:221-235, 255): converting a NaN to `long` is undefined behaviour (`none`) -/
def printedStddev (sqrtD rnd : ℚ → ℚ) (rnd6 : ℚ → ℤ) (a : DAcc) : Option TimeString :=
  (a.stddev sqrtD rnd).map (secondsToTimeString rnd rnd6)

/-- `dt = (double)t.total_nanoseconds() * 1e-9` (Timer.cpp:139-141) -/
def sampleOf (rnd : ℚ → ℚ) (ns : ℤ) : ℚ := rnd (rnd ns * rnd (1 / 1000000000))

end Verif.Timing
