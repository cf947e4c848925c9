import Verif.Common.DoubleEven

/-!
# Model of `sm::showProgress` (`sm_common/src/progress_info.cpp`, `sm_common/include/sm/progress_info.hpp`)

Of `std::cout` the formatting flags and the lines written are modelled.  The types of `done` and `all` are integer types; `rnd` is the rounding of the machine.
-/

namespace Verif.Common

/-- the formatting state of a stream: `std::fixed`, `std::setprecision`, `std::showpoint` -/
structure StreamFmt where
  fixed : Bool
  precision : Nat
  showpoint : Bool
  deriving DecidableEq, Repr

/-- what is written: `"\rComplete!             "` and a line feed, or `"\r"`, the percentage with two decimals, `"% complete "` -/
inductive ProgressText where
  | complete
  /-- the hundredths of the percentage -/
  | percent (hundredths : ℤ)
  deriving DecidableEq, Repr

/-- `std::cout` -/
structure Cout where
  fmt : StreamFmt
  out : List ProgressText
  deriving DecidableEq, Repr

/-- a call that returned or threw `std::runtime_error`, and the stream -/
structure ProgressRes where
  threw : Bool
  cout : Cout
  deriving DecidableEq, Repr

/-- `showProgress(double progress)` (progress_info.cpp:15-29); `debug` = the `_DBG` assertions are compiled -/
def showProgress (rnd : ℚ → ℚ) (debug : Bool) (c : Cout) (progress : ℚ) : ProgressRes :=
  if debug && decide (progress < 0) then ⟨true, c⟩
  else if debug && decide (1 < progress) then ⟨true, c⟩
  else
    let fmt : StreamFmt := ⟨true, 2, true⟩
    if 1 ≤ progress then ⟨false, ⟨fmt, c.out ++ [.complete]⟩⟩
    else ⟨false, ⟨fmt, c.out ++ [.percent (roundEven (100 * rnd (100 * progress)))]⟩⟩

/-- `showProgress(done, all)` (progress_info.hpp:13-18) -/
def showProgressOf (rnd : ℚ → ℚ) (debug : Bool) (c : Cout) (done all : ℤ) : ProgressRes :=
  if 0 < all then showProgress rnd debug c (rnd (rnd done / rnd all))
  else ⟨true, c⟩

end Verif.Common
