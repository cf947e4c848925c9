import Verif.Common.DoubleOps
import Verif.Common.DoubleEven
import Verif.Common.Numeric

/-!
# The small numeric helpers of `sm_common` on doubles

`numerical_comparisons.hpp`, `maths.hpp` and `round.hpp` again (there is an exact model in `Verif.Common.Numeric`), now with the arithmetic of the machine: results are rounded, overflow to infinities, and NaN
is a value.  Each operation is rounded by itself (no fused multiply-add, no extended precision).
-/

namespace Verif.NumericDouble

open Verif.Common
open Verif.Numeric (Err)

variable (rnd : ℚ → ℚ)

/-! ## `numerical_comparisons.hpp` -/

/-- `internal::maxTimesEpsilon` (44-49) -/
def maxTimesEpsilon (a b eps : Fp) : Fp := fmul rnd (Fp.max a.abs b.abs) eps

/-- `approximatelyEqual` (60-65); `SM_ASSERT_GT` throws if `epsilon <= 0.0` -/
def approximatelyEqual (a b eps : Fp) : Except Err Bool :=
  if eps.le (.fin 0) then .error .invalidArgument else .ok ((fsub rnd a b).abs.le (maxTimesEpsilon rnd a b eps))

/-- `definitelyGreaterThan` (74-79) -/
def definitelyGreaterThan (a b eps : Fp) : Except Err Bool :=
  if eps.le (.fin 0) then .error .invalidArgument else .ok ((maxTimesEpsilon rnd a b eps).lt (fsub rnd a b))

/-- `definitelyLessThan` (88-93) -/
def definitelyLessThan (a b eps : Fp) : Except Err Bool :=
  if eps.le (.fin 0) then .error .invalidArgument else .ok ((maxTimesEpsilon rnd a b eps).lt (fsub rnd b a))

/-- `std::numeric_limits<double>::epsilon()`, the default argument -/
def defaultEps : ℚ := 2 ^ (-52 : ℤ)

/-! ## `round.hpp` -/

/-- `floor` -/
def ffloor : Fp → Fp
  | .fin q => .fin ⌊q⌋
  | x => x

/-- `ceil` -/
def fceil : Fp → Fp
  | .fin q => .fin ⌈q⌉
  | x => x

/-- `round(double)` (6-9) -/
def round (x : Fp) : Fp :=
  if x.lt (.fin 0) then fceil (fsub rnd x (.fin (1 / 2))) else ffloor (fadd rnd x (.fin (1 / 2)))

/-! ## `maths.hpp` -/

/-- `sqrt`; `R` rounds real numbers -/
noncomputable def fsqrt (R : ℝ → ℚ) : Fp → Fp
  | .fin q => if q < 0 then .nan else .fin (R (Real.sqrt q))
  | .inf false => .inf false
  | _ => .nan

/-- `b*b - 4*c*a` (23) -/
def discriminant (a b c : Fp) : Fp := fsub rnd (fmul rnd b b) (fmul rnd (fmul rnd (.fin 4) c) a)

/-- `solveQuadratic` (21-39); `SM_ASSERT_GE` throws if `bb_m_4ac < 0.0` -/
noncomputable def solveQuadratic (R : ℝ → ℚ) (a b c : Fp) : Except Err (Fp × Fp) :=
  let rnd : ℚ → ℚ := fun q => R q
  let d := discriminant rnd a b c
  if d.lt (.fin 0) then .error .runtimeError
  else
    let n := if b.lt (.fin 0) then fsub rnd (fsqrt R d) b else fsub rnd (fsqrt R d).neg b
    .ok (fdiv rnd n (fmul rnd (.fin 2) a), fdiv rnd (fmul rnd (.fin 2) c) n)

end Verif.NumericDouble
