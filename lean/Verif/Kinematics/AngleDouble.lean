import Verif.Common.DoubleOps

/-!
# Angle utilities on doubles

`angleMod`, `deg2rad` and `rad2deg` of `rotations.cpp` with the arithmetic of the machine; the decimal literals of the header are rounded to doubles by the compiler.  There is a model over the real numbers in `Verif.Kinematics.Rot`.
-/

namespace Verif.AngleDouble

open Verif.Common

/-- `boost::math::round` of a finite double: the nearest integer, halfway cases away from zero (its steps - floor or ceiling, a difference, a comparison with 0.5 - are exact) -/
def boostRound (x : ℚ) : ℤ := if 0 ≤ x then ⌊x + 1 / 2⌋ else ⌈x - 1 / 2⌉

variable (rnd : ℚ → ℚ)

/-- `SM_2PI` (rotations.hpp:18) -/
def SM_2PI : ℚ := rnd (6283185307179586 / 10 ^ 15)

/-- `SM_DEG2RAD` (rotations.hpp:19) -/
def SM_DEG2RAD : ℚ := rnd (17453292519943 / 10 ^ 15)

/-- `SM_RAD2DEG` (rotations.hpp:20) -/
def SM_RAD2DEG : ℚ := rnd (57295779513082323 / 10 ^ 15)

/-- `angleMod` (rotations.cpp:144-146); `none` is the exception `boost::math::rounding_error` that `boost::math::round` throws if its argument is not finite -/
def angleMod (radians : Fp) : Option Fp :=
  match fdiv rnd radians (.fin (SM_2PI rnd)) with
  | .fin v => some (fsub rnd radians (fmul rnd (.fin (SM_2PI rnd)) (.fin (boostRound v))))
  | _ => none

/-- `deg2rad` (rotations.cpp:147-149) -/
def deg2rad (degrees : Fp) : Fp := fmul rnd degrees (.fin (SM_DEG2RAD rnd))

/-- `rad2deg` (rotations.cpp:150-152) -/
def rad2deg (radians : Fp) : Fp := fmul rnd radians (.fin (SM_RAD2DEG rnd))

end Verif.AngleDouble
