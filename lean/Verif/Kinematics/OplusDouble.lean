import Mathlib.Analysis.SpecialFunctions.Trigonometric.Bounds
import Verif.Kinematics.QuatDouble

/-!
# Updates of quaternions and transformations, on doubles

`axisAngle2quat`, `updateQuat` (quaternion_algebra.cpp) and `Transformation::oplus` (Transformation.cpp) with the arithmetic of the machine; the operations are rounded one by one, in the order of the source.  There is a model over the real
numbers in `Verif.Kinematics.Quat` and `Verif.Kinematics.Transf`.
-/

namespace Verif.KinematicsDouble

open Verif.Common

/-- The environment: the order in which Eigen adds the three squares of `norm()`, and the C library's `sin` and `cos`, of which only an accuracy of one unit in the last place of 1 is assumed. -/
structure Lib (rnd : ℚ → ℚ) where
  /-- the sum of three numbers -/
  sum3 : Fp → Fp → Fp → Fp
  sum3_sum : ∀ a b c, SumOf rnd [a, b, c] (sum3 a b c)
  sin : ℚ → ℚ
  cos : ℚ → ℚ
  sin_double : ∀ x, IsDouble (sin x)
  cos_double : ∀ x, IsDouble (cos x)
  sin_err : ∀ x, |(sin x : ℝ) - Real.sin x| ≤ 1 / 2 ^ 52
  cos_err : ∀ x, |(cos x : ℝ) - Real.cos x| ≤ 1 / 2 ^ 52

/-- a function of the C library on doubles; without a value at infinity -/
def libm (f : ℚ → ℚ) : Fp → Fp
  | .fin x => .fin (f x)
  | _ => .nan

section
variable {R : ℝ → ℚ} (L : Lib fun q => R q)

local infixl:65 " +. " => fadd fun q => R q
local infixl:65 " -. " => fsub fun q => R q
local infixl:70 " *. " => fmul fun q => R q
local infixl:70 " /. " => fdiv fun q => R q

/-- Eigen's `a.norm()` of a vector of three -/
noncomputable def norm3 (a : F3) : Fp := Verif.NumericDouble.fsqrt R (L.sum3 (a 0 *. a 0) (a 1 *. a 1) (a 2 *. a 2))

/-- `isLessThenEpsilons4thRoot` (quaternion_algebra.cpp:9-13); the fourth root of 2^-52 is 2^-13 -/
def isSmallD (x : Fp) : Bool := Fp.lt x (.fin (1 / 2 ^ 13))

/-- `na` in `axisAngle2quat` (207-217) -/
noncomputable def naD (theta : Fp) : Fp :=
  if isSmallD theta then Fp.fin (1 / 2) +. theta *. theta *. Fp.fin (R (1 / 48)) else libm L.sin (theta *. Fp.fin (1 / 2)) /. theta

/-- `axisAngle2quat` (200-221) -/
noncomputable def axisAngle2quat (a : F3) : F4 :=
  let theta := norm3 L a
  ![a 0 *. naD L theta, a 1 *. naD L theta, a 2 *. naD L theta, libm L.cos (theta *. Fp.fin (1 / 2))]

/-- `updateQuat` (302-318) -/
noncomputable def updateQuat (q : F4) (dq : F3) : F4 :=
  let d := axisAngle2quat L dq
  let ca := d 3
  ![q 0 *. ca +. d 0 *. q 3 -. d 1 *. q 2 +. d 2 *. q 1,
    q 1 *. ca +. d 0 *. q 2 +. d 1 *. q 3 -. d 2 *. q 0,
    q 2 *. ca -. d 0 *. q 1 +. d 1 *. q 0 +. d 2 *. q 3,
    q 3 *. ca -. d 0 *. q 0 -. d 1 *. q 1 -. d 2 *. q 2]

/-- `Transformation::oplus` (Transformation.cpp:137-141); the argument is given as its two halves `dt.head<3>()`, `dt.tail<3>()`.  Nothing is normalized. -/
noncomputable def TransformationD.oplus (X : TransformationD) (dt : F3 × F3) : TransformationD where
  q := updateQuat L X.q dt.2
  t := fun i => X.t i +. dt.1 i

end

end Verif.KinematicsDouble
