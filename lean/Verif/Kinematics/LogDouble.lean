import Mathlib.Analysis.SpecialFunctions.Trigonometric.Inverse
import Verif.Kinematics.OplusDouble

/-!
# The logarithm of quaternions and the interpolation of poses, on doubles

`quat2AxisAngle` (= `qlog`), `qslerp`, `lerp` (quaternion_algebra.cpp) and `slerpTransformations`, `interpolateTransformations` (Transformation.cpp) with the arithmetic of the machine; the operations are rounded one by one, in the
order of the source.  There is a model over the real numbers in `Verif.Kinematics.Quat`.
-/

namespace Verif.KinematicsDouble

open Verif.Common

/-- The environment again, with the C library's `asin` and `acos`: on [-1, 1] they are accurate to one unit in the last place of 1 and of 2.  (Outside of [-1, 1] they are not a number.) -/
structure LogLib (rnd : ℚ → ℚ) extends Lib rnd where
  asin : ℚ → ℚ
  acos : ℚ → ℚ
  asin_double : ∀ x, IsDouble (asin x)
  acos_double : ∀ x, IsDouble (acos x)
  asin_err : ∀ x, |x| ≤ 1 → |(asin x : ℝ) - Real.arcsin x| ≤ 1 / 2 ^ 52
  acos_err : ∀ x, |x| ≤ 1 → |(acos x : ℝ) - Real.arccos x| ≤ 1 / 2 ^ 51

/-- a function of the C library that is defined on [-1, 1] only -/
def libmUnit (f : ℚ → ℚ) : Fp → Fp
  | .fin x => if |x| ≤ 1 then .fin (f x) else .nan
  | _ => .nan

section
variable {R : ℝ → ℚ} (L : LogLib fun q => R q)

local infixl:65 " +. " => fadd fun q => R q
local infixl:65 " -. " => fsub fun q => R q
local infixl:70 " *. " => fmul fun q => R q
local infixl:70 " /. " => fdiv fun q => R q

/-- `arcSinXOverX` (quaternion_algebra.cpp:228-233); `Scalar_(1/6)` is a division of integers: 0 -/
noncomputable def arcSinXOverX (x : Fp) : Fp :=
  if isSmallD x.abs then Fp.fin 1 +. x *. x *. Fp.fin ((1 / 6 : ℤ) : ℚ) else libmUnit L.asin x /. x

/-- `scale` in `quat2AxisAngle` (240-272); `M_PI` is the double next to π -/
noncomputable def logScale (na eta : Fp) : Fp :=
  if Fp.lt eta.abs na then libmUnit L.acos eta /. na
  else if Fp.lt (.fin 0) eta then arcSinXOverX L na
  else (Fp.fin (R Real.pi) -. libmUnit L.asin na) /. na

/-- `quat2AxisAngle` (236-274), `qlog` (quaternion_algebra.hpp:46), in a build without debug assertions -/
noncomputable def quat2AxisAngle (q : F4) : F3 :=
  let a : F3 := ![q 0, q 1, q 2]
  let scale := logScale L (norm3 L.toLib a) (q 3)
  fun i => a i *. (Fp.fin 2 *. scale)

variable (E : Eigen fun q => R q)

/-- `qslerp` (374-394) -/
noncomputable def qslerp (q0 q1 : F4) (t : Fp) : F4 :=
  if Fp.le t (.fin 0) then q0
  else if Fp.le (.fin 1) t then q1
  else if Fp.lt (squaredNorm E fun i => q0 i +. q1 i) (squaredNorm E fun i => q0 i -. q1 i) then
    qplus (fun q => R q) q0 (axisAngle2quat L.toLib fun i => t *. quat2AxisAngle L (qplus (fun q => R q) (quatInv q0) fun i => (q1 i).neg) i)
  else
    qplus (fun q => R q) q0 (axisAngle2quat L.toLib fun i => t *. quat2AxisAngle L (qplus (fun q => R q) (quatInv q0) q1) i)

variable (R) in
/-- `lerp` (398-414), for vectors of the same size -/
def lerp (p0 p1 : F3) (t : Fp) : F3 :=
  if Fp.le t (.fin 0) then p0
  else if Fp.le (.fin 1) t then p1
  else fun i => (Fp.fin 1 -. t) *. p0 i +. t *. p1 i

namespace TransformationD

/-- `slerpTransformations` (Transformation.cpp:251-257) -/
noncomputable def slerp (X Y : TransformationD) (s : Fp) : TransformationD := mkQT E (qslerp L E X.q Y.q s) (lerp R X.t Y.t s)

variable (R) in
/-- the place of `si` on the time span (Transformation.cpp:242-245); the literal `1e-14` is the double next to it -/
noncomputable def place (s0 s1 si : Fp) : Fp := (si -. s0) /. Fp.max (.fin (R (1 / 10 ^ 14))) (s1 -. s0)

/-- `interpolateTransformations` (232-248); the call with the two ends exchanged does not exchange them again -/
noncomputable def interpolate (X : TransformationD) (s0 : Fp) (Y : TransformationD) (s1 si : Fp) : TransformationD :=
  if Fp.lt s1 s0 then slerp L E Y X (place R s1 s0 si) else slerp L E X Y (place R s0 s1 si)

end TransformationD

end

end Verif.KinematicsDouble
