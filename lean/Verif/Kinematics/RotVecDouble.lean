import Verif.Kinematics.LogDouble

/-!
# Rotation vectors on doubles

`RotationVector.cpp` and `axisAngle2R` (rotations.cpp), with the arithmetic of the machine; the operations are rounded one by one, in the order of the source.  There is a model over the real numbers in `Verif.Kinematics.Param` and
`Verif.Kinematics.Rot`.
-/

namespace Verif.RotVecDouble

open Verif.Common Verif.KinematicsDouble

/-- `std::min(a, b)`: `b < a ? b : a` -/
def fmin (a b : Fp) : Fp := if Fp.lt b a then b else a

section
variable {R : ℝ → ℚ} (L : LogLib fun q => R q)

local infixl:65 " +. " => fadd fun q => R q
local infixl:65 " -. " => fsub fun q => R q
local infixl:70 " *. " => fmul fun q => R q
local infixl:70 " /. " => fdiv fun q => R q

variable (R) in
/-- the matrix written out in `RotationVector.cpp` (27-42) and in `axisAngle2R` (rotations.cpp:108-120), of the axis, the sine and the cosine -/
def rodriguesD (ax ay az sa ca : Fp) : FM3 :=
  let ax2 := ax *. ax
  let ay2 := ay *. ay
  let az2 := az *. az
  !![ax2 +. ca *. (Fp.fin 1 -. ax2), ax *. ay -. ca *. ax *. ay +. sa *. az, ax *. az -. ca *. ax *. az -. sa *. ay;
     ax *. ay -. ca *. ax *. ay -. sa *. az, ay2 +. ca *. (Fp.fin 1 -. ay2), ay *. az -. ca *. ay *. az +. sa *. ax;
     ax *. az -. ca *. ax *. az +. sa *. ay, ay *. az -. ca *. ay *. az -. sa *. ax, az2 +. ca *. (Fp.fin 1 -. az2)]

/-- `Eigen::Matrix3d::Identity()` -/
def oneD : FM3 := fun i j => if i = j then .fin 1 else .fin 0

/-- `RotationVector::parametersToRotationMatrix` (RotationVector.cpp:10-55), without the `S` matrix; the literal `1e-14` is the double next to it -/
noncomputable def rvMatrix (p : F3) : FM3 :=
  let angle := norm3 L.toLib p
  if Fp.lt angle (.fin (R (1 / 10 ^ 14))) then oneD
  else
    let recip := Fp.fin 1 /. angle
    rodriguesD R (p 0 *. recip) (p 1 *. recip) (p 2 *. recip) (libm L.sin angle) (libm L.cos angle)

/-- `RotationVector::rotationMatrixToParameters` (57-80) -/
noncomputable def rvParams (C : FM3) : F3 :=
  let tr := Fp.max (.fin (-1)) (fmin ((C 0 0 +. C 1 1 +. C 2 2 -. Fp.fin 1) *. Fp.fin (1 / 2)) (.fin 1))
  let a := libmUnit L.acos tr
  if Fp.lt a.abs (.fin (R (1 / 10 ^ 14))) then fun _ => .fin 0
  else
    let p : F3 := ![C 2 1 -. C 1 2, C 0 2 -. C 2 0, C 1 0 -. C 0 1]
    let n2 := norm3 L.toLib p
    if Fp.lt n2.abs (.fin (R (1 / 10 ^ 14))) then fun _ => .fin 0
    else
      let scale := a.neg /. n2
      fun i => scale *. p i

/-- `axisAngle2R(a, ax, ay, az)` (rotations.cpp:97-121), in a build without debug assertions -/
noncomputable def axisAngle2R (a ax ay az : Fp) : FM3 :=
  if Fp.lt a (.fin (R (1 / 10 ^ 12))) then oneD else rodriguesD R ax ay az (libm L.sin a) (libm L.cos a)

/-- `axisAngle2R(x, y, z)`, `axisAngle2R(Vector3d)` (rotations.cpp:122-133) -/
noncomputable def axisAngle2RV (x : F3) : FM3 :=
  let a := Verif.NumericDouble.fsqrt R (x 0 *. x 0 +. x 1 *. x 1 +. x 2 *. x 2)
  if Fp.lt a (.fin (R (1 / 10 ^ 12))) then oneD
  else
    let d := Fp.fin 1 /. a
    axisAngle2R L a (x 0 *. d) (x 1 *. d) (x 2 *. d)

end

end Verif.RotVecDouble
