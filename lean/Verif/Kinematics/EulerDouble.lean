import Verif.Kinematics.LogDouble

/-!
# Euler angles on doubles

`EulerAnglesYawPitchRoll.cpp`, `EulerAnglesZYX.cpp`, `EulerAnglesZXY.cpp` and `rph2R`, `R2rph` (rotations.cpp), with the arithmetic of the machine; the operations are rounded one by one, in the order of the source.  There is a model
over the real numbers in `Verif.Kinematics.Param` and `Verif.Kinematics.Rot`.
-/

namespace Verif.EulerDouble

open Verif.Common Verif.KinematicsDouble

/-- The environment again, with the C library's `atan2`: it is within one unit in the last place of 2 of an angle of the point, between -π and π.  (At a point of the negative axis this may be π or -π, as the sign of the zero has it,
and at the origin it is any angle.) -/
structure EulerLib (rnd : ℚ → ℚ) extends LogLib rnd where
  atan2 : ℚ → ℚ → ℚ
  atan2_double : ∀ y x, IsDouble (atan2 y x)
  atan2_err : ∀ y x : ℚ, ∃ θ : ℝ, |θ| ≤ Real.pi ∧ Real.sqrt (x * x + y * y) * Real.cos θ = x ∧ Real.sqrt (x * x + y * y) * Real.sin θ = y ∧ |(atan2 y x : ℝ) - θ| ≤ 1 / 2 ^ 51

/-- `atan2` on doubles; that it has values at infinities is left out -/
def libm2 (f : ℚ → ℚ → ℚ) : Fp → Fp → Fp
  | .fin y, .fin x => .fin (f y x)
  | _, _ => .nan

section
variable {R : ℝ → ℚ} (L : EulerLib fun q => R q)

local infixl:65 " +. " => fadd fun q => R q
local infixl:65 " -. " => fsub fun q => R q
local infixl:70 " *. " => fmul fun q => R q

variable (R) in
/-- the matrix written out in `rph2R` (rotations.cpp:54-56), `EulerAnglesYawPitchRoll.cpp` (24-27) and `EulerAnglesZYX.cpp` (24-27) -/
def rphEntries (cx sx cy sy cz sz : Fp) : FM3 :=
  !![cz *. cy, sz.neg *. cx +. cz *. sy *. sx, sz *. sx +. cz *. sy *. cx;
     sz *. cy, cz *. cx +. sz *. sy *. sx, cz.neg *. sx +. sz *. sy *. cx;
     sy.neg, cy *. sx, cy *. cx]

/-- `rph2R` (rotations.cpp:43-62) -/
def rph2R (x : F3) : FM3 := rphEntries R (libm L.cos (x 0)) (libm L.sin (x 0)) (libm L.cos (x 1)) (libm L.sin (x 1)) (libm L.cos (x 2)) (libm L.sin (x 2))

/-- `R2rph` (rotations.cpp:64-75) -/
def R2rph (C : FM3) : F3 := ![libm2 L.atan2 (C 2 1) (C 2 2), (libmUnit L.asin (C 2 0)).neg, libm2 L.atan2 (C 1 0) (C 0 0)]

/-- `EulerAnglesYawPitchRoll::parametersToRotationMatrix` (EulerAnglesYawPitchRoll.cpp:12-35) -/
def yprMatrix (p : F3) : FM3 := rphEntries R (libm L.cos (p 2)) (libm L.sin (p 2)) (libm L.cos (p 1)) (libm L.sin (p 1)) (libm L.cos (p 0)) (libm L.sin (p 0))

/-- `EulerAnglesYawPitchRoll::rotationMatrixToParameters` (37-49) -/
def yprParams (C : FM3) : F3 := ![libm2 L.atan2 (C 1 0) (C 0 0), libmUnit L.asin (C 2 0).neg, libm2 L.atan2 (C 2 1) (C 2 2)]

/-- `EulerAnglesZYX::parametersToRotationMatrix` (EulerAnglesZYX.cpp:12-35) -/
def zyxMatrix (p : F3) : FM3 :=
  rphEntries R (libm L.cos (p 2).neg) (libm L.sin (p 2).neg) (libm L.cos (p 1).neg) (libm L.sin (p 1).neg) (libm L.cos (p 0).neg) (libm L.sin (p 0).neg)

/-- `EulerAnglesZYX::rotationMatrixToParameters` (37-49) -/
def zyxParams (C : FM3) : F3 := ![(libm2 L.atan2 (C 1 0) (C 0 0)).neg, libmUnit L.asin (C 2 0), (libm2 L.atan2 (C 2 1) (C 2 2)).neg]

/-- `EulerAnglesZXY::parametersToRotationMatrix` (EulerAnglesZXY.cpp:51-65) -/
def zxyMatrix (p : F3) : FM3 :=
  let cx := libm L.cos (p 1)
  let sx := libm L.sin (p 1)
  let cy := libm L.cos (p 2)
  let sy := libm L.sin (p 2)
  let cz := libm L.cos (p 0)
  let sz := libm L.sin (p 0)
  !![cz *. cy -. sz *. sx *. sy, sz.neg *. cx, cz *. sy +. sz *. sx *. cy;
     sz *. cy +. cz *. sx *. sy, cz *. cx, sz *. sy -. cz *. sx *. cy;
     cx.neg *. sy, sx, cx *. cy]

/-- `EulerAnglesZXY::rotationMatrixToParameters` (67-74) -/
def zxyParams (C : FM3) : F3 := ![libm2 L.atan2 (C 0 1).neg (C 1 1), libmUnit L.asin (C 2 1), libm2 L.atan2 (C 2 0).neg (C 2 2)]

end

end Verif.EulerDouble
