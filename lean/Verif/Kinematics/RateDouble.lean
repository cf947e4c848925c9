import Verif.Kinematics.EulerDouble

/-!
# Angular velocities of Euler angles on doubles

`parametersToSMatrix` and `angularVelocityAndJacobian` of `EulerAnglesYawPitchRoll.cpp`, `EulerAnglesZYX.cpp` and `EulerAnglesZXY.cpp`, with the arithmetic of the machine; the operations are rounded one by one, in the order of the source.
There is a model over the real numbers in `Verif.Kinematics.Param`.
-/

namespace Verif.RateDouble

open Verif.Common Verif.KinematicsDouble Verif.EulerDouble

abbrev FM36 := Matrix (Fin 3) (Fin 3 ⊕ Fin 3) Fp

section
variable {R : ℝ → ℚ} (L : Lib fun q => R q)

local infixl:65 " +. " => fadd fun q => R q
local infixl:65 " -. " => fsub fun q => R q
local infixl:70 " *. " => fmul fun q => R q

/-- Eigen's product of a 3×3 matrix and a vector: three sums of three products, in an order that the environment chooses -/
def mulVec (M : FM3) (v : F3) : F3 := fun i => L.sum3 (M i 0 *. v 0) (M i 1 *. v 1) (M i 2 *. v 2)

/-! ## EulerAnglesYawPitchRoll.cpp -/

variable (R) in
/-- `EulerAnglesYawPitchRoll::buildSMatrix` (60-69) -/
def yprBuildS (sz cz sy cy : Fp) : FM3 :=
  !![.fin 0, sz, cy.neg *. cz;
     .fin 0, cz.neg, cy.neg *. sz;
     .fin (-1), .fin 0, sy]

/-- `EulerAnglesYawPitchRoll::parametersToSMatrix` (51-58); also what `parametersToRotationMatrix` (29-32) stores in `*S` -/
def yprS (p : F3) : FM3 := yprBuildS R (libm L.sin (p 0)) (libm L.cos (p 0)) (libm L.sin (p 1)) (libm L.cos (p 1))

/-- `EulerAnglesYawPitchRoll::angularVelocityAndJacobian` (71-96) -/
def yprVelocity (p pdot : F3) : F3 × FM36 :=
  let cy := libm L.cos (p 1)
  let sy := libm L.sin (p 1)
  let cz := libm L.cos (p 0)
  let sz := libm L.sin (p 0)
  let S := yprBuildS R sz cz sy cy
  (mulVec L S pdot, fun i => Sum.elim
    (!![cz *. pdot 1 +. cy *. sz *. pdot 2, cz *. sy *. pdot 2, .fin 0;
        sz *. pdot 1 -. cz *. cy *. pdot 2, sz *. sy *. pdot 2, .fin 0;
        .fin 0, cy *. pdot 2, .fin 0] i) (S i))

/-! ## EulerAnglesZYX.cpp -/

variable (R) in
/-- `EulerAnglesZYX::buildSMatrix` (60-69) -/
def zyxBuildS (sz cz sy cy : Fp) : FM3 :=
  !![.fin 0, sz.neg, cy *. cz;
     .fin 0, cz, cy *. sz;
     .fin 1, .fin 0, sy.neg]

/-- `EulerAnglesZYX::parametersToSMatrix` (51-58); also what `parametersToRotationMatrix` (29-32) stores in `*S` -/
def zyxS (p : F3) : FM3 := zyxBuildS R (libm L.sin (p 0).neg) (libm L.cos (p 0).neg) (libm L.sin (p 1).neg) (libm L.cos (p 1).neg)

/-- `EulerAnglesZYX::angularVelocityAndJacobian` (71-96) -/
def zyxVelocity (p pdot : F3) : F3 × FM36 :=
  let cy := libm L.cos (p 1).neg
  let sy := libm L.sin (p 1).neg
  let cz := libm L.cos (p 0).neg
  let sz := libm L.sin (p 0).neg
  let S := zyxBuildS R sz cz sy cy
  (mulVec L S pdot, fun i => Sum.elim
    (!![cz *. pdot 1 +. cy *. sz *. pdot 2, cz *. sy *. pdot 2, .fin 0;
        sz *. pdot 1 -. cz *. cy *. pdot 2, sz *. sy *. pdot 2, .fin 0;
        .fin 0, cy *. pdot 2, .fin 0] i) (S i))

/-! ## EulerAnglesZXY.cpp -/

/-- `EulerAnglesZXY::parametersToSMatrix` (76-86) -/
def zxyS (p : F3) : FM3 :=
  let cx := libm L.cos (p 1)
  let sx := libm L.sin (p 1)
  let cz := libm L.cos (p 0)
  let sz := libm L.sin (p 0)
  !![.fin 0, cz.neg, cx *. sz;
     .fin 0, sz.neg, cx.neg *. cz;
     .fin (-1), .fin 0, sx.neg]

/-- `EulerAnglesZXY::angularVelocityAndJacobian` (88-106) -/
def zxyVelocity (p pdot : F3) : F3 × FM36 :=
  let cx := libm L.cos (p 1)
  let sx := libm L.sin (p 1)
  let cz := libm L.cos (p 0)
  let sz := libm L.sin (p 0)
  let S := zxyS L p
  (mulVec L S pdot, fun i => Sum.elim
    (!![sz *. pdot 1 +. cx *. cz *. pdot 2, sx.neg *. sz *. pdot 2, .fin 0;
        cz.neg *. pdot 1 +. cx *. sz *. pdot 2, sx *. cz *. pdot 2, .fin 0;
        .fin 0, cx.neg *. pdot 2, .fin 0] i) (S i))

end

end Verif.RateDouble
