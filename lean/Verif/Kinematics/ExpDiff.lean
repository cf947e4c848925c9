import Verif.Kinematics.RvRate
import Verif.Kinematics.CovDouble

/-!
# The derivative matrix of the exponential map on doubles

`expDiffMat` and `quatExpJacobian` (sm_kinematics/src/quaternion_algebra.cpp:467-500), with the arithmetic of the machine; the operations are rounded one by one, in the order of the source.
There is a model over the real numbers in `Verif.Kinematics.Quat`.
-/

namespace Verif.ExpDiff

open Verif.Common Verif.KinematicsDouble Verif.ErDouble Verif.RateDouble Verif.RvRate

section
variable {R : ℝ → ℚ}

local infixl:65 " +. " => fadd fun q => R q
local infixl:65 " -. " => fsub fun q => R q
local infixl:70 " *. " => fmul fun q => R q
local infixl:70 " /. " => fdiv fun q => R q

/-- `a` (481, 485); `1.0 / (24 / 2)` is folded by the compiler, to the double next to it -/
noncomputable def coefA (L : SinLib fun q => R q) (phi : Fp) : Fp :=
  if isSmallD phi.abs then Fp.fin (1 / 2) *. (Fp.fin 1 -. Fp.fin (R (1 / 12)) *. (phi *. phi))
  else Fp.fin 2 *. libm L.sin (phi /. Fp.fin 2) *. libm L.sin (phi /. Fp.fin 2) /. (phi *. phi)

/-- `b` (482, 486); `1.0 / 6` and `1.0 / (120 / 6)` are folded -/
noncomputable def coefB (L : SinLib fun q => R q) (phi : Fp) : Fp :=
  if isSmallD phi.abs then Fp.fin (R (1 / 6)) *. (Fp.fin 1 -. Fp.fin (R (1 / 20)) *. (phi *. phi))
  else (Fp.fin 1 -. libm L.sin phi /. phi) /. (phi *. phi)

/-- `expDiffMat` (467-493) -/
noncomputable def expDiffMat (L : SinLib fun q => R q) (v : F3) : FM3 :=
  let phi := norm3 L.toLib v
  if Fp.eq phi (.fin 0) then oneD
  else fun i j => oneD i j -. coefA L phi *. crossMx v i j +. scaledSquare L (coefB L phi) (crossMx v) i j

/-- `quatOPlus` (119-134) -/
def quatOPlus (q : F4) : Matrix (Fin 4) (Fin 4) Fp :=
  !![q 3, (q 2).neg, q 1, q 0; q 2, q 3, (q 0).neg, q 1; (q 1).neg, q 0, q 3, q 2; (q 0).neg, (q 1).neg, (q 2).neg, q 3]

/-- `quatV` (458-462) -/
def quatV : Matrix (Fin 4) (Fin 3) Fp := fun i j => if i = j.castSucc then .fin (1 / 2) else .fin 0

/-- `J` is `quatExpJacobian(v)` (497-500): the product is evaluated from the left, with the inner product stored; Eigen's products are relations as in `Verif.Kinematics.CovDouble` -/
def IsExpJacobian (L : SinLib fun q => R q) (v : F3) (J : Matrix (Fin 4) (Fin 3) Fp) : Prop :=
  ∃ P : Matrix (Fin 4) (Fin 3) Fp, CovDouble.IsProd (fun q => R q) CovDouble.ks4 (quatOPlus (axisAngle2quat L.toLib v)) quatV P ∧
    CovDouble.IsProd (fun q => R q) CovDouble.ks3 P (expDiffMat L v) J

end

end Verif.ExpDiff
