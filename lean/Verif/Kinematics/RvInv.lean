import Verif.Kinematics.RvRate

/-!
# The inverse S-matrix of the rotation vector on doubles

`RotationVector::parametersToInverseSMatrix` (RotationVector.cpp:186-201) with the arithmetic of the machine; the operations are rounded one by one, in the order of the source.  There is a model over the real numbers in
`Verif.Kinematics.Param`.
-/

namespace Verif.RvInv

open Verif.Common Verif.KinematicsDouble Verif.ErDouble Verif.RateDouble Verif.RvRate

section
variable {R : ℝ → ℚ}

local infixl:65 " +. " => fadd fun q => R q
local infixl:65 " -. " => fsub fun q => R q
local infixl:70 " *. " => fmul fun q => R q
local infixl:70 " /. " => fdiv fun q => R q

/-- `cot` (196) -/
def cot (L : SinLib fun q => R q) (phi : Fp) : Fp := (libm L.sin phi).neg /. (libm L.cos phi -. Fp.fin 1)

/-- `a1` (197) -/
def a1 (L : SinLib fun q => R q) (phi : Fp) : Fp := Fp.fin 1 /. (phi *. phi) *. (Fp.fin 1 -. Fp.fin (1 / 2) *. phi *. cot L phi)

/-- the matrix (196-198) for an angle that is not zero -/
def largeInv (L : SinLib fun q => R q) (p : F3) (phi : Fp) : FM3 :=
  fun i j => oneD i j +. Fp.fin (1 / 2) *. crossMx p i j +. scaledSquare L (a1 L phi) (crossMx p) i j

/-- `parametersToInverseSMatrix` (186-201); `std::sqrt(parameters.transpose()*parameters)` is the norm -/
noncomputable def invS (L : SinLib fun q => R q) (p : F3) : FM3 :=
  let phi := norm3 L.toLib p
  if Fp.eq phi (.fin 0) then oneD else largeInv L p phi

end

end Verif.RvInv
