import Verif.Kinematics.ExpDiff

/-!
# The derivative matrix of the logarithm on doubles

`logDiffMat` (sm_kinematics/src/quaternion_algebra.cpp:504-523), with the arithmetic of the machine; the operations are rounded one by one, in the order of the source.
There is a model over the real numbers in `Verif.Kinematics.Quat`.
-/

namespace Verif.LogDiff

open Verif.Common Verif.KinematicsDouble Verif.ErDouble Verif.RateDouble Verif.RvRate

/-- The environment again, with the C library's `tan`, accurate to one unit in the last place of the result. -/
structure TanSinLib (rnd : ℚ → ℚ) extends SinLib rnd where
  tan : ℚ → ℚ
  tan_double : ∀ x, IsDouble (tan x)
  tan_err : ∀ x, |(tan x : ℝ) - Real.tan x| ≤ |Real.tan x| / 2 ^ 52 + 2 * tiny

section
variable {R : ℝ → ℚ}

local infixl:65 " +. " => fadd fun q => R q
local infixl:65 " -. " => fsub fun q => R q
local infixl:70 " *. " => fmul fun q => R q
local infixl:70 " /. " => fdiv fun q => R q

/-- `a` (514-520); `1.0 / 12` and `1.0 / 60` are folded by the compiler, to the doubles next to them -/
noncomputable def coefL (L : TanSinLib fun q => R q) (phi : Fp) : Fp :=
  if isSmallD phi.abs then Fp.fin (R (1 / 12)) *. (Fp.fin 1 +. Fp.fin (R (1 / 60)) *. phi *. phi)
  else
    let phiHalf := Fp.fin (1 / 2) *. phi
    (Fp.fin 1 -. phiHalf /. libm L.tan phiHalf) /. phi /. phi

/-- `logDiffMat` (504-523) -/
noncomputable def logDiffMat (L : TanSinLib fun q => R q) (v : F3) : FM3 :=
  let phi := norm3 L.toLib v
  if Fp.eq phi (.fin 0) then oneD
  else fun i j => oneD i j +. Fp.fin (1 / 2) *. crossMx v i j +. scaledSquare L.toSinLib (coefL L phi) (crossMx v) i j

end

end Verif.LogDiff
