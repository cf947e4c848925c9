import Verif.Kinematics.ErDouble
import Verif.Kinematics.RateDouble

/-!
# The S-matrix of the rotation vector on doubles

`RotationVector::parametersToSMatrix` (RotationVector.cpp:82-106) and the velocity of `angularVelocityAndJacobian` (109-114) with the arithmetic of the machine; the operations are rounded one by one, in the order of the source.
There is a model over the real numbers in `Verif.Kinematics.Param`.
-/

namespace Verif.RvRate

open Verif.Common Verif.KinematicsDouble Verif.ErDouble Verif.RateDouble

/-- The environment again, with a `sin` that is accurate to one unit in the last place of the result, so that it is accurate for small angles, too; and whether Eigen takes the factor out of the product of two matrices. -/
structure SinLib (rnd : ℚ → ℚ) extends Lib rnd where
  sin_rel : ∀ x, |(sin x : ℝ) - Real.sin x| ≤ |Real.sin x| / 2 ^ 52 + 2 * tiny
  factorOut : Bool

section
variable {R : ℝ → ℚ}

local infixl:65 " +. " => fadd fun q => R q
local infixl:65 " -. " => fsub fun q => R q
local infixl:70 " *. " => fmul fun q => R q
local infixl:70 " /. " => fdiv fun q => R q

/-- an entry of `c2 * crossA * crossA` (104) -/
def scaledSquare (L : SinLib fun q => R q) (c2 : Fp) (A : FM3) (i j : Fin 3) : Fp :=
  if L.factorOut then c2 *. L.sum3 (A i 0 *. A 0 j) (A i 1 *. A 1 j) (A i 2 *. A 2 j)
  else L.sum3 (c2 *. A i 0 *. A 0 j) (c2 *. A i 1 *. A 1 j) (c2 *. A i 2 *. A 2 j)

/-- the matrix (93-104) for an angle that is not tiny -/
def largeS (L : SinLib fun q => R q) (p : F3) (angle : Fp) : FM3 :=
  let recip := Fp.fin 1 /. angle
  let axis : F3 := fun i => p i *. recip
  let st2 := libm L.sin (angle *. Fp.fin (1 / 2))
  let st := libm L.sin angle
  let c1 := Fp.fin (-2) *. st2 *. st2 *. recip
  let c2 := (angle -. st) *. recip
  let A := crossMx axis
  fun i j => oneD i j +. c1 *. A i j +. scaledSquare L c2 A i j

/-- `RotationVector::parametersToSMatrix` (82-106); the literal `1e-14` is the double next to it -/
noncomputable def rvS (L : SinLib fun q => R q) (p : F3) : FM3 :=
  let angle := norm3 L.toLib p
  if Fp.lt angle (.fin (R (1 / 10 ^ 14))) then oneD else largeS L p angle

/-- `RotationVector::angularVelocityAndJacobian` (109-114, 185), without the Jacobian -/
noncomputable def rvVelocity (L : SinLib fun q => R q) (p pdot : F3) : F3 := mulVec L.toLib (rvS L p) pdot

end

end Verif.RvRate
