import Verif.Kinematics.RotVecDouble

/-!
# The Euler-Rodriguez parameters on doubles

`EulerRodriguez.cpp` with the arithmetic of the machine; the operations are rounded one by one, in the order of the source.  There is a model over the real numbers in `Verif.Kinematics.Param`.
-/

namespace Verif.ErDouble

open Verif.Common Verif.KinematicsDouble

/-- The environment again, with the C library's `tan`, accurate to one unit in the last place of the result. -/
structure TanLib (rnd : ℚ → ℚ) extends LogLib rnd where
  tan : ℚ → ℚ
  tan_double : ∀ x, IsDouble (tan x)
  tan_err : ∀ x, |(tan x : ℝ) - Real.tan x| ≤ |Real.tan x| / 2 ^ 52 + 2 * tiny

section
variable {R : ℝ → ℚ}

local infixl:65 " +. " => fadd fun q => R q
local infixl:65 " -. " => fsub fun q => R q
local infixl:70 " *. " => fmul fun q => R q
local infixl:70 " /. " => fdiv fun q => R q

/-- `crossMx` (rotations.cpp:80-86) -/
def crossMx (v : F3) : FM3 := !![.fin 0, (v 2).neg, v 1; v 2, .fin 0, (v 0).neg; (v 1).neg, v 0, .fin 0]

/-- `Eigen::Matrix3d::Identity()` -/
def oneD : FM3 := fun i j => if i = j then .fin 1 else .fin 0

/-- `2.0/(1.0 + parameters.squaredNorm())` (EulerRodriguez.cpp:17, 57) -/
noncomputable def factor (L : Lib fun q => R q) (p : F3) : Fp := Fp.fin 2 /. (Fp.fin 1 +. L.sum3 (p 0 *. p 0) (p 1 *. p 1) (p 2 *. p 2))

/-- an entry of `crossp * crossp` (17); Eigen adds up the three products in an order that the environment chooses -/
def square (L : Lib fun q => R q) (p : F3) (i j : Fin 3) : Fp :=
  let c := crossMx p
  L.sum3 (c i 0 *. c 0 j) (c i 1 *. c 1 j) (c i 2 *. c 2 j)

/-- `EulerRodriguez::parametersToRotationMatrix` (EulerRodriguez.cpp:11-25), without the `S` matrix -/
noncomputable def erMatrix (L : Lib fun q => R q) (p : F3) : FM3 := fun i j => oneD i j +. factor L p *. (square L p i j -. crossMx p i j)

/-- `EulerRodriguez::parametersToSMatrix` (53-60) -/
noncomputable def erS (L : Lib fun q => R q) (p : F3) : FM3 := fun i j => factor L p *. (oneD i j -. crossMx p i j)

/-- `EulerRodriguez::rotationMatrixToParameters` (27-51); the literal `1e-14` is the double next to it -/
noncomputable def erParams (L : TanLib fun q => R q) (C : FM3) : F3 :=
  let a := libmUnit L.acos ((C 0 0 +. C 1 1 +. C 2 2 -. Fp.fin 1) *. Fp.fin (1 / 2))
  if Fp.lt a.abs (.fin (R (1 / 10 ^ 14))) then fun _ => .fin 0
  else
    let p : F3 := ![C 2 1 -. C 1 2, C 0 2 -. C 2 0, C 1 0 -. C 0 1]
    let n2 := norm3 L.toLib p
    if Fp.lt n2 (.fin (R (1 / 10 ^ 14))) then fun _ => .fin 0
    else
      let scale := (libm L.tan (Fp.fin (1 / 2) *. a)).neg /. n2
      fun i => scale *. p i

end

end Verif.ErDouble
