import Verif.Kinematics.LogDouble

/-!
# The Jacobian of the logarithm on doubles

`quatLogJacobian` (sm_kinematics/src/quaternion_algebra.cpp:416-456), with the arithmetic of the machine; there is a model over the real numbers in `Verif.Kinematics.Quat`.
-/

namespace Verif.LogJac

open Verif.Common Verif.KinematicsDouble

section
variable {R : ℝ → ℚ} (L : LogLib fun q => R q)

local infixl:65 " +. " => fadd fun q => R q
local infixl:65 " -. " => fsub fun q => R q
local infixl:70 " *. " => fmul fun q => R q
local infixl:70 " /. " => fdiv fun q => R q

/-- `quatLogJacobian` (416-456): the first three columns -/
noncomputable def leftBlock (p : F4) : FM3 :=
  let n := norm3 L.toLib ![p 0, p 1, p 2]
  let de := n *. n *. n
  let u12 := p 1 *. p 1 +. p 2 *. p 2
  let u02 := p 0 *. p 0 +. p 2 *. p 2
  let u01 := p 0 *. p 0 +. p 1 *. p 1
  let a := libmUnit L.acos (p 3)
  let m2 := Fp.fin (-2)
  let two := Fp.fin 2
  !![two *. a *. u12 /. de, m2 *. a *. p 1 *. p 0 /. de, m2 *. a *. p 2 *. p 0 /. de;
     m2 *. a *. p 0 *. p 1 /. de, two *. a *. u02 /. de, m2 *. a *. p 1 *. p 2 /. de;
     m2 *. a *. p 0 *. p 2 /. de, m2 *. a *. p 1 *. p 2 /. de, two *. a *. u01 /. de]

/-- `quatLogJacobian` (416-456): the last column -/
noncomputable def lastColumn (p : F4) : F3 :=
  let n := norm3 L.toLib ![p 0, p 1, p 2]
  let uw := Verif.NumericDouble.fsqrt R ((p 3 *. p 3 -. Fp.fin 1).neg *. n *. n)
  fun i => Fp.fin (-2) *. p i.castSucc /. uw

end

end Verif.LogJac
