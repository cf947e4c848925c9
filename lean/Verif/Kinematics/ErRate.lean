import Verif.Kinematics.ErDouble
import Verif.Kinematics.RateDouble

/-!
# Angular velocities of the Euler-Rodriguez parameters on doubles

`EulerRodriguez::angularVelocityAndJacobian` (EulerRodriguez.cpp:62-84) with the arithmetic of the machine; the operations are rounded one by one, in the order of the source.  There is a model over the real numbers in
`Verif.Kinematics.Param`.
-/

namespace Verif.ErRate

open Verif.Common Verif.KinematicsDouble Verif.ErDouble Verif.RateDouble

section
variable {R : ℝ → ℚ} (L : Lib fun q => R q)

local infixl:65 " +. " => fadd fun q => R q
local infixl:65 " -. " => fsub fun q => R q
local infixl:70 " *. " => fmul fun q => R q
local infixl:70 " /. " => fdiv fun q => R q

/-- `recip_denom` (67) -/
def recip (p : F3) : Fp := Fp.fin 1 /. (Fp.fin 1 +. L.sum3 (p 0 *. p 0) (p 1 *. p 1) (p 2 *. p 2))

/-- `f` (68) -/
def twice (p : F3) : Fp := Fp.fin 2 *. recip L p

/-- `S` (69); `parametersToSMatrix` has the factor `2/(1 + |p|²)` instead, see `Verif.ErDouble.erS` -/
def velS (p : F3) : FM3 := fun i j => twice L p *. (oneD i j -. crossMx p i j)

/-- `a` (76) -/
def row (p : F3) : F3 := fun j => Fp.fin (-4) *. recip L p *. recip L p *. p j

/-- `angularVelocityAndJacobian` (62-84); Eigen computes `crossp * pdot` first, and an entry of a column times a row is one product -/
def erVelocity (p pdot : F3) : F3 × FM36 :=
  let cp := mulVec L (crossMx p) pdot
  (mulVec L (velS L p) pdot, fun i => Sum.elim
    (fun j => pdot i *. row L p j -. cp i *. row L p j +. twice L p *. crossMx pdot i j) (velS L p i))

end

end Verif.ErRate
