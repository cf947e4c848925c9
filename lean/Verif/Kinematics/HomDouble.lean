import Verif.Kinematics.QuatDouble

/-!
# Homogeneous points on doubles

`homogeneous_coordinates.cpp` and `HomogeneousPoint.cpp` with the arithmetic of the machine; the operations are rounded one by one, in the order of the source.  There is a model over the real numbers in `Verif.Kinematics.Transf`.
The debug assertions (a point is not zero, a point is not at infinity) are left out: they are not in release builds.
-/

namespace Verif.HomDouble

open Verif.Common Verif.KinematicsDouble

section
variable (rnd : ℚ → ℚ)

local infixl:65 " +. " => fadd rnd
local infixl:65 " -. " => fsub rnd
local infixl:70 " *. " => fmul rnd
local infixl:70 " /. " => fdiv rnd

/-- `toHomogeneous` (homogeneous_coordinates.cpp:11-18) and the constructor of a `HomogeneousPoint` from a 3-vector (HomogeneousPoint.cpp:17-21); `operator=` (80-86) -/
def toHomogeneous (v : F3) : F4 := ![v 0, v 1, v 2, .fin 1]

/-- `fromHomogeneous` (homogeneous_coordinates.cpp:29-43), the point; `HomogeneousPoint::toEuclidean` (HomogeneousPoint.cpp:132-138) and the point of `toEuclideanAndJacobian` (141-155) do the same -/
def fromHomogeneous (p : F4) : F3 :=
  let r := Fp.fin 1 /. p 3
  ![p 0 *. r, p 1 *. r, p 2 *. r]

/-- `fromHomogeneous` (29-43), the Jacobian: three columns of `Identity() * rv3` and the column `-v3 * rv3` -/
def fromHomogeneousJacobian (p : F4) : Matrix (Fin 3) (Fin 4) Fp :=
  let r := Fp.fin 1 /. p 3
  let v := fromHomogeneous rnd p
  let one := Fp.fin 1 *. r
  let nil := Fp.fin 0 *. r
  !![one, nil, nil, (v 0).neg *. r;
     nil, one, nil, (v 1).neg *. r;
     nil, nil, one, (v 2).neg *. r]

/-- `toHomogeneousColumns` (46-51): a row of ones below -/
def toHomogeneousColumns {m n : ℕ} (M : Matrix (Fin m) (Fin n) Fp) : Matrix (Fin (m + 1)) (Fin n) Fp :=
  fun i j => Fin.lastCases (.fin 1) (fun k => M k j) i

/-- `fromHomogeneousColumns` (53-67) -/
def fromHomogeneousColumns {m n : ℕ} (M : Matrix (Fin (m + 1)) (Fin n) Fp) : Matrix (Fin m) (Fin n) Fp :=
  fun i j => M i.castSucc j *. (Fp.fin 1 /. M (Fin.last m) j)

/-- `toHomogeneousPlus` (71-82) -/
def toHomogeneousPlus (p : F4) : Matrix (Fin 4) (Fin 4) Fp :=
  !![p 3, .fin 0, .fin 0, p 0;
     .fin 0, p 3, .fin 0, p 1;
     .fin 0, .fin 0, p 3, p 2;
     .fin 0, .fin 0, .fin 0, p 3]

/-- `toHomogeneousMinus` (86-96) -/
def toHomogeneousMinus (p : F4) : Matrix (Fin 4) (Fin 4) Fp :=
  !![p 3, .fin 0, .fin 0, (p 0).neg;
     .fin 0, p 3, .fin 0, (p 1).neg;
     .fin 0, .fin 0, p 3, (p 2).neg;
     .fin 0, .fin 0, .fin 0, p 3]

/-- `HomogeneousPoint::operator+` (HomogeneousPoint.cpp:39-46) -/
def hpAdd (p r : F4) : F4 := ![p 0 *. r 3 +. r 0 *. p 3, p 1 *. r 3 +. r 1 *. p 3, p 2 *. r 3 +. r 2 *. p 3, p 3 *. r 3]

/-- `operator-` (91-98) -/
def hpSub (p r : F4) : F4 := ![p 0 *. r 3 -. r 0 *. p 3, p 1 *. r 3 -. r 1 *. p 3, p 2 *. r 3 -. r 2 *. p 3, p 3 *. r 3]

/-- `scale` (124-129) -/
def hpScale (p : F4) (s : Fp) : F4 := ![p 0 *. s, p 1 *. s, p 2 *. s, p 3]

end

section
variable {R : ℝ → ℚ} (E : Eigen fun q => R q)

/-- Eigen's product of a 4×4 matrix and a vector: four sums of four products, in an order that the environment chooses -/
def mulVec (M : Matrix (Fin 4) (Fin 4) Fp) (v : F4) : F4 := fun i =>
  let m := fun j => fmul (fun q : ℚ => R q) (M i j) (v j)
  E.sum4 (m 0) (m 1) (m 2) (m 3)

/-- `convertToVector` (HomogeneousPoint.cpp:110-113) -/
def convertToVector (p : F4) : F4 := ![p 0, p 1, p 2, .fin 0]

/-- `convertToPoint` (116-121) -/
noncomputable def convertToPoint (p : F4) : F4 :=
  let q := normalize E p
  ![q 0, q 1, q 2, .fin 1]

end

/-! ## Computations with points -/

/-- A computation with homogeneous points: made of a Euclidean vector, made of a 4-vector, sums, differences, `scale`. -/
inductive HExpr
  | euclid (x : F3)
  | point (p : F4)
  | add (a b : HExpr)
  | sub (a b : HExpr)
  | scale (a : HExpr) (s : Fp)

namespace HExpr

/-- the point the program computes -/
def run (rnd : ℚ → ℚ) : HExpr → F4
  | euclid x => toHomogeneous x
  | point p => p
  | add a b => hpAdd rnd (a.run rnd) (b.run rnd)
  | sub a b => hpSub rnd (a.run rnd) (b.run rnd)
  | scale a s => hpScale rnd (a.run rnd) s

end HExpr

end Verif.HomDouble
