import Verif.Kinematics.QuatDouble

/-!
# Transformations and 4×4 matrices on doubles

`r2quat` (quaternion_algebra.cpp), the constructor of `Transformation` from a matrix and `T()` (Transformation.cpp), with the arithmetic of the machine; the operations are rounded one by one, in the order of
the source.  There is a model over the real numbers in `Verif.Kinematics.Quat` and `Verif.Kinematics.Transf`.
-/

namespace Verif.KinematicsDouble

open Verif.Common

abbrev FM4 := Matrix (Fin 4) (Fin 4) Fp

section
variable (rnd : ℚ → ℚ)

local infixl:65 " +. " => fadd rnd
local infixl:65 " -. " => fsub rnd

/-- the four values `dc(0..3)` of `r2quat` (quaternion_algebra.cpp:28-31) -/
def r2quatDc (M : FM3) : F4 :=
  ![(Fp.fin 1 +. M 0 0 -. M 1 1 -. M 2 2).abs, (Fp.fin 1 -. M 0 0 +. M 1 1 -. M 2 2).abs,
    (Fp.fin 1 -. M 0 0 -. M 1 1 +. M 2 2).abs, (Fp.fin 1 +. M 0 0 +. M 1 1 +. M 2 2).abs]

end

/-- one iteration `i` of the loop 36-41: `if (dc(i) > maxqval) { maxq = i; maxqval = dc(i); }` -/
def maxStep (dc : F4) (m : Fin 4 × Fp) (i : Fin 4) : Fin 4 × Fp := if Fp.lt m.2 (dc i) then (i, dc i) else m

/-- `maxq` after the loop (33-41) -/
def maxq (dc : F4) : Fin 4 := (maxStep dc (maxStep dc (maxStep dc (0, dc 0) 1) 2) 3).1

section
variable (R : ℝ → ℚ)

local infixl:65 " +. " => fadd fun q => R q
local infixl:65 " -. " => fsub fun q => R q
local infixl:70 " *. " => fmul fun q => R q
local infixl:70 " /. " => fdiv fun q => R q

/-- the component of `r2quat` with the largest value: `0.5*sqrt(dc(maxq))` (45, 51, 57, 63) -/
noncomputable def r2quatLargest (M : FM3) (k : Fin 4) : Fp :=
  Fp.fin (1 / 2) *. Verif.NumericDouble.fsqrt R (r2quatDc (fun q => R q) M k)

/-- `c = 0.25/q(maxq)` (46, 52, 58, 64) -/
noncomputable def r2quatC (M : FM3) (k : Fin 4) : Fp := Fp.fin (1 / 4) /. r2quatLargest R M k

/-- the four branches of `r2quat` (43-69); `c1 … c9` are the entries in column-major order (18-26) -/
noncomputable def r2quatBranch (M : FM3) : Fin 4 → F4
  | 0 => ![r2quatLargest R M 0, r2quatC R M 0 *. (M 0 1 +. M 1 0), r2quatC R M 0 *. (M 0 2 +. M 2 0), r2quatC R M 0 *. (M 1 2 -. M 2 1)]
  | 1 => ![r2quatC R M 1 *. (M 0 1 +. M 1 0), r2quatLargest R M 1, r2quatC R M 1 *. (M 2 1 +. M 1 2), r2quatC R M 1 *. (M 2 0 -. M 0 2)]
  | 2 => ![r2quatC R M 2 *. (M 2 0 +. M 0 2), r2quatC R M 2 *. (M 2 1 +. M 1 2), r2quatLargest R M 2, r2quatC R M 2 *. (M 0 1 -. M 1 0)]
  | 3 => ![r2quatC R M 3 *. (M 1 2 -. M 2 1), r2quatC R M 3 *. (M 2 0 -. M 0 2), r2quatC R M 3 *. (M 0 1 -. M 1 0), r2quatLargest R M 3]

/-- `r2quat` (16-75): the branch of the largest value, made to have a non-negative last component (71-72) -/
noncomputable def r2quat (M : FM3) : F4 :=
  let q := r2quatBranch R M (maxq (r2quatDc (fun q => R q) M))
  if Fp.lt (q 3) (.fin 0) then fun i => (q i).neg else q

namespace TransformationD

/-- `Transformation(Eigen::Matrix4d)` and `set` (Transformation.cpp:24-30, 55-59); nothing is normalized -/
noncomputable def ofMatrix (T : FM4) : TransformationD where
  q := r2quat R fun i j => T i.castSucc j.castSucc
  t := fun i => T i.castSucc 3

/-- `T()` (61-70) -/
def T (X : TransformationD) : FM4 :=
  let C := quat2r (fun q => R q) X.q
  !![C 0 0, C 0 1, C 0 2, X.t 0;
     C 1 0, C 1 1, C 1 2, X.t 1;
     C 2 0, C 2 1, C 2 2, X.t 2;
     .fin 0, .fin 0, .fin 0, .fin 1]

/-- to a matrix and back: `X.set(X.T())` -/
noncomputable def viaMatrix (X : TransformationD) : TransformationD := ofMatrix R (T R X)

end TransformationD

end

end Verif.KinematicsDouble
