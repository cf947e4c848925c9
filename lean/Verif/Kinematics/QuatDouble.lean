import Verif.Common.NumericDouble
import Mathlib.Data.Matrix.Mul
import Mathlib.LinearAlgebra.Matrix.Notation

/-!
# Quaternions and transformations on doubles

`quaternion_algebra.cpp` and `Transformation.cpp` (sm_kinematics/src) again (there is a model over the real numbers in `Verif.Kinematics.Quat` and `Verif.Kinematics.Transf`), now with the arithmetic of the machine.
The operations are rounded one by one, in the order of the source (no fused multiply-add: the build sets no machine flags).

Eigen is not in the repository.  Two things about it are left open, as parameters that the theorems quantify over (`Eigen`): the order in which `squaredNorm()` adds up the squares (it depends on the vector unit),
and whether the division of a vector by a number divides each entry or multiplies it by the reciprocal (it depends on the version).
-/

namespace Verif.KinematicsDouble

open Verif.Common

abbrev F3 := Fin 3 → Fp
abbrev F4 := Fin 4 → Fp
abbrev FM3 := Matrix (Fin 3) (Fin 3) Fp

section
variable (rnd : ℚ → ℚ)

local infixl:65 " +. " => fadd rnd
local infixl:65 " -. " => fsub rnd
local infixl:70 " *. " => fmul rnd

/-- `qplus` (quaternion_algebra.cpp:136-149) -/
def qplus (q p : F4) : F4 :=
  ![p 0 *. q 3 +. p 1 *. q 2 -. p 2 *. q 1 +. p 3 *. q 0,
    p 2 *. q 0 -. p 0 *. q 2 +. p 1 *. q 3 +. p 3 *. q 1,
    p 0 *. q 1 -. p 1 *. q 0 +. p 2 *. q 3 +. p 3 *. q 2,
    p 3 *. q 3 -. p 1 *. q 1 -. p 2 *. q 2 -. p 0 *. q 0]

/-- `qoplus` (151-164) -/
def qoplus (q p : F4) : F4 :=
  ![p 0 *. q 3 -. p 1 *. q 2 +. p 2 *. q 1 +. p 3 *. q 0,
    p 0 *. q 2 -. p 2 *. q 0 +. p 1 *. q 3 +. p 3 *. q 1,
    p 1 *. q 0 -. p 0 *. q 1 +. p 2 *. q 3 +. p 3 *. q 2,
    p 3 *. q 3 -. p 1 *. q 1 -. p 2 *. q 2 -. p 0 *. q 0]

/-- `quatInv` (166-176) -/
def quatInv (q : F4) : F4 := ![(q 0).neg, (q 1).neg, (q 2).neg, q 3]

/-- Eigen's `a.cross(b)` -/
def cross (a b : F3) : F3 :=
  ![a 1 *. b 2 -. a 2 *. b 1, a 2 *. b 0 -. a 0 *. b 2, a 0 *. b 1 -. a 1 *. b 0]

/-- `quatRotate` (320-323): `v_b + 2.0 * q.head<3>().cross(q.head<3>().cross(v_b) - q[3] * v_b)` -/
def quatRotate (q : F4) (v : F3) : F3 :=
  let e : F3 := ![q 0, q 1, q 2]
  let c := cross rnd e v
  let d : F3 := fun i => c i -. q 3 *. v i
  let x := cross rnd e d
  fun i => v i +. .fin 2 *. x i

/-- `quat2r` (77-98) -/
def quat2r (q : F4) : FM3 :=
  let m2 : Fp := .fin (-2)
  let two : Fp := .fin 2
  !![q 0 *. q 0 -. q 1 *. q 1 -. q 2 *. q 2 +. q 3 *. q 3, q 0 *. q 1 *. two +. q 2 *. q 3 *. two, q 0 *. q 2 *. two -. q 1 *. q 3 *. two;
     q 0 *. q 1 *. two -. q 2 *. q 3 *. two, (q 0).neg *. q 0 +. q 1 *. q 1 -. q 2 *. q 2 +. q 3 *. q 3, q 0 *. q 3 *. two +. q 1 *. q 2 *. two;
     q 0 *. q 2 *. two +. q 1 *. q 3 *. two, q 0 *. q 3 *. m2 +. q 1 *. q 2 *. two, (q 0).neg *. q 0 -. q 1 *. q 1 +. q 2 *. q 2 +. q 3 *. q 3]

/-- `s` is the sum of the values of the list, added up in some order -/
inductive SumOf : List Fp → Fp → Prop
  | one (x : Fp) : SumOf [x] x
  | add {l m n : List Fp} {x y : Fp} (hl : SumOf l x) (hm : SumOf m y) (hn : n.Perm (l ++ m)) : SumOf n (x +. y)

end

/-- what is left open about Eigen -/
structure Eigen (rnd : ℚ → ℚ) where
  /-- the sum of four numbers -/
  sum4 : Fp → Fp → Fp → Fp → Fp
  sum4_sum : ∀ a b c d, SumOf rnd [a, b, c, d] (sum4 a b c d)
  /-- division of a vector by a number multiplies by the reciprocal -/
  byReciprocal : Bool

/-- the plain loop, with divisions -/
def Eigen.plain (rnd : ℚ → ℚ) : Eigen rnd where
  sum4 a b c d := fadd rnd (fadd rnd (fadd rnd a b) c) d
  sum4_sum a b c d := .add (.add (.add (.one a) (.one b) (.refl _)) (.one c) (.refl _)) (.one d) (.refl _)
  byReciprocal := false

/-- two lanes at a time (SSE2), with the reciprocal -/
def Eigen.lanes (rnd : ℚ → ℚ) : Eigen rnd where
  sum4 a b c d := fadd rnd (fadd rnd a c) (fadd rnd b d)
  sum4_sum a b c d := .add (.add (.one a) (.one c) (.refl _)) (.add (.one b) (.one d) (.refl _)) (by
    have h : [a, b, c, d].Perm [a, c, b, d] := (List.Perm.swap c b [d]).cons a
    exact h)
  byReciprocal := true

section
variable {R : ℝ → ℚ} (E : Eigen fun q => R q)

/-- Eigen's `squaredNorm()` of four entries -/
def squaredNorm (q : F4) : Fp :=
  let rnd : ℚ → ℚ := fun x => R x
  E.sum4 (fmul rnd (q 0) (q 0)) (fmul rnd (q 1) (q 1)) (fmul rnd (q 2) (q 2)) (fmul rnd (q 3) (q 3))

/-- Eigen's `norm()` -/
noncomputable def norm (q : F4) : Fp := Verif.NumericDouble.fsqrt R (squaredNorm E q)

/-- Eigen's `normalize()` -/
noncomputable def normalize (q : F4) : F4 :=
  let rnd : ℚ → ℚ := fun x => R x
  let n := norm E q
  fun i => if E.byReciprocal then fmul rnd (q i) (fdiv rnd (.fin 1) n) else fdiv rnd (q i) n

/-- the fields `_q_a_b`, `_t_a_b_a` of a `Transformation` -/
structure TransformationD where
  q : F4
  t : F3

namespace TransformationD

/-- the constructor from a quaternion and a translation (Transformation.cpp:31-35) -/
noncomputable def mkQT (q : F4) (t : F3) : TransformationD := ⟨normalize E q, t⟩

/-- `operator*(Vector3d)` (100-103) -/
def mulV3 (R : ℝ → ℚ) (X : TransformationD) (p : F3) : F3 :=
  let r := quatRotate (fun x => R x) X.q p
  fun i => fadd (fun x => R x) (r i) (X.t i)

/-- `operator*(Transformation)` (95-98) -/
noncomputable def mul (X Y : TransformationD) : TransformationD :=
  mkQT E (qplus (fun x => R x) X.q Y.q) (mulV3 R X Y.t)

/-- `inverse` (83-87) -/
noncomputable def inverse (X : TransformationD) : TransformationD :=
  mkQT E (quatInv X.q) (quatRotate (fun x => R x) (quatInv X.q) fun i => (X.t i).neg)

/-- `C` (40-43) -/
def C (R : ℝ → ℚ) (X : TransformationD) : FM3 := quat2r (fun x => R x) X.q

end TransformationD

end

end Verif.KinematicsDouble
