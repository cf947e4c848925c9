import Verif.Kinematics.QuatDouble
import Mathlib.Data.Matrix.Block

/-!
# Covariances of products on doubles

`UncertainTransformation.cpp` and the members of `Transformation` that return uncertain values (sm_kinematics/src) again (over the real numbers they are in `Verif.Kinematics.Uncertain`), with the arithmetic of the machine.

Eigen is not in the repository, and the order in which it adds up the terms of an entry of a matrix product depends on the vector unit and on the version. The products are therefore relations:
an entry of the result is the sum, in some order, of the rounded products (a sum that starts with a zero gives the same, and the sign of a zero is left out).
A product of three matrices is evaluated from the left, with the inner product stored.
-/

namespace Verif.CovDouble

open Verif.KinematicsDouble

open Verif.Common

abbrev FM4 := Matrix (Fin 4) (Fin 4) Fp
abbrev FM6 := Matrix (Fin 3 ⊕ Fin 3) (Fin 3 ⊕ Fin 3) Fp
abbrev FM46 := Matrix (Fin 4) (Fin 3 ⊕ Fin 3) Fp

/-- the positions of a row -/
def ks3 : List (Fin 3) := [0, 1, 2]
def ks4 : List (Fin 4) := [0, 1, 2, 3]
def ks6 : List (Fin 3 ⊕ Fin 3) := [.inl 0, .inl 1, .inl 2, .inr 0, .inr 1, .inr 2]

section
variable (rnd : ℚ → ℚ)

/-- the rounded products that make up an entry of `A * B` -/
def terms {ι κ μ : Type} (ks : List κ) (A : Matrix ι κ Fp) (B : Matrix κ μ Fp) (i : ι) (j : μ) : List Fp := ks.map fun k => fmul rnd (A i k) (B k j)

/-- `P` is the product `A * B` -/
def IsProd {ι κ μ : Type} (ks : List κ) (A : Matrix ι κ Fp) (B : Matrix κ μ Fp) (P : Matrix ι μ Fp) : Prop := ∀ i j, SumOf rnd (terms rnd ks A B i j) (P i j)

/-- `W` is `A * U * A.transpose()` -/
def IsConj {ι κ : Type} (ks : List κ) (A : Matrix ι κ Fp) (U : Matrix κ κ Fp) (W : Matrix ι ι Fp) : Prop :=
  ∃ P, IsProd rnd ks A U P ∧ IsProd rnd ks P A.transpose W

/-- `crossMx` (rotations.cpp:80-86) -/
def crossMx (v : F3) : FM3 := !![.fin 0, (v 2).neg, v 1; v 2, .fin 0, (v 0).neg; (v 1).neg, v 0, .fin 0]

/-- `T` (Transformation.cpp:63-72) -/
def matT (q : F4) (t : F3) : FM4 :=
  let C := quat2r rnd q
  !![C 0 0, C 0 1, C 0 2, t 0; C 1 0, C 1 1, C 1 2, t 1; C 2 0, C 2 1, C 2 2, t 2; .fin 0, .fin 0, .fin 0, .fin 1]

/-- `B` is `boxTimes(T)` (transformations.cpp:132-142) for the matrix `T` of `q` and `t` -/
def IsBoxTimes (q : F4) (t : F3) (B : FM6) : Prop :=
  ∃ K : FM3, IsProd rnd ks3 (fun i j => (crossMx t i j).neg) (quat2r rnd q) K ∧ B = Matrix.fromBlocks (quat2r rnd q) K (fun _ _ => .fin 0) (quat2r rnd q)

/-- `boxMinus` (transformations.cpp:45-53) -/
def boxMinus (p : F4) : FM46 := fun i j => Sum.elim
  (!![p 3, .fin 0, .fin 0; .fin 0, p 3, .fin 0; .fin 0, .fin 0, p 3; .fin 0, .fin 0, .fin 0] i)
  (!![.fin 0, (p 2).neg, p 1; p 2, .fin 0, (p 0).neg; (p 1).neg, p 0, .fin 0; .fin 0, .fin 0, .fin 0] i) j

/-- `W` is the covariance of `UncertainTransformation::operator*(UncertainTransformation)` (UncertainTransformation.cpp:122-133), where the left factor is `q`, `t` with the covariance `Ua` -/
def IsMulCov (q : F4) (t : F3) (Ua Ub W : FM6) : Prop :=
  ∃ B P, IsBoxTimes rnd q t B ∧ IsProd rnd ks6 B Ub P ∧ ∀ i j, SumOf rnd (Ua i j :: terms rnd ks6 P B.transpose i j) (W i j)

/-- `W` is the covariance of `Transformation::operator*(UncertainTransformation)` (Transformation.cpp:181-193), where the left factor is `q`, `t` -/
def IsMoveCov (q : F4) (t : F3) (U W : FM6) : Prop := ∃ B, IsBoxTimes rnd q t B ∧ IsConj rnd ks6 B U W

/-- `Transformation::operator*(Vector4d)` (Transformation.cpp:105-112) -/
def mulV4 (q : F4) (t : F3) (p : F4) : F4 :=
  let r := quatRotate rnd q ![p 0, p 1, p 2]
  ![fadd rnd (r 0) (fmul rnd (p 3) (t 0)), fadd rnd (r 1) (fmul rnd (p 3) (t 1)), fadd rnd (r 2) (fmul rnd (p 3) (t 2)), p 3]

/-- `W` is the covariance of `UncertainTransformation::operator*(UncertainHomogeneousPoint)` (UncertainTransformation.cpp:191-202) -/
def IsPointCov (q : F4) (t : F3) (U : FM6) (p : F4) (V W : FM4) : Prop :=
  let J := boxMinus (mulV4 rnd q t p)
  ∃ P Q, IsProd rnd ks6 J U P ∧ IsProd rnd ks4 (matT rnd q t) V Q ∧
    ∀ i j, SumOf rnd (terms rnd ks6 P J.transpose i j ++ terms rnd ks4 Q (matT rnd q t).transpose i j) (W i j)

/-- `W` is the covariance of `UncertainTransformation::operator*(HomogeneousPoint)` (214-224) -/
def IsImageCov (q : F4) (t : F3) (U : FM6) (p : F4) (W : FM4) : Prop := IsConj rnd ks6 (boxMinus (mulV4 rnd q t p)) U W

/-- `W` is the covariance of `Transformation::operator*(UncertainHomogeneousPoint)` (Transformation.cpp:195-205) -/
def IsMovePointCov (q : F4) (t : F3) (V W : FM4) : Prop := IsConj rnd ks4 (matT rnd q t) V W

/-- `W` is the covariance of `Transformation::rotate(UncertainVector3)` (Transformation.cpp:221-229) -/
def IsRotateCov (q : F4) (V W : FM3) : Prop := IsConj rnd ks3 (quat2r rnd q) V W

end

/-- `W` is the covariance of `UncertainTransformation::inverse` (UncertainTransformation.cpp:136-148) -/
def IsInverseCov {R : ℝ → ℚ} (E : Eigen fun q => R q) (X : TransformationD) (U W : FM6) : Prop := IsMoveCov (fun q => R q) (X.inverse E).q (X.inverse E).t U W

end Verif.CovDouble
