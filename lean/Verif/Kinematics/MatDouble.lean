import Verif.Kinematics.CovDouble

/-!
# Transformation matrices on doubles

`inverseTransform`, `transformationAndJacobian` and `inverseTransformationAndJacobian` (sm_kinematics/src/transformations.cpp) with the arithmetic of the machine.  There is a model over the real numbers in `Verif.Kinematics.Transf`.
As in `Verif.Kinematics.CovDouble`, Eigen's products are relations: an entry is the sum, in some order, of the rounded products.
-/

namespace Verif.MatDouble

open Verif.Common Verif.KinematicsDouble Verif.CovDouble

/-- a vector as a matrix with one column -/
def col {n : ℕ} (v : Fin n → Fp) : Matrix (Fin n) (Fin 1) Fp := fun i _ => v i

/-- `rt2Transform` (6-17) -/
def rt2Transform (C : FM3) (rho : F3) : FM4 :=
  !![C 0 0, C 0 1, C 0 2, rho 0; C 1 0, C 1 1, C 1 2, rho 1; C 2 0, C 2 1, C 2 2, rho 2; .fin 0, .fin 0, .fin 0, .fin 1]

/-- `transform2C` (19-22) -/
def transform2C (T : FM4) : FM3 := fun i j => T i.castSucc j.castSucc

/-- `transform2rho` (24-27) -/
def transform2rho (T : FM4) : F3 := fun i => T i.castSucc 3

/-- the upper three rows from two blocks, the lowest zero -/
def rows3 (A B : FM3) : FM46 := fun i j => Fin.lastCases (.fin 0) (fun k => Sum.elim (A k) (B k) j) i

section
variable (rnd : ℚ → ℚ)

/-- `Ti` is `inverseTransform(T)` (55-66); the negated transpose is not stored, so that its entries are the negated ones -/
def IsInverse (T Ti : FM4) : Prop :=
  ∃ r : F3, IsProd rnd ks3 (fun i j => ((transform2C T).transpose i j).neg) (col (transform2rho T)) (col r) ∧ Ti = rt2Transform (transform2C T).transpose r

/-- `a` is `T * v` -/
def IsImage (T : FM4) (v a : F4) : Prop := IsProd rnd ks4 T (col v) (col a)

/-- `a` and `B` are the outputs of `transformationAndJacobian(T, v)` (103-112) -/
def IsTransformation (T : FM4) (v a : F4) (B : FM46) : Prop := IsImage rnd T v a ∧ B = boxMinus a

/-- `a` and `B` are the outputs of `inverseTransformationAndJacobian(T, v)` (114-130) -/
def IsInverseTransformation (T : FM4) (v a : F4) (B : FM46) : Prop :=
  ∃ (Ti : FM4) (K : FM3), IsInverse rnd T Ti ∧ IsImage rnd Ti v a ∧
    IsProd rnd ks3 (fun i j => (transform2C Ti i j).neg) (crossMx ![v 0, v 1, v 2]) K ∧
    B = rows3 (fun i j => fmul rnd (v 3).neg (transform2C Ti i j)) K

end

end Verif.MatDouble
