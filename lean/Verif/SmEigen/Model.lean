import Verif.Common.Fp
import Mathlib.Data.Real.Sqrt
import Mathlib.LinearAlgebra.Matrix.PosDef
import Mathlib.LinearAlgebra.Matrix.Block
import Mathlib.LinearAlgebra.Matrix.Permutation

/-!
# Model of the headers of sm_eigen

NumericalDiff.hpp, matrix_sqrt.hpp, gtest.hpp and assert_macros.hpp.  Calculations are in the real numbers, except for
`compareRelative`, where infinities and NaN are values.
-/

namespace Verif.SmEigen

open Verif.Common

/-! ## NumericalDiff.hpp -/

variable {n m : ℕ}

/-- `NumericalDiffFunctor::update` (NumericalDiff.hpp:24): `xnew[c] += delta` -/
def update (x : Fin n → ℝ) (c : Fin n) (delta : ℝ) : Fin n → ℝ := fun i => if i = c then x i + delta else x i

/-- the step `rcEps` (NumericalDiff.hpp:61) -/
noncomputable def stepSize (eps : ℝ) (x0 : Fin n → ℝ) (c : Fin n) : ℝ := max (|x0 c| * eps) eps

/-- `estimateJacobian` (NumericalDiff.hpp:41-69): the columns are central differences.  The sizes of the function's
argument and value are fixed, so the two assertions on the sizes hold. -/
noncomputable def estimateJacobian (f : (Fin n → ℝ) → Fin m → ℝ) (eps : ℝ) (x0 : Fin n → ℝ) : Matrix (Fin m) (Fin n) ℝ :=
  fun i c => (f (update x0 c (stepSize eps x0 c)) i - f (update x0 c (-stepSize eps x0 c)) i) / (stepSize eps x0 c * 2)

/-- the points at which the function is evaluated, in order (NumericalDiff.hpp:44, 63-64) -/
noncomputable def evalPoints (eps : ℝ) (x0 : Fin n → ℝ) : List (Fin n → ℝ) :=
  x0 :: (List.finRange n).flatMap fun c => [update x0 c (stepSize eps x0 c), update x0 c (-stepSize eps x0 c)]

/-! ## matrix_sqrt.hpp -/

/-- what `Eigen::LDLT` provides: `matrixL()`, `transpositionsP()` as a permutation, `vectorD()` -/
structure Ldlt (n : ℕ) where
  L : Matrix (Fin n) (Fin n) ℝ
  P : Equiv.Perm (Fin n)
  D : Fin n → ℝ

/-- `computeMatrixSqrt` (matrix_sqrt.hpp:22-40): `result = L; result = Pᵀ * result; result *= diag(sqrt(D))`.
(The square root of a negative number is NaN in C++.) -/
noncomputable def matrixSqrt (ldlt : Matrix (Fin n) (Fin n) ℝ → Ldlt n) (A : Matrix (Fin n) (Fin n) ℝ) :
    Matrix (Fin n) (Fin n) ℝ :=
  let f := ldlt A
  (f.P.permMatrix ℝ).transpose * f.L * Matrix.diagonal fun i => √(f.D i)

/-! ## gtest.hpp -/

/-- `randomCovariance` / `randomCovarianceXd` (gtest.hpp:19-33), given the random matrix -/
noncomputable def randomCovariance (U : Matrix (Fin n) (Fin n) ℝ) : Matrix (Fin n) (Fin n) ℝ :=
  U.transpose * U + (5 : ℝ) • (1 : Matrix (Fin n) (Fin n) ℝ)

/-- the verdict of `compareRelative` (gtest.hpp:100-119) and what it writes to `*percentError` -/
def compareRelative (a b tol : Fp) : Bool × Option Fp :=
  let fa := a.abs
  let fb := b.abs
  if (fa.lt (.fin (1 / 10 ^ 15)) && fb.lt (.fin (1 / 10 ^ 15))) || (fa.eq (.fin 0) && fb.lt (.fin (1 / 10 ^ 6))) ||
      (fb.eq (.fin 0) && fa.lt (.fin (1 / 10 ^ 6))) then (true, none)
  else
    let diff := (a.sub b).abs.div (Fp.max fa fb)
    if (tol.mul (.fin (1 / 100))).lt diff then (false, some (diff.mul (.fin 100))) else (true, none)

/-- a dynamic matrix -/
structure Mat (α : Type) where
  rows : ℕ
  cols : ℕ
  at' : ℕ → ℕ → α

/-- the element `A(r, c)`: `none` if it does not exist -/
def Mat.get? {α : Type} (A : Mat α) (r c : ℕ) : Option α := if r < A.rows ∧ c < A.cols then some (A.at' r c) else none

/-- the outcome of a test helper: the positions of the failures reported (a failed test of the sizes is `none`), or `ub`
after an access to an element that does not exist -/
inductive Verdict
  | reports (l : List (Option (ℕ × ℕ)))
  | ub
  deriving DecidableEq

variable {α : Type}

/-- the positions visited by the two loops -/
def positions (A : Mat α) : List (ℕ × ℕ) := (List.range A.rows).flatMap fun r => (List.range A.cols).map fun c => (r, c)

/-- the loops with `ASSERT_…`, which leaves the function at the first failure -/
def assertLoop (test : α → α → Bool) (A B : Mat α) : List (ℕ × ℕ) → Verdict
  | [] => .reports []
  | (r, c) :: ps =>
    match A.get? r c, B.get? r c with
    | some x, some y => if test x y then assertLoop test A B ps else .reports [some (r, c)]
    | _, _ => .ub

/-- the loops with `EXPECT_…`, which goes on -/
def expectLoop (test : α → α → Bool) (A B : Mat α) : List (ℕ × ℕ) → List (Option (ℕ × ℕ)) → Verdict
  | [], acc => .reports acc
  | (r, c) :: ps, acc =>
    match A.get? r c, B.get? r c with
    | some x, some y => expectLoop test A B ps (if test x y then acc else acc ++ [some (r, c)])
    | _, _ => .ub

/-- `assertEqual` (gtest.hpp:37-51) with `test x y = (x == y)`, `assertNear` (gtest.hpp:54-71) with
`test x y = (|x - y| <= tolerance)`, `ASSERT_DOUBLE_MX_EQ` (gtest.hpp:122-138) with `compareRelative` -/
def assertMat (test : α → α → Bool) (A B : Mat α) : Verdict :=
  if A.rows ≠ B.rows then .reports [none]
  else if A.cols ≠ B.cols then .reports [none]
  else assertLoop test A B (positions A)

/-- `expectNear` (gtest.hpp:73-87) -/
def expectMat (test : α → α → Bool) (A B : Mat α) : Verdict :=
  expectLoop test A B (positions A)
    ((if A.rows ≠ B.rows then [none] else []) ++ (if A.cols ≠ B.cols then [none] else []))

/-- `SM_ASSERT_MAT_IS_FINITE` (assert_macros.hpp:19-34): the position of the element for which the exception is
thrown -/
def matIsFinite (A : Mat Fp) : Option (ℕ × ℕ) := (positions A).find? fun p => !(A.at' p.1 p.2).isFinite

end Verif.SmEigen
