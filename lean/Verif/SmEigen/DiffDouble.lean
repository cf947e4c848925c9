import Verif.Common.DoubleOps
import Mathlib.LinearAlgebra.Matrix.Defs

/-!
# Numerical differentiation on doubles

`NumericalDiff.hpp` with the arithmetic of the machine.  There is a model over the real numbers in `Verif.SmEigen.Model`.
The function to differentiate is any function from vectors of doubles to vectors of doubles (a function object without state; sizes are fixed, so the two assertions on sizes hold).
-/

namespace Verif.DiffDouble

open Verif.Common

variable {n m : ℕ} (rnd : ℚ → ℚ)

/-- `NumericalDiffFunctor::update` (NumericalDiff.hpp:24): `xnew[c] += delta` -/
def update (x : Fin n → Fp) (c : Fin n) (delta : Fp) : Fin n → Fp := fun i => if i = c then fadd rnd (x i) delta else x i

/-- the step `rcEps` (NumericalDiff.hpp:61), `std::max(fabs(x0(c)) * eps, eps)` -/
def stepSize (eps : Fp) (x0 : Fin n → Fp) (c : Fin n) : Fp := (fmul rnd (x0 c).abs eps).max eps

/-- the default of `eps` (NumericalDiff.hpp:37): the root of 2^-52, which is a double -/
def defaultEps : Fp := .fin (1 / 2 ^ 26)

/-- an entry of Eigen's quotient of a column by a number: a division or, in versions of Eigen that say so, a product with the reciprocal -/
def quotient (byReciprocal : Bool) (a b : Fp) : Fp := if byReciprocal then fmul rnd a (fdiv rnd (.fin 1) b) else fdiv rnd a b

/-- `estimateJacobian` (NumericalDiff.hpp:40-69) -/
def estimateJacobian (byReciprocal : Bool) (f : (Fin n → Fp) → Fin m → Fp) (eps : Fp) (x0 : Fin n → Fp) : Matrix (Fin m) (Fin n) Fp := fun i c =>
  let rcEps := stepSize rnd eps x0 c
  let fxp := f (update rnd x0 c rcEps)
  let fxm := f (update rnd x0 c rcEps.neg)
  quotient rnd byReciprocal (fsub rnd (fxp i) (fxm i)) (fmul rnd rcEps (.fin 2))

end Verif.DiffDouble
