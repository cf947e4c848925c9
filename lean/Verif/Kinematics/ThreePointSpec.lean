import Verif.Kinematics.Spec
import Verif.Kinematics.ThreePoint

/-!
# What the point alignment methods are for
-/

namespace Verif.Kinematics

/-- what `JacobiSVD` documents: `H = U · diag(s) · Vᵀ` with orthogonal `U`, `V` and singular values that are
not negative and in decreasing order -/
structure IsSvd (H : M3) (d : Svd) : Prop where
  orthU : d.U.transpose * d.U = 1
  orthV : d.V.transpose * d.V = 1
  sorted : d.s 1 ≤ d.s 0 ∧ d.s 2 ≤ d.s 1 ∧ 0 ≤ d.s 2
  eq : H = d.U * Matrix.diagonal d.s * d.V.transpose

/-- what `SelfAdjointEigenSolver` documents: orthonormal columns that are eigenvectors -/
structure IsEigen (K : M4) (e : Eig) : Prop where
  orth : e.E.transpose * e.E = 1
  eq : K * e.E = e.E * Matrix.diagonal e.lam

/-- the point `(x, y, z, 1)` -/
def hom1 (p : V3) : V4 := ![p 0, p 1, p 2, 1]

/-- the (weighted) sum of the squared distances between the points `p0 i` and the images of `p1 i` -/
def fitError {n : Nat} (w : Fin n → ℝ) (p0 p1 : Fin n → V3) (f : V3 → V3) : ℝ :=
  ∑ i, w i * sqNorm (p0 i - f (p1 i))

/-- `T` is the 4×4 matrix of the rigid motion `p ↦ C p + t` -/
def IsRigidOf (T : M4) (C : M3) (t : V3) : Prop :=
  IsRotation C ∧ ∀ p : V3, T.mulVec (hom1 p) = hom1 (C.mulVec p + t)

end Verif.Kinematics
