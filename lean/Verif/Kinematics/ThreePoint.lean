import Verif.Kinematics.Rot
import Verif.Kinematics.Transf

/-!
# Model of sm_kinematics/src/three_point_methods.cpp

A `3×K` matrix of points is a family of `K` columns.  Eigen's decompositions are not modelled: `JacobiSVD` and
`SelfAdjointEigenSolver` are arbitrary functions `svd`, `eig` from the matrix to the factors; the theorems
assume of the one call that is made what these classes document (`IsSvd`, `IsEigen` in ThreePointSpec).
-/

namespace Verif.Kinematics

/-- `p.rowwise().mean()` (three_point_methods.cpp:22-23): the sum of the columns divided by their number.
(With no column Eigen yields NaN; the theorems assume at least one.) -/
noncomputable def meanCol {n : Nat} (p : Fin n → V3) : V3 := fun j => (∑ i, p i j) / n

/-- the factors of a singular value decomposition: `matrixU()`, `singularValues()`, `matrixV()` -/
structure Svd where
  U : M3
  s : V3
  V : M3

/-- `H` after the loop (25-40): the sum of `(p0.col(i) - c0) * (p1.col(i) - c1).transpose()` -/
noncomputable def crossCov {n : Nat} (p0 p1 : Fin n → V3) : M3 :=
  fun j k => ∑ i, (p0 i - meanCol p0) j * (p1 i - meanCol p1) k

/-- `V.col(2) = V.col(2) * -1.0` (51) -/
def flipLast (V : M3) : M3 := fun i j => if j = 2 then V i j * (-1) else V i j

/-- the matrix `R` after the test of its determinant (44-53) -/
noncomputable def svdRot (d : Svd) : M3 :=
  let R := d.V * d.U.transpose
  if R.det < 0 then flipLast d.V * d.U.transpose else R

/-- `threePointSvd` (13-65) -/
noncomputable def threePointSvd (svd : M3 → Svd) {n : Nat} (p0 p1 : Fin n → V3) : M4 :=
  let R := svdRot (svd (crossCov p0 p1))
  let tr := meanCol p0 - R.transpose.mulVec (meanCol p1)
  !![R.transpose 0 0, R.transpose 0 1, R.transpose 0 2, tr 0;
     R.transpose 1 0, R.transpose 1 1, R.transpose 1 2, tr 1;
     R.transpose 2 0, R.transpose 2 1, R.transpose 2 2, tr 2;
     0, 0, 0, 1]

/-- the result of `SelfAdjointEigenSolver`: `eigenvalues()` and the matrix `eigenvectors()` -/
structure Eig where
  lam : V4
  E : M4

/-- `B = W * V.transpose()` (87) with the columns scaled by `sqrt(w[i])` (74-85) -/
noncomputable def qMethodB {n : Nat} (p0 p1 : Fin n → V3) (w : Fin n → ℝ) : M3 :=
  fun j k => ∑ i, (√(w i) * p0 i j) * (√(w i) * p1 i k)

/-- `K` (88-98) -/
def davenport (B : M3) : M4 :=
  let Q := B + B.transpose
  let Z : V3 := ![B 1 2 - B 2 1, B 2 0 - B 0 2, B 0 1 - B 1 0]
  let sigma := B 0 0 + B 1 1 + B 2 2
  let D := Q - sigma • (1 : M3)
  !![D 0 0, D 0 1, D 0 2, Z 0;
     D 1 0, D 1 1, D 1 2, Z 1;
     D 2 0, D 2 1, D 2 2, Z 2;
     Z 0, Z 1, Z 2, sigma]

/-- the search for the largest eigenvalue (105-114) is the loop of `r2quat` (`maxq`); `q_01` (117-118) -/
noncomputable def qMethodQuat (e : Eig) : V4 :=
  let q : V4 := fun i => e.E i (maxq e.lam)
  fun i => q i / norm q

/-- the matrix `C_01` of the quaternion (120-123) -/
def qMethodRot (q : V4) : M3 :=
  let qv : V3 := ![q 0, q 1, q 2]
  let qs := q 3
  (qs * qs - (qv 0 * qv 0 + qv 1 * qv 1 + qv 2 * qv 2)) • (1 : M3) + Matrix.of (fun i j => 2 * qv i * qv j) - (2 * qs) • crossMx qv

/-- `qMethod(p0, p1, w)` (67-126) -/
noncomputable def qMethod (eig : M4 → Eig) {n : Nat} (p0 p1 : Fin n → V3) (w : Fin n → ℝ) : M3 :=
  qMethodRot (qMethodQuat (eig (davenport (qMethodB p0 p1 w))))

/-- `qMethod(p0, p1)` (128-131): all weights 1 -/
noncomputable def qMethod1 (eig : M4 → Eig) {n : Nat} (p0 p1 : Fin n → V3) : M3 := qMethod eig p0 p1 (fun _ => 1)

end Verif.Kinematics
