import Mathlib.Data.Matrix.Mul
import Mathlib.LinearAlgebra.Matrix.Notation
import Mathlib.LinearAlgebra.Matrix.Determinant.Basic
import Mathlib.LinearAlgebra.CrossProduct
import Mathlib.Analysis.SpecialFunctions.Trigonometric.Basic
import Mathlib.Analysis.SpecialFunctions.Trigonometric.Inverse
import Mathlib.Analysis.SpecialFunctions.Sqrt

/-!
# Model of sm_kinematics/src/quaternion_algebra.cpp (and `crossMx` of rotations.cpp)

Everything in sm_kinematics is modelled over the real numbers: `double` is read as `ℝ`, so rounding, overflow
and NaN are not modelled.  Eigen's fixed-size vectors and matrices are functions on `Fin n`
(`Eigen::Vector4d` = `V4`, …), indices as in the code, from 0.  Division by zero is 0 in Lean; theorems about
code that divides carry the hypotheses that make the divisor non-zero.  The `SM_ASSERT_…_DBG` checks (debug
builds only) are preconditions of the theorems.
-/

namespace Verif.Kinematics

abbrev V3 := Fin 3 → ℝ
abbrev V4 := Fin 4 → ℝ
/-- `Eigen::Matrix<double,6,1>`: the entries 0-2 are `inl 0 … inl 2` (`head<3>()`), the entries 3-5 are
`inr 0 … inr 2` (`tail<3>()`); likewise for the rows and columns of 6×6 and 4×6 matrices -/
abbrev V6 := Fin 3 ⊕ Fin 3 → ℝ
abbrev M3 := Matrix (Fin 3) (Fin 3) ℝ
abbrev M4 := Matrix (Fin 4) (Fin 4) ℝ
abbrev M43 := Matrix (Fin 4) (Fin 3) ℝ
abbrev M34 := Matrix (Fin 3) (Fin 4) ℝ
abbrev M6 := Matrix (Fin 3 ⊕ Fin 3) (Fin 3 ⊕ Fin 3) ℝ
abbrev M46 := Matrix (Fin 4) (Fin 3 ⊕ Fin 3) ℝ

/-- Eigen's `squaredNorm()` -/
def sqNorm {n : Nat} (v : Fin n → ℝ) : ℝ := ∑ i, v i * v i

/-- Eigen's `norm()` -/
noncomputable def norm {n : Nat} (v : Fin n → ℝ) : ℝ := √(sqNorm v)

/-- `crossMx` (rotations.cpp:80-86) -/
def crossMx (v : V3) : M3 :=
  !![0, -v 2, v 1;
     v 2, 0, -v 0;
     -v 1, v 0, 0]

/-- Eigen's `a.cross(b)` -/
def cross (a b : V3) : V3 :=
  ![a 1 * b 2 - a 2 * b 1, a 2 * b 0 - a 0 * b 2, a 0 * b 1 - a 1 * b 0]

/-- `x < pow(epsilon, 1/4)` (quaternion_algebra.cpp:9-13); the machine epsilon of `double` is `2⁻⁵²`, its
fourth root `2⁻¹³ = 1/8192`. -/
def isSmall (x : ℝ) : Prop := x < 1 / 8192

noncomputable instance (x : ℝ) : Decidable (isSmall x) := Classical.propDecidable _

/-- `quat2r` (quaternion_algebra.cpp:77-101) -/
def quat2r (q : V4) : M3 :=
  !![q 0 * q 0 - q 1 * q 1 - q 2 * q 2 + q 3 * q 3, q 0 * q 1 * 2 + q 2 * q 3 * 2, q 0 * q 2 * 2 - q 1 * q 3 * 2;
     q 0 * q 1 * 2 - q 2 * q 3 * 2, -q 0 * q 0 + q 1 * q 1 - q 2 * q 2 + q 3 * q 3, q 0 * q 3 * 2 + q 1 * q 2 * 2;
     q 0 * q 2 * 2 + q 1 * q 3 * 2, q 0 * q 3 * (-2) + q 1 * q 2 * 2, -q 0 * q 0 - q 1 * q 1 + q 2 * q 2 + q 3 * q 3]

/-- the four values `dc(0..3)` of `r2quat` (28-31) -/
def r2quatDc (R : M3) : V4 :=
  ![|1 + R 0 0 - R 1 1 - R 2 2|, |1 - R 0 0 + R 1 1 - R 2 2|, |1 - R 0 0 - R 1 1 + R 2 2|, |1 + R 0 0 + R 1 1 + R 2 2|]

/-- one iteration `i` of the loop 36-41: `if (dc(i) > maxqval) { maxq = i; maxqval = dc(i); }` -/
noncomputable def maxStep (dc : V4) (m : Fin 4 × ℝ) (i : Fin 4) : Fin 4 × ℝ :=
  if dc i > m.2 then (i, dc i) else m

/-- `maxq` after the loop (33-41) -/
noncomputable def maxq (dc : V4) : Fin 4 :=
  (maxStep dc (maxStep dc (maxStep dc (0, dc 0) 1) 2) 3).1

/-- the four branches of `r2quat` (43-69); `c1 … c9` are the entries in column-major order (18-26) -/
noncomputable def r2quatBranch (R : M3) : Fin 4 → V4
  | 0 =>
    let q0 := (1 / 2 : ℝ) * √(r2quatDc R 0)
    let c := (1 / 4 : ℝ) / q0
    ![q0, c * (R 0 1 + R 1 0), c * (R 0 2 + R 2 0), c * (R 1 2 - R 2 1)]
  | 1 =>
    let q1 := (1 / 2 : ℝ) * √(r2quatDc R 1)
    let c := (1 / 4 : ℝ) / q1
    ![c * (R 0 1 + R 1 0), q1, c * (R 2 1 + R 1 2), c * (R 2 0 - R 0 2)]
  | 2 =>
    let q2 := (1 / 2 : ℝ) * √(r2quatDc R 2)
    let c := (1 / 4 : ℝ) / q2
    ![c * (R 2 0 + R 0 2), c * (R 2 1 + R 1 2), q2, c * (R 0 1 - R 1 0)]
  | 3 =>
    let q3 := (1 / 2 : ℝ) * √(r2quatDc R 3)
    let c := (1 / 4 : ℝ) / q3
    ![c * (R 1 2 - R 2 1), c * (R 2 0 - R 0 2), c * (R 0 1 - R 1 0), q3]

/-- `r2quat` (16-75): the branch of the largest value, made to have a non-negative last component (71-72) -/
noncomputable def r2quat (R : M3) : V4 :=
  let q := r2quatBranch R (maxq (r2quatDc R))
  if q 3 < 0 then -q else q

/-- `quatPlus` (104-117) -/
def quatPlus (q : V4) : M4 :=
  !![q 3, q 2, -q 1, q 0;
     -q 2, q 3, q 0, q 1;
     q 1, -q 0, q 3, q 2;
     -q 0, -q 1, -q 2, q 3]

/-- `quatOPlus` (119-134) -/
def quatOPlus (q : V4) : M4 :=
  !![q 3, -q 2, q 1, q 0;
     q 2, q 3, -q 0, q 1;
     -q 1, q 0, q 3, q 2;
     -q 0, -q 1, -q 2, q 3]

/-- `qplus` (136-149) -/
def qplus (q p : V4) : V4 :=
  ![p 0 * q 3 + p 1 * q 2 - p 2 * q 1 + p 3 * q 0,
    p 2 * q 0 - p 0 * q 2 + p 1 * q 3 + p 3 * q 1,
    p 0 * q 1 - p 1 * q 0 + p 2 * q 3 + p 3 * q 2,
    p 3 * q 3 - p 1 * q 1 - p 2 * q 2 - p 0 * q 0]

/-- `qoplus` (151-164) -/
def qoplus (q p : V4) : V4 :=
  ![p 0 * q 3 - p 1 * q 2 + p 2 * q 1 + p 3 * q 0,
    p 0 * q 2 - p 2 * q 0 + p 1 * q 3 + p 3 * q 1,
    p 1 * q 0 - p 0 * q 1 + p 2 * q 3 + p 3 * q 2,
    p 3 * q 3 - p 1 * q 1 - p 2 * q 2 - p 0 * q 0]

/-- `quatInv`, `invertQuat` (166-176) -/
def quatInv (q : V4) : V4 := ![-q 0, -q 1, -q 2, q 3]

/-- `qeps` (179-187) -/
def qeps (q : V4) : V3 := ![q 0, q 1, q 2]

/-- `qeta` (189-197) -/
def qeta (q : V4) : ℝ := q 3

/-- `axisAngle2quat` (200-221) -/
noncomputable def axisAngle2quat (a : V3) : V4 :=
  let theta := norm a
  let na := if isSmall theta then 1 / 2 + (theta * theta) * (1 / 48) else Real.sin (theta * (1 / 2)) / theta
  ![a 0 * na, a 1 * na, a 2 * na, Real.cos (theta * (1 / 2))]

/-- `arcSinXOverX` (228-234); `Scalar_(1/6)` is the integer quotient 0 -/
noncomputable def arcSinXOverX (x : ℝ) : ℝ :=
  if isSmall |x| then 1 + x * x * ((1 / 6 : ℤ) : ℝ) else Real.arcsin x / x

/-- `quat2AxisAngle` (236-272), `qlog` (quaternion_algebra.hpp:49) -/
noncomputable def quat2AxisAngle (q : V4) : V3 :=
  let a := qeps q
  let na := norm a
  let eta := qeta q
  let scale :=
    if |eta| < na then Real.arccos eta / na
    else if eta > 0 then arcSinXOverX na
    else (Real.pi - Real.arcsin na) / na
  fun i => a i * (2 * scale)

/-- `quatJacobian` (278-300) -/
noncomputable def quatJacobian (p : V4) : M43 :=
  (1 / 2 : ℝ) • !![p 3, -p 2, p 1;
     p 2, p 3, -p 0;
     -p 1, p 0, p 3;
     -p 0, -p 1, -p 2]

/-- `updateQuat` (302-318) -/
noncomputable def updateQuat (q : V4) (dq : V3) : V4 :=
  let dq3 := axisAngle2quat dq
  let ca := dq3 3
  ![q 0 * ca + dq3 0 * q 3 - dq3 1 * q 2 + dq3 2 * q 1,
    q 1 * ca + dq3 0 * q 2 + dq3 1 * q 3 - dq3 2 * q 0,
    q 2 * ca - dq3 0 * q 1 + dq3 1 * q 0 + dq3 2 * q 3,
    q 3 * ca - dq3 0 * q 0 - dq3 1 * q 1 - dq3 2 * q 2]

/-- `quatRotate` (320-323) -/
def quatRotate (q : V4) (v : V3) : V3 :=
  v + (2 : ℝ) • cross (qeps q) (cross (qeps q) v - q 3 • v)

/-- `quatIdentity` (334-337) -/
def quatIdentity : V4 := ![0, 0, 0, 1]

/-- `quatS` (339-353) -/
def quatS (q0 : V4) : M34 :=
  let q : V4 := fun i => q0 i * 2
  !![q 3, q 2, -q 1, -q 0;
     -q 2, q 3, q 0, -q 1;
     q 1, -q 0, q 3, -q 2]

/-- `quatInvS` (355-372) -/
noncomputable def quatInvS (q0 : V4) : M43 :=
  let q : V4 := fun i => q0 i * (1 / 2)
  !![q 3, -q 2, q 1;
     q 2, q 3, -q 0;
     -q 1, q 0, q 3;
     -q 0, -q 1, -q 2]

/-- `qslerp` (374-395); `qexp`, `qlog` are `axisAngle2quat`, `quat2AxisAngle` (quaternion_algebra.hpp:49-50) -/
noncomputable def qslerp (q0 q1 : V4) (t : ℝ) : V4 :=
  if t ≤ 0 then q0
  else if t ≥ 1 then q1
  else if sqNorm (q0 - q1) > sqNorm (q0 + q1) then
    qplus q0 (axisAngle2quat (t • quat2AxisAngle (qplus (quatInv q0) (-q1))))
  else
    qplus q0 (axisAngle2quat (t • quat2AxisAngle (qplus (quatInv q0) q1)))

/-- `lerp` (399-414) for vectors of the same size (otherwise `SM_ASSERT_EQ` throws, in every build) -/
noncomputable def lerp {n : Nat} (p0 p1 : Fin n → ℝ) (t : ℝ) : Fin n → ℝ :=
  if t ≤ 0 then p0 else if t ≥ 1 then p1 else (1 - t) • p0 + t • p1

/-- `quatV` (458-462) -/
noncomputable def quatV : M43 :=
  (1 / 2 : ℝ) • !![1, 0, 0;
                   0, 1, 0;
                   0, 0, 1;
                   0, 0, 0]

/-- `expDiffMat` (467-493) -/
noncomputable def expDiffMat (v : V3) : M3 :=
  let phi := norm v
  if phi = 0 then 1
  else
    let a := if ¬ isSmall |phi| then 2 * Real.sin (phi / 2) * Real.sin (phi / 2) / (phi * phi)
      else (1 / 2) * (1 - (1 / 12) * (phi * phi))
    let b := if ¬ isSmall |phi| then (1 - Real.sin phi / phi) / (phi * phi)
      else (1 / 6) * (1 - (1 / 20) * (phi * phi))
    1 - a • crossMx v + b • (crossMx v * crossMx v)

/-- `quatExpJacobian` (497-500) -/
noncomputable def quatExpJacobian (v : V3) : M43 :=
  quatOPlus (axisAngle2quat v) * quatV * expDiffMat v

/-- `logDiffMat` (504-523) -/
noncomputable def logDiffMat (v : V3) : M3 :=
  let phi := norm v
  if phi = 0 then 1
  else
    let a := if ¬ isSmall |phi| then (1 - (1 / 2 * phi) / Real.tan (1 / 2 * phi)) / phi / phi
      else 1 / 12 * (1 + 1 / 60 * phi * phi)
    1 + (1 / 2 : ℝ) • crossMx v + a • (crossMx v * crossMx v)

/-- `quatLogJacobian2` (527-530) -/
noncomputable def quatLogJacobian2 (p : V4) : M34 :=
  logDiffMat (quat2AxisAngle p) * ((4 : ℝ) • quatV.transpose) * quatOPlus (quatInv p)

/-- `quatLogJacobian` (416-456) -/
noncomputable def quatLogJacobian (p : V4) : M34 :=
  let n := norm (qeps p)
  let de := n * n * n
  let u12 := p 1 * p 1 + p 2 * p 2
  let u02 := p 0 * p 0 + p 2 * p 2
  let u01 := p 0 * p 0 + p 1 * p 1
  let a := Real.arccos (p 3)
  let uw := √(-(p 3 * p 3 - 1) * n * n)
  !![2 * a * u12 / de, -2 * a * p 1 * p 0 / de, -2 * a * p 2 * p 0 / de, -2 * p 0 / uw;
     -2 * a * p 0 * p 1 / de, 2 * a * u02 / de, -2 * a * p 1 * p 2 / de, -2 * p 1 / uw;
     -2 * a * p 0 * p 2 / de, -2 * a * p 1 * p 2 / de, 2 * a * u01 / de, -2 * p 2 / uw]

end Verif.Kinematics
