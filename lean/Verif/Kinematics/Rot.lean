import Verif.Kinematics.Quat
import Mathlib.Analysis.SpecialFunctions.Complex.Arg
import Mathlib.Algebra.Order.Round

/-!
# Model of sm_kinematics/src/rotations.cpp
-/

namespace Verif.Kinematics

/-- the C library's `atan2` (signed zeros and NaN are not modelled) -/
noncomputable def atan2 (y x : ℝ) : ℝ := Complex.arg ⟨x, y⟩

/-- `Rx` (11-20) -/
noncomputable def Rx (a : ℝ) : M3 :=
  !![1, 0, 0;
     0, Real.cos a, -Real.sin a;
     0, Real.sin a, Real.cos a]

/-- `Ry` (22-31) -/
noncomputable def Ry (a : ℝ) : M3 :=
  !![Real.cos a, 0, Real.sin a;
     0, 1, 0;
     -Real.sin a, 0, Real.cos a]

/-- `Rz` (32-41) -/
noncomputable def Rz (a : ℝ) : M3 :=
  !![Real.cos a, -Real.sin a, 0;
     Real.sin a, Real.cos a, 0;
     0, 0, 1]

/-- the matrix written out in `rph2R` (54-56), `EulerAnglesYawPitchRoll.cpp` (24-27) and `EulerAnglesZYX.cpp`,
in terms of the cosines and sines -/
def rphMatrix (cx sx cy sy cz sz : ℝ) : M3 :=
  !![cz * cy, -sz * cx + cz * sy * sx, sz * sx + cz * sy * cx;
     sz * cy, cz * cx + sz * sy * sx, -cz * sx + sz * sy * cx;
     -sy, cy * sx, cy * cx]

/-- `rph2R` (43-62) -/
noncomputable def rph2R (x y z : ℝ) : M3 :=
  rphMatrix (Real.cos x) (Real.sin x) (Real.cos y) (Real.sin y) (Real.cos z) (Real.sin z)

/-- `R2rph` (64-75) -/
noncomputable def R2rph (C : M3) : V3 :=
  ![atan2 (C 2 1) (C 2 2), -Real.arcsin (C 2 0), atan2 (C 1 0) (C 0 0)]

/-- the matrix of `axisAngle2R` (108-120), also written out in `RotationVector.cpp` (27-42) -/
noncomputable def rodrigues (a : ℝ) (e : V3) : M3 :=
  let sa := Real.sin a
  let ca := Real.cos a
  !![e 0 * e 0 + ca * (1 - e 0 * e 0), e 0 * e 1 - ca * e 0 * e 1 + sa * e 2, e 0 * e 2 - ca * e 0 * e 2 - sa * e 1;
     e 0 * e 1 - ca * e 0 * e 1 - sa * e 2, e 1 * e 1 + ca * (1 - e 1 * e 1), e 1 * e 2 - ca * e 1 * e 2 + sa * e 0;
     e 0 * e 2 - ca * e 0 * e 2 + sa * e 1, e 1 * e 2 - ca * e 1 * e 2 - sa * e 0, e 2 * e 2 + ca * (1 - e 2 * e 2)]

/-- `axisAngle2R(a, ax, ay, az)` (97-121) -/
noncomputable def axisAngle2R (a : ℝ) (e : V3) : M3 :=
  if a < 1 / 10 ^ 12 then 1 else rodrigues a e

/-- `axisAngle2R(x, y, z)`, `axisAngle2R(Vector3d)` (122-133) -/
noncomputable def axisAngle2RV (x : V3) : M3 :=
  let a := √(x 0 * x 0 + x 1 * x 1 + x 2 * x 2)
  if a < 1 / 10 ^ 12 then 1
  else
    let d := 1 / a
    axisAngle2R a ![x 0 * d, x 1 * d, x 2 * d]

/-- `R2AxisAngle` (135-141), in terms of the angle and axis that `Eigen::AngleAxis<double>(C)` computes
(Eigen itself is not modelled) -/
def R2AxisAngle (eigenAxis : V3) (eigenAngle : ℝ) : V3 := fun i => eigenAxis i * (-eigenAngle)

/-- `SM_2PI` (rotations.hpp:19) -/
noncomputable def SM_2PI : ℝ := 6.283185307179586

/-- `boost::math::round`: to the nearest integer, halfway cases away from zero -/
noncomputable def boostRound (x : ℝ) : ℤ := if 0 ≤ x then ⌊x + 1 / 2⌋ else ⌈x - 1 / 2⌉

/-- `angleMod` (144-146) -/
noncomputable def angleMod (radians : ℝ) : ℝ := radians - SM_2PI * boostRound (radians / SM_2PI)

/-- `deg2rad` (147-149); `SM_DEG2RAD` (rotations.hpp:20) -/
noncomputable def deg2rad (degrees : ℝ) : ℝ := degrees * 0.017453292519943

/-- `rad2deg` (150-152); `SM_RAD2DEG` (rotations.hpp:21) -/
noncomputable def rad2deg (radians : ℝ) : ℝ := radians * 57.295779513082323

/-- `Cx`, `Cy`, `Cz` (155-166) -/
noncomputable def Cx (a : ℝ) : M3 := Rx (-a)
noncomputable def Cy (a : ℝ) : M3 := Ry (-a)
noncomputable def Cz (a : ℝ) : M3 := Rz (-a)

/-- `rph2C` (168-188) -/
noncomputable def rph2C (x y z : ℝ) : M3 := rph2R (-x) (-y) (-z)

/-- `C2rph` (190-213) -/
noncomputable def C2rph (C : M3) : V3 :=
  ![atan2 (-C 2 1) (C 2 2), Real.arcsin (C 2 0), atan2 (-C 1 0) (C 0 0)]

end Verif.Kinematics
