import Verif.Kinematics.Transf
import Mathlib.Analysis.SpecialFunctions.Pow.Real
import Mathlib.Analysis.SpecialFunctions.Trigonometric.Arctan

/-!
# Model of the rotation parametrisations (sm_kinematics/src/EulerAngles*.cpp, EulerRodriguez.cpp, RotationVector.cpp)

The pure virtual interface `RotationalKinematics` has no code.  `parametersToRotationMatrix` can also return the
S-matrix through a pointer: it is then the value of `parametersToSMatrix` (each file does so by calling it or the
same helper with the same arguments; RotationVector.cpp:22 writes the identity in the branch in which
`parametersToSMatrix` returns it, 87-90).
-/

namespace Verif.Kinematics

abbrev M36 := Matrix (Fin 3) (Fin 3 ⊕ Fin 3) ℝ

/-- a 3×6 matrix from its left and right halves -/
def halves (A B : M3) : M36 := fun i j => Sum.elim (A i) (B i) j

/-! ## EulerAnglesYawPitchRoll.cpp -/

/-- `parametersToRotationMatrix` (12-35) -/
noncomputable def yprMatrix (p : V3) : M3 :=
  rphMatrix (Real.cos (p 2)) (Real.sin (p 2)) (Real.cos (p 1)) (Real.sin (p 1)) (Real.cos (p 0)) (Real.sin (p 0))

/-- `rotationMatrixToParameters` (37-49) -/
noncomputable def yprParams (R : M3) : V3 :=
  ![atan2 (R 1 0) (R 0 0), Real.arcsin (-R 2 0), atan2 (R 2 1) (R 2 2)]

/-- `buildSMatrix` (60-69) -/
def yprBuildS (sz cz sy cy : ℝ) : M3 :=
  !![0, sz, -cy * cz;
     0, -cz, -cy * sz;
     -1, 0, sy]

/-- `parametersToSMatrix` (51-58) -/
noncomputable def yprS (p : V3) : M3 :=
  yprBuildS (Real.sin (p 0)) (Real.cos (p 0)) (Real.sin (p 1)) (Real.cos (p 1))

/-- `angularVelocityAndJacobian` (71-96) -/
noncomputable def yprVelocity (p pdot : V3) : V3 × M36 :=
  let cy := Real.cos (p 1)
  let sy := Real.sin (p 1)
  let cz := Real.cos (p 0)
  let sz := Real.sin (p 0)
  let S := yprBuildS sz cz sy cy
  (S.mulVec pdot, halves
    !![cz * pdot 1 + cy * sz * pdot 2, cz * sy * pdot 2, 0;
       sz * pdot 1 - cz * cy * pdot 2, sz * sy * pdot 2, 0;
       0, cy * pdot 2, 0] S)

/-! ## EulerAnglesZYX.cpp -/

/-- `parametersToRotationMatrix` (12-35) -/
noncomputable def zyxMatrix (p : V3) : M3 :=
  rphMatrix (Real.cos (-p 2)) (Real.sin (-p 2)) (Real.cos (-p 1)) (Real.sin (-p 1)) (Real.cos (-p 0)) (Real.sin (-p 0))

/-- `rotationMatrixToParameters` (37-49) -/
noncomputable def zyxParams (R : M3) : V3 :=
  ![-atan2 (R 1 0) (R 0 0), Real.arcsin (R 2 0), -atan2 (R 2 1) (R 2 2)]

/-- `buildSMatrix` (60-69) -/
def zyxBuildS (sz cz sy cy : ℝ) : M3 :=
  !![0, -sz, cy * cz;
     0, cz, cy * sz;
     1, 0, -sy]

/-- `parametersToSMatrix` (51-58) -/
noncomputable def zyxS (p : V3) : M3 :=
  zyxBuildS (Real.sin (-p 0)) (Real.cos (-p 0)) (Real.sin (-p 1)) (Real.cos (-p 1))

/-- `angularVelocityAndJacobian` (71-96) -/
noncomputable def zyxVelocity (p pdot : V3) : V3 × M36 :=
  let cy := Real.cos (-p 1)
  let sy := Real.sin (-p 1)
  let cz := Real.cos (-p 0)
  let sz := Real.sin (-p 0)
  let S := zyxBuildS sz cz sy cy
  (S.mulVec pdot, halves
    !![cz * pdot 1 + cy * sz * pdot 2, cz * sy * pdot 2, 0;
       sz * pdot 1 - cz * cy * pdot 2, sz * sy * pdot 2, 0;
       0, cy * pdot 2, 0] S)

/-! ## EulerAnglesZXY.cpp -/

/-- `parametersToRotationMatrix` (51-65) -/
noncomputable def zxyMatrix (p : V3) : M3 :=
  let cx := Real.cos (p 1)
  let sx := Real.sin (p 1)
  let cy := Real.cos (p 2)
  let sy := Real.sin (p 2)
  let cz := Real.cos (p 0)
  let sz := Real.sin (p 0)
  !![cz * cy - sz * sx * sy, -sz * cx, cz * sy + sz * sx * cy;
     sz * cy + cz * sx * sy, cz * cx, sz * sy - cz * sx * cy;
     -cx * sy, sx, cx * cy]

/-- `rotationMatrixToParameters` (67-74) -/
noncomputable def zxyParams (R : M3) : V3 :=
  let sx := R 2 1
  ![atan2 (-R 0 1) (R 1 1), Real.arcsin sx, atan2 (-R 2 0) (R 2 2)]

/-- `parametersToSMatrix` (76-86) -/
noncomputable def zxyS (p : V3) : M3 :=
  let cx := Real.cos (p 1)
  let sx := Real.sin (p 1)
  let cz := Real.cos (p 0)
  let sz := Real.sin (p 0)
  !![0, -cz, cx * sz;
     0, -sz, -cx * cz;
     -1, 0, -sx]

/-- `angularVelocityAndJacobian` (88-106) -/
noncomputable def zxyVelocity (p pdot : V3) : V3 × M36 :=
  let cx := Real.cos (p 1)
  let sx := Real.sin (p 1)
  let cz := Real.cos (p 0)
  let sz := Real.sin (p 0)
  let S := zxyS p
  (S.mulVec pdot, halves
    !![sz * pdot 1 + cx * cz * pdot 2, -sx * sz * pdot 2, 0;
       -cz * pdot 1 + cx * sz * pdot 2, sx * cz * pdot 2, 0;
       0, -cx * pdot 2, 0] S)

/-! ## EulerRodriguez.cpp -/

/-- `parametersToRotationMatrix` (11-25) -/
noncomputable def erMatrix (p : V3) : M3 :=
  let crossp := crossMx p
  1 + (2 / (1 + sqNorm p)) • (crossp * crossp - crossp)

/-- the vector written in both `rotationMatrixToParameters` (EulerRodriguez.cpp:36-38, RotationVector.cpp:69-71) -/
def skewPart (C : M3) : V3 := ![C 2 1 - C 1 2, C 0 2 - C 2 0, C 1 0 - C 0 1]

/-- `rotationMatrixToParameters` (27-51); over the reals the argument of `acos` is in range for every rotation -/
noncomputable def erParams (C : M3) : V3 :=
  let a := Real.arccos ((C 0 0 + C 1 1 + C 2 2 - 1) * (1 / 2))
  if |a| < 1 / 10 ^ 14 then 0
  else
    let p := skewPart C
    let n2 := norm p
    if n2 < 1 / 10 ^ 14 then 0
    else
      let scale := -Real.tan (1 / 2 * a) / n2
      scale • p

/-- `parametersToSMatrix` (53-60) -/
noncomputable def erS (p : V3) : M3 :=
  let crossp := crossMx p
  (2 / (1 + sqNorm p)) • (1 - crossp)

/-- `angularVelocityAndJacobian` (62-84); `pdot * a.transpose()` is `vecMulVec pdot a` -/
noncomputable def erVelocity (p pdot : V3) : V3 × M36 :=
  let crossp := crossMx p
  let recip := 1 / (1 + sqNorm p)
  let f := 2 * recip
  let S := f • (1 - crossp)
  let a : V3 := (-4 * recip * recip) • p
  (S.mulVec pdot, halves
    (Matrix.vecMulVec pdot a - Matrix.vecMulVec (crossp.mulVec pdot) a + f • crossMx pdot) S)

/-! ## RotationVector.cpp -/

/-- `parametersToRotationMatrix` (10-55) -/
noncomputable def rvMatrix (p : V3) : M3 :=
  let angle := norm p
  if angle < 1 / 10 ^ 14 then 1
  else
    let recip := 1 / angle
    let axis : V3 := fun i => p i * recip
    rodrigues angle axis

/-- `rotationMatrixToParameters` (57-80) -/
noncomputable def rvParams (C : M3) : V3 :=
  let tr := max (-1) (min ((C 0 0 + C 1 1 + C 2 2 - 1) * (1 / 2)) 1)
  let a := Real.arccos tr
  if |a| < 1 / 10 ^ 14 then 0
  else
    let p := skewPart C
    let n2 := norm p
    if |n2| < 1 / 10 ^ 14 then 0
    else
      let scale := -a / n2
      scale • p

/-- `parametersToSMatrix` (82-106) -/
noncomputable def rvS (p : V3) : M3 :=
  let angle := norm p
  if angle < 1 / 10 ^ 14 then 1
  else
    let recip := 1 / angle
    let axis : V3 := fun i => p i * recip
    let st2 := Real.sin (angle * (1 / 2))
    let st := Real.sin angle
    let c1 := -2 * st2 * st2 * recip
    let c2 := (angle - st) * recip
    let crossA := crossMx axis
    1 + c1 • crossA + c2 • crossA * crossA

/-- the left half of the Jacobian of `angularVelocityAndJacobian` (109-183), generated from the text of the C++
expressions, in terms of `t8 = |p|²` (136), `t9 = t8^(3/2)` (137), `t10 = √t8`, `t11`, `t12` its sine and cosine
(138-140), `t15 = t8^(-5/2)` (143) -/
noncomputable def rvLeft (t1 t2 t3 dt1 dt2 dt3 t8 t9 t10 t11 t12 t15 : ℝ) : M3 :=
  let t5 := t1 * t1
  let t6 := t2 * t2
  let t7 := t3 * t3
  let t13 := t12 * (1 / 2)
  let t14 := t13 - 1 / 2
  let t16 := dt3 * t14 * t9 * 2
  let t17 := dt3 * t1 * t11 * t2 * t3 * 3
  let t18 := dt3 * t3 * t9
  let t19 := dt1 * t1 * t10 * t6 * 2
  let t20 := dt2 * t11 * t2 * t5 * 3
  let t21 := dt1 * t1 * t10 * t12 * t6
  let t22 := dt2 * t14 * t9 * 2
  let t23 := dt2 * t1 * t10 * t2 * t3 * 2
  let t24 := dt2 * t1 * t10 * t12 * t2 * t3
  let t25 := dt1 * t14 * t9 * 2
  let t26 := dt1 * t1 * t11 * t2 * t3 * 3
  let t27 := dt1 * t1 * t9
  let t28 := dt2 * t2 * t9
  let t29 := dt1 * t1 * t10 * t7 * 2
  let t30 := dt2 * t10 * t2 * t7 * 2
  let t31 := dt3 * t11 * t3 * t5 * 3
  let t32 := dt3 * t11 * t3 * t6 * 3
  let t33 := dt2 * t1 * t11 * t3 * t8
  let t34 := dt2 * t1 * t10 * t14 * t3 * 4
  let t35 := dt1 * t1 * t10 * t12 * t7
  let t36 := dt2 * t10 * t12 * t2 * t7
  let t0 := t15 * (t18 + t19 + t20 + t21 + t28 + t29 + t31 + t33 + t34 + t35 - dt1 * t1 * t11 * t6 * 3 -
        dt2 * t10 * t2 * t5 * 2 - dt1 * t1 * t11 * t7 * 3 - dt3 * t10 * t3 * t5 * 2 - dt2 * t11 * t2 * t8 -
        dt3 * t11 * t3 * t8 - dt3 * t1 * t10 * t14 * t2 * 4 - dt2 * t10 * t12 * t2 * t5 -
        dt3 * t10 * t12 * t3 * t5 - dt3 * t1 * t11 * t2 * t8)
  !![t0,
     t15 * (t16 + t17 + dt2 * t1 * t9 - dt1 * t2 * t9 * 2 - dt2 * t1 * t10 * t6 * 2 + dt2 * t1 * t11 * t6 * 3 -
        dt3 * t10 * t14 * t6 * 4 + dt1 * t10 * t2 * t6 * 2 - dt1 * t11 * t2 * t6 * 3 + dt1 * t10 * t2 * t7 * 2 -
        dt1 * t11 * t2 * t7 * 3 - dt2 * t1 * t11 * t8 + dt1 * t11 * t2 * t8 * 2 - dt3 * t11 * t6 * t8 -
        dt3 * t1 * t10 * t2 * t3 * 2 + dt2 * t10 * t14 * t2 * t3 * 4 - dt2 * t1 * t10 * t12 * t6 +
        dt1 * t10 * t12 * t2 * t6 + dt1 * t10 * t12 * t2 * t7 + dt2 * t11 * t2 * t3 * t8 -
        dt3 * t1 * t10 * t12 * t2 * t3),
     -t15 * (t22 + t23 + t24 - dt3 * t1 * t9 + dt1 * t3 * t9 * 2 + dt3 * t1 * t10 * t7 * 2 -
        dt3 * t1 * t11 * t7 * 3 - dt2 * t10 * t14 * t7 * 4 - dt1 * t10 * t3 * t6 * 2 + dt1 * t11 * t3 * t6 * 3 +
        dt3 * t1 * t11 * t8 - dt1 * t10 * t3 * t7 * 2 + dt1 * t11 * t3 * t7 * 3 - dt1 * t11 * t3 * t8 * 2 -
        dt2 * t11 * t7 * t8 - dt2 * t1 * t11 * t2 * t3 * 3 + dt3 * t10 * t14 * t2 * t3 * 4 +
        dt3 * t1 * t10 * t12 * t7 - dt1 * t10 * t12 * t3 * t6 - dt1 * t10 * t12 * t3 * t7 + dt3 * t11 * t2 * t3 * t8);
     -t15 * (t16 - t17 + dt2 * t1 * t9 * 2 - dt1 * t2 * t9 - dt2 * t1 * t10 * t5 * 2 + dt2 * t1 * t11 * t5 * 3 -
        dt3 * t10 * t14 * t5 * 4 + dt1 * t10 * t2 * t5 * 2 - dt1 * t11 * t2 * t5 * 3 - dt2 * t1 * t10 * t7 * 2 +
        dt2 * t1 * t11 * t7 * 3 - dt2 * t1 * t11 * t8 * 2 + dt1 * t11 * t2 * t8 - dt3 * t11 * t5 * t8 +
        dt1 * t1 * t10 * t14 * t3 * 4 + dt3 * t1 * t10 * t2 * t3 * 2 - dt2 * t1 * t10 * t12 * t5 +
        dt1 * t10 * t12 * t2 * t5 - dt2 * t1 * t10 * t12 * t7 + dt1 * t1 * t11 * t3 * t8 +
        dt3 * t1 * t10 * t12 * t2 * t3),
     t15 * (t18 - t19 - t20 - t21 + t27 + t30 + t32 + t36 + dt1 * t1 * t11 * t6 * 3 + dt2 * t10 * t2 * t5 * 2 -
        dt1 * t1 * t11 * t8 - dt2 * t11 * t2 * t7 * 3 - dt3 * t10 * t3 * t6 * 2 - dt3 * t11 * t3 * t8 +
        dt3 * t1 * t10 * t14 * t2 * 4 - dt1 * t10 * t14 * t2 * t3 * 4 + dt2 * t10 * t12 * t2 * t5 -
        dt3 * t10 * t12 * t3 * t6 + dt3 * t1 * t11 * t2 * t8 - dt1 * t11 * t2 * t3 * t8),
     t15 * (t25 + t26 + dt3 * t2 * t9 - dt2 * t3 * t9 * 2 + dt2 * t10 * t3 * t5 * 2 - dt2 * t11 * t3 * t5 * 3 -
        dt1 * t10 * t14 * t7 * 4 - dt3 * t10 * t2 * t7 * 2 + dt3 * t11 * t2 * t7 * 3 + dt2 * t10 * t3 * t7 * 2 -
        dt2 * t11 * t3 * t7 * 3 - dt3 * t11 * t2 * t8 + dt2 * t11 * t3 * t8 * 2 - dt1 * t11 * t7 * t8 +
        dt3 * t1 * t10 * t14 * t3 * 4 - dt1 * t1 * t10 * t2 * t3 * 2 + dt2 * t10 * t12 * t3 * t5 -
        dt3 * t10 * t12 * t2 * t7 + dt2 * t10 * t12 * t3 * t7 + dt3 * t1 * t11 * t3 * t8 -
        dt1 * t1 * t10 * t12 * t2 * t3);
     t15 * (t22 - t23 - t24 - dt3 * t1 * t9 * 2 + dt1 * t3 * t9 + dt3 * t1 * t10 * t5 * 2 -
        dt3 * t1 * t11 * t5 * 3 - dt2 * t10 * t14 * t5 * 4 + dt3 * t1 * t10 * t6 * 2 - dt3 * t1 * t11 * t6 * 3 -
        dt1 * t10 * t3 * t5 * 2 + dt1 * t11 * t3 * t5 * 3 + dt3 * t1 * t11 * t8 * 2 - dt1 * t11 * t3 * t8 -
        dt2 * t11 * t5 * t8 + dt1 * t1 * t10 * t14 * t2 * 4 + dt2 * t1 * t11 * t2 * t3 * 3 +
        dt3 * t1 * t10 * t12 * t5 + dt3 * t1 * t10 * t12 * t6 - dt1 * t10 * t12 * t3 * t5 + dt1 * t1 * t11 * t2 * t8),
     -t15 * (t25 - t26 + dt3 * t2 * t9 * 2 - dt2 * t3 * t9 - dt3 * t10 * t2 * t5 * 2 + dt3 * t11 * t2 * t5 * 3 -
        dt1 * t10 * t14 * t6 * 4 - dt3 * t10 * t2 * t6 * 2 + dt3 * t11 * t2 * t6 * 3 + dt2 * t10 * t3 * t6 * 2 -
        dt2 * t11 * t3 * t6 * 3 - dt3 * t11 * t2 * t8 * 2 + dt2 * t11 * t3 * t8 - dt1 * t11 * t6 * t8 +
        dt2 * t1 * t10 * t14 * t2 * 4 + dt1 * t1 * t10 * t2 * t3 * 2 - dt3 * t10 * t12 * t2 * t5 -
        dt3 * t10 * t12 * t2 * t6 + dt2 * t10 * t12 * t3 * t6 + dt2 * t1 * t11 * t2 * t8 +
        dt1 * t1 * t10 * t12 * t2 * t3),
     t15 * (t27 + t28 - t29 - t30 - t31 - t32 - t33 - t34 - t35 - t36 + dt1 * t1 * t11 * t7 * 3 +
        dt3 * t10 * t3 * t5 * 2 - dt1 * t1 * t11 * t8 + dt2 * t11 * t2 * t7 * 3 + dt3 * t10 * t3 * t6 * 2 -
        dt2 * t11 * t2 * t8 + dt1 * t10 * t14 * t2 * t3 * 4 + dt3 * t10 * t12 * t3 * t5 +
        dt3 * t10 * t12 * t3 * t6 + dt1 * t11 * t2 * t3 * t8)]

/-- `angularVelocityAndJacobian` (109-183) -/
noncomputable def rvVelocity (p pdot : V3) : V3 × M36 :=
  let S := rvS p
  let t8 := p 0 * p 0 + p 1 * p 1 + p 2 * p 2
  let t10 := √t8
  (S.mulVec pdot, halves
    (rvLeft (p 0) (p 1) (p 2) (pdot 0) (pdot 1) (pdot 2) t8 (t8 ^ (3 / 2 : ℝ)) t10 (Real.sin t10) (Real.cos t10)
      (1 / t8 ^ (5 / 2 : ℝ))) S)

/-- `parametersToInverseSMatrix` (186-201) -/
noncomputable def rvInvS (p : V3) : M3 :=
  let phi := √(inner3 p)
  if phi = 0 then 1
  else
    let cot := -Real.sin phi / (Real.cos phi - 1)
    let a1 := 1 / (phi * phi) * (1 - 1 / 2 * phi * cot)
    1 + (1 / 2 : ℝ) • crossMx p + a1 • crossMx p * crossMx p
where
  /-- `parameters.transpose()*parameters` -/
  inner3 (p : V3) : ℝ := p 0 * p 0 + p 1 * p 1 + p 2 * p 2

end Verif.Kinematics
