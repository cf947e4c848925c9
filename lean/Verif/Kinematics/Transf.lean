import Verif.Kinematics.Rot
import Mathlib.Data.Matrix.Block

/-!
# Model of transformations.cpp, homogeneous_coordinates.cpp, HomogeneousPoint.cpp and Transformation.cpp
(sm_kinematics/src)
-/

namespace Verif.Kinematics

/-- a 6-vector from its `head<3>()` and `tail<3>()` -/
def v6 (a b : V3) : V6 := Sum.elim a b

def head3 (x : V6) : V3 := fun i => x (Sum.inl i)
def tail3 (x : V6) : V3 := fun i => x (Sum.inr i)

/-! ## transformations.cpp -/

/-- `rt2Transform` (transformations.cpp:6-17) -/
def rt2Transform (C : M3) (rho : V3) : M4 :=
  !![C 0 0, C 0 1, C 0 2, rho 0;
     C 1 0, C 1 1, C 1 2, rho 1;
     C 2 0, C 2 1, C 2 2, rho 2;
     0, 0, 0, 1]

/-- `transform2C` (19-22): `topLeftCorner<3,3>()` -/
def transform2C (T : M4) : M3 := fun i j => T i.castSucc j.castSucc

/-- `transform2rho` (24-27): `topRightCorner<3,1>()` -/
def transform2rho (T : M4) : V3 := fun i => T i.castSucc 3

/-- `transform2rhoHomogeneous` (29-32): `topRightCorner<4,1>()` -/
def transform2rhoHomogeneous (T : M4) : V4 := fun i => T i 3

/-- `boxPlus` (34-42) -/
def boxPlus (dt : V6) : M4 :=
  let d := head3 dt
  let e := tail3 dt
  !![0, -e 2, e 1, -d 0;
     e 2, 0, -e 0, -d 1;
     -e 1, e 0, 0, -d 2;
     0, 0, 0, 0]

/-- `boxMinus` (45-53), its first three columns and its last three -/
def boxMinus (p : V4) : M46 := fun i j => Sum.elim
  (!![p 3, 0, 0; 0, p 3, 0; 0, 0, p 3; 0, 0, 0] i)
  (!![0, -p 2, p 1; p 2, 0, -p 0; -p 1, p 0, 0; 0, 0, 0] i) j

/-- `inverseTransform` (55-66) -/
def inverseTransform (T : M4) : M4 :=
  rt2Transform (transform2C T).transpose ((-(transform2C T).transpose).mulVec (transform2rho T))

/-- `fromTEuler` (68-74) -/
noncomputable def fromTEuler (T : M4) : V6 := v6 (transform2rho T) (-R2rph (transform2C T))

/-- `toTEuler(dt)` (76-86), and with six numbers (88-101) -/
noncomputable def toTEuler (dt : V6) : M4 :=
  rt2Transform (rph2R (-tail3 dt 0) (-tail3 dt 1) (-tail3 dt 2)) (head3 dt)

/-- `transformationAndJacobian` (103-112): the point and the 4×6 matrix -/
def transformationAndJacobian (T : M4) (v : V4) : V4 × M46 := (T.mulVec v, boxMinus (T.mulVec v))

/-- rows 0-2 from a 3×3 left half and a 3×3 right half, row 3 zero -/
def rows3 (A B : M3) : M46 := fun i j => Fin.lastCases 0 (fun k => Sum.elim (A k) (B k) j) i

/-- the first three entries of a 4-vector, `head<3>()` -/
def headV (v : V4) : V3 := ![v 0, v 1, v 2]

/-- `inverseTransformationAndJacobian` (114-130) -/
def inverseTransformationAndJacobian (T : M4) (v : V4) : V4 × M46 :=
  let Ti := inverseTransform T
  (Ti.mulVec v, rows3 ((-v 3) • transform2C Ti) (-transform2C Ti * crossMx (headV v)))

/-- `boxTimes` (132-142) -/
def boxTimes (T : M4) : M6 :=
  Matrix.fromBlocks (transform2C T) (-crossMx (transform2rho T) * transform2C T) 0 (transform2C T)

/-! ## homogeneous_coordinates.cpp -/

/-- `toHomogeneous` (homogeneous_coordinates.cpp:11-18) -/
def toHomogeneous (v : V3) : V4 := ![v 0, v 1, v 2, 1]

/-- `toHomogeneousJacobian` (6-9): Eigen's 4×3 `Identity()` -/
def toHomogeneousJacobian (_ : V3) : M43 := !![1, 0, 0; 0, 1, 0; 0, 0, 1; 0, 0, 0]

/-- `fromHomogeneous` (29-43), the point -/
noncomputable def fromHomogeneous (v : V4) : V3 :=
  let rv3 := 1 / v 3
  ![v 0 * rv3, v 1 * rv3, v 2 * rv3]

/-- `fromHomogeneous` (29-43), the Jacobian; `fromHomogeneousJacobian` (20-27) -/
noncomputable def fromHomogeneousJacobian (v : V4) : M34 :=
  let rv3 := 1 / v 3
  let v3 := fromHomogeneous v
  !![rv3, 0, 0, -v3 0 * rv3;
     0, rv3, 0, -v3 1 * rv3;
     0, 0, rv3, -v3 2 * rv3]

/-- `toHomogeneousColumns` (46-51): a row of ones below -/
def toHomogeneousColumns {m n : Nat} (M : Matrix (Fin m) (Fin n) ℝ) : Matrix (Fin (m + 1)) (Fin n) ℝ :=
  fun i j => Fin.lastCases 1 (fun k => M k j) i

/-- `fromHomogeneousColumns` (53-67) for at least one row (an assertion of debug builds asks for two) -/
noncomputable def fromHomogeneousColumns {m n : Nat} (M : Matrix (Fin (m + 1)) (Fin n) ℝ) : Matrix (Fin m) (Fin n) ℝ :=
  fun i j => M i.castSucc j * (1 / M (Fin.last m) j)

/-- `toHomogeneousPlus` (71-82) -/
def toHomogeneousPlus (p : V4) : M4 :=
  !![p 3, 0, 0, p 0;
     0, p 3, 0, p 1;
     0, 0, p 3, p 2;
     0, 0, 0, p 3]

/-- `toHomogeneousMinus` (86-96) -/
def toHomogeneousMinus (p : V4) : M4 :=
  !![p 3, 0, 0, -p 0;
     0, p 3, 0, -p 1;
     0, 0, p 3, -p 2;
     0, 0, 0, p 3]

/-- `normalize<N>` (homogeneous_coordinates.hpp:19-23) -/
noncomputable def normalizeN {n : Nat} (v : Fin n → ℝ) : Fin n → ℝ := fun i => v i / norm v

/-- `normalizeAndJacobian<N>` (homogeneous_coordinates.hpp:25-33): the vector and the matrix -/
noncomputable def normalizeAndJacobian {n : Nat} (v : Fin n → ℝ) : (Fin n → ℝ) × Matrix (Fin n) (Fin n) ℝ :=
  let r := 1 / norm v
  (fun i => v i * r, r • (1 : Matrix (Fin n) (Fin n) ℝ) - (r * r * r) • Matrix.vecMulVec v v)

/-! ## HomogeneousPoint.cpp

A `HomogeneousPoint` is its only field `_ph`, a `V4`. -/

/-- the constructors (HomogeneousPoint.cpp:10-29), `operator=` (72-86): `toHomogeneous v` from a 3-vector, the
4-vector itself otherwise; `setZero` (203-207) -/
def hpZero : V4 := ![0, 0, 0, 1]

/-- `operator+` (39-46) -/
def hpAdd (p r : V4) : V4 := ![p 0 * r 3 + r 0 * p 3, p 1 * r 3 + r 1 * p 3, p 2 * r 3 + r 2 * p 3, p 3 * r 3]

/-- `operator-` (91-98) -/
def hpSub (p r : V4) : V4 := ![p 0 * r 3 - r 0 * p 3, p 1 * r 3 - r 1 * p 3, p 2 * r 3 - r 2 * p 3, p 3 * r 3]

/-- `oplus` (104-107) -/
noncomputable def hpOplus (p : V4) (dp : V3) : V4 := updateQuat p dp

/-- `convertToVector` (110-113) -/
def hpConvertToVector (p : V4) : V4 := ![p 0, p 1, p 2, 0]

/-- `normalize` (198-201) -/
noncomputable def hpNormalize (p : V4) : V4 := fun i => p i / norm p

/-- `convertToPoint` (116-121), for points at infinity -/
noncomputable def hpConvertToPoint (p : V4) : V4 :=
  let q := hpNormalize p
  ![q 0, q 1, q 2, 1]

/-- `scale` (124-129) -/
def hpScale (p : V4) (s : ℝ) : V4 := ![p 0 * s, p 1 * s, p 2 * s, p 3]

/-- `toEuclidean` (132-138) -/
noncomputable def hpToEuclidean (p : V4) : V3 :=
  let r := 1 / p 3
  ![p 0 * r, p 1 * r, p 2 * r]

/-- `toHomogeneousAndJacobian` (164-188), the Jacobian -/
noncomputable def hpJacobian (p : V4) : M43 :=
  (1 / 2 : ℝ) • !![p 3, -p 2, p 1;
     p 2, p 3, -p 0;
     -p 1, p 0, p 3;
     -p 0, -p 1, -p 2]

/-- `toEuclideanAndJacobian` (141-155) -/
noncomputable def hpToEuclideanAndJacobian (p : V4) : V3 × M3 :=
  let r := 1 / p 3
  let v3 : V3 := ![p 0 * r, p 1 * r, p 2 * r]
  let Je : M34 := !![r, 0, 0, -v3 0 * r;
                     0, r, 0, -v3 1 * r;
                     0, 0, r, -v3 2 * r]
  (v3, Je * hpJacobian p)

/-- `atInfinity`, `isVector` (209-217) -/
def hpAtInfinity (p : V4) : Prop := p 3 = 0

/-! ## Transformation.cpp -/

/-- the fields `_q_a_b`, `_t_a_b_a` of a `Transformation` -/
structure Transformation where
  q : V4
  t : V3

namespace Transformation

/-- the default constructor (Transformation.cpp:17-21), `setIdentity` (151-155) -/
def identity : Transformation := ⟨quatIdentity, 0⟩

/-- the constructor from a matrix (24-29), `set` (57-61) -/
noncomputable def ofMatrix (T : M4) : Transformation := ⟨r2quat (transform2C T), transform2rho T⟩

/-- the constructor from a quaternion and a translation (31-35); Eigen's `normalize()` divides by the norm -/
noncomputable def mkQT (q : V4) (t : V3) : Transformation := ⟨fun i => q i / norm q, t⟩

/-- `C` (40-43) -/
def C (X : Transformation) : M3 := quat2r X.q

/-- `T` (63-72) -/
def T (X : Transformation) : M4 := rt2Transform (quat2r X.q) X.t

/-- `T3x4` (74-81) -/
def T3x4 (X : Transformation) : M34 := fun i j => Fin.lastCases (X.t i) (fun k => quat2r X.q i k) j

/-- `inverse` (83-87) -/
noncomputable def inverse (X : Transformation) : Transformation :=
  mkQT (quatInv X.q) (quatRotate (quatInv X.q) (-X.t))

/-- `operator*(Transformation)` (95-98) -/
noncomputable def mul (X Y : Transformation) : Transformation :=
  mkQT (qplus X.q Y.q) (quatRotate X.q Y.t + X.t)

/-- `operator*(Vector3d)` (100-103) -/
def mulV3 (X : Transformation) (p : V3) : V3 := quatRotate X.q p + X.t

/-- `operator*(Vector4d)` (105-113) -/
def mulV4 (X : Transformation) (p : V4) : V4 :=
  let h := quatRotate X.q (headV p) + p 3 • X.t
  ![h 0, h 1, h 2, p 3]

/-- `operator*(HomogeneousPoint)` (116-122) -/
def mulHP (X : Transformation) (p : V4) : V4 :=
  let h := quatRotate X.q (headV p) + p 3 • X.t
  ![h 0, h 1, h 2, p 3]

/-- `oplus` (137-141) -/
noncomputable def oplus (X : Transformation) (dt : V6) : Transformation := ⟨updateQuat X.q (tail3 dt), X.t + head3 dt⟩

/-- `S` (143-149) -/
def S (X : Transformation) : M6 := Matrix.fromBlocks 1 (-crossMx X.t) 0 1

/-- `rotate(Vector3d)` (208-211) -/
def rotate (X : Transformation) (p : V3) : V3 := quatRotate X.q p

/-- `rotate(Vector4d)` (214-219) -/
def rotate4 (X : Transformation) (p : V4) : V4 :=
  let h := quatRotate X.q (headV p)
  ![h 0, h 1, h 2, p 3]

/-- `slerpTransformations` (251-257) -/
noncomputable def slerp (T0 T1 : Transformation) (s : ℝ) : Transformation :=
  mkQT (qslerp T0.q T1.q s) (lerp T0.t T1.t s)

/-- `interpolateTransformations` (233-248) after the swap: the call with `s0 ≤ s1` -/
noncomputable def interpolateOrdered (T0 : Transformation) (s0 : ℝ) (T1 : Transformation) (s1 si : ℝ) : Transformation :=
  let ds := max (1 / 10 ^ 14) (s1 - s0)
  slerp T0 T1 ((si - s0) / ds)

/-- `interpolateTransformations` (233-248); the recursive call (239) has its times in order, so it is the last -/
noncomputable def interpolate (T0 : Transformation) (s0 : ℝ) (T1 : Transformation) (s1 si : ℝ) : Transformation :=
  if s0 > s1 then interpolateOrdered T1 s1 T0 s0 si else interpolateOrdered T0 s0 T1 s1 si

end Transformation

end Verif.Kinematics
