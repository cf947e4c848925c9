import Verif.Kinematics.Transf
import Mathlib.LinearAlgebra.Matrix.NonsingularInverse

/-!
# Model of UncertainVector.hpp, UncertainHomogeneousPoint.cpp, UncertainTransformation.cpp and the members of
`Transformation` and `HomogeneousPoint` that return uncertain values (sm_kinematics)
-/

namespace Verif.Kinematics

open Matrix

/-! ## UncertainVector<D> (include/sm/kinematics/implementation/UncertainVector.hpp) -/

/-- the fields `_v`, `_E` of `UncertainVector<D>`, `D ≥ 2`; the constructors (15-34) and setters (63-98) fill them -/
structure UVec (n : Nat) where
  v : Fin n → ℝ
  E : Matrix (Fin n) (Fin n) ℝ

/-- the fields `_v`, `_sigma2` of `UncertainVector<1>` -/
structure UScalar where
  v : ℝ
  E : ℝ

namespace UVec

variable {n : Nat}

/-- the default constructor (15), `setZero` (69-73) -/
def zero : UVec n := ⟨0, 0⟩

/-- the constructor without uncertainty (23) -/
def ofVec (v : Fin n → ℝ) : UVec n := ⟨v, 0⟩

/-- `operator+(UncertainVector<D>)` (102-105) -/
def add (a b : UVec n) : UVec n := ⟨a.v + b.v, a.E + b.E⟩

/-- `operator+(value_t)` (109-113) -/
def addV (a : UVec n) (w : Fin n → ℝ) : UVec n := ⟨a.v + w, a.E⟩

/-- `operator-(UncertainVector<D>)` (117-120) -/
def sub (a b : UVec n) : UVec n := ⟨a.v - b.v, a.E + b.E⟩

/-- `operator-(value_t)` (124-127) -/
def subV (a : UVec n) (w : Fin n → ℝ) : UVec n := ⟨a.v - w, a.E⟩

/-- `operator*(UncertainVector<1>)` (131-134); `UncertainVector<1>::operator*(UncertainVector<DD>)` (368-371) -/
def mulS (a : UVec n) (s : UScalar) : UVec n := ⟨s.v • a.v, s.E • vecMulVec a.v a.v + s.v • s.v • a.E⟩

/-- `operator*(double)` (137-140) -/
def scale (a : UVec n) (s : ℝ) : UVec n := ⟨s • a.v, s • s • a.E⟩

/-- `normalized` (143-149), `normalize` (153-159) -/
noncomputable def normalized (a : UVec n) : UVec n :=
  let r := normalizeAndJacobian a.v
  ⟨r.1, r.2 * a.E * r.2.transpose⟩

/-- `dot(UncertainVector<D>)` (162-165) -/
def dot (a b : UVec n) : UScalar := ⟨a.v ⬝ᵥ b.v, a.v ⬝ᵥ b.E.mulVec a.v + b.v ⬝ᵥ a.E.mulVec b.v⟩

/-- `dot(value_t)` (168-171) -/
def dotV (a : UVec n) (w : Fin n → ℝ) : UScalar := ⟨a.v ⬝ᵥ w, w ⬝ᵥ a.E.mulVec w⟩

/-- `operator*(linear_operator_t, UncertainVector<D>)` (4-7) -/
def mulM (M : Matrix (Fin n) (Fin n) ℝ) (a : UVec n) : UVec n := ⟨M.mulVec a.v, M * a.E * M.transpose⟩

end UVec

namespace UScalar

/-- `dot(UncertainVector<1>)` (291-294), `operator*(UncertainVector<1>)` (306-309) -/
def mul (a b : UScalar) : UScalar := ⟨a.v * b.v, b.v * a.E * b.v + a.v * b.E * a.v⟩

/-- `dot(value_t)` (298-302), `operator*(value_t)` (313-316) -/
def mulC (a : UScalar) (w : ℝ) : UScalar := ⟨a.v * w, w * a.E * w⟩

/-- `operator+` (320-330) -/
def add (a b : UScalar) : UScalar := ⟨a.v + b.v, a.E + b.E⟩
def addC (a : UScalar) (w : ℝ) : UScalar := ⟨a.v + w, a.E⟩

/-- `operator-` (334-344) -/
def sub (a b : UScalar) : UScalar := ⟨a.v - b.v, a.E + b.E⟩
def subC (a : UScalar) (w : ℝ) : UScalar := ⟨a.v - w, a.E⟩

/-- `operator/(UncertainVector<1>)` (348-354) -/
noncomputable def div (a b : UScalar) : UScalar :=
  let dfda := 1 / b.v
  let dfdb := -a.v / (b.v * b.v)
  ⟨a.v / b.v, dfda * a.E * dfda + dfdb * b.E * dfdb⟩

/-- `operator/(value_t)` (358-364) -/
noncomputable def divC (a : UScalar) (w : ℝ) : UScalar :=
  let dfda := 1 / w
  ⟨a.v / w, dfda * a.E * dfda⟩

/-- `operator*(Matrix<double,DD,1>)` (374-377) -/
def mulVec {n : Nat} (a : UScalar) (w : Fin n → ℝ) : UVec n := ⟨a.v • w, a.E • vecMulVec w w⟩

end UScalar

/-! ## UncertainHomogeneousPoint.cpp -/

/-- the fields `_ph` (inherited) and `_U`; the constructors with a 4×4 covariance (48-58), `setU` (121-124) -/
structure UPoint where
  p : V4
  U : M4

namespace UPoint

/-- the constructor from a 3-vector with covariance (39-44) -/
def ofU3 (p : V3) (U3 : M3) : UPoint :=
  ⟨toHomogeneous p, !![U3 0 0, U3 0 1, U3 0 2, 0; U3 1 0, U3 1 1, U3 1 2, 0; U3 2 0, U3 2 1, U3 2 2, 0; 0, 0, 0, 0]⟩

/-- the constructors without uncertainty (10-35) -/
def ofPoint (p : V4) : UPoint := ⟨p, 0⟩

/-- `U3` (103-108) -/
noncomputable def U3 (P : UPoint) : M3 :=
  let J := fromHomogeneousJacobian P.p
  J * P.U * J.transpose

/-- the check `SM_ASSERT_NEAR(…, _ph.norm(), 1.0, 1e-6)` (113, 131), present in every build: outside it the call
throws -/
def nearUnit (p : V4) : Prop := |norm p - 1| ≤ 1 / 10 ^ 6

noncomputable instance (p : V4) : Decidable (nearUnit p) := Classical.propDecidable _

/-- `U_av_form` (111-117); `none` when it throws -/
noncomputable def uAvForm (P : UPoint) : Option M3 :=
  if nearUnit P.p then some (quatS P.p * P.U * (quatS P.p).transpose) else none

/-- `setUOplus` (129-134), also the constructors with a 3×3 covariance of the minimal update (63-77) -/
noncomputable def setUOplus (p : V4) (U : M3) : Option UPoint :=
  if nearUnit p then some ⟨p, quatInvS p * U * (quatInvS p).transpose⟩ else none

/-- `normalize` (145-151) -/
noncomputable def normalize (P : UPoint) : UPoint :=
  let r := normalizeAndJacobian P.p
  ⟨r.1, r.2 * P.U * r.2.transpose⟩

/-- `operator+(HomogeneousPoint)` (157-166) -/
def addHP (P : UPoint) (r : V4) : UPoint := ⟨hpAdd P.p r, P.U⟩

/-- `operator-(HomogeneousPoint)` (171-180) -/
def subHP (P : UPoint) (r : V4) : UPoint := ⟨hpSub P.p r, P.U⟩

/-- `HomogeneousPoint::operator+(UncertainHomogeneousPoint)` (HomogeneousPoint.cpp:48-56) -/
def hpAddU (p : V4) (R : UPoint) : UPoint := ⟨hpAdd p R.p, R.U⟩

/-- `HomogeneousPoint::operator-(UncertainHomogeneousPoint)` (HomogeneousPoint.cpp:62-69) -/
def hpSubU (p : V4) (R : UPoint) : UPoint := ⟨hpSub p R.p, R.U⟩

/-- `operator+(UncertainHomogeneousPoint)` (185-195) -/
def add (P R : UPoint) : UPoint :=
  let PL := toHomogeneousPlus P.p
  let PR := toHomogeneousPlus R.p
  ⟨hpAdd P.p R.p, PR * P.U * PR.transpose + PL * R.U * PL.transpose⟩

/-- `operator-(UncertainHomogeneousPoint)` (200-211); it uses `toHomogeneousPlus` too (206-207) -/
def sub (P R : UPoint) : UPoint :=
  let PL := toHomogeneousPlus P.p
  let PR := toHomogeneousPlus R.p
  ⟨hpSub P.p R.p, PR * P.U * PR.transpose + PL * R.U * PL.transpose⟩

end UPoint

/-! ## UncertainTransformation.cpp -/

/-- the base class and the field `_U`; the constructors with a covariance (14-57), without (75-93, zero), `setU`
(173-176) -/
structure UTransf where
  X : Transformation
  U : M6

namespace UTransf

/-- the covariance of the constructors with two variances (21-31, 41-52, 61-71) -/
def diagonal (tv rv : ℝ) : M6 := Matrix.diagonal (Sum.elim (fun _ => tv) (fun _ => rv))

/-- the matrix `S` of `UOplus` (116-118) and `setUOplus` (183-185) -/
def S (X : Transformation) : M6 := fromBlocks 1 (-crossMx X.t) 0 1

/-- `UOplus` (114-120) -/
noncomputable def uOplus (P : UTransf) : M6 := (S P.X)⁻¹ * P.U * (S P.X).transpose⁻¹

/-- `setUOplus` (180-188) -/
def setUOplus (P : UTransf) (U : M6) : UTransf := ⟨P.X, S P.X * U * (S P.X).transpose⟩

/-- `operator*(UncertainTransformation)` (122-133) -/
noncomputable def mul (P R : UTransf) : UTransf :=
  let B := boxTimes P.X.T
  ⟨P.X.mul R.X, P.U + B * R.U * B.transpose⟩

/-- `inverse` (136-148) -/
noncomputable def inverse (P : UTransf) : UTransf :=
  let B := boxTimes P.X.inverse.T
  ⟨P.X.inverse, B * P.U * B.transpose⟩

/-- `operator*(UncertainHomogeneousPoint)` (191-202) -/
def mulUP (P : UTransf) (p : UPoint) : UPoint :=
  let p0 := P.X.mulV4 p.p
  let J := boxMinus p0
  ⟨p0, J * P.U * J.transpose + P.X.T * p.U * P.X.T.transpose⟩

/-- `operator*(Transformation)` (204-212) -/
noncomputable def mulT (P : UTransf) (Y : Transformation) : UTransf := ⟨P.X.mul Y, P.U⟩

/-- `operator*(HomogeneousPoint)` (214-224) -/
def mulHP (P : UTransf) (p : V4) : UPoint :=
  let p0 := P.X.mulV4 p
  let J := boxMinus p0
  ⟨p0, J * P.U * J.transpose⟩

end UTransf

/-- `Transformation::operator*(UncertainTransformation)` (Transformation.cpp:181-193) -/
noncomputable def Transformation.mulUT (X : Transformation) (P : UTransf) : UTransf :=
  let B := boxTimes X.T
  ⟨X.mul P.X, B * P.U * B.transpose⟩

/-- `Transformation::operator*(UncertainHomogeneousPoint)` (Transformation.cpp:195-205) -/
def Transformation.mulUP (X : Transformation) (p : UPoint) : UPoint :=
  ⟨X.mulV4 p.p, X.T * p.U * X.T.transpose⟩

/-- `Transformation::rotate(UncertainVector3)` (Transformation.cpp:221-229) -/
def Transformation.rotateU (X : Transformation) (p : UVec 3) : UVec 3 :=
  ⟨X.rotate p.v, X.C * p.E * X.C.transpose⟩

end Verif.Kinematics
