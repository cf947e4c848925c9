import Verif.Kinematics.Quat

/-!
# What rotations are, independently of the code
-/

namespace Verif.Kinematics

/-- a unit quaternion (its squared components add up to 1) -/
def IsUnit4 (q : V4) : Prop := q 0 * q 0 + q 1 * q 1 + q 2 * q 2 + q 3 * q 3 = 1

/-- a unit vector -/
def IsUnit3 (v : V3) : Prop := v 0 * v 0 + v 1 * v 1 + v 2 * v 2 = 1

/-- a rotation matrix: orthogonal with determinant 1 -/
def IsRotation (R : M3) : Prop := R * R.transpose = 1 ∧ R.transpose * R = 1 ∧ R.det = 1

/-- the inner product of two vectors -/
def inner {n : Nat} (a b : Fin n → ℝ) : ℝ := ∑ i, a i * b i

/-- `C` is the rotation by the angle `θ` about the unit axis `e`, in the convention of this library
(rotations.cpp:103-107 and quaternion_algebra.cpp:82: *passive*, i.e. the frame turns by `θ`, the coordinates
of a fixed vector by `-θ`): it fixes the axis, and a vector `v` perpendicular to the axis goes to
`cos θ · v - sin θ · (e × v)`.  (This determines `C`: the axis and its complement span space.) -/
def IsRotationAbout (C : M3) (e : V3) (θ : ℝ) : Prop :=
  C.mulVec e = e ∧ ∀ v, inner e v = 0 → C.mulVec v = Real.cos θ • v - Real.sin θ • cross e v

end Verif.Kinematics
