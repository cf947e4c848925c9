import Verif.Kinematics.Transf
import Verif.Kinematics.Spec
import Mathlib.Analysis.Calculus.Deriv.Basic

/-!
# What rigid transformations are, independently of the code
-/

namespace Verif.Kinematics

/-- the matrix of a rigid transformation: a rotation in the upper left corner, last row `0 0 0 1` -/
def IsRigid (T : M4) : Prop :=
  IsRotation (fun i j : Fin 3 => T i.castSucc j.castSucc) ∧ T 3 0 = 0 ∧ T 3 1 = 0 ∧ T 3 2 = 0 ∧ T 3 3 = 1

/-- the transformations a user can make: by the constructors (from the matrix of a rigid transformation, or a
non-zero quaternion), by composition, inversion, interpolation -/
inductive Built : Transformation → Prop
  | identity : Built .identity
  | ofMatrix (T : M4) : IsRigid T → Built (.ofMatrix T)
  | mkQT (q : V4) (t : V3) : q ≠ 0 → Built (.mkQT q t)
  | mul (X Y : Transformation) : Built X → Built Y → Built (X.mul Y)
  | inverse (X : Transformation) : Built X → Built X.inverse
  | slerp (X Y : Transformation) (s : ℝ) : Built X → Built Y → Built (.slerp X Y s)
  | interpolate (X Y : Transformation) (s0 s1 si : ℝ) : Built X → Built Y → Built (.interpolate X s0 Y s1 si)

/-- a finite point written in homogeneous coordinates: all the `(s x, s y, s z, s)` with `s ≠ 0` stand for
`(x, y, z)` -/
def Represents (p : V4) (x : V3) : Prop := p 3 ≠ 0 ∧ p 0 = p 3 * x 0 ∧ p 1 = p 3 * x 1 ∧ p 2 = p 3 * x 2

/-- the matrix `J` is the derivative of `f` at `x`: along every differentiable curve through `x`, `f` moves with
`J` times the velocity of the curve -/
def IsJacobian {ι κ : Type} [Fintype ι] (f : (ι → ℝ) → (κ → ℝ)) (J : Matrix κ ι ℝ) (x : ι → ℝ) : Prop :=
  ∀ (c : ℝ → ι → ℝ) (v : ι → ℝ), c 0 = x → (∀ i, HasDerivAt (fun s => c s i) (v i) 0) →
    ∀ k, HasDerivAt (fun s => f (c s) k) (J.mulVec v k) 0

/-- the infinitesimal rigid motion with translation part `ρ = head` and rotation part `φ = tail`: it moves the
point `(x, 1)` with the velocity `ρ - φ × x` (the passive convention of this library, see `IsRotationAbout`) -/
def twist (ξ : V6) : M4 :=
  !![0, ξ (.inr 2), -ξ (.inr 1), ξ (.inl 0);
     -ξ (.inr 2), 0, ξ (.inr 0), ξ (.inl 1);
     ξ (.inr 1), -ξ (.inr 0), 0, ξ (.inl 2);
     0, 0, 0, 0]

/-- the curve `c` of matrices sets out from `c 0` in the direction of the perturbation `ξ`, applied on the left:
`c s = (1 + s · twist ξ + o(s)) · c 0` -/
def PerturbsBy (c : ℝ → M4) (ξ : V6) : Prop := ∀ i j, HasDerivAt (fun s => c s i j) ((twist ξ * c 0) i j) 0

end Verif.Kinematics
