import Verif.Kinematics.Uncertain
import Verif.Kinematics.TransfSpec

/-!
# What covariances are and how they propagate, independently of the code
-/

namespace Verif.Kinematics

open Matrix

/-- a covariance matrix: symmetric and positive semidefinite -/
def IsCov {ι : Type} [Fintype ι] (U : Matrix ι ι ℝ) : Prop := U.transpose = U ∧ ∀ x : ι → ℝ, 0 ≤ x ⬝ᵥ U.mulVec x

/-- `U'` is the covariance of `f x` to first order, when `x` has the covariance `U`: `U' = J U Jᵀ` with the
derivative `J` of `f` -/
def Propagates {ι κ : Type} [Fintype ι] (f : (ι → ℝ) → (κ → ℝ)) (x : ι → ℝ) (U : Matrix ι ι ℝ) (U' : Matrix κ κ ℝ) : Prop :=
  ∃ J : Matrix κ ι ℝ, IsJacobian f J x ∧ U' = J * U * J.transpose

/-- the same for two independent arguments -/
def Propagates2 {ι κ μ : Type} [Fintype ι] [Fintype κ] (f : (ι → ℝ) → (κ → ℝ) → (μ → ℝ)) (x : ι → ℝ) (y : κ → ℝ)
    (U : Matrix ι ι ℝ) (V : Matrix κ κ ℝ) (W : Matrix μ μ ℝ) : Prop :=
  ∃ (J : Matrix μ ι ℝ) (K : Matrix μ κ ℝ), IsJacobian (fun x => f x y) J x ∧ IsJacobian (f x) K y ∧
    W = J * U * J.transpose + K * V * K.transpose

/-- an uncertain scalar as a vector with one entry -/
def asVec (x : ℝ) : Fin 1 → ℝ := fun _ => x
def asMat (x : ℝ) : Matrix (Fin 1) (Fin 1) ℝ := fun _ _ => x

/-- the covariance of the perturbation (`PerturbsBy`) of `F T1 T2`, when the perturbations of `T1`, `T2` have the
covariances `U1`, `U2`: `A U1 Aᵀ + B U2 Bᵀ`, where perturbing `T1` by `ξ1` and `T2` by `ξ2` perturbs `F T1 T2` by
`A ξ1 + B ξ2` -/
def PosePropagates2 (F : M4 → M4 → M4) (T1 T2 : M4) (U1 U2 U' : M6) : Prop :=
  ∃ A B : M6, (∀ (c1 c2 : ℝ → M4) (ξ1 ξ2 : V6), c1 0 = T1 → c2 0 = T2 → PerturbsBy c1 ξ1 → PerturbsBy c2 ξ2 →
      PerturbsBy (fun s => F (c1 s) (c2 s)) (A.mulVec ξ1 + B.mulVec ξ2)) ∧
    U' = A * U1 * A.transpose + B * U2 * B.transpose

/-- the covariance of the point `F T p`, when the perturbation of `T` has the covariance `U` and `p` has the
covariance `V` -/
def PosePointPropagates (F : M4 → V4 → V4) (T : M4) (p : V4) (U : M6) (V U' : M4) : Prop :=
  ∃ (A : M46) (B : M4), (∀ (c : ℝ → M4) (ξ : V6) (b : ℝ → V4) (w : V4), c 0 = T → PerturbsBy c ξ → b 0 = p → (∀ i, HasDerivAt (fun s => b s i) (w i) 0) →
      ∀ i, HasDerivAt (fun s => F (c s) (b s) i) ((A.mulVec ξ + B.mulVec w) i) 0) ∧
    U' = A * U * A.transpose + B * V * B.transpose

end Verif.Kinematics
