import Verif.Kinematics.UncertainTransfProps

/-!
# C68, C59: the values of the operations on uncertain points, the covariance of the two-variance constructors
-/

namespace Verif.Kinematics

open Matrix

/-- **C68** The value of every sum and difference, with either operand uncertain or not, is the sum or difference of the
Euclidean points; normalising and the constructors keep the point. -/
theorem C68_point_values (P R : UPoint) (r : V4) (x y z : V3) (hP : Represents P.p x) (hR : Represents R.p y)
    (hr : Represents r z) (U : M3) :
    Represents (P.add R).p (x + y) ∧ Represents (P.sub R).p (x - y) ∧ Represents (P.addHP r).p (x + z) ∧
    Represents (P.subHP r).p (x - z) ∧ Represents (UPoint.hpAddU r P).p (z + x) ∧ Represents (UPoint.hpSubU r P).p (z - x) ∧
    Represents P.normalize.p x ∧ Represents (UPoint.ofPoint r).p z ∧ Represents (UPoint.ofU3 x U).p x := by
  have a := C58_arithmetic P.p R.p x y hP hR 1
  have b := C58_arithmetic P.p r x z hP hr 1
  have c := C58_arithmetic r P.p z x hr hP 1
  refine ⟨a.1, a.2.1, b.1, b.2.1, c.1, c.2.1, ?_, hr, ?_⟩
  · have h := a.2.2.2.1
    have e : P.normalize.p = hpNormalize P.p := by
      ext i
      simp [UPoint.normalize, normalizeAndJacobian, hpNormalize, div_eq_mul_inv]
    rw [e]
    exact h
  · refine ⟨?_, ?_, ?_, ?_⟩ <;> simp [UPoint.ofU3, toHomogeneous]

/-- Concrete: two points given with scales 2 and -1. -/
example : Represents ![2, 4, 6, 2] ![1, 2, 3] ∧ Represents ![1, 1, 1, -1] ![-1, -1, -1] := by
  refine ⟨⟨?_, ?_, ?_, ?_⟩, ⟨?_, ?_, ?_, ?_⟩⟩ <;> simp <;> norm_num

/-- **C59** The constructors with a translation variance `tv` and a rotation variance `rv`: in every direction the
variance of the translation part is `tv`, that of the rotation part is `rv`, and the two are uncorrelated. -/
theorem C59_diagonal (tv rv : ℝ) (ρ φ : V3) :
    (Sum.elim ρ φ) ⬝ᵥ (UTransf.diagonal tv rv).mulVec (Sum.elim ρ φ) =
      tv * (ρ 0 ^ 2 + ρ 1 ^ 2 + ρ 2 ^ 2) + rv * (φ 0 ^ 2 + φ 1 ^ 2 + φ 2 ^ 2) ∧
    (Sum.elim ρ 0) ⬝ᵥ (UTransf.diagonal tv rv).mulVec (Sum.elim 0 φ) = 0 := by
  unfold UTransf.diagonal
  constructor
  · simp only [dotProduct, Fintype.sum_sum_type, mulVec_diagonal, Sum.elim_inl, Sum.elim_inr, Fin.sum_univ_three]
    ring
  · simp [dotProduct, Fintype.sum_sum_type, mulVec_diagonal]

end Verif.Kinematics
