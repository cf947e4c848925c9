import Verif.Kinematics.TransfSpec
import Verif.Kinematics.RotProps
import Mathlib.Analysis.Calculus.Deriv.Mul
import Mathlib.Analysis.Calculus.Deriv.Inv
import Mathlib.Analysis.Calculus.Deriv.Add
import Mathlib.Analysis.Calculus.Deriv.Prod
import Mathlib.Analysis.Calculus.Deriv.Pi
import Mathlib.Analysis.SpecialFunctions.Trigonometric.Deriv
import Mathlib.Analysis.SpecialFunctions.Sqrt
import Mathlib.Analysis.SpecialFunctions.Trigonometric.Bounds

/-!
# Derivatives along curves
-/

namespace Verif.Kinematics

open Matrix

theorem hasDerivAt_of_bound {f g : ℝ → ℝ} (hg : HasDerivAt g 0 0) (hg0 : g 0 = 0)
    (h : ∀ s, |f s - f 0| ≤ g s) : HasDerivAt f 0 0 := by
  rw [hasDerivAt_iff_isLittleO] at hg ⊢
  refine Asymptotics.IsBigO.trans_isLittleO (Asymptotics.IsBigO.of_bound 1 ?_) hg
  filter_upwards with s
  simp only [smul_eq_mul, mul_zero, sub_zero, one_mul, Real.norm_eq_abs, hg0]
  exact (h s).trans (le_abs_self _)

/-- the same when the bound holds near 0 -/
theorem hasDerivAt_of_bound_near {f g : ℝ → ℝ} (hg : HasDerivAt g 0 0) (hg0 : g 0 = 0)
    (h : ∀ᶠ s in nhds 0, |f s - f 0| ≤ g s) : HasDerivAt f 0 0 := by
  rw [hasDerivAt_iff_isLittleO] at hg ⊢
  refine Asymptotics.IsBigO.trans_isLittleO (Asymptotics.IsBigO.of_bound 1 ?_) hg
  filter_upwards [h] with s h
  simp only [smul_eq_mul, mul_zero, sub_zero, one_mul, Real.norm_eq_abs, hg0]
  exact h.trans (le_abs_self _)

theorem norm_mul_self {n : Nat} (v : Fin n → ℝ) : norm v * norm v = sqNorm v :=
  Real.mul_self_sqrt (Finset.sum_nonneg fun i _ => mul_self_nonneg _)

theorem deriv_sqNorm {n : Nat} {c : ℝ → Fin n → ℝ} {v : Fin n → ℝ} {x : ℝ} (h : ∀ i, HasDerivAt (fun s => c s i) (v i) x) :
    HasDerivAt (fun s => sqNorm (c s)) (2 * inner (c x) v) x := by
  have := HasDerivAt.fun_sum (u := Finset.univ) (fun i _ => (h i).fun_mul (h i))
  unfold sqNorm
  refine this.congr_deriv ?_
  unfold inner
  rw [Finset.mul_sum]
  exact Finset.sum_congr rfl fun i _ => by ring

theorem deriv_norm {n : Nat} {c : ℝ → Fin n → ℝ} {v : Fin n → ℝ} {x : ℝ} (h : ∀ i, HasDerivAt (fun s => c s i) (v i) x)
    (hx : norm (c x) ≠ 0) : HasDerivAt (fun s => norm (c s)) (inner (c x) v / norm (c x)) x := by
  have hs : sqNorm (c x) ≠ 0 := by rw [← norm_mul_self]; exact mul_ne_zero hx hx
  have := (deriv_sqNorm h).sqrt hs
  unfold norm at hx ⊢
  refine this.congr_deriv ?_
  field_simp

/-- near a point of a curve through a vector of norm below 1/8192, the norm stays below -/
theorem small_near {n : Nat} {c : ℝ → Fin n → ℝ} {v : Fin n → ℝ} {x : ℝ} (h : ∀ i, HasDerivAt (fun s => c s i) (v i) x)
    (hx : isSmall (norm (c x))) : ∀ᶠ s in nhds x, isSmall (norm (c s)) := by
  have hc : ContinuousAt (fun s => norm (c s)) x :=
    Real.continuous_sqrt.continuousAt.comp (deriv_sqNorm h).continuousAt
  exact hc.eventually_lt continuousAt_const hx

theorem large_near {n : Nat} {c : ℝ → Fin n → ℝ} {v : Fin n → ℝ} {x : ℝ} (h : ∀ i, HasDerivAt (fun s => c s i) (v i) x)
    (hx : 1 / 8192 < norm (c x)) : ∀ᶠ s in nhds x, ¬ isSmall (norm (c s)) := by
  have hc : ContinuousAt (fun s => norm (c s)) x :=
    Real.continuous_sqrt.continuousAt.comp (deriv_sqNorm h).continuousAt
  filter_upwards [hc.eventually_const_lt hx] with s hs
  exact not_lt.2 (le_of_lt hs)

theorem inner_zero_left {n : Nat} (v : Fin n → ℝ) : inner 0 v = 0 := by simp [inner]

/-- `axisAngle2quat` near 0, to first order -/
theorem deriv_axisAngle2quat_zero {c : ℝ → V3} {v : V3} (h0 : c 0 = 0) (h : ∀ i, HasDerivAt (fun s => c s i) (v i) 0) :
    (∀ i : Fin 3, HasDerivAt (fun s => axisAngle2quat (c s) i.castSucc) (v i / 2) 0) ∧
    HasDerivAt (fun s => axisAngle2quat (c s) 3) 0 0 := by
  have hsq := deriv_sqNorm h
  rw [h0, inner_zero_left, mul_zero] at hsq
  have hsq0 : sqNorm (c 0) = 0 := by rw [h0]; simp [sqNorm]
  have hn0 : norm (c 0) = 0 := by unfold norm; rw [hsq0, Real.sqrt_zero]
  have hsmall := small_near h (by rw [hn0]; unfold isSmall; norm_num)
  constructor
  · intro i
    have hd : HasDerivAt (fun s => c s i * (1 / 2 + sqNorm (c s) * (1 / 48))) (v i / 2) 0 := by
      refine ((h i).fun_mul ((hsq.mul_const (1 / 48)).const_add (1 / 2))).congr_deriv ?_
      simp [hsq0]
      ring
    refine hd.congr_of_eventuallyEq ?_
    filter_upwards [hsmall] with s hs
    have hc : ∀ i : Fin 3, axisAngle2quat (c s) i.castSucc = c s i * (1 / 2 + sqNorm (c s) * (1 / 48)) := by
      intro i
      unfold axisAngle2quat
      simp only [if_pos hs, norm_mul_self]
      fin_cases i <;> simp
    exact hc i
  · have e : ∀ s, axisAngle2quat (c s) 3 = Real.cos (norm (c s) * (1 / 2)) := fun s => by simp [axisAngle2quat]
    simp only [e]
    refine hasDerivAt_of_bound hsq hsq0 fun s => ?_
    rw [hn0, zero_mul, Real.cos_zero, abs_sub_comm, abs_of_nonneg (by linarith [Real.cos_le_one (norm (c s) * (1 / 2))])]
    have := Real.one_sub_sq_div_two_le_cos (x := norm (c s) * (1 / 2))
    have hn := norm_mul_self (c s)
    have hp : 0 ≤ sqNorm (c s) := Finset.sum_nonneg fun i _ => mul_self_nonneg _
    nlinarith

/-- `updateQuat` by a small vector, to first order: the matrix of `quatJacobian` -/
theorem deriv_updateQuat (q : V4) {c : ℝ → V3} {v : V3} (h0 : c 0 = 0) (h : ∀ i, HasDerivAt (fun s => c s i) (v i) 0) (k : Fin 4) :
    HasDerivAt (fun s => updateQuat q (c s) k) ((quatJacobian q).mulVec v k) 0 := by
  obtain ⟨hd, h3⟩ := deriv_axisAngle2quat_zero h0 h
  have d0 : HasDerivAt (fun s => axisAngle2quat (c s) 0) (v 0 / 2) 0 := hd 0
  have d1 : HasDerivAt (fun s => axisAngle2quat (c s) 1) (v 1 / 2) 0 := hd 1
  have d2 : HasDerivAt (fun s => axisAngle2quat (c s) 2) (v 2 / 2) 0 := hd 2
  rw [mv3]
  fin_cases k <;> simp only [updateQuat, quatJacobian]
  · refine ((((h3.const_mul (q 0)).fun_add (d0.mul_const (q 3))).fun_sub (d1.mul_const (q 2))).fun_add (d2.mul_const (q 1))).congr_deriv ?_
    simp; ring
  · refine ((((h3.const_mul (q 1)).fun_add (d0.mul_const (q 2))).fun_add (d1.mul_const (q 3))).fun_sub (d2.mul_const (q 0))).congr_deriv ?_
    simp; ring
  · refine ((((h3.const_mul (q 2)).fun_sub (d0.mul_const (q 1))).fun_add (d1.mul_const (q 0))).fun_add (d2.mul_const (q 3))).congr_deriv ?_
    simp; ring
  · refine ((((h3.const_mul (q 3)).fun_sub (d0.mul_const (q 0))).fun_sub (d1.mul_const (q 1))).fun_sub (d2.mul_const (q 2))).congr_deriv ?_
    simp; ring

end Verif.Kinematics
