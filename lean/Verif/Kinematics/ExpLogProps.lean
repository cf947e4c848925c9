import Verif.Kinematics.RotVecProps
import Mathlib.Analysis.SpecialFunctions.Trigonometric.InverseDeriv

/-!
# Property C70: the Jacobians of the quaternion exponential and logarithm
-/

namespace Verif.Kinematics

open Matrix

/-- the tangent matrix `quatOPlus q * quatV` applied to `M y`, in components -/
theorem expJac_apply (q : V4) (M : M3) (w : V3) (k : Fin 4) :
    (quatOPlus q * quatV * M).mulVec w k =
      1 / 2 * ![q 3 * M.mulVec w 0 - q 2 * M.mulVec w 1 + q 1 * M.mulVec w 2,
        q 2 * M.mulVec w 0 + q 3 * M.mulVec w 1 - q 0 * M.mulVec w 2,
        -q 1 * M.mulVec w 0 + q 0 * M.mulVec w 1 + q 3 * M.mulVec w 2,
        -q 0 * M.mulVec w 0 - q 1 * M.mulVec w 1 - q 2 * M.mulVec w 2] k := by
  rw [← Matrix.mulVec_mulVec]
  generalize M.mulVec w = y
  rw [mv3, mm4, mm4, mm4]
  fin_cases k <;> simp [quatOPlus, quatV] <;> ring

/-- `1 - a [v]× + b [v]×²` applied to a vector -/
theorem diffMat_apply (v w : V3) (a b : ℝ) :
    (1 - a • crossMx v + b • (crossMx v * crossMx v)).mulVec w = w - a • cross v w + b • cross v (cross v w) := by
  rw [Matrix.add_mulVec, Matrix.sub_mulVec, Matrix.one_mulVec, Matrix.smul_mulVec, Matrix.smul_mulVec,
    ← Matrix.mulVec_mulVec, crossMx_mulVec, crossMx_mulVec]

theorem expDiffMat_large {v : V3} (h : 1 / 8192 ≤ norm v) :
    expDiffMat v = 1 - (2 * Real.sin (norm v / 2) * Real.sin (norm v / 2) / (norm v * norm v)) • crossMx v +
      ((1 - Real.sin (norm v) / norm v) / (norm v * norm v)) • (crossMx v * crossMx v) := by
  have hpos : 0 < norm v := lt_of_lt_of_le (by norm_num) h
  unfold expDiffMat
  simp only
  have hs : ¬ isSmall |norm v| := by rw [abs_of_pos hpos]; exact not_lt.2 h
  rw [if_neg hpos.ne', if_pos hs, if_pos hs]

/-- C70: for rotation vectors longer than 1/8192, `quatExpJacobian` is the Jacobian of `axisAngle2quat`. -/
theorem C70_exp_jacobian (v : V3) (h : 1 / 8192 < norm v) : IsJacobian axisAngle2quat (quatExpJacobian v) v := by
  rintro c w rfl hc k
  have hpos : 0 < norm (c 0) := lt_trans (by norm_num) h
  have hne := hpos.ne'
  have hn := deriv_norm hc hne
  have hr := deriv_recipNorm hc hne
  have hlarge := large_near hc h
  have hsin := (hn.mul_const (1 / 2)).sin
  have hcos := (hn.mul_const (1 / 2)).cos
  have hq : axisAngle2quat (c 0) = ![c 0 0 * (Real.sin (norm (c 0) * (1 / 2)) / norm (c 0)),
      c 0 1 * (Real.sin (norm (c 0) * (1 / 2)) / norm (c 0)), c 0 2 * (Real.sin (norm (c 0) * (1 / 2)) / norm (c 0)),
      Real.cos (norm (c 0) * (1 / 2))] := by
    unfold axisAngle2quat
    simp only
    rw [if_neg (show ¬ isSmall _ from not_lt.2 h.le)]
  have hnn : norm (c 0) * norm (c 0) = c 0 0 * c 0 0 + c 0 1 * c 0 1 + c 0 2 * c 0 2 := by rw [norm_mul_self, sq3]
  have hin : inner (c 0) w = c 0 0 * w 0 + c 0 1 * w 1 + c 0 2 * w 2 := by
    simp [inner, Fin.sum_univ_succ]; ring
  have htr := trig (norm (c 0) * (1 / 2))
  have hss : Real.sin (norm (c 0)) = 2 * Real.sin (norm (c 0) * (1 / 2)) * Real.cos (norm (c 0) * (1 / 2)) := by
    rw [← Real.sin_two_mul]; congr 1; ring
  unfold quatExpJacobian
  rw [expJac_apply, expDiffMat_large h.le, diffMat_apply, show norm (c 0) / 2 = norm (c 0) * (1 / 2) by ring, hss, hq]
  rw [hin] at hn hr hsin hcos
  have hvec : ∀ i : Fin 3, HasDerivAt (fun s => axisAngle2quat (c s) i.castSucc)
      (w i * (Real.sin (norm (c 0) * (1 / 2)) * (1 / norm (c 0))) + c 0 i *
        (Real.cos (norm (c 0) * (1 / 2)) * ((c 0 0 * w 0 + c 0 1 * w 1 + c 0 2 * w 2) / norm (c 0) * (1 / 2)) * (1 / norm (c 0)) +
          Real.sin (norm (c 0) * (1 / 2)) *
            (-((c 0 0 * w 0 + c 0 1 * w 1 + c 0 2 * w 2) / norm (c 0)) * (1 / norm (c 0)) * (1 / norm (c 0))))) 0 := by
    intro i
    have hd := (hc i).fun_mul (hsin.fun_mul hr)
    refine hd.congr_of_eventuallyEq ?_
    filter_upwards [hlarge] with s hs
    unfold axisAngle2quat
    rw [if_neg hs]
    obtain rfl | rfl | rfl : i = 0 ∨ i = 1 ∨ i = 2 := by fin_cases i <;> simp
    · change c s 0 * (Real.sin (norm (c s) * (1 / 2)) / norm (c s)) = _
      ring
    · change c s 1 * (Real.sin (norm (c s) * (1 / 2)) / norm (c s)) = _
      ring
    · change c s 2 * (Real.sin (norm (c s) * (1 / 2)) / norm (c s)) = _
      ring
  have hsc : HasDerivAt (fun s => axisAngle2quat (c s) 3)
      (-Real.sin (norm (c 0) * (1 / 2)) * ((c 0 0 * w 0 + c 0 1 * w 1 + c 0 2 * w 2) / norm (c 0) * (1 / 2))) 0 := by
    refine hcos.congr_of_eventuallyEq ?_
    filter_upwards with s
    simp [axisAngle2quat]
  clear hn hr hsin hcos hlarge hq hin hss h
  generalize Real.sin (norm (c 0) * (1 / 2)) = S at *
  generalize Real.cos (norm (c 0) * (1 / 2)) = C at *
  generalize norm (c 0) = n at *
  generalize c 0 = x at *
  have hrn : n * (1 / n) = 1 := by field_simp
  obtain rfl | rfl | rfl | rfl : k = 0 ∨ k = 1 ∨ k = 2 ∨ k = 3 := by fin_cases k <;> simp
  · refine (hvec 0).congr_deriv ?_
    simp only [Matrix.cons_val, Pi.add_apply, Pi.sub_apply, Pi.smul_apply, smul_eq_mul, cross0, cross1, cross2]
    clear hvec hsc hc c
    field_simp
    grind
  · refine (hvec 1).congr_deriv ?_
    simp only [Matrix.cons_val, Pi.add_apply, Pi.sub_apply, Pi.smul_apply, smul_eq_mul, cross0, cross1, cross2]
    clear hvec hsc hc c
    field_simp
    grind
  · refine (hvec 2).congr_deriv ?_
    simp only [Matrix.cons_val, Pi.add_apply, Pi.sub_apply, Pi.smul_apply, smul_eq_mul, cross0, cross1, cross2]
    clear hvec hsc hc c
    field_simp
    grind
  · refine hsc.congr_deriv ?_
    simp only [Matrix.cons_val, Pi.add_apply, Pi.sub_apply, Pi.smul_apply, smul_eq_mul, cross0, cross1, cross2]
    clear hvec hsc hc c
    field_simp
    grind

/-- Concrete: a rotation vector of length 5. -/
example : (1 : ℝ) / 8192 < norm ![3, 4, 0] := by
  have : norm ![(3 : ℝ), 4, 0] = 5 := by
    unfold norm; rw [sq3]; simp; rw [show (3 : ℝ) * 3 + 4 * 4 = 5 * 5 by norm_num]; exact Real.sqrt_mul_self (by norm_num)
  rw [this]; norm_num

/-- **C70** At the zero vector the Jacobian is exact, too. -/
theorem C70_exp_jacobian_zero : IsJacobian axisAngle2quat (quatExpJacobian 0) 0 := by
  intro c w h0 hc k
  obtain ⟨hd, h3⟩ := deriv_axisAngle2quat_zero h0 hc
  have hn : norm (0 : V3) = 0 := by unfold norm; rw [sq3]; simp
  have hq : axisAngle2quat 0 = ![0, 0, 0, 1] := by
    unfold axisAngle2quat; simp only [hn]; apply ext4 <;> simp
  have hD : expDiffMat 0 = 1 := by unfold expDiffMat; simp only; rw [if_pos hn]
  unfold quatExpJacobian
  rw [expJac_apply, hD, hq, Matrix.one_mulVec]
  obtain rfl | rfl | rfl | rfl : k = 0 ∨ k = 1 ∨ k = 2 ∨ k = 3 := by fin_cases k <;> simp
  · refine (hd 0).congr_deriv ?_; simp; ring
  · refine (hd 1).congr_deriv ?_; simp; ring
  · refine (hd 2).congr_deriv ?_; simp; ring
  · refine h3.congr_deriv ?_; simp

/-! ## the matrices of the exponential and the logarithm are inverse to each other -/

theorem logDiffMat_large {v : V3} (h : 1 / 8192 ≤ norm v) :
    logDiffMat v = 1 + (1 / 2 : ℝ) • crossMx v +
      ((1 - (1 / 2 * norm v) / Real.tan (1 / 2 * norm v)) / norm v / norm v) • (crossMx v * crossMx v) := by
  have hpos : 0 < norm v := lt_of_lt_of_le (by norm_num) h
  unfold logDiffMat
  simp only
  have hs : ¬ isSmall |norm v| := by rw [abs_of_pos hpos]; exact not_lt.2 h
  rw [if_neg hpos.ne', if_pos hs]

/-- **C70** `expDiffMat` and `logDiffMat` are inverse to each other, at the zero vector and for every vector of length at
least 1/8192 that is not a multiple of 2π (where `expDiffMat` is singular). -/
theorem C70_inverse (v : V3) (h : norm v = 0 ∨ 1 / 8192 ≤ norm v ∧ Real.sin (norm v / 2) ≠ 0) :
    expDiffMat v * logDiffMat v = 1 ∧ logDiffMat v * expDiffMat v = 1 := by
  rcases h with h | ⟨h, hs⟩
  · have e1 : expDiffMat v = 1 := by unfold expDiffMat; simp only; rw [if_pos h]
    have e2 : logDiffMat v = 1 := by unfold logDiffMat; simp only; rw [if_pos h]
    rw [e1, e2]; simp
  · have hpos : 0 < norm v := lt_of_lt_of_le (by norm_num) h
    have hne := hpos.ne'
    have hnn : norm v * norm v = v 0 * v 0 + v 1 * v 1 + v 2 * v 2 := by rw [norm_mul_self, sq3]
    have hsin : Real.sin (norm v) = 2 * Real.sin (norm v / 2) * Real.cos (norm v / 2) := by
      rw [← Real.sin_two_mul]; congr 1; ring
    have htan : (1 / 2 * norm v) / Real.tan (1 / 2 * norm v) =
        norm v / 2 * Real.cos (norm v / 2) / Real.sin (norm v / 2) := by
      rw [show 1 / 2 * norm v = norm v / 2 by ring, Real.tan_eq_sin_div_cos]
      by_cases hc : Real.cos (norm v / 2) = 0
      · simp [hc]
      · field_simp
    have htr := trig (norm v / 2)
    rw [expDiffMat_large h, logDiffMat_large h, htan, hsin, sub_eq_add_neg, ← neg_smul, ← Matrix.smul_mul, ← Matrix.smul_mul]
    generalize Real.sin (norm v / 2) = S at *
    generalize Real.cos (norm v / 2) = C at *
    generalize norm v = n at *
    constructor
    · refine crossMx_poly v n _ _ _ _ hnn ?_ ?_
      · field_simp; ring
      · field_simp; linear_combination (-2 * n * S) * htr
    · refine crossMx_poly v n _ _ _ _ hnn ?_ ?_
      · field_simp; ring
      · field_simp; linear_combination (-2 * n * S) * htr

/-- Concrete: a vector of length 1. -/
example : (1 : ℝ) / 8192 ≤ norm ![1, 0, 0] ∧ Real.sin (norm ![(1 : ℝ), 0, 0] / 2) ≠ 0 := by
  rw [norm_axis 1 (by norm_num)]
  refine ⟨by norm_num, (Real.sin_pos_of_pos_of_lt_pi (by norm_num) (by linarith [Real.pi_gt_three])).ne'⟩

/-! ## the logarithm -/

/-- the rotation vector of a unit quaternion: twice the angle `arccos η` along the vector part -/
noncomputable def logFormula (p : V4) : V3 := fun i => qeps p i * (2 * (Real.arccos (p 3) / norm (qeps p)))

theorem log_eq_formula {q : V4} (h : IsUnit4 q) (hn : 1 / 8192 ≤ norm (qeps q)) : quat2AxisAngle q = logFormula q := by
  obtain ⟨φ, h1, h2, hc, _, he⟩ := scale_spec h hn
  rw [he]
  unfold logFormula
  rw [← hc, Real.arccos_cos (by linarith) h2]

theorem deriv_logFormula (p : V4) (hn : norm (qeps p) ≠ 0) (h1 : -1 < p 3) (h2 : p 3 < 1) :
    IsJacobian logFormula (quatLogJacobian p) p := by
  rintro c w rfl hc k
  have hce : ∀ i, HasDerivAt (fun s => qeps (c s) i) (qeps w i) 0 := by
    intro i
    obtain rfl | rfl | rfl : i = 0 ∨ i = 1 ∨ i = 2 := by fin_cases i <;> simp
    · exact hc 0
    · exact hc 1
    · exact hc 2
  have hr := deriv_recipNorm hce hn
  have ha := HasDerivAt.comp (h₂ := Real.arccos) (h := fun s => c s 3) 0
    (Real.hasDerivAt_arccos (ne_of_gt h1) (ne_of_lt h2)) (hc 3)
  have hd := (hce k).fun_mul ((ha.fun_mul hr).const_mul 2)
  have hpos : 0 < norm (qeps (c 0)) := lt_of_le_of_ne (norm_nonneg _) (Ne.symm hn)
  have hw : 0 < 1 - c 0 3 ^ 2 := by nlinarith
  have huw : √(-(c 0 3 * c 0 3 - 1) * norm (qeps (c 0)) * norm (qeps (c 0))) =
      √(1 - c 0 3 ^ 2) * norm (qeps (c 0)) := by
    rw [mul_assoc, Real.sqrt_mul (by nlinarith), Real.sqrt_mul_self hpos.le]
    congr 2; ring
  have hs := Real.sqrt_pos.2 hw
  have hin : inner (qeps (c 0)) (qeps w) = c 0 0 * w 0 + c 0 1 * w 1 + c 0 2 * w 2 := by
    rw [inner3_eq]; simp [qeps]
  have hnn : norm (qeps (c 0)) * norm (qeps (c 0)) = c 0 0 * c 0 0 + c 0 1 * c 0 1 + c 0 2 * c 0 2 := by
    rw [norm_mul_self, sq3]; simp [qeps]
  have hf : (fun s => logFormula (c s) k) = fun s => qeps (c s) k *
      (2 * ((Real.arccos ∘ fun s => c s 3) s * (1 / norm (qeps (c s))))) := by
    funext s; simp [logFormula, div_eq_mul_inv]
  rw [hf]
  refine hd.congr_deriv ?_
  rw [mv4]
  unfold quatLogJacobian
  simp only [huw]
  rw [hin]
  simp only [Function.comp]
  have q0 : qeps (c 0) 0 = c 0 0 := rfl
  have q1 : qeps (c 0) 1 = c 0 1 := rfl
  have q2 : qeps (c 0) 2 = c 0 2 := rfl
  have w0 : qeps w 0 = w 0 := rfl
  have w1 : qeps w 1 = w 1 := rfl
  have w2 : qeps w 2 = w 2 := rfl
  clear hf hd ha hr hce hc huw hin
  generalize √(1 - c 0 3 ^ 2) = r at *
  generalize Real.arccos (c 0 3) = α at *
  generalize norm (qeps (c 0)) = n at *
  obtain rfl | rfl | rfl : k = 0 ∨ k = 1 ∨ k = 2 := by fin_cases k <;> simp
  · rw [q0, w0]; clear q0 q1 q2 w0 w1 w2
    simp
    field_simp
    grind
  · rw [q1, w1]; clear q0 q1 q2 w0 w1 w2
    simp
    field_simp
    grind
  · rw [q2, w2]; clear q0 q1 q2 w0 w1 w2
    simp
    field_simp
    grind

theorem unit_eta {p : V4} (h : IsUnit4 p) (hn : 0 < norm (qeps p)) : -1 < p 3 ∧ p 3 < 1 := by
  have := eps_sq h
  have : p 3 * p 3 < 1 := by nlinarith
  constructor <;> nlinarith

/-- **C70** `quatLogJacobian` is the Jacobian of the logarithm: along every differentiable curve of unit quaternions through
`p`, `quat2AxisAngle` moves with `quatLogJacobian p` times the velocity of the curve — for every unit `p` whose vector part is
longer than 1/8192. -/
theorem C70_log_jacobian (p : V4) (hn : 1 / 8192 < norm (qeps p)) (c : ℝ → V4) (w : V4) (h0 : c 0 = p)
    (hc : ∀ i, HasDerivAt (fun s => c s i) (w i) 0) (hu : ∀ s, IsUnit4 (c s)) (k : Fin 3) :
    HasDerivAt (fun s => quat2AxisAngle (c s) k) ((quatLogJacobian p).mulVec w k) 0 := by
  have hpos : 0 < norm (qeps p) := lt_trans (by norm_num) hn
  obtain ⟨h1, h2⟩ := unit_eta (h0 ▸ hu 0) hpos
  refine (deriv_logFormula p hpos.ne' h1 h2 c w h0 hc k).congr_of_eventuallyEq ?_
  have hce : ∀ i, HasDerivAt (fun s => qeps (c s) i) (qeps w i) 0 := by
    intro i
    obtain rfl | rfl | rfl : i = 0 ∨ i = 1 ∨ i = 2 := by fin_cases i <;> simp
    · exact hc 0
    · exact hc 1
    · exact hc 2
  filter_upwards [large_near hce (by rw [h0]; exact hn)] with s hs
  rw [log_eq_formula (hu s) (not_lt.1 hs)]

/-- **C70** Where the vector part is longer than the scalar part, `quatLogJacobian` is the Jacobian of `quat2AxisAngle` in
all four directions, the ones that change the norm included. -/
theorem C70_log_jacobian_all (p : V4) (h : |p 3| < norm (qeps p)) (h1 : |p 3| < 1) :
    IsJacobian quat2AxisAngle (quatLogJacobian p) p := by
  intro c w h0 hc k
  have hpos : 0 < norm (qeps p) := lt_of_le_of_lt (abs_nonneg _) h
  obtain ⟨h2, h3⟩ := abs_lt.1 h1
  refine (deriv_logFormula p hpos.ne' h2 h3 c w h0 hc k).congr_of_eventuallyEq ?_
  have hce : ∀ i, HasDerivAt (fun s => qeps (c s) i) (qeps w i) 0 := by
    intro i
    obtain rfl | rfl | rfl : i = 0 ∨ i = 1 ∨ i = 2 := by fin_cases i <;> simp
    · exact hc 0
    · exact hc 1
    · exact hc 2
  have hcn : ContinuousAt (fun s => norm (qeps (c s))) 0 :=
    Real.continuous_sqrt.continuousAt.comp (deriv_sqNorm hce).continuousAt
  have hca : ContinuousAt (fun s => |c s 3|) 0 := (hc 3).continuousAt.abs
  have := hca.eventually_lt hcn (by rw [h0]; exact h)
  filter_upwards [this] with s hs
  unfold quat2AxisAngle logFormula
  rw [if_pos (show |qeta (c s)| < norm (qeps (c s)) from hs)]
  rfl

theorem quatLog2_exp (p : V4) (hu : IsUnit4 p) (hn : 1 / 8192 ≤ norm (qeps p)) :
    quatLogJacobian2 p * quatExpJacobian (quat2AxisAngle p) = 1 := by
  have hel := (C54_exp_log_partial p hu hn).1
  have hpos : 0 < norm (qeps p) := lt_of_lt_of_le (by norm_num) hn
  obtain ⟨φ, h1, h2, hcos, hsin, he⟩ := scale_spec hu hn
  have hnorm : norm (quat2AxisAngle p) = 2 * φ := by
    have hφ : 0 < φ := lt_of_lt_of_le (by norm_num) h1
    rw [he, norm_scale _ _ (by positivity)]; field_simp
  have hinv := (C70_inverse (quat2AxisAngle p) (.inr ⟨by rw [hnorm]; linarith, by
    rw [hnorm, show 2 * φ / 2 = φ by ring, hsin]; exact hpos.ne'⟩)).2
  unfold quatLogJacobian2 quatExpJacobian
  rw [hel]
  have hmid : (4 : ℝ) • quatV.transpose * (quatOPlus (quatInv p) * (quatOPlus p * quatV)) = 1 := by
    ext i j
    unfold IsUnit4 at hu
    simp only [mm4]
    obtain rfl | rfl | rfl : i = 0 ∨ i = 1 ∨ i = 2 := by fin_cases i <;> simp
    all_goals obtain rfl | rfl | rfl : j = 0 ∨ j = 1 ∨ j = 2 := by fin_cases j <;> simp
    all_goals simp [quatV, quatOPlus, quatInv]
    all_goals grind
  calc logDiffMat (quat2AxisAngle p) * (4 : ℝ) • quatV.transpose * quatOPlus (quatInv p) *
        (quatOPlus p * quatV * expDiffMat (quat2AxisAngle p))
      = logDiffMat (quat2AxisAngle p) * ((4 : ℝ) • quatV.transpose * (quatOPlus (quatInv p) * (quatOPlus p * quatV))) *
        expDiffMat (quat2AxisAngle p) := by simp only [Matrix.mul_assoc]
    _ = 1 := by rw [hmid, Matrix.mul_one, hinv]

/-- **C70** `quatLogJacobian2` is the Jacobian of the logarithm along unit quaternions, too, and it is the left inverse of the
Jacobian of the exponential. -/
theorem C70_log_jacobian2 (p : V4) (hp : IsUnit4 p) (hn : 1 / 8192 < norm (qeps p)) :
    quatLogJacobian2 p * quatExpJacobian (quat2AxisAngle p) = 1 ∧
    ∀ (c : ℝ → V4) (w : V4), c 0 = p → (∀ i, HasDerivAt (fun s => c s i) (w i) 0) → (∀ s, IsUnit4 (c s)) →
      (∀ k : Fin 3, HasDerivAt (fun s => quat2AxisAngle (c s) k) ((quatLogJacobian2 p).mulVec w k) 0) ∧
      (quatLogJacobian2 p).mulVec w = (quatLogJacobian p).mulVec w := by
  have hone := quatLog2_exp p hp hn.le
  refine ⟨hone, fun c w h0 hc hu => ?_⟩
  have hlog := C70_log_jacobian p hn c w h0 hc hu
  have hel := (C54_exp_log_partial p hp hn.le).1
  have hpos : 0 < norm (qeps p) := lt_trans (by norm_num) hn
  obtain ⟨φ, h1, h2, hcos, hsin, he⟩ := scale_spec hp hn.le
  have hφ : 0 < φ := lt_of_lt_of_le (by norm_num) h1
  have hnorm : norm (quat2AxisAngle p) = 2 * φ := by
    rw [he, norm_scale _ _ (by positivity)]; field_simp
  have hexp := C70_exp_jacobian (quat2AxisAngle p) (by rw [hnorm]; linarith) (fun s => quat2AxisAngle (c s))
    ((quatLogJacobian p).mulVec w) (by rw [h0]) hlog
  have hce : ∀ i, HasDerivAt (fun s => qeps (c s) i) (qeps w i) 0 := by
    intro i
    obtain rfl | rfl | rfl : i = 0 ∨ i = 1 ∨ i = 2 := by fin_cases i <;> simp
    · exact hc 0
    · exact hc 1
    · exact hc 2
  have hw : (quatExpJacobian (quat2AxisAngle p)).mulVec ((quatLogJacobian p).mulVec w) = w := by
    funext k
    refine ((hexp k).unique ?_)
    refine (hc k).congr_of_eventuallyEq ?_
    filter_upwards [large_near hce (by rw [h0]; exact hn)] with s hs
    rw [(C54_exp_log_partial (c s) (hu s) (not_lt.1 hs)).1]
  have heq : (quatLogJacobian2 p).mulVec w = (quatLogJacobian p).mulVec w := by
    calc (quatLogJacobian2 p).mulVec w
        = (quatLogJacobian2 p).mulVec ((quatExpJacobian (quat2AxisAngle p)).mulVec ((quatLogJacobian p).mulVec w)) := by rw [hw]
      _ = (quatLogJacobian p).mulVec w := by rw [Matrix.mulVec_mulVec, hone, Matrix.one_mulVec]
  exact ⟨fun k => by rw [heq]; exact hlog k, heq⟩

/-- Concrete: a unit quaternion of either kind, with a curve of unit quaternions through it. -/
example : IsUnit4 ![3 / 5, 0, 0, 4 / 5] ∧ (1 : ℝ) / 8192 < norm (qeps ![3 / 5, 0, 0, 4 / 5]) ∧
    ∃ (c : ℝ → V4) (w : V4), c 0 = ![1, 0, 0, 0] ∧ (∀ i, HasDerivAt (fun s => c s i) (w i) 0) ∧ (∀ s, IsUnit4 (c s)) ∧
      |(![1, 0, 0, 0] : V4) 3| < norm (qeps ![1, 0, 0, 0]) := by
  have e1 : qeps (![3 / 5, 0, 0, 4 / 5] : V4) = ![3 / 5, 0, 0] := by apply ext3 <;> simp [qeps]
  have e2 : qeps (![1, 0, 0, 0] : V4) = ![1, 0, 0] := by apply ext3 <;> simp [qeps]
  refine ⟨by simp [IsUnit4]; norm_num, by rw [e1, norm_axis _ (by norm_num)]; norm_num,
    fun s => ![Real.cos s, Real.sin s, 0, 0], ![0, 1, 0, 0], by simp, ?_, ?_, by rw [e2, norm_axis _ (by norm_num)]; simp⟩
  · intro i
    obtain rfl | rfl | rfl | rfl : i = 0 ∨ i = 1 ∨ i = 2 ∨ i = 3 := by fin_cases i <;> simp
    · simpa using Real.hasDerivAt_cos 0
    · simpa using Real.hasDerivAt_sin 0
    · simpa using hasDerivAt_const (0 : ℝ) (0 : ℝ)
    · simpa using hasDerivAt_const (0 : ℝ) (0 : ℝ)
  · intro s
    simp [IsUnit4]
    nlinarith [trig s]

/-! ## small rotation vectors -/

theorem cross_bound (v w : V3) (i : Fin 3) : |cross v w i| ≤ norm v * norm w := by
  have hv := norm_mul_self v
  have hw := norm_mul_self w
  rw [sq3] at hv hw
  have hvn := norm_nonneg v
  have hwn := norm_nonneg w
  refine abs_le_of_sq_le_sq ?_ (mul_nonneg hvn hwn)
  have : (norm v * norm w) ^ 2 = (v 0 * v 0 + v 1 * v 1 + v 2 * v 2) * (w 0 * w 0 + w 1 * w 1 + w 2 * w 2) := by
    rw [← hv, ← hw]; ring
  rw [this]
  obtain rfl | rfl | rfl : i = 0 ∨ i = 1 ∨ i = 2 := by fin_cases i <;> simp
  · rw [cross0]; nlinarith [mul_self_nonneg (v 0), mul_self_nonneg (v 1 * w 1 + v 2 * w 2), mul_self_nonneg (v 0 * w 0), mul_self_nonneg (v 0 * w 1), mul_self_nonneg (v 0 * w 2), mul_self_nonneg (v 1 * w 0), mul_self_nonneg (v 2 * w 0)]
  · rw [cross1]; nlinarith [mul_self_nonneg (v 0 * w 0 + v 2 * w 2), mul_self_nonneg (v 1 * w 1), mul_self_nonneg (v 0 * w 1), mul_self_nonneg (v 1 * w 2), mul_self_nonneg (v 1 * w 0), mul_self_nonneg (v 2 * w 1)]
  · rw [cross2]; nlinarith [mul_self_nonneg (v 1 * w 1 + v 0 * w 0), mul_self_nonneg (v 2 * w 2), mul_self_nonneg (v 2 * w 1), mul_self_nonneg (v 0 * w 2), mul_self_nonneg (v 1 * w 2), mul_self_nonneg (v 2 * w 0)]

theorem comp_bound (w : V3) (i : Fin 3) : |w i| ≤ norm w := by
  have hw := norm_mul_self w
  rw [sq3] at hw
  refine abs_le_of_sq_le_sq ?_ (norm_nonneg w)
  obtain rfl | rfl | rfl : i = 0 ∨ i = 1 ∨ i = 2 := by fin_cases i <;> simp
  all_goals nlinarith [mul_self_nonneg (w 0), mul_self_nonneg (w 1), mul_self_nonneg (w 2)]

theorem inner_bound (v w : V3) : |inner v w| ≤ norm v * norm w := by
  have hv := norm_mul_self v
  have hw := norm_mul_self w
  rw [sq3] at hv hw
  refine abs_le_of_sq_le_sq ?_ (mul_nonneg (norm_nonneg v) (norm_nonneg w))
  have : (norm v * norm w) ^ 2 = (v 0 * v 0 + v 1 * v 1 + v 2 * v 2) * (w 0 * w 0 + w 1 * w 1 + w 2 * w 2) := by
    rw [← hv, ← hw]; ring
  rw [this, inner3_eq]
  nlinarith [mul_self_nonneg (v 0 * w 1 - v 1 * w 0), mul_self_nonneg (v 0 * w 2 - v 2 * w 0), mul_self_nonneg (v 1 * w 2 - v 2 * w 1)]

/-- the derivative of `axisAngle2quat` in its series branch -/
theorem deriv_exp_small {c : ℝ → V3} {w : V3} (hc : ∀ i, HasDerivAt (fun s => c s i) (w i) 0) (h0 : norm (c 0) ≠ 0)
    (h : norm (c 0) < 1 / 8192) :
    (∀ i : Fin 3, HasDerivAt (fun s => axisAngle2quat (c s) i.castSucc)
      ((1 / 2 + norm (c 0) * norm (c 0) / 48) * w i + c 0 i * inner (c 0) w / 24) 0) ∧
    HasDerivAt (fun s => axisAngle2quat (c s) 3) (-(Real.sin (norm (c 0) / 2) / (2 * norm (c 0)) * inner (c 0) w)) 0 := by
  have hsq := deriv_sqNorm hc
  have hsmall := small_near hc h
  constructor
  · intro i
    have hd := (hc i).fun_mul ((hsq.mul_const (1 / 48)).const_add (1 / 2))
    refine HasDerivAt.congr_of_eventuallyEq (hd.congr_deriv ?_) ?_
    · rw [norm_mul_self]; ring
    · filter_upwards [hsmall] with s hs
      unfold axisAngle2quat
      rw [if_pos hs, norm_mul_self]
      obtain rfl | rfl | rfl : i = 0 ∨ i = 1 ∨ i = 2 := by fin_cases i <;> simp
      · rfl
      · rfl
      · rfl
  · have hn := deriv_norm hc h0
    refine HasDerivAt.congr_of_eventuallyEq (((hn.mul_const (1 / 2)).cos).congr_deriv ?_) ?_
    · rw [show norm (c 0) * (1 / 2) = norm (c 0) / 2 by ring]; field_simp
    · filter_upwards with s
      simp [axisAngle2quat]

theorem expDiffMat_small {v : V3} (h0 : 0 < norm v) (h : norm v < 1 / 8192) :
    expDiffMat v = 1 - ((1 / 2) * (1 - (1 / 12) * (norm v * norm v))) • crossMx v +
      ((1 / 6) * (1 - (1 / 20) * (norm v * norm v))) • (crossMx v * crossMx v) := by
  unfold expDiffMat
  simp only
  have hs : ¬ ¬ isSmall |norm v| := by rw [abs_of_pos h0]; exact not_not.2 h
  rw [if_neg h0.ne', if_neg hs, if_neg hs]

/-- **C70** For rotation vectors between 0 and 1/8192, where the series is used, the components of the Jacobian's product
with a velocity are within `|v|²/4` times the length of the velocity of the true derivative of `axisAngle2quat`. -/
theorem C70_exp_jacobian_small_partial (v : V3) (h0 : 0 < norm v) (h : norm v < 1 / 8192) (c : ℝ → V3) (w : V3)
    (hc0 : c 0 = v) (hc : ∀ i, HasDerivAt (fun s => c s i) (w i) 0) (k : Fin 4) :
    ∃ d, HasDerivAt (fun s => axisAngle2quat (c s) k) d 0 ∧
      |d - (quatExpJacobian v).mulVec w k| ≤ norm v ^ 2 / 4 * norm w := by
  subst hc0
  obtain ⟨hv, hs⟩ := deriv_exp_small hc h0.ne' h
  have hcb := cross_bound (c 0) w
  have hccb : ∀ i, |cross (c 0) (cross (c 0) w) i| ≤ norm (c 0) * norm (c 0) * norm w := by
    intro i
    have hvv : norm (cross (c 0) w) ≤ norm (c 0) * norm w := by
      have h1 := norm_mul_self (cross (c 0) w)
      have h2 := norm_mul_self (c 0)
      have h3 := norm_mul_self w
      rw [sq3] at h1 h2 h3
      refine le_of_sq_le_sq ?_ (mul_nonneg (norm_nonneg _) (norm_nonneg _))
      rw [pow_two, h1, mul_pow, pow_two, pow_two, h2, h3, cross0, cross1, cross2]
      nlinarith [mul_self_nonneg (c 0 0 * w 0 + c 0 1 * w 1 + c 0 2 * w 2)]
    refine (cross_bound _ _ i).trans ?_
    rw [mul_assoc]
    exact mul_le_mul_of_nonneg_left hvv (norm_nonneg _)
  have hwb := comp_bound w
  have hib := inner_bound (c 0) w
  have hnn : norm (c 0) * norm (c 0) = c 0 0 * c 0 0 + c 0 1 * c 0 1 + c 0 2 * c 0 2 := by rw [norm_mul_self, sq3]
  have hin := inner3_eq (c 0) w
  have hC1 := Real.cos_le_one (norm (c 0) * (1 / 2))
  have hC2 := Real.one_sub_sq_div_two_le_cos (x := norm (c 0) * (1 / 2))
  have hS1 := Real.sin_le (x := norm (c 0) / 2) (by linarith)
  have hS2 := Real.sin_gt_sub_cube (x := norm (c 0) / 2) (by linarith)
  have hq : axisAngle2quat (c 0) = ![c 0 0 * (1 / 2 + norm (c 0) * norm (c 0) * (1 / 48)),
      c 0 1 * (1 / 2 + norm (c 0) * norm (c 0) * (1 / 48)), c 0 2 * (1 / 2 + norm (c 0) * norm (c 0) * (1 / 48)),
      Real.cos (norm (c 0) * (1 / 2))] := by
    unfold axisAngle2quat
    simp only
    rw [if_pos (show isSmall _ from h)]
  have hW := norm_nonneg w
  unfold quatExpJacobian
  rw [expJac_apply, expDiffMat_small h0 h, diffMat_apply, hq]
  -- the vector part of the difference, in terms of w, v × w and v × (v × w)
  have key : ∀ (i : Fin 3) (d : ℝ), d = (Real.cos (norm (c 0) * (1 / 2)) / 2 - (1 / 2 + norm (c 0) * norm (c 0) / 48) -
        norm (c 0) * norm (c 0) / 24) * w i +
      (1 / 2) * ((1 / 2 + norm (c 0) * norm (c 0) * (1 / 48)) * (1 - (1 / 6) * (1 - (1 / 20) * (norm (c 0) * norm (c 0))) *
        (norm (c 0) * norm (c 0))) - Real.cos (norm (c 0) * (1 / 2)) * ((1 / 2) * (1 - (1 / 12) * (norm (c 0) * norm (c 0))))) *
        cross (c 0) w i +
      ((1 / 2) * (Real.cos (norm (c 0) * (1 / 2)) * ((1 / 6) * (1 - (1 / 20) * (norm (c 0) * norm (c 0)))) -
        (1 / 2 + norm (c 0) * norm (c 0) * (1 / 48)) * ((1 / 2) * (1 - (1 / 12) * (norm (c 0) * norm (c 0))))) - 1 / 24) *
        cross (c 0) (cross (c 0) w) i → |d| ≤ norm (c 0) ^ 2 / 4 * norm w := by
    intro i d hd
    have b1 := hwb i
    have b2 := hcb i
    have b3 := hccb i
    rw [hd]
    clear hd d hnn hin hS1 hS2 hib hv hs hq hccb hwb
    generalize Real.cos (norm (c 0) * (1 / 2)) = C at *
    generalize cross (c 0) (cross (c 0) w) i = z at *
    generalize cross (c 0) w i = y at *
    generalize w i = x at *
    generalize norm w = W at *
    generalize norm (c 0) = n at *
    have hn2 : n * n ≤ 1 / 8192 * (1 / 8192) := by nlinarith
    have hn0 : 0 ≤ n * n := by nlinarith
    have hC2' : 1 - n * n / 8 ≤ C := by nlinarith
    have a1 : |C / 2 - (1 / 2 + n * n / 48) - n * n / 24| ≤ n * n / 8 := by
      rw [abs_le]; constructor <;> linarith
    have a2 : |(1 / 2) * ((1 / 2 + n * n * (1 / 48)) * (1 - (1 / 6) * (1 - (1 / 20) * (n * n)) * (n * n)) -
        C * ((1 / 2) * (1 - (1 / 12) * (n * n))))| ≤ n * n := by
      rw [abs_le]
      generalize n * n = m at *
      constructor <;> nlinarith [mul_nonneg hn0 hn0, mul_nonneg hn0 (sub_nonneg.2 hn2), mul_nonneg (mul_nonneg hn0 hn0) hn0]
    have a3 : |(1 / 2) * (C * ((1 / 6) * (1 - (1 / 20) * (n * n))) -
        (1 / 2 + n * n * (1 / 48)) * ((1 / 2) * (1 - (1 / 12) * (n * n)))) - 1 / 24| ≤ 1 / 10 := by
      rw [abs_le]
      generalize n * n = m at *
      constructor <;> nlinarith [mul_nonneg hn0 hn0, mul_nonneg hn0 (sub_nonneg.2 hn2), mul_nonneg (mul_nonneg hn0 hn0) hn0]
    generalize C / 2 - (1 / 2 + n * n / 48) - n * n / 24 = A at *
    generalize (1 / 2) * ((1 / 2 + n * n * (1 / 48)) * (1 - (1 / 6) * (1 - (1 / 20) * (n * n)) * (n * n)) -
        C * ((1 / 2) * (1 - (1 / 12) * (n * n)))) = B at *
    generalize (1 / 2) * (C * ((1 / 6) * (1 - (1 / 20) * (n * n))) -
        (1 / 2 + n * n * (1 / 48)) * ((1 / 2) * (1 - (1 / 12) * (n * n)))) - 1 / 24 = D at *
    have m1 := mul_le_mul a1 b1 (abs_nonneg _) (by positivity)
    have m2 := mul_le_mul a2 b2 (abs_nonneg _) (by positivity)
    have m3 := mul_le_mul a3 b3 (abs_nonneg _) (by positivity)
    rw [← abs_mul] at m1 m2 m3
    have t := (abs_add_le (A * x + B * y) (D * z)).trans (add_le_add_left (abs_add_le (A * x) (B * y)) _)
    have hnW : n * n * (n * W) ≤ 1 / 8192 * (n * n * W) := by
      have : 0 ≤ n * n * W := mul_nonneg hn0 hW
      nlinarith
    nlinarith [mul_nonneg hn0 hW]
  obtain rfl | rfl | rfl | rfl : k = 0 ∨ k = 1 ∨ k = 2 ∨ k = 3 := by fin_cases k <;> simp
  · refine ⟨_, hv 0, ?_⟩
    rw [abs_sub_comm]
    apply key 0
    rw [hin]
    simp only [Matrix.cons_val, Pi.add_apply, Pi.sub_apply, Pi.smul_apply, smul_eq_mul, cross0, cross1, cross2]
    clear key hcb hccb hwb hib hin hC1 hC2 hS1 hS2 hq hW hv hs hc
    generalize Real.cos (norm (c 0) * (1 / 2)) = C at *
    generalize norm (c 0) = n at *
    grind
  · refine ⟨_, hv 1, ?_⟩
    rw [abs_sub_comm]
    apply key 1
    rw [hin]
    simp only [Matrix.cons_val, Pi.add_apply, Pi.sub_apply, Pi.smul_apply, smul_eq_mul, cross0, cross1, cross2]
    clear key hcb hccb hwb hib hin hC1 hC2 hS1 hS2 hq hW hv hs hc
    generalize Real.cos (norm (c 0) * (1 / 2)) = C at *
    generalize norm (c 0) = n at *
    grind
  · refine ⟨_, hv 2, ?_⟩
    rw [abs_sub_comm]
    apply key 2
    rw [hin]
    simp only [Matrix.cons_val, Pi.add_apply, Pi.sub_apply, Pi.smul_apply, smul_eq_mul, cross0, cross1, cross2]
    clear key hcb hccb hwb hib hin hC1 hC2 hS1 hS2 hq hW hv hs hc
    generalize Real.cos (norm (c 0) * (1 / 2)) = C at *
    generalize norm (c 0) = n at *
    grind
  · refine ⟨_, hs, ?_⟩
    have e : -(Real.sin (norm (c 0) / 2) / (2 * norm (c 0)) * inner (c 0) w) -
        (1 / 2 * (-(c 0 0 * (1 / 2 + norm (c 0) * norm (c 0) * (1 / 48))) * (w - ((1 / 2) * (1 - (1 / 12) * (norm (c 0) * norm (c 0)))) • cross (c 0) w + ((1 / 6) * (1 - (1 / 20) * (norm (c 0) * norm (c 0)))) • cross (c 0) (cross (c 0) w)) 0 -
          c 0 1 * (1 / 2 + norm (c 0) * norm (c 0) * (1 / 48)) * (w - ((1 / 2) * (1 - (1 / 12) * (norm (c 0) * norm (c 0)))) • cross (c 0) w + ((1 / 6) * (1 - (1 / 20) * (norm (c 0) * norm (c 0)))) • cross (c 0) (cross (c 0) w)) 1 -
          c 0 2 * (1 / 2 + norm (c 0) * norm (c 0) * (1 / 48)) * (w - ((1 / 2) * (1 - (1 / 12) * (norm (c 0) * norm (c 0)))) • cross (c 0) w + ((1 / 6) * (1 - (1 / 20) * (norm (c 0) * norm (c 0)))) • cross (c 0) (cross (c 0) w)) 2)) =
        ((1 / 2 + norm (c 0) * norm (c 0) * (1 / 48)) / 2 - Real.sin (norm (c 0) / 2) / (2 * norm (c 0))) * inner (c 0) w := by
      rw [hin]
      simp only [Pi.add_apply, Pi.sub_apply, Pi.smul_apply, smul_eq_mul, cross0, cross1, cross2]
      ring
    simp only [Matrix.cons_val]
    rw [e, abs_mul]
    have hb : |(1 / 2 + norm (c 0) * norm (c 0) * (1 / 48)) / 2 - Real.sin (norm (c 0) / 2) / (2 * norm (c 0))| ≤ norm (c 0) / 4 := by
      have l1 : Real.sin (norm (c 0) / 2) / (2 * norm (c 0)) ≤ 1 / 4 := by
        rw [div_le_iff₀ (by positivity)]; linarith
      have l2 : 1 / 4 - norm (c 0) * norm (c 0) / 4 ≤ Real.sin (norm (c 0) / 2) / (2 * norm (c 0)) := by
        rw [le_div_iff₀ (by positivity)]; nlinarith [mul_pos h0 h0, mul_pos (mul_pos h0 h0) h0]
      rw [abs_le]
      constructor <;> nlinarith [mul_pos h0 h0]
    have := mul_le_mul hb hib (abs_nonneg _) (by linarith)
    refine this.trans (le_of_eq ?_)
    ring

/-- the claim for every rotation vector -/
def C70_claim : Prop := ∀ v : V3, IsJacobian axisAngle2quat (quatExpJacobian v) v

/-- **C70** is false for short rotation vectors: `axisAngle2quat` itself uses a series with a wrong sign there, so its true
derivative along the axis is more than one half, the entry of the Jacobian less. -/
theorem C70_negation : ¬ C70_claim := by
  intro hcl
  have hn : norm ![(1 : ℝ) / 10000, 0, 0] = 1 / 10000 := norm_axis _ (by norm_num)
  obtain ⟨c, h0, hc⟩ : ∃ c : ℝ → V3, c 0 = ![1 / 10000, 0, 0] ∧
      ∀ i, HasDerivAt (fun s => c s i) ((![1, 0, 0] : V3) i) 0 := by
    refine ⟨fun s => ![1 / 10000 + s, 0, 0], by simp, fun i => ?_⟩
    obtain rfl | rfl | rfl : i = 0 ∨ i = 1 ∨ i = 2 := by fin_cases i <;> simp
    · exact (hasDerivAt_id (0 : ℝ)).const_add (1 / 10000)
    · exact hasDerivAt_const (0 : ℝ) (0 : ℝ)
    · exact hasDerivAt_const (0 : ℝ) (0 : ℝ)
  have h1 := hcl ![1 / 10000, 0, 0] c _ h0 hc 0
  have h2 := (deriv_exp_small hc (by rw [h0, hn]; norm_num) (by rw [h0, hn]; norm_num)).1 0
  have he := h1.unique h2
  unfold quatExpJacobian at he
  rw [expJac_apply, expDiffMat_small (by rw [hn]; norm_num) (by rw [hn]; norm_num), diffMat_apply, h0, hn, inner3_eq] at he
  have hq : axisAngle2quat ![1 / 10000, 0, 0] 3 = Real.cos (1 / 10000 * (1 / 2)) := by
    unfold axisAngle2quat; simp only [hn]; simp
  have hq1 : axisAngle2quat ![1 / 10000, 0, 0] 1 = 0 := by unfold axisAngle2quat; simp
  have hq2 : axisAngle2quat ![1 / 10000, 0, 0] 2 = 0 := by unfold axisAngle2quat; simp
  simp only [Matrix.cons_val, Pi.add_apply, Pi.sub_apply, Pi.smul_apply, smul_eq_mul, cross0, cross1, cross2, hq, hq1, hq2] at he
  have := Real.cos_le_one (1 / 10000 * (1 / 2))
  norm_num at he this
  linarith

/-- Concrete: the vector of the counterexample is one of those the bound speaks about. -/
example : 0 < norm ![(1 : ℝ) / 10000, 0, 0] ∧ norm ![(1 : ℝ) / 10000, 0, 0] < 1 / 8192 := by
  rw [norm_axis _ (by norm_num)]; norm_num

/-! ## updating a quaternion by a small rotation -/

/-- **C70** `updateQuat q dq` is the quaternion of the rotation `dq` times `q`, so it has the norm of `q` (exactly for a zero
`dq` or one of length at least 1/8192), and `quatJacobian q` is its Jacobian in `dq` at zero. -/
theorem C70_update (q : V4) :
    (∀ dq, updateQuat q dq = qplus (axisAngle2quat dq) q) ∧
    (∀ dq, dq = 0 ∨ 1 / 8192 ≤ norm dq → sqNorm (updateQuat q dq) = sqNorm q ∧ quat2r (updateQuat q dq) =
      quat2r (axisAngle2quat dq) * quat2r q) ∧
    updateQuat q 0 = q ∧ IsJacobian (updateQuat q) (quatJacobian q) 0 := by
  have hup : ∀ dq, updateQuat q dq = qplus (axisAngle2quat dq) q := by
    intro dq
    apply ext4 <;> simp [updateQuat, qplus] <;> ring
  refine ⟨hup, ?_, ?_, ?_⟩
  · intro dq h
    have hu : IsUnit4 (axisAngle2quat dq) := by
      rcases h with h | h
      · rw [(C54_partial dq).2.1 h]; simp [IsUnit4, quatIdentity]
      · exact ((C54_partial dq).1 h).1
    rw [hup]
    refine ⟨?_, (quat2r_mul _ _).symm⟩
    rw [unit_iff] at hu
    rw [(C51_norm _ _).1, hu, one_mul]
  · rw [hup, (C54_partial 0).2.1 rfl]
    apply ext4 <;> simp [qplus, quatIdentity]
  · intro c v h0 hc k
    exact deriv_updateQuat q h0 hc k

example : (![0, 0, 0] : V3) = 0 ∨ (1 : ℝ) / 8192 ≤ norm ![(0 : ℝ), 0, 0] := .inl (by apply ext3 <;> simp)

end Verif.Kinematics
