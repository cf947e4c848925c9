import Verif.Kinematics.ParamProps

/-!
# The rotation vector: C61
-/

namespace Verif.Kinematics

open Matrix

theorem crossMx_mulVec (a v : V3) : (crossMx a).mulVec v = cross a v := by
  apply ext3 <;> rw [mv3] <;> simp [crossMx, cross] <;> ring

theorem inner3_eq (p v : V3) : inner p v = p 0 * v 0 + p 1 * v 1 + p 2 * v 2 := by
  simp [inner, Fin.sum_univ_succ]; ring

/-- the S-matrix applied to a vector -/
theorem rvS_mulVec {p : V3} (h : 1 / 10 ^ 14 ≤ norm p) (v : V3) :
    (rvS p).mulVec v = v + ((Real.cos (norm p) - 1) * (1 / norm p)) • cross (fun i => p i * (1 / norm p)) v +
      (1 - Real.sin (norm p) * (1 / norm p)) • cross (fun i => p i * (1 / norm p)) (cross (fun i => p i * (1 / norm p)) v) := by
  have hpos : 0 < norm p := lt_of_lt_of_le (by positivity) h
  have hc : Real.cos (norm p) - 1 = -2 * Real.sin (norm p * (1 / 2)) * Real.sin (norm p * (1 / 2)) := by
    have h1 : Real.cos (norm p) = Real.cos (norm p * (1 / 2) + norm p * (1 / 2)) := by congr 1; ring
    rw [h1, Real.cos_add]
    linear_combination trig (norm p * (1 / 2))
  have h2 : 1 - Real.sin (norm p) * (1 / norm p) = (norm p - Real.sin (norm p)) * (1 / norm p) := by field_simp
  unfold rvS
  simp only
  rw [if_neg (not_lt.2 h), hc, h2, add_mulVec, add_mulVec, one_mulVec, smul_mulVec, Matrix.smul_mul, smul_mulVec,
    ← mulVec_mulVec, crossMx_mulVec, crossMx_mulVec]

theorem rv_near {c : ℝ → V3} {v : V3} (hc : ∀ i, HasDerivAt (fun s => c s i) (v i) 0) (h : 1 / 10 ^ 14 < norm (c 0)) :
    ∀ᶠ s in nhds 0, 1 / 10 ^ 14 ≤ norm (c s) := by
  have : ContinuousAt (fun s => norm (c s)) 0 := Real.continuous_sqrt.continuousAt.comp (deriv_sqNorm hc).continuousAt
  filter_upwards [this.eventually_const_lt h] with s hs
  exact hs.le

/-- the reciprocal of the norm along a curve -/
theorem deriv_recipNorm {c : ℝ → V3} {v : V3} (hc : ∀ i, HasDerivAt (fun s => c s i) (v i) 0) (h : norm (c 0) ≠ 0) :
    HasDerivAt (fun s => 1 / norm (c s)) (-(inner (c 0) v / norm (c 0)) * (1 / norm (c 0)) * (1 / norm (c 0))) 0 := by
  refine ((hasDerivAt_const (0 : ℝ) (1 : ℝ)).fun_div (deriv_norm hc h) h).congr_deriv ?_
  field_simp
  ring

theorem TurnsBy.congr {C D : ℝ → M3} {ω : V3} (h : TurnsBy C ω) (e : ∀ᶠ s in nhds 0, D s = C s) : TurnsBy D ω := by
  intro i j
  have h0 : D 0 = C 0 := e.self_of_nhds
  rw [h0]
  refine (h i j).congr_of_eventuallyEq ?_
  filter_upwards [e] with s hs
  rw [hs]

theorem rv_unit {p : V3} (h : norm p ≠ 0) : IsUnit3 (fun i => p i * (1 / norm p)) := by
  have := unit_of_norm h
  simpa [div_eq_mul_inv] using this

/-- the rotation by the length of `p` about its direction turns with the angular velocity given by the S-matrix formula,
for every `p ≠ 0` -/
theorem rv_exact_turns {c : ℝ → V3} {v : V3} (hc : ∀ i, HasDerivAt (fun s => c s i) (v i) 0) (hne : norm (c 0) ≠ 0) :
    TurnsBy (fun s => rodrigues (norm (c s)) (fun i => c s i * (1 / norm (c s))))
      (v + ((Real.cos (norm (c 0)) - 1) * (1 / norm (c 0))) • cross (fun i => c 0 i * (1 / norm (c 0))) v +
      (1 - Real.sin (norm (c 0)) * (1 / norm (c 0))) • cross (fun i => c 0 i * (1 / norm (c 0)))
        (cross (fun i => c 0 i * (1 / norm (c 0))) v)) := by
  have hn := deriv_norm hc hne
  have hr := deriv_recipNorm hc hne
  refine rodrigues_turns (ρ := 1 / norm (c 0)) (rv_unit hne) (hn.congr_deriv ?_) ?_
  · rw [inner3_eq, inner3_eq]; field_simp
  · intro i
    refine ((hc i).fun_mul hr).congr_deriv ?_
    rw [inner3_eq, inner3_eq]
    field_simp
    ring

/-- **C61** The rotation vector: always a rotation (by the length of the vector about its direction); for lengths above
1e-14 the S-matrix maps parameter rates to angular velocities. -/
theorem C61_rotvec_smatrix (p : V3) :
    IsRotation (rvMatrix p) ∧
    (1 / 10 ^ 14 ≤ norm p → IsRotationAbout (rvMatrix p) (fun i => p i / norm p) (norm p)) ∧
    (1 / 10 ^ 14 < norm p → IsSMatrix rvMatrix (rvS p) p) := by
  have hpos : ∀ {p : V3}, 1 / 10 ^ 14 ≤ norm p → norm p ≠ 0 := fun h => (lt_of_lt_of_le (by positivity) h).ne'
  have hlarge : ∀ {p : V3}, 1 / 10 ^ 14 ≤ norm p → rvMatrix p = rodrigues (norm p) (fun i => p i * (1 / norm p)) := by
    intro p h
    unfold rvMatrix
    simp only
    rw [if_neg (not_lt.2 h)]
  refine ⟨?_, ?_, ?_⟩
  · by_cases h : norm p < 1 / 10 ^ 14
    · unfold rvMatrix
      simp only
      rw [if_pos h]
      constructor <;> simp
    · rw [hlarge (not_lt.1 h)]
      exact rodrigues_rotation _ _ (rv_unit (hpos (not_lt.1 h)))
  · intro h
    rw [hlarge h]
    have := rodrigues_about (norm p) _ (rv_unit (hpos h))
    simpa [div_eq_mul_inv] using this
  · intro h
    rintro c v rfl hc
    have hne := hpos h.le
    refine TurnsBy.congr (C := fun s => rodrigues (norm (c s)) (fun i => c s i * (1 / norm (c s)))) ?_ ?_
    · rw [rvS_mulVec h.le]
      exact rv_exact_turns hc hne
    · filter_upwards [rv_near hc h] with s hs
      exact hlarge hs

/-- Concrete: a rotation vector of length 5. -/
example : (1 / 10 ^ 14 : ℝ) < norm ![3, 4, 0] := by
  have : norm ![3, 4, 0] = 5 := by
    rw [← norm_eq]
    rw [show (![3, 4, 0] : V3) 0 * (![3, 4, 0] : V3) 0 + (![3, 4, 0] : V3) 1 * (![3, 4, 0] : V3) 1 +
      (![3, 4, 0] : V3) 2 * (![3, 4, 0] : V3) 2 = 5 * 5 by norm_num [Matrix.cons_val_two, Matrix.tail_cons]]
    exact Real.sqrt_mul_self (by norm_num)
  rw [this]
  norm_num

/-- **C61** In the branch for short rotation vectors (length below 1e-14) both the matrix and the S-matrix are the
identity: every entry of the matrix is within twice the length of the rotation `D` by the length about the direction,
and the angular velocity `S(p) v` is within `3·|p|·|v|` in every component of the angular velocity with which the rotation
by the length about the direction turns. -/
theorem C61_rotvec_small (p : V3) (h0 : norm p ≠ 0) (h : norm p < 1 / 10 ^ 14) :
    (∀ D, IsRotationAbout D (fun i => p i / norm p) (norm p) → ∀ i j, |D i j - rvMatrix p i j| ≤ 2 * norm p) ∧
    ∀ (c : ℝ → V3) (v : V3) (f : ℝ → M3), c 0 = p → (∀ i, HasDerivAt (fun s => c s i) (v i) 0) →
      (∀ s, norm (c s) ≠ 0 → IsRotationAbout (f s) (fun i => c s i / norm (c s)) (norm (c s))) →
      ∃ ω, TurnsBy f ω ∧ ∀ i, |ω i - (rvS p).mulVec v i| ≤ 3 * norm p * norm v := by
  have hu := rv_unit h0
  have hn0 := norm_nonneg p
  have hD : ∀ (p : V3) (D : M3), norm p ≠ 0 → IsRotationAbout D (fun i => p i / norm p) (norm p) →
      D = rodrigues (norm p) (fun i => p i * (1 / norm p)) := by
    intro p D h0 hD
    refine IsRotationAbout.unique (rv_unit h0) ?_ (rodrigues_about (norm p) _ (rv_unit h0))
    simpa [div_eq_mul_inv] using hD
  refine ⟨?_, ?_⟩
  · intro D hD' i j
    rw [hD p D h0 hD']
    unfold rvMatrix
    simp only
    rw [if_pos h]
    exact rodrigues_near_one _ _ hu hn0 (h.le.trans (by norm_num)) i j
  · rintro c v f rfl hc hf
    have hnear : ∀ᶠ s in nhds 0, norm (c s) ≠ 0 := by
      have : ContinuousAt (fun s => norm (c s)) 0 := Real.continuous_sqrt.continuousAt.comp (deriv_sqNorm hc).continuousAt
      exact this.eventually_ne h0
    refine ⟨_, TurnsBy.congr (rv_exact_turns hc h0) ?_, ?_⟩
    · filter_upwards [hnear] with s hs
      exact hD (c s) (f s) hs (hf s hs)
    · intro i
      have hS : (rvS (c 0)).mulVec v = v := by
        unfold rvS
        simp only
        rw [if_pos h, Matrix.one_mulVec]
      rw [hS]
      generalize he : (fun i => c 0 i * (1 / norm (c 0))) = e at *
      have hpos : 0 < norm (c 0) := lt_of_le_of_ne hn0 (Ne.symm h0)
      generalize norm (c 0) = n at *
      have hv : ∀ i, |v i| ≤ norm v := by
        intro i
        rw [← Real.sqrt_mul_self_eq_abs]
        apply Real.sqrt_le_sqrt
        rw [sq3]
        have a0 := mul_self_nonneg (v 0)
        have a1 := mul_self_nonneg (v 1)
        have a2 := mul_self_nonneg (v 2)
        obtain rfl | rfl | rfl : i = 0 ∨ i = 1 ∨ i = 2 := by fin_cases i <;> simp
        all_goals linarith
      have cb : ∀ (w : V3) (i : Fin 3), norm (cross e w) ≤ norm w := by
        intro w i
        apply Real.sqrt_le_sqrt
        rw [sq3, sq3, cross0, cross1, cross2]
        unfold IsUnit3 at hu
        nlinarith [mul_self_nonneg (e 0 * w 0 + e 1 * w 1 + e 2 * w 2)]
      have cv : ∀ (w : V3) (i : Fin 3), |w i| ≤ norm w := by
        intro w i
        rw [← Real.sqrt_mul_self_eq_abs]
        apply Real.sqrt_le_sqrt
        rw [sq3]
        have a0 := mul_self_nonneg (w 0)
        have a1 := mul_self_nonneg (w 1)
        have a2 := mul_self_nonneg (w 2)
        obtain rfl | rfl | rfl : i = 0 ∨ i = 1 ∨ i = 2 := by fin_cases i <;> simp
        all_goals linarith
      have hV : 0 ≤ norm v := norm_nonneg v
      have h1 : |(Real.cos n - 1) * (1 / n)| ≤ n := by
        rw [abs_le]
        have h2 := Real.one_sub_sq_div_two_le_cos (x := n)
        have h3 := Real.cos_le_one n
        rw [mul_one_div]
        constructor
        · rw [le_div_iff₀ hpos]; nlinarith
        · exact (div_nonpos_of_nonpos_of_nonneg (by linarith) hpos.le).trans hpos.le
      have h2 : |1 - Real.sin n * (1 / n)| ≤ n := by
        have h3 : n < 1 := h.trans (by norm_num)
        have h4 := Real.sin_gt_sub_cube hpos
        have h5 := Real.sin_le hpos.le
        rw [mul_one_div, abs_le]
        constructor
        · have : Real.sin n / n ≤ 1 := by rw [div_le_one hpos]; exact h5
          linarith
        · have : 1 - n ≤ Real.sin n / n := by
            rw [le_div_iff₀ hpos]
            have : n ^ 3 / 4 ≤ n * n := by nlinarith [mul_self_nonneg n, mul_pos hpos hpos]
            nlinarith
          linarith
      have e1 : |cross e v i| ≤ norm v := (cv _ i).trans (cb v i)
      have e2 : |cross e (cross e v) i| ≤ norm v := (cv _ i).trans ((cb _ i).trans (cb v i))
      simp only [Pi.add_apply, Pi.smul_apply, smul_eq_mul]
      have e3 := mul_le_mul h1 e1 (abs_nonneg _) hpos.le
      have e4 := mul_le_mul h2 e2 (abs_nonneg _) hpos.le
      rw [← abs_mul] at e3 e4
      rw [abs_le] at e3 e4 ⊢
      have : 0 ≤ n * norm v := mul_nonneg hpos.le hV
      constructor <;> linarith [e3.1, e3.2, e4.1, e4.2]

/-- products of polynomials in a cross matrix -/
theorem crossMx_poly (p : V3) (n a b c d : ℝ) (hn : n * n = p 0 * p 0 + p 1 * p 1 + p 2 * p 2)
    (h1 : a + c - n * n * (a * d + b * c) = 0) (h2 : b + d + a * c - n * n * (b * d) = 0) :
    (1 + a • crossMx p + b • crossMx p * crossMx p) * (1 + c • crossMx p + d • crossMx p * crossMx p) = 1 := by
  have h3 : crossMx p * crossMx p * crossMx p = -(n * n) • crossMx p := by
    rw [hn]
    ext i j
    rw [mm3, mm3, mm3, mm3]
    fin_cases i <;> fin_cases j <;> simp [crossMx] <;> ring
  have h4 : crossMx p * crossMx p * (crossMx p * crossMx p) = -(n * n) • (crossMx p * crossMx p) := by
    rw [← Matrix.mul_assoc, h3, Matrix.smul_mul]
  generalize crossMx p = P at *
  have e : (1 + a • P + b • P * P) * (1 + c • P + d • P * P) =
      1 + (a + c) • P + (b + d + a * c) • (P * P) + (a * d + b * c) • (P * P * P) + (b * d) • (P * P * (P * P)) := by
    simp only [Matrix.mul_add, Matrix.add_mul, Matrix.one_mul, Matrix.mul_one, Matrix.smul_mul, Matrix.mul_smul, smul_smul,
      Matrix.mul_assoc, add_smul, smul_add]
    rw [mul_comm c a, mul_comm d a, mul_comm c b, mul_comm d b]
    abel
  rw [e, h3, h4, smul_smul, smul_smul]
  have : (1 : M3) + (a + c) • P + (b + d + a * c) • (P * P) + ((a * d + b * c) * -(n * n)) • P + (b * d * -(n * n)) • (P * P) =
      1 + (a + c - n * n * (a * d + b * c)) • P + (b + d + a * c - n * n * (b * d)) • (P * P) := by
    simp only [sub_smul, mul_neg, neg_smul, mul_comm (n * n)]
    abel
  rw [this, h1, h2]
  simp

/-- **C61** `parametersToInverseSMatrix` of the rotation vector is the two-sided inverse of `parametersToSMatrix`, for
every vector of length at least 1e-14 whose length is not a multiple of 2π; at the zero vector both are the identity.
-/
theorem C61_rotvec_inverse (p : V3) (h : norm p = 0 ∨ 1 / 10 ^ 14 ≤ norm p ∧ Real.cos (norm p) ≠ 1) :
    rvS p * rvInvS p = 1 ∧ rvInvS p * rvS p = 1 := by
  rcases h with h | ⟨h, hc⟩
  · have e1 : rvS p = 1 := by
      unfold rvS; simp only; rw [if_pos (by rw [h]; positivity)]
    have e2 : rvInvS p = 1 := by
      unfold rvInvS; simp only; rw [rvInvS.inner3, norm_eq, if_pos h]
    rw [e1, e2]; simp
  · have hpos : 0 < norm p := lt_of_lt_of_le (by positivity) h
    have hsc : Real.cos (norm p) - 1 ≠ 0 := sub_ne_zero.2 hc
    have hcc : Real.cos (norm p) - 1 = -2 * Real.sin (norm p * (1 / 2)) * Real.sin (norm p * (1 / 2)) := by
      have h1 : Real.cos (norm p) = Real.cos (norm p * (1 / 2) + norm p * (1 / 2)) := by congr 1; ring
      rw [h1, Real.cos_add]
      linear_combination trig (norm p * (1 / 2))
    have hax : crossMx (fun i => p i * (1 / norm p)) = (1 / norm p) • crossMx p := by
      ext i j; fin_cases i <;> fin_cases j <;> simp [crossMx] <;> ring
    have e1 : rvS p = 1 + ((Real.cos (norm p) - 1) * (1 / norm p) * (1 / norm p)) • crossMx p +
        ((norm p - Real.sin (norm p)) * (1 / norm p) * (1 / norm p) * (1 / norm p)) • crossMx p * crossMx p := by
      unfold rvS
      simp only
      rw [if_neg (not_lt.2 h), hcc, hax, Matrix.smul_mul, Matrix.smul_mul, Matrix.smul_mul, Matrix.mul_smul, smul_smul, smul_smul, smul_smul]
    have e2 : rvInvS p = 1 + (1 / 2 : ℝ) • crossMx p + (1 / (norm p * norm p) * (1 - 1 / 2 * norm p *
        (-Real.sin (norm p) / (Real.cos (norm p) - 1)))) • crossMx p * crossMx p := by
      unfold rvInvS; simp only; rw [rvInvS.inner3, norm_eq, if_neg hpos.ne']
    have ht := trig (norm p)
    rw [e1, e2]
    constructor
    · refine crossMx_poly p (norm p) _ _ _ _ (norm_sq p) ?_ ?_
      · field_simp; ring
      · field_simp; linear_combination (norm p) * ht
    · refine crossMx_poly p (norm p) _ _ _ _ (norm_sq p) ?_ ?_
      · field_simp; ring
      · field_simp; linear_combination (norm p) * ht

/-- Concrete: a rotation vector of length 1. -/
example : (1 / 10 ^ 14 : ℝ) ≤ norm ![1, 0, 0] ∧ Real.cos (norm ![1, 0, 0]) ≠ 1 := by
  rw [norm_axis 1 (by norm_num)]
  refine ⟨by norm_num, ?_⟩
  have := Real.cos_one_le
  intro h
  rw [h] at this
  norm_num at this

/-- **C61** Where the S-matrices are invertible: away from gimbal lock for the Euler angles, everywhere for the Rodrigues
vector. -/
theorem C61_regular (p : V3) :
    (yprS p).det = Real.cos (p 1) ∧ (zyxS p).det = -Real.cos (p 1) ∧ (zxyS p).det = -Real.cos (p 1) ∧ 0 < (erS p).det := by
  have t0 := trig (p 0)
  refine ⟨?_, ?_, ?_, ?_⟩
  · rw [Matrix.det_fin_three]
    simp [yprS, yprBuildS]
    linear_combination (Real.cos (p 1)) * t0
  · rw [Matrix.det_fin_three]
    simp [zyxS, zyxBuildS]
    linear_combination (-Real.cos (p 1)) * t0
  · rw [Matrix.det_fin_three]
    simp [zxyS]
    linear_combination (-Real.cos (p 1)) * t0
  · have h : (erS p).det = (2 / (1 + sqNorm p)) ^ 3 * (1 + sqNorm p) := by
      unfold erS
      rw [Matrix.det_smul, Matrix.det_fin_three, sq3]
      simp [crossMx, -mul_eq_mul_left_iff]
      ring
    rw [h]
    have := sqNorm_nonneg p
    positivity

/-- the algebra of `rvLeft`: `n` the norm, `ρ` its reciprocal, `S`, `C` the sine and cosine -/
theorem rvLeft_eq (p d v : V3) (n ρ S C : ℝ) (h1 : n * ρ = 1) (h2 : n * n = p 0 * p 0 + p 1 * p 1 + p 2 * p 2) (i : Fin 3) :
    (rvLeft (p 0) (p 1) (p 2) (d 0) (d 1) (d 2) (p 0 * p 0 + p 1 * p 1 + p 2 * p 2) (n * n * n) n S C (ρ * ρ * ρ * ρ * ρ)).mulVec v i =
      ((-S * ρ * ρ - 2 * (C - 1) * ρ * ρ * ρ) * ((p 0 * v 0 + p 1 * v 1 + p 2 * v 2) * ρ)) * cross p d i +
      (C - 1) * ρ * ρ * cross v d i +
      (((1 - C) * ρ * ρ * ρ - 3 * (n - S) * ρ * ρ * ρ * ρ) * ((p 0 * v 0 + p 1 * v 1 + p 2 * v 2) * ρ)) * cross p (cross p d) i +
      (n - S) * ρ * ρ * ρ * (cross v (cross p d) i + cross p (cross v d) i) := by
  rw [mv3]
  obtain rfl | rfl | rfl : i = 0 ∨ i = 1 ∨ i = 2 := by fin_cases i <;> simp
  · simp only [cross0, cross1, cross2]
    simp [rvLeft]
    grind
  · simp only [cross0, cross1, cross2]
    simp [rvLeft]
    grind
  · simp only [cross0, cross1, cross2]
    simp [rvLeft]
    grind

theorem rvS_eq {p : V3} (h : 1 / 10 ^ 14 ≤ norm p) (d : V3) (i : Fin 3) :
    (rvS p).mulVec d i = d i + (Real.cos (norm p) - 1) * (1 / norm p) * (1 / norm p) * cross p d i +
      (norm p - Real.sin (norm p)) * (1 / norm p) * (1 / norm p) * (1 / norm p) * cross p (cross p d) i := by
  have hpos : 0 < norm p := lt_of_lt_of_le (by positivity) h
  rw [rvS_mulVec h]
  simp only [Pi.add_apply, Pi.smul_apply, smul_eq_mul]
  have e : 1 - Real.sin (norm p) * (1 / norm p) = (norm p - Real.sin (norm p)) * (1 / norm p) := by field_simp
  rw [e]
  obtain rfl | rfl | rfl : i = 0 ∨ i = 1 ∨ i = 2 := by fin_cases i <;> simp
  all_goals
    simp only [cross0, cross1, cross2]
    ring

theorem deriv_cross {c d : ℝ → V3} {v w : V3} (hc : ∀ i, HasDerivAt (fun s => c s i) (v i) 0)
    (hd : ∀ i, HasDerivAt (fun s => d s i) (w i) 0) (i : Fin 3) :
    HasDerivAt (fun s => cross (c s) (d s) i) ((cross v (d 0) + cross (c 0) w) i) 0 := by
  obtain rfl | rfl | rfl : i = 0 ∨ i = 1 ∨ i = 2 := by fin_cases i <;> simp
  · simp only [cross0, Pi.add_apply]
    refine (((hc 1).fun_mul (hd 2)).fun_sub ((hc 2).fun_mul (hd 1))).congr_deriv ?_
    ring
  · simp only [cross1, Pi.add_apply]
    refine (((hc 2).fun_mul (hd 0)).fun_sub ((hc 0).fun_mul (hd 2))).congr_deriv ?_
    ring
  · simp only [cross2, Pi.add_apply]
    refine (((hc 0).fun_mul (hd 1)).fun_sub ((hc 1).fun_mul (hd 0))).congr_deriv ?_
    ring

theorem cross_add_right (a b c : V3) : cross a (b + c) = cross a b + cross a c := by
  apply ext3 <;> simp [cross] <;> ring

/-- **C61** `angularVelocityAndJacobian` of the rotation vector returns `S(p) pdot` and, for lengths above 1e-14, its
exact derivative with respect to `p` and `pdot` (the 190-line formula). -/
theorem C61_rotvec_velocity (p pdot : V3) (h : 1 / 10 ^ 14 < norm p) :
    (rvVelocity p pdot).1 = (rvS p).mulVec pdot ∧
    IsJacobian (fun x => (rvS (head3 x)).mulVec (tail3 x)) (rvVelocity p pdot).2 (v6 p pdot) := by
  refine ⟨rfl, ?_⟩
  unfold rvVelocity
  simp only
  apply jac_velocity
  rintro c d v w rfl rfl hc hd i
  have hpos : 0 < norm (c 0) := lt_trans (by positivity) h
  have hne := hpos.ne'
  have hn := deriv_norm hc hne
  have hr := deriv_recipNorm hc hne
  have hcos := hn.cos
  have hsin := hn.sin
  have hcr := deriv_cross hc hd
  have hccr := deriv_cross (d := fun s => cross (c s) (d s)) hc hcr
  have hsq : norm (c 0) * norm (c 0) = c 0 0 * c 0 0 + c 0 1 * c 0 1 + c 0 2 * c 0 2 := norm_sq (c 0)
  have hsqrt : √(c 0 0 * c 0 0 + c 0 1 * c 0 1 + c 0 2 * c 0 2) = norm (c 0) := norm_eq (c 0)
  have p3 : (c 0 0 * c 0 0 + c 0 1 * c 0 1 + c 0 2 * c 0 2) ^ (3 / 2 : ℝ) = norm (c 0) * norm (c 0) * norm (c 0) := by
    rw [← hsq, ← pow_two, ← Real.rpow_natCast, ← Real.rpow_mul hpos.le]
    norm_num
    ring
  have p5 : 1 / (c 0 0 * c 0 0 + c 0 1 * c 0 1 + c 0 2 * c 0 2) ^ (5 / 2 : ℝ) =
      1 / norm (c 0) * (1 / norm (c 0)) * (1 / norm (c 0)) * (1 / norm (c 0)) * (1 / norm (c 0)) := by
    have : (c 0 0 * c 0 0 + c 0 1 * c 0 1 + c 0 2 * c 0 2) ^ (5 / 2 : ℝ) = norm (c 0) ^ 5 := by
      rw [← hsq, ← pow_two, ← Real.rpow_natCast, ← Real.rpow_mul hpos.le]
      norm_num
    rw [this]
    field_simp
  have main : HasDerivAt (fun s => d s i + (Real.cos (norm (c s)) - 1) * (1 / norm (c s)) * (1 / norm (c s)) * cross (c s) (d s) i +
      (norm (c s) - Real.sin (norm (c s))) * (1 / norm (c s)) * (1 / norm (c s)) * (1 / norm (c s)) * cross (c s) (cross (c s) (d s)) i)
      _ 0 := ((hd i).fun_add ((((hcos.sub_const 1).fun_mul hr).fun_mul hr).fun_mul (hcr i))).fun_add
        (((((hn.fun_sub hsin).fun_mul hr).fun_mul hr).fun_mul hr).fun_mul (hccr i))
  have fin := main.congr_of_eventuallyEq (f₁ := fun s => (rvS (c s)).mulVec (d s) i) (by
    filter_upwards [rv_near hc h] with s hs
    exact rvS_eq hs (d s) i)
  refine fin.congr_deriv ?_
  rw [hsqrt, p3, p5]
  simp only [cross_add_right, Pi.add_apply, inner3_eq]
  rw [rvS_eq h.le w,
    rvLeft_eq (c 0) (d 0) v (norm (c 0)) (1 / norm (c 0)) (Real.sin (norm (c 0))) (Real.cos (norm (c 0))) (by field_simp) hsq i]
  generalize Real.sin (norm (c 0)) = S
  generalize Real.cos (norm (c 0)) = C
  rw [div_eq_mul_one_div (_ + _) (norm (c 0))]
  have h1 : norm (c 0) * (1 / norm (c 0)) = 1 := by field_simp
  generalize 1 / norm (c 0) = ρ at *
  generalize norm (c 0) = n at *
  ring
