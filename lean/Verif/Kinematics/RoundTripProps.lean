import Verif.Kinematics.RotVecProps

/-!
# Parameters from rotation matrices and back: C69
-/

namespace Verif.Kinematics

/-! ## Euler angles -/

theorem ypr_params (R : M3) : yprParams R = ![R2rph R 2, R2rph R 1, R2rph R 0] := by
  apply ext3 <;> simp [yprParams, R2rph]

/-- **C69** The Euler angle parametrisations return the parameters they were given, when the middle angle is strictly
between -90° and 90° and the others in (-180°, 180°], for the ZYX parametrisation in [-180°, 180°). -/
theorem C69_euler_recovers (p : V3) (h1 : -(Real.pi / 2) < p 1 ∧ p 1 < Real.pi / 2) :
    ((-Real.pi < p 0 ∧ p 0 ≤ Real.pi) → (-Real.pi < p 2 ∧ p 2 ≤ Real.pi) →
      yprParams (yprMatrix p) = p ∧ zxyParams (zxyMatrix p) = p) ∧
    ((-Real.pi ≤ p 0 ∧ p 0 < Real.pi) → (-Real.pi ≤ p 2 ∧ p 2 < Real.pi) → zyxParams (zyxMatrix p) = p) := by
  have hc : 0 < Real.cos (p 1) := Real.cos_pos_of_mem_Ioo h1
  refine ⟨fun h0 h2 => ⟨?_, ?_⟩, fun h0 h2 => ?_⟩
  · rw [ypr_params, ypr_eq, (C55_recovers (p 2) (p 1) (p 0) h1 h2 h0).1]
    apply ext3 <;> simp
  · apply ext3 <;> simp only [zxyParams, zxyMatrix] <;> simp
    · rw [mul_comm, mul_comm (Real.cos (p 0))]
      exact atan2_polar hc h0.1 h0.2
    · rw [Real.arcsin_sin h1.1.le h1.2.le]
    · exact atan2_polar hc h2.1 h2.2
  · apply ext3 <;> simp only [zyxParams, zyxMatrix, rphMatrix] <;> simp
    · rw [mul_comm, mul_comm (Real.cos (p 0))]
      have := atan2_polar (θ := -p 0) hc (by linarith [h0.2]) (by linarith [h0.1])
      rw [Real.sin_neg, Real.cos_neg, mul_neg] at this
      rw [this, neg_neg]
    · rw [Real.arcsin_sin h1.1.le h1.2.le]
    · have := atan2_polar (θ := -p 2) hc (by linarith [h2.2]) (by linarith [h2.1])
      rw [Real.sin_neg, Real.cos_neg, mul_neg] at this
      rw [this, neg_neg]

/-- Concrete: the angles 1, 1/2 and 2. -/
example : (-Real.pi < (1 : ℝ) ∧ (1 : ℝ) < Real.pi) ∧ (-(Real.pi / 2) < (1 / 2 : ℝ) ∧ (1 / 2 : ℝ) < Real.pi / 2) ∧
    (-Real.pi < (2 : ℝ) ∧ (2 : ℝ) < Real.pi) := by
  have := Real.pi_gt_three
  refine ⟨⟨?_, ?_⟩, ⟨?_, ?_⟩, ?_, ?_⟩ <;> linarith

/-- **C69** Every rotation matrix away from the singularity (the entry holding the sine of the middle angle is not ±1)
is recovered from the parameters computed from it. -/
theorem C69_euler_onto (C : M3) (h : IsRotation C) :
    (C 2 0 * C 2 0 ≠ 1 → yprMatrix (yprParams C) = C ∧ zyxMatrix (zyxParams C) = C) ∧
    (C 2 1 * C 2 1 ≠ 1 → zxyMatrix (zxyParams C) = C) := by
  constructor
  · intro hs
    constructor
    · rw [ypr_eq, ypr_params]
      simpa using (C55_onto C h hs).1
    · rw [zyx_eq]
      have := (C55_onto C h hs).1
      simp only at this
      have e : rph2C (zyxParams C 2) (zyxParams C 1) (zyxParams C 0) = rph2R (R2rph C 0) (R2rph C 1) (R2rph C 2) := by
        unfold rph2C
        simp [zyxParams, R2rph]
      rw [e, this]
  · intro hs
    obtain ⟨⟨-, -, r3⟩, ⟨c1, c2, -⟩, ⟨k1, k2, k3⟩, ⟨k4, k5, k6⟩, ⟨k7, k8, k9⟩⟩ := rotation_entries h
    have hlt : C 2 1 * C 2 1 < 1 := lt_of_le_of_ne (by nlinarith [mul_self_nonneg (C 2 0), mul_self_nonneg (C 2 2)]) hs
    have hb : -1 ≤ C 2 1 ∧ C 2 1 ≤ 1 := by constructor <;> nlinarith
    set r := √(1 - C 2 1 ^ 2) with hr
    have hrr : r * r = 1 - C 2 1 * C 2 1 := by rw [hr, Real.mul_self_sqrt (by nlinarith)]; ring
    have hr0 : 0 < r := by rw [hr]; exact Real.sqrt_pos.2 (by nlinarith)
    have hcos : Real.cos (Real.arcsin (C 2 1)) = r := Real.cos_arcsin _
    have hsin : Real.sin (Real.arcsin (C 2 1)) = C 2 1 := Real.sin_arcsin hb.1 hb.2
    obtain ⟨a1, a2⟩ := atan2_spec (x := C 2 2) (y := -C 2 0) hr0 (by linarith)
    obtain ⟨b1, b2⟩ := atan2_spec (x := C 1 1) (y := -C 0 1) hr0 (by linarith)
    have hr2 : r * r ≠ 0 := (mul_pos hr0 hr0).ne'
    have m1 : r * r * C 0 0 = C 1 1 * C 2 2 - C 0 1 * C 2 0 * C 2 1 := by rw [hrr]; linear_combination -k1 + C 2 1 * k6
    have m2 : r * r * C 0 2 = -(C 1 1 * C 2 0) - C 0 1 * C 2 2 * C 2 1 := by rw [hrr]; linear_combination -k3 - C 2 1 * k4
    have m3 : r * r * C 1 0 = -(C 0 1 * C 2 2) - C 1 1 * C 2 0 * C 2 1 := by rw [hrr]; linear_combination -k4 - C 2 1 * k3
    have m4 : r * r * C 1 2 = C 0 1 * C 2 0 - C 1 1 * C 2 2 * C 2 1 := by rw [hrr]; linear_combination -k6 + C 2 1 * k1
    have key : ∀ p q : ℝ, r * r * p = r * r * q → p = q := fun p q e => mul_left_cancel₀ hr2 e
    clear h hs r3 c1 k1 k2 k3 k4 k5 k6 k7 k8 k9 hlt hb hrr hr2
    ext i j
    fin_cases i <;> fin_cases j <;> simp [zxyMatrix, zxyParams, hcos, hsin]
    · apply key; rw [m1, ← a1, ← b1]; grind
    · linarith
    · apply key; rw [m2, ← a1, ← b1]; grind
    · apply key; rw [m3, ← a1, ← b1]; grind
    · linarith
    · apply key; rw [m4, ← a1, ← b1]; grind
    · linarith
    · exact a1

example : IsRotation (1 : M3) ∧ (1 : M3) 2 0 * (1 : M3) 2 0 ≠ 1 ∧ (1 : M3) 2 1 * (1 : M3) 2 1 ≠ 1 := by
  refine ⟨⟨by simp, by simp, by simp⟩, by simp, by simp⟩

/-! ## Rotation vector and Rodrigues vector -/

/-- **C69** (Euler's rotation theorem, for the convention of the library) Every rotation matrix is the rotation by some
angle in [0, π] about some unit axis; the next two theorems therefore cover every rotation matrix. -/
theorem C69_every_rotation (C : M3) (h : IsRotation C) :
    ∃ (e : V3) (a : ℝ), IsUnit3 e ∧ 0 ≤ a ∧ a ≤ Real.pi ∧ IsRotationAbout C e a := by
  have main : ∀ q : V4, IsUnit4 q → 0 ≤ q 3 → quat2r q = C →
      ∃ (e : V3) (a : ℝ), IsUnit3 e ∧ 0 ≤ a ∧ a ≤ Real.pi ∧ IsRotationAbout C e a := by
    intro q hq h3 hC
    have hle : q 3 ≤ 1 := by
      unfold IsUnit4 at hq
      nlinarith [mul_self_nonneg (q 0), mul_self_nonneg (q 1), mul_self_nonneg (q 2)]
    have hsin : Real.sin (Real.arccos (q 3)) = norm (qeps q) := by
      rw [Real.sin_arccos, ← Real.sqrt_mul_self (norm_nonneg (qeps q)), eps_sq hq]; ring_nf
    have hcos : Real.cos (Real.arccos (q 3)) = q 3 := Real.cos_arccos (by linarith) hle
    have fin : ∀ e : V3, IsUnit3 e → (∀ i, e i * norm (qeps q) = qeps q i) →
        ∃ (e : V3) (a : ℝ), IsUnit3 e ∧ 0 ≤ a ∧ a ≤ Real.pi ∧ IsRotationAbout C e a := by
      intro e he hh
      refine ⟨e, 2 * Real.arccos (q 3), he, by linarith [Real.arccos_nonneg (q 3)], ?_, ?_⟩
      · have := Real.arccos_le_pi_div_two.2 h3; linarith
      · rw [← hC]
        have : q = aaQuat (2 * Real.arccos (q 3)) e := by
          unfold aaQuat
          rw [mul_div_cancel_left₀ _ (two_ne_zero), hsin, hcos, hh, hh, hh]
          apply ext4 <;> simp [qeps]
        rw [this, ← rodrigues_quat _ _ he]
        rw [← this]
        exact rodrigues_about _ _ he
    by_cases hz : norm (qeps q) = 0
    · refine fin ![1, 0, 0] (by simp [IsUnit3]) ?_
      intro i
      have h0 := norm_sq (qeps q)
      rw [hz] at h0
      have a0 := mul_self_nonneg (qeps q 0)
      have a1 := mul_self_nonneg (qeps q 1)
      have a2 := mul_self_nonneg (qeps q 2)
      rw [hz, mul_zero]
      obtain rfl | rfl | rfl : i = 0 ∨ i = 1 ∨ i = 2 := by fin_cases i <;> simp
      all_goals
        symm
        apply mul_self_eq_zero.1
        linarith
    · refine fin _ (unit_of_norm hz) ?_
      intro i
      field_simp
  obtain ⟨hq, hu, h3⟩ := C53_right_inverse C h
  exact main _ hu h3 hq

theorem rodrigues_skew (a : ℝ) (e : V3) : skewPart (rodrigues a e) = fun i => -(2 * Real.sin a) * e i := by
  apply ext3 <;> simp [skewPart, rodrigues] <;> ring

theorem rodrigues_trace (a : ℝ) (e : V3) (he : IsUnit3 e) :
    (rodrigues a e 0 0 + rodrigues a e 1 1 + rodrigues a e 2 2 - 1) * (1 / 2) = Real.cos a := by
  unfold IsUnit3 at he
  simp [rodrigues]
  linear_combination ((1 - Real.cos a) / 2) * he

theorem norm_skew {a : ℝ} {e : V3} (he : IsUnit3 e) (h : 0 ≤ Real.sin a) :
    norm (fun i => -(2 * Real.sin a) * e i) = 2 * Real.sin a := by
  rw [← norm_eq]
  have : -(2 * Real.sin a) * e 0 * (-(2 * Real.sin a) * e 0) + -(2 * Real.sin a) * e 1 * (-(2 * Real.sin a) * e 1) +
      -(2 * Real.sin a) * e 2 * (-(2 * Real.sin a) * e 2) = (2 * Real.sin a) * (2 * Real.sin a) := by
    unfold IsUnit3 at he
    linear_combination (4 * Real.sin a * Real.sin a) * he
  rw [this, Real.sqrt_mul_self (by linarith)]

/-- **C69** `rotationMatrixToParameters` of the rotation vector and of the Rodrigues vector, on the rotation by `a`
about `e`: `a·e` and `tan(a/2)·e`, from which the matrix is recovered, when both the angle and twice its sine are at
least 1e-14; otherwise (near the identity and near half turns) the zero vector. -/
theorem C69_from_matrix_partial (C : M3) (e : V3) (a : ℝ) (he : IsUnit3 e) (h0 : 0 ≤ a) (h1 : a ≤ Real.pi) (hC : IsRotationAbout C e a) :
    (1 / 10 ^ 14 ≤ a → 1 / 10 ^ 14 ≤ 2 * Real.sin a →
      rvParams C = (fun i => a * e i) ∧ rvMatrix (rvParams C) = C ∧
      erParams C = (fun i => Real.tan (a / 2) * e i) ∧ erMatrix (erParams C) = C) ∧
    (a < 1 / 10 ^ 14 ∨ 2 * Real.sin a < 1 / 10 ^ 14 → rvParams C = 0 ∧ erParams C = 0) := by
  have hs : 0 ≤ Real.sin a := Real.sin_nonneg_of_nonneg_of_le_pi h0 h1
  have hR : C = rodrigues a e := hC.unique he (rodrigues_about a e he)
  have htr := rodrigues_trace a e he
  have hac : Real.arccos (Real.cos a) = a := Real.arccos_cos h0 h1
  have hclamp : max (-1) (min (Real.cos a) 1) = Real.cos a := by
    rw [min_eq_left (Real.cos_le_one a), max_eq_right (Real.neg_one_le_cos a)]
  have hsk := rodrigues_skew a e
  have hns := norm_skew he hs
  have ha : |a| = a := abs_of_nonneg h0
  constructor
  · intro g1 g2
    have hsp : 0 < Real.sin a := by
      have : (0 : ℝ) < 1 / 10 ^ 14 := by positivity
      linarith
    have hap : 0 < a := lt_of_lt_of_le (by positivity) g1
    have e1 : rvParams C = fun i => a * e i := by
      unfold rvParams
      simp only
      rw [hR, htr, hclamp, hac, ha, if_neg (not_lt.2 g1), hsk, hns, abs_of_nonneg (by linarith), if_neg (not_lt.2 g2)]
      funext i
      simp only [Pi.smul_apply, smul_eq_mul]
      field_simp
    have e2 : erParams C = fun i => Real.tan (a / 2) * e i := by
      unfold erParams
      simp only
      rw [hR, htr, hac, ha, if_neg (not_lt.2 g1), hsk, hns, if_neg (not_lt.2 g2)]
      funext i
      simp only [Pi.smul_apply, smul_eq_mul]
      rw [show (1 / 2 * a) = a / 2 by ring]
      field_simp
    refine ⟨e1, ?_, e2, ?_⟩
    · have hn : norm (fun i => a * e i) = a := by
        rw [← norm_eq]
        have : a * e 0 * (a * e 0) + a * e 1 * (a * e 1) + a * e 2 * (a * e 2) = a * a := by
          unfold IsUnit3 at he; linear_combination (a * a) * he
        rw [this, Real.sqrt_mul_self h0]
      have := (C61_rotvec_smatrix (fun i => a * e i)).2.1 (by rw [hn]; exact g1)
      rw [hn] at this
      have e3 : (fun i => a * e i / a) = e := by funext i; field_simp
      rw [e3] at this
      rw [e1]
      exact this.unique he hC
    · have hlt : a < Real.pi := by
        refine lt_of_le_of_ne h1 ?_
        rintro rfl
        rw [Real.sin_pi] at hsp
        exact lt_irrefl _ hsp
      have hcp : 0 < Real.cos (a / 2) := Real.cos_pos_of_mem_Ioo ⟨by linarith, by linarith⟩
      rw [e2, hR, er_quat, rodrigues_quat a e he]
      congr 1
      have hsq : sqNorm (fun i => Real.tan (a / 2) * e i) = Real.tan (a / 2) * Real.tan (a / 2) := by
        rw [sq3]
        unfold IsUnit3 at he; linear_combination (Real.tan (a / 2) * Real.tan (a / 2)) * he
      have hr : 1 / √(1 + sqNorm (fun i => Real.tan (a / 2) * e i)) = Real.cos (a / 2) := by
        have : 1 + sqNorm (fun i => Real.tan (a / 2) * e i) = (1 / Real.cos (a / 2)) * (1 / Real.cos (a / 2)) := by
          rw [hsq, Real.tan_eq_sin_div_cos]
          have := trig (a / 2)
          field_simp
          linarith
        rw [this, Real.sqrt_mul_self (by positivity)]
        field_simp
      have ht : Real.tan (a / 2) * Real.cos (a / 2) = Real.sin (a / 2) := Real.tan_mul_cos hcp.ne'
      unfold erQuat aaQuat
      simp only
      rw [hr]
      apply ext4 <;> simp
      all_goals
        rw [← ht]
        ring
  · intro g
    have hz : (0 : ℝ) < 1 / 10 ^ 14 := by positivity
    constructor
    · unfold rvParams
      simp only
      rw [hR, htr, hclamp, hac, ha, hsk, hns, abs_of_nonneg (by linarith)]
      rcases g with g | g
      · rw [if_pos g]
      · by_cases g' : a < 1 / 10 ^ 14
        · rw [if_pos g']
        · rw [if_neg g', if_pos g]
    · unfold erParams
      simp only
      rw [hR, htr, hac, ha, hsk, hns]
      rcases g with g | g
      · rw [if_pos g]
      · by_cases g' : a < 1 / 10 ^ 14
        · rw [if_pos g']
        · rw [if_neg g', if_pos g]

/-- Concrete: a quarter turn about z. -/
example : IsUnit3 ![0, 0, 1] ∧ (0 : ℝ) ≤ Real.pi / 2 ∧ Real.pi / 2 ≤ Real.pi ∧ (1 / 10 ^ 14 : ℝ) ≤ Real.pi / 2 ∧
    (1 / 10 ^ 14 : ℝ) ≤ 2 * Real.sin (Real.pi / 2) := by
  have := Real.pi_gt_three
  refine ⟨by simp [IsUnit3], by linarith, by linarith, ?_, ?_⟩
  · norm_num; linarith
  · rw [Real.sin_pi_div_two]; norm_num

/-- **C69** The rotation vector and the Rodrigues vector return the parameters they were given: rotation vectors `p` with
1e-14 ≤ |p| < π and 2 sin|p| ≥ 1e-14; Rodrigues vectors whose angle 2·arctan|p| satisfies the same bounds. -/
theorem C69_recovers_partial (p : V3) :
    (1 / 10 ^ 14 ≤ norm p → norm p ≤ Real.pi → 1 / 10 ^ 14 ≤ 2 * Real.sin (norm p) → rvParams (rvMatrix p) = p) ∧
    (1 / 10 ^ 14 ≤ 2 * Real.arctan (norm p) → 1 / 10 ^ 14 ≤ 2 * Real.sin (2 * Real.arctan (norm p)) → erParams (erMatrix p) = p) := by
  constructor
  · intro g1 g2 g3
    have hne : norm p ≠ 0 := (lt_of_lt_of_le (by positivity) g1).ne'
    have := ((C69_from_matrix_partial _ _ _ (unit_of_norm hne) (norm_nonneg p) g2 ((C61_rotvec_smatrix p).2.1 g1)).1 g1 g3).1
    rw [this]
    funext i
    field_simp
  · intro g1 g2
    have hpos : 0 < 2 * Real.arctan (norm p) := lt_of_lt_of_le (by positivity) g1
    have hne : norm p ≠ 0 := by
      intro h; rw [h] at hpos; simp at hpos
    have hu := unit_of_norm hne
    have hab : IsRotationAbout (erMatrix p) (fun i => p i / norm p) (2 * Real.arctan (norm p)) := by
      have : erMatrix p = rodrigues (2 * Real.arctan (norm p)) (fun i => p i / norm p) := by
        rw [er_quat, rodrigues_quat _ _ hu]
        congr 1
        unfold erQuat aaQuat
        simp only
        rw [mul_div_cancel_left₀ _ (two_ne_zero), Real.sin_arctan, Real.cos_arctan]
        have hn : norm p ^ 2 = sqNorm p := by rw [pow_two, norm_mul_self]
        rw [hn]
        apply ext4 <;> simp
        all_goals field_simp
      rw [this]
      exact rodrigues_about _ _ hu
    have := ((C69_from_matrix_partial _ _ _ hu hpos.le (by linarith [Real.arctan_lt_pi_div_two (norm p)]) hab).1 g1 g2).2.2.1
    rw [this, mul_div_cancel_left₀ _ (two_ne_zero), Real.tan_arctan]
    funext i
    field_simp

/-- Concrete: both at the unit x vector. -/
example : (1 / 10 ^ 14 : ℝ) ≤ norm ![1, 0, 0] ∧ norm ![1, 0, 0] ≤ Real.pi ∧ (1 / 10 ^ 14 : ℝ) ≤ 2 * Real.sin (norm ![1, 0, 0]) ∧
    (1 / 10 ^ 14 : ℝ) ≤ 2 * Real.arctan (norm ![1, 0, 0]) ∧ (1 / 10 ^ 14 : ℝ) ≤ 2 * Real.sin (2 * Real.arctan (norm ![1, 0, 0])) := by
  rw [norm_axis 1 (by norm_num), Real.arctan_one]
  have := Real.pi_gt_three
  have h1 := Real.sin_gt_sub_cube (x := 1) (by norm_num)
  refine ⟨by norm_num, by linarith, ?_, ?_, ?_⟩
  · have : (1 : ℝ) / 10 ^ 14 ≤ 1 := by norm_num
    norm_num at h1
    linarith
  · have : (1 : ℝ) / 10 ^ 14 ≤ 1 := by norm_num
    linarith
  · rw [show 2 * (Real.pi / 4) = Real.pi / 2 by ring, Real.sin_pi_div_two]; norm_num

/-- the full claim: every rotation matrix is recovered from the parameters computed from it -/
def C69_claim : Prop := ∀ C : M3, IsRotation C → rvMatrix (rvParams C) = C

/-- **C69** It is false: the half turn about x has the parameters zero (so does any half turn, by
`C69_from_matrix_partial`), which give the identity; likewise for the Rodrigues vector, which cannot represent half turns. -/
theorem C69_negation : ¬ C69_claim ∧ ∃ C : M3, IsRotation C ∧ erMatrix (erParams C) ≠ C := by
  have he : IsUnit3 ![1, 0, 0] := by simp [IsUnit3]
  have hrot := rodrigues_rotation Real.pi ![1, 0, 0] he
  have hz := (C69_from_matrix_partial _ ![1, 0, 0] Real.pi he Real.pi_pos.le le_rfl (rodrigues_about Real.pi _ he)).2
    (Or.inr (by rw [Real.sin_pi]; norm_num))
  have h0 : norm (0 : V3) = 0 := by rw [← norm_eq]; simp
  have h11 : rodrigues Real.pi ![1, 0, 0] 1 1 = -1 := by simp [rodrigues]
  constructor
  · intro h
    have h1 := congrFun (congrFun (h _ hrot) 1) 1
    rw [hz.1, h11] at h1
    unfold rvMatrix at h1
    simp only at h1
    rw [if_pos (by rw [h0]; positivity)] at h1
    norm_num at h1
  · refine ⟨_, hrot, ?_⟩
    intro h
    have h1 := congrFun (congrFun h 1) 1
    rw [hz.2, h11] at h1
    have : erMatrix 0 = 1 := by
      unfold erMatrix
      have : crossMx (0 : V3) = 0 := by ext i j; fin_cases i <;> fin_cases j <;> simp [crossMx]
      simp [this]
    rw [this] at h1
    norm_num at h1

end Verif.Kinematics
