import Verif.Kinematics.RotProps

/-!
# C54 near the poles: the logarithm and the exponential where they are only approximately inverse to each other

`C54_exp_log_partial` and `C54_log_exp_partial` (`RotProps`) leave out the quaternions whose vector part is shorter than
`2⁻¹³`. Here is what happens there: at the pole `-1` both are exact, at the pole `+1` they are off by at most a sixth of the
square of the angle, relative.
-/

namespace Verif.Kinematics

/-- near `-1` the half angle of `quat2AxisAngle` is exact -/
theorem scale_neg {q : V4} (h : IsUnit4 q) (hpos : 0 < norm (qeps q)) (h3 : q 3 ≤ 0) :
    ∃ φ, 1 ≤ φ ∧ φ < Real.pi ∧ Real.cos φ = q 3 ∧ Real.sin φ = norm (qeps q) ∧
      quat2AxisAngle q = fun i => qeps q i * (2 * (φ / norm (qeps q))) := by
  have hsq := eps_sq h
  have hpi := Real.pi_gt_three
  set n := norm (qeps q) with hndef
  have hq1 : -1 < q 3 := by nlinarith
  have hn1 : n ≤ 1 := by nlinarith [mul_self_nonneg (q 3)]
  by_cases h1 : |q 3| < n
  · have hsin : Real.sin (Real.arccos (q 3)) = n := by
      rw [Real.sin_arccos, show 1 - q 3 ^ 2 = n * n by rw [hsq]; ring]; exact Real.sqrt_mul_self hpos.le
    refine ⟨Real.arccos (q 3), ?_, ?_, Real.cos_arccos hq1.le (by linarith), hsin, ?_⟩
    · have := Real.arccos_le_arccos h3
      rw [Real.arccos_zero] at this
      linarith
    · rw [← Real.arccos_neg_one]
      exact (Real.strictAntiOn_arccos ⟨le_refl _, by norm_num⟩ ⟨hq1.le, by linarith⟩ hq1)
    · unfold quat2AxisAngle; simp only [qeta, ← hndef, if_pos h1]
  · have h2 : ¬ q 3 > 0 := not_lt.2 h3
    have ha : 0 < Real.arcsin n := Real.arcsin_pos.2 hpos
    refine ⟨Real.pi - Real.arcsin n, ?_, by linarith, ?_, ?_, ?_⟩
    · linarith [Real.arcsin_le_pi_div_two n]
    · rw [Real.cos_pi_sub, Real.cos_arcsin, show 1 - n ^ 2 = (-q 3) * (-q 3) by rw [pow_two, hsq]; ring,
        Real.sqrt_mul_self (by linarith)]; ring
    · rw [Real.sin_pi_sub]; exact Real.sin_arcsin (by linarith) hn1
    · unfold quat2AxisAngle; simp only [qeta, ← hndef, if_neg h1, if_neg h2]

/-- near `+1` the logarithm is twice the vector part -/
theorem log_small {q : V4} (h0 : norm (qeps q) < 1 / 8192) (h3 : norm (qeps q) ≤ q 3) (h3' : 0 < q 3) :
    quat2AxisAngle q = fun i => 2 * qeps q i := by
  have hnn := norm_nonneg (qeps q)
  unfold quat2AxisAngle arcSinXOverX
  have c1 : ¬ |qeta q| < norm (qeps q) := by
    show ¬ |q 3| < norm (qeps q)
    rw [abs_of_nonneg h3'.le]; exact not_lt.2 h3
  have c2 : qeta q > 0 := h3'
  have c3 : isSmall |norm (qeps q)| := by rw [abs_of_nonneg hnn]; exact h0
  simp only [if_neg c1, if_pos c2, if_pos c3]
  funext i
  norm_num
  ring

/-- **C54** Near the quaternion `-1` the exponential still inverts the logarithm exactly: for every unit quaternion with a
scalar part that is not positive and a vector part that is not zero, however short. The rotation vector is shorter than `2π`
(and longer than 2). -/
theorem C54_exp_log_negative_partial (q : V4) (h : IsUnit4 q) (hn : 0 < norm (qeps q)) (h3 : q 3 ≤ 0) :
    axisAngle2quat (quat2AxisAngle q) = q ∧ 2 ≤ norm (quat2AxisAngle q) ∧ norm (quat2AxisAngle q) < 2 * Real.pi := by
  obtain ⟨φ, h1, h2, hc, hs, he⟩ := scale_neg h hn h3
  have hφ : 0 < φ := lt_of_lt_of_le (by norm_num) h1
  have hnorm : norm (quat2AxisAngle q) = 2 * φ := by
    rw [he, norm_scale _ _ (by positivity)]; field_simp
  refine ⟨?_, by rw [hnorm]; linarith, by rw [hnorm]; linarith⟩
  rw [axisAngle2quat_large (show ¬ isSmall _ from not_lt.2 (by rw [hnorm]; linarith)), hnorm, he]
  unfold aaQuat
  rw [show 2 * φ / 2 = φ by ring, hs, hc]
  have e0 : qeps q 0 = q 0 := rfl
  have e1 : qeps q 1 = q 1 := rfl
  have e2 : qeps q 2 = q 2 := rfl
  generalize norm (qeps q) = n at *
  apply ext4 <;> simp [e0, e1, e2] <;> field_simp

/-- **C54** For rotation vectors between a half and a full turn the logarithm inverts the exponential exactly. -/
theorem C54_log_exp_long_partial (a : V3) (h1 : Real.pi ≤ norm a) (h2 : norm a < 2 * Real.pi) :
    quat2AxisAngle (axisAngle2quat a) = a := by
  have hpi := Real.pi_gt_three
  have hbig : 1 / 8192 ≤ norm a := by linarith
  have hpos : 0 < norm a := lt_of_lt_of_le (by norm_num) hbig
  have hsin : 0 < Real.sin (norm a / 2) := Real.sin_pos_of_pos_of_lt_pi (by linarith) (by linarith)
  obtain ⟨hu, -, -⟩ := (C54_partial a).1 hbig
  have hq := axisAngle2quat_large (show ¬ isSmall _ from not_lt.2 hbig)
  have heps : qeps (axisAngle2quat a) = fun i => a i * (Real.sin (norm a / 2) / norm a) := by
    rw [hq]; apply ext3 <;> simp [qeps, aaQuat] <;> ring
  have h3 : axisAngle2quat a 3 = Real.cos (norm a / 2) := by rw [hq]; simp [aaQuat]
  have hne : norm (qeps (axisAngle2quat a)) = Real.sin (norm a / 2) := by
    rw [heps, norm_scale _ _ (div_nonneg hsin.le hpos.le)]; field_simp
  obtain ⟨φ, p1, p2, hc, hsφ, he⟩ := scale_neg hu (by rw [hne]; exact hsin)
    (by rw [h3]; exact Real.cos_nonpos_of_pi_div_two_le_of_le (by linarith) (by linarith))
  have hφ : φ = norm a / 2 := by
    apply Real.injOn_cos ⟨by linarith, p2.le⟩ ⟨by linarith, by linarith⟩
    rw [hc, h3]
  rw [he, hne, heps, hφ]
  have hs0 : Real.sin (norm a / 2) ≠ 0 := hsin.ne'
  funext i
  field_simp

/-- Concrete: the premises hold for a rotation by 6 (not quite a full turn). -/
example : IsUnit4 ![Real.sin 3, 0, 0, Real.cos 3] ∧ 0 < norm (qeps ![Real.sin 3, 0, 0, Real.cos 3]) ∧
    Real.cos 3 ≤ 0 ∧ Real.pi ≤ norm ![6, 0, 0] ∧ norm ![6, 0, 0] < 2 * Real.pi := by
  have hp := Real.pi_gt_three
  have hp4 := Real.pi_lt_four
  have hs : 0 < Real.sin 3 := Real.sin_pos_of_pos_of_lt_pi (by norm_num) hp
  refine ⟨?_, ?_, ?_, ?_, ?_⟩
  · have := trig 3
    simp [IsUnit4]; linarith
  · have : qeps ![Real.sin 3, 0, 0, Real.cos 3] = ![Real.sin 3, 0, 0] := by apply ext3 <;> simp [qeps]
    rw [this, norm_axis _ hs.le]; exact hs
  · exact Real.cos_nonpos_of_pi_div_two_le_of_le (by linarith) (by linarith)
  · rw [norm_axis _ (by norm_num)]; linarith
  · rw [norm_axis _ (by norm_num)]; linarith

/-- **C54** In the small branch of the logarithm (the vector part is shorter than `2⁻¹³` and the scalar part is positive) the
result is twice the vector part, where the exact logarithm is longer: `exp (log q)` differs from `q` by at most a sixth of the
cube of the length of the vector part, in every component. -/
theorem C54_exp_log_small_partial (q : V4) (h : IsUnit4 q) (hn : norm (qeps q) < 1 / 8192) (h3 : 0 < q 3) :
    (∀ i, quat2AxisAngle q i = 2 * qeps q i) ∧
    (∀ i, |axisAngle2quat (quat2AxisAngle q) i - q i| ≤ norm (qeps q) ^ 3 / 6) := by
  have hsq := eps_sq h
  have hnn := norm_nonneg (qeps q)
  have hbig : norm (qeps q) ≤ q 3 := by nlinarith
  have hl := log_small hn hbig h3
  refine ⟨fun i => congrFun hl i, ?_⟩
  have hcomp : ∀ i, |qeps q i| ≤ norm (qeps q) := by
    intro i
    apply abs_le_of_sq_le_sq _ hnn
    have := norm_sq (qeps q)
    rw [sq, sq, this]
    obtain rfl | rfl | rfl : i = 0 ∨ i = 1 ∨ i = 2 := by fin_cases i <;> simp
    all_goals nlinarith [mul_self_nonneg (qeps q 0), mul_self_nonneg (qeps q 1), mul_self_nonneg (qeps q 2)]
  have hnorm : norm (quat2AxisAngle q) = 2 * norm (qeps q) := by
    rw [hl, show (fun i => 2 * qeps q i) = fun i => qeps q i * 2 by funext i; ring, norm_scale _ _ (by norm_num)]; ring
  have e0 : qeps q 0 = q 0 := rfl
  have e1 : qeps q 1 = q 1 := rfl
  have e2 : qeps q 2 = q 2 := rfl
  -- the scalar part
  have hcos : |Real.cos (norm (qeps q)) - q 3| ≤ norm (qeps q) ^ 3 / 6 := by
    generalize norm (qeps q) = n at *
    have c1 : 1 - n ^ 2 / 2 ≤ Real.cos n := Real.one_sub_sq_div_two_le_cos
    have c2 : Real.cos n ≤ 1 - n ^ 2 / 2 + n ^ 4 / 16 := by
      have := Real.cos_bound (x := n) (by rw [abs_of_nonneg hnn]; linarith)
      rw [abs_of_nonneg hnn] at this
      have := (abs_le.1 this).2
      nlinarith [pow_nonneg hnn 4]
    have q1 : q 3 ≤ 1 - n ^ 2 / 2 := by nlinarith [pow_nonneg hnn 4]
    have q2 : 1 - n ^ 2 / 2 - n ^ 4 / 4 ≤ q 3 := by
      by_contra hc
      have hc := not_le.1 hc
      have hm := mul_self_lt_mul_self h3.le hc
      have n2 : n ^ 2 ≤ 1 / 2 := by nlinarith
      have n6 : n ^ 6 ≤ n ^ 4 * (1 / 2) := by
        rw [show n ^ 6 = n ^ 4 * n ^ 2 by ring]; exact mul_le_mul_of_nonneg_left n2 (pow_nonneg hnn 4)
      have n8 : n ^ 8 ≤ n ^ 4 * (1 / 2) := by
        rw [show n ^ 8 = n ^ 6 * n ^ 2 by ring]
        have := mul_le_mul_of_nonneg_left n2 (pow_nonneg hnn 6)
        have := pow_nonneg hnn 6
        linarith
      have e : (1 - n ^ 2 / 2 - n ^ 4 / 4) * (1 - n ^ 2 / 2 - n ^ 4 / 4) =
          1 - n * n - n ^ 4 / 4 + n ^ 6 / 4 + n ^ 8 / 16 := by ring
      rw [e] at hm
      have := pow_nonneg hnn 4
      linarith
    have : n ^ 4 ≤ n ^ 3 * (1 / 8192) := by
      rw [show n ^ 4 = n ^ 3 * n by ring]; exact mul_le_mul_of_nonneg_left hn.le (pow_nonneg hnn 3)
    rw [abs_le]; constructor <;> nlinarith [pow_nonneg hnn 3]
  -- the factor of the vector part
  have hvec : ∀ s : ℝ, |s - 1| ≤ norm (qeps q) ^ 2 / 6 → ∀ i, |qeps q i * s - qeps q i| ≤ norm (qeps q) ^ 3 / 6 := by
    intro s hs i
    rw [show qeps q i * s - qeps q i = qeps q i * (s - 1) by ring, abs_mul]
    calc |qeps q i| * |s - 1| ≤ norm (qeps q) * (norm (qeps q) ^ 2 / 6) :=
          mul_le_mul (hcomp i) hs (abs_nonneg _) hnn
      _ = _ := by ring
  obtain ⟨s, hs, hval⟩ : ∃ s, |s - 1| ≤ norm (qeps q) ^ 2 / 6 ∧ axisAngle2quat (quat2AxisAngle q) =
      ![qeps q 0 * s, qeps q 1 * s, qeps q 2 * s, Real.cos (norm (qeps q))] := by
    unfold axisAngle2quat
    simp only [hnorm]
    rw [show 2 * norm (qeps q) * (1 / 2) = norm (qeps q) by ring]
    by_cases hsm : isSmall (2 * norm (qeps q))
    · refine ⟨1 + norm (qeps q) ^ 2 / 6, ?_, ?_⟩
      · rw [add_sub_cancel_left, abs_of_nonneg (by positivity)]
      · rw [if_pos hsm, hl]
        apply ext4 <;> simp <;> ring
    · rw [if_neg hsm]
      have hpos : 0 < norm (qeps q) := by
        have := not_lt.1 hsm
        linarith
      refine ⟨Real.sin (norm (qeps q)) / norm (qeps q), ?_, ?_⟩
      · have s1 := (Real.sin_lt hpos).le
        have s2 := (Real.sin_gt_sub_cube hpos).le
        rw [abs_le]
        constructor
        · rw [le_sub_iff_add_le, le_div_iff₀ hpos]; nlinarith
        · have : Real.sin (norm (qeps q)) / norm (qeps q) ≤ 1 := by rw [div_le_one hpos]; exact s1
          nlinarith [sq_nonneg (norm (qeps q))]
      · rw [hl]
        apply ext4 <;> simp <;> field_simp
  intro i
  rw [hval]
  obtain rfl | rfl | rfl | rfl : i = 0 ∨ i = 1 ∨ i = 2 ∨ i = 3 := by fin_cases i <;> simp
  · exact hvec s hs 0
  · exact hvec s hs 1
  · exact hvec s hs 2
  · exact hcos

/-- **C54** For rotation vectors up to a half turn whose quaternion is in the small branch of the logarithm, `log (exp a)` is
parallel to `a` and off by at most `|a|²/24`, relative; so it is for the zero vector, where it is exact. -/
theorem C54_log_exp_small_partial (a : V3) (h1 : norm a ≤ Real.pi) (hs : Real.sin (norm a / 2) < 1 / 8192) :
    ∃ s, |s - 1| ≤ norm a ^ 2 / 24 ∧ ∀ i, quat2AxisAngle (axisAngle2quat a) i = s * a i := by
  have hnn := norm_nonneg a
  -- the angle is small
  have hθ : norm a < 1 / 4000 := by
    by_contra hc
    have hc := not_lt.1 hc
    have hj := Real.mul_le_sin (x := norm a / 2) (by linarith) (by linarith)
    have hp := Real.pi_lt_four
    have : (1 : ℝ) / 2 ≤ 2 / Real.pi := by rw [le_div_iff₀ Real.pi_pos]; linarith
    have := Real.sin_gt_sub_cube (x := 1 / 8000) (by norm_num)
    have hm : Real.sin (1 / 8000) ≤ Real.sin (norm a / 2) :=
      Real.sin_le_sin_of_le_of_le_pi_div_two (by linarith [Real.pi_pos]) (by linarith) (by linarith)
    norm_num at this hm
    linarith
  have hcos : 1 / 2 ≤ Real.cos (norm a * (1 / 2)) := by
    have := Real.one_sub_sq_div_two_le_cos (x := norm a * (1 / 2))
    nlinarith
  obtain ⟨s, hs1, hval⟩ : ∃ s, |s - 1| ≤ norm a ^ 2 / 24 ∧ axisAngle2quat a =
      ![a 0 * (s / 2), a 1 * (s / 2), a 2 * (s / 2), Real.cos (norm a * (1 / 2))] ∧ norm a * (s / 2) < 1 / 8192 := by
    unfold axisAngle2quat
    simp only
    by_cases hsm : isSmall (norm a)
    · refine ⟨1 + norm a ^ 2 / 24, ?_, ?_, ?_⟩
      · rw [add_sub_cancel_left, abs_of_nonneg (by positivity)]
      · rw [if_pos hsm]
        apply ext4 <;> simp <;> left <;> ring
      · have : norm a < 1 / 8192 := hsm
        nlinarith [sq_nonneg (norm a)]
    · rw [if_neg hsm]
      have hpos : 0 < norm a := by
        have : 1 / 8192 ≤ norm a := not_lt.1 hsm
        linarith
      refine ⟨2 * (Real.sin (norm a * (1 / 2)) / norm a), ?_, ?_, ?_⟩
      · have s1 := (Real.sin_lt (x := norm a * (1 / 2)) (by linarith)).le
        have s2 := (Real.sin_gt_sub_cube (x := norm a * (1 / 2)) (by linarith)).le
        rw [abs_le]
        constructor
        · rw [le_sub_iff_add_le, ← mul_div_assoc, le_div_iff₀ hpos]; nlinarith
        · have : 2 * (Real.sin (norm a * (1 / 2)) / norm a) ≤ 1 := by
            rw [← mul_div_assoc, div_le_one hpos]; linarith
          nlinarith [sq_nonneg (norm a)]
      · apply ext4 <;> simp
      · rw [show norm a / 2 = norm a * (1 / 2) by ring] at hs
        have : norm a * (2 * (Real.sin (norm a * (1 / 2)) / norm a) / 2) = Real.sin (norm a * (1 / 2)) := by field_simp
        rw [this]; exact hs
  obtain ⟨hval, hlt⟩ := hval
  have hs0 : 0 ≤ s := by
    have := (abs_le.1 hs1).1
    nlinarith
  have heps : qeps (axisAngle2quat a) = fun i => a i * (s / 2) := by
    rw [hval]; apply ext3 <;> simp [qeps]
  have hne : norm (qeps (axisAngle2quat a)) = norm a * (s / 2) := by
    rw [heps, norm_scale _ _ (by linarith)]
  have h3 : axisAngle2quat a 3 = Real.cos (norm a * (1 / 2)) := by rw [hval]; simp
  refine ⟨s, hs1, fun i => ?_⟩
  rw [log_small (by rw [hne]; exact hlt) (by rw [hne, h3]; linarith) (by rw [h3]; linarith), heps]
  ring

/-- Concrete: a rotation by a hundred-thousandth about x, and its quaternion (exact and computed). -/
example : norm ![1 / 100000, 0, 0] ≤ Real.pi ∧ Real.sin (norm ![1 / 100000, 0, 0] / 2) < 1 / 8192 ∧
    IsUnit4 ![Real.sin (1 / 100000), 0, 0, Real.cos (1 / 100000)] ∧
    norm (qeps ![Real.sin (1 / 100000), 0, 0, Real.cos (1 / 100000)]) < 1 / 8192 ∧ 0 < Real.cos (1 / 100000) := by
  have hp := Real.pi_gt_three
  have hn : norm ![(1 : ℝ) / 100000, 0, 0] = 1 / 100000 := norm_axis _ (by norm_num)
  have s1 := Real.sin_lt (x := (1 : ℝ) / 100000) (by norm_num)
  have s0 : 0 < Real.sin (1 / 100000) := Real.sin_pos_of_pos_of_lt_pi (by norm_num) (by linarith)
  refine ⟨by rw [hn]; linarith, ?_, ?_, ?_, ?_⟩
  · rw [hn]
    have := Real.sin_lt (x := (1 : ℝ) / 100000 / 2) (by norm_num)
    linarith
  · have := trig (1 / 100000)
    simp [IsUnit4] at this ⊢; linarith
  · have : qeps ![Real.sin (1 / 100000), 0, 0, Real.cos (1 / 100000)] = ![Real.sin (1 / 100000), 0, 0] := by
      apply ext3 <;> simp [qeps]
    rw [this, norm_axis _ s0.le]; linarith
  · have := Real.one_sub_sq_div_two_le_cos (x := 1 / 100000)
    norm_num at this ⊢; linarith

end Verif.Kinematics
