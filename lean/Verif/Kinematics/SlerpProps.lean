import Verif.Kinematics.TransfProps
import Verif.Kinematics.Deriv

/-!
# Interpolation: C60
-/

namespace Verif.Kinematics

/-- +1, or -1 when the two quaternions are on opposite hemispheres -/
noncomputable def side (q0 q1 : V4) : ℝ := if inner q0 q1 < 0 then -1 else 1

/-- the angle between two unit quaternions, up to the sign of the second: at most 90° -/
noncomputable def arcBetween (q0 q1 : V4) : ℝ := Real.arccos (side q0 q1 * inner q0 q1)

/-- the point at fraction `t` of the shorter great-circle arc from `q0` to `±q1` (Shoemake's formula), for different
rotations -/
def IsSlerp (q0 q1 : V4) (t : ℝ) (x : V4) : Prop :=
  ∀ i, Real.sin (arcBetween q0 q1) * x i =
    Real.sin ((1 - t) * arcBetween q0 q1) * q0 i + Real.sin (t * arcBetween q0 q1) * (side q0 q1 * q1 i)

theorem inner4_eq (p v : V4) : inner p v = p 0 * v 0 + p 1 * v 1 + p 2 * v 2 + p 3 * v 3 := by
  simp [inner, Fin.sum_univ_succ]; ring

theorem qslerp_mid (q0 q1 : V4) (t : ℝ) (h0 : 0 < t) (h1 : t < 1) :
    qslerp q0 q1 t = qplus q0 (axisAngle2quat (t • quat2AxisAngle (qplus (quatInv q0) (side q0 q1 • q1)))) := by
  unfold qslerp side
  rw [if_neg (not_le.2 h0), if_neg (by simpa using h1)]
  have e : sqNorm (q0 - q1) > sqNorm (q0 + q1) ↔ inner q0 q1 < 0 := by
    rw [sq4, sq4, inner4_eq]
    simp only [Pi.sub_apply, Pi.add_apply]
    constructor <;> intro h <;> nlinarith
  by_cases h : inner q0 q1 < 0
  · rw [if_pos (e.2 h), if_pos h, neg_one_smul]
  · rw [if_neg (fun g => h (e.1 g)), if_neg h, one_smul]

theorem side_sq (q0 q1 : V4) : side q0 q1 * side q0 q1 = 1 := by
  unfold side; split <;> norm_num

theorem side_nonneg (q0 q1 : V4) : 0 ≤ side q0 q1 * inner q0 q1 := by
  unfold side; split <;> linarith

/-- the vector part of the exponential of a vector of length `2x`, over its direction -/
noncomputable def expU (x : ℝ) : ℝ := if 2 * x < 1 / 8192 then x + x ^ 3 / 6 else Real.sin x

theorem exp_form (e : V3) (he : IsUnit3 e) (x : ℝ) (hx : 0 ≤ x) :
    axisAngle2quat (fun i => 2 * x * e i) = ![expU x * e 0, expU x * e 1, expU x * e 2, Real.cos x] := by
  have hn : norm (fun i => 2 * x * e i) = 2 * x := by
    rw [← norm_eq]
    have : 2 * x * e 0 * (2 * x * e 0) + 2 * x * e 1 * (2 * x * e 1) + 2 * x * e 2 * (2 * x * e 2) = 2 * x * (2 * x) := by
      unfold IsUnit3 at he; linear_combination (4 * x * x) * he
    rw [this, Real.sqrt_mul_self (by linarith)]
  unfold axisAngle2quat expU isSmall
  simp only [hn]
  rw [show 2 * x * (1 / 2) = x by ring]
  by_cases h : 2 * x < 1 / 8192
  · rw [if_pos h, if_pos h]
    apply ext4 <;> simp <;> ring
  · rw [if_neg h, if_neg h]
    have : x ≠ 0 := by rintro rfl; norm_num at h
    apply ext4 <;> simp <;> field_simp

theorem expU_sqNorm {e : V3} (he : IsUnit3 e) (x : ℝ) :
    sqNorm ![expU x * e 0, expU x * e 1, expU x * e 2, Real.cos x] = 1 + (expU x - Real.sin x) * (expU x + Real.sin x) := by
  rw [sq4]
  unfold IsUnit3 at he
  simp
  linear_combination (expU x * expU x) * he + trig x

theorem slerp_form (q0 q1 : V4) (u0 : IsUnit4 q0) (u1 : IsUnit4 q1) :
    ∃ (e : V3) (ψ : ℝ), IsUnit3 e ∧ 0 ≤ ψ ∧
      (1 / 8192 ≤ Real.sin (arcBetween q0 q1) → ψ = arcBetween q0 q1) ∧
      (Real.sin (arcBetween q0 q1) < 1 / 8192 → ψ = Real.sin (arcBetween q0 q1)) ∧
      side q0 q1 • q1 = qplus q0 ![Real.sin (arcBetween q0 q1) * e 0, Real.sin (arcBetween q0 q1) * e 1,
        Real.sin (arcBetween q0 q1) * e 2, Real.cos (arcBetween q0 q1)] ∧
      ∀ t, 0 < t → t < 1 → qslerp q0 q1 t =
        qplus q0 ![expU (t * ψ) * e 0, expU (t * ψ) * e 1, expU (t * ψ) * e 2, Real.cos (t * ψ)] := by
  set d := qplus (quatInv q0) (side q0 q1 • q1) with hd
  have hs1 : IsUnit4 (side q0 q1 • q1) := by
    have := side_sq q0 q1
    unfold IsUnit4 at *
    simp only [Pi.smul_apply, smul_eq_mul]
    linear_combination (q1 0 * q1 0 + q1 1 * q1 1 + q1 2 * q1 2 + q1 3 * q1 3) * this + u1
  have hdu : IsUnit4 d := (C51_norm _ _).2.2 ((C51_inverse q0 q1).2.2.2.2.1 u0).2.2 hs1
  have hd3 : d 3 = side q0 q1 * inner q0 q1 := by
    rw [hd, inner4_eq]; simp [qplus, quatInv]; ring
  have hθ : arcBetween q0 q1 = Real.arccos (d 3) := by rw [hd3]; rfl
  have hd0 : 0 ≤ d 3 := by rw [hd3]; exact side_nonneg q0 q1
  have hsq := eps_sq hdu
  have hnn := norm_nonneg (qeps d)
  have hd1 : d 3 ≤ 1 := by nlinarith [mul_self_nonneg (norm (qeps d))]
  have hcos : Real.cos (arcBetween q0 q1) = d 3 := by rw [hθ]; exact Real.cos_arccos (by linarith) hd1
  have hsin : Real.sin (arcBetween q0 q1) = norm (qeps d) := by
    rw [hθ, Real.sin_arccos, ← Real.sqrt_mul_self hnn, hsq]; ring_nf
  have hqd : qplus q0 d = side q0 q1 • q1 := by
    rw [hd, ← (C51_product q0 (quatInv q0) (side q0 q1 • q1) 0).1, ((C51_inverse q0 q1).2.2.2.2.1 u0).1,
      (C51_inverse (side q0 q1 • q1) q1).2.1]
  -- the axis
  obtain ⟨e, he, hde⟩ : ∃ e, IsUnit3 e ∧ ∀ i, qeps d i = norm (qeps d) * e i := by
    by_cases hz : norm (qeps d) = 0
    · refine ⟨![1, 0, 0], by simp [IsUnit3], fun i => ?_⟩
      have h0 := norm_sq (qeps d)
      rw [hz] at h0
      have a0 := mul_self_nonneg (qeps d 0)
      have a1 := mul_self_nonneg (qeps d 1)
      have a2 := mul_self_nonneg (qeps d 2)
      rw [hz, zero_mul]
      obtain rfl | rfl | rfl : i = 0 ∨ i = 1 ∨ i = 2 := by fin_cases i <;> simp
      all_goals
        apply mul_self_eq_zero.1
        linarith
    · exact ⟨_, unit_of_norm hz, fun i => by field_simp⟩
  have hdform : d = ![norm (qeps d) * e 0, norm (qeps d) * e 1, norm (qeps d) * e 2, d 3] := by
    rw [← hde, ← hde, ← hde]; apply ext4 <;> simp [qeps]
  -- the logarithm
  obtain ⟨ψ, hψ0, hψ1, hψ2, hlog⟩ : ∃ ψ, 0 ≤ ψ ∧ (1 / 8192 ≤ norm (qeps d) → ψ = arcBetween q0 q1) ∧
      (norm (qeps d) < 1 / 8192 → ψ = norm (qeps d)) ∧ quat2AxisAngle d = fun i => 2 * ψ * e i := by
    by_cases hb : 1 / 8192 ≤ norm (qeps d)
    · obtain ⟨φ, h1, h2, h3, h4, h5⟩ := scale_spec hdu hb
      have hφ : φ = arcBetween q0 q1 := by
        rw [hθ, ← h3, Real.arccos_cos (le_trans (by norm_num) h1) h2]
      refine ⟨φ, le_trans (by norm_num) h1, fun _ => hφ, fun h => absurd hb (not_le.2 h), ?_⟩
      rw [h5]
      funext i
      have : norm (qeps d) ≠ 0 := (lt_of_lt_of_le (by norm_num) hb).ne'
      rw [hde i]
      field_simp
    · have hlt := not_le.1 hb
      refine ⟨norm (qeps d), hnn, fun h => absurd h hb, fun _ => rfl, ?_⟩
      have hbig : norm (qeps d) < d 3 := by
        have : norm (qeps d) * norm (qeps d) < 1 / 8192 * (1 / 8192) := mul_lt_mul'' hlt hlt hnn hnn
        nlinarith
      unfold quat2AxisAngle arcSinXOverX
      have c1 : ¬ |qeta d| < norm (qeps d) := by
        show ¬ |d 3| < norm (qeps d)
        rw [abs_of_nonneg hd0]; exact not_lt.2 hbig.le
      have c2 : qeta d > 0 := lt_of_le_of_lt hnn hbig
      have c3 : isSmall |norm (qeps d)| := by rw [abs_of_nonneg hnn]; exact hlt
      simp only [if_neg c1, if_pos c2, if_pos c3]
      funext i
      rw [hde i]
      norm_num
      ring
  refine ⟨e, ψ, he, hψ0, by rw [hsin]; exact hψ1, by rw [hsin]; exact hψ2, ?_, ?_⟩
  · rw [hsin, hcos, ← hdform, hqd]
  · intro t h0 h1
    rw [qslerp_mid q0 q1 t h0 h1, ← hd, hlog]
    have : (t • fun i => 2 * ψ * e i) = fun i => 2 * (t * ψ) * e i := by
      funext i; simp; ring
    rw [this, exp_form e he _ (mul_nonneg h0.le hψ0)]

/-- the exact point in the same form -/
theorem isSlerp_iff {q0 q1 : V4} {e : V3} {t : ℝ} {x : V4} (hs : Real.sin (arcBetween q0 q1) ≠ 0)
    (h : side q0 q1 • q1 = qplus q0 ![Real.sin (arcBetween q0 q1) * e 0, Real.sin (arcBetween q0 q1) * e 1,
        Real.sin (arcBetween q0 q1) * e 2, Real.cos (arcBetween q0 q1)]) :
    IsSlerp q0 q1 t x ↔ x = qplus q0 ![Real.sin (t * arcBetween q0 q1) * e 0, Real.sin (t * arcBetween q0 q1) * e 1,
        Real.sin (t * arcBetween q0 q1) * e 2, Real.cos (t * arcBetween q0 q1)] := by
  have hsub : Real.sin ((1 - t) * arcBetween q0 q1) = Real.sin (arcBetween q0 q1) * Real.cos (t * arcBetween q0 q1) -
      Real.cos (arcBetween q0 q1) * Real.sin (t * arcBetween q0 q1) := by
    rw [← Real.sin_sub]; congr 1; ring
  have key : ∀ i, Real.sin ((1 - t) * arcBetween q0 q1) * q0 i + Real.sin (t * arcBetween q0 q1) * (side q0 q1 * q1 i) =
      Real.sin (arcBetween q0 q1) * qplus q0 ![Real.sin (t * arcBetween q0 q1) * e 0, Real.sin (t * arcBetween q0 q1) * e 1,
        Real.sin (t * arcBetween q0 q1) * e 2, Real.cos (t * arcBetween q0 q1)] i := by
    intro i
    have hi := congrFun h i
    simp only [Pi.smul_apply, smul_eq_mul] at hi
    rw [hi, hsub]
    obtain rfl | rfl | rfl | rfl : i = 0 ∨ i = 1 ∨ i = 2 ∨ i = 3 := by fin_cases i <;> simp
    all_goals
      simp [qplus]
      ring
  constructor
  · intro hx
    funext i
    apply mul_left_cancel₀ hs
    rw [hx i, key i]
  · rintro rfl i
    rw [key i]

/-- **C60** Interpolation starts at the first quaternion and ends at the second (outside the range it stays there); so
does linear interpolation. -/
theorem C60_ends {n : Nat} (q0 q1 : V4) (p0 p1 : Fin n → ℝ) (t : ℝ) :
    (t ≤ 0 → qslerp q0 q1 t = q0 ∧ lerp p0 p1 t = p0) ∧ (1 ≤ t → qslerp q0 q1 t = q1 ∧ lerp p0 p1 t = p1) ∧
    (0 ≤ t → t ≤ 1 → ∀ i, lerp p0 p1 t i = (1 - t) * p0 i + t * p1 i) := by
  refine ⟨?_, ?_, ?_⟩
  · intro h; unfold qslerp lerp; rw [if_pos h, if_pos h]; exact ⟨rfl, rfl⟩
  · intro h
    have : ¬ t ≤ 0 := not_le.2 (by linarith)
    unfold qslerp lerp; rw [if_neg this, if_neg this, if_pos h, if_pos h]; exact ⟨rfl, rfl⟩
  · intro h0 h1 i
    unfold lerp
    split
    · have : t = 0 := le_antisymm (by assumption) h0
      rw [this]; ring
    · split
      · have : t = 1 := le_antisymm h1 (by assumption)
        rw [this]; ring
      · simp

/-- **C60** Strictly inside, outside the branches for small angles (the sine of the arc, and twice the arc covered, at
least 2⁻¹³), `qslerp` returns exactly the point at fraction `t` of the shorter great-circle arc: a unit quaternion whose
angle from `q0` is `t` times the whole. -/
theorem C60_slerp_partial (q0 q1 : V4) (u0 : IsUnit4 q0) (u1 : IsUnit4 q1) (t : ℝ) (h0 : 0 < t) (h1 : t < 1)
    (hs : 1 / 8192 ≤ Real.sin (arcBetween q0 q1)) (ht : 1 / 8192 ≤ 2 * t * arcBetween q0 q1) :
    IsSlerp q0 q1 t (qslerp q0 q1 t) ∧ IsUnit4 (qslerp q0 q1 t) ∧
    inner q0 (qslerp q0 q1 t) = Real.cos (t * arcBetween q0 q1) := by
  obtain ⟨e, ψ, he, hψ0, hψ1, -, hq1, hsl⟩ := slerp_form q0 q1 u0 u1
  have hψ := hψ1 hs
  have hU : expU (t * ψ) = Real.sin (t * ψ) := by
    unfold expU; rw [if_neg (not_lt.2 (by rw [hψ]; linarith))]
  have hx := hsl t h0 h1
  rw [hU, hψ] at hx
  refine ⟨(isSlerp_iff (lt_of_lt_of_le (by norm_num) hs).ne' hq1).2 hx, ?_, ?_⟩
  · rw [hx]
    refine (C51_norm _ _).2.2 u0 ?_
    unfold IsUnit4
    unfold IsUnit3 at he
    simp
    linear_combination (Real.sin (t * arcBetween q0 q1) * Real.sin (t * arcBetween q0 q1)) * he + trig (t * arcBetween q0 q1)
  · rw [hx, inner4_eq]
    unfold IsUnit4 at u0
    simp [qplus]
    linear_combination (Real.cos (t * arcBetween q0 q1)) * u0

/-- Concrete: from the identity to the half turn about x, half way. -/
example : let q0 : V4 := ![0, 0, 0, 1]
    let q1 : V4 := ![1, 0, 0, 0]
    IsUnit4 q0 ∧ IsUnit4 q1 ∧ 1 / 8192 ≤ Real.sin (arcBetween q0 q1) ∧ 1 / 8192 ≤ 2 * (1 / 2) * arcBetween q0 q1 := by
  have hp := Real.pi_gt_three
  have : inner (![0, 0, 0, 1] : V4) ![1, 0, 0, 0] = 0 := by rw [inner4_eq]; simp
  have h : arcBetween ![0, 0, 0, 1] ![1, 0, 0, 0] = Real.pi / 2 := by
    unfold arcBetween side
    rw [this]
    simp
  refine ⟨by simp [IsUnit4], by simp [IsUnit4], ?_, ?_⟩
  · rw [h, Real.sin_pi_div_two]; norm_num
  · rw [h]; linarith

/-- the vector part in the series branch against the exact sine -/
theorem expU_close {θ ψ t : ℝ} (h0 : 0 < θ) (hθ : θ ≤ Real.pi / 2) (t0 : 0 < t) (t1 : t < 1)
    (hψ1 : 1 / 8192 ≤ Real.sin θ → ψ = θ) (hψ2 : Real.sin θ < 1 / 8192 → ψ = Real.sin θ) :
    |expU (t * ψ) - Real.sin (t * θ)| ≤ 5 / 10 ^ 13 ∧ |Real.cos (t * ψ) - Real.cos (t * θ)| ≤ 4 / 10 ^ 13 := by
  have cube : ∀ x : ℝ, 0 < x → x - x ^ 3 / 6 < Real.sin x := fun x hx => Real.sin_gt_sub_cube hx
  have small : ∀ x : ℝ, 0 < x → x < 2 / 10 ^ 4 → |x + x ^ 3 / 6 - Real.sin x| ≤ x ^ 3 / 3 := by
    intro x hx hs
    have h1 := cube x hx
    have h2 := Real.sin_le hx.le
    have h3 : 0 < x ^ 3 := by positivity
    rw [abs_le]; constructor <;> linarith
  have htθ : 0 < t * θ := mul_pos t0 h0
  by_cases hb : 1 / 8192 ≤ Real.sin θ
  · rw [hψ1 hb]
    refine ⟨?_, by rw [sub_self, abs_zero]; positivity⟩
    unfold expU
    split
    · rename_i hlt
      have hx : t * θ < 1 / 16384 := by linarith
      have := small (t * θ) htθ (hx.trans (by norm_num))
      refine this.trans ?_
      have h3 : (t * θ) ^ 3 ≤ (1 / 16384) ^ 3 := pow_le_pow_left₀ htθ.le hx.le 3
      norm_num at h3 ⊢
      linarith
    · rw [sub_self, abs_zero]; positivity
  · have hlt := not_le.1 hb
    rw [hψ2 hlt]
    have hpi := Real.pi_lt_d2
    -- a first bound for the angle
    have hj : 2 / Real.pi * θ ≤ Real.sin θ := Real.mul_le_sin h0.le hθ
    have hrough : θ < 2 / 10 ^ 4 := by
      have hpp := Real.pi_pos
      have : 2 * θ ≤ Real.sin θ * Real.pi := by
        have e : 2 / Real.pi * θ * Real.pi = 2 * θ := by field_simp
        rw [← e]
        exact mul_le_mul_of_nonneg_right hj hpp.le
      have : 2 * θ < 1 / 8192 * Real.pi := lt_of_le_of_lt this (mul_lt_mul_of_pos_right hlt hpp)
      norm_num
      linarith
    have hc := cube θ h0
    have hle := Real.sin_le h0.le
    have hfine : θ < 1.0001 / 8192 := by
      have : θ ^ 3 ≤ θ * (2 / 10 ^ 4) ^ 2 := by
        have e : θ ^ 3 = θ * θ ^ 2 := by ring
        rw [e]
        exact mul_le_mul_of_nonneg_left (pow_le_pow_left₀ h0.le hrough.le 2) h0.le
      norm_num at this ⊢
      linarith
    have hs0 : 0 < Real.sin θ := Real.sin_pos_of_pos_of_lt_pi h0 (by linarith [Real.pi_pos])
    generalize Real.sin θ = n at *
    have hcube : θ ^ 3 ≤ 2 / 10 ^ 12 := by
      have := pow_le_pow_left₀ h0.le hfine.le 3
      norm_num at this ⊢
      linarith
    have h3pos : 0 < θ ^ 3 := by positivity
    have htn : 0 < t * n := mul_pos t0 hs0
    have hd : |t * n - t * θ| ≤ θ ^ 3 / 6 := by
      rw [abs_le]
      constructor
      · nlinarith
      · nlinarith
    have hlip : |Real.sin (t * n) - Real.sin (t * θ)| ≤ |t * n - t * θ| := by
      simpa [Real.dist_eq] using Real.lipschitzWith_sin.dist_le_mul (t * n) (t * θ)
    have hlip2 : |Real.cos (t * n) - Real.cos (t * θ)| ≤ |t * n - t * θ| := by
      simpa [Real.dist_eq] using Real.lipschitzWith_cos.dist_le_mul (t * n) (t * θ)
    constructor
    · have he : |expU (t * n) - Real.sin (t * n)| ≤ 1 / 10 ^ 13 := by
        unfold expU
        split
        · rename_i hh
          have h1 := small (t * n) htn (by linarith)
          refine h1.trans ?_
          have h2 : (t * n) ^ 3 ≤ (1 / 16384) ^ 3 := pow_le_pow_left₀ htn.le (by linarith) 3
          norm_num at h2 ⊢
          linarith
        · rw [sub_self, abs_zero]; positivity
      have : |expU (t * n) - Real.sin (t * θ)| ≤ |expU (t * n) - Real.sin (t * n)| + |Real.sin (t * n) - Real.sin (t * θ)| := abs_sub_le _ _ _
      norm_num at *
      linarith
    · norm_num at *
      linarith

theorem arc_range (q0 q1 : V4) : 0 ≤ arcBetween q0 q1 ∧ arcBetween q0 q1 ≤ Real.pi / 2 := by
  refine ⟨Real.arccos_nonneg _, Real.arccos_le_pi_div_two.2 (side_nonneg q0 q1)⟩

theorem unit4_le_one {q : V4} (h : IsUnit4 q) (i : Fin 4) : |q i| ≤ 1 := by
  unfold IsUnit4 at h
  rw [abs_le_one_iff_mul_self_le_one]
  have h0 := mul_self_nonneg (q 0)
  have h1 := mul_self_nonneg (q 1)
  have h2 := mul_self_nonneg (q 2)
  have h3 := mul_self_nonneg (q 3)
  obtain rfl | rfl | rfl | rfl : i = 0 ∨ i = 1 ∨ i = 2 ∨ i = 3 := by fin_cases i <;> simp
  all_goals linarith

/-- **C60** In all cases, also in the branches for small angles, every component of the result is within 1e-12 of the
exact point `x` of the great circle, and the squared length is at least 1 and less than 1 + 2e-17; for the same rotation
(`q1 = ±q0`) the result is `q0`. -/
theorem C60_slerp_close (q0 q1 : V4) (u0 : IsUnit4 q0) (u1 : IsUnit4 q1) (t : ℝ) (h0 : 0 < t) (h1 : t < 1) :
    (arcBetween q0 q1 ≠ 0 → ∀ x, IsSlerp q0 q1 t x → ∀ i, |qslerp q0 q1 t i - x i| ≤ 1 / 10 ^ 12) ∧
    (arcBetween q0 q1 = 0 → qslerp q0 q1 t = q0) ∧
    1 ≤ sqNorm (qslerp q0 q1 t) ∧ sqNorm (qslerp q0 q1 t) < 1 + 2 / 10 ^ 17 := by
  obtain ⟨e, ψ, he, hψ0, hψ1, hψ2, hq1, hsl⟩ := slerp_form q0 q1 u0 u1
  obtain ⟨a0, a1⟩ := arc_range q0 q1
  have hx := hsl t h0 h1
  refine ⟨?_, ?_, ?_⟩
  · intro hne x hX i
    have hpos : 0 < arcBetween q0 q1 := lt_of_le_of_ne a0 (Ne.symm hne)
    have hsin : Real.sin (arcBetween q0 q1) ≠ 0 :=
      (Real.sin_pos_of_pos_of_lt_pi hpos (by linarith [Real.pi_pos])).ne'
    rw [isSlerp_iff hsin hq1] at hX
    obtain ⟨b1, b2⟩ := expU_close hpos a1 h0 h1 hψ1 hψ2
    generalize arcBetween q0 q1 = θ at *
    have hdiff : qslerp q0 q1 t i - x i = qplus q0 ![(expU (t * ψ) - Real.sin (t * θ)) * e 0, (expU (t * ψ) - Real.sin (t * θ)) * e 1,
        (expU (t * ψ) - Real.sin (t * θ)) * e 2, Real.cos (t * ψ) - Real.cos (t * θ)] i := by
      rw [hx, hX]
      obtain rfl | rfl | rfl | rfl : i = 0 ∨ i = 1 ∨ i = 2 ∨ i = 3 := by fin_cases i <;> simp
      all_goals
        simp [qplus]
        ring
    rw [hdiff]
    generalize expU (t * ψ) - Real.sin (t * θ) = u at *
    generalize Real.cos (t * ψ) - Real.cos (t * θ) = w at *
    -- a product with a unit quaternion keeps the length
    have hn : sqNorm (qplus q0 ![u * e 0, u * e 1, u * e 2, w]) = u * u + w * w := by
      rw [(C51_norm _ _).1, (unit_iff q0).1 u0, one_mul, sq4]
      unfold IsUnit3 at he
      simp
      linear_combination (u * u) * he
    have hi : qplus q0 ![u * e 0, u * e 1, u * e 2, w] i * qplus q0 ![u * e 0, u * e 1, u * e 2, w] i ≤ u * u + w * w := by
      rw [← hn, sq4]
      generalize qplus q0 ![u * e 0, u * e 1, u * e 2, w] = y
      have c0 := mul_self_nonneg (y 0)
      have c1 := mul_self_nonneg (y 1)
      have c2 := mul_self_nonneg (y 2)
      have c3 := mul_self_nonneg (y 3)
      obtain rfl | rfl | rfl | rfl : i = 0 ∨ i = 1 ∨ i = 2 ∨ i = 3 := by fin_cases i <;> simp
      all_goals linarith
    apply abs_le_of_sq_le_sq _ (by positivity)
    have : |u| * |u| + |w| * |w| ≤ (1 / 10 ^ 12) ^ 2 := by
      have := mul_le_mul b1 b1 (abs_nonneg _) (by positivity)
      have := mul_le_mul b2 b2 (abs_nonneg _) (by positivity)
      norm_num at *
      linarith
    rw [abs_mul_abs_self, abs_mul_abs_self] at this
    nlinarith
  · intro hz
    have : ψ = 0 := by
      rw [hψ2 (by rw [hz, Real.sin_zero]; norm_num), hz, Real.sin_zero]
    rw [hx, this]
    apply ext4 <;> simp [qplus, expU]
  · rw [hx, (C51_norm _ _).1, (unit_iff q0).1 u0, one_mul, expU_sqNorm he]
    have hx0 : 0 ≤ t * ψ := mul_nonneg h0.le hψ0
    generalize t * ψ = y at *
    unfold expU
    split
    · rename_i hs
      have hs1 := Real.sin_le hx0
      have hs2 : 0 ≤ Real.sin y := Real.sin_nonneg_of_nonneg_of_le_pi hx0 (by linarith [Real.pi_gt_three])
      have hs3 : y - y ^ 3 / 6 ≤ Real.sin y := by
        rcases hx0.eq_or_lt with h | h
        · rw [← h]; simp
        · exact (Real.sin_gt_sub_cube h).le
      have h3 : 0 ≤ y ^ 3 := by positivity
      have h3' : y ^ 3 ≤ (1 / 16384) ^ 3 := pow_le_pow_left₀ hx0 (by linarith) 3
      have hu1 : y + y ^ 3 / 6 - Real.sin y ≤ y ^ 3 / 3 := by linarith
      have hu0 : 0 ≤ y + y ^ 3 / 6 - Real.sin y := by linarith
      have hu2 : y + y ^ 3 / 6 + Real.sin y ≤ 1.0001 / 8192 := by norm_num at h3' ⊢; linarith
      have hu3 : 0 ≤ y + y ^ 3 / 6 + Real.sin y := by linarith
      constructor
      · have := mul_nonneg hu0 hu3; linarith
      · have h4 : y ^ 3 / 3 ≤ 8 / 10 ^ 14 := by norm_num at h3' ⊢; linarith
        have := mul_le_mul (hu1.trans h4) hu2 hu3 (by positivity)
        norm_num at this ⊢
        linarith
    · constructor
      · simp
      · simp

/-- what a user expects: every intermediate quaternion has length exactly 1 -/
def C60_claim : Prop := ∀ (q0 q1 : V4) (t : ℝ), IsUnit4 q0 → IsUnit4 q1 → 0 < t → t < 1 → IsUnit4 (qslerp q0 q1 t)

/-- **C60** In the series branch the length is not exactly 1. -/
theorem C60_negation : ¬ C60_claim := by
  intro h
  have u0 : IsUnit4 ![0, 0, 0, 1] := by simp [IsUnit4]
  have u1 : IsUnit4 ![40000 / 400000001, 0, 0, 399999999 / 400000001] := by simp [IsUnit4]; norm_num
  have hu := h _ _ (1 / 2) u0 u1 (by norm_num) (by norm_num)
  obtain ⟨e, ψ, he, hψ0, hψ1, hψ2, hq1, hsl⟩ := slerp_form _ _ u0 u1
  have hin : inner (![0, 0, 0, 1] : V4) ![40000 / 400000001, 0, 0, 399999999 / 400000001] = 399999999 / 400000001 := by
    rw [inner4_eq]; simp
  have hsin : Real.sin (arcBetween ![0, 0, 0, 1] ![40000 / 400000001, 0, 0, 399999999 / 400000001]) = 40000 / 400000001 := by
    unfold arcBetween side
    rw [hin, if_neg (by norm_num), one_mul, Real.sin_arccos,
      show (1 : ℝ) - (399999999 / 400000001) ^ 2 = (40000 / 400000001) * (40000 / 400000001) by norm_num,
      Real.sqrt_mul_self (by norm_num)]
  have hψ : ψ = 40000 / 400000001 := by rw [hψ2 (by rw [hsin]; norm_num), hsin]
  rw [unit_iff, hsl _ (by norm_num) (by norm_num), (C51_norm _ _).1, (unit_iff _).1 u0, one_mul, expU_sqNorm he, hψ] at hu
  have hy : (1 / 2 * (40000 / 400000001) : ℝ) = 20000 / 400000001 := by norm_num
  rw [hy] at hu
  have hs : Real.sin (20000 / 400000001) < 20000 / 400000001 := Real.sin_lt (by norm_num)
  have hs0 : 0 < Real.sin (20000 / 400000001) :=
    Real.sin_pos_of_pos_of_lt_pi (by norm_num) (by linarith [Real.pi_gt_three])
  unfold expU at hu
  rw [if_pos (by norm_num)] at hu
  have h1 : (0 : ℝ) < (20000 / 400000001) ^ 3 / 6 := by norm_num
  have := mul_pos (show 0 < (20000 / 400000001 : ℝ) + (20000 / 400000001) ^ 3 / 6 - Real.sin (20000 / 400000001) by linarith)
    (show 0 < (20000 / 400000001 : ℝ) + (20000 / 400000001) ^ 3 / 6 + Real.sin (20000 / 400000001) by linarith)
  linarith

/-! ## Interpolating transformations -/

open Transformation

/-- **C60** `slerpTransformations` of two transformations: always a transformation with a unit quaternion (the
constructor normalises), equal to the first at 0 and to the second at 1, with linearly interpolated translation. -/
theorem C60_slerpTransformations (T0 T1 : Transformation) (u0 : IsUnit4 T0.q) (u1 : IsUnit4 T1.q) (s : ℝ) :
    IsUnit4 (slerp T0 T1 s).q ∧ (s ≤ 0 → slerp T0 T1 s = T0) ∧ (1 ≤ s → slerp T0 T1 s = T1) ∧
    (0 ≤ s → s ≤ 1 → ∀ i, (slerp T0 T1 s).t i = (1 - s) * T0.t i + s * T1.t i) := by
  have c0 : s ≤ 0 → slerp T0 T1 s = T0 := by
    intro h
    unfold slerp
    rw [((C60_ends T0.q T1.q T0.t T1.t s).1 h).1, ((C60_ends T0.q T1.q T0.t T1.t s).1 h).2, mkQT_unit u0]
  have c1 : 1 ≤ s → slerp T0 T1 s = T1 := by
    intro h
    unfold slerp
    rw [((C60_ends T0.q T1.q T0.t T1.t s).2.1 h).1, ((C60_ends T0.q T1.q T0.t T1.t s).2.1 h).2, mkQT_unit u1]
  refine ⟨?_, c0, c1, (C60_ends T0.q T1.q T0.t T1.t s).2.2⟩
  rcases le_or_gt s 0 with h | h
  · rw [c0 h]; exact u0
  rcases le_or_gt 1 s with g | g
  · rw [c1 g]; exact u1
  · have h1 := (C60_slerp_close T0.q T1.q u0 u1 s h g).2.2.1
    unfold slerp mkQT
    rw [unit_iff, sq4]
    simp only
    generalize qslerp T0.q T1.q s = q at *
    have hn : norm q * norm q = sqNorm q := norm_mul_self q
    rw [sq4] at hn h1
    have : norm q ≠ 0 := by rintro e; rw [e] at hn; linarith
    field_simp
    nlinarith

/-- **C60** `interpolateTransformations` gives the end poses at the end times (and outside the interval), in either order
of the end points, for end times at least 1e-14 apart; and it does not matter in which order they are given. -/
theorem C60_interpolate (T0 T1 : Transformation) (u0 : IsUnit4 T0.q) (u1 : IsUnit4 T1.q) (s0 s1 si : ℝ) (h : 1 / 10 ^ 14 ≤ s1 - s0) :
    interpolate T0 s0 T1 s1 si = slerp T0 T1 ((si - s0) / (s1 - s0)) ∧
    interpolate T1 s1 T0 s0 si = interpolate T0 s0 T1 s1 si ∧
    (si ≤ s0 → interpolate T0 s0 T1 s1 si = T0) ∧ (s1 ≤ si → interpolate T0 s0 T1 s1 si = T1) ∧
    (s0 ≤ si → si ≤ s1 → ∀ i, (s1 - s0) * (interpolate T0 s0 T1 s1 si).t i = (s1 - si) * T0.t i + (si - s0) * T1.t i) := by
  have hlt : 0 < s1 - s0 := lt_of_lt_of_le (by positivity) h
  have e1 : interpolate T0 s0 T1 s1 si = slerp T0 T1 ((si - s0) / (s1 - s0)) := by
    unfold interpolate interpolateOrdered
    rw [if_neg (by linarith), max_eq_right h]
  have e2 : interpolate T1 s1 T0 s0 si = slerp T0 T1 ((si - s0) / (s1 - s0)) := by
    unfold interpolate interpolateOrdered
    rw [if_pos (by linarith), max_eq_right h]
  obtain ⟨-, k0, k1, kl⟩ := C60_slerpTransformations T0 T1 u0 u1 ((si - s0) / (s1 - s0))
  refine ⟨e1, by rw [e1, e2], ?_, ?_, ?_⟩
  · intro g
    rw [e1]
    exact k0 (div_nonpos_of_nonpos_of_nonneg (by linarith) hlt.le)
  · intro g
    rw [e1]
    exact k1 ((one_le_div hlt).2 (by linarith))
  · intro g1 g2 i
    rw [e1, kl (div_nonneg (by linarith) hlt.le) ((div_le_one hlt).2 (by linarith))]
    field_simp
    ring

/-- Concrete: from the identity to the half turn about x displaced by (1, 2, 3), between the times 10 and 20. -/
example : let T0 : Transformation := ⟨![0, 0, 0, 1], 0⟩
    let T1 : Transformation := ⟨![1, 0, 0, 0], ![1, 2, 3]⟩
    IsUnit4 T0.q ∧ IsUnit4 T1.q ∧ (1 : ℝ) / 10 ^ 14 ≤ 20 - 10 := by
  refine ⟨by simp [IsUnit4], by simp [IsUnit4], by norm_num⟩

end Verif.Kinematics
