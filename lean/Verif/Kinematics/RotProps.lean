import Verif.Kinematics.Rot
import Verif.Kinematics.QuatProps
import Mathlib.Analysis.Real.Pi.Bounds
import Mathlib.Analysis.SpecialFunctions.Trigonometric.Bounds

/-!
# Rotations: C54, C55, C56, C67
-/

namespace Verif.Kinematics

open Matrix

theorem trig (a : ℝ) : Real.cos a * Real.cos a + Real.sin a * Real.sin a = 1 := by
  nlinarith [Real.sin_sq_add_cos_sq a]

/-! ## C56: axis-angle to rotation matrix -/

/-- the specification determines the matrix -/
theorem IsRotationAbout.unique {C D : M3} {e : V3} {θ : ℝ} (he : IsUnit3 e) (hC : IsRotationAbout C e θ)
    (hD : IsRotationAbout D e θ) : C = D := by
  apply Matrix.mulVec_injective
  funext v
  have hperp : inner e (v - inner e v • e) = 0 := by
    unfold IsUnit3 at he
    simp only [inner, Fin.sum_univ_succ, Fin.sum_univ_zero]
    simp
    linear_combination (-(e 0 * v 0 + (e 1 * v 1 + e 2 * v 2))) * he
  have hv : v = inner e v • e + (v - inner e v • e) := by simp
  rw [hv, Matrix.mulVec_add, Matrix.mulVec_add, Matrix.mulVec_smul, Matrix.mulVec_smul, hC.1, hD.1, hC.2 _ hperp,
    hD.2 _ hperp]

theorem rodrigues_about (a : ℝ) (e : V3) (he : IsUnit3 e) : IsRotationAbout (rodrigues a e) e a := by
  unfold IsUnit3 at he
  constructor
  · apply ext3 <;> rw [mv3] <;> simp [rodrigues]
    · linear_combination (e 0 * (1 - Real.cos a)) * he
    · linear_combination (e 1 * (1 - Real.cos a)) * he
    · linear_combination (e 2 * (1 - Real.cos a)) * he
  · intro v hv
    simp only [inner, Fin.sum_univ_succ, Fin.sum_univ_zero] at hv
    simp at hv
    apply ext3 <;> rw [mv3] <;> simp [rodrigues, cross]
    · linear_combination (e 0 * (1 - Real.cos a)) * hv
    · linear_combination (e 1 * (1 - Real.cos a)) * hv
    · linear_combination (e 2 * (1 - Real.cos a)) * hv

/-- the quaternion of a rotation by `a` about `e` -/
noncomputable def aaQuat (a : ℝ) (e : V3) : V4 :=
  ![e 0 * Real.sin (a / 2), e 1 * Real.sin (a / 2), e 2 * Real.sin (a / 2), Real.cos (a / 2)]

theorem aaQuat_unit (a : ℝ) (e : V3) (he : IsUnit3 e) : IsUnit4 (aaQuat a e) := by
  unfold IsUnit3 at he
  unfold IsUnit4
  simp [aaQuat]
  linear_combination (Real.sin (a / 2) * Real.sin (a / 2)) * he + trig (a / 2)

theorem rodrigues_quat (a : ℝ) (e : V3) (he : IsUnit3 e) : rodrigues a e = quat2r (aaQuat a e) := by
  unfold IsUnit3 at he
  have hc : Real.cos a = Real.cos (a / 2) * Real.cos (a / 2) - Real.sin (a / 2) * Real.sin (a / 2) := by
    rw [← Real.cos_add]; congr 1; ring
  have hs : Real.sin a = 2 * Real.sin (a / 2) * Real.cos (a / 2) := by
    rw [← Real.sin_two_mul]; congr 1; ring
  have ht := trig (a / 2)
  ext i j
  fin_cases i <;> fin_cases j <;> simp [rodrigues, quat2r, aaQuat, hc, hs]
  all_goals grind

theorem rodrigues_rotation (a : ℝ) (e : V3) (he : IsUnit3 e) : IsRotation (rodrigues a e) := by
  rw [rodrigues_quat a e he]; exact C52_rotation _ (aaQuat_unit a e he)

theorem rodrigues_add (a b : ℝ) (e : V3) (he : IsUnit3 e) : rodrigues a e * rodrigues b e = rodrigues (a + b) e := by
  apply IsRotationAbout.unique he ?_ (rodrigues_about _ _ he)
  obtain ⟨a1, a2⟩ := rodrigues_about a e he
  obtain ⟨b1, b2⟩ := rodrigues_about b e he
  constructor
  · rw [← Matrix.mulVec_mulVec, b1, a1]
  · intro v hv
    have hx : inner e (cross e v) = 0 := by
      simp only [inner, Fin.sum_univ_succ, Fin.sum_univ_zero]; simp [cross]; ring
    have hxx : cross e (cross e v) = -v := by
      unfold IsUnit3 at he
      simp only [inner, Fin.sum_univ_succ, Fin.sum_univ_zero] at hv
      simp at hv
      apply ext3 <;> simp [cross]
      · linear_combination (e 0) * hv - (v 0) * he
      · linear_combination (e 1) * hv - (v 1) * he
      · linear_combination (e 2) * hv - (v 2) * he
    rw [← Matrix.mulVec_mulVec, b2 v hv, Matrix.mulVec_sub, Matrix.mulVec_smul, Matrix.mulVec_smul, a2 v hv,
      a2 _ hx, hxx, Real.cos_add, Real.sin_add]
    funext i
    simp
    ring

/-- what users expect of `axisAngle2R(angle, axis)` -/
def C56_claim : Prop := ∀ (a : ℝ) (e : V3), IsUnit3 e → IsRotationAbout (axisAngle2R a e) e a

/-- **C56** that is false: every negative angle gives the identity. -/
theorem C56_negation : ¬ C56_claim := by
  intro h
  have he : IsUnit3 ![0, 0, 1] := by simp [IsUnit3]
  have h1 := h (-(Real.pi / 2)) ![0, 0, 1] he
  have hneg : -(Real.pi / 2) < (1 / 10 ^ 12 : ℝ) := by
    have := Real.pi_pos
    have h2 : (0 : ℝ) < 1 / 10 ^ 12 := by positivity
    linarith
  rw [axisAngle2R, if_pos hneg] at h1
  have h2 := h1.2 ![1, 0, 0] (by simp [inner, Fin.sum_univ_succ])
  have h3 := congrFun h2 0
  simp [cross] at h3

theorem unit_le_one {e : V3} (he : IsUnit3 e) (i : Fin 3) : |e i| ≤ 1 := by
  unfold IsUnit3 at he
  rw [← sq_le_one_iff_abs_le_one]
  have h0 := mul_self_nonneg (e 0)
  have h1 := mul_self_nonneg (e 1)
  have h2 := mul_self_nonneg (e 2)
  obtain rfl | rfl | rfl : i = 0 ∨ i = 1 ∨ i = 2 := by fin_cases i <;> simp
  all_goals nlinarith

/-- a rotation by a small angle differs from the identity by at most `2·angle` in every entry -/
theorem rodrigues_near_one (a : ℝ) (e : V3) (he : IsUnit3 e) (h0 : 0 ≤ a) (h1 : a ≤ 1) (i j : Fin 3) :
    |rodrigues a e i j - (1 : M3) i j| ≤ 2 * a := by
  have hs : |Real.sin a| ≤ a := by
    rw [abs_le]
    constructor
    · have := Real.sin_nonneg_of_nonneg_of_le_pi h0 (by linarith [Real.pi_gt_three]); linarith
    · exact Real.sin_le h0
  have hc : |1 - Real.cos a| ≤ a := by
    have h2 := Real.one_sub_sq_div_two_le_cos (x := a)
    have h3 := Real.cos_le_one a
    rw [abs_le]; constructor <;> nlinarith
  have hp : ∀ x y : ℝ, |x| ≤ 1 → |y| ≤ 1 → |(1 - Real.cos a) * x + Real.sin a * y| ≤ 2 * a := by
    intro x y hx hy
    have A : |(1 - Real.cos a) * x| ≤ a * 1 := by rw [abs_mul]; exact mul_le_mul hc hx (abs_nonneg _) h0
    have B : |Real.sin a * y| ≤ a * 1 := by rw [abs_mul]; exact mul_le_mul hs hy (abs_nonneg _) h0
    calc _ ≤ _ := abs_add_le _ _
      _ ≤ 2 * a := by linarith
  have u := unit_le_one he
  have m : ∀ i j, |e i * e j| ≤ 1 := fun i j => by
    rw [abs_mul]; exact mul_le_one₀ (u i) (abs_nonneg _) (u j)
  have d : ∀ i, |-(1 - e i * e i)| ≤ 1 := fun i => by
    have := m i i
    rw [abs_le] at this ⊢
    have h2 := mul_self_nonneg (e i)
    constructor <;> linarith
  have z : |(0 : ℝ)| ≤ 1 := by simp
  fin_cases i <;> fin_cases j <;> simp [rodrigues]
  · convert hp _ 0 (d 0) z using 2; ring
  · convert hp _ _ (m 0 1) (u 2) using 2; ring
  · convert hp _ _ (m 0 2) ((abs_neg (e 1)).trans_le (u 1)) using 2; ring
  · convert hp _ _ (m 0 1) ((abs_neg (e 2)).trans_le (u 2)) using 2; ring
  · convert hp _ 0 (d 1) z using 2; ring
  · convert hp _ _ (m 1 2) (u 0) using 2; ring
  · convert hp _ _ (m 0 2) (u 1) using 2; ring
  · convert hp _ _ (m 1 2) ((abs_neg (e 0)).trans_le (u 0)) using 2; ring
  · convert hp _ 0 (d 2) z using 2; ring

/-- **C56, what holds**: for angles from `1e-12` on, `axisAngle2R` is the rotation by the angle about the axis,
a rotation matrix, with the rotation by the opposite angle as inverse and transpose; for angles in `[0, 1e-12)`
every entry is within twice the angle of the rotation matrix `D` by that angle. -/
theorem C56_partial (a : ℝ) (e : V3) (he : IsUnit3 e) :
    (1 / 10 ^ 12 ≤ a → IsRotationAbout (axisAngle2R a e) e a ∧ IsRotation (axisAngle2R a e) ∧
      ∀ D, IsRotationAbout D e (-a) → axisAngle2R a e * D = 1 ∧ (axisAngle2R a e).transpose = D) ∧
    (0 ≤ a → a < 1 / 10 ^ 12 → ∀ D, IsRotationAbout D e a → ∀ i j, |D i j - axisAngle2R a e i j| ≤ 2 * a) := by
  constructor
  · intro h
    rw [axisAngle2R, if_neg (not_lt.2 h)]
    have h0 : rodrigues 0 e = 1 := by
      ext i j; fin_cases i <;> fin_cases j <;> simp [rodrigues]
    refine ⟨rodrigues_about a e he, rodrigues_rotation a e he, fun D hD => ?_⟩
    rw [hD.unique he (rodrigues_about (-a) e he)]
    constructor
    · rw [rodrigues_add _ _ _ he, add_neg_cancel, h0]
    · ext i j; fin_cases i <;> fin_cases j <;> simp [rodrigues, Matrix.transpose_apply] <;> ring
  · intro h0 h D hD i j
    rw [axisAngle2R, if_pos h, hD.unique he (rodrigues_about a e he)]
    exact rodrigues_near_one a e he h0 (h.le.trans (by norm_num)) i j

/-- Concrete: a quarter turn about z meets the premises. -/
example : IsUnit3 ![0, 0, 1] ∧ (1 / 10 ^ 12 : ℝ) ≤ Real.pi / 2 := by
  constructor
  · simp [IsUnit3]
  · have := Real.pi_gt_three; norm_num; linarith

/-- `|x|` as written in the code -/
theorem norm_eq (x : V3) : √(x 0 * x 0 + x 1 * x 1 + x 2 * x 2) = norm x := by
  unfold norm; rw [sq3]

theorem norm_sq (x : V3) : norm x * norm x = x 0 * x 0 + x 1 * x 1 + x 2 * x 2 := by
  unfold norm
  rw [sq3]
  apply Real.mul_self_sqrt
  nlinarith [mul_self_nonneg (x 0), mul_self_nonneg (x 1), mul_self_nonneg (x 2)]

theorem norm_nonneg {n : Nat} (x : Fin n → ℝ) : 0 ≤ norm x := Real.sqrt_nonneg _

theorem unit_of_norm {x : V3} (h : norm x ≠ 0) : IsUnit3 (fun i => x i / norm x) := by
  unfold IsUnit3
  have := norm_sq x
  field_simp
  linarith

/-- **C56** the axis-angle vector form: a rotation by `|x|` about `x`, for `|x| ≥ 1e-12`. -/
theorem C56_vector_partial (x : V3) (h : 1 / 10 ^ 12 ≤ norm x) :
    IsRotationAbout (axisAngle2RV x) (fun i => x i / norm x) (norm x) ∧ IsRotation (axisAngle2RV x) := by
  have hpos : 0 < norm x := lt_of_lt_of_le (by positivity) h
  have hu := unit_of_norm hpos.ne'
  have e : axisAngle2RV x = axisAngle2R (norm x) (fun i => x i / norm x) := by
    unfold axisAngle2RV
    simp only [norm_eq]
    rw [if_neg (not_lt.2 h)]
    congr 1
    funext i
    fin_cases i <;> simp [div_eq_mul_inv]
  rw [e]
  exact ⟨((C56_partial _ _ hu).1 h).1, ((C56_partial _ _ hu).1 h).2.1⟩

/-! ## C54: axis-angle to quaternion and back -/

/-- what users expect of `axisAngle2quat` -/
def C54_claim : Prop := ∀ a : V3, IsUnit4 (axisAngle2quat a) ∧
  (norm a ≠ 0 → IsRotationAbout (quat2r (axisAngle2quat a)) (fun i => a i / norm a) (norm a))

theorem norm_axis (x : ℝ) (h : 0 ≤ x) : norm ![x, 0, 0] = x := by
  unfold norm; rw [sq3]; simp [Real.sqrt_mul_self h]

/-- **C54** that is false for small angles: the series has the wrong sign, so the quaternion is longer than 1. -/
theorem C54_negation : ¬ C54_claim := by
  intro h
  have h1 := (h ![1 / 10000, 0, 0]).1
  have hn : norm ![(1 : ℝ) / 10000, 0, 0] = 1 / 10000 := norm_axis _ (by norm_num)
  unfold axisAngle2quat at h1
  simp only [hn] at h1
  rw [if_pos (by unfold isSmall; norm_num)] at h1
  unfold IsUnit4 at h1
  simp at h1
  have hs : Real.sin (1 / 10000 * (1 / 2)) < 1 / 10000 * (1 / 2) := Real.sin_lt (by norm_num)
  have hs0 : 0 < Real.sin (1 / 10000 * (1 / 2)) :=
    Real.sin_pos_of_pos_of_lt_pi (by norm_num) (by linarith [Real.pi_gt_three])
  have ht := trig (1 / 10000 * (1 / 2))
  norm_num at h1 hs hs0 ht
  nlinarith

theorem axisAngle2quat_large {a : V3} (h : ¬ isSmall (norm a)) :
    axisAngle2quat a = aaQuat (norm a) (fun i => a i / norm a) := by
  unfold axisAngle2quat aaQuat
  simp only [if_neg h]
  apply ext4 <;> simp <;> ring_nf

/-- **C54, what holds**: outside the series branch (`|a| ≥ 2⁻¹³`) and for the zero vector, the quaternion is a
unit quaternion representing the rotation by `|a|` about `a`, the same as `axisAngle2R(a)`; inside the series
branch its squared length exceeds 1 by less than `|a|⁴ / 20`. -/
theorem C54_partial (a : V3) :
    (1 / 8192 ≤ norm a → IsUnit4 (axisAngle2quat a) ∧
      IsRotationAbout (quat2r (axisAngle2quat a)) (fun i => a i / norm a) (norm a) ∧
      quat2r (axisAngle2quat a) = axisAngle2RV a) ∧
    (a = 0 → axisAngle2quat a = quatIdentity) ∧
    (0 < norm a → norm a < 1 / 8192 →
      1 < sqNorm (axisAngle2quat a) ∧ sqNorm (axisAngle2quat a) < 1 + norm a ^ 4 / 20) := by
  refine ⟨?_, ?_, ?_⟩
  · intro h
    have hpos : 0 < norm a := lt_of_lt_of_le (by norm_num) h
    have hu := unit_of_norm hpos.ne'
    have he := axisAngle2quat_large (not_lt.2 h)
    have hab : IsRotationAbout (quat2r (axisAngle2quat a)) (fun i => a i / norm a) (norm a) := by
      rw [he, ← rodrigues_quat _ _ hu]; exact rodrigues_about _ _ hu
    refine ⟨by rw [he]; exact aaQuat_unit _ _ hu, hab, ?_⟩
    exact hab.unique hu (C56_vector_partial a (le_trans (by norm_num) h)).1
  · rintro rfl
    have : norm (0 : V3) = 0 := by simp [norm, sqNorm]
    unfold axisAngle2quat
    simp only [this]
    apply ext4 <;> simp [quatIdentity]
  · intro hpos hlt
    have hsq := norm_sq a
    generalize ht : norm a = θ at *
    have hs1 : Real.sin (θ * (1 / 2)) < θ * (1 / 2) := Real.sin_lt (by linarith)
    have hs2 : θ * (1 / 2) - (θ * (1 / 2)) ^ 3 / 6 < Real.sin (θ * (1 / 2)) :=
      Real.sin_gt_sub_cube (by linarith)
    have htr := trig (θ * (1 / 2))
    have hval : sqNorm (axisAngle2quat a) =
        (θ * (1 / 2 + θ * θ * (1 / 48))) ^ 2 + Real.cos (θ * (1 / 2)) * Real.cos (θ * (1 / 2)) := by
      rw [sq4]
      unfold axisAngle2quat
      simp only [ht]
      rw [if_pos (show isSmall θ from hlt)]
      simp
      linear_combination (-((2⁻¹ + θ * θ * 48⁻¹) ^ 2)) * hsq
    rw [hval]
    generalize Real.sin (θ * (1 / 2)) = s at *
    generalize Real.cos (θ * (1 / 2)) = c at *
    have hc2 : c * c = 1 - s * s := by linarith
    rw [hc2]
    have hs0 : 0 < s := by nlinarith [pow_pos hpos 3, mul_pos hpos hpos]
    have h2 : 0 < θ * θ := mul_pos hpos hpos
    have h3 : 0 < θ * θ * θ := mul_pos h2 hpos
    have h4 : 0 < θ * θ * θ * θ := mul_pos h3 hpos
    constructor
    · nlinarith
    · have e1 : θ * (1 / 2 + θ * θ * (1 / 48)) - s < 1 / 24 * (θ * θ * θ) := by nlinarith
      have e2 : θ * (1 / 2 + θ * θ * (1 / 48)) + s < 11 / 10 * θ := by nlinarith
      have e3 : 0 < θ * (1 / 2 + θ * θ * (1 / 48)) - s := by nlinarith
      have e4 : (θ * (1 / 2 + θ * θ * (1 / 48)) - s) * (θ * (1 / 2 + θ * θ * (1 / 48)) + s) <
          1 / 24 * (θ * θ * θ) * (11 / 10 * θ) :=
        mul_lt_mul'' e1 e2 e3.le (by linarith)
      nlinarith

theorem norm_scale (a : V3) (s : ℝ) (hs : 0 ≤ s) : norm (fun i => a i * s) = norm a * s := by
  unfold norm
  rw [sq3, sq3, show a 0 * s * (a 0 * s) + a 1 * s * (a 1 * s) + a 2 * s * (a 2 * s) =
    (a 0 * a 0 + a 1 * a 1 + a 2 * a 2) * (s * s) by ring, Real.sqrt_mul, Real.sqrt_mul_self hs]
  nlinarith [mul_self_nonneg (a 0), mul_self_nonneg (a 1), mul_self_nonneg (a 2)]

theorem eps_sq {q : V4} (h : IsUnit4 q) : norm (qeps q) * norm (qeps q) = 1 - q 3 * q 3 := by
  rw [norm_sq]
  unfold IsUnit4 at h
  simp [qeps]; linarith

/-- the half angle of `quat2AxisAngle`, outside the small branch: its sine and cosine are those of the
quaternion -/
theorem scale_spec {q : V4} (h : IsUnit4 q) (hn : 1 / 8192 ≤ norm (qeps q)) :
    ∃ φ, (1 / 8192 : ℝ) ≤ φ ∧ φ ≤ Real.pi ∧ Real.cos φ = q 3 ∧ Real.sin φ = norm (qeps q) ∧
      quat2AxisAngle q = fun i => qeps q i * (2 * (φ / norm (qeps q))) := by
  have hsq := eps_sq h
  have hpos : 0 < norm (qeps q) := lt_of_lt_of_le (by norm_num) hn
  set n := norm (qeps q) with hndef
  have hq1 : -1 ≤ q 3 ∧ q 3 ≤ 1 := by constructor <;> nlinarith
  have hn1 : n ≤ 1 := by nlinarith [mul_self_nonneg (q 3)]
  have harc : n ≤ Real.arcsin n := by
    rw [Real.le_arcsin_iff_sin_le' ⟨by linarith [Real.pi_pos], by linarith [Real.pi_gt_three]⟩]
    exact Real.sin_le hpos.le
  by_cases h1 : |q 3| < n
  · refine ⟨Real.arccos (q 3), ?_, Real.arccos_le_pi _, Real.cos_arccos hq1.1 hq1.2, ?_, ?_⟩
    · -- the angle is at least its sine
      have hsin : Real.sin (Real.arccos (q 3)) = n := by
        rw [Real.sin_arccos, show 1 - q 3 ^ 2 = n * n by rw [hsq]; ring]; exact Real.sqrt_mul_self hpos.le
      have := Real.sin_le (Real.arccos_nonneg (q 3))
      linarith
    · rw [Real.sin_arccos, show 1 - q 3 ^ 2 = n * n by rw [hsq]; ring]; exact Real.sqrt_mul_self hpos.le
    · unfold quat2AxisAngle; simp only [qeta, ← hndef, if_pos h1]
  · have hlt := not_lt.1 h1
    by_cases h2 : q 3 > 0
    · refine ⟨Real.arcsin n, by linarith, ?_, ?_, Real.sin_arcsin (by linarith) hn1, ?_⟩
      · linarith [Real.arcsin_le_pi_div_two n, Real.pi_pos]
      · rw [Real.cos_arcsin, show 1 - n ^ 2 = q 3 * q 3 by rw [pow_two, hsq]; ring]; exact Real.sqrt_mul_self h2.le
      · unfold quat2AxisAngle arcSinXOverX
        simp only [qeta, ← hndef, if_neg h1, if_pos h2, abs_of_pos hpos]
        rw [if_neg (show ¬ isSmall n from not_lt.2 hn)]
    · refine ⟨Real.pi - Real.arcsin n, ?_, ?_, ?_, ?_, ?_⟩
      · linarith [Real.arcsin_le_pi_div_two n, Real.pi_gt_three]
      · linarith
      · rw [Real.cos_pi_sub, Real.cos_arcsin, show 1 - n ^ 2 = (-q 3) * (-q 3) by rw [pow_two, hsq]; ring,
          Real.sqrt_mul_self (by linarith)]; ring
      · rw [Real.sin_pi_sub]; exact Real.sin_arcsin (by linarith) hn1
      · unfold quat2AxisAngle; simp only [qeta, ← hndef, if_neg h1, if_neg h2]

/-- **C54** The exponential inverts the logarithm: `axisAngle2quat(quat2AxisAngle(q)) = q` for every unit
quaternion whose vector part is not shorter than `2⁻¹³` (both signs, all branches), and the axis-angle vector
is at most `2π` long. -/
theorem C54_exp_log_partial (q : V4) (h : IsUnit4 q) (hn : 1 / 8192 ≤ norm (qeps q)) :
    axisAngle2quat (quat2AxisAngle q) = q ∧ norm (quat2AxisAngle q) ≤ 2 * Real.pi := by
  obtain ⟨φ, h1, h2, hc, hs, he⟩ := scale_spec h hn
  have hpos : 0 < norm (qeps q) := lt_of_lt_of_le (by norm_num) hn
  have hφ : 0 < φ := lt_of_lt_of_le (by norm_num) h1
  have hnorm : norm (quat2AxisAngle q) = 2 * φ := by
    rw [he, norm_scale _ _ (by positivity)]; field_simp
  refine ⟨?_, by rw [hnorm]; linarith⟩
  rw [axisAngle2quat_large (show ¬ isSmall _ from not_lt.2 (by rw [hnorm]; linarith)), hnorm, he]
  unfold aaQuat
  rw [show 2 * φ / 2 = φ by ring, hs, hc]
  have e0 : qeps q 0 = q 0 := rfl
  have e1 : qeps q 1 = q 1 := rfl
  have e2 : qeps q 2 = q 2 := rfl
  generalize norm (qeps q) = n at *
  apply ext4 <;> simp [e0, e1, e2] <;> field_simp

/-- **C54** The logarithm inverts the exponential on axis-angle vectors shorter than `2π` whose quaternion is
outside the small branch. -/
theorem C54_log_exp_partial (a : V3) (h2 : norm a < 2 * Real.pi) (hs : 1 / 8192 ≤ Real.sin (norm a / 2)) :
    quat2AxisAngle (axisAngle2quat a) = a := by
  have hnn := norm_nonneg a
  have hle : Real.sin (norm a / 2) ≤ norm a / 2 := Real.sin_le (by linarith)
  have hbig : 1 / 8192 ≤ norm a := by linarith
  have hpos : 0 < norm a := lt_of_lt_of_le (by norm_num) hbig
  obtain ⟨hu, -, -⟩ := (C54_partial a).1 hbig
  have hq := axisAngle2quat_large (show ¬ isSmall _ from not_lt.2 hbig)
  have heps : qeps (axisAngle2quat a) = fun i => a i * (Real.sin (norm a / 2) / norm a) := by
    rw [hq]; apply ext3 <;> simp [qeps, aaQuat] <;> ring
  have h3 : axisAngle2quat a 3 = Real.cos (norm a / 2) := by rw [hq]; simp [aaQuat]
  have hne : norm (qeps (axisAngle2quat a)) = Real.sin (norm a / 2) := by
    rw [heps, norm_scale _ _ (div_nonneg (by linarith) hnn)]; field_simp
  obtain ⟨φ, p1, p2, hc, hsφ, he⟩ := scale_spec hu (by rw [hne]; exact hs)
  have hφ : φ = norm a / 2 := by
    apply Real.injOn_cos ⟨by linarith, p2⟩ ⟨by linarith, by linarith⟩
    rw [hc, h3]
  rw [he, hne, heps, hφ]
  have hs0 : Real.sin (norm a / 2) ≠ 0 := by linarith
  funext i
  field_simp

/-- Concrete: the premises of both hold for a half turn about x. -/
example : IsUnit4 ![1, 0, 0, 0] ∧ 1 / 8192 ≤ norm (qeps ![1, 0, 0, 0]) ∧ norm ![Real.pi, 0, 0] < 2 * Real.pi ∧
    1 / 8192 ≤ Real.sin (norm ![Real.pi, 0, 0] / 2) := by
  have hp := Real.pi_pos
  refine ⟨by simp [IsUnit4], ?_, ?_, ?_⟩
  · have : qeps ![1, 0, 0, 0] = ![1, 0, 0] := by apply ext3 <;> simp [qeps]
    rw [this, norm_axis 1 (by norm_num)]; norm_num
  · rw [norm_axis _ hp.le]; linarith
  · rw [norm_axis _ hp.le, Real.sin_pi_div_two]; norm_num

/-- Concrete: a quarter turn is outside the series branch. -/
example : 1 / 8192 ≤ norm ![Real.pi / 2, 0, 0] := by
  have := Real.pi_gt_three
  rw [norm_axis _ (by linarith)]; linarith

/-! ## C55: elementary and Euler rotations -/

/-- **C55** The elementary rotations are the rotations about the coordinate axes (in the active sense, i.e. by
the opposite angle in the passive convention of `IsRotationAbout`), add angles, and have the rotation by the
opposite angle as transpose and inverse; `Cx`, `Cy`, `Cz` go the other way. -/
theorem C55_elementary (a b : ℝ) :
    (IsRotationAbout (Rx a) ![1, 0, 0] (-a) ∧ IsRotationAbout (Ry a) ![0, 1, 0] (-a) ∧
      IsRotationAbout (Rz a) ![0, 0, 1] (-a)) ∧
    (IsRotationAbout (Cx a) ![1, 0, 0] a ∧ IsRotationAbout (Cy a) ![0, 1, 0] a ∧ IsRotationAbout (Cz a) ![0, 0, 1] a) ∧
    (IsRotation (Rx a) ∧ IsRotation (Ry a) ∧ IsRotation (Rz a)) ∧
    (Rx a * Rx b = Rx (a + b) ∧ Ry a * Ry b = Ry (a + b) ∧ Rz a * Rz b = Rz (a + b)) ∧
    ((Rx a).transpose = Cx a ∧ (Ry a).transpose = Cy a ∧ (Rz a).transpose = Cz a) ∧
    (Rx a * Cx a = 1 ∧ Ry a * Cy a = 1 ∧ Rz a * Cz a = 1) := by
  have ux : IsUnit3 ![1, 0, 0] := by simp [IsUnit3]
  have uy : IsUnit3 ![0, 1, 0] := by simp [IsUnit3]
  have uz : IsUnit3 ![0, 0, 1] := by simp [IsUnit3]
  have ex : ∀ a, Rx a = rodrigues (-a) ![1, 0, 0] := by
    intro a; ext i j; fin_cases i <;> fin_cases j <;> simp [Rx, rodrigues]
  have ey : ∀ a, Ry a = rodrigues (-a) ![0, 1, 0] := by
    intro a; ext i j; fin_cases i <;> fin_cases j <;> simp [Ry, rodrigues]
  have ez : ∀ a, Rz a = rodrigues (-a) ![0, 0, 1] := by
    intro a; ext i j; fin_cases i <;> fin_cases j <;> simp [Rz, rodrigues]
  have z : ∀ e, rodrigues 0 e = 1 := by
    intro e; ext i j; fin_cases i <;> fin_cases j <;> simp [rodrigues]
  refine ⟨⟨?_, ?_, ?_⟩, ⟨?_, ?_, ?_⟩, ⟨?_, ?_, ?_⟩, ⟨?_, ?_, ?_⟩, ⟨?_, ?_, ?_⟩, ?_, ?_, ?_⟩
  · rw [ex]; exact rodrigues_about _ _ ux
  · rw [ey]; exact rodrigues_about _ _ uy
  · rw [ez]; exact rodrigues_about _ _ uz
  · rw [Cx, ex, neg_neg]; exact rodrigues_about _ _ ux
  · rw [Cy, ey, neg_neg]; exact rodrigues_about _ _ uy
  · rw [Cz, ez, neg_neg]; exact rodrigues_about _ _ uz
  · rw [ex]; exact rodrigues_rotation _ _ ux
  · rw [ey]; exact rodrigues_rotation _ _ uy
  · rw [ez]; exact rodrigues_rotation _ _ uz
  · rw [ex, ex, ex, rodrigues_add _ _ _ ux]; congr 1; ring
  · rw [ey, ey, ey, rodrigues_add _ _ _ uy]; congr 1; ring
  · rw [ez, ez, ez, rodrigues_add _ _ _ uz]; congr 1; ring
  · ext i j; fin_cases i <;> fin_cases j <;> simp [Rx, Cx, Matrix.transpose_apply]
  · ext i j; fin_cases i <;> fin_cases j <;> simp [Ry, Cy, Matrix.transpose_apply]
  · ext i j; fin_cases i <;> fin_cases j <;> simp [Rz, Cz, Matrix.transpose_apply]
  · rw [Cx, ex, ex, rodrigues_add _ _ _ ux, neg_neg, neg_add_cancel, z]
  · rw [Cy, ey, ey, rodrigues_add _ _ _ uy, neg_neg, neg_add_cancel, z]
  · rw [Cz, ez, ez, rodrigues_add _ _ _ uz, neg_neg, neg_add_cancel, z]

theorem IsRotation.mul {A B : M3} (hA : IsRotation A) (hB : IsRotation B) : IsRotation (A * B) := by
  obtain ⟨a1, a2, a3⟩ := hA
  obtain ⟨b1, b2, b3⟩ := hB
  refine ⟨?_, ?_, ?_⟩
  · rw [Matrix.transpose_mul, Matrix.mul_assoc, ← Matrix.mul_assoc B, b1, Matrix.one_mul, a1]
  · rw [Matrix.transpose_mul, Matrix.mul_assoc, ← Matrix.mul_assoc A.transpose, a2, Matrix.one_mul, b2]
  · rw [Matrix.det_mul, a3, b3, mul_one]

theorem rphMatrix_product (x y z : ℝ) : rph2R x y z = Rz z * Ry y * Rx x := by
  ext i j
  rw [mm3, mm3, mm3, mm3]
  fin_cases i <;> fin_cases j <;> simp [rph2R, rphMatrix, Rx, Ry, Rz]

/-- **C55** `rph2R` is roll, then pitch, then heading; `rph2C` the same with the rotations `C`; both are rotation
matrices. -/
theorem C55_rph (x y z : ℝ) :
    rph2R x y z = Rz z * Ry y * Rx x ∧ rph2C x y z = Cz z * Cy y * Cx x ∧
    IsRotation (rph2R x y z) ∧ IsRotation (rph2C x y z) := by
  have h : ∀ x y z, IsRotation (rph2R x y z) := by
    intro x y z
    rw [rphMatrix_product]
    obtain ⟨hx, -, -⟩ := (C55_elementary x 0).2.2.1
    obtain ⟨-, hy, -⟩ := (C55_elementary y 0).2.2.1
    obtain ⟨-, -, hz⟩ := (C55_elementary z 0).2.2.1
    exact (hz.mul hy).mul hx
  exact ⟨rphMatrix_product x y z, rphMatrix_product _ _ _, h x y z, h _ _ _⟩

theorem atan2_polar {r θ : ℝ} (hr : 0 < r) (h1 : -Real.pi < θ) (h2 : θ ≤ Real.pi) :
    atan2 (r * Real.sin θ) (r * Real.cos θ) = θ := by
  unfold atan2
  have : (⟨r * Real.cos θ, r * Real.sin θ⟩ : ℂ) = r * (Complex.cos θ + Complex.sin θ * Complex.I) := by
    apply Complex.ext <;> simp [Complex.cos_ofReal_re, Complex.sin_ofReal_re, Complex.cos_ofReal_im,
      Complex.sin_ofReal_im]
  rw [this, Complex.arg_mul_cos_add_sin_mul_I hr ⟨h1, h2⟩]

theorem atan2_spec {x y r : ℝ} (hr : 0 < r) (h : x * x + y * y = r * r) :
    r * Real.cos (atan2 y x) = x ∧ r * Real.sin (atan2 y x) = y := by
  have hn : ‖(⟨x, y⟩ : ℂ)‖ = r := by
    rw [Complex.norm_def, Complex.normSq_mk, h, Real.sqrt_mul_self hr.le]
  have hne : (⟨x, y⟩ : ℂ) ≠ 0 := by
    intro e; rw [e] at hn; simp at hn; exact hr.ne hn
  unfold atan2
  constructor
  · rw [Complex.cos_arg hne, hn]; field_simp
  · rw [Complex.sin_arg, hn]; field_simp

/-- **C55** `R2rph` recovers roll, pitch and heading from `rph2R`, and `C2rph` from `rph2C`, for pitch strictly
between -90° and 90° and roll and heading in (-180°, 180°]. -/
theorem C55_recovers (x y z : ℝ) (hy : -(Real.pi / 2) < y ∧ y < Real.pi / 2) (hx : -Real.pi < x ∧ x ≤ Real.pi)
    (hz : -Real.pi < z ∧ z ≤ Real.pi) :
    R2rph (rph2R x y z) = ![x, y, z] ∧ C2rph (rph2C x y z) = ![x, y, z] := by
  have hc : 0 < Real.cos y := Real.cos_pos_of_mem_Ioo hy
  constructor
  · apply ext3 <;> simp [R2rph, rph2R, rphMatrix]
    · exact atan2_polar hc hx.1 hx.2
    · rw [Real.arcsin_sin hy.1.le hy.2.le]
    · rw [mul_comm, mul_comm (Real.cos z)]; exact atan2_polar hc hz.1 hz.2
  · apply ext3 <;> simp [C2rph, rph2C, rph2R, rphMatrix]
    · exact atan2_polar hc hx.1 hx.2
    · rw [Real.arcsin_sin hy.1.le hy.2.le]
    · rw [mul_comm, mul_comm (Real.cos z)]; exact atan2_polar hc hz.1 hz.2

/-- the sixteen equations of a rotation matrix -/
theorem rotation_entries {C : M3} (h : IsRotation C) :
    (C 0 0 * C 0 0 + C 0 1 * C 0 1 + C 0 2 * C 0 2 = 1 ∧ C 1 0 * C 1 0 + C 1 1 * C 1 1 + C 1 2 * C 1 2 = 1 ∧
      C 2 0 * C 2 0 + C 2 1 * C 2 1 + C 2 2 * C 2 2 = 1) ∧
    (C 0 0 * C 0 0 + C 1 0 * C 1 0 + C 2 0 * C 2 0 = 1 ∧ C 0 1 * C 0 1 + C 1 1 * C 1 1 + C 2 1 * C 2 1 = 1 ∧
      C 0 2 * C 0 2 + C 1 2 * C 1 2 + C 2 2 * C 2 2 = 1) ∧
    (C 1 1 * C 2 2 - C 1 2 * C 2 1 = C 0 0 ∧ C 1 2 * C 2 0 - C 1 0 * C 2 2 = C 0 1 ∧
      C 1 0 * C 2 1 - C 1 1 * C 2 0 = C 0 2) ∧
    (C 0 2 * C 2 1 - C 0 1 * C 2 2 = C 1 0 ∧ C 0 0 * C 2 2 - C 0 2 * C 2 0 = C 1 1 ∧
      C 0 1 * C 2 0 - C 0 0 * C 2 1 = C 1 2) ∧
    (C 0 1 * C 1 2 - C 0 2 * C 1 1 = C 2 0 ∧ C 0 2 * C 1 0 - C 0 0 * C 1 2 = C 2 1 ∧
      C 0 0 * C 1 1 - C 0 1 * C 1 0 = C 2 2) := by
  have ha := adjugate_rotation h
  obtain ⟨h1, h2, h3⟩ := h
  rw [Matrix.adjugate_fin_three] at ha
  have A := fun i j => congrFun (congrFun ha i) j
  have R := fun i j => congrFun (congrFun h1 i) j
  have S := fun i j => congrFun (congrFun h2 i) j
  simp only [mm3, Matrix.transpose_apply] at R S
  have R00 := R 0 0
  have R11 := R 1 1
  have R22 := R 2 2
  have S00 := S 0 0
  have S11 := S 1 1
  have S22 := S 2 2
  have A00 := A 0 0
  have A01 := A 0 1
  have A02 := A 0 2
  have A10 := A 1 0
  have A11 := A 1 1
  have A12 := A 1 2
  have A20 := A 2 0
  have A21 := A 2 1
  have A22 := A 2 2
  clear A R S ha h1 h2 h3
  simp at R00 R11 R22 S00 S11 S22 A00 A01 A02 A10 A11 A12 A20 A21 A22
  refine ⟨⟨R00, R11, R22⟩, ⟨S00, S11, S22⟩, ⟨?_, ?_, ?_⟩, ⟨?_, ?_, ?_⟩, ?_, ?_, ?_⟩ <;> linarith

/-- **C55** Conversely, every rotation matrix away from the singularity (the entry (2,0) is not ±1) is
recovered from the angles that `R2rph` and `C2rph` compute from it. -/
theorem C55_onto (C : M3) (h : IsRotation C) (hs : C 2 0 * C 2 0 ≠ 1) :
    (let r := R2rph C; rph2R (r 0) (r 1) (r 2) = C) ∧ (let r := C2rph C; rph2C (r 0) (r 1) (r 2) = C) := by
  obtain ⟨⟨-, -, r3⟩, ⟨c1, -, -⟩, ⟨k1, k2, k3⟩, ⟨k4, k5, k6⟩, ⟨-, -, -⟩⟩ := rotation_entries h
  have hlt : C 2 0 * C 2 0 < 1 := lt_of_le_of_ne (by nlinarith [mul_self_nonneg (C 2 1), mul_self_nonneg (C 2 2)]) hs
  have hb : -1 ≤ C 2 0 ∧ C 2 0 ≤ 1 := by constructor <;> nlinarith
  set r := √(1 - C 2 0 ^ 2) with hr
  have hrr : r * r = 1 - C 2 0 * C 2 0 := by rw [hr, Real.mul_self_sqrt (by nlinarith)]; ring
  have hr0 : 0 < r := by rw [hr]; exact Real.sqrt_pos.2 (by nlinarith)
  have hcos : Real.cos (Real.arcsin (C 2 0)) = r := Real.cos_arcsin _
  have hsin : Real.sin (Real.arcsin (C 2 0)) = C 2 0 := Real.sin_arcsin hb.1 hb.2
  obtain ⟨a1, a2⟩ := atan2_spec (x := C 2 2) (y := C 2 1) hr0 (by linarith)
  obtain ⟨b1, b2⟩ := atan2_spec (x := C 0 0) (y := C 1 0) hr0 (by linarith)
  obtain ⟨a1', a2'⟩ := atan2_spec (x := C 2 2) (y := -C 2 1) hr0 (by linarith)
  obtain ⟨b1', b2'⟩ := atan2_spec (x := C 0 0) (y := -C 1 0) hr0 (by linarith)
  have hr2 : r * r ≠ 0 := (mul_pos hr0 hr0).ne'
  have m1 : r * r * C 0 1 = -(C 0 0 * C 2 1 * C 2 0) - C 1 0 * C 2 2 := by rw [hrr]; linear_combination -k2 - C 2 0 * k6
  have m2 : r * r * C 0 2 = C 1 0 * C 2 1 - C 0 0 * C 2 2 * C 2 0 := by rw [hrr]; linear_combination -k3 + C 2 0 * k5
  have m3 : r * r * C 1 1 = C 0 0 * C 2 2 - C 1 0 * C 2 1 * C 2 0 := by rw [hrr]; linear_combination -k5 + C 2 0 * k3
  have m4 : r * r * C 1 2 = -(C 1 0 * C 2 2 * C 2 0) - C 0 0 * C 2 1 := by rw [hrr]; linear_combination -k6 - C 2 0 * k2
  have key : ∀ p q : ℝ, r * r * p = r * r * q → p = q := fun p q e => mul_left_cancel₀ hr2 e
  clear h hs r3 c1 k1 k2 k3 k4 k5 k6 hlt hb hrr hr2
  constructor
  · ext i j
    fin_cases i <;> fin_cases j <;> simp [rph2R, R2rph, rphMatrix, hcos, hsin]
    · linarith
    · apply key; rw [m1, ← a1, ← b1]; grind
    · apply key; rw [m2, ← a1, ← b1]; grind
    · linarith
    · apply key; rw [m3, ← a1, ← b1]; grind
    · apply key; rw [m4, ← a1, ← b1]; grind
    · exact a2
    · exact a1
  · ext i j
    fin_cases i <;> fin_cases j <;> simp [rph2C, rph2R, C2rph, rphMatrix, hcos, hsin]
    · linarith
    · apply key; rw [m1, ← a1', ← b1']; grind
    · apply key; rw [m2, ← a1', ← b1']; grind
    · linarith
    · apply key; rw [m3, ← a1', ← b1']; grind
    · apply key; rw [m4, ← a1', ← b1']; grind
    · linarith
    · exact a1'

/-- Concrete: the premises of the last two theorems hold for roll 1, pitch 1/2, heading 2. -/
example : (-(Real.pi / 2) < (1 / 2 : ℝ) ∧ (1 / 2 : ℝ) < Real.pi / 2) ∧ (-Real.pi < (1 : ℝ) ∧ (1 : ℝ) < Real.pi) ∧
    (-Real.pi < (2 : ℝ) ∧ (2 : ℝ) < Real.pi) := by
  have := Real.pi_gt_three
  refine ⟨⟨?_, ?_⟩, ⟨?_, ?_⟩, ?_, ?_⟩ <;> linarith

example : IsRotation (1 : M3) ∧ (1 : M3) 2 0 * (1 : M3) 2 0 ≠ 1 := by
  refine ⟨⟨by simp, by simp, by simp⟩, by simp⟩

/-- **C55** The exclusion of the singularity is needed: with pitch 90° and roll 1, the recovered angles give a
different rotation. -/
theorem C55_singularity : let C := rph2R 1 (Real.pi / 2) 0
    let r := R2rph C
    IsRotation C ∧ rph2R (r 0) (r 1) (r 2) ≠ C := by
  refine ⟨(C55_rph _ _ _).2.2.1, ?_⟩
  intro h
  have h1 := congrFun (congrFun h 1) 1
  simp [rph2R, R2rph, rphMatrix] at h1
  have e : atan2 0 0 = 0 := by unfold atan2; exact Complex.arg_zero
  rw [e] at h1
  simp at h1
  have := Real.cos_lt_cos_of_nonneg_of_le_pi (x := 0) (y := 1) le_rfl (by linarith [Real.pi_gt_three]) (by norm_num)
  rw [Real.cos_zero] at this
  linarith

/-! ## C67: angle utilities -/

/-- **C67** `angleMod` returns an angle in [-π, π] that differs from the argument by a whole number of turns
(a turn being the constant `SM_2PI`), and leaves angles strictly inside (-SM_2PI/2, SM_2PI/2) as they are. -/
theorem C67_angleMod (x : ℝ) :
    -Real.pi ≤ angleMod x ∧ angleMod x ≤ Real.pi ∧ (∃ n : ℤ, angleMod x = x - n * SM_2PI) ∧
    (|x| < SM_2PI / 2 → angleMod x = x) ∧ |SM_2PI - 2 * Real.pi| < 1 / 10 ^ 15 := by
  have hpi1 := Real.pi_gt_d20
  have hpi2 := Real.pi_lt_d20
  have hc : (0 : ℝ) < SM_2PI := by unfold SM_2PI; norm_num
  have hle : SM_2PI / 2 ≤ Real.pi := by unfold SM_2PI; linarith
  have hmul : x = x / SM_2PI * SM_2PI := by field_simp
  have hround : |x / SM_2PI - boostRound (x / SM_2PI)| ≤ 1 / 2 := by
    generalize x / SM_2PI = y
    unfold boostRound
    split
    · have h1 := Int.floor_le (y + 1 / 2)
      have h2 := Int.lt_floor_add_one (y + 1 / 2)
      rw [abs_le]; constructor <;> linarith
    · have h1 := Int.le_ceil (y - 1 / 2)
      have h2 := Int.ceil_lt_add_one (y - 1 / 2)
      rw [abs_le]; constructor <;> linarith
  have hval : angleMod x = (x / SM_2PI - boostRound (x / SM_2PI)) * SM_2PI := by
    unfold angleMod
    conv => lhs; lhs; rw [hmul]
    ring
  rw [abs_le] at hround
  refine ⟨?_, ?_, ⟨boostRound (x / SM_2PI), by unfold angleMod; ring⟩, ?_, ?_⟩
  · rw [hval]; nlinarith
  · rw [hval]; nlinarith
  · intro hx
    rw [abs_lt] at hx
    have hz : boostRound (x / SM_2PI) = 0 := by
      have hy1 : x / SM_2PI < 1 / 2 := by rw [div_lt_iff₀ hc]; linarith
      have hy2 : -(1 / 2) < x / SM_2PI := by rw [lt_div_iff₀ hc]; linarith
      unfold boostRound
      split
      · rw [Int.floor_eq_zero_iff]; constructor <;> linarith
      · rw [Int.ceil_eq_zero_iff]; constructor <;> linarith
    unfold angleMod; rw [hz]; simp
  · unfold SM_2PI
    rw [abs_lt]; constructor <;> norm_num at * <;> linarith

/-- **C67** degrees and radians: `rad2deg` is accurate to a relative error of `1e-16`, `deg2rad` (whose constant
has only 15 digits) to `2e-14`; they undo each other to within `2e-14`. -/
theorem C67_degrees (x : ℝ) :
    |deg2rad x - x * (Real.pi / 180)| ≤ 2 / 10 ^ 14 * |x * (Real.pi / 180)| ∧
    |rad2deg x - x * (180 / Real.pi)| ≤ 1 / 10 ^ 16 * |x * (180 / Real.pi)| ∧
    |deg2rad (rad2deg x) - x| ≤ 2 / 10 ^ 14 * |x| := by
  have hpi1 := Real.pi_gt_d20
  have hpi2 := Real.pi_lt_d20
  have hp := Real.pi_pos
  norm_num at hpi1 hpi2
  have key : ∀ c d ε : ℝ, |c - d| ≤ ε * |d| → |x * c - x * d| ≤ ε * |x * d| := by
    intro c d ε h
    rw [← mul_sub, abs_mul, abs_mul]
    nlinarith [mul_le_mul_of_nonneg_left h (abs_nonneg x)]
  refine ⟨?_, ?_, ?_⟩
  · apply key
    rw [abs_of_pos (show (0 : ℝ) < Real.pi / 180 by positivity), abs_le]
    constructor <;> norm_num <;> linarith
  · apply key
    have h1 : (57.295779513082323 : ℝ) - 180 / Real.pi = (57.295779513082323 * Real.pi - 180) / Real.pi := by
      field_simp
    rw [h1, abs_div, abs_of_pos (show (0 : ℝ) < 180 / Real.pi by positivity), abs_of_pos hp,
      div_le_iff₀ hp, show (1 : ℝ) / 10 ^ 16 * (180 / Real.pi) * Real.pi = 180 / 10 ^ 16 by field_simp, abs_le]
    constructor <;> norm_num <;> linarith
  · have : deg2rad (rad2deg x) = x * (57.295779513082323 * 0.017453292519943) := by
      unfold deg2rad rad2deg; ring
    rw [this]
    have h := key (57.295779513082323 * 0.017453292519943) 1 (2 / 10 ^ 14) (by
      rw [abs_le]; constructor <;> norm_num)
    simpa using h

end Verif.Kinematics
