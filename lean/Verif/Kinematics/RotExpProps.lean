import Verif.Kinematics.RotProps
import Verif.Kinematics.Param
import Mathlib.Analysis.Normed.Algebra.MatrixExponential
import Mathlib.Analysis.SpecialFunctions.Exponential
import Mathlib.Analysis.Calculus.MeanValue

/-!
# C150: rotation vectors are the matrix exponential

The specification is Mathlib's matrix exponential `NormedSpace.exp` (the sum of the exponential series) and the
skew-symmetric matrix of a vector, which is characterised below by what it does (`skew`).
-/

namespace Verif.Kinematics

open Matrix

/-- **Specification**: `X` is the infinitesimal rotation by the vector `a`, in the library's passive convention:
it sends every vector `v` to `-(a × v)`. -/
def IsGenerator (X : M3) (a : V3) : Prop := ∀ v, X.mulVec v = -cross a v

theorem IsGenerator.eq {X : M3} {a : V3} (h : IsGenerator X a) : X = -crossMx a := by
  apply Matrix.mulVec_injective
  funext v
  rw [h v, Matrix.neg_mulVec]
  congr 1
  apply ext3 <;> rw [mv3] <;> simp [crossMx, cross] <;> ring

theorem generator_crossMx (a : V3) : IsGenerator (-crossMx a) a := by
  intro v
  rw [Matrix.neg_mulVec]
  congr 1
  apply ext3 <;> rw [mv3] <;> simp [crossMx, cross] <;> ring

theorem rodrigues_poly (t : ℝ) (e : V3) (he : IsUnit3 e) :
    rodrigues t e = 1 + Real.sin t • (-crossMx e) + (1 - Real.cos t) • ((-crossMx e) * (-crossMx e)) := by
  unfold IsUnit3 at he
  ext i j
  fin_cases i <;> fin_cases j <;> simp [rodrigues, crossMx, Matrix.mul_apply, Fin.sum_univ_succ]
  all_goals first | ring | skip
  · linear_combination (1 - Real.cos t) * he
  · linear_combination (1 - Real.cos t) * he
  · linear_combination (1 - Real.cos t) * he

theorem crossMx_cube (e : V3) (he : IsUnit3 e) :
    (-crossMx e) * ((-crossMx e) * (-crossMx e)) = -(-crossMx e) := by
  unfold IsUnit3 at he
  ext i j
  fin_cases i <;> fin_cases j <;> simp [crossMx, Matrix.mul_apply, Fin.sum_univ_succ]
  all_goals grind

section
variable {𝔸 : Type*} [NormedRing 𝔸] [NormedAlgebra ℝ 𝔸] [CompleteSpace 𝔸]

theorem deriv_rodrigues (A : 𝔸) (hA : A * (A * A) = -A) (t : ℝ) :
    HasDerivAt (fun s : ℝ => 1 + Real.sin s • A + (1 - Real.cos s) • (A * A))
      (A * (1 + Real.sin t • A + (1 - Real.cos t) • (A * A))) t := by
  have h1 := (Real.hasDerivAt_sin t).smul_const A
  have h2 := ((Real.hasDerivAt_cos t).const_sub 1).smul_const (A * A)
  have h3 := (h1.const_add (1 : 𝔸)).add h2
  have e2 : A * (1 + Real.sin t • A + (1 - Real.cos t) • (A * A)) = Real.cos t • A + (- -Real.sin t) • (A * A) := by
    rw [mul_add, mul_add, mul_smul_comm, mul_smul_comm, hA, mul_one]
    module
  rw [e2]
  exact h3

/-- the exponential of an element with `A³ = -A` -/
theorem exp_of_cube (A : 𝔸) (hA : A * (A * A) = -A) (t : ℝ) :
    1 + Real.sin t • A + (1 - Real.cos t) • (A * A) = NormedSpace.exp (t • A) := by
  have hd : ∀ s : ℝ, HasDerivAt (fun s : ℝ => NormedSpace.exp (s • (-A)) *
      (1 + Real.sin s • A + (1 - Real.cos s) • (A * A))) 0 s := by
    intro s
    have h1 := hasDerivAt_exp_smul_const (𝕂 := ℝ) (-A) s
    have h3 := h1.mul (deriv_rodrigues A hA s)
    generalize hR : 1 + Real.sin s • A + (1 - Real.cos s) • (A * A) = R at h3
    have e0 : NormedSpace.exp (s • -A) * -A * R + NormedSpace.exp (s • -A) * (A * R) = 0 := by noncomm_ring
    rw [e0] at h3
    exact h3
  have hc := is_const_of_deriv_eq_zero (fun s => (hd s).differentiableAt) (fun s => (hd s).deriv) t 0
  simp only [zero_smul, NormedSpace.exp_zero, Real.sin_zero, Real.cos_zero, sub_self, add_zero, mul_one] at hc
  have hinv : NormedSpace.exp (t • A) * NormedSpace.exp (t • (-A)) = 1 := by
    letI : NormedAlgebra ℚ 𝔸 := NormedAlgebra.restrictScalars ℚ ℝ 𝔸
    rw [← NormedSpace.exp_add_of_commute]
    · simp [NormedSpace.exp_zero]
    · rw [smul_neg]; exact (Commute.refl _).neg_right
  generalize 1 + Real.sin t • A + (1 - Real.cos t) • (A * A) = R at *
  calc R = (NormedSpace.exp (t • A) * NormedSpace.exp (t • (-A))) * R := by rw [hinv, one_mul]
    _ = NormedSpace.exp (t • A) := by rw [mul_assoc, hc, mul_one]
end

open scoped Matrix.Norms.Operator in
theorem rodrigues_exp (t : ℝ) (e : V3) (he : IsUnit3 e) :
    rodrigues t e = NormedSpace.exp (t • (-crossMx e)) := by
  rw [rodrigues_poly t e he]
  exact exp_of_cube (𝔸 := M3) (-crossMx e) (crossMx_cube e he) t

theorem norm_smul3 (s : ℝ) (x : V3) : norm (s • x) = |s| * norm x := by
  unfold Kinematics.norm
  rw [sq3, sq3, ← Real.sqrt_sq_eq_abs, ← Real.sqrt_mul (sq_nonneg s)]
  congr 1
  simp
  ring

theorem eq_zero_of_norm {x : V3} (h : norm x = 0) : x = 0 := by
  have h1 := norm_sq x
  rw [h] at h1
  have h2 : ∀ i, x i * x i = 0 := by
    intro i
    have a0 := mul_self_nonneg (x 0)
    have a1 := mul_self_nonneg (x 1)
    have a2 := mul_self_nonneg (x 2)
    obtain rfl | rfl | rfl : i = 0 ∨ i = 1 ∨ i = 2 := by fin_cases i <;> simp
    all_goals linarith
  funext i
  simpa using h2 i

theorem crossMx_smul (s : ℝ) (x : V3) : crossMx (s • x) = s • crossMx x := by
  ext i j; fin_cases i <;> fin_cases j <;> simp [crossMx]

theorem rodrigues_vec_exp {x : V3} (h : norm x ≠ 0) :
    rodrigues (norm x) (fun i => x i / norm x) = NormedSpace.exp (-crossMx x) := by
  rw [rodrigues_exp _ _ (unit_of_norm h)]
  congr 1
  rw [smul_neg, ← crossMx_smul]
  congr 2
  funext i
  simp
  field_simp

theorem axisAngle2RV_large {x : V3} (h : 1 / 10 ^ 12 ≤ norm x) :
    axisAngle2RV x = rodrigues (norm x) (fun i => x i / norm x) :=
  (C56_vector_partial x h).1.unique (unit_of_norm (lt_of_lt_of_le (by positivity) h).ne')
    (rodrigues_about _ _ (unit_of_norm (lt_of_lt_of_le (by positivity) h).ne'))

theorem axisAngle2RV_small {x : V3} (h : norm x < 1 / 10 ^ 12) : axisAngle2RV x = 1 := by
  unfold axisAngle2RV
  simp only [norm_eq]
  rw [if_pos h]

theorem exp_crossMx_zero : NormedSpace.exp (-crossMx 0) = (1 : M3) := by
  have : crossMx 0 = 0 := by ext i j; fin_cases i <;> fin_cases j <;> simp [crossMx]
  rw [this, neg_zero, NormedSpace.exp_zero]

theorem exp_near_one {x : V3} (h : norm x ≤ 1) (i j : Fin 3) :
    |NormedSpace.exp (-crossMx x) i j - (1 : M3) i j| ≤ 2 * norm x := by
  by_cases h0 : norm x = 0
  · rw [eq_zero_of_norm h0, exp_crossMx_zero]
    simp [norm_nonneg]
  · rw [← rodrigues_vec_exp h0]
    exact rodrigues_near_one _ _ (unit_of_norm h0) (norm_nonneg x) h i j

/-- **C150** `axisAngle2R(x)` is the matrix exponential of the infinitesimal rotation by `x`, for every rotation
vector of any length that is zero or at least 1e-12; for a shorter one (the code returns the identity) every entry is within
`2|x|` of the exponential. -/
theorem C150_exponential (x : V3) (X : M3) (hX : IsGenerator X x) :
    (norm x = 0 ∨ 1 / 10 ^ 12 ≤ norm x → axisAngle2RV x = NormedSpace.exp X) ∧
    (norm x < 1 / 10 ^ 12 → ∀ i j, |NormedSpace.exp X i j - axisAngle2RV x i j| ≤ 2 * norm x) := by
  rw [hX.eq]
  refine ⟨?_, ?_⟩
  · rintro (h | h)
    · rw [axisAngle2RV_small (by rw [h]; positivity), eq_zero_of_norm h, exp_crossMx_zero]
    · rw [axisAngle2RV_large h, rodrigues_vec_exp (lt_of_lt_of_le (by positivity) h).ne']
  · intro h i j
    rw [axisAngle2RV_small h]
    exact exp_near_one (h.le.trans (by norm_num)) i j

theorem rvMatrix_small {x : V3} (h : norm x < 1 / 10 ^ 14) : rvMatrix x = 1 := by
  unfold rvMatrix
  simp only [if_pos h]

theorem rvMatrix_large {x : V3} (h : 1 / 10 ^ 14 ≤ norm x) :
    rvMatrix x = rodrigues (norm x) (fun i => x i / norm x) := by
  unfold rvMatrix
  simp only [if_neg (not_lt.2 h)]
  congr 1
  funext i
  ring

/-- **C150** `RotationVector::parametersToRotationMatrix(x)`: the same, with the threshold 1e-14. -/
theorem C150_rotation_vector (x : V3) (X : M3) (hX : IsGenerator X x) :
    (norm x = 0 ∨ 1 / 10 ^ 14 ≤ norm x → rvMatrix x = NormedSpace.exp X) ∧
    (norm x < 1 / 10 ^ 14 → ∀ i j, |NormedSpace.exp X i j - rvMatrix x i j| ≤ 2 * norm x) := by
  rw [hX.eq]
  refine ⟨?_, ?_⟩
  · rintro (h | h)
    · rw [rvMatrix_small (by rw [h]; positivity), eq_zero_of_norm h, exp_crossMx_zero]
    · rw [rvMatrix_large h, rodrigues_vec_exp (lt_of_lt_of_le (by positivity) h).ne']
  · intro h i j
    rw [rvMatrix_small h]
    exact exp_near_one (h.le.trans (by norm_num)) i j

/-- **C150** the quaternion `axisAngle2quat(x)` (also called `qexp`) represents the same exponential. -/
theorem C150_quaternion (x : V3) (X : M3) (hX : IsGenerator X x) (h : norm x = 0 ∨ 1 / 8192 ≤ norm x) :
    quat2r (axisAngle2quat x) = NormedSpace.exp X := by
  rcases h with h | h
  · have hx := eq_zero_of_norm h
    rw [(C54_partial x).2.1 hx, hX.eq, hx, exp_crossMx_zero]
    ext i j; fin_cases i <;> fin_cases j <;> simp [quat2r, quatIdentity]
  · rw [((C54_partial x).1 h).2.2]
    exact (C150_exponential x X hX).1 (Or.inr (le_trans (by norm_num) h))

/-- **C150** `Rx`, `Ry`, `Rz` (which turn vectors, not frames) are the exponentials of the infinitesimal rotations
about the coordinate axes, for every angle, negative ones included. -/
theorem C150_elementary (a : ℝ) (X Y Z : M3) (hX : IsGenerator X ![-a, 0, 0]) (hY : IsGenerator Y ![0, -a, 0])
    (hZ : IsGenerator Z ![0, 0, -a]) :
    Rx a = NormedSpace.exp X ∧ Ry a = NormedSpace.exp Y ∧ Rz a = NormedSpace.exp Z := by
  have hx : IsUnit3 ![1, 0, 0] := by simp [IsUnit3]
  have hy : IsUnit3 ![0, 1, 0] := by simp [IsUnit3]
  have hz : IsUnit3 ![0, 0, 1] := by simp [IsUnit3]
  have key : ∀ e : V3, IsUnit3 e → rodrigues (-a) e = NormedSpace.exp (-crossMx ((-a) • e)) := by
    intro e he
    rw [rodrigues_exp _ _ he, crossMx_smul, smul_neg]
  rw [hX.eq, hY.eq, hZ.eq]
  have k1 := key _ hx
  have k2 := key _ hy
  have k3 := key _ hz
  simp only [Matrix.smul_cons, Matrix.smul_empty, smul_eq_mul, mul_one, mul_zero] at k1 k2 k3
  rw [← k1, ← k2, ← k3]
  refine ⟨?_, ?_, ?_⟩ <;>
  · ext i j; fin_cases i <;> fin_cases j <;> simp [Rx, Ry, Rz, rodrigues]

/-- a rotation vector whose exponential the code computes exactly -/
def Exact (threshold : ℝ) (x : V3) : Prop := norm x = 0 ∨ threshold ≤ norm x

theorem exp_group (s t : ℝ) (x : V3) :
    NormedSpace.exp (-crossMx (s • x)) * NormedSpace.exp (-crossMx (t • x)) = NormedSpace.exp (-crossMx ((s + t) • x)) := by
  rw [← Matrix.exp_add_of_commute, crossMx_smul, crossMx_smul, crossMx_smul]
  · congr 1; module
  · rw [crossMx_smul, crossMx_smul]
    exact ((Commute.refl _).smul_left s |>.smul_right t).neg_left.neg_right

/-- **C150** rotations about a common axis form a one-parameter group: rotating by `s·x` and by `t·x`, with any
signs, is rotating by `(s+t)·x`, for the matrices and for the quaternions, as long as none of the three rotation vectors is
shorter than the threshold without being zero. -/
theorem C150_group (s t : ℝ) (x : V3) :
    (Exact (1 / 10 ^ 12) (s • x) → Exact (1 / 10 ^ 12) (t • x) → Exact (1 / 10 ^ 12) ((s + t) • x) →
      axisAngle2RV (s • x) * axisAngle2RV (t • x) = axisAngle2RV ((s + t) • x)) ∧
    (Exact (1 / 10 ^ 14) (s • x) → Exact (1 / 10 ^ 14) (t • x) → Exact (1 / 10 ^ 14) ((s + t) • x) →
      rvMatrix (s • x) * rvMatrix (t • x) = rvMatrix ((s + t) • x)) := by
  have g := exp_group s t x
  refine ⟨fun h1 h2 h3 => ?_, fun h1 h2 h3 => ?_⟩
  · rw [(C150_exponential _ _ (generator_crossMx (s • x))).1 h1, (C150_exponential _ _ (generator_crossMx (t • x))).1 h2,
      (C150_exponential _ _ (generator_crossMx ((s + t) • x))).1 h3, g]
  · rw [(C150_rotation_vector _ _ (generator_crossMx (s • x))).1 h1,
      (C150_rotation_vector _ _ (generator_crossMx (t • x))).1 h2,
      (C150_rotation_vector _ _ (generator_crossMx ((s + t) • x))).1 h3, g]

theorem aaQuat_group (a b : ℝ) (e : V3) (he : IsUnit3 e) : qplus (aaQuat a e) (aaQuat b e) = aaQuat (a + b) e := by
  unfold IsUnit3 at he
  have hs : Real.sin ((a + b) / 2) = Real.sin (a / 2) * Real.cos (b / 2) + Real.cos (a / 2) * Real.sin (b / 2) := by
    rw [← Real.sin_add]; congr 1; ring
  have hc : Real.cos ((a + b) / 2) = Real.cos (a / 2) * Real.cos (b / 2) - Real.sin (a / 2) * Real.sin (b / 2) := by
    rw [← Real.cos_add]; congr 1; ring
  apply ext4 <;> simp [qplus, aaQuat, hs, hc]
  · ring
  · ring
  · ring
  · linear_combination (-(Real.sin (a / 2) * Real.sin (b / 2))) * he

/-- the quaternion of the rotation vector `s·x` -/
theorem quat_line {x : V3} (hx : norm x ≠ 0) (s : ℝ) (h : Exact (1 / 8192) (s • x)) :
    axisAngle2quat (s • x) = aaQuat (s * norm x) (fun i => x i / norm x) := by
  rcases h with h | h
  · have h1 := h
    rw [norm_smul3] at h1
    have hs : s = 0 := by
      rcases mul_eq_zero.1 h1 with h2 | h2
      · exact abs_eq_zero.1 h2
      · exact absurd h2 hx
    rw [(C54_partial _).2.1 (eq_zero_of_norm h), hs]
    apply ext4 <;> simp [quatIdentity, aaQuat]
  · rw [axisAngle2quat_large (not_lt.2 h)]
    rw [norm_smul3]
    have hpos : 0 < norm x := lt_of_le_of_ne (norm_nonneg x) (Ne.symm hx)
    rcases lt_trichotomy s 0 with hs | hs | hs
    · have e1 : |s| = -s := abs_of_neg hs
      have e2 : -s * norm x / 2 = -(s * norm x / 2) := by ring
      have hs' : s ≠ 0 := hs.ne
      rw [e1]
      apply ext4 <;> simp only [aaQuat, e2, Real.sin_neg, Real.cos_neg] <;> simp <;> field_simp
    · subst hs
      rw [norm_smul3] at h
      norm_num at h
    · have e1 : |s| = s := abs_of_pos hs
      have hs' : s ≠ 0 := hs.ne'
      rw [e1]
      apply ext4 <;> simp [aaQuat] <;> left <;> field_simp

/-- **C150** the quaternions of rotations about a common axis multiply exactly, sign included. -/
theorem C150_quaternion_group (s t : ℝ) (x : V3) (h1 : Exact (1 / 8192) (s • x)) (h2 : Exact (1 / 8192) (t • x))
    (h3 : Exact (1 / 8192) ((s + t) • x)) :
    qplus (axisAngle2quat (s • x)) (axisAngle2quat (t • x)) = axisAngle2quat ((s + t) • x) := by
  by_cases hx : norm x = 0
  · have hz := eq_zero_of_norm hx
    subst hz
    simp only [smul_zero]
    rw [(C54_partial _).2.1 rfl]
    apply ext4 <;> simp [qplus, quatIdentity]
  · rw [quat_line hx s h1, quat_line hx t h2, quat_line hx (s + t) h3, aaQuat_group _ _ _ (unit_of_norm hx), add_mul]

/-- **C150** the opposite rotation vector gives the inverse and transposed matrix and the inverse quaternion, for
every rotation vector, also below the thresholds (for the quaternion: outside the series branch the product is the
identity). -/
theorem C150_inverse (x : V3) :
    axisAngle2RV (-x) = (axisAngle2RV x).transpose ∧ axisAngle2RV x * axisAngle2RV (-x) = 1 ∧
    rvMatrix (-x) = (rvMatrix x).transpose ∧ rvMatrix x * rvMatrix (-x) = 1 ∧
    axisAngle2quat (-x) = quatInv (axisAngle2quat x) ∧
    (Exact (1 / 8192) x → qplus (axisAngle2quat x) (axisAngle2quat (-x)) = quatIdentity) := by
  have hn : norm (-x) = norm x := by
    have := norm_smul3 (-1) x
    simpa using this
  have ht : ∀ y : V3, (NormedSpace.exp (-crossMx y)).transpose = NormedSpace.exp (-crossMx (-y)) := by
    intro y
    rw [← Matrix.exp_transpose]
    congr 1
    ext i j; fin_cases i <;> fin_cases j <;> simp [crossMx, Matrix.transpose_apply]
  have hp : NormedSpace.exp (-crossMx x) * NormedSpace.exp (-crossMx (-x)) = 1 := by
    have := exp_group 1 (-1) x
    rw [one_smul, neg_smul, one_smul, add_neg_cancel, zero_smul, exp_crossMx_zero] at this
    exact this
  have hq : axisAngle2quat (-x) = quatInv (axisAngle2quat x) := by
    unfold axisAngle2quat
    simp only [hn]
    by_cases hs : isSmall (norm x) <;> simp only [hs, if_true, if_false] <;> apply ext4 <;> simp [quatInv]
  have A : axisAngle2RV (-x) = (axisAngle2RV x).transpose ∧ axisAngle2RV x * axisAngle2RV (-x) = 1 := by
    by_cases h : norm x < 1 / 10 ^ 12
    · rw [axisAngle2RV_small h, axisAngle2RV_small (by rw [hn]; exact h)]
      simp
    · rw [(C150_exponential _ _ (generator_crossMx x)).1 (Or.inr (not_lt.1 h)),
        (C150_exponential _ _ (generator_crossMx (-x))).1 (Or.inr (by rw [hn]; exact not_lt.1 h))]
      exact ⟨(ht x).symm, hp⟩
  have B : rvMatrix (-x) = (rvMatrix x).transpose ∧ rvMatrix x * rvMatrix (-x) = 1 := by
    by_cases h : norm x < 1 / 10 ^ 14
    · rw [rvMatrix_small h, rvMatrix_small (by rw [hn]; exact h)]
      simp
    · rw [(C150_rotation_vector _ _ (generator_crossMx x)).1 (Or.inr (not_lt.1 h)),
        (C150_rotation_vector _ _ (generator_crossMx (-x))).1 (Or.inr (by rw [hn]; exact not_lt.1 h))]
      exact ⟨(ht x).symm, hp⟩
  refine ⟨A.1, A.2, B.1, B.2, hq, fun h => ?_⟩
  have h1 : Exact (1 / 8192) ((1 : ℝ) • x) := by rw [one_smul]; exact h
  have h2 : Exact (1 / 8192) ((-1 : ℝ) • x) := by
    rw [neg_smul, one_smul]
    unfold Exact
    rw [hn]
    exact h
  have h3 : Exact (1 / 8192) ((1 + -1 : ℝ) • x) := by
    left
    rw [norm_smul3]
    simp
  have := C150_quaternion_group 1 (-1) x h1 h2 h3
  rw [one_smul, neg_smul, one_smul, add_neg_cancel, zero_smul, (C54_partial 0).2.1 rfl] at this
  exact this

/-- Concrete: a quarter turn and an opposite half turn about the x axis. -/
example : Exact (1 / 8192) ((Real.pi / 2) • (![1, 0, 0] : V3)) ∧ Exact (1 / 8192) ((-Real.pi) • (![1, 0, 0] : V3)) ∧
    Exact (1 / 8192) ((Real.pi / 2 + -Real.pi) • (![1, 0, 0] : V3)) ∧ IsGenerator (-crossMx ![1, 0, 0]) ![1, 0, 0] := by
  have h := Real.pi_gt_three
  have h1 : norm ![(1 : ℝ), 0, 0] = 1 := norm_axis 1 (by norm_num)
  have e1 : |Real.pi / 2| = Real.pi / 2 := abs_of_pos (by linarith)
  have e2 : |-Real.pi| = Real.pi := by rw [abs_neg]; exact abs_of_pos (by linarith)
  have e3 : |Real.pi / 2 + -Real.pi| = Real.pi / 2 := by rw [abs_of_neg (by linarith)]; ring
  refine ⟨Or.inr ?_, Or.inr ?_, Or.inr ?_, generator_crossMx _⟩ <;> rw [norm_smul3, h1] <;>
    first | rw [e1] | rw [e2] | rw [e3]
  all_goals linarith

end Verif.Kinematics
