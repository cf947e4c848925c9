import Verif.Kinematics.OplusLemmas2

/-!
# C162: a sequence of updates (`oplus`) of a transformation, in doubles

An estimator changes a `Transformation` by `oplus` again and again; nothing is normalized in between.
-/

namespace Verif.KinematicsDouble

open Verif.Common
open Verif.Kinematics (V3 V4 sqNorm)

local notation "nrm" => Kinematics.norm

/-- a sequence of updates -/
noncomputable def updates {R : ℝ → ℚ} (L : Lib fun q => R q) (X : TransformationD) (us : List (F3 × F3)) : TransformationD := us.foldl (TransformationD.oplus L) X

/-- the rotation after the updates, computed exactly -/
noncomputable def exactUpdates (x : V4) (us : List (F3 × F3)) : V4 := us.foldl (fun x u => Kinematics.qplus (expQuat (vals u.2)) x) x

/-- the rotation vectors are finite and at most 8 long (a full turn is less than 6.3) -/
def UpdatesOk (us : List (F3 × F3)) : Prop := ∀ u ∈ us, Finite u.2 ∧ nrm (vals u.2) ≤ 8

section
variable {R : ℝ → ℚ} (hR : IsRndR R) (E : Eigen fun q => R q) (L : Lib fun q => R q)
include hR

theorem updates_inv (us : List (F3 × F3)) (hu : UpdatesOk us) : ∀ (X : TransformationD) (x : V4) (k : ℕ), k + us.length ≤ 2 ^ 40 → Finite X.q → |nrm (vals X.q) - 1| ≤ (k + 1) / 2 ^ 45 →
    Finite (updates L X us).q ∧ |nrm (vals (updates L X us).q) - 1| ≤ (k + us.length + 1) / 2 ^ 45 ∧
      nrm (vals (updates L X us).q - exactUpdates x us) ≤ nrm (vals X.q - x) + us.length / 2 ^ 42 ∧
      ((∀ u ∈ us, 1 / 8000 ≤ nrm (vals u.2)) → nrm (vals (updates L X us).q - exactUpdates x us) ≤ nrm (vals X.q - x) + us.length / 2 ^ 45) := by
  induction us with
  | nil => intro X x k hk hX hn; simpa [updates, exactUpdates] using ⟨hX, hn⟩
  | cons u us ih =>
    intro X x k hk hX hn
    simp only [List.length_cons] at hk
    have hk' : (k : ℝ) + 1 ≤ 2 ^ 40 := by
      have : k + 1 ≤ 2 ^ 40 := by omega
      exact_mod_cast this
    have n1 : nrm (vals X.q) ≤ 17 / 16 := by
      have h1 := (abs_le.1 hn).2
      have h2 : ((k : ℝ) + 1) / 2 ^ 45 ≤ 2 ^ 40 / 2 ^ 45 := div_le_div_of_nonneg_right hk' (by norm_num)
      norm_num at h2
      linarith
    obtain ⟨ua, ub⟩ := hu u (by simp)
    obtain ⟨s1, s2, s3, s4⟩ := update_step hR L hX n1 ua ub x
    have hn' : |nrm (vals (TransformationD.oplus L X u).q) - 1| ≤ ((k + 1 : ℕ) + 1 : ℝ) / 2 ^ 45 := by
      refine s2.trans ?_
      push_cast
      have e : ((k : ℝ) + 1 + 1) / 2 ^ 45 = (k + 1) / 2 ^ 45 + 1 / 2 ^ 45 := by ring
      rw [e]; linarith
    obtain ⟨r1, r2, r3, r4⟩ := ih (fun v hv => hu v (by simp [hv])) (TransformationD.oplus L X u) (Kinematics.qplus (expQuat (vals u.2)) x) (k + 1) (by omega) s1 hn'
    refine ⟨r1, ?_, ?_, fun h => ?_⟩
    · refine r2.trans (le_of_eq ?_)
      simp only [List.length_cons]; push_cast; ring
    · refine r3.trans ?_
      simp only [List.length_cons]
      push_cast
      have e : ((us.length : ℝ) + 1) / 2 ^ 42 = us.length / 2 ^ 42 + 1 / 2 ^ 42 := by ring
      rw [e]
      have : nrm (vals (TransformationD.oplus L X u).q - Kinematics.qplus (expQuat (vals u.2)) x) ≤ nrm (vals X.q - x) + 1 / 2 ^ 42 := s3
      linarith
    · refine (r4 fun v hv => h v (by simp [hv])).trans ?_
      simp only [List.length_cons]
      push_cast
      have e : ((us.length : ℝ) + 1) / 2 ^ 45 = us.length / 2 ^ 45 + 1 / 2 ^ 45 := by ring
      rw [e]
      have : nrm (vals (TransformationD.oplus L X u).q - Kinematics.qplus (expQuat (vals u.2)) x) ≤ nrm (vals X.q - x) + 1 / 2 ^ 45 := s4 (h u (by simp))
      linarith

theorem built_start (b : Build) (h : b.RotationsOk) : Finite (b.run E).q ∧ |nrm (vals (b.run E).q) - 1| ≤ ((0 : ℕ) + 1 : ℝ) / 2 ^ 45 := by
  obtain ⟨h1, h2⟩ := C120_unit hR E b h
  refine ⟨h1, h2.trans ?_⟩
  norm_num

/-- **C162** After up to 2^40 updates of a transformation the quaternion is finite, and its norm is off by at most `2^-45` per update: leaving out the normalization is harmless. -/
theorem C162_normalized (b : Build) (h : b.RotationsOk) (us : List (F3 × F3)) (hu : UpdatesOk us) (hn : us.length ≤ 2 ^ 40) :
    Finite (updates L (b.run E) us).q ∧ |nrm (vals (updates L (b.run E) us).q) - 1| ≤ (us.length + 1) / 2 ^ 45 := by
  obtain ⟨h1, h2⟩ := built_start hR E b h
  obtain ⟨r1, r2, -, -⟩ := updates_inv hR L us hu (b.run E) 0 0 (by omega) h1 h2
  refine ⟨r1, r2.trans (le_of_eq ?_)⟩
  push_cast; ring

/-- **C162** The debug assertion of `quat2r` cannot fire after up to 2^30 updates. -/
theorem C162_assertion (b : Build) (h : b.RotationsOk) (us : List (F3 × F3)) (hu : UpdatesOk us) (hn : us.length ≤ 2 ^ 30) :
    ∃ m : ℚ, norm E (updates L (b.run E) us).q = .fin m ∧ |m - 1| < 1 / 10000 := by
  obtain ⟨h1, h3⟩ := C162_normalized hR E L b h us hu (hn.trans (by norm_num))
  set c := (updates L (b.run E) us).q with hc
  have hlen : (us.length : ℝ) ≤ 2 ^ 30 := by exact_mod_cast hn
  have h4 : |nrm (vals c) - 1| ≤ (2 ^ 30 + 1) / 2 ^ 45 := h3.trans (div_le_div_of_nonneg_right (by linarith) (by norm_num))
  have b := abs_le.1 h4
  norm_num at b
  obtain ⟨m, e1, -, e3⟩ := norm_err hR E h1 (inR_near_one (by linarith) (by linarith))
  refine ⟨m, e1, ?_⟩
  have e4 : 8 / 2 ^ 53 * nrm (vals c) ≤ 8 / 2 ^ 53 * 2 := mul_le_mul_of_nonneg_left (by linarith) (by norm_num)
  have t := abs_sub_le (m : ℝ) (nrm (vals c)) 1
  have n1 : (8 : ℝ) / 2 ^ 53 * 2 + (2 ^ 30 + 1) / 2 ^ 45 < 1 / 10000 := by norm_num
  have h5 : |(m : ℝ) - 1| < 1 / 10000 := by linarith
  have h6 : ((|m - 1| : ℚ) : ℝ) < ((1 / 10000 : ℚ) : ℝ) := by push_cast; exact h5
  exact_mod_cast h6

/-- **C162** The rotation after the updates is within `2^-42` per update of the exact one. -/
theorem C162_accuracy (b : Build) (h : b.RotationsOk) (hs : b.steps ≤ 2 ^ 40) (us : List (F3 × F3)) (hu : UpdatesOk us) (hn : us.length ≤ 2 ^ 40) :
    nrm (vals (updates L (b.run E) us).q - exactUpdates b.exact.q us) ≤ b.steps / 2 ^ 47 + us.length / 2 ^ 42 := by
  obtain ⟨h1, h2⟩ := built_start hR E b h
  obtain ⟨-, -, r3, -⟩ := updates_inv hR L us hu (b.run E) b.exact.q 0 (by omega) h1 h2
  have := C121_rotation hR E b h hs
  linarith

/-- **C162** If no rotation vector is shorter than 1/8000, each update costs `2^-45` only. -/
theorem C162_accuracy_long (b : Build) (h : b.RotationsOk) (hs : b.steps ≤ 2 ^ 40) (us : List (F3 × F3)) (hu : UpdatesOk us) (hl : ∀ u ∈ us, 1 / 8000 ≤ nrm (vals u.2)) (hn : us.length ≤ 2 ^ 40) :
    nrm (vals (updates L (b.run E) us).q - exactUpdates b.exact.q us) ≤ b.steps / 2 ^ 47 + us.length / 2 ^ 45 := by
  obtain ⟨h1, h2⟩ := built_start hR E b h
  obtain ⟨-, -, -, r4⟩ := updates_inv hR L us hu (b.run E) b.exact.q 0 (by omega) h1 h2
  have := C121_rotation hR E b h hs
  have := r4 hl
  linarith

omit hR in
/-- The claim that `axisAngle2quat` is accurate to `2^-46`, whatever the rotation vector. -/
def C162_claim : Prop := ∀ a : F3, Finite a → nrm (vals a) ≤ 8 → nrm (vals (axisAngle2quat L a) - expQuat (vals a)) ≤ 1 / 2 ^ 46

/-- **C162 (partial)** It is for rotation vectors not shorter than 1/8000, and all others get within `2^-43`; the norm is always right to `2^-46`. -/
theorem C162_rotation_vector_partial (a : F3) (ha : Finite a) (hb : nrm (vals a) ≤ 8) :
    (1 / 8000 ≤ nrm (vals a) → nrm (vals (axisAngle2quat L a) - expQuat (vals a)) ≤ 1 / 2 ^ 46) ∧
      nrm (vals (axisAngle2quat L a) - expQuat (vals a)) ≤ 1 / 2 ^ 43 ∧ |nrm (vals (axisAngle2quat L a)) - 1| ≤ 1 / 2 ^ 46 := by
  obtain ⟨-, h2, h3, h4⟩ := aa_near hR L ha hb
  have e : 24 * u51 ≤ 1 / 2 ^ 46 := by unfold u51; norm_num
  exact ⟨fun h => (h4 h).trans e, h3, h2.trans e⟩

/-- one coordinate of the translation -/
theorem translation_inv (us : List (F3 × F3)) (hu : ∀ u ∈ us, Finite u.1) (i : Fin 3) (W : ℚ) (hW : W ≤ 2 ^ (1000 : ℤ)) :
    ∀ (X : TransformationD) (x : ℚ) (k : ℕ), k + us.length ≤ 2 ^ 40 → (X.t i).isFinite ∧ IsDoubleVal (X.t i) → |x| + (us.map fun u => |fval (u.1 i)|).sum ≤ W → |fval (X.t i) - x| ≤ k / 2 ^ 52 * W →
      ((updates L X us).t i).isFinite ∧ IsDoubleVal ((updates L X us).t i) ∧
        |fval ((updates L X us).t i) - (x + (us.map fun u => fval (u.1 i)).sum)| ≤ (k + us.length : ℕ) / 2 ^ 52 * W := by
  induction us with
  | nil =>
    intro X x k hk hX hx he
    refine ⟨hX.1, hX.2, ?_⟩
    simpa [updates] using he
  | cons u us ih =>
    intro X x k hk hX hx he
    simp only [List.length_cons] at hk
    simp only [List.map_cons, List.sum_cons] at hx ⊢
    have fX : X.t i = .fin (fval (X.t i)) ∧ IsDouble (fval (X.t i)) := by
      have : Finite (n := 1) (fun _ => X.t i) := fun _ => hX
      exact this.fin 0
    obtain ⟨e1, d1⟩ := fX
    obtain ⟨e2, d2⟩ := (hu u (by simp)).fin i
    set c := fval (X.t i) with hc
    set d := fval (u.1 i) with hd
    have s0 : 0 ≤ (us.map fun u => |fval (u.1 i)|).sum := List.sum_nonneg (by
      intro y hy
      obtain ⟨v, -, rfl⟩ := List.mem_map.1 hy
      exact abs_nonneg _)
    have W0 : 0 ≤ W := by have := abs_nonneg x; have := abs_nonneg d; linarith
    have hk' : (k : ℚ) ≤ 2 ^ 40 := by
      have : k ≤ 2 ^ 40 := by omega
      exact_mod_cast this
    have kW : (k : ℚ) / 2 ^ 52 * W ≤ W := by
      have : (k : ℚ) / 2 ^ 52 ≤ 1 := (div_le_one (by norm_num)).2 (hk'.trans (by norm_num))
      nlinarith
    have cd : |c + d| ≤ 2 * W := by
      have t1 := abs_add_le (c - x) (x + d)
      have t2 := abs_add_le x d
      have e : c - x + (x + d) = c + d := by ring
      rw [e] at t1
      linarith
    have er := hR.rat.err_add d1 d2
    have er' : |R ((c + d : ℚ) : ℝ) - (c + d)| ≤ 1 / 2 ^ 52 * W := by
      refine er.trans ?_
      have : |c + d| / 2 ^ 53 ≤ 2 * W / 2 ^ 53 := div_le_div_of_nonneg_right cd (by norm_num)
      refine this.trans (le_of_eq ?_)
      ring
    have big : |R ((c + d : ℚ) : ℝ)| < tooBig := by
      have t1 := abs_sub_abs_le_abs_sub (R ((c + d : ℚ) : ℝ)) (c + d)
      have h1 : |R ((c + d : ℚ) : ℝ)| ≤ 4 * W := by
        have : 1 / 2 ^ 52 * W ≤ W := by nlinarith
        linarith
      have h2 : 4 * W ≤ 2 ^ (1002 : ℤ) := by
        have e : (2 : ℚ) ^ (1002 : ℤ) = 4 * 2 ^ (1000 : ℤ) := by
          rw [show (1002 : ℤ) = 2 + 1000 by norm_num, zpow_add₀ (by norm_num)]; norm_num
        rw [e]; exact mul_le_mul_of_nonneg_left hW (by norm_num)
      have h3 : (2 : ℚ) ^ (1002 : ℤ) < tooBig := by
        unfold tooBig
        rw [← zpow_natCast]
        exact zpow_lt_zpow_right₀ (by norm_num) (by norm_num)
      exact h1.trans_lt (h2.trans_lt h3)
    have st : (TransformationD.oplus L X u).t i = .fin (R ((c + d : ℚ) : ℝ)) := by
      show fadd (fun q => R q) (X.t i) (u.1 i) = _
      rw [e1, e2]
      show (if |R ((c + d : ℚ) : ℝ)| < tooBig then Fp.fin (R ((c + d : ℚ) : ℝ)) else _) = _
      rw [if_pos big]
    obtain ⟨r1, r2, r3⟩ := ih (fun v hv => hu v (by simp [hv])) (TransformationD.oplus L X u) (x + d) (k + 1) (by omega) (by
        rw [st]
        exact ⟨rfl, hR.mem _, big⟩) (by have := abs_add_le x d; linarith) (by
        rw [st]
        show |R ((c + d : ℚ) : ℝ) - (x + d)| ≤ _
        have t := abs_sub_le (R ((c + d : ℚ) : ℝ)) (c + d) (x + d)
        have e : c + d - (x + d) = c - x := by ring
        rw [e] at t
        rw [Nat.cast_add, Nat.cast_one]
        have e3 : ((k : ℚ) + 1) / 2 ^ 52 * W = k / 2 ^ 52 * W + 1 / 2 ^ 52 * W := by ring
        rw [e3]; linarith)
    refine ⟨r1, r2, ?_⟩
    have e4 : x + d + (us.map fun u => fval (u.1 i)).sum = x + (d + (us.map fun u => fval (u.1 i)).sum) := by ring
    rw [e4] at r3
    refine r3.trans (le_of_eq ?_)
    simp only [List.length_cons]; push_cast; ring

/-- **C162** The translation after the updates: each coordinate is finite and within `n·2^-52` of the exact sum, relative to the sum of the absolute values that are added. -/
theorem C162_translation (X : TransformationD) (hX : Finite X.t) (us : List (F3 × F3)) (hu : ∀ u ∈ us, Finite u.1) (hn : us.length ≤ 2 ^ 40) (i : Fin 3)
    (hW : |fval (X.t i)| + (us.map fun u => |fval (u.1 i)|).sum ≤ 2 ^ (1000 : ℤ)) :
    ((updates L X us).t i).isFinite ∧
      |fval ((updates L X us).t i) - (fval (X.t i) + (us.map fun u => fval (u.1 i)).sum)| ≤ us.length / 2 ^ 52 * (|fval (X.t i)| + (us.map fun u => |fval (u.1 i)|).sum) := by
  obtain ⟨h1, -, h3⟩ := translation_inv hR L us hu i _ hW X (fval (X.t i)) 0 (by omega) (hX i) le_rfl (by simp)
  refine ⟨h1, ?_⟩
  simpa using h3

/-- a rotation vector just below the threshold 2^-13 -/
def shortTurn : F3 := ![.fin (1023 * 2 ^ (-23 : ℤ)), .fin 0, .fin 0]

omit hR in
theorem shortTurn_finite : Finite shortTurn := by
  have big : (1 : ℚ) < tooBig := one_lt_pow₀ (by norm_num) (by norm_num)
  intro i
  fin_cases i
  · exact ⟨rfl, ⟨1023, -23, by norm_num, by norm_num, by push_cast; rfl⟩, lt_trans (by rw [abs_of_nonneg (by positivity)]; norm_num) big⟩
  · exact ⟨rfl, by simpa using isDouble_int 0 (by norm_num), lt_trans (by norm_num) big⟩
  · exact ⟨rfl, by simpa using isDouble_int 0 (by norm_num), lt_trans (by norm_num) big⟩

omit hR in
theorem shortTurn_norm : nrm (vals shortTurn) = 1023 / 2 ^ 23 := by
  have : sqNorm (vals shortTurn) = 1023 / 2 ^ 23 * (1023 / 2 ^ 23) := by
    rw [Kinematics.sq3]
    have h0 : vals shortTurn 0 = 1023 / 2 ^ 23 := by norm_num [vals, shortTurn, fval]
    have h1 : vals shortTurn 1 = 0 := by norm_num [vals, shortTurn, fval]
    have h2 : vals shortTurn 2 = 0 := by simp [vals, shortTurn, fval]
    rw [h0, h1, h2]; norm_num
  rw [Kinematics.norm, this, Real.sqrt_mul_self (by norm_num)]

/-- **C162** The claim is false, for every rounding to nearest and every C library: the series used for short rotation vectors has the wrong sign. -/
theorem C162_negation : ¬ C162_claim L := by
  intro h
  have hn := shortTurn_norm
  have hb : nrm (vals shortTurn) ≤ 8 := by rw [hn]; norm_num
  have h1 := h shortTurn shortTurn_finite hb
  have hs : isSmallD (norm3 L shortTurn) = true := by
    obtain ⟨t, ht, -, -, te⟩ := norm3_err hR L shortTurn_finite hb
    rw [ht]
    rw [hn] at te
    have te' := (abs_le.1 te).2
    have : (t : ℝ) < ((1 / 2 ^ 13 : ℚ) : ℝ) := by push_cast; norm_num at te' ⊢; linarith
    exact decide_eq_true (Rat.cast_lt.1 this)
  obtain ⟨-, -, h2⟩ := (axis_small hR L shortTurn_finite hb hs 0).val
  have h3 := (abs_le_nrm (vals (axisAngle2quat L shortTurn) - expQuat (vals shortTurn)) 0).trans h1
  have e0 : vals shortTurn 0 = 1023 / 2 ^ 23 := by norm_num [vals, shortTurn, fval]
  have e1 : (vals (axisAngle2quat L shortTurn) - expQuat (vals shortTurn)) 0 =
      (fval (fmul (fun q => R q) (shortTurn 0) (naD L (norm3 L shortTurn))) : ℝ) - vals shortTurn 0 * (Real.sin (nrm (vals shortTurn) / 2) / nrm (vals shortTurn)) := rfl
  rw [e1] at h3
  have h4 := (abs_le.1 h3).2
  have h5 := (abs_le.1 h2).1
  rw [e0, hn] at h4 h5
  have h6 := Real.sin_lt (x := 1023 / 2 ^ 23 / 2) (by norm_num)
  have h7 : (1023 : ℝ) / 2 ^ 23 * (Real.sin (1023 / 2 ^ 23 / 2) / (1023 / 2 ^ 23)) = Real.sin (1023 / 2 ^ 23 / 2) := by
    rw [mul_div_cancel₀ _ (by norm_num)]
  rw [h7] at h4
  unfold u51 at h5
  norm_num at h4 h5 h6
  linarith

end

theorem round1 {x : ℝ} (h : |x| ≤ 1) : |(rndEvenReal x : ℝ) - x| ≤ 1 / 2 ^ 52 := by
  rcases le_or_gt ((2 : ℝ) ^ (-1022 : ℤ)) |x| with h1 | h1
  · have := isRndR_rndEvenReal.err_rel h1
    refine this.trans ?_
    have : |x| / 2 ^ 53 ≤ 1 / 2 ^ 53 := div_le_div_of_nonneg_right h (by norm_num)
    refine this.trans ?_
    norm_num
  · have h3 := isRndR_rndEvenReal.near x 0 (by simpa using isDouble_int 0 (by norm_num))
    rw [Rat.cast_zero, zero_sub, abs_neg] at h3
    have h4 : (2 : ℝ) ^ (-1022 : ℤ) ≤ 2 ^ (-52 : ℤ) := zpow_le_zpow_right₀ (by norm_num) (by norm_num)
    have h5 : (2 : ℝ) ^ (-52 : ℤ) = 1 / 2 ^ 52 := by rw [zpow_neg, one_div]; norm_cast
    exact h3.trans (h1.le.trans (h5 ▸ h4))

/-! ## a case that meets the hypotheses -/

/-- correctly rounded functions, and the plain loop for the sum -/
noncomputable def Lib.rounded : Lib fun q => rndEvenReal q where
  sum3 a b c := fadd (fun q => rndEvenReal q) (fadd (fun q => rndEvenReal q) a b) c
  sum3_sum a b c := .add (.add (.one a) (.one b) (.refl _)) (.one c) (.refl _)
  sin x := rndEvenReal (Real.sin x)
  cos x := rndEvenReal (Real.cos x)
  sin_double _ := isRndR_rndEvenReal.mem _
  cos_double _ := isRndR_rndEvenReal.mem _
  sin_err _ := round1 (Real.abs_sin_le_one _)
  cos_err _ := round1 (Real.abs_cos_le_one _)

/-- a turn by three radians about the axis (2, 2, 1) -/
def turnU : F3 × F3 := (![.fin 1, .fin 2, .fin 2], ![.fin 2, .fin 2, .fin 1])

theorem turnU_norm : nrm (vals turnU.2) = 3 := by
  have : sqNorm (vals turnU.2) = 3 * 3 := by norm_num [turnU, sqNorm, Fin.sum_univ_succ, vals, fval]
  rw [Kinematics.norm, this, Real.sqrt_mul_self (by norm_num)]

theorem turnU_finite : Finite turnU.2 ∧ Finite turnU.1 := by
  constructor
  · have := finite_small (a := 2) (b := 2) (c := 1) (by norm_num) (by norm_num) (by norm_num)
    rw [Int.cast_one, Int.cast_ofNat] at this
    exact this
  · have := finite_small (a := 1) (b := 2) (c := 2) (by norm_num) (by norm_num) (by norm_num)
    rw [Int.cast_one, Int.cast_ofNat] at this
    exact this

theorem turnU_ok : UpdatesOk [turnU, turnU] := by
  intro u hu
  have : u = turnU := by simpa using hu
  subst this
  exact ⟨turnU_finite.1, by rw [turnU_norm]; norm_num⟩

example : Finite (updates Lib.rounded (trip.run (Eigen.plain fun q => rndEvenReal q)) [turnU, turnU]).q ∧
    |nrm (vals (updates Lib.rounded (trip.run (Eigen.plain fun q => rndEvenReal q)) [turnU, turnU]).q) - 1| ≤ 3 / 2 ^ 45 := by
  have := C162_normalized isRndR_rndEvenReal (Eigen.plain fun q => rndEvenReal q) Lib.rounded trip trip_rotations [turnU, turnU] turnU_ok (by norm_num)
  norm_num at this ⊢
  exact this

example : ∃ m : ℚ, norm (Eigen.plain fun q => rndEvenReal q) (updates Lib.rounded (trip.run (Eigen.plain fun q => rndEvenReal q)) [turnU, turnU]).q = .fin m ∧ |m - 1| < 1 / 10000 :=
  C162_assertion isRndR_rndEvenReal _ Lib.rounded trip trip_rotations [turnU, turnU] turnU_ok (by norm_num)

example : nrm (vals (updates Lib.rounded (trip.run (Eigen.plain fun q => rndEvenReal q)) [turnU, turnU]).q - exactUpdates trip.exact.q [turnU, turnU]) ≤ trip.steps / 2 ^ 47 + 2 / 2 ^ 45 := by
  have := C162_accuracy_long isRndR_rndEvenReal (Eigen.plain fun q => rndEvenReal q) Lib.rounded trip trip_rotations (by norm_num [trip, Build.steps]) [turnU, turnU] turnU_ok (by
    intro u hu
    have : u = turnU := by simpa using hu
    subst this
    rw [turnU_norm]; norm_num) (by norm_num)
  simpa using this

example : ((updates Lib.rounded ⟨third, turnU.1⟩ [turnU, turnU]).t 1).isFinite := by
  have := C162_translation isRndR_rndEvenReal Lib.rounded ⟨third, turnU.1⟩ turnU_finite.2 [turnU, turnU] (by
    intro u hu
    have : u = turnU := by simpa using hu
    subst this
    exact turnU_finite.2) (by norm_num) 1 (by
    have h : (2 : ℚ) ^ (3 : ℤ) ≤ 2 ^ (1000 : ℤ) := zpow_le_zpow_right₀ (by norm_num) (by norm_num)
    refine le_trans ?_ h
    norm_num [turnU, fval])
  exact this.1

end Verif.KinematicsDouble
