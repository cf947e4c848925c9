import Verif.Kinematics.RandomDraw
import Verif.Kinematics.UncertainTransfProps
import Verif.Random.Props

/-!
# C148, C149: random transformations, points and vectors
-/

namespace Verif.Kinematics

open Matrix

/-! ## Specification -/

/-- what Eigen can draw -/
def Drawn {n : ℕ} (d : Fin n → ℝ) : Prop := ∀ i, -1 ≤ d i ∧ d i ≤ 1

/-- what `sm::random` can draw -/
def Sampled (u : ℝ) : Prop := 0 ≤ u ∧ u < 1

/-- the draw that gives the zero vector after the subtraction of 0.5 -/
def NotCentre {n : ℕ} (d : Fin n → ℝ) : Prop := ∃ i, d i ≠ 1 / 2

/-- a rotation by at most the angle `θ` about some axis -/
def RotatesAtMost (C : M3) (θ : ℝ) : Prop := ∃ e φ, IsUnit3 e ∧ |φ| ≤ θ ∧ IsRotationAbout C e φ

/-- **C148, the claim**: whatever is drawn, `setRandom(tMax, rMax)` gives a rigid transformation with a translation of at most `tMax` and a rotation by at most `rMax`. -/
def C148_claim : Prop := ∀ (da dt : V3) (ua ut tMax rMax : ℝ), Drawn da → Drawn dt → NotCentre da → NotCentre dt → Sampled ua → Sampled ut → 0 ≤ tMax → 0 ≤ rMax →
  IsRigid (Transformation.randomMax da dt ua ut tMax rMax).T ∧ norm (Transformation.randomMax da dt ua ut tMax rMax).t ≤ tMax ∧
  RotatesAtMost (Transformation.randomMax da dt ua ut tMax rMax).C rMax

/-! ## Proofs -/

theorem norm_pos {n : ℕ} {v : Fin n → ℝ} (h : ∃ i, v i ≠ 0) : 0 < norm v := by
  obtain ⟨i, hi⟩ := h
  refine Real.sqrt_pos.2 (Finset.sum_pos' (fun j _ => mul_self_nonneg _) ⟨i, Finset.mem_univ _, ?_⟩)
  exact mul_self_pos.2 hi

theorem centre_pos {n : ℕ} {d : Fin n → ℝ} (h : NotCentre d) : 0 < norm (fun i => d i - 1 / 2) := by
  obtain ⟨i, hi⟩ := h
  exact norm_pos ⟨i, sub_ne_zero.2 hi⟩

theorem sqNorm_div {n : ℕ} (v : Fin n → ℝ) (h : 0 < norm v) : sqNorm (fun i => v i / norm v) = 1 := by
  have h2 := norm_mul_self v
  have : sqNorm (fun i => v i / norm v) = sqNorm v / (norm v * norm v) := by
    unfold sqNorm
    rw [div_eq_mul_inv, Finset.sum_mul]
    exact Finset.sum_congr rfl fun i _ => by field_simp
  rw [this, h2]
  exact div_self (by rw [← h2]; positivity)

theorem norm_scaledTo {d : V3} (h : NotCentre d) (len : ℝ) : norm (scaledTo d len) = |len| := by
  have hp := centre_pos h
  have h2 := norm_mul_self (fun i => d i - 1 / 2)
  have : sqNorm (scaledTo d len) = len * len := by
    have : sqNorm (scaledTo d len) = sqNorm (fun i => d i - 1 / 2) * ((len / norm (fun i => d i - 1 / 2)) * (len / norm (fun i => d i - 1 / 2))) := by
      unfold sqNorm scaledTo
      rw [Finset.sum_mul]
      exact Finset.sum_congr rfl fun i _ => by ring
    rw [this, ← h2]
    generalize norm (fun i => d i - 1 / 2) = n at hp
    field_simp
  unfold norm
  rw [this, Real.sqrt_mul_self_eq_abs]

theorem randLU_bound {u m : ℝ} (hu : Sampled u) (hm : 0 ≤ m) : 0 ≤ randLU u 0 m ∧ randLU u 0 m ≤ m := by
  obtain ⟨h0, h1⟩ := hu
  unfold randLU
  constructor <;> nlinarith [mul_nonneg h0 hm]

theorem quat2r_smul (s : ℝ) (q : V4) : quat2r (fun i => s * q i) = (s * s) • quat2r q := by
  ext i j
  fin_cases i <;> fin_cases j <;> simp [quat2r] <;> ring

/-- small angles: the quaternion is a multiple of the one of a rotation about the same axis by nearly the same angle -/
theorem small_angle {a : V3} (h0 : 0 < norm a) (h1 : norm a < 1 / 8192) :
    ∃ s φ : ℝ, 1 < s ∧ s < 1 + 1 / 2 ^ 56 ∧ 0 < φ ∧ φ ≤ norm a * (1 + norm a * norm a) ∧ quat2r (axisAngle2quat a) = s • quat2r (aaQuat φ fun i => a i / norm a) := by
  have hu := unit_of_norm h0.ne'
  have hq := (C54_partial a).2.2 h0 h1
  set θ := norm a with hθ
  have hc : 1 - θ ^ 2 / 8 ≤ Real.cos (θ * (1 / 2)) := by
    have := Real.one_sub_sq_div_two_le_cos (x := θ * (1 / 2))
    nlinarith
  have hc0 : 0 < Real.cos (θ * (1 / 2)) := by nlinarith
  set c := Real.cos (θ * (1 / 2)) with hcd
  set x := θ * (1 / 2 + θ * θ * (1 / 48)) with hx
  have hx0 : 0 < x := by positivity
  set ψ := Real.arctan (x / c) with hψ
  set r := √(1 + (x / c) ^ 2) with hr
  have hr0 : 0 < r := Real.sqrt_pos.2 (by positivity)
  have hsin : c * r * Real.sin ψ = x := by
    rw [hψ, Real.sin_arctan, ← hr]; field_simp
  have hcos : c * r * Real.cos ψ = c := by
    rw [hψ, Real.cos_arctan, ← hr]; field_simp
  have hna : axisAngle2quat a = fun i => (c * r) * aaQuat (2 * ψ) (fun i => a i / θ) i := by
    unfold axisAngle2quat
    rw [← hθ]
    dsimp only
    rw [if_pos (show isSmall θ from h1), ← hcd]
    have hd : 2 * ψ / 2 = ψ := by ring
    apply ext4 <;> simp [aaQuat, hd]
    · rw [show c * r * (a 0 / θ * Real.sin ψ) = a 0 / θ * (c * r * Real.sin ψ) by ring, hsin, hx]; field_simp
    · rw [show c * r * (a 1 / θ * Real.sin ψ) = a 1 / θ * (c * r * Real.sin ψ) by ring, hsin, hx]; field_simp
    · rw [show c * r * (a 2 / θ * Real.sin ψ) = a 2 / θ * (c * r * Real.sin ψ) by ring, hsin, hx]; field_simp
    · rw [hcos, hcd]
  have hsq : sqNorm (axisAngle2quat a) = c * r * (c * r) := by
    have h1 := (unit_iff _).1 (aaQuat_unit (2 * ψ) _ hu)
    rw [hna, show sqNorm (fun i => (c * r) * aaQuat (2 * ψ) (fun i => a i / θ) i) = c * r * (c * r) * sqNorm (aaQuat (2 * ψ) (fun i => a i / θ)) by
      unfold sqNorm; rw [Finset.mul_sum]; exact Finset.sum_congr rfl fun i _ => by ring, h1, mul_one]
  rw [hsq] at hq
  refine ⟨c * r * (c * r), 2 * ψ, hq.1, lt_of_lt_of_le hq.2 ?_, ?_, ?_, by rw [hna, quat2r_smul]⟩
  · have : θ ^ 4 ≤ (1 / 8192) ^ 4 := pow_le_pow_left₀ h0.le h1.le 4
    norm_num at this ⊢
    linarith
  · have : 0 < ψ := Real.arctan_pos.2 (by positivity)
    linarith
  · have h3 : ψ ≤ x / c := by
      have := Real.le_tan (Real.arctan_nonneg.2 (by positivity : 0 ≤ x / c)) (Real.arctan_lt_pi_div_two _)
      rwa [Real.tan_arctan] at this
    have h4 : x / c ≤ θ / 2 * (1 + θ * θ) := by
      rw [div_le_iff₀ hc0, hx]
      have : θ / 2 * (1 + θ * θ) * (1 - θ ^ 2 / 8) ≤ θ / 2 * (1 + θ * θ) * c := by gcongr
      have h5 : θ * θ < 1 := by nlinarith
      nlinarith [mul_pos h0 (mul_pos h0 h0), mul_nonneg (mul_pos h0 (mul_pos h0 h0)).le (sub_nonneg.2 h5.le)]
    linarith

/-- **C148, what holds**: whatever is drawn, the translation of `setRandom(tMax, rMax)` has the length `ut · tMax`, and if the angle `ua · rMax` is 0 or at least 2⁻¹³ it is a rigid transformation that rotates by exactly that angle about the drawn axis.  For
smaller angles the rotation matrix is a rotation, about that axis by at most `θ + θ³`, times a factor between 1 and 1 + 2⁻⁵⁶. -/
theorem C148_partial (da dt : V3) (ua ut tMax rMax : ℝ) (ha : NotCentre da) (ht : NotCentre dt) (hua : Sampled ua) (hut : Sampled ut) (htM : 0 ≤ tMax) (hrM : 0 ≤ rMax) :
    let X := Transformation.randomMax da dt ua ut tMax rMax
    let e : V3 := fun i => (da i - 1 / 2) / norm fun i => da i - 1 / 2
    norm X.t = ut * tMax ∧ norm X.t ≤ tMax ∧ IsUnit3 e ∧
    (ua * rMax = 0 ∨ 1 / 8192 ≤ ua * rMax → IsUnit4 X.q ∧ IsRigid X.T ∧ IsRotationAbout X.C e (ua * rMax) ∧ RotatesAtMost X.C rMax) ∧
    (0 < ua * rMax → ua * rMax < 1 / 8192 → ∃ (s φ : ℝ) (C' : M3), 1 < s ∧ s < 1 + 1 / 2 ^ 56 ∧ X.C = s • C' ∧ IsRotation C' ∧ IsRotationAbout C' e φ ∧ 0 < φ ∧
      φ ≤ ua * rMax * (1 + ua * rMax * (ua * rMax))) := by
  intro X e
  have hna : norm (scaledTo da (randLU ua 0 rMax)) = ua * rMax := by
    rw [norm_scaledTo ha, abs_of_nonneg (randLU_bound hua hrM).1]; simp [randLU]
  have hnt : norm X.t = ut * tMax := by
    change norm (scaledTo dt (randLU ut 0 tMax)) = _
    rw [norm_scaledTo ht, abs_of_nonneg (randLU_bound hut htM).1]; simp [randLU]
  have hp := centre_pos ha
  have he : IsUnit3 e := unit_of_norm hp.ne'
  have hdir : 0 < ua * rMax → (fun i => scaledTo da (randLU ua 0 rMax) i / norm (scaledTo da (randLU ua 0 rMax))) = e := by
    intro h
    funext i
    rw [hna]
    simp only [scaledTo, randLU, e, sub_zero, add_zero]
    generalize norm (fun i => da i - 1 / 2) = n at hp
    have h1 : ua ≠ 0 := by rintro rfl; simp at h
    have h2 : rMax ≠ 0 := by rintro rfl; simp at h
    field_simp
  refine ⟨hnt, by rw [hnt]; nlinarith [hut.2], he, ?_, ?_⟩
  · intro h
    have key : IsUnit4 X.q ∧ IsRotationAbout X.C e (ua * rMax) := by
      rcases h with h | h
      · have : scaledTo da (randLU ua 0 rMax) = 0 := by
          funext i
          simp [scaledTo, randLU, h]
        have hq : X.q = aaQuat 0 e := by
          change axisAngle2quat _ = _
          rw [this, (C54_partial 0).2.1 rfl]
          apply ext4 <;> simp [quatIdentity, aaQuat]
        refine ⟨by rw [hq]; exact aaQuat_unit _ _ he, ?_⟩
        rw [h]
        change IsRotationAbout (quat2r X.q) e 0
        rw [hq, ← rodrigues_quat _ _ he]
        exact rodrigues_about _ _ he
      · have h54 := (C54_partial (scaledTo da (randLU ua 0 rMax))).1 (by rw [hna]; exact h)
        rw [hdir (by linarith), hna] at h54
        exact ⟨h54.1, h54.2.1⟩
    have hrig : IsRigid X.T := rigid_rt (C52_rotation X.q key.1) X.t
    refine ⟨key.1, hrig, key.2, e, ua * rMax, he, ?_, key.2⟩
    rw [abs_of_nonneg (mul_nonneg hua.1 hrM)]
    nlinarith [hua.2]
  · intro h0 h1
    obtain ⟨s, φ, hs, hs', hφ, hle, hq⟩ := small_angle (a := scaledTo da (randLU ua 0 rMax)) (by rw [hna]; exact h0) (by rw [hna]; exact h1)
    rw [hdir h0] at hq
    rw [hna] at hle
    refine ⟨s, φ, quat2r (aaQuat φ e), hs, hs', hq, C52_rotation _ (aaQuat_unit _ _ he), ?_, hφ, hle⟩
    rw [← rodrigues_quat _ _ he]
    exact rodrigues_about _ _ he

/-- **C148 refuted**: for angles below 2⁻¹³ the quaternion is too long, so the transformation is not rigid (by less than the precision of a double). -/
theorem C148_negation : ¬ C148_claim := by
  intro h
  have h1 : Drawn (![1, 1 / 2, 1 / 2] : V3) := by intro i; fin_cases i <;> norm_num
  have h2 : NotCentre (![1, 1 / 2, 1 / 2] : V3) := ⟨0, by norm_num⟩
  have h3 : Sampled (1 / 2) := by constructor <;> norm_num
  obtain ⟨hr, -, -⟩ := h _ _ _ _ 1 (1 / 5000) h1 h1 h2 h2 h3 h3 (by norm_num) (by norm_num)
  obtain ⟨-, -, -, -, hs⟩ := C148_partial ![1, 1 / 2, 1 / 2] ![1, 1 / 2, 1 / 2] (1 / 2) (1 / 2) 1 (1 / 5000) h2 h2 h3 h3 (by norm_num) (by norm_num)
  obtain ⟨s, φ, C', hs1, -, hC, hrot, -⟩ := hs (by norm_num) (by norm_num)
  have hR : IsRotation (Transformation.randomMax ![1, 1 / 2, 1 / 2] ![1, 1 / 2, 1 / 2] (1 / 2) (1 / 2) 1 (1 / 5000)).C := by
    have := hr.1
    rwa [show (fun i j : Fin 3 => (Transformation.randomMax ![1, 1 / 2, 1 / 2] ![1, 1 / 2, 1 / 2] (1 / 2) (1 / 2) 1 (1 / 5000)).T i.castSucc j.castSucc) = _ from transform2C_rt _ _] at this
  have e := hR.1
  rw [hC, transpose_smul, smul_mul_smul_comm, hrot.1] at e
  have := congrFun (congrFun e 0) 0
  simp at this
  nlinarith

theorem Drawn.half {n : ℕ} {v : Fin n → ℝ} (h : ∀ i, |v i| ≤ 1) : Drawn (fun i => v i / 2 + 1 / 2) := by
  intro i
  have := abs_le.1 (h i)
  constructor <;> linarith

theorem entry_le {n : ℕ} {v : Fin n → ℝ} (h : sqNorm v = 1) (i : Fin n) : |v i| ≤ 1 := by
  have : v i * v i ≤ sqNorm v := Finset.single_le_sum (f := fun i => v i * v i) (fun j _ => mul_self_nonneg _) (Finset.mem_univ i)
  rw [h] at this
  exact abs_le_one_iff_mul_self_le_one.2 this

theorem norm_smul' {n : ℕ} (v : Fin n → ℝ) {s : ℝ} (hs : 0 ≤ s) : norm (fun i => v i * s) = norm v * s := by
  unfold norm
  rw [show sqNorm (fun i => v i * s) = sqNorm v * (s * s) by
    unfold sqNorm; rw [Finset.sum_mul]; exact Finset.sum_congr rfl fun i _ => by ring, Real.sqrt_mul' _ (mul_self_nonneg s), Real.sqrt_mul_self hs]

/-- every vector shorter than the bound can be drawn -/
theorem scaledTo_onto (v : V3) {m : ℝ} (h : norm v < m) : ∃ d u, Drawn d ∧ NotCentre d ∧ Sampled u ∧ scaledTo d (randLU u 0 m) = v := by
  have hn := norm_nonneg v
  by_cases h0 : ∃ i, v i ≠ 0
  · have hp := norm_pos h0
    have hu := sqNorm_div v hp
    obtain ⟨i, hi⟩ := h0
    refine ⟨fun i => v i / norm v / 2 + 1 / 2, norm v / m, Drawn.half fun i => entry_le hu i, ⟨i, ?_⟩, ⟨div_nonneg hn (by linarith), (div_lt_one (by linarith)).2 h⟩, ?_⟩
    · have : v i / norm v ≠ 0 := div_ne_zero hi hp.ne'
      intro e
      apply this
      linarith
    · have e1 : (fun i : Fin 3 => v i / norm v / 2 + 1 / 2 - 1 / 2) = fun i => v i / norm v * (1 / 2) := by funext i; ring
      have e2 : norm (fun i : Fin 3 => v i / norm v / 2 + 1 / 2 - 1 / 2) = 1 / 2 := by
        rw [e1, norm_smul' _ (by norm_num), norm, hu]; simp
      funext j
      unfold scaledTo
      dsimp only
      rw [e2]
      simp only [randLU]
      have : m ≠ 0 := by linarith
      field_simp
      ring
  · push Not at h0
    refine ⟨fun _ => 1, 0, fun i => ⟨by norm_num, by norm_num⟩, ⟨0, by norm_num⟩, ⟨by norm_num, by norm_num⟩, ?_⟩
    funext j
    simp [scaledTo, randLU, h0]

/-- **C148** nothing within the bounds is excluded: every translation shorter than `tMax` and every rotation vector shorter than `rMax` is the result of some draws of `setRandom(tMax, rMax)`. -/
theorem C148_onto (a t : V3) (tMax rMax : ℝ) (ha : norm a < rMax) (ht : norm t < tMax) :
    ∃ da dt ua ut, Drawn da ∧ Drawn dt ∧ NotCentre da ∧ NotCentre dt ∧ Sampled ua ∧ Sampled ut ∧
      Transformation.randomMax da dt ua ut tMax rMax = ⟨axisAngle2quat a, t⟩ := by
  obtain ⟨da, ua, h1, h2, h3, h4⟩ := scaledTo_onto a ha
  obtain ⟨dt, ut, k1, k2, k3, k4⟩ := scaledTo_onto t ht
  exact ⟨da, dt, ua, ut, h1, k1, h2, k2, h3, k3, by unfold Transformation.randomMax; rw [h4, k4]⟩

/-- **C148** `setRandom()` and `quatRandom()`: the result is always a rigid transformation with a translation in `[-150, 50]³`, and every one of these occurs. -/
theorem C148_unbounded :
    (∀ (dq : V4) (dt : V3), Drawn dt → NotCentre dq → IsUnit4 (quatRandom dq) ∧ IsRigid (Transformation.random dq dt).T ∧
      ∀ i, -150 ≤ (Transformation.random dq dt).t i ∧ (Transformation.random dq dt).t i ≤ 50) ∧
    (∀ (q : V4) (t : V3), IsUnit4 q → (∀ i, -150 ≤ t i ∧ t i ≤ 50) →
      ∃ dq dt, Drawn dq ∧ Drawn dt ∧ NotCentre dq ∧ Transformation.random dq dt = ⟨q, t⟩) := by
  constructor
  · intro dq dt ht hq
    have hu : IsUnit4 (quatRandom dq) := (unit_iff _).2 (sqNorm_div _ (centre_pos hq))
    refine ⟨hu, rigid_rt (C52_rotation _ hu) _, fun i => ?_⟩
    obtain ⟨h1, h2⟩ := ht i
    simp only [Transformation.random]
    constructor <;> linarith
  · intro q t hq ht
    have hu := (unit_iff _).1 hq
    have hnq : norm q = 1 := by unfold norm; rw [hu]; simp
    refine ⟨fun i => q i / 2 + 1 / 2, fun i => t i / 100 + 1 / 2, Drawn.half fun i => entry_le hu i, fun i => ?_, ?_, ?_⟩
    · obtain ⟨h1, h2⟩ := ht i
      constructor <;> linarith
    · by_contra hc
      unfold NotCentre at hc
      push Not at hc
      have : ∀ i, q i = 0 := fun i => by have := hc i; linarith
      unfold IsUnit4 at hq
      simp [this] at hq
    · have e1 : (fun i : Fin 4 => q i / 2 + 1 / 2 - 1 / 2) = fun i => q i * (1 / 2) := by funext i; ring
      have e2 : norm (fun i : Fin 4 => q i / 2 + 1 / 2 - 1 / 2) = 1 / 2 := by rw [e1, norm_smul' _ (by norm_num), hnq]; norm_num
      unfold Transformation.random quatRandom
      dsimp only
      rw [e2]
      congr 1
      · funext i; ring
      · funext i; ring

theorem cov_gram {ι κ : Type} [Fintype ι] [Fintype κ] (M : Matrix ι κ ℝ) : IsCov (M * M.transpose) := by
  refine ⟨by simp, fun x => ?_⟩
  rw [← mulVec_mulVec, dotProduct_mulVec, ← mulVec_transpose]
  exact Finset.sum_nonneg fun i _ => mul_self_nonneg _

/-- **C148** the random covariances are covariances; those of points and vectors are at least the identity, so they are invertible, and the points have unit length. -/
theorem C148_covariances (dq : V4) (da dt : V3) (ua ut tMax rMax : ℝ) (M : M6) (old : UPoint) (d : V4) (hd : ∃ i, d i ≠ 0) (N : M4)
    {n : ℕ} (v : Fin n → ℝ) (K : Matrix (Fin n) (Fin n) ℝ) (u1 u2 : ℝ) :
    IsCov (UTransf.random dq dt M).U ∧ IsCov (UTransf.randomMax da dt ua ut tMax rMax M).U ∧
    (UTransf.random dq dt M).X = .random dq dt ∧ (UTransf.randomMax da dt ua ut tMax rMax M).X = .randomMax da dt ua ut tMax rMax ∧
    (IsCov (UPoint.random old d N).U ∧ (∀ x, x ⬝ᵥ x ≤ x ⬝ᵥ (UPoint.random old d N).U.mulVec x) ∧ sqNorm (UPoint.random old d N).p = 1 ∧ (UPoint.random old d N).p = hpRandom d ∧
      (UPoint.random old d N).uAvForm ≠ none) ∧
    (IsCov (UVec.random v K).E ∧ ∀ x, x ⬝ᵥ x ≤ x ⬝ᵥ (UVec.random v K).E.mulVec x) ∧
    0 ≤ (UScalar.random u1 u2).E := by
  have hp : sqNorm (hpRandom d) = 1 := sqNorm_div d (norm_pos hd)
  have hpd : (UPoint.random old d N).p = hpRandom d := by
    funext i
    simp [UPoint.random, UPoint.normalize, normalizeAndJacobian, hpRandom, div_eq_mul_inv]
  have one : ∀ {ι : Type} [Fintype ι] [DecidableEq ι], IsCov (1 : Matrix ι ι ℝ) := by
    intro ι _ _
    refine ⟨by simp, fun x => ?_⟩
    rw [one_mulVec]
    exact Finset.sum_nonneg fun i _ => mul_self_nonneg _
  refine ⟨?_, ?_, rfl, rfl, ⟨?_, ?_, by rw [hpd]; exact hp, hpd, ?_⟩, ⟨(cov_gram K).add one, ?_⟩, mul_self_nonneg u2⟩
  · simpa [UTransf.random, UTransf.randomU] using cov_gram M
  · simpa [UTransf.randomMax, UTransf.randomU] using cov_gram M
  · have := cov_gram N.transpose
    rw [transpose_transpose] at this
    exact this.add one
  · intro x
    have := (cov_gram N.transpose).2 x
    rw [transpose_transpose] at this
    change _ ≤ x ⬝ᵥ (N.transpose * N + 1).mulVec x
    rw [add_mulVec, one_mulVec, dotProduct_add]
    linarith
  · unfold UPoint.uAvForm
    rw [if_pos]
    · simp
    · unfold UPoint.nearUnit
      rw [hpd]
      unfold norm
      rw [hp]
      norm_num
  · intro x
    have := (cov_gram K).2 x
    change _ ≤ x ⬝ᵥ (K * K.transpose + 1).mulVec x
    rw [add_mulVec, one_mulVec, dotProduct_add]
    linarith

/-- Concrete: draws as in the theorems. -/
example : Drawn (![1, -1 / 2, 0] : V3) ∧ NotCentre (![1, -1 / 2, 0] : V3) ∧ Sampled (3 / 4) ∧ (1 : ℝ) / 8192 ≤ 3 / 4 * 2 := by
  refine ⟨fun i => ?_, ⟨0, by norm_num⟩, ⟨by norm_num, by norm_num⟩, by norm_num⟩
  fin_cases i <;> norm_num

/-! ## C149: seeding -/

variable {S E D : Type}

/-- the state at the start of a program; `std::rand` behaves as after `srand(1)` -/
def RSt.start (C : CRand S) (L : Verif.Random.Lib E D) : RSt S E D := ⟨C.ofSeed 1, Verif.Random.St.start L⟩

/-- **C149, the claim**: what a program does after `sm::random::seed(s)` does not depend on what happened before. -/
def C149_claim : Prop := ∀ (S E D : Type) (C : CRand S) (L : Verif.Random.Lib E D) (rnd : ℚ → ℚ) (hist hist' : List RCall) (s : ℕ) (cs : List RCall),
  Verif.Random.ResetOk L →
  RSt.outs C L rnd (RSt.after C L rnd (.start C L) (hist ++ [.sm (.seed s)])) cs = RSt.outs C L rnd (RSt.after C L rnd (.start C L) (hist' ++ [.sm (.seed s)])) cs

/-- what two results of the same call have in common when only `sm::random` has been seeded: everything if Eigen is not involved; for `setRandom(tMax, rMax)` the length of the translation and the angle of the rotation -/
def Alike : RCall → ROut → ROut → Prop
  | .sm _, o, o' => o = o'
  | .scalar, o, o' => o = o'
  | .srand _, o, o' => o = o'
  | .tfMax _ _, o, o' => ∃ X X', o = .tf X ∧ o' = .tf X' ∧ norm X.t = norm X'.t ∧ X.q 3 = X'.q 3 ∧ X.C.trace = X'.C.trace
  | _, _, _ => True

/-- a generator whose states are numbers; only the first output is not 0 -/
def counterRand : CRand ℕ := ⟨fun _ => 0, fun n => (if n = 0 then 1 else 0, n + 1), fun n => by dsimp only; split <;> norm_num⟩

def trivialLib : Verif.Random.Lib Unit Unit := ⟨(), fun _ => (), fun _ => (0, ()), fun _ => by norm_num, (), fun _ _ => (0, (), ()), fun _ => ()⟩

theorem trivialLib_ok : Verif.Random.ResetOk trivialLib := ⟨fun _ _ => True, fun _ _ => trivial, fun _ _ _ _ => ⟨rfl, rfl, trivial⟩⟩

/-- **C149 refuted**: Eigen's draws come from `std::rand()`, which `sm::random::seed` does not touch. -/
theorem C149_negation : ¬ C149_claim := by
  intro h
  have := h ℕ Unit Unit counterRand trivialLib id [] [.vec] 1 [.vec] trivialLib_ok
  simp only [RSt.outs, List.cons.injEq, and_true, RSt.step, ROut.vec.injEq, UVec.random, UVec.mk.injEq] at this
  have := congrFun this.1 0
  simp [vecOf, RSt.after, RSt.step, RSt.start, counterRand, CRand.draw] at this

theorem after_snoc (C : CRand S) (L : Verif.Random.Lib E D) (rnd : ℚ → ℚ) (s : RSt S E D) (l : List RCall) (c : RCall) :
    RSt.after C L rnd s (l ++ [c]) = ((RSt.after C L rnd s l).step C L rnd c).2 := by
  induction l generalizing s with
  | nil => rfl
  | cons x l ih => exact ih _

/-- the states of `sm::random` cannot be told apart -/
def SmRel (R : D → D → Prop) (a b : Verif.Random.St E D) : Prop := a.eng = b.eng ∧ R a.dist b.dist

theorem uniform_rel {L : Verif.Random.Lib E D} {R : D → D → Prop} {a b : Verif.Random.St E D} (h : SmRel R a b) :
    (a.uniform L).1 = (b.uniform L).1 ∧ SmRel R (a.uniform L).2 (b.uniform L).2 := by
  simp only [Verif.Random.St.uniform, h.1]
  exact ⟨trivial, rfl, h.2⟩

/-- **C149, what holds**: the angle and the distance of a random transformation and all results that Eigen has no part in depend on nothing that happened before `sm::random::seed(s)` (if Eigen does not draw exactly 0.5). -/
theorem C149_partial (C : CRand S) (hC : ∀ s, (C.next s).1 ≠ 1 / 2) (L : Verif.Random.Lib E D) (hL : Verif.Random.ResetOk L) (rnd : ℚ → ℚ)
    (hist hist' : List RCall) (s : ℕ) (cs : List RCall) (i : ℕ) (c : RCall) (hc : cs[i]? = some c) :
    ∃ o o', (RSt.outs C L rnd (RSt.after C L rnd (.start C L) (hist ++ [.sm (.seed s)])) cs)[i]? = some o ∧
      (RSt.outs C L rnd (RSt.after C L rnd (.start C L) (hist' ++ [.sm (.seed s)])) cs)[i]? = some o' ∧ Alike c o o' := by
  obtain ⟨R, h0, hR⟩ := hL
  have hcen : ∀ n s, NotCentre (vecOf (C.draw (n + 1) s).1 : Fin (n + 1) → ℝ) := fun n s => ⟨0, by simpa [vecOf, CRand.draw] using hC s⟩
  have key : ∀ (cs : List RCall) (a b : RSt S E D) (i : ℕ), SmRel R a.sm b.sm → cs[i]? = some c →
      ∃ o o', (RSt.outs C L rnd a cs)[i]? = some o ∧ (RSt.outs C L rnd b cs)[i]? = some o' ∧ Alike c o o' := by
    intro cs
    induction cs with
    | nil => intro a b i _ h; simp at h
    | cons x cs ih =>
      intro a b i h hi
      have hstep : SmRel R (a.step C L rnd x).2.sm (b.step C L rnd x).2.sm ∧ Alike x (a.step C L rnd x).1 (b.step C L rnd x).1 := by
        cases x with
        | srand x => exact ⟨h, rfl⟩
        | sm c =>
          have := Verif.Random.step_rel L rnd R hR h0 a.sm b.sm h.1 h.2 c
          exact ⟨⟨this.2.1, this.2.2⟩, congrArg ROut.sm this.1⟩
        | tf => exact ⟨h, trivial⟩
        | tfMax tMax rMax =>
          have u1 := uniform_rel (L := L) h
          have u2 := uniform_rel (L := L) u1.2
          refine ⟨u2.2, _, _, rfl, rfl, ?_, ?_, ?_⟩
          · change norm (scaledTo _ _) = norm (scaledTo _ _)
            rw [norm_scaledTo (hcen 2 _), norm_scaledTo (hcen 2 _), u2.1]
          · change axisAngle2quat (scaledTo _ _) 3 = axisAngle2quat (scaledTo _ _) 3
            have c3 : ∀ a, axisAngle2quat a 3 = Real.cos (norm a * (1 / 2)) := fun a => by simp [axisAngle2quat]
            rw [c3, c3, norm_scaledTo (hcen 2 _), norm_scaledTo (hcen 2 _), u1.1]
          · change (quat2r (axisAngle2quat (scaledTo _ _))).trace = (quat2r (axisAngle2quat (scaledTo _ _))).trace
            have tr : ∀ a b : V3, norm a = norm b → (quat2r (axisAngle2quat a)).trace = (quat2r (axisAngle2quat b)).trace := by
              intro a b e
              have e2 : a 0 * a 0 + a 1 * a 1 + a 2 * a 2 = b 0 * b 0 + b 1 * b 1 + b 2 * b 2 := by rw [← norm_sq, ← norm_sq, e]
              unfold axisAngle2quat
              rw [e]
              dsimp only
              generalize (if isSmall (norm b) then 1 / 2 + norm b * norm b * (1 / 48) else Real.sin (norm b * (1 / 2)) / norm b) = n
              simp [quat2r, Matrix.trace, Fin.sum_univ_three]
              linear_combination -n * n * e2
            exact tr _ _ (by rw [norm_scaledTo (hcen 2 _), norm_scaledTo (hcen 2 _), u1.1])
        | scalar =>
          have u1 := uniform_rel (L := L) h
          have u2 := uniform_rel (L := L) u1.2
          refine ⟨u2.2, ?_⟩
          change ROut.scalar _ = ROut.scalar _
          rw [u1.1, u2.1]
        | vec => exact ⟨h, trivial⟩
        | point => exact ⟨h, trivial⟩
      cases i with
      | zero =>
        simp only [List.getElem?_cons_zero, Option.some.injEq] at hi
        subst hi
        exact ⟨_, _, rfl, rfl, hstep.2⟩
      | succ i => exact ih _ _ i hstep.1 (by simpa using hi)
  refine key cs _ _ i ?_ hc
  rw [after_snoc, after_snoc]
  exact ⟨rfl, h0 _ _⟩

/-- **C149, what holds**: after seeding both generators, `std::srand(x)` and `sm::random::seed(s)`, everything is reproducible. -/
theorem C149_both_partial (C : CRand S) (L : Verif.Random.Lib E D) (hL : Verif.Random.ResetOk L) (rnd : ℚ → ℚ) (hist hist' : List RCall) (x s : ℕ) (cs : List RCall) :
    RSt.outs C L rnd (RSt.after C L rnd (.start C L) (hist ++ [.srand x] ++ [.sm (.seed s)])) cs =
      RSt.outs C L rnd (RSt.after C L rnd (.start C L) (hist' ++ [.srand x] ++ [.sm (.seed s)])) cs := by
  obtain ⟨R, h0, hR⟩ := hL
  have key : ∀ (cs : List RCall) (a b : RSt S E D), SmRel R a.sm b.sm → a.c = b.c → RSt.outs C L rnd a cs = RSt.outs C L rnd b cs := by
    intro cs
    induction cs with
    | nil => intros; rfl
    | cons x cs ih =>
      intro a b h hc
      have hstep : SmRel R (a.step C L rnd x).2.sm (b.step C L rnd x).2.sm ∧ (a.step C L rnd x).2.c = (b.step C L rnd x).2.c ∧ (a.step C L rnd x).1 = (b.step C L rnd x).1 := by
        have u1 := uniform_rel (L := L) h
        have u2 := uniform_rel (L := L) u1.2
        cases x with
        | srand x => exact ⟨h, rfl, rfl⟩
        | sm c =>
          have := Verif.Random.step_rel L rnd R hR h0 a.sm b.sm h.1 h.2 c
          exact ⟨⟨this.2.1, this.2.2⟩, hc, congrArg ROut.sm this.1⟩
        | tf => simp only [RSt.step, hc]; exact ⟨h, trivial, trivial⟩
        | tfMax tMax rMax => simp only [RSt.step, hc, u1.1, u2.1]; exact ⟨u2.2, trivial, trivial⟩
        | scalar => simp only [RSt.step, hc, u1.1, u2.1]; exact ⟨u2.2, trivial, trivial⟩
        | vec => simp only [RSt.step, hc]; exact ⟨h, trivial, trivial⟩
        | point => simp only [RSt.step, hc]; exact ⟨h, trivial, trivial⟩
      simp only [RSt.outs, hstep.2.2, ih _ _ hstep.1 hstep.2.1]
  refine key cs _ _ ?_ ?_ <;> simp only [after_snoc]
  · exact ⟨rfl, h0 _ _⟩
  · rfl

/-- Concrete: a generator that never draws 0.5, and a library with the contract. -/
example : (∀ s, (counterRand.next s).1 ≠ 1 / 2) ∧ Verif.Random.ResetOk trivialLib := by
  refine ⟨fun s => ?_, trivialLib_ok⟩
  simp only [counterRand]
  split <;> norm_num

end Verif.Kinematics
