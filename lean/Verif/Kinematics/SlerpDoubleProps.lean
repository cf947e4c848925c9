import Verif.Kinematics.SlerpDoubleLemmas

/-!
# C174: interpolation of poses (`slerpTransformations`, `interpolateTransformations`), in doubles
-/

namespace Verif.KinematicsDouble

open Verif.Common
open Verif.Kinematics (V3 V4 sqNorm)

local notation "nrm" => Kinematics.norm

/-- the rotation of a transformation as the constructors leave it (C120): finite and of norm 1, up to 12 units of the last place -/
def StoredUnit (X : TransformationD) : Prop := Finite X.q ∧ |nrm (vals X.q) - 1| ≤ 12 / 2 ^ 53

/-- the time is a finite double of at most 2^1022 -/
def TimeOk (s : Fp) : Prop := ∃ r, s = .fin r ∧ |r| ≤ limit

theorem le_fin (a b : ℚ) : Fp.le (.fin a) (.fin b) = decide (a ≤ b) := by
  simp only [Fp.le, Fp.lt, Fp.eq]
  rcases lt_trichotomy a b with h | h | h
  · simp [h, h.le]
  · simp [h]
  · simp [h.not_gt, h.ne', h.not_ge]

section
variable {R : ℝ → ℚ} (hR : IsRndR R) (L : LogLib fun q => R q) (E : Eigen fun q => R q)
include hR

theorem normalize_near' {q : F4} (hq : Finite q) (nq : |nrm (vals q) - 1| ≤ 31 * u51) :
    Finite (normalize E q) ∧ |nrm (vals (normalize E q)) - 1| ≤ 12 / 2 ^ 53 ∧ nrm (vals (normalize E q) - vals q) ≤ |nrm (vals q) - 1| + 12 / 2 ^ 53 := by
  have b := abs_le.1 nq
  have us : u51 ≤ 1 / 1000000 := by unfold u51; norm_num
  have hin : InR (-200) 200 (nrm (vals q)) := inR_near_one (by linarith) (by linarith)
  obtain ⟨h1, h2⟩ := normalize_err hR E hq hin
  have hN := hin.pos
  have hu : nrm ((nrm (vals q))⁻¹ • vals q) = 1 := by rw [nrm_smul, abs_of_pos (inv_pos.2 hN), inv_mul_cancel₀ hN.ne']
  refine ⟨h1, ?_, ?_⟩
  · have := nrm_diff (vals (normalize E q)) ((nrm (vals q))⁻¹ • vals q)
    rw [hu] at this
    exact this.trans h2
  · have t := nrm_sub_le (vals (normalize E q)) ((nrm (vals q))⁻¹ • vals q) (vals q)
    have e : (nrm (vals q))⁻¹ • vals q - vals q = ((nrm (vals q))⁻¹ - 1) • vals q := by rw [sub_smul, one_smul]
    rw [e, nrm_smul] at t
    have e2 : |(nrm (vals q))⁻¹ - 1| * nrm (vals q) = |nrm (vals q) - 1| := by
      have : |(nrm (vals q))⁻¹ - 1| * nrm (vals q) = |((nrm (vals q))⁻¹ - 1) * nrm (vals q)| := by rw [abs_mul, abs_of_pos hN]
      rw [this, sub_mul, inv_mul_cancel₀ hN.ne', one_mul, abs_sub_comm]
    rw [e2] at t
    linarith

/-- the computed quaternion between the ends -/
theorem qslerp_between {q p : F4} (hq : Finite q) (hp : Finite p) (nq : |nrm (vals q) - 1| ≤ 12 / 2 ^ 53) (np : |nrm (vals p) - 1| ≤ 12 / 2 ^ 53) {t : ℚ} (t0 : 0 < t) (t1 : t < 1) :
    Finite (qslerp L E q p (.fin t)) ∧ |nrm (vals (qslerp L E q p (.fin t))) - 1| ≤ 31 * u51 ∧
      ∃ w : V3, nrm w ≤ Real.pi + 1 / 2 ^ 43 ∧ (nrm (Kinematics.qplus (vals q) (expQuat w) - vals p) ≤ 11 / 10 / 2 ^ 41 ∨ nrm (Kinematics.qplus (vals q) (expQuat w) + vals p) ≤ 11 / 10 / 2 ^ 41) ∧
        nrm (vals (qslerp L E q p (.fin t)) - Kinematics.qplus (vals q) (expQuat ((t : ℝ) • w))) ≤ 11 / 10 / 2 ^ 43 := by
  have nq' : nrm (vals q) ≤ 1001 / 1000 := by have := (abs_le.1 nq).2; norm_num at this ⊢; linarith
  have np' : nrm (vals p) ≤ 1001 / 1000 := by have := (abs_le.1 np).2; norm_num at this ⊢; linarith
  have F := flip_dot hR E hq hp nq' np'
  unfold qslerp
  rw [le_fin, le_fin, decide_eq_false (not_le.2 t0), decide_eq_false (not_le.2 t1), if_neg (by simp), if_neg (by simp)]
  split at F
  · rename_i h
    rw [if_pos h]
    have hv : vals (fun i => (p i).neg) = -vals p := vals_neg p
    obtain ⟨w1, w2, w3⟩ := rel_log hR L hq (finite_neg hp) nq (by rw [hv, nrm_neg]; exact np) (by
      rw [hv]
      have : dot4 (vals q) (-vals p) = -dot4 (vals q) (vals p) := by simp [dot4]; ring
      linarith)
    obtain ⟨r1, r2, r3⟩ := slerp_point hR L hq nq w1 w2 t0 t1
    refine ⟨r1, r2, _, w2, .inr ?_, r3⟩
    rw [hv, sub_neg_eq_add] at w3
    exact w3
  · rename_i h
    rw [if_neg h]
    obtain ⟨w1, w2, w3⟩ := rel_log hR L hq hp nq np F
    obtain ⟨r1, r2, r3⟩ := slerp_point hR L hq nq w1 w2 t0 t1
    exact ⟨r1, r2, _, w2, .inl w3, r3⟩

/-- **C174** The rotation of an interpolated pose is again finite and normalized, for every pair of poses and every parameter (infinite ones included); it can be interpolated again. -/
theorem C174_unit (X Y : TransformationD) (hX : StoredUnit X) (hY : StoredUnit Y) (s : Fp) (hs : s ≠ .nan) : StoredUnit (X.slerp L E Y s) := by
  have u0 := u51_pos
  have e12 : (12 : ℝ) / 2 ^ 53 ≤ 31 * u51 := by unfold u51; norm_num
  have key : Finite (qslerp L E X.q Y.q s) ∧ |nrm (vals (qslerp L E X.q Y.q s)) - 1| ≤ 31 * u51 := by
    cases h0 : Fp.le s (.fin 0) with
    | true =>
      have : qslerp L E X.q Y.q s = X.q := by unfold qslerp; rw [if_pos h0]
      rw [this]; exact ⟨hX.1, hX.2.trans e12⟩
    | false =>
      cases h1 : Fp.le (.fin 1) s with
      | true =>
        have : qslerp L E X.q Y.q s = Y.q := by unfold qslerp; rw [if_neg (by simp [h0]), if_pos h1]
        rw [this]; exact ⟨hY.1, hY.2.trans e12⟩
      | false =>
        cases s with
        | nan => exact absurd rfl hs
        | inf n => cases n <;> simp [Fp.le, Fp.lt, Fp.eq] at h0 h1
        | fin t =>
          rw [le_fin] at h0 h1
          obtain ⟨a, b, -⟩ := qslerp_between hR L E hX.1 hY.1 hX.2 hY.2 (t := t) (not_le.1 (of_decide_eq_false h0)) (not_le.1 (of_decide_eq_false h1))
          exact ⟨a, b⟩
  obtain ⟨g1, g2, -⟩ := normalize_near' hR E key.1 key.2
  exact ⟨g1, g2⟩

/-- **C174** Outside of the open interval (0, 1) the result is the first or the second pose: the same translation, and the same quaternion up to a renormalization. -/
theorem C174_ends (X Y : TransformationD) (hX : StoredUnit X) (hY : StoredUnit Y) (s : Fp) :
    (Fp.le s (.fin 0) → (X.slerp L E Y s).t = X.t ∧ nrm (vals (X.slerp L E Y s).q - vals X.q) ≤ 24 / 2 ^ 53) ∧
      (Fp.le (.fin 1) s → (X.slerp L E Y s).t = Y.t ∧ nrm (vals (X.slerp L E Y s).q - vals Y.q) ≤ 24 / 2 ^ 53) := by
  have e12 : (12 : ℝ) / 2 ^ 53 ≤ 31 * u51 := by unfold u51; norm_num
  have e24 : (12 : ℝ) / 2 ^ 53 + 12 / 2 ^ 53 = 24 / 2 ^ 53 := by norm_num
  constructor
  · intro h
    obtain ⟨-, -, g⟩ := normalize_near' hR E hX.1 (hX.2.trans e12)
    have e1 : (X.slerp L E Y s).q = normalize E X.q := by
      show normalize E (qslerp L E X.q Y.q s) = _
      unfold qslerp; rw [if_pos h]
    refine ⟨?_, ?_⟩
    · show lerp R X.t Y.t s = _
      unfold lerp; rw [if_pos h]
    · rw [e1]; have := hX.2; linarith
  · intro h
    have h0 : Fp.le s (.fin 0) = false := by
      cases s with
      | nan => rfl
      | inf n => cases n <;> simp_all [Fp.le, Fp.lt, Fp.eq]
      | fin t =>
        rw [le_fin] at h ⊢
        have : 1 ≤ t := of_decide_eq_true h
        exact decide_eq_false (by linarith)
    obtain ⟨-, -, g⟩ := normalize_near' hR E hY.1 (hY.2.trans e12)
    have e1 : (X.slerp L E Y s).q = normalize E Y.q := by
      show normalize E (qslerp L E X.q Y.q s) = _
      unfold qslerp; rw [if_neg (by simp [h0]), if_pos h]
    refine ⟨?_, ?_⟩
    · show lerp R X.t Y.t s = _
      unfold lerp; rw [if_neg (by simp [h0]), if_pos h]
    · rw [e1]; have := hY.2; linarith

/-- **C174** Between the ends the rotation turns at a constant rate about a fixed axis, the short way round: there is a rotation vector `w` of at most half a turn that leads from the first rotation to the second (to one of the two
quaternions of it) up to `2^-40`, and for the parameter `t` the result is the first rotation, followed by the fraction `t` of `w`, up to `2^-42`. -/
theorem C174_rotation (X Y : TransformationD) (hX : StoredUnit X) (hY : StoredUnit Y) (t : ℚ) (t0 : 0 < t) (t1 : t < 1) :
    ∃ w : V3, nrm w ≤ Real.pi + 1 / 2 ^ 43 ∧
      (nrm (Kinematics.qplus (vals X.q) (expQuat w) - vals Y.q) ≤ 1 / 2 ^ 40 ∨ nrm (Kinematics.qplus (vals X.q) (expQuat w) + vals Y.q) ≤ 1 / 2 ^ 40) ∧
      nrm (vals (X.slerp L E Y (.fin t)).q - Kinematics.qplus (vals X.q) (expQuat ((t : ℝ) • w))) ≤ 1 / 2 ^ 42 := by
  obtain ⟨a, b, w, w1, w2, w3⟩ := qslerp_between hR L E hX.1 hY.1 hX.2 hY.2 t0 t1
  obtain ⟨-, -, g⟩ := normalize_near' hR E a b
  refine ⟨w, w1, ?_, ?_⟩
  · refine w2.imp (fun h => h.trans ?_) (fun h => h.trans ?_) <;> norm_num
  · have h1 := nrm_sub_le (vals (X.slerp L E Y (.fin t)).q) (vals (qslerp L E X.q Y.q (.fin t))) (Kinematics.qplus (vals X.q) (expQuat ((t : ℝ) • w)))
    have h2 : nrm (vals (X.slerp L E Y (.fin t)).q - vals (qslerp L E X.q Y.q (.fin t))) ≤ 31 * u51 + 12 / 2 ^ 53 := by
      refine le_trans g ?_
      linarith
    have h3 : 31 * u51 + 12 / 2 ^ 53 + 11 / 10 / 2 ^ 43 ≤ 1 / 2 ^ 42 := by unfold u51; norm_num
    linarith

/-- **C174** Between the ends the translation is on the straight line, up to four units of the last place of the larger coordinate. -/
theorem C174_translation (X Y : TransformationD) (hX : Finite X.t) (hY : Finite Y.t) (t : ℚ) (t0 : 0 < t) (t1 : t < 1) (i : Fin 3) (B : ℝ) (hB : B ≤ 2 ^ (200 : ℤ)) (hx : |vals X.t i| ≤ B) (hy : |vals Y.t i| ≤ B) :
    ((X.slerp L E Y (.fin t)).t i).isFinite ∧ |vals (X.slerp L E Y (.fin t)).t i - ((1 - t) * vals X.t i + t * vals Y.t i)| ≤ 4 / 2 ^ 53 * B + 1 / 2 ^ 190 := by
  have t0' : (0 : ℝ) < t := by exact_mod_cast t0
  have t1' : (t : ℝ) < 1 := by exact_mod_cast t1
  have B0 : 0 ≤ B := (abs_nonneg _).trans hx
  have c300 : (2 : ℝ) ^ (200 : ℤ) * 8 ≤ 2 ^ (300 : ℤ) := by
    have e : (8 : ℝ) = 2 ^ (3 : ℤ) := by norm_num
    rw [e, ← zpow_add₀ (by norm_num : (2 : ℝ) ≠ 0)]
    exact zpow_le_zpow_right₀ (by norm_num) (by norm_num)
  have big : (8 : ℝ) ≤ 2 ^ (300 : ℤ) := by
    have : (2 : ℝ) ^ (3 : ℤ) ≤ 2 ^ (300 : ℤ) := zpow_le_zpow_right₀ (by norm_num) (by norm_num)
    exact le_trans (by norm_num) this
  have htiny := tiny_small
  have tiny0 : (0 : ℝ) ≤ tiny := by unfold tiny; push_cast; positivity
  have e : (X.slerp L E Y (.fin t)).t i = fadd (fun q => R q) (fmul (fun q => R q) (fsub (fun q => R q) (.fin 1) (.fin t)) (X.t i)) (fmul (fun q => R q) (.fin t) (Y.t i)) := by
    show lerp R X.t Y.t (.fin t) i = _
    unfold lerp
    rw [le_fin, le_fin, decide_eq_false (not_le.2 t0), decide_eq_false (not_le.2 t1), if_neg (by simp), if_neg (by simp)]
  obtain ⟨xe, xd⟩ := hX.fin i
  obtain ⟨ye, yd⟩ := hY.fin i
  set a := vals X.t i with ha
  set b := vals Y.t i with hb
  have hae : ((fval (X.t i) : ℚ) : ℝ) = a := rfl
  have hbe : ((fval (Y.t i) : ℚ) : ℝ) = b := rfl
  -- 1 - t
  have z1 : ((1 + -t : ℚ) : ℝ) = 1 - t := by push_cast; ring
  have p1t : (0 : ℝ) < 1 - t := by linarith
  have B300 : B ≤ 2 ^ (300 : ℤ) := hB.trans (zpow_le_zpow_right₀ (by norm_num) (by norm_num))
  obtain ⟨c1, c2, c3⟩ := round_mid hR (z := 1 + -t) (by rw [z1, abs_of_pos p1t]; exact (by linarith : (1 : ℝ) - t ≤ 8).trans big)
  set c := R ((1 + -t : ℚ) : ℝ) with hc
  rw [z1, abs_of_pos p1t] at c3
  have c3' := abs_le.1 c3
  have t2 : (1 - (t : ℝ)) / 2 ^ 53 ≤ 1 / 2 ^ 53 := by gcongr; linarith
  have c0 : 0 ≤ c := hR.rat.nonneg (by linarith : (0 : ℚ) ≤ 1 + -t)
  have c0' : (0 : ℝ) ≤ c := by exact_mod_cast c0
  have cle : (c : ℝ) ≤ 1 := by
    have : c ≤ 1 := by
      have := hR.rat.le_of_le (x := 1 + -t) (y := ((1 : ℤ) : ℚ)) (isDouble_int 1 (by norm_num)) (by push_cast; linarith)
      simpa [hc] using this
    exact_mod_cast this
  -- the products
  have z2 : ((c * fval (X.t i) : ℚ) : ℝ) = c * a := by push_cast; rw [hae]
  have z3 : ((t * fval (Y.t i) : ℚ) : ℝ) = t * b := by push_cast; rw [hbe]
  have ca : |(c : ℝ) * a| ≤ c * B := by rw [abs_mul, abs_of_nonneg c0']; exact mul_le_mul_of_nonneg_left hx c0'
  have tb : |(t : ℝ) * b| ≤ t * B := by rw [abs_mul, abs_of_pos t0']; exact mul_le_mul_of_nonneg_left hy t0'.le
  have cB : (c : ℝ) * B ≤ B := by nlinarith
  have tB : (t : ℝ) * B ≤ B := by nlinarith
  obtain ⟨p1, p2, p3⟩ := round_mid hR (z := c * fval (X.t i)) (by rw [z2]; exact (ca.trans cB).trans B300)
  obtain ⟨r1, r2, r3⟩ := round_mid hR (z := t * fval (Y.t i)) (by rw [z3]; exact (tb.trans tB).trans B300)
  set p := R ((c * fval (X.t i) : ℚ) : ℝ) with hp
  set r := R ((t * fval (Y.t i) : ℚ) : ℝ) with hr
  rw [z2] at p3
  rw [z3] at r3
  have p4 : |(p : ℝ) - c * a| ≤ c * B / 2 ^ 53 + tiny := p3.trans (by gcongr)
  have r4 : |(r : ℝ) - t * b| ≤ t * B / 2 ^ 53 + tiny := r3.trans (by gcongr)
  have p4' := abs_le.1 p4
  have r4' := abs_le.1 r4
  have pb : |(p : ℝ)| ≤ c * B + c * B / 2 ^ 53 + tiny := by
    have := abs_sub_abs_le_abs_sub (p : ℝ) (c * a); linarith
  have rb : |(r : ℝ)| ≤ t * B + t * B / 2 ^ 53 + tiny := by
    have := abs_sub_abs_le_abs_sub (r : ℝ) (t * b); linarith
  have z4 : ((p + r : ℚ) : ℝ) = p + r := by push_cast; rfl
  have ctB : (c : ℝ) * B + t * B ≤ B + B / 2 ^ 53 + tiny * B := by
    have : (c : ℝ) + t ≤ 1 + 1 / 2 ^ 53 + tiny := by linarith
    have := mul_le_mul_of_nonneg_right this B0
    have e : (1 + 1 / 2 ^ 53 + (tiny : ℝ)) * B = B + B / 2 ^ 53 + tiny * B := by ring
    linarith
  have tB1 : (tiny : ℝ) * B ≤ 1 / 100 / 2 ^ 53 * B := mul_le_mul_of_nonneg_right (htiny.trans (by norm_num)) B0
  have sb : |(p : ℝ) + r| ≤ 101 / 100 * B + 1 / 2 ^ 195 := by
    have := abs_add_le (p : ℝ) r
    norm_num at ctB tB1 pb rb htiny ⊢
    linarith
  obtain ⟨s1, s2, s3⟩ := round_mid hR (z := p + r) (by
    rw [z4]
    refine sb.trans (le_trans ?_ c300)
    have : (1 : ℝ) ≤ 2 ^ (200 : ℤ) := one_le_zpow₀ (by norm_num) (by norm_num)
    have h2 : (1 : ℝ) / 2 ^ 195 ≤ 1 := by norm_num
    linarith)
  set s := R ((p + r : ℚ) : ℝ) with hs
  rw [z4] at s3
  have ef : (X.slerp L E Y (.fin t)).t i = .fin s := by
    rw [e, xe, ye]
    have f1 : fsub (fun q => R q) (.fin 1) (.fin t) = .fin c := c1
    have f2 : fmul (fun q => R q) (.fin c) (.fin (fval (X.t i))) = .fin p := p1
    have f3 : fmul (fun q => R q) (.fin t) (.fin (fval (Y.t i))) = .fin r := r1
    rw [f1, f2, f3]
    exact s1
  refine ⟨by rw [ef]; rfl, ?_⟩
  have ev : vals (X.slerp L E Y (.fin t)).t i = s := by unfold vals; rw [ef]; rfl
  rw [ev]
  have s4 : |(p : ℝ) + r| / 2 ^ 53 ≤ (101 / 100 * B + 1 / 2 ^ 195) / 2 ^ 53 := by gcongr
  have d1 : |(c : ℝ) * a - (1 - t) * a| ≤ (1 / 2 ^ 53 + tiny) * B := by
    rw [← sub_mul, abs_mul]
    exact mul_le_mul (c3.trans (by linarith)) hx (abs_nonneg _) (by positivity)
  have d1' := abs_le.1 d1
  have s3' := abs_le.1 s3
  have hh : (1 / 2 ^ 53 + (tiny : ℝ)) * B = B / 2 ^ 53 + tiny * B := by ring
  rw [hh] at d1'
  have cB53 : (c : ℝ) * B / 2 ^ 53 + t * B / 2 ^ 53 ≤ 101 / 100 * B / 2 ^ 53 := by
    rw [← add_div]; gcongr
    norm_num at ctB tB1 ⊢
    linarith
  rw [abs_le]
  norm_num at s3' s4 d1' p4' r4' cB53 tB1 htiny ⊢
  constructor <;> linarith



/-- the double next to `1e-14` is between 2^-47 and 2^-46 -/
theorem eps_bounds : (2 : ℚ) ^ (-47 : ℤ) ≤ R (1 / 10 ^ 14) ∧ R (1 / 10 ^ 14) ≤ (2 : ℚ) ^ (-46 : ℤ) := by
  have e : (fun q : ℚ => R q) (1 / 10 ^ 14) = R (1 / 10 ^ 14) := by
    show R _ = R _
    congr 1; push_cast; rfl
  rw [← e]
  exact ⟨hR.rat.ge_of_ge (isDouble_pow _ (by norm_num)) (by norm_num), hR.rat.le_of_le (isDouble_pow _ (by norm_num)) (by norm_num)⟩

/-- the difference of two times -/
theorem sub_ok {a b : ℚ} (ha : |a| ≤ limit) (hb : |b| ≤ limit) : fsub (fun q => R q) (.fin a) (.fin b) = .fin (R ((a - b : ℚ) : ℝ)) := by
  have h : |a - b| ≤ 2 * limit := (abs_sub a b).trans (by linarith)
  have := (rounded_fin hR.rat h).1
  simpa [fsub, Fp.sub, Fp.add, Fp.neg, sub_eq_add_neg] using this

/-- the quotient in `interpolateTransformations` -/
theorem place_eq {s0 s1 si : ℚ} (h0 : |s0| ≤ limit) (h1 : |s1| ≤ limit) (hi : |si| ≤ limit) :
    TransformationD.place R (.fin s0) (.fin s1) (.fin si) =
      rounded (fun q => R q) (.fin (R ((si - s0 : ℚ) : ℝ) / max (R (1 / 10 ^ 14)) (R ((s1 - s0 : ℚ) : ℝ)))) := by
  have hp : (0 : ℚ) < max (R (1 / 10 ^ 14)) (R ((s1 - s0 : ℚ) : ℝ)) := lt_max_of_lt_left (lt_of_lt_of_le (by positivity) (eps_bounds hR).1)
  unfold TransformationD.place
  rw [sub_ok hR hi h0, sub_ok hR h1 h0]
  have em : Fp.max (.fin (R (1 / 10 ^ 14))) (.fin (R ((s1 - s0 : ℚ) : ℝ))) = .fin (max (R (1 / 10 ^ 14)) (R ((s1 - s0 : ℚ) : ℝ))) := by
    unfold Fp.max Fp.lt
    simp only [decide_eq_true_eq]
    split
    · rename_i h; rw [max_eq_right h.le]
    · rename_i h; rw [max_eq_left (not_lt.1 h)]
  rw [em]
  show rounded _ (if _ then _ else _) = _
  rw [if_neg hp.ne']

theorem place_not_nan {s0 s1 si : Fp} (h0 : TimeOk s0) (h1 : TimeOk s1) (hi : TimeOk si) : TransformationD.place R s0 s1 si ≠ .nan := by
  obtain ⟨s0, rfl, h0⟩ := h0
  obtain ⟨s1, rfl, h1⟩ := h1
  obtain ⟨si, rfl, hi⟩ := hi
  rw [place_eq hR h0 h1 hi]
  unfold rounded
  split <;> simp_all
  split <;> simp

theorem rounded_nonpos {q : ℚ} (h : q ≤ 0) : Fp.le (rounded (fun q => R q) (.fin q)) (.fin 0) = true := by
  have d0 : IsDouble (0 : ℚ) := by simpa using isDouble_int 0 (by norm_num)
  show Fp.le (if _ then _ else _) _ = true
  split
  · rw [le_fin]; exact decide_eq_true (hR.rat.le_of_le d0 h)
  · rename_i hbig
    rcases h.lt_or_eq with h | h
    · rw [decide_eq_true h]; rfl
    · exfalso; apply hbig
      rw [h]
      have : (fun q : ℚ => R q) 0 = 0 := hR.rat.fix d0
      rw [this, abs_zero]; unfold tooBig; positivity

theorem rounded_ge_one {q : ℚ} (h : 1 ≤ q) : Fp.le (.fin 1) (rounded (fun q => R q) (.fin q)) = true := by
  have d1 : IsDouble (1 : ℚ) := by simpa using isDouble_int 1 (by norm_num)
  show Fp.le _ (if _ then _ else _) = true
  split
  · rw [le_fin]; exact decide_eq_true (hR.rat.ge_of_ge d1 h)
  · rw [decide_eq_false (by linarith)]; rfl

/-- before the first time the place is at most 0, after the second one at least 1 (if the span is not too short) -/
theorem place_outside {s0 s1 si : ℚ} (h0 : |s0| ≤ limit) (h1 : |s1| ≤ limit) (hi : |si| ≤ limit) :
    (si ≤ s0 → Fp.le (TransformationD.place R (.fin s0) (.fin s1) (.fin si)) (.fin 0) = true) ∧
      (s1 ≤ si → 2 ^ (-46 : ℤ) ≤ s1 - s0 → Fp.le (.fin 1) (TransformationD.place R (.fin s0) (.fin s1) (.fin si)) = true) := by
  have hp : (0 : ℚ) < max (R (1 / 10 ^ 14)) (R ((s1 - s0 : ℚ) : ℝ)) := lt_max_of_lt_left (lt_of_lt_of_le (by positivity) (eps_bounds hR).1)
  rw [place_eq hR h0 h1 hi]
  have d0 : IsDouble (0 : ℚ) := by simpa using isDouble_int 0 (by norm_num)
  have d1 : IsDouble (1 : ℚ) := by simpa using isDouble_int 1 (by norm_num)
  constructor
  · intro h
    have n0 : R ((si - s0 : ℚ) : ℝ) ≤ 0 := hR.rat.le_of_le d0 (by linarith)
    have q0 : R ((si - s0 : ℚ) : ℝ) / max (R (1 / 10 ^ 14)) (R ((s1 - s0 : ℚ) : ℝ)) ≤ 0 := div_nonpos_of_nonpos_of_nonneg n0 hp.le
    exact rounded_nonpos hR q0
  · intro h hd
    have mle : max (R (1 / 10 ^ 14)) (R ((s1 - s0 : ℚ) : ℝ)) ≤ R ((si - s0 : ℚ) : ℝ) := by
      refine max_le ((eps_bounds hR).2.trans ?_) (hR.rat.mono (by linarith))
      exact hR.rat.ge_of_ge (isDouble_pow _ (by norm_num)) (by linarith)
    have q1 : 1 ≤ R ((si - s0 : ℚ) : ℝ) / max (R (1 / 10 ^ 14)) (R ((s1 - s0 : ℚ) : ℝ)) := (one_le_div hp).2 mle
    exact rounded_ge_one hR q1

/-- **C174** The interpolated pose is finite and normalized again, for all finite times in whatever order. -/
theorem C174_interpolated (X Y : TransformationD) (hX : StoredUnit X) (hY : StoredUnit Y) (s0 s1 si : Fp) (h0 : TimeOk s0) (h1 : TimeOk s1) (hi : TimeOk si) :
    StoredUnit (X.interpolate L E s0 Y s1 si) := by
  unfold TransformationD.interpolate
  split
  · exact C174_unit hR L E Y X hY hX _ (place_not_nan hR h1 h0 hi)
  · exact C174_unit hR L E X Y hX hY _ (place_not_nan hR h0 h1 hi)

omit hR in
/-- **C174** It does not matter in which order the two poses are given. -/
theorem C174_order (X Y : TransformationD) (s0 s1 : ℚ) (h : s0 ≠ s1) (si : Fp) :
    X.interpolate L E (.fin s0) Y (.fin s1) si = Y.interpolate L E (.fin s1) X (.fin s0) si := by
  unfold TransformationD.interpolate
  rcases lt_or_gt_of_ne h with h | h
  · rw [if_neg (by simp [Fp.lt, h.le]), if_pos (by simp [Fp.lt, h])]
  · rw [if_pos (by simp [Fp.lt, h]), if_neg (by simp [Fp.lt, h.le])]

/-- **C174** Up to the first time the pose is the first one, from the second time on it is the second one (the same translation; the quaternion renormalized), if the two times are at least 2^-46 apart. -/
theorem C174_outside_partial (X Y : TransformationD) (hX : StoredUnit X) (hY : StoredUnit Y) (s0 s1 si : ℚ) (h0 : |s0| ≤ limit) (h1 : |s1| ≤ limit) (hi : |si| ≤ limit) (h01 : s0 ≤ s1) :
    (si ≤ s0 → (X.interpolate L E (.fin s0) Y (.fin s1) (.fin si)).t = X.t ∧ nrm (vals (X.interpolate L E (.fin s0) Y (.fin s1) (.fin si)).q - vals X.q) ≤ 24 / 2 ^ 53) ∧
      (s1 ≤ si → 2 ^ (-46 : ℤ) ≤ s1 - s0 →
        (X.interpolate L E (.fin s0) Y (.fin s1) (.fin si)).t = Y.t ∧ nrm (vals (X.interpolate L E (.fin s0) Y (.fin s1) (.fin si)).q - vals Y.q) ≤ 24 / 2 ^ 53) := by
  have e : X.interpolate L E (.fin s0) Y (.fin s1) (.fin si) = X.slerp L E Y (TransformationD.place R (.fin s0) (.fin s1) (.fin si)) := by
    unfold TransformationD.interpolate; rw [if_neg (by simp [Fp.lt, h01])]
  rw [e]
  obtain ⟨p1, p2⟩ := place_outside hR (s0 := s0) (s1 := s1) (si := si) h0 h1 hi
  obtain ⟨c1, c2⟩ := C174_ends hR L E X Y hX hY (TransformationD.place R (.fin s0) (.fin s1) (.fin si))
  exact ⟨fun h => c1 (p1 h), fun h g => c2 (p2 h g)⟩

/-- **C174** Between the two times (at least 2^-46 apart) the pose is the one at a fraction `t` of the way, which is the fraction of the time span, up to 2^-50. -/
theorem C174_fraction_partial (X Y : TransformationD) (s0 s1 si : ℚ) (h0 : |s0| ≤ 2 ^ (200 : ℕ)) (h1 : |s1| ≤ 2 ^ (200 : ℕ)) (hd : 2 ^ (-46 : ℤ) ≤ s1 - s0) (a : s0 ≤ si) (b : si ≤ s1) :
    ∃ t : ℚ, 0 ≤ t ∧ t ≤ 1 ∧ |(t : ℝ) - (si - s0) / (s1 - s0)| ≤ 1 / 2 ^ 50 ∧ X.interpolate L E (.fin s0) Y (.fin s1) (.fin si) = X.slerp L E Y (.fin t) := by
  have dpos : (0 : ℚ) < s1 - s0 := lt_of_lt_of_le (by positivity) hd
  have lim : ((2 : ℚ)) ^ (200 : ℕ) ≤ limit := by unfold limit; exact pow_le_pow_right₀ (by norm_num) (by norm_num)
  have hi : |si| ≤ 2 ^ (200 : ℕ) := abs_le.2 ⟨(abs_le.1 h0).1.trans a, b.trans (abs_le.1 h1).2⟩
  have e : X.interpolate L E (.fin s0) Y (.fin s1) (.fin si) = X.slerp L E Y (TransformationD.place R (.fin s0) (.fin s1) (.fin si)) := by
    unfold TransformationD.interpolate; rw [if_neg (by simp only [Fp.lt, decide_eq_true_eq]; linarith)]
  rw [e, place_eq hR (h0.trans lim) (h1.trans lim) (hi.trans lim)]
  have D46 : (2 : ℚ) ^ (-46 : ℤ) ≤ R ((s1 - s0 : ℚ) : ℝ) := hR.rat.ge_of_ge (isDouble_pow _ (by norm_num)) hd
  rw [max_eq_right ((eps_bounds hR).2.trans D46)]
  have N0 : 0 ≤ R ((si - s0 : ℚ) : ℝ) := hR.rat.nonneg (by linarith)
  have ND : R ((si - s0 : ℚ) : ℝ) ≤ R ((s1 - s0 : ℚ) : ℝ) := hR.rat.mono (by linarith)
  have c300 : ∀ z : ℚ, |z| ≤ 2 * 2 ^ (200 : ℕ) → |(z : ℝ)| ≤ 2 ^ (300 : ℤ) := by
    intro z hz
    have h1 : (2 : ℚ) * 2 ^ (200 : ℕ) ≤ 2 ^ (300 : ℕ) := by rw [← pow_succ']; exact pow_le_pow_right₀ (by norm_num) (by norm_num)
    have h2 : ((|z| : ℚ) : ℝ) ≤ ((2 ^ (300 : ℕ) : ℚ) : ℝ) := Rat.cast_le.2 (hz.trans h1)
    rw [Rat.cast_abs] at h2
    refine h2.trans (le_of_eq ?_)
    push_cast; norm_cast
  have mk : ∀ x y : ℚ, |x| ≤ 2 ^ (200 : ℕ) → |y| ≤ 2 ^ (200 : ℕ) → |x - y| ≤ 2 * 2 ^ (200 : ℕ) := fun x y hx hy => (abs_sub x y).trans (by linarith)
  obtain ⟨-, -, n3⟩ := round_mid hR (c300 _ (mk si s0 hi h0))
  obtain ⟨-, -, d3⟩ := round_mid hR (c300 _ (mk s1 s0 h1 h0))
  set N := R ((si - s0 : ℚ) : ℝ) with hN
  set D := R ((s1 - s0 : ℚ) : ℝ) with hD
  have D0 : 0 < D := lt_of_lt_of_le (by positivity) D46
  have q0 : 0 ≤ N / D := by positivity
  have q1 : N / D ≤ 1 := (div_le_one D0).2 ND
  obtain ⟨t1, -, t3⟩ := round_mid hR (c300 (N / D) (by
    rw [abs_of_nonneg q0]
    exact q1.trans (by rw [← pow_succ']; exact one_le_pow₀ (by norm_num))))
  refine ⟨R ((N / D : ℚ) : ℝ), hR.rat.nonneg q0, hR.rat.le_of_le (by simpa using isDouble_int 1 (by norm_num)) q1, ?_, by rw [t1]⟩
  have htiny : (tiny : ℝ) ≤ 1 / 2 ^ 200 := tiny_small
  have tiny0 : (0 : ℝ) ≤ tiny := by unfold tiny; push_cast; positivity
  have D0' : (0 : ℝ) < D := by exact_mod_cast D0
  have dp : (0 : ℝ) < (s1 : ℝ) - s0 := by exact_mod_cast dpos
  have np : (0 : ℝ) ≤ (si : ℝ) - s0 := by have : (s0 : ℝ) ≤ si := by exact_mod_cast a
                                          linarith
  have nd : (si : ℝ) - s0 ≤ s1 - s0 := by have : (si : ℝ) ≤ s1 := by exact_mod_cast b
                                          linarith
  have d46 : (1 : ℝ) / 2 ^ 46 ≤ s1 - s0 := by
    have : (((2 : ℚ) ^ (-46 : ℤ) : ℚ) : ℝ) ≤ ((s1 - s0 : ℚ) : ℝ) := Rat.cast_le.2 hd
    push_cast at this
    refine le_trans (le_of_eq ?_) this
    norm_num
  push_cast at n3 d3 t3
  set d : ℝ := (s1 : ℝ) - s0 with hd'
  set n : ℝ := (si : ℝ) - s0 with hn'
  rw [abs_of_nonneg np] at n3
  rw [abs_of_pos dp] at d3
  have hq1 : (N : ℝ) / D ≤ 1 := by exact_mod_cast q1
  have hq0 : (0 : ℝ) ≤ (N : ℝ) / D := by exact_mod_cast q0
  rw [abs_of_nonneg hq0] at t3
  have tinyd : (tiny : ℝ) ≤ d / 2 ^ 100 := by
    refine htiny.trans (le_trans ?_ (div_le_div_of_nonneg_right d46 (by positivity)))
    norm_num
  have Dlo : d * (99 / 100) ≤ D := by
    have := (abs_le.1 d3).1
    norm_num at this tinyd ⊢
    linarith
  have key : (N : ℝ) / D - n / d = ((N - n) + n / d * (d - D)) / D := by field_simp; ring
  have nd1 : n / d ≤ 1 := (div_le_one dp).2 nd
  have nd0 : 0 ≤ n / d := by positivity
  have num : |(N - n) + n / d * (d - D)| ≤ 2 * (d / 2 ^ 53 + d / 2 ^ 100) := by
    have h1 : |(N : ℝ) - n| ≤ d / 2 ^ 53 + d / 2 ^ 100 := n3.trans (add_le_add (by gcongr) tinyd)
    have h2 : |n / d * (d - D)| ≤ d / 2 ^ 53 + d / 2 ^ 100 := by
      rw [abs_mul, abs_of_nonneg nd0, abs_sub_comm]
      have h3 : |(D : ℝ) - d| ≤ d / 2 ^ 53 + d / 2 ^ 100 := d3.trans (by linarith)
      calc n / d * |(D : ℝ) - d| ≤ 1 * |(D : ℝ) - d| := mul_le_mul_of_nonneg_right nd1 (abs_nonneg _)
        _ ≤ _ := by rw [one_mul]; exact h3
    have := abs_add_le ((N : ℝ) - n) (n / d * (d - D))
    linarith
  have quo : |(N : ℝ) / D - n / d| ≤ 3 / 2 ^ 53 := by
    rw [key, abs_div, abs_of_pos D0', div_le_iff₀ D0']
    refine num.trans (le_trans ?_ (mul_le_mul_of_nonneg_left Dlo (by positivity)))
    norm_num
    linarith
  have h1 := abs_sub_le ((R ((N / D : ℚ) : ℝ) : ℚ) : ℝ) ((N : ℝ) / D) (n / d)
  have h2 : |((R ((N / D : ℚ) : ℝ) : ℚ) : ℝ) - (N : ℝ) / D| ≤ 1 / 2 ^ 53 + 1 / 2 ^ 200 := by
    push_cast
    refine t3.trans (add_le_add ?_ htiny)
    gcongr
  have h3 : (1 : ℝ) / 2 ^ 53 + 1 / 2 ^ 200 + 3 / 2 ^ 53 ≤ 1 / 2 ^ 50 := by norm_num
  linarith

end

/-! ## Two claims that fail -/

/-- the pose `(q, (a, b, c))` -/
def pose (q : F4) (a b c : ℤ) : TransformationD := ⟨q, ![.fin a, .fin b, .fin c]⟩

theorem third_stored (a b c : ℤ) : StoredUnit (pose third a b c) := ⟨third_finite, by rw [show (pose third a b c).q = third from rfl, third_norm]; norm_num⟩

/-- the claim: from the second time on the pose has the second translation, for all times with the second after the first -/
def C174_second_claim {R : ℝ → ℚ} (L : LogLib fun q => R q) (E : Eigen fun q => R q) : Prop :=
  ∀ (X Y : TransformationD) (s0 s1 : ℚ), StoredUnit X → StoredUnit Y → Finite X.t → Finite Y.t → IsDouble s0 → IsDouble s1 → s0 < s1 → |s0| ≤ 1 → |s1| ≤ 1 → (X.interpolate L E (.fin s0) Y (.fin s1) (.fin s1)).t = Y.t

/-- **C174** At the second of two times that are 2^-50 apart the translation has only made an eighth of the way, or less: the span is taken to be 1e-14. -/
theorem C174_second_negation {R : ℝ → ℚ} (hR : IsRndR R) (L : LogLib fun q => R q) (E : Eigen fun q => R q) : ¬ C174_second_claim L E := by
  intro h
  have d50 : IsDouble ((2 : ℚ) ^ (-50 : ℤ)) := isDouble_pow _ (by norm_num)
  have fx : Finite (pose third 0 0 0).t := finite_small (a := 0) (b := 0) (c := 0) (by norm_num) (by norm_num) (by norm_num)
  have fy : Finite (pose third 1 1 1).t := finite_small (a := 1) (b := 1) (c := 1) (by norm_num) (by norm_num) (by norm_num)
  have hh := h (pose third 0 0 0) (pose third 1 1 1) 0 (2 ^ (-50 : ℤ)) (third_stored ..) (third_stored ..) fx fy (by simpa using isDouble_int 0 (by norm_num)) d50 (by positivity) (by norm_num) (by norm_num)
  have l1 : (1 : ℚ) ≤ limit := one_le_pow₀ (by norm_num)
  have lz : |(0 : ℚ)| ≤ limit := by rw [abs_zero]; exact limit_pos.le
  have l5 : |(2 : ℚ) ^ (-50 : ℤ)| ≤ limit := le_trans (by norm_num) l1
  obtain ⟨e1, e2⟩ := eps_bounds hR
  have f50 : R (((2 : ℚ) ^ (-50 : ℤ) - 0 : ℚ) : ℝ) = 2 ^ (-50 : ℤ) := by rw [sub_zero]; exact hR.rat.fix d50
  have mx : max (R (1 / 10 ^ 14)) (2 ^ (-50 : ℤ)) = R (1 / 10 ^ 14) := max_eq_left (le_trans (by norm_num) e1)
  have ep : 0 < R (1 / 10 ^ 14) := lt_of_lt_of_le (by positivity) e1
  set eps := R (1 / 10 ^ 14) with heps
  have qlo : (2 : ℚ) ^ (-4 : ℤ) ≤ 2 ^ (-50 : ℤ) / eps := by
    rw [le_div_iff₀ ep]
    refine (mul_le_mul_of_nonneg_left e2 (by positivity)).trans (by norm_num)
  have qhi : (2 : ℚ) ^ (-50 : ℤ) / eps ≤ 2 ^ (-3 : ℤ) := by
    rw [div_le_iff₀ ep]
    exact le_trans (by norm_num) (mul_le_mul_of_nonneg_left e1 (by positivity))
  obtain ⟨r1, -⟩ := rounded_fin hR.rat (q := 2 ^ (-50 : ℤ) / eps) (by
    rw [abs_of_nonneg (by positivity)]
    refine qhi.trans (le_trans (by norm_num) (l1.trans (by linarith [limit_pos]))))
  set t := R (((2 : ℚ) ^ (-50 : ℤ) / eps : ℚ) : ℝ) with ht
  have tlo : (2 : ℚ) ^ (-4 : ℤ) ≤ t := hR.rat.ge_of_ge (isDouble_pow _ (by norm_num)) qlo
  have thi : t ≤ 2 ^ (-3 : ℤ) := hR.rat.le_of_le (isDouble_pow _ (by norm_num)) qhi
  have e : (pose third 0 0 0).interpolate L E (.fin 0) (pose third 1 1 1) (.fin (2 ^ (-50 : ℤ))) (.fin (2 ^ (-50 : ℤ))) = (pose third 0 0 0).slerp L E (pose third 1 1 1) (.fin t) := by
    unfold TransformationD.interpolate
    rw [if_neg (by simp only [Fp.lt, decide_eq_true_eq, not_lt]; positivity), place_eq hR lz l5 l5, f50, mx, r1]
  rw [e] at hh
  have t0 : 0 < t := lt_of_lt_of_le (by positivity) tlo
  have t1 : t < 1 := lt_of_le_of_lt thi (by norm_num)
  obtain ⟨-, c⟩ := C174_translation hR L E (pose third 0 0 0) (pose third 1 1 1) fx fy t t0 t1 0 1 (one_le_zpow₀ (by norm_num) (by norm_num)) (by simp [pose, vals, fval]) (by simp [pose, vals, fval])
  rw [hh] at c
  have v1 : vals (pose third 1 1 1).t 0 = 1 := by simp [pose, vals, fval]
  have v0 : vals (pose third 0 0 0).t 0 = 0 := by simp [pose, vals, fval]
  rw [v0, v1] at c
  have thi' : (t : ℝ) ≤ 1 / 8 := by
    have : (t : ℝ) ≤ (((2 : ℚ) ^ (-3 : ℤ) : ℚ) : ℝ) := Rat.cast_le.2 thi
    refine this.trans (by norm_num)
  have c2 := (abs_le.1 c).2
  norm_num at c2
  linarith

/-- the claim: an interpolated coordinate is never outside of the two coordinates of the ends -/
def C174_between_claim {R : ℝ → ℚ} (L : LogLib fun q => R q) (E : Eigen fun q => R q) : Prop :=
  ∀ (X Y : TransformationD) (t : ℚ) (i : Fin 3), StoredUnit X → StoredUnit Y → Finite X.t → Finite Y.t → IsDouble t → 0 ≤ t → t ≤ 1 →
    min (vals X.t i) (vals Y.t i) ≤ vals (X.slerp L E Y (.fin t)).t i

/-- the double next to 0.3 -/
def threeTenths : ℚ := 5404319552844595 / 18014398509481984

/-- **C174** Between two poses at the same place, (3, 3, 3), the pose at the fraction 0.3 is at a smaller coordinate than 3 (with the usual rounding). -/
theorem C174_between_negation (L : LogLib fun q => rndEvenReal q) (E : Eigen fun q => rndEvenReal q) : ¬ C174_between_claim L E := by
  intro h
  have f3 : Finite (pose third 3 3 3).t := finite_small (a := 3) (b := 3) (c := 3) (by norm_num) (by norm_num) (by norm_num)
  have hh := h (pose third 3 3 3) (pose third 3 3 3) threeTenths 0 (third_stored ..) (third_stored ..) f3 f3
    ⟨5404319552844595, -54, by norm_num, by norm_num, by unfold threeTenths; norm_num⟩ (by unfold threeTenths; norm_num) (by unfold threeTenths; norm_num)
  have hr : (fun q : ℚ => rndEvenReal q) = rndEven := funext rndEvenReal_rat
  have e : (TransformationD.slerp L E (pose third 3 3 3) (pose third 3 3 3) (.fin threeTenths)).t 0 = .fin (3 - 1 / 2 ^ 51) := by
    show lerp rndEvenReal _ _ _ 0 = _
    unfold lerp
    rw [hr, le_fin, le_fin, decide_eq_false (by unfold threeTenths; norm_num), decide_eq_false (by unfold threeTenths; norm_num), if_neg (by simp), if_neg (by simp)]
    show fadd rndEven (fmul rndEven (fsub rndEven (.fin 1) (.fin threeTenths)) (.fin ((3 : ℤ) : ℚ))) (fmul rndEven (.fin threeTenths) (.fin ((3 : ℤ) : ℚ))) = _
    decide +kernel
  have v : vals (TransformationD.slerp L E (pose third 3 3 3) (pose third 3 3 3) (.fin threeTenths)).t 0 = 3 - 1 / 2 ^ 51 := by
    unfold vals; rw [e]; simp [fval]
  rw [v] at hh
  norm_num [pose, vals, fval] at hh

/-! ## The hypotheses hold -/

/-- the rotation of no angle, as the quaternion -1 -/
theorem full_stored (a b c : ℤ) : StoredUnit (pose fullTurn a b c) := by
  refine ⟨fullTurn_unit.1, ?_⟩
  have : nrm (vals fullTurn) = 1 := by
    have := nrm_last (-1)
    simpa [fullTurn] using this
  rw [show (pose fullTurn a b c).q = fullTurn from rfl, this]
  norm_num

/-- the poses that the constructors and operators give (C120) meet the hypotheses -/
example : StoredUnit (trip.run (Eigen.plain fun q => rndEvenReal q)) := C120_unit isRndR_rndEvenReal _ trip trip_rotations

example : StoredUnit ((pose fullTurn 1 2 3).slerp LogLib.rounded (Eigen.plain fun q => rndEvenReal q) (pose third 3 4 0) (.fin threeTenths)) :=
  C174_unit isRndR_rndEvenReal _ _ _ _ (full_stored ..) (third_stored ..) _ (by simp)

example : ((pose fullTurn 1 2 3).slerp LogLib.rounded (Eigen.plain fun q => rndEvenReal q) (pose third 3 4 0) (.inf false)).t = (pose third 3 4 0).t :=
  ((C174_ends isRndR_rndEvenReal _ _ _ _ (full_stored ..) (third_stored ..) _).2 rfl).1

example : ∃ w : V3, nrm w ≤ Real.pi + 1 / 2 ^ 43 ∧
      (nrm (Kinematics.qplus (vals fullTurn) (expQuat w) - vals third) ≤ 1 / 2 ^ 40 ∨ nrm (Kinematics.qplus (vals fullTurn) (expQuat w) + vals third) ≤ 1 / 2 ^ 40) ∧
      nrm (vals ((pose fullTurn 1 2 3).slerp LogLib.rounded (Eigen.plain fun q => rndEvenReal q) (pose third 3 4 0) (.fin threeTenths)).q - Kinematics.qplus (vals fullTurn) (expQuat ((threeTenths : ℝ) • w))) ≤ 1 / 2 ^ 42 :=
  C174_rotation isRndR_rndEvenReal _ _ _ _ (full_stored ..) (third_stored ..) threeTenths (by unfold threeTenths; norm_num) (by unfold threeTenths; norm_num)

example : |vals ((pose fullTurn 1 2 3).slerp LogLib.rounded (Eigen.plain fun q => rndEvenReal q) (pose third 3 4 0) (.fin threeTenths)).t 0 - ((1 - threeTenths) * 1 + threeTenths * 3)| ≤ 4 / 2 ^ 53 * 3 + 1 / 2 ^ 190 := by
  have := (C174_translation isRndR_rndEvenReal LogLib.rounded (Eigen.plain fun q => rndEvenReal q) (pose fullTurn 1 2 3) (pose third 3 4 0) (finite_small (by norm_num) (by norm_num) (by norm_num))
    (finite_small (by norm_num) (by norm_num) (by norm_num)) threeTenths (by unfold threeTenths; norm_num) (by unfold threeTenths; norm_num) 0 3
    (le_trans (by norm_num : (3 : ℝ) ≤ 2 ^ (2 : ℤ)) (zpow_le_zpow_right₀ (by norm_num) (by norm_num))) (by norm_num [pose, vals, fval]) (by norm_num [pose, vals, fval])).2
  simpa [pose, vals, fval] using this

example : StoredUnit ((pose fullTurn 1 2 3).interpolate LogLib.rounded (Eigen.plain fun q => rndEvenReal q) (.fin 5) (pose third 3 4 0) (.fin 2) (.fin 3)) := by
  have l : ∀ r : ℚ, |r| ≤ 8 → |r| ≤ limit := fun r h => h.trans (by unfold limit; exact le_trans (by norm_num : (8 : ℚ) ≤ 2 ^ 3) (pow_le_pow_right₀ (by norm_num) (by norm_num)))
  exact C174_interpolated isRndR_rndEvenReal _ _ _ _ (full_stored ..) (third_stored ..) _ _ _ ⟨5, rfl, l _ (by norm_num)⟩ ⟨2, rfl, l _ (by norm_num)⟩ ⟨3, rfl, l _ (by norm_num)⟩

example : (pose fullTurn 1 2 3).interpolate LogLib.rounded (Eigen.plain fun q => rndEvenReal q) (.fin 5) (pose third 3 4 0) (.fin 2) (.fin 3) =
    (pose third 3 4 0).interpolate LogLib.rounded (Eigen.plain fun q => rndEvenReal q) (.fin 2) (pose fullTurn 1 2 3) (.fin 5) (.fin 3) :=
  C174_order _ _ _ _ 5 2 (by norm_num) _

example : ((pose fullTurn 1 2 3).interpolate LogLib.rounded (Eigen.plain fun q => rndEvenReal q) (.fin 2) (pose third 3 4 0) (.fin 5) (.fin 7)).t = (pose third 3 4 0).t := by
  have l : ∀ r : ℚ, |r| ≤ 8 → |r| ≤ limit := fun r h => h.trans (by unfold limit; exact le_trans (by norm_num : (8 : ℚ) ≤ 2 ^ 3) (pow_le_pow_right₀ (by norm_num) (by norm_num)))
  exact ((C174_outside_partial isRndR_rndEvenReal _ _ _ _ (full_stored ..) (third_stored ..) 2 5 7 (l _ (by norm_num)) (l _ (by norm_num)) (l _ (by norm_num)) (by norm_num)).2 (by norm_num) (by norm_num)).1

example : ∃ t : ℚ, 0 ≤ t ∧ t ≤ 1 ∧ |(t : ℝ) - ((3 : ℚ) - (2 : ℚ)) / ((5 : ℚ) - (2 : ℚ))| ≤ 1 / 2 ^ 50 ∧
    (pose fullTurn 1 2 3).interpolate LogLib.rounded (Eigen.plain fun q => rndEvenReal q) (.fin 2) (pose third 3 4 0) (.fin 5) (.fin 3) =
      (pose fullTurn 1 2 3).slerp LogLib.rounded (Eigen.plain fun q => rndEvenReal q) (pose third 3 4 0) (.fin t) :=
  C174_fraction_partial isRndR_rndEvenReal _ _ _ _ 2 5 3 (by norm_num) (by norm_num) (by norm_num) (by norm_num) (by norm_num)

end Verif.KinematicsDouble
