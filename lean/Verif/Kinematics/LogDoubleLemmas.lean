import Verif.Kinematics.LogDouble
import Verif.Kinematics.OplusLemmas2

/-!
# Lemmas for C173: the logarithm of quaternions on doubles
-/

namespace Verif.KinematicsDouble

open Verif.Common
open Verif.Kinematics (V3 V4 sqNorm)

local notation "nrm" => Kinematics.norm

/-- the vector part -/
def head (x : V4) : V3 := ![x 0, x 1, x 2]

theorem sq_head (x : V4) : sqNorm x = nrm (head x) * nrm (head x) + x 3 * x 3 := by
  rw [nrm_sq, Kinematics.sq3, Kinematics.sq4]; rfl

theorem nrm_head_le (x : V4) : nrm x ≤ nrm (head x) + |x 3| := by
  have h := sq_head x
  have n0 := nrm_nonneg (head x)
  have a0 := abs_nonneg (x 3)
  have s : x 3 * x 3 = |x 3| * |x 3| := (abs_mul_abs_self _).symm
  rw [Kinematics.norm, Real.sqrt_le_iff]
  refine ⟨by linarith, ?_⟩
  rw [h, s]
  nlinarith

theorem head_sub (x y : V4) : head (x - y) = head x - head y := by
  funext i; fin_cases i <;> rfl

theorem head_expQuat (v : V3) : head (expQuat v) = (Real.sin (nrm v / 2) / nrm v) • v := by
  funext i; fin_cases i <;> simp [head, expQuat, mul_comm]

theorem nrm_sub_comm {n : ℕ} (x y : Fin n → ℝ) : nrm (x - y) = nrm (y - x) := by
  have : y - x = (-1 : ℝ) • (x - y) := by funext i; simp
  rw [this, nrm_smul]; simp

/-- the exponential is Lipschitz continuous -/
theorem expQuat_lip (w v : V3) : nrm (expQuat w - expQuat v) ≤ 2 * nrm (w - v) := by
  have h := nrm_head_le (expQuat w - expQuat v)
  rw [head_sub, head_expQuat, head_expQuat] at h
  set N := nrm w with hN
  set M := nrm v with hM
  have N0 : 0 ≤ N := nrm_nonneg _
  have M0 : 0 ≤ M := nrm_nonneg _
  have d : |N - M| ≤ nrm (w - v) := nrm_diff w v
  have hd0 : 0 ≤ nrm (w - v) := nrm_nonneg _
  have c : |(expQuat w - expQuat v) 3| ≤ nrm (w - v) / 2 := by
    show |Real.cos (N / 2) - Real.cos (M / 2)| ≤ _
    refine (Real.abs_cos_sub_cos_le _ _).trans ?_
    rw [← sub_div, abs_div, abs_of_pos (by norm_num : (0 : ℝ) < 2)]
    linarith
  have g : |Real.sin (N / 2) / N| ≤ 1 / 2 := by
    rcases N0.eq_or_lt with h0 | h0
    · rw [← h0]; simp
    · rw [abs_div, abs_of_pos h0, div_le_iff₀ h0]
      have := Real.abs_sin_sub_sin_le (N / 2) 0
      rw [Real.sin_zero, sub_zero, sub_zero, abs_of_nonneg (by linarith : 0 ≤ N / 2)] at this
      linarith
  have e : (Real.sin (N / 2) / N) • w - (Real.sin (M / 2) / M) • v = (Real.sin (N / 2) / N) • (w - v) - (Real.sin (M / 2) / M - Real.sin (N / 2) / N) • v := by
    rw [smul_sub, sub_smul]; abel
  have t := nrm_sub_le ((Real.sin (N / 2) / N) • (w - v)) 0 ((Real.sin (M / 2) / M - Real.sin (N / 2) / N) • v)
  rw [sub_zero, ← e, zero_sub] at t
  have tn : nrm (-((Real.sin (M / 2) / M - Real.sin (N / 2) / N) • v)) = |Real.sin (M / 2) / M - Real.sin (N / 2) / N| * M := by
    rw [← neg_smul, nrm_smul, abs_neg]
  rw [tn, nrm_smul] at t
  have k : |Real.sin (M / 2) / M - Real.sin (N / 2) / N| * M ≤ nrm (w - v) := by
    rcases M0.eq_or_lt with h0 | h0
    · rw [← h0, mul_zero]; exact hd0
    · have e1 : |Real.sin (M / 2) / M - Real.sin (N / 2) / N| * M = |(Real.sin (M / 2) - Real.sin (N / 2)) + (Real.sin (N / 2) / N) * (N - M)| := by
        conv_lhs => rw [← abs_of_pos h0, ← abs_mul]
        congr 1
        rcases N0.eq_or_lt with h1 | h1
        · rw [← h1, abs_of_pos h0]; simp; field_simp
        · rw [abs_of_pos h0]; field_simp; ring
      rw [e1]
      have f1 := abs_add_le (Real.sin (M / 2) - Real.sin (N / 2)) ((Real.sin (N / 2) / N) * (N - M))
      have f2 := Real.abs_sin_sub_sin_le (M / 2) (N / 2)
      rw [← sub_div, abs_div, abs_of_pos (by norm_num : (0 : ℝ) < 2), abs_sub_comm M N] at f2
      rw [abs_mul] at f1
      have f3 := mul_le_mul_of_nonneg_right g (abs_nonneg (N - M))
      linarith
  have g' := mul_le_mul_of_nonneg_right g hd0
  linarith

/-- a rotation vector of which the half angle is nearly right -/
theorem expQuat_angle {x : V4} {φ : ℝ} (hn : 0 < nrm (head x)) (h0 : 0 ≤ φ) :
    nrm ((2 * φ / nrm (head x)) • head x) = 2 * φ ∧ nrm (expQuat ((2 * φ / nrm (head x)) • head x) - x) ≤ |Real.sin φ - nrm (head x)| + |Real.cos φ - x 3| := by
  set n := nrm (head x) with hnn
  have e1 : nrm ((2 * φ / n) • head x) = 2 * φ := by
    rw [nrm_smul, ← hnn, abs_of_nonneg (by positivity)]; field_simp
  refine ⟨e1, ?_⟩
  have h := nrm_head_le (expQuat ((2 * φ / n) • head x) - x)
  have e2 : head (expQuat ((2 * φ / n) • head x)) - head x = ((Real.sin φ - n) / n) • head x := by
    rw [head_expQuat, e1, smul_smul]
    conv_lhs => rw [← one_smul ℝ (head x), smul_smul, ← sub_smul]
    congr 1
    rw [mul_div_cancel_left₀ φ (by norm_num : (2 : ℝ) ≠ 0)]
    rcases h0.eq_or_lt with h | h
    · rw [← h]; simp; field_simp
    · field_simp
  rw [head_sub, e2, nrm_smul, ← hnn, abs_div, abs_of_pos hn, div_mul_cancel₀ _ hn.ne'] at h
  have e3 : (expQuat ((2 * φ / n) • head x) - x) 3 = Real.cos φ - x 3 := by
    show Real.cos (nrm ((2 * φ / n) • head x) / 2) - x 3 = _
    rw [e1, mul_div_cancel_left₀ φ (by norm_num : (2 : ℝ) ≠ 0)]
  rw [e3] at h
  exact h

/-- the half angle, from the three formulas of the code -/
theorem half_angle {n e t : ℝ} (n0 : 0 ≤ n) (t0 : 0 ≤ t) (hs : |n * n + e * e - 1| ≤ 65 * u51) (ht : |t - n| ≤ 13 / 10 * u51) :
    (|e| < t → |e| ≤ 3 / 4 ∧ |Real.sin (Real.arccos e) - n| + |Real.cos (Real.arccos e) - e| ≤ 104 * u51) ∧
      (t ≤ |e| → t ≤ 3 / 4 ∧ (0 < e → |Real.sin (Real.arcsin t) - n| + |Real.cos (Real.arcsin t) - e| ≤ 104 * u51) ∧
        (e ≤ 0 → |Real.sin (Real.pi - Real.arcsin t) - n| + |Real.cos (Real.pi - Real.arcsin t) - e| ≤ 104 * u51)) := by
  have u0 := u51_pos
  have us : u51 ≤ 1 / 1000000 := by unfold u51; norm_num
  have hs' := abs_le.1 hs
  have ht' := abs_le.1 ht
  have ee : e * e = |e| * |e| := (abs_mul_abs_self e).symm
  have e0 := abs_nonneg e
  have key : ∀ {y z : ℝ}, 0 ≤ z → 66 / 100 ≤ y → |y * y - z * z| ≤ 67 * u51 → |y - z| ≤ 102 * u51 := by
    intro y z z0 y0 h
    have h1 : |y * y - z * z| = |y - z| * (y + z) := by
      conv_rhs => rw [← abs_of_nonneg (by linarith : 0 ≤ y + z), ← abs_mul]
      congr 1; ring
    rw [h1] at h
    have h2 : |y - z| * (66 / 100) ≤ |y - z| * (y + z) := mul_le_mul_of_nonneg_left (by linarith) (abs_nonneg _)
    linarith
  have root : ∀ {y : ℝ}, |y| ≤ 3 / 4 → 66 / 100 ≤ Real.sqrt (1 - y ^ 2) ∧ Real.sqrt (1 - y ^ 2) * Real.sqrt (1 - y ^ 2) = 1 - y * y := by
    intro y hy
    have h1 : y ^ 2 ≤ 9 / 16 := by
      rw [← sq_abs]; have := abs_nonneg y; nlinarith
    constructor
    · apply Real.le_sqrt_of_sq_le; norm_num; linarith
    · rw [Real.mul_self_sqrt (by linarith)]; ring
  constructor
  · intro h
    have h1 : |e| ≤ 3 / 4 := by
      by_contra hc
      push Not at hc
      nlinarith
    refine ⟨h1, ?_⟩
    obtain ⟨r1, r2⟩ := root h1
    have hb := abs_le.1 h1
    rw [Real.cos_arccos (by linarith) (by linarith), sub_self, abs_zero, add_zero, Real.sin_arccos]
    refine (key n0 r1 ?_).trans (by linarith)
    rw [r2, abs_le]
    constructor <;> linarith
  · intro h
    have h1 : t ≤ 3 / 4 := by
      by_contra hc
      push Not at hc
      nlinarith
    have nt : |n * n - t * t| ≤ 2 * u51 := by
      have : n * n - t * t = (n - t) * (n + t) := by ring
      rw [this, abs_mul, abs_of_nonneg (by linarith : 0 ≤ n + t), abs_sub_comm]
      have h2 : n + t ≤ 152 / 100 := by linarith
      calc |t - n| * (n + t) ≤ 13 / 10 * u51 * (152 / 100) := mul_le_mul ht h2 (by linarith) (by linarith)
        _ ≤ _ := by linarith
    have nt' := abs_le.1 nt
    obtain ⟨r1, r2⟩ := root (y := t) (by rw [abs_of_nonneg t0]; exact h1)
    have k := key (y := Real.sqrt (1 - t ^ 2)) (z := |e|) e0 r1 (by
      rw [r2, ← ee, abs_le]
      constructor <;> linarith)
    refine ⟨h1, fun he => ?_, fun he => ?_⟩
    · rw [Real.sin_arcsin (by linarith) (by linarith), Real.cos_arcsin]
      rw [abs_of_pos he] at k
      linarith
    · rw [Real.sin_pi_sub, Real.sin_arcsin (by linarith) (by linarith), Real.cos_pi_sub, Real.cos_arcsin]
      rw [abs_of_nonpos he] at k
      have : |-Real.sqrt (1 - t ^ 2) - e| = |Real.sqrt (1 - t ^ 2) - -e| := by
        rw [← abs_neg]; congr 1; ring
      rw [this]
      linarith

section
variable {R : ℝ → ℚ} (hR : IsRndR R) (L : LogLib fun q => R q)
include hR

/-- a component of the rotation vector, from the half angle -/
theorem log_comp {v : Fp} {x n φ : ℝ} {β t : ℚ} (hv : v = .fin (fval v)) (hx : (fval v : ℝ) = x) (hxn : |x| ≤ n) (hx2 : |x| ≤ 2) (n0 : 0 < n)
    (t0 : (1 : ℝ) / 2 ^ 21 ≤ t) (htn : |(t : ℝ) - n| ≤ 4 * u51 * t) (φ0 : 0 ≤ φ) (φ1 : φ ≤ Real.pi) (hβ : |(β : ℝ) - φ| ≤ 3 * u51) :
    Ab (36 * u51) (fmul (fun q => R q) v (fmul (fun q => R q) (.fin 2) (fdiv (fun q => R q) (.fin β) (.fin t)))) (2 * φ / n * x) := by
  have u0 := u51_pos
  have us : u51 ≤ 1 / 1000000 := by unfold u51; norm_num
  have u53 : u51 = 4 / 2 ^ 53 := by unfold u51; norm_num
  have hpi := Real.pi_lt_d2
  have tp : (0 : ℝ) < t := lt_of_lt_of_le (by norm_num) t0
  have tq : t ≠ 0 := by rintro rfl; simp at tp
  have htn' := abs_le.1 htn
  have hβ' := abs_le.1 hβ
  have nt : n ≤ 101 / 100 * t := by nlinarith
  have xt : |x| / t ≤ 101 / 100 := (div_le_iff₀ tp).2 (hxn.trans nt)
  have xn : |x| / n ≤ 1 := (div_le_one n0).2 hxn
  have βb : |(β : ℝ)| ≤ 316 / 100 := by rw [abs_le]; constructor <;> linarith
  have htiny := tiny_small
  have tiny0 : (0 : ℝ) ≤ tiny := by unfold tiny; push_cast; positivity
  have c300 : (2 : ℝ) ^ (30 : ℤ) ≤ 2 ^ (300 : ℤ) := zpow_le_zpow_right₀ (by norm_num) (by norm_num)
  -- the quotient
  set k := ((β / t : ℚ) : ℝ) with hk
  have kv : k = (β : ℝ) / t := by rw [hk]; push_cast; rfl
  have kb : |k| ≤ 2 ^ (23 : ℤ) := by
    rw [kv, abs_div, abs_of_pos tp, div_le_iff₀ tp]
    refine βb.trans ?_
    have : (2 : ℝ) ^ (23 : ℤ) * (1 / 2 ^ 21) ≤ 2 ^ (23 : ℤ) * t := mul_le_mul_of_nonneg_left t0 (by positivity)
    refine le_trans ?_ this
    norm_num
  have xk : |x| * |k| ≤ 32 / 10 := by
    rw [kv, abs_div, abs_of_pos tp]
    calc |x| * (|(β : ℝ)| / t) = |x| / t * |(β : ℝ)| := by ring
      _ ≤ 101 / 100 * (316 / 100) := mul_le_mul xt βb (abs_nonneg _) (by norm_num)
      _ ≤ _ := by norm_num
  obtain ⟨a1, a2, a3⟩ := round_mid hR (z := β / t) (kb.trans ((zpow_le_zpow_right₀ (by norm_num) (by norm_num)).trans c300))
  rw [← hk] at a3
  set k1 := R ((β / t : ℚ) : ℝ) with hk1
  have k1b : |(k1 : ℝ)| ≤ 101 / 100 * |k| + tiny := by
    have := abs_sub_abs_le_abs_sub (k1 : ℝ) k
    have h2 : |k| / 2 ^ 53 ≤ 1 / 100 * |k| := by
      rw [div_le_iff₀ (by norm_num)]; nlinarith [abs_nonneg k]
    linarith
  have kk : |((2 * k1 : ℚ) : ℝ)| ≤ 2 ^ (300 : ℤ) := by
    push_cast
    rw [abs_mul, abs_of_pos (by norm_num : (0 : ℝ) < 2)]
    refine le_trans ?_ c300
    have : (2 : ℝ) ^ (23 : ℤ) = 8388608 := by norm_num
    rw [this] at kb
    norm_num at htiny ⊢
    linarith
  obtain ⟨b1, b2, b3⟩ := round_mid hR (z := 2 * k1) kk
  set k2 := R ((2 * k1 : ℚ) : ℝ) with hk2
  have hd : fmul (fun q => R q) (.fin 2) (fdiv (fun q => R q) (.fin β) (.fin t)) = .fin k2 := by
    have : fdiv (fun q => R q) (.fin β) (.fin t) = .fin k1 := by
      simp only [fdiv, Fp.div, if_neg tq]; exact a1
    rw [this]; exact b1
  have x0 := abs_nonneg x
  have s1 : |x * k2 - x * (2 * k1)| ≤ 17 / 10 * u51 := by
    rw [← mul_sub, abs_mul]
    have h1 : |(k2 : ℝ) - 2 * k1| ≤ 2 * |(k1 : ℝ)| / 2 ^ 53 + tiny := by
      push_cast at b3
      rw [abs_mul, abs_of_pos (by norm_num : (0 : ℝ) < 2)] at b3
      exact b3
    have h2 : |x| * |(k1 : ℝ)| ≤ 33 / 10 := by
      have := mul_le_mul_of_nonneg_left k1b x0
      have h3 : |x| * tiny ≤ 2 * tiny := mul_le_mul_of_nonneg_right hx2 tiny0
      norm_num at htiny
      nlinarith
    have h3 := mul_le_mul_of_nonneg_left h1 x0
    have h4 : |x| * (2 * |(k1 : ℝ)| / 2 ^ 53 + tiny) = |x| * |(k1 : ℝ)| * (2 / 2 ^ 53) + |x| * tiny := by ring
    rw [h4] at h3
    have h5 : |x| * tiny ≤ 2 * tiny := mul_le_mul_of_nonneg_right hx2 tiny0
    rw [u53]
    norm_num at htiny h2 h3 ⊢
    linarith
  have s2 : |x * (2 * k1) - x * (2 * k)| ≤ 17 / 10 * u51 := by
    have e : x * (2 * k1) - x * (2 * k) = 2 * (x * (k1 - k)) := by ring
    rw [e, abs_mul, abs_mul, abs_of_pos (by norm_num : (0 : ℝ) < 2)]
    have h3 := mul_le_mul_of_nonneg_left a3 x0
    have h4 : |x| * (|k| / 2 ^ 53 + tiny) = |x| * |k| * (1 / 2 ^ 53) + |x| * tiny := by ring
    rw [h4] at h3
    have h5 : |x| * tiny ≤ 2 * tiny := mul_le_mul_of_nonneg_right hx2 tiny0
    rw [u53]
    norm_num at htiny xk h3 ⊢
    linarith
  have s3 : |x * (2 * k) - 2 * φ / n * x| ≤ 314 / 10 * u51 := by
    have e : x * (2 * k) - 2 * φ / n * x = 2 * (x / t * (β - φ)) - 2 * (x / n * φ * ((t - n) / t)) := by
      rw [kv]; field_simp; ring
    rw [e]
    have h1 : |2 * (x / t * (β - φ))| ≤ 2 * (101 / 100 * (3 * u51)) := by
      rw [abs_mul, abs_mul, abs_div, abs_of_pos tp, abs_of_pos (by norm_num : (0 : ℝ) < 2)]
      have := mul_le_mul xt hβ (abs_nonneg _) (by norm_num)
      linarith
    have h2 : |2 * (x / n * φ * ((t - n) / t))| ≤ 2 * (1 * (315 / 100) * (4 * u51)) := by
      rw [abs_mul, abs_mul, abs_mul, abs_div, abs_of_pos n0, abs_of_pos (by norm_num : (0 : ℝ) < 2), abs_of_nonneg φ0, abs_div, abs_of_pos tp]
      have f1 : |x| / n * φ ≤ 1 * (315 / 100) := mul_le_mul xn (by linarith) φ0 (by norm_num)
      have f2 : |(t : ℝ) - n| / t ≤ 4 * u51 := (div_le_iff₀ tp).2 htn
      have := mul_le_mul f1 f2 (by positivity) (by norm_num)
      linarith
    have h3 := abs_sub (2 * (x / t * (β - φ))) (2 * (x / n * φ * ((t - n) / t)))
    linarith
  have q1 : |x * k2 - 2 * φ / n * x| ≤ 35 * u51 := by
    have t1 := abs_sub_le (x * k2) (x * (2 * k1)) (2 * φ / n * x)
    have t2 := abs_sub_le (x * (2 * k1)) (x * (2 * k)) (2 * φ / n * x)
    linarith
  have q2 : |2 * φ / n * x| ≤ 63 / 10 := by
    have : 2 * φ / n * x = 2 * φ * (x / n) := by ring
    rw [this, abs_mul, abs_div, abs_of_pos n0, abs_of_nonneg (by linarith : 0 ≤ 2 * φ)]
    have := mul_le_mul_of_nonneg_left xn (by linarith : 0 ≤ 2 * φ)
    linarith
  have q3 : |((fval v * k2 : ℚ) : ℝ) - 2 * φ / n * x| ≤ 35 * u51 := by
    push_cast; rw [hx]; exact q1
  have q4 : |((fval v * k2 : ℚ) : ℝ)| ≤ 8 := by
    have := abs_sub_abs_le_abs_sub ((fval v * k2 : ℚ) : ℝ) (2 * φ / n * x)
    linarith
  rw [hd, hv]
  exact (Ab.op hR q4 q3).mono (by linarith)

omit hR in
theorem vals_head (q : F4) : vals ![q 0, q 1, q 2] = head (vals q) := by
  funext i; fin_cases i <;> rfl

omit hR in
theorem finite_head {q : F4} (h : Finite q) : Finite (![q 0, q 1, q 2] : F3) := by
  intro i; fin_cases i
  · exact h 0
  · exact h 1
  · exact h 2

/-- what is shown of a computed rotation vector `w` for the quaternion `x` -/
structure LogOf (w : F3) (x : V4) (err : ℝ) : Prop where
  finite : Finite w
  near : nrm (expQuat (vals w) - x) ≤ err
  length : nrm (vals w) ≤ 2 * Real.pi + 72 * u51
  short : -1 / 2 ≤ x 3 → nrm (vals w) ≤ Real.pi + 4 * max 0 (-x 3) + 72 * u51

omit hR in
theorem near_of_ab3 {d : F3} {e : V3} {c : ℝ} (h : ∀ i, Ab c (d i) (e i)) (hc : c ≤ 1) (he : nrm e ≤ 7) : Finite d ∧ nrm (vals d - e) ≤ 2 * c := by
  constructor
  · intro i
    exact (h i).isFinite (by have := abs_le_nrm e i; linarith)
  · have c0 : 0 ≤ c := by
      obtain ⟨r, -, -, h3⟩ := h 0
      exact (abs_nonneg _).trans h3
    refine le_trans (nrm_mono (w := fun _ => c) fun i => ?_) (nrm_const c c0 (by norm_num))
    obtain ⟨-, -, h3⟩ := (h i).val
    exact h3

/-- from the half angle to the rotation vector -/
theorem log_main {q : F4} (hq : Finite q) {β t : ℚ} {φ : ℝ} (hn : nrm (head (vals q)) ≤ 2) (n0 : (1 : ℝ) / 2 ^ 20 ≤ nrm (head (vals q)))
    (htn : |(t : ℝ) - nrm (head (vals q))| ≤ 5 / 2 ^ 53 * nrm (head (vals q)) + 1 / 2 ^ 70) (φ0 : 0 ≤ φ) (φ1 : φ ≤ Real.pi) (hβ : |(β : ℝ) - φ| ≤ 3 * u51)
    (ha : |Real.sin φ - nrm (head (vals q))| + |Real.cos φ - vals q 3| ≤ 104 * u51)
    (hφ : -1 / 2 ≤ vals q 3 → 2 * φ ≤ Real.pi + 4 * max 0 (-vals q 3))
    (hs : logScale L (norm3 L.toLib ![q 0, q 1, q 2]) (q 3) = fdiv (fun q => R q) (.fin β) (.fin t)) :
    LogOf (quat2AxisAngle L q) (vals q) (250 * u51) := by
  have u0 := u51_pos
  have us : u51 ≤ 1 / 1000000 := by unfold u51; norm_num
  have hpi := Real.pi_lt_d2
  set n := nrm (head (vals q)) with hnn
  have np : 0 < n := lt_of_lt_of_le (by norm_num) n0
  have htn' := abs_le.1 htn
  have t0 : (1 : ℝ) / 2 ^ 21 ≤ t := by norm_num at htn' n0 ⊢; linarith
  have htn2 : |(t : ℝ) - n| ≤ 4 * u51 * t := by
    refine htn.trans ?_
    unfold u51
    norm_num at htn' n0 ⊢
    linarith
  obtain ⟨e1, e2⟩ := expQuat_angle (x := vals q) np φ0
  have C : ∀ i, Ab (36 * u51) (quat2AxisAngle L q i) (((2 * φ / n) • head (vals q)) i) := by
    intro i
    obtain ⟨f1, f2⟩ := (finite_head hq).fin i
    have hx : ((fval ((![q 0, q 1, q 2] : F3) i) : ℚ) : ℝ) = head (vals q) i := by rw [← vals_head]; rfl
    have := log_comp hR (v := (![q 0, q 1, q 2] : F3) i) (β := β) f1 hx (abs_le_nrm _ i) ((abs_le_nrm _ i).trans hn) np t0 htn2 φ0 φ1 hβ
    show Ab _ (fmul (fun q => R q) _ (fmul (fun q => R q) _ (logScale L (norm3 L.toLib ![q 0, q 1, q 2]) (q 3)))) _
    rw [hs]
    exact this
  obtain ⟨g1, g2⟩ := near_of_ab3 C (by linarith) (by rw [e1]; linarith)
  have g3 := expQuat_lip (vals (quat2AxisAngle L q)) ((2 * φ / n) • head (vals q))
  have g4 := nrm_sub_le (expQuat (vals (quat2AxisAngle L q))) (expQuat ((2 * φ / n) • head (vals q))) (vals q)
  have g5 := (abs_le.1 (nrm_diff (vals (quat2AxisAngle L q)) ((2 * φ / n) • head (vals q)))).2
  rw [e1] at g5
  refine ⟨g1, by linarith, by linarith, fun h => ?_⟩
  have := hφ h
  linarith

/-- operations with an integer result are exact -/
theorem op_int {z : ℚ} (n : ℤ) (hn : |n| ≤ 8) (hz : z = n) : rounded (fun q => R q) (.fin z) = .fin n := by
  subst hz
  have h1 : |((n : ℚ) : ℝ)| ≤ 8 := by
    have : ((|n| : ℤ) : ℝ) ≤ 8 := by exact_mod_cast hn
    push_cast at this ⊢; exact this
  rw [rounded8 hR h1]
  have := hR.rat.fix (x := (n : ℚ)) (isDouble_int n (by omega))
  exact congrArg _ this

/-- the series of `arcSinXOverX` is the constant 1 -/
theorem scale_one {t : ℚ} (t0 : 0 ≤ t) (hs : t < 1 / 2 ^ 13) : arcSinXOverX L (.fin t) = .fin 1 := by
  have small : isSmallD (Fp.abs (.fin t)) = true := by
    show decide (|t| < 1 / 2 ^ 13) = _
    rw [abs_of_nonneg t0]; exact decide_eq_true hs
  unfold arcSinXOverX
  rw [small, if_pos rfl]
  have hz : ((1 / 6 : ℤ) : ℚ) = 0 := by norm_num
  have t0' : (0 : ℝ) ≤ t := by exact_mod_cast t0
  have t1 : (t : ℝ) ≤ 1 := by
    have : t ≤ 1 := hs.le.trans (by norm_num)
    exact_mod_cast this
  have ht2 : |((t * t : ℚ) : ℝ)| ≤ 8 := by
    push_cast; rw [abs_of_nonneg (by positivity)]; nlinarith
  have m1 : fmul (fun q => R q) (.fin t) (.fin t) = .fin (R ((t * t : ℚ) : ℝ)) := rounded8 hR ht2
  rw [m1, hz]
  have m2 : fmul (fun q => R q) (.fin (R ((t * t : ℚ) : ℝ))) (.fin 0) = .fin (0 : ℤ) := op_int hR 0 (by norm_num) (by simp)
  rw [m2]
  have m3 : fadd (fun q => R q) (.fin 1) (.fin (0 : ℤ)) = .fin (1 : ℤ) := op_int hR 1 (by norm_num) (by simp)
  rw [m3]
  simp

/-- short vector parts: the scale is 1 -/
theorem log_small {q : F4} (hq : Finite q) (nq : |nrm (vals q) - 1| ≤ 128 / 2 ^ 53) (he : 0 < vals q 3) (hn : nrm (head (vals q)) ≤ 1 / 8191)
    (hs : logScale L (norm3 L.toLib ![q 0, q 1, q 2]) (q 3) = .fin 1) : LogOf (quat2AxisAngle L q) (vals q) (1 / 2 ^ 41) := by
  have u0 := u51_pos
  have us : u51 ≤ 1 / 1000000 := by unfold u51; norm_num
  have hpi := Real.pi_gt_three
  set n := nrm (head (vals q)) with hnn
  have n0 : 0 ≤ n := nrm_nonneg _
  have h2 : fmul (fun q => R q) (.fin 2) (.fin 1) = .fin 2 := op_int hR 2 (by norm_num) (by norm_num)
  have C : ∀ i, Ab (2 * u51) (quat2AxisAngle L q i) (((2 : ℝ) • head (vals q)) i) := by
    intro i
    obtain ⟨f1, f2⟩ := (finite_head hq).fin i
    have hx : ((fval ((![q 0, q 1, q 2] : F3) i) : ℚ) : ℝ) = head (vals q) i := by rw [← vals_head]; rfl
    show Ab _ (fmul (fun q => R q) _ (fmul (fun q => R q) _ (logScale L (norm3 L.toLib ![q 0, q 1, q 2]) (q 3)))) _
    rw [hs, h2, f1]
    have hb := (abs_le_nrm (head (vals q)) i).trans hn
    have z : ((fval ((![q 0, q 1, q 2] : F3) i) * 2 : ℚ) : ℝ) = 2 * head (vals q) i := by push_cast; rw [hx]; ring
    exact (Ab.op hR (z := fval ((![q 0, q 1, q 2] : F3) i) * 2) (x := 2 * head (vals q) i) (e := 0) (by rw [z, abs_mul, abs_of_pos (by norm_num : (0 : ℝ) < 2)]; linarith)
      (by rw [z, sub_self, abs_zero])).mono (by linarith)
  have e1 : nrm ((2 : ℝ) • head (vals q)) = 2 * n := by rw [nrm_smul, abs_of_pos (by norm_num : (0 : ℝ) < 2)]
  obtain ⟨g1, g2⟩ := near_of_ab3 C (by linarith) (by rw [e1]; linarith)
  have g3 := expQuat_lip (vals (quat2AxisAngle L q)) ((2 : ℝ) • head (vals q))
  have g4 := nrm_sub_le (expQuat (vals (quat2AxisAngle L q))) (expQuat ((2 : ℝ) • head (vals q))) (vals q)
  have g5 := (abs_le.1 (nrm_diff (vals (quat2AxisAngle L q)) ((2 : ℝ) • head (vals q)))).2
  rw [e1] at g5
  have S := sq_head (vals q)
  rw [← nrm_sq, ← hnn] at S
  have nq' := abs_le.1 nq
  set e := vals q 3 with hee
  have Sb : |n * n + e * e - 1| ≤ 65 * u51 := by
    rw [← S, show nrm (vals q) * nrm (vals q) - 1 = (nrm (vals q) - 1) * (nrm (vals q) + 1) by ring, abs_mul, abs_of_nonneg (by have := nrm_nonneg (vals q); linarith : 0 ≤ nrm (vals q) + 1)]
    have h1 : nrm (vals q) + 1 ≤ 201 / 100 := by norm_num at nq' ⊢; linarith
    calc |nrm (vals q) - 1| * (nrm (vals q) + 1) ≤ 128 / 2 ^ 53 * (201 / 100) := mul_le_mul nq h1 (by have := nrm_nonneg (vals q); linarith) (by norm_num)
      _ ≤ _ := by unfold u51; norm_num
  have Sb' := abs_le.1 Sb
  have key : nrm (expQuat ((2 : ℝ) • head (vals q)) - vals q) ≤ 1 / 2 ^ 41 * (8 / 10) := by
    have K : |Real.sin n - n| + |Real.cos n - e| ≤ 1 / 2 ^ 41 * (8 / 10) := by
      obtain ⟨s1, s2⟩ := sin_bounds (N := 2 * n) (by linarith) (by linarith)
      rw [mul_div_cancel_left₀ n (by norm_num : (2 : ℝ) ≠ 0)] at s1 s2
      have n3 : n ^ 3 ≤ (1 / 8191) ^ 3 := pow_le_pow_left₀ n0 hn 3
      have n30 : 0 ≤ n ^ 3 := by positivity
      have s3 : n - Real.sin n ≤ n ^ 3 / 6 := by
        have : (2 * n) ^ 3 / 48 = n ^ 3 / 6 := by ring
        linarith
      have sn0 : 0 ≤ Real.sin n := Real.sin_nonneg_of_nonneg_of_le_pi n0 (by linarith)
      have c1 := Real.one_sub_sq_div_two_le_cos (x := n)
      have nn : n ^ 2 ≤ (1 / 8191) ^ 2 := pow_le_pow_left₀ n0 hn 2
      have cp : 9 / 10 ≤ Real.cos n := by norm_num at nn; linarith
      have sc := Real.sin_sq_add_cos_sq n
      have d : |Real.cos n * Real.cos n - e * e| ≤ 66 * u51 := by
        have e1 : Real.cos n * Real.cos n - e * e = (1 - n * n - e * e) + (n - Real.sin n) * (n + Real.sin n) := by nlinarith
        have f1 : (n - Real.sin n) * (n + Real.sin n) ≤ n ^ 3 / 6 * (2 * n) := mul_le_mul s3 (by linarith) (by linarith) (by linarith)
        have f2 : 0 ≤ (n - Real.sin n) * (n + Real.sin n) := mul_nonneg (by linarith) (by linarith)
        have f3 : n ^ 3 / 6 * (2 * n) ≤ u51 := by
          have : n ^ 3 / 6 * (2 * n) ≤ (1 / 8191) ^ 3 / 6 * (2 * (1 / 8191)) := mul_le_mul (by linarith) (by linarith) (by linarith) (by norm_num)
          refine this.trans ?_
          unfold u51; norm_num
        rw [e1, abs_le]
        constructor <;> linarith
      have c2 : |Real.cos n - e| ≤ 74 * u51 := by
        have h1 : |Real.cos n * Real.cos n - e * e| = |Real.cos n - e| * (Real.cos n + e) := by
          conv_rhs => rw [← abs_of_nonneg (by linarith : 0 ≤ Real.cos n + e), ← abs_mul]
          congr 1; ring
        rw [h1] at d
        have h2 : |Real.cos n - e| * (9 / 10) ≤ |Real.cos n - e| * (Real.cos n + e) := mul_le_mul_of_nonneg_left (by linarith) (abs_nonneg _)
        linarith
      have s4 : |Real.sin n - n| ≤ n ^ 3 / 6 := by rw [abs_le]; constructor <;> linarith
      have : 74 * u51 ≤ 74 / 2 ^ 51 := by unfold u51; norm_num
      norm_num at n3 this ⊢
      linarith
    rcases n0.eq_or_lt with h0 | h0
    · have hz : (2 : ℝ) • head (vals q) = 0 := by
        funext i
        have := abs_le_nrm (head (vals q)) i
        rw [← hnn, ← h0] at this
        have h3 : head (vals q) i = 0 := abs_eq_zero.1 (le_antisymm this (abs_nonneg _))
        simp [h3]
      have h := nrm_head_le (expQuat ((2 : ℝ) • head (vals q)) - vals q)
      rw [head_sub, head_expQuat, hz, smul_zero, zero_sub] at h
      have h5 : nrm (-head (vals q)) = 0 := by
        have : -head (vals q) = (-1 : ℝ) • head (vals q) := by simp
        rw [this, nrm_smul, ← hnn, ← h0, mul_zero]
      have h6 : (expQuat (0 : V3) - vals q) 3 = Real.cos n - e := by
        show Real.cos (nrm (0 : V3) / 2) - e = _
        rw [nrm_zero, ← h0, zero_div]
      rw [h5, h6, zero_add] at h
      rw [hz]
      have := abs_nonneg (Real.sin n - n)
      linarith
    · obtain ⟨-, e2⟩ := expQuat_angle (x := vals q) h0 n0
      have : 2 * n / n = 2 := by field_simp
      rw [← hnn, this] at e2
      exact e2.trans K
  have um : 8 * u51 ≤ 1 / 2 ^ 41 * (2 / 10) := by unfold u51; norm_num
  have m0 : 0 ≤ max 0 (-e) := le_max_left _ _
  exact ⟨g1, by linarith, by linarith, fun _ => by linarith⟩

set_option maxHeartbeats 1000000 in
/-- the logarithm -/
theorem log_near {q : F4} (hq : Finite q) (nq : |nrm (vals q) - 1| ≤ 128 / 2 ^ 53) (hh : 0 < vals q 3 ∨ 1 / 2 ^ 20 ≤ nrm (head (vals q))) :
    LogOf (quat2AxisAngle L q) (vals q) (1 / 2 ^ 41) ∧ (vals q 3 ≤ 0 ∨ 1 / 8000 ≤ nrm (head (vals q)) → LogOf (quat2AxisAngle L q) (vals q) (250 * u51)) := by
  have u0 := u51_pos
  have us : u51 ≤ 1 / 1000000 := by unfold u51; norm_num
  have weak : ∀ {w x}, LogOf w x (250 * u51) → LogOf w x (1 / 2 ^ 41) := fun h => ⟨h.finite, h.near.trans (by unfold u51; norm_num), h.length, h.short⟩
  have nq' := abs_le.1 nq
  set n := nrm (head (vals q)) with hnn
  have n0 : 0 ≤ n := nrm_nonneg _
  set e := vals q 3 with hee
  have S := sq_head (vals q)
  rw [← nrm_sq, ← hnn, ← hee] at S
  have Sb : |n * n + e * e - 1| ≤ 65 * u51 := by
    rw [← S, show nrm (vals q) * nrm (vals q) - 1 = (nrm (vals q) - 1) * (nrm (vals q) + 1) by ring, abs_mul, abs_of_nonneg (by have := nrm_nonneg (vals q); linarith : 0 ≤ nrm (vals q) + 1)]
    have h1 : nrm (vals q) + 1 ≤ 201 / 100 := by norm_num at nq' ⊢; linarith
    calc |nrm (vals q) - 1| * (nrm (vals q) + 1) ≤ 128 / 2 ^ 53 * (201 / 100) := mul_le_mul nq h1 (by have := nrm_nonneg (vals q); linarith) (by norm_num)
      _ ≤ _ := by unfold u51; norm_num
  have Sb' := abs_le.1 Sb
  have n2 : n ≤ 101 / 100 := by
    by_contra hc
    push Not at hc
    nlinarith [mul_self_nonneg e]
  obtain ⟨t, ht, htd, t0, te⟩ := norm3_err hR L.toLib (finite_head hq) (by rw [vals_head]; linarith)
  rw [vals_head, ← hnn] at te
  have t0' : (0 : ℝ) ≤ t := by exact_mod_cast t0
  have te' := abs_le.1 te
  have tn : |(t : ℝ) - n| ≤ 13 / 10 * u51 := by
    refine te.trans ?_
    unfold u51
    norm_num
    linarith
  obtain ⟨HA, HB⟩ := half_angle n0 t0' Sb tn
  obtain ⟨qf, qd⟩ := hq.fin 3
  have he : ((fval (q 3) : ℚ) : ℝ) = e := rfl
  have he' : ((|fval (q 3)| : ℚ) : ℝ) = |e| := by push_cast; rw [he]
  have hpi := Real.pi_gt_three
  have hpi2 := Real.pi_lt_d2
  have m0 : 0 ≤ max 0 (-e) := le_max_left _ _
  have scale : logScale L (norm3 L.toLib ![q 0, q 1, q 2]) (q 3) =
      if |e| < t then fdiv (fun q => R q) (libmUnit L.acos (q 3)) (.fin t)
      else if 0 < e then arcSinXOverX L (.fin t) else fdiv (fun q => R q) (fsub (fun q => R q) (.fin (R Real.pi)) (libmUnit L.asin (.fin t))) (.fin t) := by
    unfold logScale
    rw [ht]
    have h1 : Fp.lt (q 3).abs (.fin t) = decide (|e| < t) := by
      conv_lhs => rw [qf]
      show decide (|fval (q 3)| < t) = _
      congr 1
      rw [← he', Rat.cast_lt]
    have h2 : Fp.lt (.fin 0) (q 3) = decide (0 < e) := by
      conv_lhs => rw [qf]
      show decide (0 < fval (q 3)) = _
      congr 1
      rw [← he, Rat.cast_pos]
    rw [h1, h2]
    simp only [decide_eq_true_eq]
  have hn2 : n ≤ 2 := by linarith
  rcases lt_or_ge |e| (t : ℝ) with hA | hB
  · obtain ⟨eb, ha⟩ := HA hA
    have ebq : |fval (q 3)| ≤ 1 := by
      have : ((|fval (q 3)| : ℚ) : ℝ) ≤ 1 := by rw [he']; linarith
      exact_mod_cast this
    have n20 : (1 : ℝ) / 2 ^ 20 ≤ n := by
      by_contra hc
      push Not at hc
      have h1 : |e| < 1 / 2 := by norm_num at hc; linarith
      have h2 : e * e ≤ 1 / 4 := by rw [← abs_mul_abs_self]; nlinarith [abs_nonneg e]
      have h3 : n * n ≤ 1 / 4 := by norm_num at hc; nlinarith
      linarith
    have key := log_main hR L hq hn2 n20 te (Real.arccos_nonneg e) (Real.arccos_le_pi e) (β := L.acos (fval (q 3))) (by
        refine (L.acos_err _ ebq).trans ?_
        unfold u51; norm_num) ha (by
        intro hlow
        have hx : Real.arccos e = Real.pi / 2 - Real.arcsin e := rfl
        rcases le_or_gt 0 e with h | h
        · have := Real.arcsin_nonneg.2 h
          linarith
        · have f0 : 0 ≤ Real.arcsin (-e) := Real.arcsin_nonneg.2 (by linarith)
          have f1 : Real.arcsin (-e) ≤ Real.pi / 2 := Real.arcsin_le_pi_div_two _
          have f2 := Real.mul_le_sin f0 f1
          rw [Real.sin_arcsin (by linarith) (by linarith)] at f2
          have f3 : Real.arcsin (-e) ≤ 2 * (-e) := by
            have : Real.arcsin (-e) = Real.pi / 2 * (2 / Real.pi * Real.arcsin (-e)) := by field_simp
            rw [this]
            have := mul_le_mul_of_nonneg_left f2 (by linarith : 0 ≤ Real.pi / 2)
            nlinarith
          rw [Real.arcsin_neg] at f3
          have : -e ≤ max 0 (-e) := le_max_right _ _
          linarith) (by
        rw [scale, if_pos hA]
        conv_lhs => rw [qf]
        simp only [libmUnit, if_pos ebq])
    exact ⟨weak key, fun _ => key⟩
  · obtain ⟨tb, hpos, hneg⟩ := HB hB
    have tq1 : |t| ≤ 1 := by
      rw [abs_of_nonneg t0]
      have : (t : ℝ) ≤ 1 := by linarith
      exact_mod_cast this
    have ta := L.asin_err t tq1
    have as0 : 0 ≤ Real.arcsin t := Real.arcsin_nonneg.2 t0'
    have as1 : Real.arcsin t ≤ Real.pi / 2 := Real.arcsin_le_pi_div_two _
    rcases lt_or_ge 0 e with hp | hn
    · have sc : logScale L (norm3 L.toLib ![q 0, q 1, q 2]) (q 3) = arcSinXOverX L (.fin t) := by rw [scale, if_neg (not_lt.2 hB), if_pos hp]
      have small : isSmallD (Fp.abs (.fin t)) = decide (t < 1 / 2 ^ 13) := by
        show decide (|t| < 1 / 2 ^ 13) = _
        rw [abs_of_nonneg t0]
      rcases lt_or_ge t (1 / 2 ^ 13) with hs | hs
      · have tl : (t : ℝ) < 1 / 2 ^ 13 := by
          have : (t : ℝ) < ((1 / 2 ^ 13 : ℚ) : ℝ) := Rat.cast_lt.2 hs
          push_cast at this; exact this
        have nb : n ≤ 1 / 8191 := by norm_num at te' tl ⊢; linarith
        have one := scale_one hR L t0 hs
        refine ⟨log_small hR L hq nq hp (hnn ▸ nb) (by rw [sc, one]), fun h => ?_⟩
        rcases h with h | h
        · exact absurd h (not_le.2 hp)
        · exact absurd (h.trans nb) (by norm_num)
      · have tl : (1 : ℝ) / 2 ^ 13 ≤ t := by
          have : ((1 / 2 ^ 13 : ℚ) : ℝ) ≤ (t : ℝ) := Rat.cast_le.2 hs
          push_cast at this; exact this
        have n20 : (1 : ℝ) / 2 ^ 20 ≤ n := by norm_num at te' tl ⊢; linarith
        have key := log_main hR L hq hn2 n20 te as0 (by linarith) (β := L.asin t) (by
            refine ta.trans ?_
            unfold u51; norm_num) (hpos hp) (by intro _; linarith) (by
            rw [sc]
            unfold arcSinXOverX
            rw [small, decide_eq_false (not_lt.2 hs), if_neg (by simp)]
            simp only [libmUnit, if_pos tq1])
        exact ⟨weak key, fun _ => key⟩
    · have n20 : (1 : ℝ) / 2 ^ 20 ≤ n := hh.resolve_left (not_lt.2 hn)
      have el : e ≤ -1 / 2 - 1 / 100 := by
        by_contra hc
        push Not at hc
        have h1 : |e| = -e := abs_of_nonpos hn
        rw [h1] at hB
        have h2 : e * e ≤ (51 / 100) * (51 / 100) := by nlinarith
        have h3 : n ≤ 52 / 100 := by linarith
        have h4 : n * n ≤ 52 / 100 * (52 / 100) := mul_self_le_mul_self n0 h3
        linarith
      have pr := round8 hR (x := Real.pi) (by rw [abs_of_pos (by linarith)]; linarith)
      have asb := abs_le.1 ta
      have prb := abs_le.1 pr
      have A : Ab (3 * u51) (fsub (fun q => R q) (.fin (R Real.pi)) (libmUnit L.asin (.fin t))) (Real.pi - Real.arcsin t) := by
        have a1 : Ab u51 (.fin (R Real.pi)) Real.pi := ⟨_, rfl, hR.mem _, pr⟩
        have a2 : Ab (1 / 2 * u51) (libmUnit L.asin (.fin t)) (Real.arcsin t) := ⟨L.asin t, by simp only [libmUnit, if_pos tq1], L.asin_double t, by
          refine ta.trans ?_
          unfold u51; norm_num⟩
        exact (Ab.sub hR a1 a2 (by rw [abs_of_nonneg (by linarith)]; linarith)).mono (by linarith)
      obtain ⟨β, b1, -, b3⟩ := A
      have key := log_main hR L hq hn2 n20 te (by linarith) (by linarith) b3 (hneg hn) (by intro h; rw [← hee] at h; linarith) (by
          rw [scale, if_neg (not_lt.2 hB), if_neg (not_lt.2 hn), b1])
      exact ⟨weak key, fun _ => key⟩

end

end Verif.KinematicsDouble
