import Verif.Kinematics.LogDoubleLemmas
import Verif.Kinematics.OplusProps

/-!
# C173: the logarithm of quaternions (`quat2AxisAngle`, `qlog`), in doubles

A stored quaternion is a unit quaternion only up to rounding.  The logarithm calls `acos` and `asin`, which are not a number outside of [-1, 1], and divides by the length of the vector part.
-/

namespace Verif.KinematicsDouble

open Verif.Common
open Verif.Kinematics (V3 V4 sqNorm)

local notation "nrm" => Kinematics.norm

/-- `q` is a finite quaternion and its norm is 1, up to 128 units of the last place -/
def AlmostUnit (q : F4) : Prop := Finite q ∧ |nrm (vals q) - 1| ≤ 128 / 2 ^ 53

theorem short_le_pi {e u : ℝ} (h : 0 ≤ e) : Real.pi + 4 * max 0 (-e) + u = Real.pi + u := by
  rw [max_eq_left (by linarith)]; ring

theorem nrm_head (x : V4) : nrm (head x) ≤ nrm x := by
  apply Real.sqrt_le_sqrt
  rw [sq_head x, ← nrm_sq (head x)]
  have := mul_self_nonneg (x 3)
  linarith

theorem sinc_le {b : ℝ} (b0 : 0 ≤ b) : |Real.sin (b / 2) / b| ≤ 1 / 2 := by
  rcases b0.eq_or_lt with h0 | h0
  · rw [← h0]; simp
  · rw [abs_div, abs_of_pos h0, div_le_iff₀ h0]
    have := Real.abs_sin_sub_sin_le (b / 2) 0
    rw [Real.sin_zero, sub_zero, sub_zero, abs_of_nonneg (by linarith : 0 ≤ b / 2)] at this
    linarith

theorem sinc_diff {a b : ℝ} (a0 : 0 ≤ a) (b0 : 0 ≤ b) : |Real.sin (a / 2) / a - Real.sin (b / 2) / b| * a ≤ |b - a| := by
  rcases a0.eq_or_lt with h0 | h0
  · rw [← h0, mul_zero]; exact abs_nonneg _
  · have e1 : |Real.sin (a / 2) / a - Real.sin (b / 2) / b| * a = |(Real.sin (a / 2) - Real.sin (b / 2)) + (Real.sin (b / 2) / b) * (b - a)| := by
      conv_lhs => rw [← abs_of_pos h0, ← abs_mul]
      congr 1
      rcases b0.eq_or_lt with h1 | h1
      · rw [← h1, abs_of_pos h0]; simp; field_simp
      · rw [abs_of_pos h0]; field_simp; ring
    rw [e1]
    have f1 := abs_add_le (Real.sin (a / 2) - Real.sin (b / 2)) ((Real.sin (b / 2) / b) * (b - a))
    have f2 := Real.abs_sin_sub_sin_le (a / 2) (b / 2)
    rw [← sub_div, abs_div, abs_of_pos (by norm_num : (0 : ℝ) < 2), abs_sub_comm a b] at f2
    rw [abs_mul] at f1
    have f3 := mul_le_mul_of_nonneg_right (sinc_le b0) (abs_nonneg (b - a))
    linarith

/-- the exponential of rotation vectors of at most half a turn has a continuous inverse -/
theorem expQuat_inj {w v : V3} (hw : nrm w ≤ 33 / 10) (hv : nrm v ≤ Real.pi) : nrm (w - v) ≤ 131 / 10 * nrm (expQuat w - expQuat v) := by
  have hpi := Real.pi_gt_three
  have hpi2 := Real.pi_lt_d2
  set ε := nrm (expQuat w - expQuat v) with hε
  have ε0 : 0 ≤ ε := nrm_nonneg _
  set N := nrm w with hN
  set M := nrm v with hM
  have N0 : 0 ≤ N := nrm_nonneg _
  have M0 : 0 ≤ M := nrm_nonneg _
  have hd : ∀ (x : V3), 0 ≤ nrm x → nrm x ≤ 33 / 10 → nrm (head (expQuat x)) = Real.sin (nrm x / 2) := by
    intro x h0 h1
    have s0 : 0 ≤ Real.sin (nrm x / 2) := Real.sin_nonneg_of_nonneg_of_le_pi (by linarith) (by linarith)
    rw [head_expQuat, nrm_smul, abs_of_nonneg (by positivity)]
    rcases h0.eq_or_lt with h | h
    · rw [← h]; simp
    · rw [div_mul_cancel₀ _ h.ne']
  have hh := nrm_diff (head (expQuat w)) (head (expQuat v))
  rw [hd w N0 hw, hd v M0 (by linarith), ← hN, ← hM] at hh
  have S := sq_head (expQuat w - expQuat v)
  rw [← nrm_sq, ← hε, head_sub] at S
  have c3 : (expQuat w - expQuat v) 3 = Real.cos (N / 2) - Real.cos (M / 2) := rfl
  rw [c3] at S
  have sq1 : (Real.sin (N / 2) - Real.sin (M / 2)) * (Real.sin (N / 2) - Real.sin (M / 2)) ≤ nrm (head (expQuat w) - head (expQuat v)) * nrm (head (expQuat w) - head (expQuat v)) := by
    rw [← abs_mul_abs_self]; exact mul_self_le_mul_self (abs_nonneg _) hh
  have chord : (Real.sin (N / 2) - Real.sin (M / 2)) * (Real.sin (N / 2) - Real.sin (M / 2)) + (Real.cos (N / 2) - Real.cos (M / 2)) * (Real.cos (N / 2) - Real.cos (M / 2)) =
      (2 * Real.sin ((N - M) / 4)) * (2 * Real.sin ((N - M) / 4)) := by
    have h1 := Real.sin_sq_add_cos_sq (N / 2)
    have h2 := Real.sin_sq_add_cos_sq (M / 2)
    have h3 := Real.cos_sub (N / 2) (M / 2)
    have h4 : Real.cos (N / 2 - M / 2) = 1 - 2 * Real.sin ((N - M) / 4) ^ 2 := by
      have : N / 2 - M / 2 = 2 * ((N - M) / 4) := by ring
      rw [this, Real.cos_two_mul]
      have := Real.sin_sq_add_cos_sq ((N - M) / 4)
      linarith
    nlinarith
  have c4 : |2 * Real.sin ((N - M) / 4)| ≤ ε := by
    apply abs_le_of_sq_le_sq _ ε0
    nlinarith
  have c5 : 2 / Real.pi * |(N - M) / 4| ≤ |Real.sin ((N - M) / 4)| := by
    apply Real.mul_abs_le_abs_sin
    rw [abs_le]; constructor <;> linarith
  have NM : |N - M| ≤ Real.pi * ε := by
    rw [abs_mul, abs_of_pos (by norm_num : (0 : ℝ) < 2)] at c4
    have h1 : |N - M| = Real.pi * (2 * (2 / Real.pi * |(N - M) / 4|)) := by
      rw [abs_div, abs_of_pos (by norm_num : (0 : ℝ) < 4)]; field_simp; ring
    rw [h1]
    exact mul_le_mul_of_nonneg_left (by linarith) (by linarith)
  -- the directions
  have h3 : nrm ((Real.sin (N / 2) / N) • w - (Real.sin (M / 2) / M) • v) ≤ ε := by
    have := nrm_head (expQuat w - expQuat v)
    rwa [head_sub, head_expQuat, head_expQuat] at this
  have k := sinc_diff N0 M0
  rw [abs_sub_comm M N] at k
  rcases M0.eq_or_lt with h0 | h0
  · have hv0 : v = 0 := by
      funext i
      have := abs_le_nrm v i
      rw [← hM, ← h0] at this
      exact abs_eq_zero.1 (le_antisymm this (abs_nonneg _))
    rw [hv0, sub_zero, ← hN]
    rw [← h0, sub_zero, abs_of_nonneg N0] at NM
    nlinarith
  have g : 1 / Real.pi ≤ Real.sin (M / 2) / M := by
    rw [le_div_iff₀ h0]
    have := Real.mul_le_sin (x := M / 2) (by linarith) (by linarith)
    have e : 1 / Real.pi * M = 2 / Real.pi * (M / 2) := by ring
    linarith
  have e : (Real.sin (M / 2) / M) • (w - v) = ((Real.sin (N / 2) / N) • w - (Real.sin (M / 2) / M) • v) - (Real.sin (N / 2) / N - Real.sin (M / 2) / M) • w := by
    rw [smul_sub, sub_smul]; abel
  have t := nrm_sub_le ((Real.sin (N / 2) / N) • w - (Real.sin (M / 2) / M) • v) 0 ((Real.sin (N / 2) / N - Real.sin (M / 2) / M) • w)
  have g0 : 0 < 1 / Real.pi := by positivity
  rw [sub_zero, ← e, zero_sub, ← neg_smul, nrm_smul, nrm_smul, abs_neg, abs_of_pos (by linarith : 0 < Real.sin (M / 2) / M), ← hN] at t
  have d0 : 0 ≤ nrm (w - v) := nrm_nonneg _
  have t2 : 1 / Real.pi * nrm (w - v) ≤ ε + Real.pi * ε := (mul_le_mul_of_nonneg_right g d0).trans (by linarith)
  have t3 : nrm (w - v) = Real.pi * (1 / Real.pi * nrm (w - v)) := by field_simp
  rw [t3]
  refine (mul_le_mul_of_nonneg_left t2 (by linarith)).trans ?_
  have : Real.pi * (1 + Real.pi) ≤ 131 / 10 := by nlinarith
  nlinarith

section
variable {R : ℝ → ℚ} (hR : IsRndR R) (L : LogLib fun q => R q)
include hR

/-- **C173** The logarithm of an almost unit quaternion is finite — although its norm may exceed 1, `acos` and `asin` are never called outside of their domain — and its exponential, computed exactly, is the quaternion to within
`2^-41`; it is at most a full turn long.  (Not within a distance of `2^-20` of the quaternion -1, that is, less than `2^-19` from a full turn.) -/
theorem C173_log (q : F4) (hq : AlmostUnit q) (h : 0 < vals q 3 ∨ 1 / 2 ^ 20 ≤ nrm (head (vals q))) :
    Finite (quat2AxisAngle L q) ∧ nrm (expQuat (vals (quat2AxisAngle L q)) - vals q) ≤ 1 / 2 ^ 41 ∧ nrm (vals (quat2AxisAngle L q)) ≤ 2 * Real.pi + 1 / 2 ^ 44 := by
  obtain ⟨h1, -⟩ := log_near hR L hq.1 hq.2 h
  refine ⟨h1.finite, h1.near, h1.length.trans ?_⟩
  have : 72 * u51 ≤ 1 / 2 ^ 44 := by unfold u51; norm_num
  linarith

/-- **C173** Except for rotations by less than 1/4000, where the code uses a series of one term, it is accurate to `2^-43`. -/
theorem C173_log_long (q : F4) (hq : AlmostUnit q) (h : vals q 3 ≤ 0 ∧ 1 / 2 ^ 20 ≤ nrm (head (vals q)) ∨ 1 / 8000 ≤ nrm (head (vals q))) :
    Finite (quat2AxisAngle L q) ∧ nrm (expQuat (vals (quat2AxisAngle L q)) - vals q) ≤ 1 / 2 ^ 43 := by
  have h2 : 1 / 2 ^ 20 ≤ nrm (head (vals q)) := by
    rcases h with h | h
    · exact h.2
    · refine le_trans ?_ h; norm_num
  obtain ⟨-, h1⟩ := log_near hR L hq.1 hq.2 (.inr h2)
  have h3 := h1 (h.imp_left fun h => h.1)
  exact ⟨h3.finite, h3.near.trans (by unfold u51; norm_num)⟩

/-- **C173** For a scalar part that is not negative the rotation vector is at most half a turn long. -/
theorem C173_short (q : F4) (hq : AlmostUnit q) (h : 0 < vals q 3 ∨ vals q 3 = 0) : nrm (vals (quat2AxisAngle L q)) ≤ Real.pi + 1 / 2 ^ 44 := by
  have hn : 0 < vals q 3 ∨ 1 / 2 ^ 20 ≤ nrm (head (vals q)) := by
    refine h.imp_right fun h0 => ?_
    have S := sq_head (vals q)
    rw [h0, mul_zero, add_zero, ← nrm_sq] at S
    have S2 := mul_self_inj_of_nonneg (nrm_nonneg _) (nrm_nonneg _) |>.1 S
    rw [← S2]
    have := (abs_le.1 hq.2).1
    norm_num at this ⊢
    linarith
  obtain ⟨h1, -⟩ := log_near hR L hq.1 hq.2 hn
  have h0 : 0 ≤ vals q 3 := h.elim le_of_lt (fun h => h.ge)
  have := h1.short (by linarith)
  rw [short_le_pi h0] at this
  have : 72 * u51 ≤ 1 / 2 ^ 44 := by unfold u51; norm_num
  linarith

/-- **C173** `qexp(qlog(q))`, as computed, is finite and `q` to within `2^-40`. -/
theorem C173_exp_log (q : F4) (hq : AlmostUnit q) (h : 0 < vals q 3 ∨ 1 / 2 ^ 20 ≤ nrm (head (vals q))) :
    Finite (axisAngle2quat L.toLib (quat2AxisAngle L q)) ∧ nrm (vals (axisAngle2quat L.toLib (quat2AxisAngle L q)) - vals q) ≤ 1 / 2 ^ 40 := by
  obtain ⟨h1, h2, h3⟩ := C173_log hR L q hq h
  have hpi := Real.pi_lt_d2
  obtain ⟨g1, -, g2, -⟩ := aa_near hR L.toLib h1 (by norm_num at h3 ⊢; linarith)
  refine ⟨g1, ?_⟩
  have := nrm_sub_le (vals (axisAngle2quat L.toLib (quat2AxisAngle L q))) (expQuat (vals (quat2AxisAngle L q))) (vals q)
  norm_num at h2 g2 ⊢
  linarith

/-- **C173** `qlog(qexp(v))`, as computed, is finite and `v` to within `2^-36`, for every rotation vector of at most half a turn. -/
theorem C173_log_exp (v : F3) (hv : Finite v) (hn : nrm (vals v) ≤ Real.pi) :
    Finite (quat2AxisAngle L (axisAngle2quat L.toLib v)) ∧ nrm (vals (quat2AxisAngle L (axisAngle2quat L.toLib v)) - vals v) ≤ 1 / 2 ^ 36 := by
  have hpi := Real.pi_lt_d2
  have hpi3 := Real.pi_gt_three
  have u0 := u51_pos
  have us : u51 ≤ 1 / 1000000 := by unfold u51; norm_num
  obtain ⟨g1, g3, g2, -⟩ := aa_near hR L.toLib hv (by linarith)
  set q := axisAngle2quat L.toLib v with hq
  set x := expQuat (vals v) with hx
  have x3 : 0 ≤ x 3 := Real.cos_nonneg_of_neg_pi_div_two_le_of_le (by have := nrm_nonneg (vals v); linarith) (by linarith)
  have d3 := (abs_le_nrm (vals q - x) 3).trans g2
  have d3' := (abs_le.1 d3).1
  rw [Pi.sub_apply] at d3'
  have q3 : -(1 / 2 ^ 43) ≤ vals q 3 := by linarith
  have hh : 0 < vals q 3 ∨ 1 / 2 ^ 20 ≤ nrm (head (vals q)) := by
    rcases lt_or_ge 0 (vals q 3) with h | h
    · exact .inl h
    · right
      by_contra hc
      push Not at hc
      have S := sq_head (vals q)
      rw [← nrm_sq] at S
      have g3' := (abs_le.1 g3).1
      have n1 : 9 / 10 ≤ nrm (vals q) := by linarith
      have n2 : 81 / 100 ≤ nrm (vals q) * nrm (vals q) := by nlinarith
      have n3 := nrm_nonneg (head (vals q))
      have n4 : nrm (head (vals q)) * nrm (head (vals q)) ≤ 1 / 4 := by norm_num at hc; nlinarith
      have n5 : vals q 3 * vals q 3 ≤ 1 / 4 := by norm_num at q3; nlinarith
      linarith
  obtain ⟨h1, -⟩ := log_near hR L g1 (g3.trans (by unfold u51; norm_num)) hh
  have h2 := h1.short (by norm_num at q3 ⊢; linarith)
  have m : max 0 (-vals q 3) ≤ 1 / 2 ^ 43 := max_le (by norm_num) (by linarith)
  have h3 := expQuat_inj (w := vals (quat2AxisAngle L q)) (v := vals v) (by
    have m' : max 0 (-vals q 3) ≤ 1 / 1000 := m.trans (by norm_num)
    linarith) hn
  refine ⟨h1.finite, h3.trans ?_⟩
  have h4 := nrm_sub_le (expQuat (vals (quat2AxisAngle L q))) (vals q) (expQuat (vals v))
  have h5 := h1.near
  rw [← hx] at h4 ⊢
  norm_num at h4 h5 g2 ⊢
  linarith

end

/-! ## Near a full turn -/

/-- the claim without an exception -/
def C173_claim {R : ℝ → ℚ} (L : LogLib fun q => R q) : Prop := ∀ q : F4, AlmostUnit q → Finite (quat2AxisAngle L q)

/-- the rotation by a full turn: a unit quaternion, and the same rotation as the identity -/
def fullTurn : F4 := ![.fin 0, .fin 0, .fin 0, .fin (-1)]

theorem fullTurn_unit : AlmostUnit fullTurn := by
  constructor
  · intro i
    have h : ∀ n : ℤ, |n| ≤ 1 → (Fp.fin (n : ℚ)).isFinite ∧ IsDoubleVal (.fin (n : ℚ)) := by
      intro n hn
      refine ⟨rfl, isDouble_int n (by omega), ?_⟩
      unfold tooBig
      have : |(n : ℚ)| ≤ 1 := by exact_mod_cast hn
      have h2 : (1 : ℚ) < 2 ^ 1024 := one_lt_pow₀ (by norm_num) (by norm_num)
      exact this.trans_lt h2
    fin_cases i
    · show (Fp.fin 0).isFinite ∧ IsDoubleVal (.fin 0)
      exact_mod_cast h 0 (by norm_num)
    · show (Fp.fin 0).isFinite ∧ IsDoubleVal (.fin 0)
      exact_mod_cast h 0 (by norm_num)
    · show (Fp.fin 0).isFinite ∧ IsDoubleVal (.fin 0)
      exact_mod_cast h 0 (by norm_num)
    · show (Fp.fin (-1)).isFinite ∧ IsDoubleVal (.fin (-1))
      exact_mod_cast h (-1) (by norm_num)
  · have : nrm (vals fullTurn) = 1 := by
      have := nrm_last (-1)
      simpa [fullTurn] using this
    rw [this]; norm_num

/-- a sum of zeros is zero -/
theorem sumOf_zero {rnd : ℚ → ℚ} (h0 : rnd 0 = 0) {l : List Fp} {s : Fp} (h : SumOf rnd l s) (hl : ∀ f ∈ l, f = .fin 0) : s = .fin 0 := by
  induction h with
  | one x => exact hl x (by simp)
  | @add l m n x y _ _ hn ihl ihm =>
    have h1 := ihl fun f hf => hl f (hn.mem_iff.2 (List.mem_append_left _ hf))
    have h2 := ihm fun f hf => hl f (hn.mem_iff.2 (List.mem_append_right _ hf))
    rw [h1, h2]
    show (if |rnd (0 + 0)| < tooBig then Fp.fin (rnd (0 + 0)) else _) = _
    rw [add_zero, h0, abs_zero, if_pos (by unfold tooBig; positivity)]

/-- **C173** The logarithm of the quaternion -1 is not a number, in every component: π / 0 is infinite, and is multiplied by 0. -/
theorem C173_full_turn {R : ℝ → ℚ} (hR : IsRndR R) (L : LogLib fun q => R q) (i : Fin 3) : quat2AxisAngle L fullTurn i = .nan := by
  have hpi := Real.pi_gt_three
  have hpi2 := Real.pi_lt_d2
  have r0 : R 0 = 0 := by
    have := hR.rat.fix (x := (0 : ℚ)) (by simpa using isDouble_int 0 (by norm_num))
    simpa using this
  have zz : fmul (fun q => R q) (.fin 0) (.fin 0) = .fin 0 := by
    have h : fmul (fun q => R q) (.fin 0) (.fin 0) = .fin (0 : ℤ) := op_int hR 0 (by norm_num) (by simp)
    simpa using h
  have hn : norm3 L.toLib ![fullTurn 0, fullTurn 1, fullTurn 2] = .fin 0 := by
    have h1 : L.sum3 (.fin 0) (.fin 0) (.fin 0) = .fin 0 := sumOf_zero (by simpa using r0) (L.sum3_sum _ _ _) (by simp)
    show Verif.NumericDouble.fsqrt R (L.sum3 (fmul (fun q => R q) (.fin 0) (.fin 0)) (fmul (fun q => R q) (.fin 0) (.fin 0)) (fmul (fun q => R q) (.fin 0) (.fin 0))) = _
    rw [zz, h1]
    simp only [Verif.NumericDouble.fsqrt, lt_irrefl, if_false, Rat.cast_zero, Real.sqrt_zero, r0]
  have pr := round8 hR (x := Real.pi) (by rw [abs_of_pos (by linarith)]; linarith)
  have us : u51 ≤ 1 / 1000000 := by unfold u51; norm_num
  have ha := L.asin_err 0 (by norm_num)
  obtain ⟨β, hβ, -, be⟩ : Ab (3 * u51) (fsub (fun q => R q) (.fin (R Real.pi)) (.fin (L.asin 0))) (Real.pi - Real.arcsin ((0 : ℚ) : ℝ)) := by
    have a1 : Ab u51 (.fin (R Real.pi)) Real.pi := ⟨_, rfl, hR.mem _, pr⟩
    have a2 : Ab (1 / 2 * u51) (.fin (L.asin 0)) (Real.arcsin ((0 : ℚ) : ℝ)) := ⟨L.asin 0, rfl, L.asin_double 0, ha.trans (by unfold u51; norm_num)⟩
    have u0 := u51_pos
    exact (Ab.sub hR a1 a2 (by rw [Rat.cast_zero, Real.arcsin_zero, sub_zero, abs_of_nonneg (by linarith)]; linarith)).mono (by linarith)
  rw [Rat.cast_zero, Real.arcsin_zero, sub_zero] at be
  have bp : (0 : ℝ) < β := by have := (abs_le.1 be).1; linarith
  have bq : 0 < β := by exact_mod_cast bp
  have hs : logScale L (.fin 0) (.fin (-1)) = .inf false := by
    unfold logScale
    have l1 : Fp.lt (Fp.abs (.fin (-1))) (.fin 0) = false := by decide +kernel
    have l2 : Fp.lt (.fin 0) (.fin (-1)) = false := by decide +kernel
    rw [l1, l2]
    have l3 : libmUnit L.asin (.fin 0) = .fin (L.asin 0) := by simp [libmUnit]
    simp only [Bool.false_eq_true, if_false]
    rw [l3, hβ]
    simp only [fdiv, Fp.div, if_true, if_neg bq.ne', decide_eq_false (not_lt.2 bq.le), rounded]
  have hm : fmul (fun q => R q) (.fin 2) (.inf false) = .inf false := by
    simp only [fmul, Fp.mul]
    rw [if_neg (by norm_num)]
    rfl
  have h0 : fmul (fun q => R q) (.fin 0) (.inf false) = .nan := by simp [fmul, Fp.mul, rounded]
  unfold quat2AxisAngle
  simp only [hn]
  have h3 : fullTurn 3 = .fin (-1) := rfl
  rw [h3, hs, hm]
  fin_cases i
  · exact h0
  · exact h0
  · exact h0

theorem C173_negation {R : ℝ → ℚ} (hR : IsRndR R) (L : LogLib fun q => R q) : ¬ C173_claim L := by
  intro h
  have := (h fullTurn fullTurn_unit 0).1
  rw [C173_full_turn hR L 0] at this
  exact absurd this (by decide)

/-! ## The hypotheses hold -/

/-- correctly rounded functions -/
noncomputable def LogLib.rounded : LogLib fun q => rndEvenReal q where
  toLib := Lib.rounded
  asin x := rndEvenReal (Real.arcsin x)
  acos x := rndEvenReal (Real.arccos x)
  asin_double _ := isRndR_rndEvenReal.mem _
  acos_double _ := isRndR_rndEvenReal.mem _
  asin_err x _ := by
    have h1 := Real.arcsin_le_pi_div_two x
    have h2 := Real.neg_pi_div_two_le_arcsin x
    have h3 := Real.pi_lt_d2
    refine (isRndR_rndEvenReal.err_abs (e := -52) (by norm_num) ?_).trans (by norm_num)
    rw [abs_le]; norm_num; constructor <;> linarith
  acos_err x _ := by
    have h1 := Real.arccos_nonneg x
    have h2 := Real.arccos_le_pi x
    have h3 := Real.pi_lt_d2
    refine (isRndR_rndEvenReal.err_abs (e := -51) (by norm_num) ?_).trans (by norm_num)
    rw [abs_of_nonneg h1]; norm_num; linarith

/-- a third of a turn about the axis (1, 1, 1) -/
theorem third_unit : AlmostUnit third := ⟨third_finite, third_near.2.trans (by norm_num)⟩

theorem third_scalar : 0 < vals third 3 := by
  show (0 : ℝ) < ((1 / 2 : ℚ) : ℝ)
  norm_num

theorem third_head : 1 / 8000 ≤ nrm (head (vals third)) := by
  refine le_trans ?_ (abs_le_nrm _ 0)
  norm_num [head, third, vals, fval]

example : nrm (expQuat (vals (quat2AxisAngle LogLib.rounded third)) - vals third) ≤ 1 / 2 ^ 41 :=
  (C173_log isRndR_rndEvenReal LogLib.rounded third third_unit (.inl third_scalar)).2.1

example : nrm (expQuat (vals (quat2AxisAngle LogLib.rounded third)) - vals third) ≤ 1 / 2 ^ 43 :=
  (C173_log_long isRndR_rndEvenReal LogLib.rounded third third_unit (.inr third_head)).2

example : nrm (vals (quat2AxisAngle LogLib.rounded third)) ≤ Real.pi + 1 / 2 ^ 44 :=
  C173_short isRndR_rndEvenReal LogLib.rounded third third_unit (.inl third_scalar)

example : nrm (vals (axisAngle2quat Lib.rounded (quat2AxisAngle LogLib.rounded third)) - vals third) ≤ 1 / 2 ^ 40 :=
  (C173_exp_log isRndR_rndEvenReal LogLib.rounded third third_unit (.inl third_scalar)).2

example : nrm (vals (quat2AxisAngle LogLib.rounded (axisAngle2quat Lib.rounded turnU.2)) - vals turnU.2) ≤ 1 / 2 ^ 36 :=
  (C173_log_exp isRndR_rndEvenReal LogLib.rounded turnU.2 turnU_finite.1 (by rw [turnU_norm]; exact Real.pi_gt_three.le)).2

end Verif.KinematicsDouble
