import Verif.Common.DoubleOps
import Verif.Common.DoubleErr
import Mathlib.Data.Real.Basic
import Mathlib.Data.Rat.Cast.Order
import Mathlib.Tactic.Linarith
import Mathlib.Tactic.Positivity

/-!
# Sums of products in doubles: how far the result can be from the exact value

`Acc k f x S`: the double `f` is finite and is the exact value `x` up to `k` roundings, measured in `S`, a bound for the sum of the absolute values of the terms of `x`.
-/

namespace Verif.Common

/-- one rounding, with room for underflow -/
noncomputable def eps : ℝ := 1 / 2 ^ 53 + 1 / 2 ^ 100

theorem eps_pos : 0 < eps := by unfold eps; positivity

/-- the scales for which neither overflow nor underflow matters -/
def Scale (S : ℝ) : Prop := (2 : ℝ) ^ (-900 : ℤ) ≤ S ∧ S ≤ (2 : ℝ) ^ (900 : ℤ)

theorem Scale.pos {S : ℝ} (h : Scale S) : 0 < S := lt_of_lt_of_le (by positivity) h.1

/-- `f` is `x` up to `k` roundings, relative to `S` -/
def Acc (k : ℕ) (f : Fp) (x S : ℝ) : Prop :=
  ∃ q : ℚ, f = .fin q ∧ IsDouble q ∧ |x| ≤ S ∧ |(q : ℝ) - x| ≤ ((1 + eps) ^ k - 1) * S

theorem one_le_pow_eps (k : ℕ) : 1 ≤ (1 + eps) ^ k := one_le_pow₀ (by linarith [eps_pos])

theorem tiny_le {S : ℝ} (h : Scale S) : (tiny : ℝ) ≤ 1 / 2 ^ 100 * S := by
  have e : (tiny : ℝ) ≤ 1 / 2 ^ 100 * (2 : ℝ) ^ (-900 : ℤ) := by
    unfold tiny
    push_cast
    have : (1 : ℝ) / 2 ^ 100 = 2 ^ (-100 : ℤ) := by rw [zpow_neg, one_div]; norm_cast
    rw [this, ← zpow_add₀ (by norm_num)]
    have h1 : (2 : ℝ) ^ (-1074 : ℤ) / 2 ≤ 2 ^ (-1074 : ℤ) := half_le_self (by positivity)
    exact h1.trans (zpow_le_zpow_right₀ (by norm_num) (by norm_num))
  exact e.trans (mul_le_mul_of_nonneg_left h.1 (by positivity))

namespace Acc

theorem fin {q : ℚ} (h : IsDouble q) {S : ℝ} (hS : |(q : ℝ)| ≤ S) : Acc 0 (.fin q) q S := ⟨q, rfl, h, hS, by simp⟩

variable {rnd : ℚ → ℚ} (hr : IsRnd rnd)

theorem mono {j k : ℕ} (hjk : j ≤ k) {f : Fp} {x S T : ℝ} (hST : S ≤ T) (h : Acc j f x S) : Acc k f x T := by
  obtain ⟨q, e, hd, hx, hq⟩ := h
  have hS : 0 ≤ S := (abs_nonneg x).trans hx
  refine ⟨q, e, hd, hx.trans hST, hq.trans ?_⟩
  have h1 : (1 + eps) ^ j ≤ (1 + eps) ^ k := pow_le_pow_right₀ (by linarith [eps_pos]) hjk
  have h2 := one_le_pow_eps k
  exact mul_le_mul (by linarith) hST hS (by linarith)

theorem neg {k : ℕ} {f : Fp} {x S : ℝ} (h : Acc k f x S) : Acc k f.neg (-x) S := by
  obtain ⟨q, e, hd, hx, hq⟩ := h
  refine ⟨-q, by rw [e]; rfl, hd.neg, by rwa [abs_neg], ?_⟩
  rw [show ((-q : ℚ) : ℝ) - -x = -((q : ℝ) - x) by push_cast; ring, abs_neg]
  exact hq

include hr in
/-- the rounding of an exact result -/
theorem round {m : ℕ} (hm : m ≤ 100) {z : ℚ} {x S : ℝ} (hS : Scale S) (hx : |x| ≤ S) (hz : |(z : ℝ) - x| ≤ ((1 + eps) ^ m - 1) * S) :
    Acc (m + 1) (rounded rnd (.fin z)) x S := by
  have hS0 := hS.pos
  have hzS : |(z : ℝ)| ≤ (1 + eps) ^ m * S := by
    have : |(z : ℝ)| ≤ |(z : ℝ) - x| + |x| := by
      have := abs_add_le ((z : ℝ) - x) x
      simpa using this
    linarith
  have hlim : |z| ≤ 2 * limit := by
    have h1 : (1 + eps) ^ m ≤ 2 ^ 100 :=
      (pow_le_pow_left₀ (by linarith [eps_pos]) (show 1 + eps ≤ 2 by unfold eps; norm_num) m).trans (pow_le_pow_right₀ (by norm_num) hm)
    have h2 : |(z : ℝ)| ≤ 2 ^ 100 * (2 : ℝ) ^ (900 : ℤ) := hzS.trans (mul_le_mul h1 hS.2 hS0.le (by positivity))
    have h3 : (2 : ℝ) ^ 100 * (2 : ℝ) ^ (900 : ℤ) ≤ ((2 * limit : ℚ) : ℝ) := by
      unfold limit
      push_cast
      rw [show (900 : ℤ) = ((900 : ℕ) : ℤ) from rfl, zpow_natCast, ← pow_add, ← pow_succ']
      exact pow_le_pow_right₀ (by norm_num) (by norm_num)
    have h4 : ((|z| : ℚ) : ℝ) ≤ ((2 * limit : ℚ) : ℝ) := by rw [Rat.cast_abs]; exact h2.trans h3
    exact_mod_cast h4
  refine ⟨rnd z, (rounded_fin hr hlim).1, hr.mem z, hx, ?_⟩
  have he : |((rnd z : ℚ) : ℝ) - z| ≤ |(z : ℝ)| / 2 ^ 53 + tiny := by
    have := hr.err_any z
    have h1 : ((|rnd z - z| : ℚ) : ℝ) ≤ ((|z| / 2 ^ 53 + tiny : ℚ) : ℝ) := by exact_mod_cast this
    push_cast at h1
    norm_num at h1 ⊢
    exact h1
  have ht := tiny_le hS
  have h1 : |((rnd z : ℚ) : ℝ) - z| ≤ eps * ((1 + eps) ^ m * S) := by
    refine he.trans ?_
    have h3 : S ≤ (1 + eps) ^ m * S := le_mul_of_one_le_left hS0.le (one_le_pow_eps m)
    have e1 : eps * ((1 + eps) ^ m * S) = (1 + eps) ^ m * S / 2 ^ 53 + 1 / 2 ^ 100 * ((1 + eps) ^ m * S) := by rw [show eps * ((1 + eps) ^ m * S) = (1 / 2 ^ 53 + 1 / 2 ^ 100) * ((1 + eps) ^ m * S) by rfl]; ring
    rw [e1]
    have h4 : |(z : ℝ)| / 2 ^ 53 ≤ (1 + eps) ^ m * S / 2 ^ 53 := div_le_div_of_nonneg_right hzS (by positivity)
    have h5 : 1 / 2 ^ 100 * S ≤ 1 / 2 ^ 100 * ((1 + eps) ^ m * S) := mul_le_mul_of_nonneg_left h3 (by positivity)
    linarith
  have h2 : |((rnd z : ℚ) : ℝ) - x| ≤ |((rnd z : ℚ) : ℝ) - z| + |(z : ℝ) - x| := abs_sub_le _ _ _
  have e2 : ((1 + eps) ^ (m + 1) - 1) * S = eps * ((1 + eps) ^ m * S) + ((1 + eps) ^ m - 1) * S := by rw [pow_succ]; ring
  rw [e2]
  linarith

include hr in
theorem mul {j k : ℕ} (hjk : j + k ≤ 100) {f g : Fp} {x y S T : ℝ} (hf : Acc j f x S) (hg : Acc k g y T) (hs : Scale (S * T)) :
    Acc (j + k + 1) (fmul rnd f g) (x * y) (S * T) := by
  obtain ⟨q, rfl, hd, hx, hq⟩ := hf
  obtain ⟨p, rfl, hd', hy, hp⟩ := hg
  have hS : 0 ≤ S := (abs_nonneg x).trans hx
  have hT : 0 ≤ T := (abs_nonneg y).trans hy
  refine round hr hjk hs (by rw [abs_mul]; exact mul_le_mul hx hy (abs_nonneg y) hS) ?_
  set a := (1 + eps) ^ j with ha
  set b := (1 + eps) ^ k with hb
  have ha1 : 1 ≤ a := one_le_pow_eps j
  have hb1 : 1 ≤ b := one_le_pow_eps k
  have e : ((q * p : ℚ) : ℝ) - x * y = ((q : ℝ) - x) * ((p : ℝ) - y) + ((q : ℝ) - x) * y + x * ((p : ℝ) - y) := by push_cast; ring
  rw [e]
  have t1 : |((q : ℝ) - x) * ((p : ℝ) - y)| ≤ (a - 1) * S * ((b - 1) * T) := by
    rw [abs_mul]; exact mul_le_mul hq hp (abs_nonneg _) (mul_nonneg (by linarith) hS)
  have t2 : |((q : ℝ) - x) * y| ≤ (a - 1) * S * T := by
    rw [abs_mul]; exact mul_le_mul hq hy (abs_nonneg _) (mul_nonneg (by linarith) hS)
  have t3 : |x * ((p : ℝ) - y)| ≤ S * ((b - 1) * T) := by
    rw [abs_mul]; exact mul_le_mul hx hp (abs_nonneg _) hS
  have := (abs_add_le (((q : ℝ) - x) * ((p : ℝ) - y) + ((q : ℝ) - x) * y) (x * ((p : ℝ) - y))).trans (add_le_add_left (abs_add_le _ _) _)
  rw [pow_add, ← ha, ← hb]
  nlinarith

include hr in
theorem add {i j k : ℕ} (hi : i ≤ k) (hj : j ≤ k) (hk : k ≤ 100) {f g : Fp} {x y S T : ℝ} (hf : Acc i f x S) (hg : Acc j g y T) (hs : Scale (S + T)) :
    Acc (k + 1) (fadd rnd f g) (x + y) (S + T) := by
  replace hf := hf.mono hi le_rfl
  replace hg := hg.mono hj le_rfl
  obtain ⟨q, rfl, hd, hx, hq⟩ := hf
  obtain ⟨p, rfl, hd', hy, hp⟩ := hg
  refine round hr hk hs ((abs_add_le x y).trans (add_le_add hx hy)) ?_
  have e : ((q + p : ℚ) : ℝ) - (x + y) = ((q : ℝ) - x) + ((p : ℝ) - y) := by push_cast; ring
  rw [e, mul_add]
  exact (abs_add_le _ _).trans (add_le_add hq hp)

include hr in
theorem sub {i j k : ℕ} (hi : i ≤ k) (hj : j ≤ k) (hk : k ≤ 100) {f g : Fp} {x y S T : ℝ} (hf : Acc i f x S) (hg : Acc j g y T) (hs : Scale (S + T)) :
    Acc (k + 1) (fsub rnd f g) (x - y) (S + T) := by
  have := add hr hi hj hk hf hg.neg hs
  rw [sub_eq_add_neg]
  exact this

/-- the error -/
theorem err {k : ℕ} {f : Fp} {x S : ℝ} (h : Acc k f x S) : f = .fin (fval f) ∧ IsDouble (fval f) ∧ |(fval f : ℝ) - x| ≤ ((1 + eps) ^ k - 1) * S := by
  obtain ⟨q, rfl, hd, -, hq⟩ := h
  exact ⟨rfl, hd, hq⟩

end Acc

end Verif.Common
