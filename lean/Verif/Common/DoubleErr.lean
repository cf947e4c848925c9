import Verif.Common.Double

/-!
# Rounding errors of double arithmetic
-/

namespace Verif.Common

theorem double_mult {x : ℚ} (h : IsDouble x) : ∃ n : ℤ, x = n * 2 ^ (-1074 : ℤ) := by
  obtain ⟨m, e, -, he, rfl⟩ := h
  refine ⟨m * 2 ^ (e + 1074).toNat, ?_⟩
  push_cast
  rw [mul_assoc, ← zpow_natCast, ← zpow_add₀ (by norm_num)]
  congr 2; omega

theorem mult_double {n : ℤ} (h : |n| ≤ 2 ^ 53) : IsDouble ((n : ℚ) * 2 ^ (-1074 : ℤ)) := by
  rcases h.lt_or_eq with h | h
  · exact ⟨n, -1074, h, by norm_num, rfl⟩
  · rcases (abs_eq (by norm_num)).1 h with rfl | rfl
    · exact ⟨1, -1021, by norm_num, by norm_num, by push_cast; rw [show (-1021 : ℤ) = 53 + -1074 by norm_num, zpow_add₀ (by norm_num)]; norm_num⟩
    · exact ⟨-1, -1021, by norm_num, by norm_num, by push_cast; rw [show (-1021 : ℤ) = 53 + -1074 by norm_num, zpow_add₀ (by norm_num)]; norm_num⟩

/-- half of the smallest positive double -/
def tiny : ℚ := 2 ^ (-1074 : ℤ) / 2

theorem tiny_pos : 0 < tiny := by unfold tiny; positivity

namespace IsRnd

variable {rnd : ℚ → ℚ} (h : IsRnd rnd)

include h

/-- the error of one operation -/
theorem err_any (x : ℚ) : |rnd x - x| ≤ |x| / 2 ^ 53 + tiny := by
  rcases le_or_gt (2 ^ (-1022 : ℤ)) |x| with hc | hc
  · exact (h.err_rel hc).trans (by linarith [tiny_pos])
  · have := h.err_abs (x := x) (e := -1074) (by norm_num) (by
      refine hc.le.trans ?_
      rw [show (2 : ℚ) ^ 53 = 2 ^ (53 : ℤ) by norm_cast, ← zpow_add₀ (by norm_num)]
      exact zpow_le_zpow_right₀ (by norm_num) (by norm_num))
    have h2 : 0 ≤ |x| / 2 ^ 53 := by positivity
    unfold tiny
    linarith

/-- the error of a sum of doubles is relative: tiny sums are exact -/
theorem err_mult {x : ℚ} (hx : ∃ n : ℤ, x = n * 2 ^ (-1074 : ℤ)) : |rnd x - x| ≤ |x| / 2 ^ 53 := by
  rcases le_or_gt (2 ^ (-1022 : ℤ)) |x| with hc | hc
  · exact h.err_rel hc
  · obtain ⟨n, rfl⟩ := hx
    have pu : (0 : ℚ) < 2 ^ (-1074 : ℤ) := by positivity
    have hn : |n| ≤ 2 ^ 53 := by
      rw [abs_mul, abs_of_pos pu] at hc
      have : (2 : ℚ) ^ (-1022 : ℤ) ≤ 2 ^ 53 * 2 ^ (-1074 : ℤ) := by
        rw [show (2 : ℚ) ^ 53 = 2 ^ (53 : ℤ) by norm_cast, ← zpow_add₀ (by norm_num)]
        exact zpow_le_zpow_right₀ (by norm_num) (by norm_num)
      have h1 : |(n : ℚ)| * 2 ^ (-1074 : ℤ) ≤ 2 ^ 53 * 2 ^ (-1074 : ℤ) := hc.le.trans this
      have h2 := le_of_mul_le_mul_right h1 pu
      exact_mod_cast h2
    rw [h.fix (mult_double hn)]
    simp only [sub_self, abs_zero]
    positivity

theorem err_sub {a b : ℚ} (ha : IsDouble a) (hb : IsDouble b) : |rnd (a - b) - (a - b)| ≤ |a - b| / 2 ^ 53 := by
  obtain ⟨m, rfl⟩ := double_mult ha
  obtain ⟨n, rfl⟩ := double_mult hb
  exact h.err_mult ⟨m - n, by push_cast; ring⟩

theorem err_add {a b : ℚ} (ha : IsDouble a) (hb : IsDouble b) : |rnd (a + b) - (a + b)| ≤ |a + b| / 2 ^ 53 := by
  obtain ⟨m, rfl⟩ := double_mult ha
  obtain ⟨n, rfl⟩ := double_mult hb
  exact h.err_mult ⟨m + n, by push_cast; ring⟩

/-- the sign of a difference is right -/
theorem sub_nonneg_iff {a b : ℚ} (ha : IsDouble a) (hb : IsDouble b) : 0 ≤ rnd (a - b) ↔ b ≤ a := by
  constructor
  · intro hc
    by_contra hlt
    push Not at hlt
    have e := h.err_sub ha hb
    have hneg : a - b < 0 := by linarith
    rw [abs_of_neg hneg] at e
    have := (abs_le.1 e).2
    have h53 : -(a - b) / 2 ^ 53 < -(a - b) := by
      rw [div_lt_iff₀ (by norm_num)]
      nlinarith
    linarith
  · intro hc
    exact h.nonneg (by linarith)

end IsRnd

end Verif.Common
