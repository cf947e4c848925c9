import Verif.Common.DoubleReal
import Verif.Common.DoubleOps

/-!
# Relative errors of several roundings
-/

namespace Verif.Common

/-- one rounding multiplies by a factor between `ρ` and `1/ρ` -/
noncomputable def rho : ℝ := 1 - 1 / 2 ^ 53

theorem rho_pos : 0 < rho := by unfold rho; norm_num
theorem rho_le_one : rho ≤ 1 := by unfold rho; norm_num

/-- `x` is `y` up to `k` roundings -/
def Rel (k : ℕ) (x y : ℝ) : Prop := ∃ t, rho ^ k ≤ t ∧ t ≤ (rho ^ k)⁻¹ ∧ x = y * t

namespace Rel

theorem pow_pos' (k : ℕ) : 0 < rho ^ k := pow_pos rho_pos k
theorem pow_le_one' (k : ℕ) : rho ^ k ≤ 1 := pow_le_one₀ rho_pos.le rho_le_one

theorem refl (k : ℕ) (x : ℝ) : Rel k x x := ⟨1, pow_le_one' k, one_le_inv₀ (pow_pos' k) |>.2 (pow_le_one' k), by ring⟩

theorem of_err {x y : ℝ} (h : |x - y| ≤ |y| / 2 ^ 53) : Rel 1 x y := by
  rcases eq_or_ne y 0 with rfl | hy
  · simp only [sub_zero, abs_zero, zero_div] at h
    rw [abs_nonpos_iff.1 h]
    exact refl 1 0
  · have hy0 : 0 < |y| := abs_pos.2 hy
    have ht : |x / y - 1| ≤ 1 / 2 ^ 53 := by
      have : x / y - 1 = (x - y) / y := by field_simp
      rw [this, abs_div, div_le_iff₀ hy0]
      linarith [show 1 / 2 ^ 53 * |y| = |y| / 2 ^ 53 by ring]
    have := abs_le.1 ht
    refine ⟨x / y, ?_, ?_, by field_simp⟩
    · rw [pow_one, rho]; linarith
    · rw [pow_one]
      have : (1 : ℝ) + 1 / 2 ^ 53 ≤ rho⁻¹ := by
        rw [le_inv_comm₀ (by norm_num) rho_pos, inv_eq_one_div, le_div_iff₀ (by norm_num)]
        unfold rho; norm_num
      linarith

theorem mono {j k : ℕ} (hjk : j ≤ k) {x y : ℝ} (h : Rel j x y) : Rel k x y := by
  obtain ⟨t, h1, h2, e⟩ := h
  have hp : rho ^ k ≤ rho ^ j := pow_le_pow_of_le_one rho_pos.le rho_le_one hjk
  exact ⟨t, hp.trans h1, h2.trans (inv_anti₀ (pow_pos' k) hp), e⟩

theorem mul {j k : ℕ} {x y x' y' : ℝ} (h : Rel j x y) (h' : Rel k x' y') : Rel (j + k) (x * x') (y * y') := by
  obtain ⟨t, h1, h2, e⟩ := h
  obtain ⟨t', h1', h2', e'⟩ := h'
  refine ⟨t * t', ?_, ?_, by rw [e, e']; ring⟩
  · rw [pow_add]
    exact mul_le_mul h1 h1' (pow_pos' k).le ((pow_pos' j).le.trans h1)
  · rw [pow_add, mul_inv]
    exact mul_le_mul h2 h2' ((pow_pos' k).le.trans h1') (inv_nonneg.2 (pow_pos' j).le)

theorem inv {k : ℕ} {x y : ℝ} (h : Rel k x y) : Rel k x⁻¹ y⁻¹ := by
  obtain ⟨t, h1, h2, e⟩ := h
  have ht : 0 < t := (pow_pos' k).trans_le h1
  refine ⟨t⁻¹, ?_, inv_anti₀ (pow_pos' k) h1, by rw [e, mul_inv]⟩
  rw [le_inv_comm₀ (pow_pos' k) ht]; exact h2

theorem div {j k : ℕ} {x y x' y' : ℝ} (h : Rel j x y) (h' : Rel k x' y') : Rel (j + k) (x / x') (y / y') := by
  rw [div_eq_mul_inv, div_eq_mul_inv]; exact h.mul h'.inv

theorem trans {j k : ℕ} {x y z : ℝ} (h : Rel j x y) (h' : Rel k y z) : Rel (j + k) x z := by
  obtain ⟨t, h1, h2, e⟩ := h
  obtain ⟨t', h1', h2', e'⟩ := h'
  refine ⟨t * t', ?_, ?_, by rw [e, e']; ring⟩
  · rw [pow_add]
    exact mul_le_mul h1 h1' (pow_pos' k).le ((pow_pos' j).le.trans h1)
  · rw [pow_add, mul_inv]
    exact mul_le_mul h2 h2' ((pow_pos' k).le.trans h1') (inv_nonneg.2 (pow_pos' j).le)

theorem neg {k : ℕ} {x y : ℝ} (h : Rel k x y) : Rel k (-x) (-y) := by
  obtain ⟨t, h1, h2, e⟩ := h
  exact ⟨t, h1, h2, by rw [e]; ring⟩

/-- sums of numbers of the same sign -/
theorem add {k : ℕ} {x y x' y' : ℝ} (h : Rel k x y) (h' : Rel k x' y') (hy : 0 ≤ y) (hy' : 0 ≤ y') : Rel k (x + x') (y + y') := by
  obtain ⟨t, h1, h2, e⟩ := h
  obtain ⟨t', h1', h2', e'⟩ := h'
  rcases (add_nonneg hy hy').eq_or_lt with h0 | h0
  · have : y = 0 := by linarith
    have : y' = 0 := by linarith
    subst_vars
    simpa using refl k 0
  · refine ⟨(x + x') / (y + y'), ?_, ?_, by field_simp⟩
    · rw [le_div_iff₀ h0, e, e']
      nlinarith
    · rw [div_le_iff₀ h0, e, e']
      nlinarith

/-- a square root halves the number of roundings -/
theorem sqrt {k : ℕ} {x y : ℝ} (h : Rel (2 * k) x y) (hy : 0 ≤ y) : Rel k (Real.sqrt x) (Real.sqrt y) := by
  obtain ⟨t, h1, h2, e⟩ := h
  refine ⟨Real.sqrt t, ?_, ?_, by rw [e, Real.sqrt_mul hy]⟩
  · apply Real.le_sqrt_of_sq_le
    rwa [← pow_mul, mul_comm]
  · rw [Real.sqrt_le_left (inv_nonneg.2 (pow_pos' k).le), inv_pow, ← pow_mul, mul_comm]
    exact h2

theorem err {k : ℕ} {x y : ℝ} (h : Rel k x y) : |x - y| ≤ ((rho ^ k)⁻¹ - 1) * |y| := by
  obtain ⟨t, h1, h2, e⟩ := h
  have : x - y = (t - 1) * y := by rw [e]; ring
  rw [this, abs_mul]
  refine mul_le_mul_of_nonneg_right ?_ (abs_nonneg y)
  have p := pow_pos' k
  have hinv : 1 - rho ^ k ≤ (rho ^ k)⁻¹ - 1 := by
    have : rho ^ k * (rho ^ k)⁻¹ = 1 := mul_inv_cancel₀ p.ne'
    have h3 : 0 < (rho ^ k)⁻¹ := inv_pos.2 p
    nlinarith [sq_nonneg (rho ^ k - 1)]
  rw [abs_le]
  constructor <;> linarith

theorem ne_zero {k : ℕ} {x y : ℝ} (h : Rel k x y) (hy : y ≠ 0) : x ≠ 0 := by
  obtain ⟨t, h1, h2, e⟩ := h
  rw [e]
  exact mul_ne_zero hy ((pow_pos' k).trans_le h1).ne'

theorem nonneg {k : ℕ} {x y : ℝ} (h : Rel k x y) (hx : 0 ≤ x) : 0 ≤ y := by
  obtain ⟨t, h1, h2, e⟩ := h
  have ht : 0 < t := (pow_pos' k).trans_le h1
  by_contra hc
  have := mul_neg_of_neg_of_pos (not_le.1 hc) ht
  linarith

theorem err2 {x y : ℝ} (h : Rel 2 x y) : |x - y| ≤ |y| / 2 ^ 51 := by
  refine h.err.trans ?_
  rw [div_eq_mul_inv, mul_comm |y|]
  refine mul_le_mul_of_nonneg_right ?_ (abs_nonneg y)
  rw [sub_le_iff_le_add, inv_le_comm₀ (pow_pos' 2) (by norm_num)]
  unfold rho; norm_num

theorem err6 {x y : ℝ} (h : Rel 6 x y) : |x - y| ≤ |y| / 2 ^ 50 := by
  refine h.err.trans ?_
  rw [div_eq_mul_inv, mul_comm |y|]
  refine mul_le_mul_of_nonneg_right ?_ (abs_nonneg y)
  rw [sub_le_iff_le_add, inv_le_comm₀ (pow_pos' 6) (by norm_num)]
  unfold rho; norm_num

end Rel

/-- the magnitude is between 2^-k and 2^k -/
def Size (k : ℕ) (x : ℝ) : Prop := 2 ^ (-(k : ℤ)) ≤ |x| ∧ |x| ≤ 2 ^ (k : ℤ)

namespace Size

theorem mono {j k : ℕ} (hjk : j ≤ k) {x : ℝ} (h : Size j x) : Size k x :=
  ⟨(zpow_le_zpow_right₀ (by norm_num) (by omega)).trans h.1, h.2.trans (zpow_le_zpow_right₀ (by norm_num) (by omega))⟩

theorem ne_zero {k : ℕ} {x : ℝ} (h : Size k x) : x ≠ 0 := by
  rintro rfl
  have := h.1
  rw [abs_zero] at this
  exact absurd this (not_le.2 (by positivity))

theorem mul {j k : ℕ} {x y : ℝ} (h : Size j x) (h' : Size k y) : Size (j + k) (x * y) := by
  constructor
  · rw [abs_mul, show (-((j + k : ℕ) : ℤ)) = -(j : ℤ) + -(k : ℤ) by push_cast; ring, zpow_add₀ (by norm_num)]
    exact mul_le_mul h.1 h'.1 (by positivity) (abs_nonneg x)
  · rw [abs_mul, Nat.cast_add, zpow_add₀ (by norm_num)]
    exact mul_le_mul h.2 h'.2 (abs_nonneg y) (by positivity)

theorem inv {k : ℕ} {x : ℝ} (h : Size k x) : Size k x⁻¹ := by
  have h0 : 0 < |x| := abs_pos.2 h.ne_zero
  constructor
  · rw [abs_inv, zpow_neg]
    exact inv_anti₀ h0 h.2
  · rw [abs_inv]
    have := inv_anti₀ (by positivity) h.1
    rwa [zpow_neg, inv_inv] at this

theorem div {j k : ℕ} {x y : ℝ} (h : Size j x) (h' : Size k y) : Size (j + k) (x / y) := by
  rw [div_eq_mul_inv]; exact h.mul h'.inv

theorem neg {k : ℕ} {x : ℝ} (h : Size k x) : Size k (-x) := by unfold Size; rw [abs_neg]; exact h

theorem of_rel {j k : ℕ} {x y : ℝ} (hr : Rel j x y) (hj : j ≤ 16) (h : Size k y) : Size (k + 1) x := by
  obtain ⟨t, h1, h2, e⟩ := hr.mono hj
  have ht1 : (1 / 2 : ℝ) ≤ t := le_trans (by unfold rho; norm_num) h1
  have ht2 : t ≤ 2 := h2.trans (by unfold rho; norm_num)
  have ht : Size 1 t := by
    unfold Size
    rw [abs_of_pos (by linarith)]
    constructor <;> norm_num <;> linarith
  rw [e]
  exact h.mul ht

theorem err {R : ℝ → ℚ} (h : IsRndR R) {k : ℕ} (hk : k ≤ 1022) {x : ℝ} (hx : Size k x) : Rel 1 (R x) x :=
  Rel.of_err (h.err_rel ((zpow_le_zpow_right₀ (by norm_num) (by omega)).trans hx.1))

theorem le_limit {k : ℕ} (hk : k ≤ 1022) {q : ℚ} (hx : |(q : ℝ)| ≤ 2 ^ (k : ℤ)) : |q| ≤ limit := by
  have h1 : ((|q| : ℚ) : ℝ) ≤ ((2 ^ k : ℚ) : ℝ) := by push_cast; exact_mod_cast hx
  have h2 : |q| ≤ 2 ^ k := by exact_mod_cast h1
  exact h2.trans (pow_le_pow_right₀ (by norm_num) hk)

end Size

end Verif.Common
