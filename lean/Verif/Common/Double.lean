import Mathlib.Data.Int.Log
import Mathlib.Data.Rat.Floor
import Mathlib.Algebra.Order.Round
import Mathlib.Algebra.Order.Archimedean.Basic
import Mathlib.Tactic.Linarith
import Mathlib.Tactic.Positivity
import Mathlib.Algebra.Order.Field.Power
import Mathlib.Tactic.FieldSimp
import Mathlib.Tactic.Ring
import Mathlib.Tactic.NormNum

/-!
# The finite numbers of C++'s `double` (IEEE 754 binary64) and rounding to nearest

A double is `m * 2 ^ e` with `|m| < 2 ^ 53` and `e ≥ -1074`; the upper bound of the exponent is left out, that is, overflow is
not modelled here.  A rounding is any function to the nearest double, with any rule for ties.
-/

namespace Verif.Common

/-- the finite doubles (without an upper bound) -/
def IsDouble (x : ℚ) : Prop := ∃ m e : ℤ, |m| < 2 ^ 53 ∧ -1074 ≤ e ∧ x = m * 2 ^ e

/-- `rnd` rounds to a nearest double -/
structure IsRnd (rnd : ℚ → ℚ) : Prop where
  mem : ∀ x, IsDouble (rnd x)
  near : ∀ x y, IsDouble y → |rnd x - x| ≤ |y - x|

theorem IsDouble.neg {x : ℚ} (h : IsDouble x) : IsDouble (-x) := by
  obtain ⟨m, e, hm, he, rfl⟩ := h
  exact ⟨-m, e, by rwa [abs_neg], he, by push_cast; ring⟩

theorem isDouble_int (n : ℤ) (h : |n| < 2 ^ 53) : IsDouble n := ⟨n, 0, h, by norm_num, by simp⟩

theorem isDouble_pow (e : ℤ) (he : -1074 ≤ e) : IsDouble ((2 : ℚ) ^ e) := ⟨1, e, by norm_num, he, by simp⟩

theorem abs_round_le {y : ℚ} (hy : |y| ≤ 2 ^ 53) : |round y| ≤ 2 ^ 53 := by
  have := abs_le.mp hy
  rw [round_eq, abs_le]
  constructor
  · rw [Int.le_floor]; push_cast; linarith
  · have : ⌊y + 1 / 2⌋ < 2 ^ 53 + 1 := by rw [Int.floor_lt]; push_cast; linarith
    omega

namespace IsRnd

variable {rnd : ℚ → ℚ} (h : IsRnd rnd)

include h

theorem fix {x : ℚ} (hx : IsDouble x) : rnd x = x := by
  have := h.near x x hx
  simp only [sub_self, abs_zero] at this
  have := abs_nonpos_iff.mp this
  linarith

theorem mono {x y : ℚ} (hxy : x ≤ y) : rnd x ≤ rnd y := by
  rcases hxy.eq_or_lt with rfl | hlt
  · rfl
  by_contra hc
  push Not at hc
  have h1 := h.near x (rnd y) (h.mem y)
  have h2 := h.near y (rnd x) (h.mem x)
  have a1 := abs_le.mp (le_refl |rnd y - x|)
  have a2 := abs_le.mp (le_refl |rnd x - y|)
  rcases abs_cases (rnd x - x) with ⟨e1, _⟩ | ⟨e1, _⟩ <;> rcases abs_cases (rnd y - x) with ⟨e2, _⟩ | ⟨e2, _⟩ <;>
    rcases abs_cases (rnd y - y) with ⟨e3, _⟩ | ⟨e3, _⟩ <;> rcases abs_cases (rnd x - y) with ⟨e4, _⟩ | ⟨e4, _⟩ <;>
    rw [e1, e2] at h1 <;> rw [e3, e4] at h2 <;> linarith

theorem le_of_le {x y : ℚ} (hy : IsDouble y) (hxy : x ≤ y) : rnd x ≤ y := by
  have := h.mono hxy
  rwa [h.fix hy] at this

theorem ge_of_ge {x y : ℚ} (hy : IsDouble y) (hxy : y ≤ x) : y ≤ rnd x := by
  have := h.mono hxy
  rwa [h.fix hy] at this

theorem nonneg {x : ℚ} (hx : 0 ≤ x) : 0 ≤ rnd x := h.ge_of_ge (isDouble_int 0 (by norm_num)) (by simpa using hx)

/-- rounding to a multiple of `2 ^ e`, where that is fine enough -/
theorem err_abs {x : ℚ} {e : ℤ} (he : -1074 ≤ e) (hx : |x| ≤ 2 ^ 53 * 2 ^ e) : |rnd x - x| ≤ 2 ^ e / 2 := by
  have p0 : (0 : ℚ) < 2 ^ e := by positivity
  have hr : |round (x / 2 ^ e) * (2 : ℚ) ^ e - x| ≤ 2 ^ e / 2 := by
    have := abs_sub_round (x / 2 ^ e)
    have e1 : (round (x / 2 ^ e) : ℚ) * 2 ^ e - x = -(x / 2 ^ e - round (x / 2 ^ e)) * 2 ^ e := by field_simp; ring
    rw [e1, abs_mul, abs_neg, abs_of_pos p0]
    nlinarith
  have hd : IsDouble (round (x / 2 ^ e) * (2 : ℚ) ^ e) := by
    have hb : |round (x / 2 ^ e)| ≤ 2 ^ 53 := by
      have hx' : |x / 2 ^ e| ≤ 2 ^ 53 := by rw [abs_div, abs_of_pos p0]; rwa [div_le_iff₀ p0]
      exact abs_round_le hx'
    rcases hb.lt_or_eq with hlt | heq
    · exact ⟨_, e, hlt, he, rfl⟩
    · rcases (abs_eq (by norm_num)).mp heq with h1 | h1
      · refine ⟨1, 53 + e, by norm_num, by omega, ?_⟩
        rw [h1, zpow_add₀ (by norm_num)]; norm_num
      · refine ⟨-1, 53 + e, by norm_num, by omega, ?_⟩
        rw [h1, zpow_add₀ (by norm_num)]; norm_num
  exact (h.near x _ hd).trans hr

/-- the relative error of a rounding, away from the subnormal numbers -/
theorem err_rel {x : ℚ} (hx : 2 ^ (-1022 : ℤ) ≤ |x|) : |rnd x - x| ≤ |x| / 2 ^ 53 := by
  have p1 : (0 : ℚ) < 2 ^ (-1022 : ℤ) := by positivity
  have hx0 : 0 < |x| := p1.trans_le hx
  have l1 := Int.zpow_log_le_self (b := 2) (by norm_num) hx0
  have l2 := Int.lt_zpow_succ_log_self (b := 2) (by norm_num) |x|
  push_cast at l1 l2
  have hlog : -1022 ≤ Int.log 2 |x| := by
    have h1 := Int.log_mono_right (b := 2) p1 hx
    have h2 : Int.log 2 ((2 : ℚ) ^ (-1022 : ℤ)) = -1022 := by
      simpa using Int.log_zpow (R := ℚ) (b := 2) (by norm_num) (-1022)
    omega
  have e1 : (2 : ℚ) ^ 53 * 2 ^ (Int.log 2 |x| - 52) = 2 ^ (Int.log 2 |x| + 1) := by
    have : (2 : ℚ) ^ 53 = 2 ^ (53 : ℤ) := by norm_cast
    rw [this, ← zpow_add₀ (by norm_num)]; congr 1; ring
  have e2 : (2 : ℚ) ^ (Int.log 2 |x| - 52) / 2 = 2 ^ (Int.log 2 |x|) / 2 ^ 53 := by
    rw [zpow_sub₀ (by norm_num)]
    norm_num
    ring
  have := h.err_abs (x := x) (e := Int.log 2 |x| - 52) (by omega) (by rw [e1]; exact l2.le)
  rw [e2] at this
  refine this.trans ?_
  gcongr

end IsRnd

/-- The quotient of a double by an integer is not rounded up to the next integer. -/
theorem IsRnd.div_lt {rnd : ℚ → ℚ} (h : IsRnd rnd) {s : ℚ} (hs : IsDouble s) {D N : ℤ} (hD : 0 < D) (hN : 0 < N)
    (hlt : s < D * N) (hb : D * N ≤ 2 ^ 53) : rnd (s / D) < N := by
  have hDq : (0 : ℚ) < D := by exact_mod_cast hD
  have hNq : (0 : ℚ) < N := by exact_mod_cast hN
  have hD1 : (1 : ℚ) ≤ D := by exact_mod_cast hD
  have hN1 : (1 : ℚ) ≤ N := by exact_mod_cast hN
  have hbq : (D : ℚ) * N ≤ 2 ^ (53 : ℤ) := by
    have : (D : ℚ) * N ≤ 2 ^ 53 := by exact_mod_cast hb
    exact_mod_cast this
  obtain ⟨p, hp1, hp2⟩ : ∃ p : ℤ, (2 : ℚ) ^ p < N ∧ (N : ℚ) ≤ 2 ^ (p + 1) := by
    have a := Int.zpow_pred_clog_lt_self (b := 2) (by norm_num) hNq
    have b := Int.self_le_zpow_clog (b := 2) (by norm_num) (N : ℚ)
    push_cast at a b
    exact ⟨_, a, by rwa [sub_add_cancel]⟩
  obtain ⟨q, hq1, hq2⟩ : ∃ q : ℤ, (2 : ℚ) ^ q ≤ D ∧ (D : ℚ) < 2 ^ (q + 1) := by
    have a := Int.zpow_log_le_self (b := 2) (by norm_num) hDq
    have b := Int.lt_zpow_succ_log_self (b := 2) (by norm_num) (D : ℚ)
    push_cast at a b
    exact ⟨_, a, b⟩
  have hp0 : -1 ≤ p := by
    have : (2 : ℚ) ^ (0 : ℤ) ≤ 2 ^ (p + 1) := by simpa using hN1.trans hp2
    have := (zpow_le_zpow_iff_right₀ (by norm_num : (1 : ℚ) < 2)).mp this
    omega
  have hq0 : 0 ≤ q := by
    have : (2 : ℚ) ^ (0 : ℤ) < 2 ^ (q + 1) := by simpa using hD1.trans_lt hq2
    have := (zpow_lt_zpow_iff_right₀ (by norm_num : (1 : ℚ) < 2)).mp this
    omega
  have pp : (0 : ℚ) < 2 ^ p := by positivity
  have pq : (0 : ℚ) < 2 ^ q := by positivity
  have hpq : p + q ≤ 52 := by
    have : (2 : ℚ) ^ (p + q) < 2 ^ (53 : ℤ) := by
      rw [zpow_add₀ (by norm_num)]
      nlinarith
    have := (zpow_lt_zpow_iff_right₀ (by norm_num : (1 : ℚ) < 2)).mp this
    omega
  -- integers are multiples of small powers of two
  have mult : ∀ (n e : ℤ), e ≤ 0 → (n : ℚ) = (n * 2 ^ (-e).toNat : ℤ) * 2 ^ e := by
    intro n e he
    push_cast
    rw [mul_assoc, ← zpow_natCast, ← zpow_add₀ (by norm_num), show ((-e).toNat : ℤ) + e = 0 by omega]
    simp
  have hy : IsDouble (N - 2 ^ (p - 52)) := by
    refine ⟨N * 2 ^ (-(p - 52)).toNat - 1, p - 52, ?_, by omega, ?_⟩
    · have e1 := mult N (p - 52) (by omega)
      have p0 : (0 : ℚ) < 2 ^ (p - 52) := by positivity
      have b1 : ((N * 2 ^ (-(p - 52)).toNat : ℤ) : ℚ) ≤ 2 ^ 53 := by
        have : ((N * 2 ^ (-(p - 52)).toNat : ℤ) : ℚ) * 2 ^ (p - 52) ≤ 2 ^ 53 * 2 ^ (p - 52) := by
          rw [← e1]
          refine hp2.trans (le_of_eq ?_)
          have : (2 : ℚ) ^ 53 = 2 ^ (53 : ℤ) := by norm_cast
          rw [this, ← zpow_add₀ (by norm_num)]; congr 1; ring
        exact le_of_mul_le_mul_right this p0
      have b1 : N * 2 ^ (-(p - 52)).toNat ≤ 2 ^ 53 := by exact_mod_cast b1
      have b0 : 0 < N * 2 ^ (-(p - 52)).toNat := by positivity
      rw [abs_lt]; omega
    · have e1 := mult N (p - 52) (by omega)
      push_cast at e1 ⊢
      linarith
  have hylt : (N : ℚ) ≥ 2 ^ p + 2 ^ (p - 52) := by
    have e1 := mult N (p - 52) (by omega)
    have p0 : (0 : ℚ) < 2 ^ (p - 52) := by positivity
    have e2 : (2 : ℚ) ^ p = 2 ^ 52 * 2 ^ (p - 52) := by
      have : (2 : ℚ) ^ 52 = 2 ^ (52 : ℤ) := by norm_cast
      rw [this, ← zpow_add₀ (by norm_num)]; congr 1; ring
    rw [e2] at hp1 ⊢
    rw [e1] at hp1 ⊢
    have := lt_of_mul_lt_mul_right hp1 p0.le
    have : (2 : ℤ) ^ 52 < N * 2 ^ (-(p - 52)).toNat := by exact_mod_cast this
    have : (2 : ℤ) ^ 52 + 1 ≤ N * 2 ^ (-(p - 52)).toNat := this
    have : (2 : ℚ) ^ 52 + 1 ≤ (N * 2 ^ (-(p - 52)).toNat : ℤ) := by exact_mod_cast this
    nlinarith
  have e3 : (2 : ℚ) ^ (p + q) = 2 ^ p * 2 ^ q := zpow_add₀ (by norm_num) _ _
  have e4 : (2 : ℚ) ^ (p + q - 52) = 2 ^ (p - 52) * 2 ^ q := by rw [← zpow_add₀ (by norm_num)]; congr 1; ring
  have hsle : s ≤ D * N - 2 ^ (p + q - 52) := by
    rcases lt_or_ge s (2 ^ (p + q)) with hc | hc
    · have : (2 : ℚ) ^ q * (2 ^ p + 2 ^ (p - 52)) ≤ D * N := by gcongr
      rw [e3] at hc
      rw [e4]
      linarith
    · obtain ⟨m, e, hm, he, rfl⟩ := hs
      have hm' : (m : ℚ) < 2 ^ (53 : ℤ) := by
        have : (m : ℚ) < 2 ^ 53 := by exact_mod_cast (abs_lt.mp hm).2
        exact_mod_cast this
      have he' : p + q < 53 + e := by
        have : (2 : ℚ) ^ (p + q) < 2 ^ (53 + e) := by
          rw [zpow_add₀ (by norm_num) 53 e]
          have p0 : (0 : ℚ) < 2 ^ e := by positivity
          nlinarith
        exact (zpow_lt_zpow_iff_right₀ (by norm_num : (1 : ℚ) < 2)).mp this
      have p0 : (0 : ℚ) < 2 ^ (p + q - 52) := by positivity
      have e5 : (m : ℚ) * 2 ^ e = (m * 2 ^ (e - (p + q - 52)).toNat : ℤ) * 2 ^ (p + q - 52) := by
        push_cast
        rw [mul_assoc, ← zpow_natCast, ← zpow_add₀ (by norm_num)]
        congr 2; omega
      have e6 := mult (D * N) (p + q - 52) (by omega)
      push_cast at e6
      rw [e5] at hlt ⊢
      rw [e6] at hlt ⊢
      have h1 := lt_of_mul_lt_mul_right hlt p0.le
      have h2 : m * 2 ^ (e - (p + q - 52)).toNat < D * N * 2 ^ (-(p + q - 52)).toNat := by exact_mod_cast h1
      have h3 : m * 2 ^ (e - (p + q - 52)).toNat + 1 ≤ D * N * 2 ^ (-(p + q - 52)).toNat := h2
      have h4 : ((m * 2 ^ (e - (p + q - 52)).toNat : ℤ) : ℚ) + 1 ≤ (D : ℚ) * N * 2 ^ (-(p + q - 52)).toNat := by
        exact_mod_cast h3
      nlinarith
  have hhalf : s / D < N - 2 ^ (p - 52) / 2 := by
    rw [div_lt_iff₀ hDq]
    have p0 : (0 : ℚ) < 2 ^ (p - 52) := by positivity
    have e7 : (2 : ℚ) ^ (q + 1) = 2 * 2 ^ q := by rw [zpow_add₀ (by norm_num)]; norm_num; ring
    have : 2 ^ (p - 52) / 2 * (D : ℚ) < 2 ^ (p + q - 52) := by
      rw [e4]
      rw [e7] at hq2
      nlinarith
    linarith
  have hyN : (N : ℚ) - 2 ^ (p - 52) < N := by
    have : (0 : ℚ) < 2 ^ (p - 52) := by positivity
    linarith
  rcases le_or_gt (s / D) (N - 2 ^ (p - 52)) with hc | hc
  · exact (h.le_of_le hy hc).trans_lt hyN
  · have hn := h.near (s / D) _ hy
    rw [abs_of_neg (a := (N : ℚ) - 2 ^ (p - 52) - s / D) (by linarith)] at hn
    have := (abs_le.mp hn).2
    linarith

/-- Cutting off the fraction of a quotient of a nonnegative double by an integer gives the same in double and in exact
arithmetic. -/
theorem IsRnd.floor_div {rnd : ℚ → ℚ} (h : IsRnd rnd) {s : ℚ} (hs : IsDouble s) (hs0 : 0 ≤ s) {D : ℤ} (hD : 0 < D)
    (hb : s + D < 2 ^ 53) : ⌊rnd (s / D)⌋ = ⌊s / D⌋ := by
  have hDq : (0 : ℚ) < D := by exact_mod_cast hD
  have hD1 : (1 : ℚ) ≤ D := by exact_mod_cast hD
  set n := ⌊s / D⌋ with hn
  have n0 : 0 ≤ n := Int.floor_nonneg.mpr (by positivity)
  have l1 : (n : ℚ) ≤ s / D := Int.floor_le _
  have l2 : s / D < n + 1 := Int.lt_floor_add_one _
  have l1' : D * n ≤ s := by rw [le_div_iff₀ hDq] at l1; linarith
  have l2' : s < D * (n + 1) := by rw [div_lt_iff₀ hDq] at l2; linarith
  have nb : (n : ℚ) ≤ D * n := by
    have : (0 : ℚ) ≤ n := by exact_mod_cast n0
    nlinarith
  have nb' : n < 2 ^ 53 := by
    have : (n : ℚ) < 2 ^ 53 := by linarith
    exact_mod_cast this
  rw [Int.floor_eq_iff]
  constructor
  · exact h.ge_of_ge (isDouble_int n (by rw [abs_of_nonneg n0]; exact nb')) l1
  · have := h.div_lt hs hD (N := n + 1) (by omega) (by push_cast; exact l2') (by
      have : (D : ℚ) * (n + 1) ≤ 2 ^ 53 := by linarith
      exact_mod_cast this)
    push_cast at this
    exact this

/-- a rounding exists: to the nearest multiple of the last binary place of the significand -/
def ulpExp (x : ℚ) : ℤ := max (Int.log 2 |x| - 52) (-1074)

/-- round half away from zero for positive numbers -/
def rndNearest (x : ℚ) : ℚ := round (x / 2 ^ ulpExp x) * 2 ^ ulpExp x

theorem dist_grid {x z : ℚ} {e : ℤ} (n : ℤ) (hz : z = n * 2 ^ e) :
    |round (x / 2 ^ e) * (2 : ℚ) ^ e - x| ≤ |z - x| := by
  have p0 : (0 : ℚ) < 2 ^ e := by positivity
  have h1 := round_le (x / 2 ^ e) n
  have e1 : (round (x / 2 ^ e) : ℚ) * 2 ^ e - x = -(x / 2 ^ e - round (x / 2 ^ e)) * 2 ^ e := by field_simp; ring
  have e2 : z - x = -(x / 2 ^ e - n) * 2 ^ e := by rw [hz]; field_simp; ring
  rw [e1, e2, abs_mul, abs_mul, abs_neg, abs_neg, abs_of_pos p0]
  gcongr

theorem isRnd_rndNearest : IsRnd rndNearest := by
  have key : ∀ x : ℚ, |x| ≤ 2 ^ 53 * 2 ^ ulpExp x := by
    intro x
    have l2 := Int.lt_zpow_succ_log_self (b := 2) (by norm_num) |x|
    push_cast at l2
    refine l2.le.trans ?_
    have : (2 : ℚ) ^ 53 = 2 ^ (53 : ℤ) := by norm_cast
    rw [this, ← zpow_add₀ (by norm_num)]
    apply zpow_le_zpow_right₀ (by norm_num)
    unfold ulpExp; omega
  constructor
  · intro x
    have p0 : (0 : ℚ) < 2 ^ ulpExp x := by positivity
    have hx' : |x / 2 ^ ulpExp x| ≤ 2 ^ 53 := by rw [abs_div, abs_of_pos p0]; rw [div_le_iff₀ p0]; exact key x
    have hb : |round (x / 2 ^ ulpExp x)| ≤ 2 ^ 53 := by
      exact abs_round_le hx'
    have he : -1074 ≤ ulpExp x := by unfold ulpExp; omega
    unfold rndNearest
    rcases hb.lt_or_eq with hlt | heq
    · exact ⟨_, _, hlt, he, rfl⟩
    · rcases (abs_eq (by norm_num)).mp heq with h1 | h1
      · refine ⟨1, 53 + ulpExp x, by norm_num, by omega, ?_⟩
        rw [h1, zpow_add₀ (by norm_num)]; norm_num
      · refine ⟨-1, 53 + ulpExp x, by norm_num, by omega, ?_⟩
        rw [h1, zpow_add₀ (by norm_num)]; norm_num
  · rintro x z ⟨m, f, hm, hf, hz⟩
    unfold rndNearest
    rcases le_or_gt (ulpExp x) f with hle | hlt
    · apply dist_grid (m * 2 ^ (f - ulpExp x).toNat)
      rw [hz]
      push_cast
      rw [mul_assoc, ← zpow_natCast, ← zpow_add₀ (by norm_num)]
      congr 2; omega
    · -- `z` is smaller than the leading power of two of `x`
      have hu : ulpExp x = Int.log 2 |x| - 52 := by unfold ulpExp at hlt ⊢; omega
      rcases eq_or_ne x 0 with rfl | hx0
      · simp
      have hx0 : 0 < |x| := abs_pos.mpr hx0
      have l1 := Int.zpow_log_le_self (b := 2) (by norm_num) hx0
      push_cast at l1
      have e1 : (2 : ℚ) ^ (Int.log 2 |x|) = 2 ^ 52 * 2 ^ ulpExp x := by
        have : (2 : ℚ) ^ 52 = 2 ^ (52 : ℤ) := by norm_cast
        rw [this, ← zpow_add₀ (by norm_num), hu]; congr 1; ring
      have hz' : |z| < 2 ^ 52 * 2 ^ ulpExp x := by
        rw [hz, abs_mul, abs_of_pos (a := (2 : ℚ) ^ f) (by positivity)]
        have hm' : |(m : ℚ)| < 2 ^ 53 := by exact_mod_cast hm
        have : (2 : ℚ) ^ 53 * 2 ^ f ≤ 2 ^ 52 * 2 ^ ulpExp x := by
          have a : (2 : ℚ) ^ 53 = 2 ^ (53 : ℤ) := by norm_cast
          have b : (2 : ℚ) ^ 52 = 2 ^ (52 : ℤ) := by norm_cast
          rw [a, b, ← zpow_add₀ (by norm_num), ← zpow_add₀ (by norm_num)]
          apply zpow_le_zpow_right₀ (by norm_num)
          omega
        have p : (0 : ℚ) < 2 ^ f := by positivity
        nlinarith
      rcases le_or_gt 0 x with hpos | hneg
      · have d := dist_grid (x := x) (e := ulpExp x) (2 ^ 52) rfl
        refine d.trans ?_
        push_cast
        have := (abs_lt.mp hz').2
        have hl : |x| = x := abs_of_nonneg hpos
        have h5 : x ≥ 2 ^ 52 * 2 ^ ulpExp x := by rw [← e1]; exact l1.trans hl.le
        rw [abs_of_nonpos (by linarith), abs_of_nonpos (by linarith)]
        linarith
      · have d := dist_grid (x := x) (e := ulpExp x) (-2 ^ 52) rfl
        refine d.trans ?_
        push_cast
        have := (abs_lt.mp hz').1
        have hl : |x| = -x := abs_of_neg hneg
        have h5 : -x ≥ 2 ^ 52 * 2 ^ ulpExp x := by rw [← e1]; exact l1.trans hl.le
        rw [abs_of_nonneg (by linarith), abs_of_nonneg (by linarith)]
        linarith

end Verif.Common
