import Verif.Common.DoubleErr
import Mathlib.Analysis.Real.Sqrt
import Mathlib.Data.Rat.Floor

/-!
# Rounding of real numbers to doubles
-/

namespace Verif.Common

/-- `R` rounds real numbers to a nearest double -/
structure IsRndR (R : ℝ → ℚ) : Prop where
  mem : ∀ x, IsDouble (R x)
  near : ∀ (x : ℝ) (y : ℚ), IsDouble y → |(R x : ℝ) - x| ≤ |(y : ℝ) - x|

namespace IsRndR

variable {R : ℝ → ℚ} (h : IsRndR R)

include h

/-- rounding of rationals -/
theorem rat : IsRnd fun q => R q where
  mem q := h.mem q
  near x y hy := by
    have := h.near x y hy
    exact_mod_cast this

theorem err_abs {x : ℝ} {e : ℤ} (he : -1074 ≤ e) (hx : |x| ≤ 2 ^ 53 * 2 ^ e) : |(R x : ℝ) - x| ≤ 2 ^ e / 2 := by
  have p0 : (0 : ℝ) < 2 ^ e := by positivity
  have hr : |round (x / 2 ^ e) * (2 : ℝ) ^ e - x| ≤ 2 ^ e / 2 := by
    have := abs_sub_round (x / 2 ^ e)
    have e1 : (round (x / 2 ^ e) : ℝ) * 2 ^ e - x = -(x / 2 ^ e - round (x / 2 ^ e)) * 2 ^ e := by field_simp; ring
    rw [e1, abs_mul, abs_neg, abs_of_pos p0]
    nlinarith
  have hb : |round (x / 2 ^ e)| ≤ 2 ^ 53 := by
    have hx' : |x / 2 ^ e| ≤ 2 ^ 53 := by rw [abs_div, abs_of_pos p0]; rwa [div_le_iff₀ p0]
    have := abs_le.mp hx'
    rw [round_eq, abs_le]
    constructor
    · rw [Int.le_floor]; push_cast; linarith
    · have : ⌊x / 2 ^ e + 1 / 2⌋ < 2 ^ 53 + 1 := by rw [Int.floor_lt]; push_cast; linarith
      omega
  have hd : IsDouble ((round (x / 2 ^ e) : ℚ) * (2 : ℚ) ^ e) := by
    rcases hb.lt_or_eq with hlt | heq
    · exact ⟨_, e, hlt, he, rfl⟩
    · rcases (abs_eq (by norm_num)).mp heq with h1 | h1
      · refine ⟨1, 53 + e, by norm_num, by omega, ?_⟩
        rw [h1, zpow_add₀ (by norm_num)]; norm_num
      · refine ⟨-1, 53 + e, by norm_num, by omega, ?_⟩
        rw [h1, zpow_add₀ (by norm_num)]; norm_num
  have := h.near x _ hd
  push_cast at this
  exact this.trans hr

theorem err_rel {x : ℝ} (hx : 2 ^ (-1022 : ℤ) ≤ |x|) : |(R x : ℝ) - x| ≤ |x| / 2 ^ 53 := by
  have p1 : (0 : ℝ) < 2 ^ (-1022 : ℤ) := by positivity
  have hx0 : 0 < |x| := p1.trans_le hx
  have l1 := Int.zpow_log_le_self (b := 2) (by norm_num) hx0
  have l2 := Int.lt_zpow_succ_log_self (b := 2) (by norm_num) |x|
  push_cast at l1 l2
  have hlog : -1022 ≤ Int.log 2 |x| := by
    have h1 := Int.log_mono_right (b := 2) p1 hx
    have h2 : Int.log 2 ((2 : ℝ) ^ (-1022 : ℤ)) = -1022 := by
      simpa using Int.log_zpow (R := ℝ) (b := 2) (by norm_num) (-1022)
    omega
  have e1 : (2 : ℝ) ^ 53 * 2 ^ (Int.log 2 |x| - 52) = 2 ^ (Int.log 2 |x| + 1) := by
    have : (2 : ℝ) ^ 53 = 2 ^ (53 : ℤ) := by norm_cast
    rw [this, ← zpow_add₀ (by norm_num)]; congr 1; ring
  have e2 : (2 : ℝ) ^ (Int.log 2 |x| - 52) / 2 = 2 ^ (Int.log 2 |x|) / 2 ^ 53 := by
    rw [zpow_sub₀ (by norm_num)]
    norm_num
    ring
  have := h.err_abs (x := x) (e := Int.log 2 |x| - 52) (by omega) (by rw [e1]; exact l2.le)
  rw [e2] at this
  refine this.trans ?_
  gcongr

end IsRndR

/-- the exponent of the last place -/
noncomputable def ulpExpR (x : ℝ) : ℤ := max (Int.log 2 |x| - 52) (-1074)

/-- the rounding `rndNearest` for reals -/
noncomputable def rndReal (x : ℝ) : ℚ := round (x / 2 ^ ulpExpR x) * 2 ^ ulpExpR x

theorem log_cast (q : ℚ) : Int.log 2 (q : ℝ) = Int.log 2 q := by
  rcases le_or_gt q 0 with hq | hq
  · rw [Int.log_of_right_le_zero _ (by exact_mod_cast hq), Int.log_of_right_le_zero _ hq]
  · have a1 := Int.zpow_log_le_self (b := 2) (by norm_num) hq
    have a2 := Int.lt_zpow_succ_log_self (b := 2) (by norm_num) q
    have hq' : (0 : ℝ) < q := by exact_mod_cast hq
    have b1 : ((2 : ℕ) : ℝ) ^ Int.log 2 q ≤ q := by
      have : (((2 : ℕ) : ℚ) ^ Int.log 2 q : ℚ) ≤ q := a1
      have := (Rat.cast_le (K := ℝ)).2 this
      push_cast at this ⊢; exact this
    have b2 : (q : ℝ) < ((2 : ℕ) : ℝ) ^ (Int.log 2 q + 1) := by
      have := (Rat.cast_lt (K := ℝ)).2 a2
      push_cast at this ⊢; exact this
    have c1 := (Int.zpow_le_iff_le_log (b := 2) (by norm_num) hq').1 b1
    have c2 := (Int.lt_zpow_iff_log_lt (b := 2) (by norm_num) hq').1 b2
    omega

theorem rndReal_rat (q : ℚ) : rndReal q = rndNearest q := by
  have he : ulpExpR q = ulpExp q := by
    unfold ulpExpR ulpExp
    rw [← log_cast |q|]
    push_cast
    rfl
  unfold rndReal rndNearest
  rw [he]
  congr 2
  have : (q : ℝ) / 2 ^ ulpExp q = ((q / 2 ^ ulpExp q : ℚ) : ℝ) := by push_cast; rfl
  rw [this, Rat.round_cast]

theorem isRndR_rndReal : IsRndR rndReal := by
  have key : ∀ x : ℝ, |x| ≤ 2 ^ 53 * 2 ^ ulpExpR x := by
    intro x
    have l2 := Int.lt_zpow_succ_log_self (b := 2) (by norm_num) |x|
    push_cast at l2
    refine l2.le.trans ?_
    have : (2 : ℝ) ^ 53 = 2 ^ (53 : ℤ) := by norm_cast
    rw [this, ← zpow_add₀ (by norm_num)]
    apply zpow_le_zpow_right₀ (by norm_num)
    unfold ulpExpR; omega
  have grid : ∀ (x : ℝ) (z : ℝ) (e : ℤ) (n : ℤ), z = n * 2 ^ e → |round (x / 2 ^ e) * (2 : ℝ) ^ e - x| ≤ |z - x| := by
    intro x z e n hz
    have p0 : (0 : ℝ) < 2 ^ e := by positivity
    have h1 := round_le (x / 2 ^ e) n
    have e1 : (round (x / 2 ^ e) : ℝ) * 2 ^ e - x = -(x / 2 ^ e - round (x / 2 ^ e)) * 2 ^ e := by field_simp; ring
    have e2 : z - x = -(x / 2 ^ e - n) * 2 ^ e := by rw [hz]; field_simp; ring
    rw [e1, e2, abs_mul, abs_mul, abs_neg, abs_neg, abs_of_pos p0]
    gcongr
  constructor
  · intro x
    have p0 : (0 : ℝ) < 2 ^ ulpExpR x := by positivity
    have hx' : |x / 2 ^ ulpExpR x| ≤ 2 ^ 53 := by rw [abs_div, abs_of_pos p0]; rw [div_le_iff₀ p0]; exact key x
    have hb : |round (x / 2 ^ ulpExpR x)| ≤ 2 ^ 53 := by
      have := abs_le.mp hx'
      rw [round_eq, abs_le]
      constructor
      · rw [Int.le_floor]; push_cast; linarith
      · have : ⌊x / 2 ^ ulpExpR x + 1 / 2⌋ < 2 ^ 53 + 1 := by rw [Int.floor_lt]; push_cast; linarith
        omega
    have he : -1074 ≤ ulpExpR x := by unfold ulpExpR; omega
    unfold rndReal
    rcases hb.lt_or_eq with hlt | heq
    · exact ⟨_, _, hlt, he, rfl⟩
    · rcases (abs_eq (by norm_num)).mp heq with h1 | h1
      · refine ⟨1, 53 + ulpExpR x, by norm_num, by omega, ?_⟩
        rw [h1, zpow_add₀ (by norm_num)]; norm_num
      · refine ⟨-1, 53 + ulpExpR x, by norm_num, by omega, ?_⟩
        rw [h1, zpow_add₀ (by norm_num)]; norm_num
  · rintro x z ⟨m, f, hm, hf, hz⟩
    have er : ((rndReal x : ℚ) : ℝ) = round (x / 2 ^ ulpExpR x) * (2 : ℝ) ^ ulpExpR x := by
      unfold rndReal; push_cast; rfl
    rw [er]
    have hzr : (z : ℝ) = m * 2 ^ f := by rw [hz]; push_cast; rfl
    rcases le_or_gt (ulpExpR x) f with hle | hlt
    · apply grid x z _ (m * 2 ^ (f - ulpExpR x).toNat)
      rw [hzr]
      push_cast
      rw [mul_assoc, ← zpow_natCast, ← zpow_add₀ (by norm_num)]
      congr 2; omega
    · have hu : ulpExpR x = Int.log 2 |x| - 52 := by unfold ulpExpR at hlt ⊢; omega
      rcases eq_or_ne x 0 with rfl | hx0
      · simp
      have hx0 : 0 < |x| := abs_pos.mpr hx0
      have l1 := Int.zpow_log_le_self (b := 2) (by norm_num) hx0
      push_cast at l1
      have e1 : (2 : ℝ) ^ (Int.log 2 |x|) = 2 ^ 52 * 2 ^ ulpExpR x := by
        have : (2 : ℝ) ^ 52 = 2 ^ (52 : ℤ) := by norm_cast
        rw [this, ← zpow_add₀ (by norm_num), hu]; congr 1; ring
      have p : (0 : ℝ) < 2 ^ f := by positivity
      have hz' : |(z : ℝ)| < 2 ^ 52 * 2 ^ ulpExpR x := by
        rw [hzr, abs_mul, abs_of_pos p]
        have hm' : |(m : ℝ)| < 2 ^ 53 := by exact_mod_cast hm
        have : (2 : ℝ) ^ 53 * 2 ^ f ≤ 2 ^ 52 * 2 ^ ulpExpR x := by
          have a : (2 : ℝ) ^ 53 = 2 ^ (53 : ℤ) := by norm_cast
          have b : (2 : ℝ) ^ 52 = 2 ^ (52 : ℤ) := by norm_cast
          rw [a, b, ← zpow_add₀ (by norm_num), ← zpow_add₀ (by norm_num)]
          apply zpow_le_zpow_right₀ (by norm_num)
          omega
        exact lt_of_lt_of_le (mul_lt_mul_of_pos_right hm' p) this
      rw [e1] at l1
      -- the leading power of two of `x`, with its sign, is nearer than `z`
      rcases le_or_gt 0 x with hs | hs
      · rw [abs_of_nonneg hs] at l1
        refine (grid x (2 ^ 52 * 2 ^ ulpExpR x) _ (2 ^ 52) (by norm_num)).trans ?_
        rw [abs_of_nonpos (by linarith)]
        have := (abs_lt.1 hz').2
        rw [abs_of_neg (by linarith)]
        linarith
      · rw [abs_of_neg hs] at l1
        refine (grid x (-(2 ^ 52 * 2 ^ ulpExpR x)) _ (-2 ^ 52) (by norm_num)).trans ?_
        rw [abs_of_nonneg (by linarith)]
        have := (abs_lt.1 hz').1
        rw [abs_of_pos (by linarith)]
        linarith

end Verif.Common
