import Verif.Kinematics.AngleDouble
import Verif.Common.DoubleErr
import Verif.Common.DoubleEven
import Verif.Common.FormatLemmas
import Verif.Common.RoundProps
import Mathlib.Analysis.Real.Pi.Bounds

/-!
# C181: angle utilities in doubles
-/

namespace Verif.AngleDouble

open Verif.Common

/-- the double nearest to 2π -/
def twoPi : ℚ := 884279719003555 / 2 ^ 47

variable {rnd : ℚ → ℚ} (hr : IsRnd rnd)

theorem double_twoPi : IsDouble twoPi := ⟨884279719003555, -47, by norm_num, by norm_num, by rw [zpow_neg, twoPi, div_eq_mul_inv]; rfl⟩

theorem twoPi_bounds : (6283185307179586 / 10 ^ 15 : ℚ) < twoPi ∧ twoPi < 62831853071795863 / 10 ^ 16 := by
  unfold twoPi
  constructor <;> norm_num

theorem pi_diff : |(twoPi : ℝ) - 2 * Real.pi| ≤ 225 / 100 / 2 ^ 53 ∧ (twoPi : ℝ) / 2 < Real.pi := by
  have h1 := Real.pi_gt_d20
  have h2 := Real.pi_lt_d20
  norm_num at h1 h2
  unfold twoPi
  push_cast
  constructor
  · rw [abs_le]
    constructor <;> norm_num <;> linarith
  · norm_num
    linarith

include hr

theorem SM_2PI_eq : SM_2PI rnd = twoPi := by
  refine Format.rnd_close hr (by unfold twoPi; positivity) double_twoPi ?_
  have : (6283185307179586 / 10 ^ 15 : ℚ) - twoPi < 0 := by unfold twoPi; norm_num
  rw [abs_of_neg this]
  unfold twoPi
  norm_num

omit hr in
theorem boostRound_near (x : ℚ) : |(boostRound x : ℚ) - x| ≤ 1 / 2 := by
  unfold boostRound
  rw [abs_le]
  split
  · have h1 := Int.floor_le (x + 1 / 2)
    have h2 := Int.lt_floor_add_one (x + 1 / 2)
    constructor <;> linarith
  · have h1 := Int.le_ceil (x - 1 / 2)
    have h2 := Int.ceil_lt_add_one (x - 1 / 2)
    constructor <;> linarith

theorem fin_ok {q : ℚ} (hq : |q| ≤ 2 ^ (1010 : ℤ)) : rounded rnd (.fin q) = .fin (rnd q) := by
  refine (rounded_fin hr (hq.trans ?_)).1
  unfold limit
  rw [show (1010 : ℤ) = ((1010 : ℕ) : ℤ) from rfl, zpow_natCast, ← pow_succ']
  exact pow_le_pow_right₀ (by norm_num) (by norm_num)

omit hr in
theorem tiny_small : tiny ≤ 1 / 2 ^ 80 := by
  unfold tiny
  calc (2 : ℚ) ^ (-1074 : ℤ) / 2 ≤ 2 ^ (-1074 : ℤ) := half_le_self (by positivity)
    _ ≤ 2 ^ (-80 : ℤ) := zpow_le_zpow_right₀ (by norm_num) (by norm_num)
    _ = _ := by rw [zpow_neg, one_div]; exact congrArg _ (zpow_natCast 2 80)

/-- what `angleMod` computes of a finite angle -/
theorem angleMod_eq {x : ℚ} (hx : |x| ≤ 2 ^ (1000 : ℤ)) :
    angleMod rnd (.fin x) = some (.fin (rnd (x - rnd (twoPi * boostRound (rnd (x / twoPi)))))) ∧ |x / twoPi| ≤ |x| / 6 := by
  have t6 : (6 : ℚ) ≤ twoPi := by have := twoPi_bounds.1; norm_num at this; linarith
  have t7 : twoPi ≤ 7 := by have := twoPi_bounds.2; norm_num at this; linarith
  have t0 : 0 < twoPi := by linarith
  have q6 : |x / twoPi| ≤ |x| / 6 := by
    rw [abs_div, abs_of_pos t0]
    exact div_le_div_of_nonneg_left (abs_nonneg x) (by norm_num) t6
  refine ⟨?_, q6⟩
  obtain ⟨P, hP⟩ : ∃ P : ℚ, P = 2 ^ (1000 : ℤ) := ⟨_, rfl⟩
  have P1 : 1 ≤ P := hP ▸ one_le_zpow₀ (by norm_num) (by norm_num)
  have e10 : (2 : ℚ) ^ (1010 : ℤ) = 2 ^ 10 * P := by
    rw [hP, show (1010 : ℤ) = (10 : ℕ) + 1000 by norm_num, zpow_add₀ (by norm_num), zpow_natCast]
  rw [← hP] at hx
  have lim : ∀ z : ℚ, |z| ≤ 1024 * P → |z| ≤ 2 ^ (1010 : ℤ) := fun z hz => by rw [e10]; norm_num; exact hz
  clear e10 hP
  have d : fdiv rnd (.fin x) (.fin (SM_2PI rnd)) = .fin (rnd (x / twoPi)) := by
    rw [SM_2PI_eq hr]
    have : fdiv rnd (.fin x) (.fin twoPi) = rounded rnd (.fin (x / twoPi)) := by
      simp only [fdiv, Fp.div, t0.ne', if_false]
    rw [this, fin_ok hr (lim _ (by linarith))]
  have err := fun z => hr.err_any z
  have ty := tiny_small
  have near0 : ∀ z : ℚ, |rnd z| ≤ 2 * |z| + 1 := by
    intro z
    have h1 := abs_add_le (rnd z - z) z
    rw [sub_add_cancel] at h1
    have h2 := err z
    have h3 : |z| / 2 ^ 53 ≤ |z| := div_le_self (abs_nonneg z) (by norm_num)
    have : (1 : ℚ) / 2 ^ 80 ≤ 1 := by norm_num
    linarith
  have v := near0 (x / twoPi)
  have n := boostRound_near (rnd (x / twoPi))
  have n2 : |(boostRound (rnd (x / twoPi)) : ℚ)| ≤ 2 * P := by
    have := abs_add_le ((boostRound (rnd (x / twoPi)) : ℚ) - rnd (x / twoPi)) (rnd (x / twoPi))
    rw [sub_add_cancel] at this
    linarith
  have m : |twoPi * boostRound (rnd (x / twoPi))| ≤ 14 * P := by
    rw [abs_mul, abs_of_pos t0]
    calc twoPi * |(boostRound (rnd (x / twoPi)) : ℚ)| ≤ 7 * (2 * P) := mul_le_mul t7 n2 (abs_nonneg _) (by norm_num)
      _ = _ := by ring
  have m2 := near0 (twoPi * boostRound (rnd (x / twoPi)))
  unfold angleMod
  rw [d]
  simp only
  rw [SM_2PI_eq hr]
  have e1 : fmul rnd (.fin twoPi) (.fin (boostRound (rnd (x / twoPi)))) = .fin (rnd (twoPi * boostRound (rnd (x / twoPi)))) := by
    show rounded rnd (.fin _) = _
    exact fin_ok hr (lim _ (m.trans (by linarith)))
  rw [e1]
  show some (rounded rnd (.fin (x + -_))) = _
  rw [← sub_eq_add_neg, fin_ok hr (lim _ ((abs_sub _ _).trans (by linarith)))]

/-- **C181** `angleMod` of every finite angle up to 2^1000 is a finite double: it is between -π and π, and differs from the angle by a whole number of turns, up to 5/2^53 of the angle. -/
theorem C181_angleMod {x : ℚ} (dx : IsDouble x) (hx : |x| ≤ 2 ^ (1000 : ℤ)) :
    ∃ r : ℚ, angleMod rnd (.fin x) = some (.fin r) ∧ IsDouble r ∧ |(r : ℝ)| ≤ Real.pi + 5 / 2 ^ 53 * |(x : ℝ)| ∧ ∃ n : ℤ, |(r : ℝ) - (x - n * (2 * Real.pi))| ≤ 5 / 2 ^ 53 * |(x : ℝ)| := by
  obtain ⟨e, q6⟩ := angleMod_eq hr hx
  obtain ⟨pd, pl⟩ := pi_diff
  have t6 : (6283185307179586 / 10 ^ 15 : ℚ) < twoPi := twoPi_bounds.1
  have t7 : twoPi < 62831853071795863 / 10 ^ 16 := twoPi_bounds.2
  norm_num at t6 t7
  have t0 : 0 < twoPi := by linarith
  have ty := tiny_small
  obtain ⟨v, hv⟩ : ∃ v, v = rnd (x / twoPi) := ⟨_, rfl⟩
  obtain ⟨n, hn⟩ : ∃ n, n = boostRound v := ⟨_, rfl⟩
  obtain ⟨p, hp⟩ : ∃ p, p = rnd (twoPi * n) := ⟨_, rfl⟩
  rw [← hv, ← hn, ← hp] at e
  have ev : |v - x / twoPi| ≤ |x / twoPi| / 2 ^ 53 + tiny := hv ▸ hr.err_any _
  have en : |(n : ℚ) - v| ≤ 1 / 2 := hn ▸ boostRound_near v
  -- in units of the angle
  have xm : twoPi * |x / twoPi| = |x| := by rw [abs_div, abs_of_pos t0]; field_simp
  have ev2 : |twoPi * v - x| ≤ |x| / 2 ^ 53 + twoPi * tiny := by
    rw [show twoPi * v - x = twoPi * (v - x / twoPi) by field_simp, abs_mul, abs_of_pos t0]
    calc twoPi * |v - x / twoPi| ≤ twoPi * (|x / twoPi| / 2 ^ 53 + tiny) := mul_le_mul_of_nonneg_left ev t0.le
      _ = (twoPi * |x / twoPi|) / 2 ^ 53 + twoPi * tiny := by ring
      _ = _ := by rw [xm]
  have en2 : |twoPi * n - twoPi * v| ≤ twoPi / 2 := by
    rw [← mul_sub, abs_mul, abs_of_pos t0]
    have := mul_le_mul_of_nonneg_left en t0.le
    linarith
  have tt : twoPi * tiny ≤ 1 / 2 ^ 75 := by
    calc twoPi * tiny ≤ 7 * (1 / 2 ^ 80) := mul_le_mul (by linarith) ty tiny_pos.le (by norm_num)
      _ ≤ _ := by norm_num
  have x53 : |x| / 2 ^ 53 = 1 / 2 ^ 53 * |x| := by ring
  rw [x53] at ev2
  rcases eq_or_ne n 0 with h0 | h0
  · -- the angle stays as it is
    have r0 : rnd 0 = 0 := hr.fix ⟨0, 0, by norm_num, by norm_num, by norm_num⟩
    have p0 : p = 0 := by rw [hp, h0, Int.cast_zero, mul_zero, r0]
    rw [p0, sub_zero, hr.fix dx] at e
    refine ⟨x, e, dx, ?_, 0, ?_⟩
    · rw [h0, Int.cast_zero, mul_zero, zero_sub, abs_neg] at en2
      have h1 : |x| ≤ twoPi / 2 + (1 / 2 ^ 53 * |x| + twoPi * tiny) := by
        have := abs_sub (twoPi * v) (twoPi * v - x)
        rw [sub_sub_cancel] at this
        linarith
      have h2 : |x| ≤ twoPi / 2 + 5 / 2 ^ 53 * |x| ∨ |x| ≤ 1 := by
        rcases le_total |x| 1 with h | h
        · exact Or.inr h
        · left
          have : (1 : ℚ) / 2 ^ 75 ≤ 1 / 2 ^ 75 * |x| := le_mul_of_one_le_right (by positivity) h
          have c : (1 : ℚ) / 2 ^ 53 * |x| + 1 / 2 ^ 75 * |x| ≤ 5 / 2 ^ 53 * |x| := by
            rw [← add_mul]
            exact mul_le_mul_of_nonneg_right (by norm_num) (abs_nonneg x)
          linarith
      rcases h2 with h2 | h2
      · have : ((|x| : ℚ) : ℝ) ≤ ((twoPi / 2 + 5 / 2 ^ 53 * |x| : ℚ) : ℝ) := by exact_mod_cast h2
        push_cast at this
        linarith
      · have : ((|x| : ℚ) : ℝ) ≤ ((1 : ℚ) : ℝ) := by exact_mod_cast h2
        push_cast at this
        have h3 := Real.pi_gt_three
        have h4 : 0 ≤ 5 / 2 ^ 53 * |(x : ℝ)| := by positivity
        linarith
    · rw [Int.cast_zero, zero_mul, sub_zero, sub_self, abs_zero]
      positivity
  · have n1 : (1 : ℚ) ≤ |(n : ℚ)| := by exact_mod_cast Int.one_le_abs h0
    have tn1 : twoPi ≤ |twoPi * n| := by
      rw [abs_mul, abs_of_pos t0]
      exact le_mul_of_one_le_right t0.le n1
    have tn2 : |twoPi * n| ≤ |x| + (1 / 2 ^ 53 * |x| + twoPi * tiny) + twoPi / 2 := by
      have a1 := abs_add_le (twoPi * n - twoPi * v) (twoPi * v - x)
      have a2 := abs_add_le (twoPi * n - twoPi * v + (twoPi * v - x)) x
      rw [show twoPi * n - twoPi * v + (twoPi * v - x) + x = twoPi * n by ring] at a2
      linarith
    have x3 : 314 / 100 ≤ |x| := by
      have c : (1 : ℚ) / 2 ^ 75 ≤ 1 / 100000 := by norm_num
      have c2 : (1 : ℚ) / 2 ^ 53 * |x| ≤ 1 / 100000 * |x| := mul_le_mul_of_nonneg_right (by norm_num) (abs_nonneg x)
      linarith
    have tx : twoPi / 2 ≤ 1001 / 1000 * |x| := by linarith
    have tt2 : twoPi * tiny ≤ 1 / 2 ^ 75 * |x| := tt.trans (le_mul_of_one_le_right (by positivity) (by linarith))
    have tn3 : |twoPi * n| ≤ 2002 / 1000 * |x| := by
      have c1 : (1 : ℚ) / 2 ^ 75 * |x| ≤ 1 / 100000 * |x| := mul_le_mul_of_nonneg_right (by norm_num) (abs_nonneg x)
      have c2 : (1 : ℚ) / 2 ^ 53 * |x| ≤ 1 / 100000 * |x| := mul_le_mul_of_nonneg_right (by norm_num) (abs_nonneg x)
      linarith
    have ep : |p - twoPi * n| ≤ 2002 / 1000 * |x| / 2 ^ 53 := by
      rw [hp]
      refine (hr.err_rel ?_).trans (div_le_div_of_nonneg_right tn3 (by positivity))
      calc (2 : ℚ) ^ (-1022 : ℤ) ≤ 1 := zpow_le_one_of_nonpos₀ (by norm_num) (by norm_num)
        _ ≤ _ := by linarith
    have dp : IsDouble p := hp ▸ hr.mem _
    have er := hr.err_sub dx dp
    have xp : |x - p| ≤ twoPi / 2 + 31 / 10 / 2 ^ 53 * |x| := by
      have a1 := abs_sub (x - twoPi * v) (p - twoPi * n + (twoPi * n - twoPi * v))
      rw [show x - twoPi * v - (p - twoPi * n + (twoPi * n - twoPi * v)) = x - p by ring] at a1
      have a2 := abs_add_le (p - twoPi * n) (twoPi * n - twoPi * v)
      have c := abs_sub_comm x (twoPi * v)
      rw [c] at a1
      norm_num at ev2 tt2 ep ⊢
      linarith
    have xp2 : |x - p| / 2 ^ 53 ≤ 11 / 10 / 2 ^ 53 * |x| := by
      rw [div_eq_mul_one_div, show (11 / 10 / 2 ^ 53 : ℚ) * |x| = 11 / 10 * |x| * (1 / 2 ^ 53) by ring]
      refine mul_le_mul_of_nonneg_right ?_ (by positivity)
      norm_num at xp ⊢
      linarith
    refine ⟨rnd (x - p), e, hr.mem _, ?_, n, ?_⟩
    · have k : |rnd (x - p)| ≤ twoPi / 2 + 5 / 2 ^ 53 * |x| := by
        have a1 := abs_add_le (rnd (x - p) - (x - p)) (x - p)
        rw [sub_add_cancel] at a1
        norm_num at xp xp2 er ⊢
        linarith
      have : ((|rnd (x - p)| : ℚ) : ℝ) ≤ ((twoPi / 2 + 5 / 2 ^ 53 * |x| : ℚ) : ℝ) := by exact_mod_cast k
      push_cast at this
      linarith
    · have k : |rnd (x - p) - (x - n * twoPi)| ≤ 4 / 2 ^ 53 * |x| := by
        have a1 := abs_sub (rnd (x - p) - (x - p)) (p - twoPi * n)
        rw [show rnd (x - p) - (x - p) - (p - twoPi * n) = rnd (x - p) - (x - n * twoPi) by ring] at a1
        norm_num at xp2 ep er ⊢
        linarith
      have k' : ((|rnd (x - p) - (x - n * twoPi)| : ℚ) : ℝ) ≤ ((4 / 2 ^ 53 * |x| : ℚ) : ℝ) := by exact_mod_cast k
      push_cast at k'
      have nb : |(n : ℚ)| ≤ 4 / 10 * |x| := by
        rw [abs_mul, abs_of_pos t0] at tn3
        have : 6 * |(n : ℚ)| ≤ twoPi * |(n : ℚ)| := mul_le_mul_of_nonneg_right (by linarith) (abs_nonneg _)
        linarith
      have nb' : ((|(n : ℚ)| : ℚ) : ℝ) ≤ ((4 / 10 * |x| : ℚ) : ℝ) := by exact_mod_cast nb
      push_cast at nb'
      have a1 := abs_add_le ((rnd (x - p) : ℝ) - (x - n * twoPi)) (n * (2 * Real.pi) - n * twoPi)
      rw [show (rnd (x - p) : ℝ) - (x - n * twoPi) + (n * (2 * Real.pi) - n * twoPi) = rnd (x - p) - (x - n * (2 * Real.pi)) by ring] at a1
      have a2 : |(n : ℝ) * (2 * Real.pi) - n * twoPi| ≤ 4 / 10 * |(x : ℝ)| * (225 / 100 / 2 ^ 53) := by
        rw [← mul_sub, abs_mul, abs_sub_comm]
        exact mul_le_mul nb' pd (abs_nonneg _) (by positivity)
      have x0 := abs_nonneg (x : ℝ)
      obtain ⟨A, hA⟩ : ∃ A : ℝ, A = |(x : ℝ)| := ⟨_, rfl⟩
      rw [← hA] at k' a2 x0 ⊢
      refine a1.trans ?_
      norm_num at k' a2 ⊢
      linarith

omit hr in
theorem boostRound_zero {v : ℚ} (hv : |v| < 1 / 2) : boostRound v = 0 := by
  obtain ⟨h1, h2⟩ := abs_lt.mp hv
  unfold boostRound
  split
  · rw [Int.floor_eq_zero_iff]
    constructor <;> linarith
  · rw [Int.ceil_eq_zero_iff]
    constructor <;> linarith

/-- **C181** an angle strictly between the two doubles nearest to -π and π comes back unchanged, bit for bit -/
theorem C181_inside {x : ℚ} (dx : IsDouble x) (hx : |x| < twoPi / 2) : angleMod rnd (.fin x) = some (.fin x) := by
  have t6 : (6283185307179586 / 10 ^ 15 : ℚ) < twoPi := twoPi_bounds.1
  have t7 : twoPi < 62831853071795863 / 10 ^ 16 := twoPi_bounds.2
  norm_num at t6 t7
  have t0 : 0 < twoPi := by linarith
  have big : |x| ≤ 2 ^ (1000 : ℤ) := by
    calc |x| ≤ 2 ^ (2 : ℤ) := by norm_num; linarith
      _ ≤ _ := zpow_le_zpow_right₀ (by norm_num) (by norm_num)
  obtain ⟨e, -⟩ := angleMod_eq hr big
  -- a double below has distance at least 2^-51
  have gap : |x| ≤ twoPi / 2 - 1 / 2 ^ 51 := by
    rcases lt_or_ge |x| 2 with h | h
    · have : (1 : ℚ) / 2 ^ 51 ≤ 1 / 10 := by norm_num
      linarith
    · obtain ⟨n, hn⟩ := NumericDouble.double_grid dx (j := 1) (by rw [zpow_one]; exact h)
      have e51 : (2 : ℚ) ^ ((1 : ℤ) - 52) = 1 / 2 ^ 51 := by rw [show (1 : ℤ) - 52 = -51 by norm_num, zpow_neg, one_div]; exact congrArg _ (zpow_natCast 2 51)
      rw [e51] at hn
      have ha : |x| = |(n : ℚ)| * (1 / 2 ^ 51) := by rw [hn, abs_mul, abs_of_pos (show (0 : ℚ) < 1 / 2 ^ 51 by positivity)]
      have hT : twoPi / 2 = (7074237752028440 : ℤ) * (1 / 2 ^ 51) := by unfold twoPi; norm_num
      rw [ha, hT] at hx
      rw [ha, hT]
      have lt : |(n : ℚ)| < (7074237752028440 : ℤ) := lt_of_mul_lt_mul_right hx (by positivity)
      have lt2 : |n| < 7074237752028440 := by exact_mod_cast lt
      have le : |(n : ℚ)| ≤ ((7074237752028440 - 1 : ℤ) : ℚ) := by exact_mod_cast Int.le_sub_one_of_lt lt2
      have := mul_le_mul_of_nonneg_right le (show (0 : ℚ) ≤ 1 / 2 ^ 51 by positivity)
      rw [Int.cast_sub, Int.cast_one, sub_mul, one_mul] at this
      exact this
  -- so the quotient is a little below one half
  have q : |x / twoPi| ≤ 1 / 2 - 1 / 2 ^ 54 := by
    rw [abs_div, abs_of_pos t0, div_le_iff₀ t0]
    norm_num at gap ⊢
    linarith
  obtain ⟨q1, q2⟩ := abs_le.mp q
  have dD : IsDouble (1 / 2 - 1 / 2 ^ 54 : ℚ) := ⟨2 ^ 53 - 1, -54, by norm_num, by norm_num, by
    rw [zpow_neg, show (2 : ℚ) ^ (54 : ℤ) = 2 ^ 54 from zpow_natCast 2 54]; norm_num⟩
  have v1 := hr.mono q2
  have v2 := hr.mono q1
  rw [hr.fix dD] at v1
  rw [hr.fix dD.neg] at v2
  have n0 : boostRound (rnd (x / twoPi)) = 0 := by
    refine boostRound_zero (lt_of_le_of_lt (abs_le.mpr ⟨v2, v1⟩) ?_)
    norm_num
  have r0 : rnd 0 = 0 := hr.fix ⟨0, 0, by norm_num, by norm_num, by norm_num⟩
  rw [e, n0, Int.cast_zero, mul_zero, r0, sub_zero, hr.fix dx]

omit hr in
theorem double_half : IsDouble (1 / 2 : ℚ) := ⟨1, -1, by norm_num, by norm_num, by norm_num⟩

omit hr in
theorem double_pi : IsDouble (twoPi / 2) := ⟨884279719003555, -48, by norm_num, by norm_num, by
  rw [zpow_neg, show (2 : ℚ) ^ (48 : ℤ) = 2 ^ 48 from zpow_natCast 2 48, twoPi]; norm_num⟩

/-- **C181** the doubles nearest to π and -π are exchanged -/
theorem C181_half : angleMod rnd (.fin (twoPi / 2)) = some (.fin (-(twoPi / 2))) ∧ angleMod rnd (.fin (-(twoPi / 2))) = some (.fin (twoPi / 2)) := by
  have t7 : twoPi < 62831853071795863 / 10 ^ 16 := twoPi_bounds.2
  norm_num at t7
  have t0 : 0 < twoPi := by unfold twoPi; positivity
  have big : |twoPi / 2| ≤ 2 ^ (1000 : ℤ) := by
    rw [abs_of_pos (by linarith)]
    calc twoPi / 2 ≤ 2 ^ (2 : ℤ) := by norm_num; linarith
      _ ≤ _ := zpow_le_zpow_right₀ (by norm_num) (by norm_num)
  have d := double_twoPi
  have d2 := double_pi
  have b1 : boostRound (1 / 2) = 1 := by unfold boostRound; norm_num
  have b2 : boostRound (-(1 / 2)) = -1 := by unfold boostRound; norm_num
  constructor
  · rw [(angleMod_eq hr big).1, show twoPi / 2 / twoPi = 1 / 2 by field_simp, hr.fix double_half, b1, Int.cast_one, mul_one, hr.fix d,
      show twoPi / 2 - twoPi = -(twoPi / 2) by ring, hr.fix d2.neg]
  · rw [(angleMod_eq hr ((abs_neg _).trans_le big)).1, show -(twoPi / 2) / twoPi = -(1 / 2) by field_simp, hr.fix double_half.neg, b2, Int.cast_neg, Int.cast_one,
      mul_neg, mul_one, hr.fix d.neg, show -(twoPi / 2) - -twoPi = twoPi / 2 by ring, hr.fix d2]

/-- **C181** infinities and NaN make `angleMod` throw -/
theorem C181_nonfinite {f : Fp} (hf : ∀ q, f ≠ .fin q) : angleMod rnd f = none := by
  have t0 : 0 < twoPi := by unfold twoPi; positivity
  unfold angleMod
  rw [SM_2PI_eq hr]
  cases f with
  | fin q => exact absurd rfl (hf q)
  | nan => rfl
  | inf b => cases b <;> simp [fdiv, Fp.div, rounded, t0, t0.le, not_lt]

/-- one conversion: a product with a rounded constant -/
theorem conv {C x : ℚ} {K δ : ℝ} (hK : 0 < K) (hC : |((rnd C : ℚ) : ℝ) - K| ≤ δ * K) (hC1 : |rnd C| ≤ 64) (hx : |x| ≤ 2 ^ (1000 : ℤ)) :
    ∃ r : ℚ, fmul rnd (.fin x) (.fin (rnd C)) = .fin r ∧ IsDouble r ∧ |(r : ℝ) - x * K| ≤ (δ + (1 + δ) / 2 ^ 53) * |(x : ℝ) * K| + tiny := by
  have fin : rounded rnd (.fin (x * rnd C)) = .fin (rnd (x * rnd C)) := by
    refine fin_ok hr ?_
    rw [abs_mul]
    calc |x| * |rnd C| ≤ 2 ^ (1000 : ℤ) * 64 := mul_le_mul hx hC1 (abs_nonneg _) (by positivity)
      _ = 2 ^ (1006 : ℤ) := by
        rw [show (1006 : ℤ) = 1000 + (6 : ℕ) by norm_num, zpow_add₀ (by norm_num : (2 : ℚ) ≠ 0), zpow_natCast]; norm_num
      _ ≤ _ := zpow_le_zpow_right₀ (by norm_num) (by norm_num)
  refine ⟨rnd (x * rnd C), fin, hr.mem _, ?_⟩
  have e1 := hr.err_any (x * rnd C)
  have e2 : ((|rnd (x * rnd C) - x * rnd C| : ℚ) : ℝ) ≤ ((|x * rnd C| / 2 ^ 53 + tiny : ℚ) : ℝ) := by exact_mod_cast e1
  push_cast at e2
  have e3 : |(x : ℝ) * (rnd C : ℚ) - x * K| ≤ δ * |(x : ℝ) * K| := by
    rw [← mul_sub, abs_mul, abs_mul, abs_of_pos hK]
    calc |(x : ℝ)| * |((rnd C : ℚ) : ℝ) - K| ≤ |(x : ℝ)| * (δ * K) := mul_le_mul_of_nonneg_left hC (abs_nonneg _)
      _ = _ := by ring
  have e4 : |(x : ℝ) * (rnd C : ℚ)| ≤ (1 + δ) * |(x : ℝ) * K| := by
    have := abs_add_le ((x : ℝ) * (rnd C : ℚ) - x * K) (x * K)
    rw [sub_add_cancel] at this
    linarith
  have a := abs_add_le ((rnd (x * rnd C) : ℝ) - x * (rnd C : ℚ)) (x * (rnd C : ℚ) - x * K)
  rw [sub_add_sub_cancel] at a
  have e5 : |(x : ℝ) * (rnd C : ℚ)| / 2 ^ 53 ≤ (1 + δ) * |(x : ℝ) * K| / 2 ^ 53 := div_le_div_of_nonneg_right e4 (by positivity)
  have : (δ + (1 + δ) / 2 ^ 53) * |(x : ℝ) * K| + tiny = δ * |(x : ℝ) * K| + ((1 + δ) * |(x : ℝ) * K| / 2 ^ 53 + tiny) := by ring
  rw [this]
  linarith

/-- the two constants -/
theorem deg_const : |((SM_DEG2RAD rnd : ℚ) : ℝ) - Real.pi / 180| ≤ 171 / 10 ^ 16 * (Real.pi / 180) ∧ |SM_DEG2RAD rnd| ≤ 64 := by
  have h1 := Real.pi_gt_d20
  have h2 := Real.pi_lt_d20
  have e1 := hr.err_any (17453292519943 / 10 ^ 15)
  have ty := tiny_small
  rw [show rnd (17453292519943 / 10 ^ 15) = SM_DEG2RAD rnd from rfl] at e1
  have e3 : |SM_DEG2RAD rnd - 17453292519943 / 10 ^ 15| ≤ 2 / 10 ^ 18 := by
    rw [abs_of_pos (show (0 : ℚ) < 17453292519943 / 10 ^ 15 by norm_num)] at e1
    norm_num at e1 ty ⊢
    linarith
  obtain ⟨a, b⟩ := abs_le.mp e3
  constructor
  · have e2 : ((|SM_DEG2RAD rnd - 17453292519943 / 10 ^ 15| : ℚ) : ℝ) ≤ ((2 / 10 ^ 18 : ℚ) : ℝ) := by exact_mod_cast e3
    push_cast at e2
    obtain ⟨a, b⟩ := abs_le.mp e2
    norm_num at h1 h2 a b
    rw [abs_le]
    constructor <;> norm_num <;> linarith
  · rw [abs_le]
    norm_num at a b
    constructor <;> linarith

theorem rad_const : |((SM_RAD2DEG rnd : ℚ) : ℝ) - 180 / Real.pi| ≤ 2 / 10 ^ 16 * (180 / Real.pi) ∧ |SM_RAD2DEG rnd| ≤ 64 := by
  have h1 := Real.pi_gt_d20
  have h2 := Real.pi_lt_d20
  have e1 := hr.err_any (57295779513082323 / 10 ^ 15)
  have ty := tiny_small
  rw [show rnd (57295779513082323 / 10 ^ 15) = SM_RAD2DEG rnd from rfl] at e1
  have e3 : |SM_RAD2DEG rnd - 57295779513082323 / 10 ^ 15| ≤ 64 / 10 ^ 16 := by
    rw [abs_of_pos (show (0 : ℚ) < 57295779513082323 / 10 ^ 15 by norm_num)] at e1
    norm_num at e1 ty ⊢
    linarith
  obtain ⟨a, b⟩ := abs_le.mp e3
  constructor
  · have e2 : ((|SM_RAD2DEG rnd - 57295779513082323 / 10 ^ 15| : ℚ) : ℝ) ≤ ((64 / 10 ^ 16 : ℚ) : ℝ) := by exact_mod_cast e3
    push_cast at e2
    obtain ⟨a, b⟩ := abs_le.mp e2
    norm_num at h1 h2
    have p0 := Real.pi_pos
    have l1 : (572957795130823208 / 10 ^ 16 : ℝ) ≤ 180 / Real.pi := by rw [le_div_iff₀ p0]; norm_num; linarith
    have l2 : 180 / Real.pi ≤ (572957795130823209 / 10 ^ 16 : ℝ) := by rw [div_le_iff₀ p0]; norm_num; linarith
    obtain ⟨D, hD⟩ : ∃ D, D = 180 / Real.pi := ⟨_, rfl⟩
    rw [← hD] at l1 l2 ⊢
    norm_num at a b l1 l2
    rw [abs_le]
    constructor <;> norm_num <;> linarith
  · rw [abs_le]
    norm_num at a b
    constructor <;> linarith

/-- **C181** the two conversions of an angle up to 2^1000: finite, with a relative error of 1.8e-14 (degrees to radians) and 3.2e-16 (radians to degrees), up to half of the smallest double -/
theorem C181_degrees {x : ℚ} (hx : |x| ≤ 2 ^ (1000 : ℤ)) :
    (∃ r : ℚ, deg2rad rnd (.fin x) = .fin r ∧ IsDouble r ∧ |(r : ℝ) - x * (Real.pi / 180)| ≤ 18 / 10 ^ 15 * |(x : ℝ) * (Real.pi / 180)| + 2 ^ (-1075 : ℤ)) ∧
    (∃ r : ℚ, rad2deg rnd (.fin x) = .fin r ∧ IsDouble r ∧ |(r : ℝ) - x * (180 / Real.pi)| ≤ 32 / 10 ^ 17 * |(x : ℝ) * (180 / Real.pi)| + 2 ^ (-1075 : ℤ)) := by
  have p0 := Real.pi_pos
  have et : ((tiny : ℚ) : ℝ) = 2 ^ (-1075 : ℤ) := by
    unfold tiny
    push_cast
    rw [show (-1075 : ℤ) = -1074 + -1 by norm_num, zpow_add₀ (by norm_num : (2 : ℝ) ≠ 0) (-1074) (-1), zpow_neg_one, div_eq_mul_inv]
  constructor
  · obtain ⟨h1, h2⟩ := deg_const hr
    obtain ⟨r, a, b, c⟩ := conv hr (C := 17453292519943 / 10 ^ 15) (show 0 < Real.pi / 180 by positivity) h1 h2 hx
    refine ⟨r, a, b, c.trans ?_⟩
    rw [et]
    gcongr
    norm_num
  · obtain ⟨h1, h2⟩ := rad_const hr
    obtain ⟨r, a, b, c⟩ := conv hr (C := 57295779513082323 / 10 ^ 15) (show 0 < 180 / Real.pi by positivity) h1 h2 hx
    refine ⟨r, a, b, c.trans ?_⟩
    rw [et]
    gcongr
    norm_num

/-- **C181** degrees to radians and back: a relative error of 2e-14, up to 2^-1000 -/
theorem C181_round_trip {x : ℚ} (hx : |x| ≤ 2 ^ (999 : ℤ)) :
    ∃ r : ℚ, rad2deg rnd (deg2rad rnd (.fin x)) = .fin r ∧ IsDouble r ∧ |(r : ℝ) - x| ≤ 2 / 10 ^ 14 * |(x : ℝ)| + 2 ^ (-1000 : ℤ) := by
  have p3 := Real.pi_gt_three
  have p4 := Real.pi_le_four
  have p0 := Real.pi_pos
  have hx' : |x| ≤ 2 ^ (1000 : ℤ) := hx.trans (zpow_le_zpow_right₀ (by norm_num) (by norm_num))
  obtain ⟨⟨y, e1, d1, b1⟩, -⟩ := C181_degrees hr hx'
  obtain ⟨η, hη⟩ : ∃ η : ℝ, η = 2 ^ (-1075 : ℤ) := ⟨_, rfl⟩
  have η0 : 0 < η := hη ▸ by positivity
  have η1 : η ≤ 1 := hη ▸ zpow_le_one_of_nonpos₀ (by norm_num) (by norm_num)
  have k2 : (2 : ℝ) ^ (-1000 : ℤ) = 2 ^ 75 * η := by
    rw [hη, show (-1000 : ℤ) = (75 : ℕ) + -1075 by norm_num, zpow_add₀ (by norm_num : (2 : ℝ) ≠ 0), zpow_natCast]
  rw [← hη] at b1
  have a1 : |(x : ℝ) * (Real.pi / 180)| = |(x : ℝ)| * (Real.pi / 180) := by rw [abs_mul, abs_of_pos (show 0 < Real.pi / 180 by positivity)]
  rw [a1] at b1
  have X0 := abs_nonneg (x : ℝ)
  have yb : |(y : ℝ)| ≤ |(x : ℝ)| + η := by
    have := abs_add_le ((y : ℝ) - x * (Real.pi / 180)) (x * (Real.pi / 180))
    rw [sub_add_cancel, a1] at this
    have c : |(x : ℝ)| * (Real.pi / 180) ≤ |(x : ℝ)| * (4 / 180) := mul_le_mul_of_nonneg_left (by linarith) X0
    norm_num at b1 c this ⊢
    linarith
  have hy : |y| ≤ 2 ^ (1000 : ℤ) := by
    have hxR : ((|x| : ℚ) : ℝ) ≤ ((2 ^ (999 : ℤ) : ℚ) : ℝ) := by exact_mod_cast hx
    push_cast at hxR
    have one : (1 : ℝ) ≤ 2 ^ (999 : ℤ) := one_le_zpow₀ (by norm_num) (by norm_num)
    have two : (2 : ℝ) ^ (1000 : ℤ) = 2 * 2 ^ (999 : ℤ) := by rw [show (1000 : ℤ) = 1 + 999 by norm_num, zpow_add₀ (by norm_num : (2 : ℝ) ≠ 0), zpow_one]
    have : |(y : ℝ)| ≤ 2 ^ (1000 : ℤ) := by
      rw [two]
      calc |(y : ℝ)| ≤ |(x : ℝ)| + η := yb
        _ ≤ 2 ^ (999 : ℤ) + 2 ^ (999 : ℤ) := add_le_add hxR (η1.trans one)
        _ = _ := by ring
    exact_mod_cast this
  obtain ⟨-, ⟨r, e2, d2, b2⟩⟩ := C181_degrees hr hy
  refine ⟨r, by rw [e1, e2], d2, ?_⟩
  rw [← hη] at b2
  rw [k2]
  clear hη k2 hy hx hx' e1 e2
  obtain ⟨D, hD⟩ : ∃ D, D = 180 / Real.pi := ⟨_, rfl⟩
  have D1 : D ≤ 60 := by rw [hD, div_le_iff₀ p0]; linarith
  have D0 : 0 < D := by rw [hD]; positivity
  have KD : Real.pi / 180 * D = 1 := by rw [hD]; field_simp
  rw [← hD] at b2
  -- in units of degrees
  have c1 : |(y : ℝ) * D - x| ≤ 18 / 10 ^ 15 * |(x : ℝ)| + 60 * η := by
    rw [show (y : ℝ) * D - x = (y - x * (Real.pi / 180)) * D by rw [sub_mul, mul_assoc, KD, mul_one], abs_mul, abs_of_pos D0]
    calc |(y : ℝ) - x * (Real.pi / 180)| * D ≤ (18 / 10 ^ 15 * (|(x : ℝ)| * (Real.pi / 180)) + η) * D := mul_le_mul_of_nonneg_right b1 D0.le
      _ = 18 / 10 ^ 15 * |(x : ℝ)| * (Real.pi / 180 * D) + η * D := by ring
      _ ≤ _ := by
        rw [KD, mul_one]
        have := mul_le_mul_of_nonneg_left D1 η0.le
        linarith
  obtain ⟨Z, hZ⟩ : ∃ Z : ℝ, Z = y * D := ⟨_, rfl⟩
  rw [← hZ] at b2 c1
  have c2 : |Z| ≤ 2 * |(x : ℝ)| + 60 * η := by
    have := abs_add_le (Z - x) x
    rw [sub_add_cancel] at this
    norm_num at c1 ⊢
    linarith
  have c3 := abs_add_le ((r : ℝ) - Z) (Z - x)
  rw [sub_add_sub_cancel] at c3
  norm_num at b2 c1 ⊢
  linarith

/-! ## what does not hold -/

omit hr

/-- **C181** claim: reducing twice is reducing once -/
def C181_idempotent_claim : Prop :=
  ∀ rnd : ℚ → ℚ, IsRnd rnd → ∀ x r : ℚ, IsDouble x → |x| ≤ 2 ^ (1000 : ℤ) → angleMod rnd (.fin x) = some (.fin r) → angleMod rnd (.fin r) = some (.fin r)

/-- **C181** at the double nearest to π the sign flips each time -/
theorem C181_idempotent_negation : ¬ C181_idempotent_claim := by
  intro h
  have t0 : 0 < twoPi := by unfold twoPi; positivity
  have t7 : twoPi < 62831853071795863 / 10 ^ 16 := twoPi_bounds.2
  norm_num at t7
  have big : |twoPi / 2| ≤ 2 ^ (1000 : ℤ) := by
    rw [abs_of_pos (by linarith)]
    calc twoPi / 2 ≤ 2 ^ (2 : ℤ) := by norm_num; linarith
      _ ≤ _ := zpow_le_zpow_right₀ (by norm_num) (by norm_num)
  obtain ⟨h1, h2⟩ := C181_half isRnd_rndEven
  have := h rndEven isRnd_rndEven _ _ double_pi big h1
  rw [h2] at this
  simp only [Option.some.injEq, Fp.fin.injEq] at this
  linarith

/-- **C181** claim: the reduced angle is between -π and π -/
def C181_range_claim : Prop :=
  ∀ rnd : ℚ → ℚ, IsRnd rnd → ∀ x r : ℚ, IsDouble x → |x| ≤ 2 ^ (1000 : ℤ) → angleMod rnd (.fin x) = some (.fin r) → |(r : ℝ)| ≤ Real.pi

/-- **C181** at 2^54 the result is -4 -/
theorem C181_range_negation : ¬ C181_range_claim := by
  intro h
  have e : angleMod rndEven (.fin (2 ^ 54)) = some (.fin (-4)) := by decide +kernel
  have big : |(2 : ℚ) ^ 54| ≤ 2 ^ (1000 : ℤ) := by
    rw [abs_of_pos (by positivity), ← zpow_natCast]
    exact zpow_le_zpow_right₀ (by norm_num) (by norm_num)
  have := h rndEven isRnd_rndEven (2 ^ 54) (-4) (by have := isDouble_pow 54 (by norm_num); rwa [show (2 : ℚ) ^ (54 : ℤ) = 2 ^ 54 from zpow_natCast 2 54] at this) big e
  have p := Real.pi_lt_d2
  norm_num at this p
  linarith

/-- **C181** claim: half a turn in degrees is the double nearest to π -/
def C181_half_turn_claim : Prop := ∀ rnd : ℚ → ℚ, IsRnd rnd → deg2rad rnd (.fin 180) = .fin (twoPi / 2)

/-- **C181** the constant has too few digits -/
theorem C181_half_turn_negation : ¬ C181_half_turn_claim := by
  intro h
  have := h rndEven isRnd_rndEven
  revert this
  decide +kernel

/-- a full turn and a half: the hypotheses of the theorems are met, and the result is half a turn less three doubles -/
example : IsDouble 10 ∧ angleMod rndEven (.fin 10) = some (.fin (10 - 2 * twoPi)) ∧ angleMod rndEven (.fin 3) = some (.fin 3) ∧
    |(3 : ℚ)| < twoPi / 2 ∧ angleMod rndEven (.inf false) = none :=
  ⟨isDouble_int 10 (by norm_num), by decide +kernel, by decide +kernel, by decide +kernel, by decide +kernel⟩

/-- conversions of a concrete angle -/
example : |(90 : ℚ)| ≤ 2 ^ (999 : ℤ) ∧ deg2rad rndEven (.fin 90) = .fin (7074237752028321 / 2 ^ 52) ∧
    rad2deg rndEven (.fin (7074237752028321 / 2 ^ 52)) = .fin (6333186975989653 / 2 ^ 46) := by
  refine ⟨?_, by decide +kernel, by decide +kernel⟩
  calc |(90 : ℚ)| ≤ 2 ^ (7 : ℤ) := by norm_num
    _ ≤ _ := zpow_le_zpow_right₀ (by norm_num) (by norm_num)

end Verif.AngleDouble
