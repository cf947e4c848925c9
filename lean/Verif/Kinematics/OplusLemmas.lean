import Verif.Kinematics.OplusDouble
import Verif.Kinematics.MatrixConvLemmas

/-!
# Lemmas for C162: `axisAngle2quat` and `updateQuat` on doubles
-/

namespace Verif.KinematicsDouble

open Verif.Common
open Verif.Kinematics (V3 V4 sqNorm)

local notation "nrm" => Kinematics.norm

/-- a sum of non-negative numbers is not negative -/
theorem sumOf_nonneg {rnd : ℚ → ℚ} (hr : IsRnd rnd) {l : List Fp} {s : Fp} (h : SumOf rnd l s) (hl : ∀ f ∈ l, ∃ r : ℚ, 0 ≤ r ∧ f = .fin r) :
    s = .inf false ∨ ∃ r : ℚ, 0 ≤ r ∧ s = .fin r := by
  induction h with
  | one x => exact .inr (hl x (by simp))
  | @add l m n x y _ _ hn ihl ihm =>
    have h1 := ihl fun f hf => hl f (hn.mem_iff.2 (List.mem_append_left _ hf))
    have h2 := ihm fun f hf => hl f (hn.mem_iff.2 (List.mem_append_right _ hf))
    rcases h1 with rfl | ⟨r, hr0, rfl⟩ <;> rcases h2 with rfl | ⟨t, ht0, rfl⟩
    · exact .inl rfl
    · exact .inl rfl
    · exact .inl rfl
    · have h0 : 0 ≤ r + t := by linarith
      show (if |rnd (r + t)| < tooBig then Fp.fin (rnd (r + t)) else .inf (decide (r + t < 0))) = _ ∨ _
      by_cases hb : |rnd (r + t)| < tooBig
      · refine .inr ⟨rnd (r + t), hr.nonneg h0, ?_⟩
        show (if |rnd (r + t)| < tooBig then Fp.fin (rnd (r + t)) else .inf (decide (r + t < 0))) = _
        rw [if_pos hb]
      · left
        rw [if_neg hb, decide_eq_false (not_lt.2 h0)]

theorem tiny_small : (tiny : ℝ) ≤ 1 / 2 ^ 200 := by
  have e : (tiny : ℝ) = 2 ^ (-1074 : ℤ) / 2 := by unfold tiny; push_cast; rfl
  have h1 : (2 : ℝ) ^ (-1074 : ℤ) ≤ 2 ^ (-200 : ℤ) := zpow_le_zpow_right₀ (by norm_num) (by norm_num)
  have h2 : (2 : ℝ) ^ (-200 : ℤ) = 1 / 2 ^ 200 := by rw [zpow_neg, one_div]; norm_cast
  have h3 : (0 : ℝ) < 2 ^ (-1074 : ℤ) := by positivity
  rw [e, ← h2]
  exact (half_le_self h3.le).trans h1

section
variable {R : ℝ → ℚ} (hR : IsRndR R) (L : Lib fun q => R q)
include hR

/-- the sum of the squares -/
theorem sum3_err {a : F3} (ha : Finite a) (hb : nrm (vals a) ≤ 8) :
    ∃ s : ℚ, 0 ≤ s ∧ L.sum3 (fmul (fun q => R q) (a 0) (a 0)) (fmul (fun q => R q) (a 1) (a 1)) (fmul (fun q => R q) (a 2) (a 2)) = .fin s ∧
      |(s : ℝ) - nrm (vals a) * nrm (vals a)| ≤ 5 / 2 ^ 53 * (nrm (vals a) * nrm (vals a)) + 1 / 2 ^ 160 := by
  set v := vals a with hv
  have hvi : ∀ i, |v i| ≤ 8 := fun i => (abs_le_nrm v i).trans hb
  have htiny := tiny_small
  -- the squares
  have P : ∀ i, ∃ p : ℚ, fmul (fun q => R q) (a i) (a i) = .fin p ∧ IsDouble p ∧ 0 ≤ p ∧ |(p : ℝ) - v i * v i| ≤ v i * v i / 2 ^ 53 + 1 / 2 ^ 200 := by
    intro i
    obtain ⟨e, hd⟩ := ha.fin i
    have hvv : ((fval (a i) * fval (a i) : ℚ) : ℝ) = v i * v i := by push_cast; rfl
    have hz : |((fval (a i) * fval (a i) : ℚ) : ℝ)| ≤ 2 ^ (300 : ℤ) := by
      rw [hvv, abs_mul]
      have h1 : |v i| * |v i| ≤ 8 * 8 := mul_le_mul (hvi i) (hvi i) (abs_nonneg _) (by norm_num)
      have h2 : (2 : ℝ) ^ (6 : ℤ) ≤ 2 ^ (300 : ℤ) := zpow_le_zpow_right₀ (by norm_num) (by norm_num)
      have h3 : (2 : ℝ) ^ (6 : ℤ) = 8 * 8 := by norm_num
      exact h1.trans (h3 ▸ h2)
    obtain ⟨h1, h2, h3⟩ := round_mid hR hz
    refine ⟨R ((fval (a i) * fval (a i) : ℚ) : ℝ), ?_, h2, hR.rat.nonneg (mul_self_nonneg _), ?_⟩
    · conv_lhs => rw [e]
      exact h1
    · rw [hvv, abs_of_nonneg (mul_self_nonneg (v i))] at h3
      rw [hvv]
      linarith
  choose p hp hpd hp0 hpe using P
  have l0 : (0 : ℝ) ≤ 1 / 2 ^ 170 := by norm_num
  have r170 : (1 : ℝ) / 2 ^ 170 = 2 ^ (-170 : ℤ) := by rw [zpow_neg, one_div]; norm_cast
  have pb : ∀ i, (p i : ℝ) ≤ 65 := fun i => by
    have h1 := (abs_le.1 (hpe i)).2
    have h2 : v i * v i ≤ 64 := by have := abs_le.1 (hvi i); nlinarith
    norm_num at h1 ⊢; linarith
  have sc : ∀ i, InR (-600) 600 (|(p i : ℝ)| + 1 / 2 ^ 170) := by
    intro i
    have h0 : (0 : ℝ) ≤ p i := by exact_mod_cast hp0 i
    rw [abs_of_nonneg h0]
    constructor
    · rw [r170]
      have : (2 : ℝ) ^ (-600 : ℤ) ≤ 2 ^ (-170 : ℤ) := zpow_le_zpow_right₀ (by norm_num) (by norm_num)
      linarith
    · have h1 := pb i
      have h2 : (128 : ℝ) ≤ 2 ^ (600 : ℤ) := by
        have : (2 : ℝ) ^ (7 : ℤ) ≤ 2 ^ (600 : ℤ) := zpow_le_zpow_right₀ (by norm_num) (by norm_num)
        have h3 : (2 : ℝ) ^ (7 : ℤ) = 128 := by norm_num
        exact h3 ▸ this
      have h3 : (1 : ℝ) / 2 ^ 170 ≤ 1 := by norm_num
      exact (add_le_add h1 h3).trans (le_trans (by norm_num) h2)
  have S := L.sum3_sum (.fin (p 0)) (.fin (p 1)) (.fin (p 2))
  have hmem : ∀ f ∈ [Fp.fin (p 0), .fin (p 1), .fin (p 2)], ∃ i, f = .fin (p i) := by
    intro f hf
    simp only [List.mem_cons, List.not_mem_nil, or_false] at hf
    rcases hf with rfl | rfl | rfl <;> exact ⟨_, rfl⟩
  have A := (sumOf_acc hR.rat l0 S (by
      intro f hf
      obtain ⟨i, rfl⟩ := hmem f hf
      exact ⟨rfl, hpd i⟩) (by
      intro f hf
      obtain ⟨i, rfl⟩ := hmem f hf
      exact sc i) (by simp)).1
  have N0 := sumOf_nonneg hR.rat S (by
    intro f hf
    obtain ⟨i, rfl⟩ := hmem f hf
    exact ⟨_, hp0 i, rfl⟩)
  obtain ⟨s, hs, -, -, he⟩ := A
  have s0 : 0 ≤ s := by
    rcases N0 with h | ⟨r, h0, h⟩
    · rw [hs] at h; cases h
    · rw [hs] at h; cases h; exact h0
  refine ⟨s, s0, by rw [hp 0, hp 1, hp 2]; exact hs, ?_⟩
  simp only [List.length_cons, List.length_nil, List.map_cons, List.map_nil, List.sum_cons, List.sum_nil, add_zero, fval] at he
  have c0 : (0 : ℝ) ≤ p 0 := by exact_mod_cast hp0 0
  have c1 : (0 : ℝ) ≤ p 1 := by exact_mod_cast hp0 1
  have c2 : (0 : ℝ) ≤ p 2 := by exact_mod_cast hp0 2
  rw [abs_of_nonneg c0, abs_of_nonneg c1, abs_of_nonneg c2] at he
  have e3 : (1 + eps) ^ (0 + 1 + 1 + 1) - 1 ≤ 31 / 10 / 2 ^ 53 := by unfold eps; norm_num
  have hk : 0 ≤ (p 0 : ℝ) + 1 / 2 ^ 170 + (p 1 + 1 / 2 ^ 170 + (p 2 + 1 / 2 ^ 170)) := by linarith
  have he' := abs_le.1 (he.trans (mul_le_mul_of_nonneg_right e3 hk))
  have d0 := abs_le.1 (hpe 0)
  have d1 := abs_le.1 (hpe 1)
  have d2 := abs_le.1 (hpe 2)
  rw [nrm_sq, Kinematics.sq3]
  have m0 := mul_self_nonneg (v 0)
  have m1 := mul_self_nonneg (v 1)
  have m2 := mul_self_nonneg (v 2)
  rw [abs_le]
  norm_num at he' d0 d1 d2 ⊢
  constructor <;> linarith

/-- the norm -/
theorem norm3_err {a : F3} (ha : Finite a) (hb : nrm (vals a) ≤ 8) :
    ∃ t : ℚ, norm3 L a = .fin t ∧ IsDouble t ∧ 0 ≤ t ∧ |(t : ℝ) - nrm (vals a)| ≤ 5 / 2 ^ 53 * nrm (vals a) + 1 / 2 ^ 70 := by
  obtain ⟨s, s0, hs, he⟩ := sum3_err hR L ha hb
  set N := nrm (vals a) with hN
  have N0 : 0 ≤ N := nrm_nonneg _
  refine ⟨R (Real.sqrt s), ?_, hR.mem _, ?_, ?_⟩
  · unfold norm3
    rw [hs]
    simp only [Verif.NumericDouble.fsqrt, if_neg (not_lt.2 s0)]
  · have h1 := hR.near (Real.sqrt s) 0 (by simpa using isDouble_int 0 (by norm_num))
    rw [Rat.cast_zero, zero_sub, abs_neg, abs_of_nonneg (Real.sqrt_nonneg _)] at h1
    have := (abs_le.1 h1).1
    have : (0 : ℝ) ≤ R (Real.sqrt s) := by linarith
    exact_mod_cast this
  · have s0' : (0 : ℝ) ≤ s := by exact_mod_cast s0
    set x := Real.sqrt s with hx
    have x0 : 0 ≤ x := Real.sqrt_nonneg _
    have xx : x * x = s := Real.mul_self_sqrt s0'
    have he' := abs_le.1 he
    -- the square root
    have h1 : |x - N| ≤ 3 / 2 ^ 53 * N + 1 / 2 ^ 79 := by
      rw [abs_le]
      have hk : (0 : ℝ) ≤ 3 / 2 ^ 53 * N + 1 / 2 ^ 79 := by positivity
      constructor
      · by_contra hlt
        push Not at hlt
        have h2 : x < N - (3 / 2 ^ 53 * N + 1 / 2 ^ 79) := by linarith
        have h3 : x * x ≤ (N - (3 / 2 ^ 53 * N + 1 / 2 ^ 79)) * (N - (3 / 2 ^ 53 * N + 1 / 2 ^ 79)) := mul_self_le_mul_self x0 h2.le
        rw [xx] at h3
        have h4 : 1 / 2 ^ 79 ≤ N := by norm_num at h2 ⊢; linarith
        norm_num at h3 he' h4
        nlinarith
      · by_contra hlt
        push Not at hlt
        have h2 : N + (3 / 2 ^ 53 * N + 1 / 2 ^ 79) < x := by linarith
        have h3 := mul_self_le_mul_self (by positivity : 0 ≤ N + (3 / 2 ^ 53 * N + 1 / 2 ^ 79)) h2.le
        rw [xx] at h3
        norm_num at h3 he'
        nlinarith
    have h1' := abs_le.1 h1
    have xb : x ≤ N * 2 + 1 := by norm_num at h1'; linarith
    have h2 : |(R x : ℝ) - x| ≤ x / 2 ^ 53 + 1 / 2 ^ 80 := by
      rcases le_or_gt ((2 : ℝ) ^ (-1022 : ℤ)) |x| with h | h
      · have := hR.err_rel h
        rw [abs_of_nonneg x0] at this
        have : (0 : ℝ) ≤ 1 / 2 ^ 80 := by norm_num
        linarith
      · rw [abs_of_nonneg x0] at h
        have h3 := hR.near x 0 (by simpa using isDouble_int 0 (by norm_num))
        rw [Rat.cast_zero, zero_sub, abs_neg, abs_of_nonneg x0] at h3
        have h4 : (2 : ℝ) ^ (-1022 : ℤ) ≤ 2 ^ (-80 : ℤ) := zpow_le_zpow_right₀ (by norm_num) (by norm_num)
        have h5 : (2 : ℝ) ^ (-80 : ℤ) = 1 / 2 ^ 80 := by rw [zpow_neg, one_div]; norm_cast
        have h6 : 0 ≤ x / 2 ^ 53 := by positivity
        rw [h5] at h4
        exact h3.trans (h.le.trans (h4.trans (by linarith)))
    have h3 := abs_sub_le (R x : ℝ) x N
    have h4 : x / 2 ^ 53 ≤ 3 / 2 / 2 ^ 53 * N + 1 / 2 ^ 100 := by norm_num at h1' ⊢; linarith
    norm_num at h1 h2 h3 h4 ⊢
    linarith


/-- half the angle -/
theorem half_err {a : F3} (ha : Finite a) (hb : nrm (vals a) ≤ 8) :
    ∃ h : ℚ, fmul (fun q => R q) (norm3 L a) (.fin (1 / 2)) = .fin h ∧ |(h : ℝ) - nrm (vals a) / 2| ≤ 61 / 10 * u51 := by
  obtain ⟨t, ht, -, t0, te⟩ := norm3_err hR L ha hb
  set N := nrm (vals a) with hN
  have N0 : 0 ≤ N := nrm_nonneg _
  have t0' : (0 : ℝ) ≤ t := by exact_mod_cast t0
  have te' := abs_le.1 te
  have tb : (t : ℝ) ≤ 9 := by norm_num at te'; linarith
  have hz : |((t * (1 / 2) : ℚ) : ℝ)| ≤ 8 := by push_cast; rw [abs_of_nonneg (by linarith)]; linarith
  obtain ⟨r, hr, -, he⟩ := Ab.op hR hz (show |((t * (1 / 2) : ℚ) : ℝ) - N / 2| ≤ 51 / 10 * u51 by
    push_cast
    unfold u51
    rw [abs_le]
    norm_num at te' ⊢
    constructor <;> linarith)
  refine ⟨r, ?_, he.trans (by linarith)⟩
  rw [ht]; exact hr

/-- the cosine -/
theorem cos_comp {a : F3} (ha : Finite a) (hb : nrm (vals a) ≤ 8) : Ab (7 * u51) (axisAngle2quat L a 3) (Real.cos (nrm (vals a) / 2)) := by
  obtain ⟨h, hh, he⟩ := half_err hR L ha hb
  refine ⟨L.cos h, ?_, L.cos_double h, ?_⟩
  · show libm L.cos (fmul (fun q => R q) (norm3 L a) (.fin (1 / 2))) = _
    rw [hh]; rfl
  · have h1 := L.cos_err h
    have h2 := Real.abs_cos_sub_cos_le (h : ℝ) (nrm (vals a) / 2)
    have h3 := abs_sub_le (L.cos h : ℝ) (Real.cos h) (Real.cos (nrm (vals a) / 2))
    have h4 : (1 : ℝ) / 2 ^ 52 = u51 / 2 := by unfold u51; norm_num
    have := u51_pos
    linarith

/-- the sine -/
theorem sin_half {a : F3} (ha : Finite a) (hb : nrm (vals a) ≤ 8) :
    ∃ s : ℚ, libm L.sin (fmul (fun q => R q) (norm3 L a) (.fin (1 / 2))) = .fin s ∧ IsDouble s ∧ |(s : ℝ) - Real.sin (nrm (vals a) / 2)| ≤ 66 / 10 * u51 := by
  obtain ⟨h, hh, he⟩ := half_err hR L ha hb
  refine ⟨L.sin h, ?_, L.sin_double h, ?_⟩
  · rw [hh]; rfl
  · have h1 := L.sin_err h
    have h2 := Real.abs_sin_sub_sin_le (h : ℝ) (nrm (vals a) / 2)
    have h3 := abs_sub_le (L.sin h : ℝ) (Real.sin h) (Real.sin (nrm (vals a) / 2))
    have h4 : (1 : ℝ) / 2 ^ 52 = u51 / 2 := by unfold u51; norm_num
    have := u51_pos
    linarith

/-- a component of the axis, for longer rotation vectors -/
theorem axis_large {a : F3} (ha : Finite a) (hb : nrm (vals a) ≤ 8) (hl : isSmallD (norm3 L a) = false) (i : Fin 3) :
    Ab (12 * u51) (fmul (fun q => R q) (a i) (naD L (norm3 L a))) (vals a i * (Real.sin (nrm (vals a) / 2) / nrm (vals a))) := by
  obtain ⟨t, ht, -, -, te⟩ := norm3_err hR L ha hb
  obtain ⟨s, hs, hsd, se⟩ := sin_half hR L ha hb
  set N := nrm (vals a) with hN
  have N0 : 0 ≤ N := nrm_nonneg _
  have tl : (1 : ℝ) / 2 ^ 13 ≤ t := by
    rw [ht] at hl
    have h1 : ¬ (t < 1 / 2 ^ 13) := of_decide_eq_false hl
    have h2 : (1 / 2 ^ 13 : ℚ) ≤ t := not_lt.1 h1
    have h3 : ((1 / 2 ^ 13 : ℚ) : ℝ) ≤ (t : ℝ) := Rat.cast_le.2 h2
    push_cast at h3
    exact h3
  have t0 : (0 : ℝ) < t := lt_of_lt_of_le (by norm_num) tl
  have te' := abs_le.1 te
  have Npos : 0 < N := by
    by_contra h
    have : N = 0 := le_antisymm (not_lt.1 h) N0
    rw [this] at te'
    norm_num at te' tl
    linarith
  set S := Real.sin (N / 2) with hS
  have S0 : |S| ≤ N / 2 := by
    have := Real.abs_sin_sub_sin_le (N / 2) 0
    rwa [Real.sin_zero, sub_zero, sub_zero, abs_of_nonneg (by linarith : 0 ≤ N / 2)] at this
  have S1 : |S| ≤ 1 := Real.abs_sin_le_one _
  have u0 := u51_pos
  -- relative error of the length
  have tr : |(t : ℝ) - N| ≤ 14 / 10 * u51 * t := by
    refine te.trans ?_
    unfold u51
    norm_num at te' tl ⊢
    linarith
  have tr' := abs_le.1 tr
  have us : u51 ≤ 1 / 1000000 := by unfold u51; norm_num
  have Nt : N ≤ 101 / 100 * t := by nlinarith
  have ai : |vals a i| ≤ N := abs_le_nrm _ i
  have aN : |vals a i| / N ≤ 1 := (div_le_one Npos).2 ai
  have at' : |vals a i| / t ≤ 101 / 100 := (div_le_iff₀ t0).2 (ai.trans Nt)
  -- the exact quotient
  have q1 : |vals a i * ((s : ℝ) / t) - vals a i * (S / N)| ≤ 82 / 10 * u51 := by
    have e : vals a i * ((s : ℝ) / t) - vals a i * (S / N) = vals a i / t * (s - S) - vals a i / N * S * ((t - N) / t) := by
      field_simp; ring
    rw [e]
    have h1 : |vals a i / t * (s - S)| ≤ 101 / 100 * (66 / 10 * u51) := by
      rw [abs_mul, abs_div, abs_of_pos t0]
      exact mul_le_mul at' se (abs_nonneg _) (by norm_num)
    have h2 : |vals a i / N * S * ((t - N) / t)| ≤ 1 * 1 * (14 / 10 * u51) := by
      rw [abs_mul, abs_mul, abs_div, abs_of_pos Npos, abs_div, abs_of_pos t0]
      refine mul_le_mul (mul_le_mul aN S1 (abs_nonneg _) (by norm_num)) ((div_le_iff₀ t0).2 tr) (by positivity) (by norm_num)
    have h3 := abs_sub (vals a i / t * (s - S)) (vals a i / N * S * ((t - N) / t))
    linarith
  have sb : |(s : ℝ)| ≤ 101 / 100 := by
    have h1 := abs_sub_abs_le_abs_sub (s : ℝ) S
    linarith
  have st : |(s : ℝ) / t| ≤ 3 / 4 := by
    rw [abs_div, abs_of_pos t0, div_le_iff₀ t0]
    have h1 := abs_sub_abs_le_abs_sub (s : ℝ) S
    have h2 : 66 / 10 * u51 ≤ 1 / 100 * t := by unfold u51; norm_num at tl ⊢; linarith
    linarith
  -- its rounding
  have hz : |((s / t : ℚ) : ℝ)| ≤ 2 ^ (300 : ℤ) := by
    push_cast
    exact st.trans (le_trans (by norm_num) (one_le_zpow₀ (by norm_num : (1 : ℝ) ≤ 2) (by norm_num : (0 : ℤ) ≤ 300)))
  obtain ⟨r1, r2, r3⟩ := round_mid hR hz
  have tq : t ≠ 0 := by intro h; rw [h] at t0; norm_num at t0
  have hna : naD L (norm3 L a) = .fin (R ((s / t : ℚ) : ℝ)) := by
    unfold naD
    rw [if_neg (by rw [hl]; simp), hs, ht]
    simp only [fdiv, Fp.div, if_neg tq]
    exact r1
  obtain ⟨e, hd⟩ := ha.fin i
  set q := R ((s / t : ℚ) : ℝ) with hq
  have hai : ((fval (a i) : ℚ) : ℝ) = vals a i := rfl
  have q2 : |(q : ℝ) - s / t| ≤ 1 / 4 * u51 := by
    have h1 : ((s / t : ℚ) : ℝ) = (s : ℝ) / t := by push_cast; rfl
    rw [h1] at r3
    have ht' := tiny_small
    have : |(s : ℝ) / t| / 2 ^ 53 ≤ 3 / 4 / 2 ^ 53 := by gcongr
    unfold u51
    norm_num at this ht' r3 ⊢
    linarith
  have q3 : |vals a i * (q : ℝ) - vals a i * (s / t)| ≤ 2 * u51 := by
    rw [← mul_sub, abs_mul]
    have : |vals a i| * |(q : ℝ) - s / t| ≤ 8 * (1 / 4 * u51) := mul_le_mul (ai.trans hb) q2 (abs_nonneg _) (by norm_num)
    linarith
  have q4 := abs_sub_le (vals a i * (q : ℝ)) (vals a i * (s / t)) (vals a i * (S / N))
  have q5 : |vals a i * (S / N)| ≤ 1 := by
    have : vals a i * (S / N) = vals a i / N * S := by field_simp
    rw [this, abs_mul, abs_div, abs_of_pos Npos]
    calc |vals a i| / N * |S| ≤ 1 * 1 := mul_le_mul aN S1 (abs_nonneg _) (by norm_num)
      _ = 1 := by norm_num
  have q6 : |((fval (a i) * q : ℚ) : ℝ) - vals a i * (S / N)| ≤ 11 * u51 := by
    push_cast; rw [hai]; linarith
  have q7 : |((fval (a i) * q : ℚ) : ℝ)| ≤ 8 := by
    have := abs_sub_abs_le_abs_sub ((fval (a i) * q : ℚ) : ℝ) (vals a i * (S / N))
    linarith
  have := Ab.op hR q7 q6
  rw [hna]
  conv => arg 2; rw [e]
  exact this.mono (by linarith)

end

end Verif.KinematicsDouble
