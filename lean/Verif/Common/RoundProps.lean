import Verif.Common.NumericDouble

/-!
# C118: `round` on doubles
-/

namespace Verif.NumericDouble

open Verif.Common

/-- the nearest integer, halves away from zero -/
def nearestInt (x : ℚ) : ℤ := if x < 0 then -⌊-x + 1 / 2⌋ else ⌊x + 1 / 2⌋

/-- what this integer is -/
theorem nearestInt_spec (x : ℚ) : |(nearestInt x : ℚ) - x| ≤ 1 / 2 ∧ (|(nearestInt x : ℚ) - x| = 1 / 2 → |x| ≤ |(nearestInt x : ℚ)|) := by
  unfold nearestInt
  split_ifs with hx
  · have f1 := Int.floor_le (-x + 1 / 2)
    have f2 := Int.lt_floor_add_one (-x + 1 / 2)
    push_cast
    constructor
    · rw [abs_le]; constructor <;> linarith
    · intro he
      have h0 : (0 : ℚ) ≤ ⌊-x + 1 / 2⌋ := by exact_mod_cast Int.floor_nonneg.2 (by linarith)
      rw [abs_neg, abs_of_nonneg h0, abs_of_neg hx]
      rcases (abs_eq (by norm_num)).1 he with h | h <;> linarith
  · push Not at hx
    have f1 := Int.floor_le (x + 1 / 2)
    have f2 := Int.lt_floor_add_one (x + 1 / 2)
    constructor
    · rw [abs_le]; constructor <;> linarith
    · intro he
      have h0 : (0 : ℚ) ≤ ⌊x + 1 / 2⌋ := by exact_mod_cast Int.floor_nonneg.2 (by linarith)
      rw [abs_of_nonneg h0, abs_of_nonneg hx]
      rcases (abs_eq (by norm_num)).1 he with h | h <;> linarith

/-- the largest double below one half -/
def belowHalf : ℚ := 1 / 2 - 1 / 2 ^ 54

theorem IsRnd_neg {rnd : ℚ → ℚ} (h : IsRnd rnd) : IsRnd fun x => -rnd (-x) where
  mem x := (h.mem _).neg
  near x y hy := by
    have := h.near (-x) (-y) hy.neg
    rw [show -rnd (-x) - x = -(rnd (-x) - -x) by ring, abs_neg]
    rwa [show -y - -x = -(y - x) by ring, abs_neg] at this

/-- a double of at least 2^j is a multiple of 2^(j-52) -/
theorem double_grid {x : ℚ} (hx : IsDouble x) {j : ℤ} (hb : 2 ^ j ≤ |x|) : ∃ n : ℤ, x = n * 2 ^ (j - 52) := by
  obtain ⟨m, e, hm, he, rfl⟩ := hx
  have p : (0 : ℚ) < 2 ^ e := by positivity
  have hlt : (2 : ℚ) ^ j < 2 ^ (53 + e) := by
    refine hb.trans_lt ?_
    rw [abs_mul, abs_of_pos p, zpow_add₀ (by norm_num)]
    have : |(m : ℚ)| < 2 ^ 53 := by exact_mod_cast hm
    have e53 : (2 : ℚ) ^ (53 : ℤ) = 2 ^ 53 := by norm_cast
    rw [e53]
    exact mul_lt_mul_of_pos_right this p
  have hfe : j < 53 + e := (zpow_lt_zpow_iff_right₀ (by norm_num : (1 : ℚ) < 2)).1 hlt
  refine ⟨m * 2 ^ (e - (j - 52)).toNat, ?_⟩
  push_cast
  rw [mul_assoc, ← zpow_natCast, ← zpow_add₀ (by norm_num)]
  congr 2; omega

/-- adding one half to a nonnegative double below 2^52 does not round up to the next integer, with one exception -/
theorem floor_half {rnd : ℚ → ℚ} (h : IsRnd rnd) {x : ℚ} (hd : IsDouble x) (h0 : 0 ≤ x) (h1 : x < 2 ^ 52) (hne : x ≠ belowHalf) : ⌊rnd (x + 1 / 2)⌋ = ⌊x + 1 / 2⌋ := by
  obtain ⟨k, hk⟩ : ∃ k : ℤ, ⌊x + 1 / 2⌋ = k := ⟨_, rfl⟩
  have f1 : (k : ℚ) ≤ x + 1 / 2 := by rw [← hk]; exact Int.floor_le _
  have f2 : x + 1 / 2 < k + 1 := by rw [← hk]; exact Int.lt_floor_add_one _
  have k0 : 0 ≤ k := by rw [← hk]; exact Int.floor_nonneg.2 (by linarith)
  have k1 : k ≤ 2 ^ 52 := by
    rw [← hk]
    have : ⌊x + 1 / 2⌋ < 2 ^ 52 + 1 := by rw [Int.floor_lt]; push_cast; linarith
    omega
  have lo := h.ge_of_ge (isDouble_int k (by rw [abs_of_nonneg k0]; omega)) f1
  have hi := h.le_of_le (x := x + 1 / 2) (y := ((k + 1 : ℤ) : ℚ)) (isDouble_int (k + 1) (by rw [abs_of_nonneg (by omega)]; omega)) (by push_cast; linarith)
  rw [hk, Int.floor_eq_iff]
  refine ⟨lo, lt_of_le_of_ne (by push_cast at hi; exact hi) ?_⟩
  intro hup
  -- it is in the last quarter below k + 1
  have hhalf : IsDouble ((k : ℚ) + 1 / 2) ∨ k = 2 ^ 52 := by
    rcases k1.lt_or_eq with hlt | heq
    · left
      exact ⟨2 * k + 1, -1, by rw [abs_of_nonneg (by omega)]; omega, by norm_num, by push_cast; rw [zpow_neg_one]; ring⟩
    · exact .inr heq
  have hq : (k : ℚ) + 3 / 4 ≤ x + 1 / 2 := by
    rcases hhalf with hh | hh
    · have := h.near (x + 1 / 2) _ hh
      rw [hup, abs_of_pos (by linarith)] at this
      rcases abs_cases ((k : ℚ) + 1 / 2 - (x + 1 / 2)) with ⟨e, _⟩ | ⟨e, _⟩ <;> rw [e] at this <;> linarith
    · -- then the sum is the integer itself
      exfalso
      have hkd := h.near (x + 1 / 2) k (isDouble_int k (by rw [abs_of_nonneg k0]; omega))
      rw [hup, abs_of_pos (by linarith), abs_of_nonpos (by linarith)] at hkd
      rw [hh] at hkd
      push_cast at hkd
      linarith
  rcases k0.eq_or_lt with hk0 | hk0
  · -- below one half: multiples of 2^-54
    rw [← hk0] at hq f2 hup
    push_cast at hq f2 hup
    obtain ⟨n, hn⟩ := double_grid hd (j := -2) (by rw [abs_of_nonneg h0]; norm_num; linarith)
    have e54 : (2 : ℚ) ^ (-2 - 52 : ℤ) = 1 / 2 ^ 54 := by norm_num
    rw [e54] at hn
    have hlt : (n : ℚ) < 2 ^ 53 := by
      have : (n : ℚ) * (1 / 2 ^ 54) < 1 / 2 := by linarith
      rw [mul_one_div, div_lt_iff₀ (by norm_num)] at this
      linarith
    have hn' : n < 2 ^ 53 := by exact_mod_cast hlt
    have hd1 : IsDouble (1 - 1 / 2 ^ 53) := ⟨2 ^ 53 - 1, -53, by norm_num, by norm_num, by norm_num⟩
    have := h.near (x + 1 / 2) _ hd1
    rw [hup, abs_of_pos (by linarith)] at this
    have hn2 : n ≠ 2 ^ 53 - 1 := by
      rintro rfl
      apply hne
      rw [hn, belowHalf]; push_cast; norm_num
    have hn3 : (n : ℚ) ≤ 2 ^ 53 - 2 := by
      have : n ≤ 2 ^ 53 - 2 := by omega
      exact_mod_cast this
    have hx2 : x ≤ (2 ^ 53 - 2) * (1 / 2 ^ 54) := by rw [hn]; gcongr
    rw [abs_of_nonneg (by rw [sub_nonneg]; linarith)] at this
    linarith
  · -- no binade is left
    obtain ⟨j, hj1, hj2⟩ : ∃ j : ℕ, 2 ^ j ≤ k ∧ k + 1 ≤ 2 ^ (j + 1) := by
      refine ⟨Nat.log 2 k.toNat, ?_, ?_⟩
      · have := Nat.pow_log_le_self 2 (x := k.toNat) (by omega)
        have : ((2 ^ Nat.log 2 k.toNat : ℕ) : ℤ) ≤ k.toNat := by exact_mod_cast this
        push_cast at this; omega
      · have := Nat.lt_pow_succ_log_self (b := 2) (by norm_num) k.toNat
        have : ((k.toNat : ℕ) : ℤ) < (2 ^ (Nat.log 2 k.toNat + 1) : ℕ) := by exact_mod_cast this
        push_cast at this
        simp only [pow_succ] at this ⊢
        omega
    have hj52 : j ≤ 52 := by
      by_contra hc
      have : (2 : ℤ) ^ 53 ≤ 2 ^ j := pow_le_pow_right₀ (by norm_num) (by omega)
      omega
    -- k < 2^52 here
    have hk52 : k < 2 ^ 52 := by
      have : (k : ℚ) < 2 ^ 52 := by linarith
      exact_mod_cast this
    have hj51 : j ≤ 51 := by
      by_contra hc
      have : (2 : ℤ) ^ 52 ≤ 2 ^ j := pow_le_pow_right₀ (by norm_num) (by omega)
      omega
    have hk' : ((2 : ℚ) ^ j) ≤ k := by exact_mod_cast hj1
    have hk'' : (k : ℚ) + 1 ≤ 2 ^ (j + 1) := by exact_mod_cast hj2
    obtain ⟨n, hn⟩ := double_grid hd (j := j) (by rw [abs_of_nonneg h0, zpow_natCast]; linarith)
    have ehalf : (1 / 2 : ℚ) = (2 ^ (51 - j) : ℕ) * 2 ^ ((j : ℤ) - 52) := by
      push_cast
      rw [← zpow_natCast, ← zpow_add₀ (by norm_num)]
      rw [show ((51 - j : ℕ) : ℤ) + ((j : ℤ) - 52) = -1 by omega]
      norm_num
    have es : x + 1 / 2 = ((n + 2 ^ (51 - j) : ℤ) : ℚ) * 2 ^ ((j : ℤ) - 52) := by
      rw [ehalf]
      nth_rewrite 1 [hn]
      push_cast
      ring
    have p : (0 : ℚ) < 2 ^ ((j : ℤ) - 52) := by positivity
    have hlt : ((n + 2 ^ (51 - j) : ℤ) : ℚ) < 2 ^ 53 := by
      have h5 : ((n + 2 ^ (51 - j) : ℤ) : ℚ) * 2 ^ ((j : ℤ) - 52) < 2 ^ 53 * 2 ^ ((j : ℤ) - 52) := by
        rw [← es]
        have e53 : (2 : ℚ) ^ 53 * 2 ^ ((j : ℤ) - 52) = 2 ^ (j + 1) := by
          rw [← zpow_natCast 2 53, ← zpow_add₀ (by norm_num), ← zpow_natCast 2 (j + 1)]
          congr 1; push_cast; ring
        rw [e53]; linarith
      exact lt_of_mul_lt_mul_right h5 p.le
    have hge : (0 : ℚ) ≤ ((n + 2 ^ (51 - j) : ℤ) : ℚ) := by
      by_contra hc
      have := mul_neg_of_neg_of_pos (not_le.1 hc) p
      rw [← es] at this
      linarith
    have hds : IsDouble (x + 1 / 2) := by
      refine ⟨_, _, ?_, by omega, es⟩
      rw [abs_of_nonneg (by exact_mod_cast hge)]
      exact_mod_cast hlt
    rw [h.fix hds] at hup
    linarith

/-- the same for large numbers: the sum is rounded to the number itself or the next -/
theorem add_half_large {rnd : ℚ → ℚ} (h : IsRnd rnd) {x : ℚ} (hd : IsDouble x) (h1 : 2 ^ 52 ≤ x) :
    (rnd (x + 1 / 2) = x ∨ (x < 2 ^ 53 ∧ rnd (x + 1 / 2) = x + 1)) ∧ ∃ n : ℤ, x = n := by
  obtain ⟨n, hn⟩ := double_grid hd (j := 52) (by rw [abs_of_nonneg (by linarith [show (0 : ℚ) < 2 ^ 52 by norm_num])]; exact_mod_cast h1)
  have hn' : x = n := by rw [hn]; norm_num
  refine ⟨?_, n, hn'⟩
  have lo := h.ge_of_ge hd (show x ≤ x + 1 / 2 by linarith)
  have near := h.near (x + 1 / 2) x hd
  have e : |x - (x + 1 / 2)| = 1 / 2 := by rw [show x - (x + 1 / 2) = -(1 / 2) by ring, abs_neg, abs_of_pos (by norm_num)]
  rw [e] at near
  have hle : rnd (x + 1 / 2) ≤ x + 1 := by linarith [(abs_le.1 near).2]
  rcases lt_or_ge x (2 ^ 53) with hx | hx
  · obtain ⟨m, hm⟩ := double_grid (h.mem (x + 1 / 2)) (j := 52) (by
      rw [abs_of_nonneg (by linarith [show (0 : ℚ) < 2 ^ 52 by norm_num])]
      have : (2 : ℚ) ^ (52 : ℤ) = 2 ^ 52 := by norm_cast
      rw [this]; linarith)
    have hm' : rnd (x + 1 / 2) = m := by rw [hm]; norm_num
    rw [hm', hn'] at lo hle
    have l1 : n ≤ m := by exact_mod_cast lo
    have l2 : m ≤ n + 1 := by exact_mod_cast hle
    rw [hm', hn']
    rcases l1.eq_or_lt with c | c
    · left; rw [c]
    · right
      refine ⟨by rw [← hn']; exact hx, ?_⟩
      have : m = n + 1 := by omega
      rw [this]; push_cast; ring
  · left
    obtain ⟨m, hm⟩ := double_grid (h.mem (x + 1 / 2)) (j := 53) (by
      rw [abs_of_nonneg (by linarith [show (0 : ℚ) < 2 ^ 53 by norm_num])]
      have : (2 : ℚ) ^ (53 : ℤ) = 2 ^ 53 := by norm_cast
      rw [this]; linarith)
    obtain ⟨l, hl⟩ := double_grid hd (j := 53) (by
      rw [abs_of_nonneg (by linarith [show (0 : ℚ) < 2 ^ 53 by norm_num])]
      have : (2 : ℚ) ^ (53 : ℤ) = 2 ^ 53 := by norm_cast
      rw [this]; exact hx)
    have e1 : (2 : ℚ) ^ (53 - 52 : ℤ) = 2 := by norm_num
    rw [e1] at hm hl
    rw [hm] at lo hle ⊢
    rw [hl] at lo hle ⊢
    have l1 : l ≤ m := by
      have : (l : ℚ) ≤ m := by linarith
      exact_mod_cast this
    have l2 : m < l + 1 := by
      have : (m : ℚ) < l + 1 := by linarith
      exact_mod_cast this
    have : m = l := by omega
    rw [this]

/-! ## Theorems -/

/-- **C118** (claim) `round` of a finite double is the nearest integer, halves away from zero. -/
def C118_claim : Prop := ∀ x : ℚ, IsDouble x → |x| < tooBig → round rndEven (.fin x) = .fin (nearestInt x)

/-- **C118** is false: the largest double below one half is rounded to 1, and 2^52 + 1 to 2^52 + 2. -/
theorem C118_negation : ¬ C118_claim ∧ round rndEven (.fin belowHalf) = .fin 1 ∧ round rndEven (.fin (2 ^ 52 + 1)) = .fin (2 ^ 52 + 2) ∧ nearestInt belowHalf = 0 ∧ nearestInt (2 ^ 52 + 1) = 2 ^ 52 + 1 := by
  have h1 : round rndEven (.fin belowHalf) = .fin 1 := by decide +kernel
  have h2 : nearestInt belowHalf = 0 := by decide +kernel
  refine ⟨?_, h1, by decide +kernel, h2, by decide +kernel⟩
  intro hc
  have := hc belowHalf ⟨2 ^ 53 - 1, -54, by norm_num, by norm_num, by norm_num [belowHalf]⟩ (by
    have : (2 : ℚ) ^ 0 < tooBig := pow_lt_pow_right₀ (by norm_num) (by norm_num)
    have e : |belowHalf| < 1 := by rw [abs_of_pos (by norm_num [belowHalf])]; norm_num [belowHalf]
    linarith)
  rw [h1, h2] at this
  simp at this

theorem round_nonneg {rnd : ℚ → ℚ} {x : ℚ} (hx : 0 ≤ x) (hb : |rnd (x + 1 / 2)| < tooBig) : round rnd (.fin x) = .fin ⌊rnd (x + 1 / 2)⌋ := by
  simp only [round, Fp.lt, decide_eq_true_eq, not_lt.2 hx, if_false, fadd, Fp.add, rounded, if_pos hb, ffloor]

theorem round_neg {rnd : ℚ → ℚ} {x : ℚ} (hx : x < 0) (hb : |rnd (x - 1 / 2)| < tooBig) : round rnd (.fin x) = .fin ⌈rnd (x - 1 / 2)⌉ := by
  have : (Fp.fin x).sub (.fin (1 / 2)) = .fin (x - 1 / 2) := by simp [Fp.sub, Fp.neg, Fp.add, sub_eq_add_neg]
  simp only [round, Fp.lt, decide_eq_true_eq, hx, if_true, fsub, this, rounded, if_pos hb, fceil]

theorem small_lt {x : ℚ} (h : |x| ≤ 2 ^ 54) : |x| < tooBig :=
  h.trans_lt (pow_lt_pow_right₀ (by norm_num) (by norm_num))

/-- **C118** below 2^52 in magnitude and with the exception of ±(1/2 − 2^-54) `round` gives the nearest integer, halves away from zero, however ties are rounded; from 2^53 on it gives the number itself, which is an integer; between it
gives the number or the next integer away from zero.  Infinities and NaN stay. -/
theorem C118_round_partial {rnd : ℚ → ℚ} (h : IsRnd rnd) :
    (∀ x : ℚ, IsDouble x → |x| < 2 ^ 52 → |x| ≠ belowHalf → round rnd (.fin x) = .fin (nearestInt x)) ∧
    (∀ x : ℚ, IsDouble x → 2 ^ 53 ≤ |x| → |x| < tooBig → round rnd (.fin x) = .fin x ∧ x = nearestInt x) ∧
    (∀ x : ℚ, IsDouble x → 2 ^ 52 ≤ |x| → |x| < 2 ^ 53 → x = nearestInt x ∧ (round rnd (.fin x) = .fin x ∨ round rnd (.fin x) = .fin (if x < 0 then x - 1 else x + 1))) ∧
    (∀ s, round rnd (.inf s) = .inf s) ∧ round rnd .nan = .nan := by
  have hneg := IsRnd_neg h
  -- an integer is its own nearest integer
  have hint : ∀ n : ℤ, nearestInt n = n := by
    intro n
    unfold nearestInt
    have : ∀ m : ℤ, ⌊(m : ℚ) + 1 / 2⌋ = m := by
      intro m; rw [Int.floor_eq_iff]; constructor <;> linarith
    split_ifs
    · have := this (-n); push_cast at this; rw [this]; ring
    · exact this n
  have flip : ∀ x : ℚ, -rnd (-(-x + 1 / 2)) = -rnd (x - 1 / 2) := by
    intro x; congr 2; ring
  have hce : ∀ x : ℚ, ⌈rnd (x - 1 / 2)⌉ = -⌊-rnd (-(-x + 1 / 2))⌋ := by
    intro x; rw [flip, Int.floor_neg, neg_neg]
  refine ⟨?_, ?_, ?_, ?_, ?_⟩
  · intro x hd hb hne
    rcases le_or_gt 0 x with hx | hx
    · rw [abs_of_nonneg hx] at hb hne
      have hf := floor_half h hd hx hb hne
      rw [round_nonneg hx, hf]
      · simp [nearestInt, not_lt.2 hx]
      · apply small_lt
        have h2 := h.le_of_le (y := ((2 ^ 53 - 1 : ℤ) : ℚ)) (isDouble_int _ (by norm_num)) (x := x + 1 / 2) (by norm_num; linarith)
        have h3 := h.nonneg (x := x + 1 / 2) (by linarith)
        rw [abs_of_nonneg h3]
        push_cast at h2
        linarith
    · rw [abs_of_neg hx] at hb hne
      have hf := floor_half hneg hd.neg (by linarith) hb hne
      rw [round_neg hx, hce, hf]
      · simp [nearestInt, hx]
      · apply small_lt
        have h2 := hneg.le_of_le (y := ((2 ^ 53 - 1 : ℤ) : ℚ)) (isDouble_int _ (by norm_num)) (x := -x + 1 / 2) (by norm_num; linarith)
        have h3 := hneg.nonneg (x := -x + 1 / 2) (by linarith)
        simp only [flip] at h2 h3
        rw [← abs_neg, abs_of_nonneg h3]
        push_cast at h2
        linarith
  · intro x hd hb hlt
    rcases le_or_gt 0 x with hx | hx
    · rw [abs_of_nonneg hx] at hb
      obtain ⟨h2, n, hn⟩ := add_half_large h hd (by linarith)
      have he : rnd (x + 1 / 2) = x := by
        rcases h2 with h2 | h2
        · exact h2
        · linarith [h2.1]
      refine ⟨?_, by rw [hn, hint]⟩
      rw [round_nonneg hx (by rw [he]; exact hlt), he, hn]
      simp
    · rw [abs_of_neg hx] at hb
      obtain ⟨h2, n, hn⟩ := add_half_large hneg hd.neg (by linarith)
      have he : -rnd (-(-x + 1 / 2)) = -x := by
        rcases h2 with h2 | h2
        · exact h2
        · linarith [h2.1]
      have hn' : x = ((-n : ℤ) : ℚ) := by push_cast; linarith
      refine ⟨?_, by rw [hn', hint]⟩
      rw [round_neg hx, hce, he, hn]
      · simp [hn']
      · rw [flip] at he
        rw [neg_injective he]; exact hlt
  · intro x hd hb hlt
    rcases le_or_gt 0 x with hx | hx
    · rw [abs_of_nonneg hx] at hb hlt
      obtain ⟨h2, n, hn⟩ := add_half_large h hd hb
      refine ⟨by rw [hn, hint], ?_⟩
      rw [if_neg (not_lt.2 hx)]
      rcases h2 with h2 | ⟨-, h2⟩
      · left
        rw [round_nonneg hx (by rw [h2]; exact small_lt (by rw [abs_of_nonneg hx]; linarith)), h2, hn]
        simp
      · right
        rw [round_nonneg hx (by rw [h2]; exact small_lt (by rw [abs_of_nonneg (by linarith)]; linarith)), h2, hn]
        simp
    · rw [abs_of_neg hx] at hb hlt
      obtain ⟨h2, n, hn⟩ := add_half_large hneg hd.neg hb
      have hn' : x = ((-n : ℤ) : ℚ) := by push_cast; linarith
      refine ⟨by rw [hn', hint], ?_⟩
      rw [if_pos hx]
      rcases h2 with h2 | ⟨-, h2⟩
      · left
        rw [round_neg hx, hce, h2, hn]
        · simp [hn']
        · rw [flip] at h2
          rw [neg_injective h2]; exact small_lt (by rw [abs_of_neg hx]; linarith)
      · right
        rw [round_neg hx, hce, h2, hn]
        · rw [hn']; push_cast
          rw [show (⌊(n : ℚ) + 1⌋ : ℤ) = n + 1 by rw [Int.floor_eq_iff]; push_cast; constructor <;> linarith]
          push_cast
          congr 1; ring
        · rw [flip] at h2
          rw [← abs_neg, h2]
          exact small_lt (by rw [abs_of_pos (by linarith)]; linarith)
  · intro s
    cases s <;> rfl
  · rfl

/-- Concrete: 5/2 becomes 3, −5/2 becomes −3, 7/4 becomes 2. -/
example : round rndEven (.fin (5 / 2)) = .fin 3 ∧ round rndEven (.fin (-5 / 2)) = .fin (-3) ∧ round rndEven (.fin (7 / 4)) = .fin 2 := by
  decide +kernel

end Verif.NumericDouble
