import Verif.Common.FormatSpec
import Verif.PTree.CodecsLemmas
import Verif.PTree.CodecsProps

/-!
# Lemmas about formatted numbers (C176)
-/

namespace Verif.Format

open Verif.Common Verif.PTree Verif.PTree.Codecs

/-! ## digits -/

theorem natOf_lt {d : Str} (hd : AllDigits d) : Nat.ofDigitChars 10 d 0 < 10 ^ d.length := by
  induction d with
  | nil => simp [Nat.ofDigitChars]
  | cons c d ih =>
    have h := natOf_append [c] d
    rw [List.singleton_append] at h
    have hc : Nat.ofDigitChars 10 [c] 0 < 10 := by
      have := hd c (by simp)
      simp only [String.reduceToList, List.mem_cons, List.not_mem_nil, or_false] at this
      rcases this with rfl | rfl | rfl | rfl | rfl | rfl | rfl | rfl | rfl | rfl <;> decide
    have := ih fun x hx => hd x (by simp [hx])
    rw [h, List.length_cons, pow_succ]
    nlinarith

theorem toDigits_head {m : ℕ} (h : 0 < m) : (Nat.toDigits 10 m).head? ≠ some '0' := by
  intro hc
  obtain ⟨t, ht⟩ : ∃ t, Nat.toDigits 10 m = '0' :: t := by
    cases hd : Nat.toDigits 10 m with
    | nil => rw [hd] at hc; simp at hc
    | cons c t => rw [hd] at hc; simp at hc; exact ⟨t, by rw [hc]⟩
  have hv : Nat.ofDigitChars 10 (Nat.toDigits 10 m) 0 = m := Nat.ofDigitChars_ten_toDigits
  have had := allDigits_toDigits m
  rw [ht, natOf_zero_cons] at hv
  rw [ht] at had
  have hlt : m < 10 ^ t.length := by
    have := natOf_lt (d := t) fun x hx => had x (by simp [hx])
    rwa [hv] at this
  rcases Nat.eq_zero_or_pos t.length with h0 | h0
  · rw [h0] at hlt; simp at hlt; omega
  · have := (Nat.length_toDigits_le_iff (b := 10) (n := m) (k := t.length) (by norm_num) h0).mpr hlt
    rw [ht] at this
    simp at this

/-! ## nearest decimals -/

theorem near_best {near : ℚ → ℤ} (hn : IsNearest near) (y : ℚ) (k : ℤ) : |(near y : ℚ) - y| ≤ |(k : ℚ) - y| := by
  by_cases h : k = near y
  · rw [h]
  · have h1 := hn y
    have h2 : (1 : ℚ) ≤ |(k : ℚ) - near y| := by
      have : (1 : ℤ) ≤ |k - near y| := Int.one_le_abs (sub_ne_zero.mpr h)
      exact_mod_cast this
    have h3 : |(k : ℚ) - near y| ≤ |(k : ℚ) - y| + |(near y : ℚ) - y| := by
      have := abs_sub_le (k : ℚ) y (near y)
      rwa [abs_sub_comm y] at this
    linarith

theorem near_mono {near : ℚ → ℤ} (hn : IsNearest near) {y z : ℚ} (h : y ≤ z) : near y ≤ near z := by
  rcases h.eq_or_lt with rfl | h
  · rfl
  · by_contra hc
    push Not at hc
    have h1 := abs_le.mp (hn y)
    have h2 := abs_le.mp (hn z)
    have h3 : ((near z + 1 : ℤ) : ℚ) ≤ near y := Int.cast_le.mpr hc
    push_cast at h3
    linarith

theorem near_nonneg {near : ℚ → ℤ} (hn : IsNearest near) {y : ℚ} (h : 0 ≤ y) : 0 ≤ near y := by
  have := near_mono hn h
  rwa [show (0 : ℚ) = ((0 : ℤ) : ℚ) by simp, near_int hn] at this

theorem fixedMag_spec {near : ℚ → ℤ} (hn : IsNearest near) (p : ℕ) {a : ℚ} (ha : 0 ≤ a) :
    FixedText p (fixedMag near p a) ((near (a * 10 ^ p) : ℚ) / 10 ^ p) := by
  have h0 := near_nonneg hn (y := a * 10 ^ p) (by positivity)
  unfold fixedMag
  simp only
  obtain ⟨m, hm⟩ : ∃ m : ℕ, near (a * 10 ^ p) = m := ⟨_, (Int.toNat_of_nonneg h0).symm⟩
  rw [hm, Int.toNat_natCast]
  have hd := allDigits_toDigits m
  have hv : Nat.ofDigitChars 10 (Nat.toDigits 10 m) 0 = m := Nat.ofDigitChars_ten_toDigits
  have hh : 2 ≤ (Nat.toDigits 10 m).length → (Nat.toDigits 10 m).head? ≠ some '0' := by
    intro h2
    refine toDigits_head ?_
    rcases Nat.eq_zero_or_pos m with h | h
    · subst h; simp at h2
    · exact h
  revert hd hv hh
  generalize Nat.toDigits 10 m = d
  intro hd hv hh
  have hds : AllDigits (List.replicate (p + 1 - d.length) '0' ++ d) := by
    intro c hc
    rcases List.mem_append.mp hc with h | h
    · rw [List.eq_of_mem_replicate h]; decide
    · exact hd c h
  have hl : (List.replicate (p + 1 - d.length) '0' ++ d).length = max (p + 1) d.length := by
    rw [List.length_append, List.length_replicate]; omega
  have hdv : Nat.ofDigitChars 10 (List.replicate (p + 1 - d.length) '0' ++ d) 0 = m := by
    rw [natOf_append, natOf_zeros, hv]; simp
  have hdh : p + 2 ≤ (List.replicate (p + 1 - d.length) '0' ++ d).length → (List.replicate (p + 1 - d.length) '0' ++ d).head? ≠ some '0' := by
    rw [hl]
    intro h
    have : p + 1 - d.length = 0 := by omega
    rw [this, List.replicate_zero, List.nil_append]
    exact hh (by omega)
  revert hds hl hdv hdh
  generalize List.replicate (p + 1 - d.length) '0' ++ d = ds
  intro hds hl hdv hdh
  refine ⟨ds.take (ds.length - p), ds.drop (ds.length - p), fun c hc => hds c (List.mem_of_mem_take hc),
    fun c hc => hds c (List.mem_of_mem_drop hc), ?_, ?_, ?_, ?_, ?_⟩
  · intro h
    have := congrArg List.length h
    rw [List.length_take, List.length_nil] at this
    omega
  · rw [List.length_take]
    intro h
    rw [List.head?_take, if_neg (by omega)]
    exact hdh (by omega)
  · rw [List.length_drop]; omega
  · split <;> simp
  · rw [List.take_append_drop, hdv]; simp

theorem fixed_dec {p : ℕ} {t : Str} {q : ℚ} (h : FixedText p t q) : DecText t q := by
  obtain ⟨i, f, hi, hf, hne, -, hl, rfl, rfl⟩ := h
  by_cases hp : p = 0
  · subst hp
    have : f = [] := List.length_eq_zero_iff.mp hl
    subst this
    exact ⟨i, [], [], [], 0, by simp, hi, .none, .none, by simpa using hne, by simp⟩
  · refine ⟨i, '.' :: f, f, [], 0, by simp [hp], hi, .some hf, .none, by simp [hne], ?_⟩
    rw [hl, zero_sub, zpow_neg, zpow_natCast, div_eq_mul_inv]

theorem fixed_unique {p : ℕ} {t : Str} {q q' : ℚ} (h : FixedText p t q) (h' : FixedText p t q') : q = q' := by
  obtain ⟨i, f, hi, hf, hne, -, hl, ht, rfl⟩ := h
  obtain ⟨i', f', hi', hf', hne', -, hl', ht', rfl⟩ := h'
  have : i ++ f = i' ++ f' := by
    by_cases hp : p = 0
    · rw [if_pos hp] at ht ht'
      rw [hp] at hl hl'
      rw [List.length_eq_zero_iff.mp hl, List.length_eq_zero_iff.mp hl', ← ht, ← ht']
    · rw [if_neg hp] at ht ht'
      rw [ht] at ht'
      have := List.append_inj' ht' (by simp [hl, hl'])
      rw [this.1, (List.cons.inj this.2).2]
  rw [this]

/-! ## scientific notation -/

theorem decSig_spec {near : ℚ → ℤ} (hn : IsNearest near) (p : ℕ) {a : ℚ} (ha : 0 < a) :
    10 ^ p ≤ (decSig near p a).1 ∧ (decSig near p a).1 < 10 ^ (p + 1) ∧
      ((decSig near p a).2 = Int.log 10 a ∨ (decSig near p a).2 = Int.log 10 a + 1 ∧ (decSig near p a).1 = 10 ^ p) ∧
      ((decSig near p a).1 : ℚ) * 10 ^ ((decSig near p a).2 - p) =
        near (a / 10 ^ (Int.log 10 a - p)) * 10 ^ (Int.log 10 a - p) := by
  have l1 := Int.zpow_log_le_self (b := 10) (by norm_num) ha
  have l2 := Int.lt_zpow_succ_log_self (b := 10) (by norm_num) a
  push_cast at l1 l2
  unfold decSig
  simp only
  generalize Int.log 10 a = x at l1 l2
  have pp : (0 : ℚ) < 10 ^ (x - p) := by positivity
  have e1 : (10 : ℚ) ^ x = 10 ^ p * 10 ^ (x - p) := by
    rw [← zpow_natCast, ← zpow_add₀ (by norm_num)]; congr 1; ring
  have e2 : (10 : ℚ) ^ (x + 1) = 10 ^ (p + 1) * 10 ^ (x - p) := by
    rw [← zpow_natCast, ← zpow_add₀ (by norm_num)]; congr 1; push_cast; ring
  have b1 : (((10 : ℤ) ^ p : ℤ) : ℚ) ≤ a / 10 ^ (x - p) := by push_cast; rw [le_div_iff₀ pp, ← e1]; exact l1
  have b2 : a / 10 ^ (x - p) ≤ (((10 : ℤ) ^ (p + 1) : ℤ) : ℚ) := by push_cast; rw [div_le_iff₀ pp, ← e2]; exact l2.le
  have c1 : (10 : ℤ) ^ p ≤ near (a / 10 ^ (x - p)) := by have := near_mono hn b1; rwa [near_int hn] at this
  have c2 : near (a / 10 ^ (x - p)) ≤ (10 : ℤ) ^ (p + 1) := by have := near_mono hn b2; rwa [near_int hn] at this
  have p0 : (0 : ℤ) < 10 ^ p := by positivity
  revert c1 c2
  generalize near (a / 10 ^ (x - p)) = k
  intro c1 c2
  obtain ⟨n, rfl⟩ : ∃ n : ℕ, k = n := ⟨k.toNat, (Int.toNat_of_nonneg (by omega)).symm⟩
  rw [Int.toNat_natCast]
  have c1' : 10 ^ p ≤ n := by exact_mod_cast c1
  have c2' : n ≤ 10 ^ (p + 1) := by exact_mod_cast c2
  split
  · rename_i h
    refine ⟨le_refl _, by simp only [pow_succ]; have : 0 < 10 ^ p := by positivity
                          omega, Or.inr ⟨rfl, rfl⟩, ?_⟩
    simp only
    rw [h, show x + 1 - (p : ℤ) = (x - p) + 1 by ring, zpow_add₀ (by norm_num)]
    push_cast
    ring
  · rename_i h
    exact ⟨c1', by omega, Or.inl rfl, by simp⟩

/-- no decimal with as many digits is nearer -/
theorem decSig_best {near : ℚ → ℤ} (hn : IsNearest near) (p : ℕ) {a : ℚ} (ha : 0 < a) (k : ℕ) (e : ℤ) (hk : k < 10 ^ (p + 1)) :
    |((decSig near p a).1 : ℚ) * 10 ^ ((decSig near p a).2 - p) - a| ≤ |(k : ℚ) * 10 ^ e - a| := by
  rw [(decSig_spec hn p ha).2.2.2]
  have l1 := Int.zpow_log_le_self (b := 10) (by norm_num) ha
  push_cast at l1
  revert l1
  generalize Int.log 10 a = x
  intro l1
  have pp : (0 : ℚ) < 10 ^ (x - p) := by positivity
  -- on the grid of the last digit
  have grid : ∀ n : ℤ, |(near (a / 10 ^ (x - p)) : ℚ) * 10 ^ (x - p) - a| ≤ |(n : ℚ) * 10 ^ (x - p) - a| := by
    intro n
    have e1 : ∀ z : ℚ, z * 10 ^ (x - p) - a = (z - a / 10 ^ (x - p)) * 10 ^ (x - p) := by intro z; field_simp
    rw [e1, e1, abs_mul, abs_mul]
    exact mul_le_mul_of_nonneg_right (near_best hn _ n) (abs_nonneg _)
  have e1 : (10 : ℚ) ^ x = 10 ^ p * 10 ^ (x - p) := by
    rw [← zpow_natCast, ← zpow_add₀ (by norm_num)]; congr 1; ring
  rcases lt_or_ge e (x - p) with he | he
  · -- finer than the grid: below 10 ^ x
    have hle : (k : ℚ) * 10 ^ e ≤ 10 ^ x := by
      have h1 : (k : ℚ) ≤ 10 ^ (p + 1) := by exact_mod_cast hk.le
      calc (k : ℚ) * 10 ^ e ≤ 10 ^ (p + 1) * 10 ^ (x - p - 1) := by
            gcongr
            · norm_num
            · omega
        _ = 10 ^ x := by rw [← zpow_natCast, ← zpow_add₀ (by norm_num)]; congr 1; push_cast; ring
    refine (grid (10 ^ p)).trans ?_
    push_cast
    rw [← e1, abs_of_nonpos (by linarith), abs_of_nonpos (by linarith)]
    linarith
  · obtain ⟨j, hj⟩ : ∃ j : ℕ, e = x - p + j := ⟨(e - (x - p)).toNat, by omega⟩
    have := grid (k * 10 ^ j)
    push_cast at this
    rw [hj, zpow_add₀ (by norm_num), zpow_natCast]
    rwa [show (k : ℚ) * (10 ^ (x - p) * 10 ^ j) = k * 10 ^ j * 10 ^ (x - p) by ring]

theorem decSig_err {near : ℚ → ℤ} (hn : IsNearest near) (p : ℕ) {a : ℚ} (ha : 0 < a) :
    |((decSig near p a).1 : ℚ) * 10 ^ ((decSig near p a).2 - p) - a| * (2 * 10 ^ p) ≤ a := by
  rw [(decSig_spec hn p ha).2.2.2]
  have l1 := Int.zpow_log_le_self (b := 10) (by norm_num) ha
  push_cast at l1
  revert l1
  generalize Int.log 10 a = x
  intro l1
  have pp : (0 : ℚ) < 10 ^ (x - p) := by positivity
  have e1 : (10 : ℚ) ^ x = 10 ^ p * 10 ^ (x - p) := by
    rw [← zpow_natCast, ← zpow_add₀ (by norm_num)]; congr 1; ring
  have e3 : (near (a / 10 ^ (x - p)) : ℚ) * 10 ^ (x - p) - a = ((near (a / 10 ^ (x - p)) : ℚ) - a / 10 ^ (x - p)) * 10 ^ (x - p) := by
    field_simp
  rw [e3, abs_mul, abs_of_pos pp]
  have h5 : |((near (a / 10 ^ (x - p)) : ℚ) - a / 10 ^ (x - p))| * 10 ^ (x - p) ≤ 1 / 2 * 10 ^ (x - p) :=
    mul_le_mul_of_nonneg_right (hn _) pp.le
  have h6 := mul_le_mul_of_nonneg_right h5 (show (0 : ℚ) ≤ 2 * 10 ^ p by positivity)
  nlinarith

/-- the digits of an exponent -/
theorem expText_shape (x : ℤ) : ∃ sg d, expText x = 'e' :: sg :: d ∧ AllDigits d ∧ 2 ≤ d.length ∧ (2 < d.length → d.head? ≠ some '0') ∧
    sg ∈ ['+', '-'] ∧ x = (if sg = '-' then -(Nat.ofDigitChars 10 d 0 : ℤ) else Nat.ofDigitChars 10 d 0) ∧
    (x.natAbs < 100 → d.length = 2) := by
  have hd := allDigits_toDigits x.natAbs
  have hv : Nat.ofDigitChars 10 (Nat.toDigits 10 x.natAbs) 0 = x.natAbs := Nat.ofDigitChars_ten_toDigits
  have hpos := Nat.length_toDigits_pos (b := 10) (n := x.natAbs)
  have hh : 2 ≤ (Nat.toDigits 10 x.natAbs).length → (Nat.toDigits 10 x.natAbs).head? ≠ some '0' := by
    intro h2
    refine toDigits_head ?_
    rcases Nat.eq_zero_or_pos x.natAbs with h | h
    · rw [h] at h2; simp at h2
    · exact h
  have h99 : x.natAbs < 100 → (Nat.toDigits 10 x.natAbs).length ≤ 2 := fun h =>
    (Nat.length_toDigits_le_iff (b := 10) (n := x.natAbs) (k := 2) (by norm_num) (by norm_num)).mpr (by norm_num; exact h)
  unfold expText
  simp only
  revert hd hv hpos hh h99
  generalize Nat.toDigits 10 x.natAbs = ds
  intro hd hv hpos hh h99
  have hval : ∀ d : Str, Nat.ofDigitChars 10 d 0 = x.natAbs →
      x = (if (if x < 0 then '-' else '+') = '-' then -(Nat.ofDigitChars 10 d 0 : ℤ) else Nat.ofDigitChars 10 d 0) := by
    intro d h
    rw [h]
    by_cases hx : x < 0
    · rw [if_pos hx, if_pos rfl]; omega
    · rw [if_neg hx, if_neg (by decide)]; omega
  have hsg : (if x < 0 then '-' else '+') ∈ ['+', '-'] := by split <;> simp
  by_cases hl : ds.length < 2
  · rw [if_pos hl]
    refine ⟨_, '0' :: ds, rfl, ?_, by simp; omega, by simp; omega, hsg, hval _ (by rw [natOf_zero_cons, hv]), fun _ => by simp; omega⟩
    intro c hc
    rcases List.mem_cons.mp hc with rfl | h
    · decide
    · exact hd c h
  · rw [if_neg hl]
    exact ⟨_, ds, rfl, hd, by omega, fun h => hh (by omega), hsg, hval _ hv, fun h => by have := h99 h; omega⟩

theorem sciText_spec {p : ℕ} {ds : Str} {x : ℤ} (hd : AllDigits ds) (hl : ds.length = p + 1)
    (h0 : ds.head? = some '0' → Nat.ofDigitChars 10 ds 0 = 0) :
    SciText p (sciText p ds x) ((Nat.ofDigitChars 10 ds 0 : ℚ) * 10 ^ (x - p)) := by
  obtain ⟨sg, d, e, hd', h2, h3, hsg, hx, -⟩ := expText_shape x
  obtain ⟨c, f, rfl⟩ : ∃ c f, ds = c :: f := by
    cases ds with
    | nil => simp at hl
    | cons c f => exact ⟨c, f, rfl⟩
  refine ⟨c, f, sg, d, fun y hy => hd y (by simp at hy; simp [hy]), fun y hy => hd y (by simp [hy]), by simpa using hl, ?_, hd', h2, h3, hsg,
    ?_, ?_⟩
  · intro hc
    rw [h0 (by simp [hc])]; simp
  · unfold sciText
    rw [e]
    by_cases hp : p = 0 <;> simp [hp]
  · rw [← hx]

theorem sciText_length {p : ℕ} {ds : Str} {x : ℤ} (hl : ds.length = p + 1) (hx : x.natAbs < 1000) :
    p + 5 ≤ (sciText p ds x).length ∧ (sciText p ds x).length ≤ p + 7 ∧ (x.natAbs < 100 → (sciText p ds x).length ≤ p + 6) := by
  obtain ⟨sg, d, e, hd', h2, h3, hsg, hx', h100⟩ := expText_shape x
  have hlen : (sciText p ds x).length = (if p = 0 then 1 else p + 2) + 2 + d.length := by
    unfold sciText
    rw [e]
    by_cases hp : p = 0
    · simp [hp, hl]; omega
    · simp [hp, hl]; omega
  have hd3 : d.length ≤ 3 := by
    by_contra hc
    push Not at hc
    have hv : Nat.ofDigitChars 10 d 0 = x.natAbs := by
      rw [hx']
      split <;> simp
    cases d with
    | nil => simp at hc
    | cons c t =>
      have hlt : Nat.ofDigitChars 10 (c :: t) 0 < 1000 := by omega
      have hcz : c ≠ '0' := by
        intro h
        exact h3 (by omega) (by simp [h])
      have h := natOf_append [c] t
      rw [List.singleton_append] at h
      have hc1 : 1 ≤ Nat.ofDigitChars 10 [c] 0 := by
        have := hd' c (by simp)
        simp only [String.reduceToList, List.mem_cons, List.not_mem_nil, or_false] at this
        rcases this with rfl | rfl | rfl | rfl | rfl | rfl | rfl | rfl | rfl | rfl
        · exact absurd rfl hcz
        all_goals decide
      have hp : 10 ^ 3 ≤ 10 ^ t.length := Nat.pow_le_pow_right (by norm_num) (by simp at hc; omega)
      rw [h] at hlt
      have : 10 ^ t.length * 1 ≤ 10 ^ t.length * Nat.ofDigitChars 10 [c] 0 := Nat.mul_le_mul_left _ hc1
      norm_num at hp
      omega
  rw [hlen]
  refine ⟨?_, ?_, ?_⟩
  · split <;> omega
  · split <;> omega
  · intro h
    have := h100 h
    split <;> omega

theorem sciMag_spec {near : ℚ → ℤ} (hn : IsNearest near) (p : ℕ) {a : ℚ} (ha : 0 ≤ a) :
    ∃ q, SciText p (sciMag near p a) q ∧ (∀ (k : ℕ) (e : ℤ), k < 10 ^ (p + 1) → |q - a| ≤ |(k : ℚ) * 10 ^ e - a|) ∧
      |q - a| * (2 * 10 ^ p) ≤ a := by
  unfold sciMag
  by_cases h : a = 0
  · rw [if_pos h]
    have hz : Nat.ofDigitChars 10 (List.replicate (p + 1) '0') 0 = 0 := natOf_zeros _
    have := sciText_spec (p := p) (ds := List.replicate (p + 1) '0') (x := 0)
      (fun c hc => by rw [List.eq_of_mem_replicate hc]; decide) (by simp) (fun _ => hz)
    rw [hz] at this
    refine ⟨_, this, ?_, ?_⟩
    · intro k e _
      rw [h]; simp; positivity
    · rw [h]; simp
  · rw [if_neg h]
    have hp : 0 < a := lt_of_le_of_ne ha (Ne.symm h)
    obtain ⟨h1, h2, -, -⟩ := decSig_spec hn p hp
    have hv : Nat.ofDigitChars 10 (Nat.toDigits 10 (decSig near p a).1) 0 = (decSig near p a).1 := Nat.ofDigitChars_ten_toDigits
    have hpos : 0 < (decSig near p a).1 := lt_of_lt_of_le (by positivity) h1
    have := sciText_spec (p := p) (x := (decSig near p a).2) (allDigits_toDigits _) (length_toDigits h1 h2)
      (fun hc => absurd hc (toDigits_head hpos))
    rw [hv] at this
    exact ⟨_, this, fun k e hk => decSig_best hn p hp k e hk, decSig_err hn p hp⟩

theorem sci_dec {p : ℕ} {t : Str} {q : ℚ} (h : SciText p t q) : DecText t q := by
  obtain ⟨c, f, sg, x, hc, hf, hl, -, hx, h2, -, hsg, rfl, rfl⟩ := h
  have hx0 : x ≠ [] := by rintro rfl; simp at h2
  have hex : ExpText ('e' :: sg :: x) (if sg = '-' then -(Nat.ofDigitChars 10 x 0 : ℤ) else Nat.ofDigitChars 10 x 0) := by
    simp only [List.mem_cons, List.not_mem_nil, or_false] at hsg
    rcases hsg with rfl | rfl
    · exact .some (c := 'e') (sg := ['+']) (by simp) .plus hx hx0
    · exact .some (c := 'e') (sg := ['-']) (by simp) .minus hx hx0
  by_cases hp : p = 0
  · subst hp
    have : f = [] := List.length_eq_zero_iff.mp hl
    subst this
    exact ⟨[c], [], [], _, _, by simp, hc, .none, hex, by simp, by simp⟩
  · exact ⟨[c], '.' :: f, f, _, _, by simp [hp], hc, .some hf, hex, by simp, by rw [hl]; simp⟩

/-! ## reading back -/

/-- a decimal nearer to a double than half its gap to the neighbours is read as that double -/
theorem rnd_close {rnd : ℚ → ℚ} (hr : IsRnd rnd) {a q : ℚ} (ha : 0 < a) (hd : IsDouble a) (h : |q - a| * 2 ^ 54 < a) : rnd q = a := by
  by_contra hne
  have h1 := double_gap hd (hr.mem q) ha hne
  have h2 := hr.near q a hd
  have h3 : |rnd q - a| ≤ |rnd q - q| + |q - a| := by
    have := abs_add_le (rnd q - q) (q - a)
    rwa [sub_add_sub_cancel] at this
  rw [abs_sub_comm a q] at h2
  rw [div_le_iff₀ (by positivity)] at h1
  norm_num at h h1
  linarith

end Verif.Format
