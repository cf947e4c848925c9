import Verif.PTree.CodecsText

/-!
# Lemmas for the round trip of values through texts (C167)
-/

namespace Verif.PTree.Codecs

open Verif.Common

/-- rounding to a nearest integer, with any rule for ties -/
def IsNearest (near : ℚ → ℤ) : Prop := ∀ y, |(near y : ℚ) - y| ≤ 1 / 2

/-! ## numbers and their digits -/

theorem allDigits_toDigits (n : ℕ) : AllDigits (Nat.toDigits 10 n) := fun c hc =>
  (isDigit_iff c).mp (Nat.isDigit_of_mem_toDigits (by norm_num) (by norm_num) hc)

theorem natOf_append (a b : Str) : Nat.ofDigitChars 10 (a ++ b) 0 = 10 ^ b.length * Nat.ofDigitChars 10 a 0 + Nat.ofDigitChars 10 b 0 := by
  rw [Nat.ofDigitChars_append, Nat.ofDigitChars_eq_ofDigitChars_zero]

theorem natOf_zeros (k : ℕ) : Nat.ofDigitChars 10 (List.replicate k '0') 0 = 0 := by
  rw [Nat.ofDigitChars_replicate_zero]; simp

theorem natOf_zero_cons (ds : Str) : Nat.ofDigitChars 10 ('0' :: ds) 0 = Nat.ofDigitChars 10 ds 0 := by
  rw [Nat.ofDigitChars_cons]; rfl

theorem intText_print (n : ℤ) (h1 : -2147483648 ≤ n) (h2 : n ≤ 2147483647) : IntText (printInt n) n := by
  refine ⟨[], if n < 0 then ['-'] else [], decide (n < 0), Nat.toDigits 10 n.natAbs, [], ?_, by simp [Blank], by simp [Blank], ?_,
    allDigits_toDigits _, Nat.toDigits_ne_nil, ?_, h1, h2⟩
  · simp [printInt]
  · by_cases h : n < 0
    · simp only [h, if_true, decide_true]; exact .minus
    · simp only [h, if_false, decide_false]; exact .none
  · unfold signed
    rw [Nat.ofDigitChars_ten_toDigits]
    by_cases h : n < 0
    · simp only [h, decide_true, if_true]; omega
    · simp only [h, decide_false, Bool.false_eq_true, if_false]; omega

/-! ## the texts of `%.17g` -/

theorem stripZeros_split (f : Str) : ∃ k, f = stripZeros f ++ List.replicate k '0' := by
  unfold stripZeros
  obtain ⟨k, hk⟩ : ∃ k, f.reverse.takeWhile (· = '0') = List.replicate k '0' :=
    ⟨_, List.eq_replicate_of_mem fun c hc => by simpa using List.mem_takeWhile_imp hc⟩
  refine ⟨k, ?_⟩
  have := List.takeWhile_append_dropWhile (p := fun c : Char => decide (c = '0')) (l := f.reverse)
  rw [hk] at this
  have h2 := congrArg List.reverse this
  rw [List.reverse_append, List.reverse_replicate, List.reverse_reverse] at h2
  exact h2.symm

theorem allDigits_strip {f : Str} (hf : AllDigits f) : AllDigits (stripZeros f) := by
  obtain ⟨k, hk⟩ := stripZeros_split f
  intro c hc
  exact hf c (by rw [hk]; simp [hc])

theorem fracText_frac {f : Str} (hf : AllDigits f) : FracText (fracText f) (stripZeros f) := by
  unfold fracText
  split
  · rename_i h; rw [h]; exact .none
  · exact .some (allDigits_strip hf)

theorem strip_value (i f : Str) (e : ℤ) :
    (Nat.ofDigitChars 10 (i ++ stripZeros f) 0 : ℚ) * 10 ^ (e - ((stripZeros f).length : ℤ)) =
      (Nat.ofDigitChars 10 (i ++ f) 0 : ℚ) * 10 ^ (e - (f.length : ℤ)) := by
  obtain ⟨k, hk⟩ := stripZeros_split f
  have e1 : Nat.ofDigitChars 10 (i ++ f) 0 = 10 ^ k * Nat.ofDigitChars 10 (i ++ stripZeros f) 0 := by
    conv_lhs => rw [hk, ← List.append_assoc, natOf_append, natOf_zeros]
    simp
  have e2 : f.length = (stripZeros f).length + k := by conv_lhs => rw [hk]; simp
  rw [e1, e2]
  push_cast
  rw [show e - ((stripZeros f).length : ℤ) = (k : ℤ) + (e - (((stripZeros f).length : ℤ) + k)) by ring, zpow_add₀ (by norm_num), zpow_natCast]
  ring

theorem expText_exp (x : ℤ) : ExpText (expText x) x := by
  have hs : Sign [if x < 0 then '-' else '+'] (decide (x < 0)) := by
    by_cases h : x < 0
    · simp only [h, if_true, decide_true]; exact .minus
    · simp only [h, if_false, decide_false]; exact .plus
  have key : ∀ ds : Str, AllDigits ds → ds ≠ [] → Nat.ofDigitChars 10 ds 0 = x.natAbs →
      ExpText ('e' :: ([if x < 0 then '-' else '+'] ++ ds)) x := by
    intro ds h1 h2 h3
    have := ExpText.some (c := 'e') (by simp) hs h1 h2
    have e : signed (decide (x < 0)) ds = x := by
      unfold signed
      rw [h3]
      by_cases h : x < 0
      · simp only [h, decide_true, if_true]; omega
      · simp only [h, decide_false, Bool.false_eq_true, if_false]; omega
    rwa [e] at this
  unfold expText
  by_cases hlen : (Nat.toDigits 10 x.natAbs).length < 2
  · simp only [hlen, if_true]
    refine key ('0' :: Nat.toDigits 10 x.natAbs) ?_ (by simp) ?_
    · intro c hc
      rcases List.mem_cons.mp hc with rfl | hc
      · decide
      · exact allDigits_toDigits _ c hc
    · rw [natOf_zero_cons, Nat.ofDigitChars_ten_toDigits]
  · simp only [hlen, if_false]
    exact key _ (allDigits_toDigits _) Nat.toDigits_ne_nil Nat.ofDigitChars_ten_toDigits

theorem length_17 {m : ℕ} (h1 : 10 ^ 16 ≤ m) (h2 : m < 10 ^ 17) : (Nat.toDigits 10 m).length = 17 := by
  have a := (Nat.length_toDigits_le_iff (b := 10) (n := m) (k := 17) (by norm_num) (by norm_num)).mpr h2
  have b := (Nat.length_toDigits_le_iff (b := 10) (n := m) (k := 16) (by norm_num) (by norm_num)).not.mpr (by omega)
  omega

theorem decText_g {m : ℕ} (h1 : 10 ^ 16 ≤ m) (h2 : m < 10 ^ 17) (x : ℤ) : DecText (gText m x) ((m : ℚ) * 10 ^ (x - 16)) := by
  have hl := length_17 h1 h2
  have hd := allDigits_toDigits m
  have hv : Nat.ofDigitChars 10 (Nat.toDigits 10 m) 0 = m := Nat.ofDigitChars_ten_toDigits
  revert hl hd hv
  unfold gText
  simp only
  generalize Nat.toDigits 10 m = ds
  intro hl hd hv
  have hdt : ∀ k, AllDigits (ds.take k) := fun k c hc => hd c (List.mem_of_mem_take hc)
  have hdd : ∀ k, AllDigits (ds.drop k) := fun k c hc => hd c (List.mem_of_mem_drop hc)
  split
  · rename_i hx
    split
    · rename_i hx0
      refine ⟨ds.take (x.toNat + 1), fracText (ds.drop (x.toNat + 1)), stripZeros (ds.drop (x.toNat + 1)), [], 0, by simp, hdt _,
        fracText_frac (hdd _), .none, ?_, ?_⟩
      · intro h
        have := congrArg List.length (List.append_eq_nil_iff.mp h).1
        simp [hl] at this
      · rw [strip_value, List.take_append_drop, hv, List.length_drop, hl]
        congr 2
        omega
    · rename_i hx0
      have hz : AllDigits (List.replicate (-x - 1).toNat '0' ++ ds) := by
        intro c hc
        rcases List.mem_append.mp hc with h | h
        · rw [List.eq_of_mem_replicate h]; decide
        · exact hd c h
      refine ⟨['0'], fracText (List.replicate (-x - 1).toNat '0' ++ ds), stripZeros (List.replicate (-x - 1).toNat '0' ++ ds), [], 0,
        by simp, by simp [AllDigits], fracText_frac hz, .none, by simp, ?_⟩
      rw [strip_value, List.singleton_append, natOf_zero_cons, natOf_append, natOf_zeros, hv, List.length_append, List.length_replicate, hl]
      simp only [mul_zero, zero_add]
      congr 2
      push_cast
      omega
  · refine ⟨ds.take 1, fracText (ds.drop 1), stripZeros (ds.drop 1), expText x, x, rfl, hdt _, fracText_frac (hdd _), expText_exp x, ?_, ?_⟩
    · intro h
      have := congrArg List.length (List.append_eq_nil_iff.mp h).1
      simp [hl] at this
    · rw [strip_value, List.take_append_drop, hv, List.length_drop, hl]
      norm_num

/-! ## seventeen digits identify a double -/

/-- different doubles are apart by at least `2 ^ -53` of each of them -/
theorem double_gap {x y : ℚ} (hx : IsDouble x) (hy : IsDouble y) (h0 : 0 < x) (hne : y ≠ x) : x / 2 ^ 53 ≤ |y - x| := by
  obtain ⟨m, e, hm, -, rfl⟩ := hx
  obtain ⟨n, f, hn, -, rfl⟩ := hy
  have pe : (0 : ℚ) < 2 ^ e := by positivity
  have pf : (0 : ℚ) < 2 ^ f := by positivity
  have hm0 : 0 < m := by
    have : (0 : ℚ) < m := pos_of_mul_pos_left h0 pe.le
    exact_mod_cast this
  rw [abs_of_pos hm0] at hm
  have hmq : (m : ℚ) < 2 ^ 53 := by exact_mod_cast hm
  have habs := abs_lt.mp hn
  rcases le_total e f with hef | hfe
  · obtain ⟨k, rfl⟩ := Int.le.dest hef
    have e1 : (n : ℚ) * 2 ^ (e + (k : ℤ)) - m * 2 ^ e = ((n * 2 ^ k - m : ℤ) : ℚ) * 2 ^ e := by
      rw [zpow_add₀ (by norm_num), zpow_natCast]; push_cast; ring
    rw [e1, abs_mul, abs_of_pos pe]
    have hz : n * 2 ^ k - m ≠ 0 := by
      intro hz
      rw [hz, Int.cast_zero, zero_mul] at e1
      exact hne (by linarith)
    have : (1 : ℚ) ≤ |((n * 2 ^ k - m : ℤ) : ℚ)| := by
      rw [← Int.cast_abs]; exact_mod_cast Int.one_le_abs hz
    calc (m : ℚ) * 2 ^ e / 2 ^ 53 ≤ 1 * 2 ^ e := by
          rw [div_le_iff₀ (by positivity)]; nlinarith
      _ ≤ _ := mul_le_mul_of_nonneg_right this pe.le
  · obtain ⟨k, rfl⟩ := Int.le.dest hfe
    have e0 : (m : ℚ) * 2 ^ (f + (k : ℤ)) = ((m * 2 ^ k : ℤ) : ℚ) * 2 ^ f := by
      rw [zpow_add₀ (by norm_num), zpow_natCast]; push_cast; ring
    rw [e0] at hne ⊢
    generalize m * 2 ^ k = M at *
    have hz : n ≠ M := by rintro rfl; exact hne rfl
    rw [← sub_mul, abs_mul, abs_of_pos pf, mul_div_right_comm]
    refine mul_le_mul_of_nonneg_right ?_ pf.le
    rw [div_le_iff₀ (by positivity), ← Int.cast_sub, ← Int.cast_abs]
    have : M ≤ |n - M| * 2 ^ 53 := by
      rcases abs_cases (n - M) with ⟨h1, h2⟩ | ⟨h1, h2⟩
      · rw [h1]; omega
      · rw [h1]; omega
    exact_mod_cast this

theorem dec17_spec {near : ℚ → ℤ} (hn : IsNearest near) {a : ℚ} (ha : 0 < a) :
    10 ^ 16 ≤ (dec17 near a).1 ∧ (dec17 near a).1 < 10 ^ 17 ∧
      |((dec17 near a).1 : ℚ) * 10 ^ ((dec17 near a).2 - 16) - a| * 2 ^ 54 < a := by
  have l1 := Int.zpow_log_le_self (b := 10) (by norm_num) ha
  have l2 := Int.lt_zpow_succ_log_self (b := 10) (by norm_num) a
  push_cast at l1 l2
  unfold dec17
  simp only
  generalize Int.log 10 a = x at l1 l2
  have pp : (0 : ℚ) < 10 ^ (x - 16) := by positivity
  have e1 : (10 : ℚ) ^ x = 10 ^ 16 * 10 ^ (x - 16) := by
    rw [show (10 : ℚ) ^ 16 = 10 ^ (16 : ℤ) by norm_cast, ← zpow_add₀ (by norm_num)]; congr 1; ring
  have e2 : (10 : ℚ) ^ (x + 1) = 10 ^ 17 * 10 ^ (x - 16) := by
    rw [show (10 : ℚ) ^ 17 = 10 ^ (17 : ℤ) by norm_cast, ← zpow_add₀ (by norm_num)]; congr 1; ring
  have b1 : (10 : ℚ) ^ 16 ≤ a / 10 ^ (x - 16) := by rw [le_div_iff₀ pp, ← e1]; exact l1
  have b2 : a / 10 ^ (x - 16) < (10 : ℚ) ^ 17 := by rw [div_lt_iff₀ pp, ← e2]; exact l2
  have hr := abs_le.mp (hn (a / 10 ^ (x - 16)))
  have c1 : (10 : ℤ) ^ 16 ≤ near (a / 10 ^ (x - 16)) := by
    have : ((10 ^ 16 - 1 : ℤ) : ℚ) < near (a / 10 ^ (x - 16)) := by push_cast; linarith [hr.1]
    have := Int.cast_lt.mp this
    omega
  have c2 : near (a / 10 ^ (x - 16)) ≤ (10 : ℤ) ^ 17 := by
    have : (near (a / 10 ^ (x - 16)) : ℚ) < ((10 ^ 17 + 1 : ℤ) : ℚ) := by push_cast; linarith [hr.2]
    have := Int.cast_lt.mp this
    omega
  -- the error
  have err : |(near (a / 10 ^ (x - 16)) : ℚ) * 10 ^ (x - 16) - a| * 2 ^ 54 < a := by
    have e3 : (near (a / 10 ^ (x - 16)) : ℚ) * 10 ^ (x - 16) - a = ((near (a / 10 ^ (x - 16)) : ℚ) - a / 10 ^ (x - 16)) * 10 ^ (x - 16) := by
      field_simp
    rw [e3, abs_mul, abs_of_pos pp]
    have := hn (a / 10 ^ (x - 16))
    have h5 : |((near (a / 10 ^ (x - 16)) : ℚ) - a / 10 ^ (x - 16))| * 10 ^ (x - 16) ≤ 1 / 2 * 10 ^ (x - 16) :=
      mul_le_mul_of_nonneg_right this pp.le
    rw [e1] at l1
    norm_num at h5 l1 ⊢
    linarith
  have hcast : ((near (a / 10 ^ (x - 16))).toNat : ℤ) = near (a / 10 ^ (x - 16)) := Int.toNat_of_nonneg (by omega)
  revert c1 c2 err hcast
  generalize near (a / 10 ^ (x - 16)) = k
  intro c1 c2 err hcast
  split
  · rename_i hc
    refine ⟨le_refl _, by norm_num, ?_⟩
    have hk : k = 10 ^ 17 := by omega
    rw [hk] at err
    have e4 : ((10 ^ 16 : ℕ) : ℚ) * 10 ^ (x + 1 - 16) = (((10 : ℤ) ^ 17 : ℤ) : ℚ) * 10 ^ (x - 16) := by
      push_cast
      rw [show x + 1 - 16 = (x - 16) + 1 by ring, zpow_add₀ (by norm_num)]; ring
    simp only
    rw [e4]
    exact err
  · rename_i hc
    refine ⟨by omega, by omega, ?_⟩
    simp only
    have : ((k.toNat : ℕ) : ℚ) = (k : ℚ) := by
      have : ((k.toNat : ℤ) : ℚ) = (k : ℚ) := by rw [hcast]
      exact_mod_cast this
    rw [this]
    exact err

theorem rnd_dec17 {near : ℚ → ℤ} (hn : IsNearest near) {rnd : ℚ → ℚ} (hr : IsRnd rnd) {a : ℚ} (ha : 0 < a) (hd : IsDouble a) :
    rnd (((dec17 near a).1 : ℚ) * 10 ^ ((dec17 near a).2 - 16)) = a := by
  have h := (dec17_spec hn ha).2.2
  revert h
  generalize ((dec17 near a).1 : ℚ) * 10 ^ ((dec17 near a).2 - 16) = q
  intro h
  by_contra hne
  have h1 := double_gap hd (hr.mem q) ha hne
  have h2 := hr.near q a hd
  have h3 : |rnd q - a| ≤ |rnd q - q| + |q - a| := by
    have := abs_add_le (rnd q - q) (q - a)
    rwa [sub_add_sub_cancel] at this
  rw [abs_sub_comm a q] at h2
  rw [div_le_iff₀ (by positivity)] at h1
  norm_num at h h1
  linarith

theorem doubleText_print {near : ℚ → ℤ} (hn : IsNearest near) {rnd : ℚ → ℚ} (hr : IsRnd rnd) (neg : Bool) {a : ℚ}
    (hv : (F64.finite neg a).Valid) : DoubleText rnd (printDouble near (.finite neg a)) (.finite neg a) := by
  obtain ⟨h0, hd, hlt⟩ := hv
  have hs : Sign (if neg then ['-'] else []) neg := by cases neg; exacts [.none, .minus]
  unfold printDouble
  by_cases ha : a = 0
  · subst ha
    have hz : rnd 0 = 0 := hr.fix hd
    refine ⟨[], _, neg, ['0'], [], 0, by simp, by simp [Blank], by simp [Blank], hs, ?_, by rw [hz]; exact hlt, by rw [hz]⟩
    refine ⟨['0'], [], [], [], 0, rfl, by simp [AllDigits], .none, .none, by simp, ?_⟩
    have : Nat.ofDigitChars 10 (['0'] ++ []) 0 = 0 := rfl
    rw [this]; simp
  · have hp : 0 < a := lt_of_le_of_ne h0 (Ne.symm ha)
    have hb := dec17_spec hn hp
    have hq := rnd_dec17 hn hr hp hd
    refine ⟨[], _, neg, gText (dec17 near a).1 (dec17 near a).2, [], _, by simp [ha], by simp [Blank], by simp [Blank], hs,
      decText_g hb.1 hb.2.1 _, by rw [hq]; exact hlt, by rw [hq]⟩

end Verif.PTree.Codecs
