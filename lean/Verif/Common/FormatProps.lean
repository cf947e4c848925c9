import Verif.Common.FormatLemmas
import Verif.Common.DoubleEven

/-!
# Formatted numbers (C176)
-/

namespace Verif.Format

open Verif.Common Verif.PTree Verif.PTree.Codecs

theorem put_nowidth (s : Stream) (t : Str) (h : s.width = 0) : put s t = { s with out := s.out ++ t } := by
  unfold put
  have : (s.width - (t.length : ℤ)).toNat = 0 := by omega
  simp only [this, List.replicate_zero, List.append_nil, List.nil_append, ite_self]
  rw [← h]

theorem effPrec_nat (p : ℕ) : effPrec p = p := by unfold effPrec; rw [if_neg (by omega)]; simp

theorem fixedFloat_eq (near : ℚ → ℤ) (v : F64) (p : ℕ) : fixedFloat near v p = dblText near .fixed p v := by
  unfold fixedFloat write
  rw [put_nowidth _ _ rfl]
  simp [fresh, itemText]

theorem lt_max {a : ℚ} (h : a < 16) : a < 2 ^ 1024 :=
  h.trans_le (by rw [show (16 : ℚ) = 2 ^ 4 by norm_num]; exact pow_le_pow_right₀ (by norm_num) (by norm_num))

/-! ## fixed notation -/

/-- **C176** `fixedFloat` prints a finite double with exactly the decimals asked for, as the decimal nearest to it: the sign (also of a
negative zero), the digits before the point without superfluous zeros, the point and `p` digits. -/
theorem C176_fixedFloat {near : ℚ → ℤ} (hn : IsNearest near) (neg : Bool) {a : ℚ} (ha : 0 ≤ a) (p : ℕ) :
    ∃ t q, fixedFloat near (.finite neg a) p = signText neg ++ t ∧ FixedText p t q ∧
      (∀ k : ℤ, |q - a| ≤ |(k : ℚ) / 10 ^ p - a|) ∧ |q - a| ≤ 1 / 2 / 10 ^ p := by
  rw [fixedFloat_eq]
  have pp : (0 : ℚ) < 10 ^ p := by positivity
  have key : ∀ z : ℚ, |z / 10 ^ p - a| = |z - a * 10 ^ p| / 10 ^ p := by
    intro z
    rw [← abs_of_pos pp, ← abs_div, abs_of_pos pp]
    congr 1
    field_simp
  refine ⟨_, _, ?_, fixedMag_spec hn p ha, ?_, ?_⟩
  · simp [dblText, signText, effPrec_nat]
  · intro k
    rw [key, key]
    exact div_le_div_of_nonneg_right (near_best hn _ k) pp.le
  · rw [key]
    exact div_le_div_of_nonneg_right (hn _) pp.le

/-- **C176** the text determines the number it denotes -/
theorem C176_fixed_unique {p : ℕ} {t : Str} {q q' : ℚ} (h : FixedText p t q) (h' : FixedText p t q') : q = q' := fixed_unique h h'

/-- **C176** Larger numbers are printed as numbers that are not smaller. -/
theorem C176_fixed_mono {near : ℚ → ℤ} (hn : IsNearest near) {a b : ℚ} (ha : 0 ≤ a) (hab : a ≤ b) (p : ℕ) :
    ∃ q q', FixedText p (fixedFloat near (.finite false a) p) q ∧ FixedText p (fixedFloat near (.finite false b) p) q' ∧ q ≤ q' := by
  refine ⟨(near (a * 10 ^ p) : ℚ) / 10 ^ p, (near (b * 10 ^ p) : ℚ) / 10 ^ p, ?_, ?_, ?_⟩
  · rw [fixedFloat_eq]; simpa [dblText, effPrec_nat] using fixedMag_spec hn p ha
  · rw [fixedFloat_eq]; simpa [dblText, effPrec_nat] using fixedMag_spec hn p (ha.trans hab)
  · have : near (a * 10 ^ p) ≤ near (b * 10 ^ p) := near_mono hn (by gcongr)
    have : (near (a * 10 ^ p) : ℚ) ≤ near (b * 10 ^ p) := Int.cast_le.mpr this
    gcongr

example : ∃ near, IsNearest near ∧ fixedFloat near (.finite true (3 / 16)) 3 = "-0.188".toList ∧
    fixedFloat near (.finite false 12) 0 = "12".toList :=
  ⟨near0, isNearest_near0, by decide +kernel, by decide +kernel⟩

/-! ## padding -/

theorem padded_eq (near : ℚ → ℤ) (v : F64) (w p : ℕ) :
    paddedDouble near v w p = List.replicate (w - (fixedFloat near v p).length) ' ' ++ fixedFloat near v p := by
  rw [fixedFloat_eq]
  unfold paddedDouble write put
  simp only [fresh, itemText]
  simp

/-- **C176** `padded(value, width, precision)` of a double is the text of `fixedFloat` behind as many blanks as are missing to the width;
nothing is ever cut off. -/
theorem C176_padded (near : ℚ → ℤ) (v : F64) (w p : ℕ) :
    (paddedDouble near v w p).length = max w (fixedFloat near v p).length ∧
    ∃ k, paddedDouble near v w p = List.replicate k ' ' ++ fixedFloat near v p := by
  rw [padded_eq]
  refine ⟨?_, _, rfl⟩
  rw [List.length_append, List.length_replicate]
  omega

/-- what a call `padded(number, width, precision)` seems to promise for every type of number: the number behind blanks -/
def C176_padded_claim : Prop := ∀ (near : ℚ → ℤ) (_ : IsNearest near) (i : Item) (w p : ℕ), (∀ t, i ≠ .str t) →
  ∃ k t, paddedCall near i w p = List.replicate k ' ' ++ t ∧ ∀ c ∈ t, c ∈ "-0123456789.infa".toList

/-- **C176** For an integer, the call `padded(42, 8, 2)` means another function, and the 2 is the character to fill with. -/
theorem C176_padded_negation : ¬ C176_padded_claim := by
  intro h
  obtain ⟨k, t, h1, h2⟩ := h near0 isNearest_near0 (.int 42) 8 2 (by simp)
  have e : paddedCall near0 (.int 42) 8 2 = List.replicate 6 (Char.ofNat 2) ++ "42".toList := by decide +kernel
  rw [e] at h1
  rcases k with _ | k
  · have := h2 (Char.ofNat 2) (by rw [List.replicate_zero, List.nil_append] at h1; rw [← h1]; decide)
    revert this; decide
  · have h3 := congrArg List.head? h1
    rw [List.replicate_succ, List.replicate_succ] at h3
    simp only [List.cons_append, List.head?_cons] at h3
    exact absurd (Option.some.inj h3) (by decide)

/-- **C176** For doubles it holds, and for an integer with a fill character the padding is that character. -/
theorem C176_padded_call_partial (near : ℚ → ℤ) (w : ℕ) :
    (∀ v p, paddedCall near (.dbl v) w p = paddedDouble near v w p) ∧
    (∀ n c, ∃ k, paddedFill near (.int n) w c = List.replicate k c ++ (toString n).toList ∧
      (paddedFill near (.int n) w c).length = max w (toString n).toList.length) := by
  refine ⟨fun v p => rfl, fun n c => ?_⟩
  have e : paddedFill near (.int n) w c = List.replicate (w - (printInt n).length) c ++ printInt n := by
    unfold paddedFill write put
    simp only [fresh, itemText]
    simp
  rw [e, ← printInt_eq]
  refine ⟨_, rfl, ?_⟩
  rw [List.length_append, List.length_replicate]
  omega

example : paddedCall near0 (.dbl (.finite false (3 / 2))) 8 2 = "    1.50".toList ∧ paddedFill near0 (.int 42) 5 '0' = "00042".toList := by
  decide +kernel

/-! ## reading back -/

theorem readback {rnd : ℚ → ℚ} (hr : IsRnd rnd) (neg : Bool) {a q : ℚ} (hv : (F64.finite neg a).Valid) {t : Str} (ht : DecText t q)
    (hq : a = 0 → q = 0) (hc : a ≠ 0 → |q - a| * 2 ^ 54 < a) (k : ℕ) :
    parseDouble rnd (List.replicate k ' ' ++ (signText neg ++ t)) = some (.finite neg a) := by
  obtain ⟨h0, hd, hlt⟩ := hv
  have hrq : rnd q = a := by
    by_cases ha : a = 0
    · rw [hq ha, ha]
      rw [ha] at hd
      exact hr.fix hd
    · exact rnd_close hr (lt_of_le_of_ne h0 (Ne.symm ha)) hd (hc ha)
  rw [parseDouble_iff]
  refine ⟨List.replicate k ' ', signText neg, neg, t, [], q, by simp, ?_, by simp [Blank], ?_, ht, by rw [hrq]; exact hlt, by rw [hrq]⟩
  · intro c hc
    rw [List.eq_of_mem_replicate hc]; simp
  · cases neg
    · exact .none
    · exact .minus

/-- A double printed with `fixedFloat` or `padded` is the double that is read back. -/
def C176_readback_claim : Prop := ∀ (near : ℚ → ℤ) (_ : IsNearest near) (rnd : ℚ → ℚ) (_ : IsRnd rnd) (neg : Bool) (a : ℚ) (p : ℕ),
  (F64.finite neg a).Valid → parseDouble rnd (fixedFloat near (.finite neg a) p) = some (.finite neg a)

/-- **C176** False: small numbers are printed as zero. -/
theorem C176_readback_negation : ¬ C176_readback_claim := by
  intro h
  have hr : IsRnd rndEven := isRnd_rndEven
  have hv : (F64.finite false (1 / 1024)).Valid := ⟨by norm_num, ⟨1, -10, by norm_num, by norm_num, by norm_num⟩, lt_max (by norm_num)⟩
  have h1 := h near0 isNearest_near0 rndEven hr false (1 / 1024) 2 hv
  have e : fixedFloat near0 (.finite false (1 / 1024)) 2 = fixedFloat near0 (.finite false 0) 2 := by decide +kernel
  have hz : (F64.finite false 0).Valid := ⟨le_refl _, ⟨0, 0, by norm_num, by norm_num, by norm_num⟩, lt_max (by norm_num)⟩
  have h2 := h near0 isNearest_near0 rndEven hr false 0 2 hz
  rw [e, h2] at h1
  norm_num at h1

/-- **C176** It is read back if the decimals reach 16 digits behind the first digit that counts: `2 ^ 53 < |v| 10 ^ p`; so is zero with its
sign.  The same for `padded`. -/
theorem C176_readback_partial {near : ℚ → ℤ} (hn : IsNearest near) {rnd : ℚ → ℚ} (hr : IsRnd rnd) (neg : Bool) {a : ℚ}
    (hv : (F64.finite neg a).Valid) (p : ℕ) (hp : a = 0 ∨ 2 ^ 53 < a * 10 ^ p) (w : ℕ) :
    parseDouble rnd (fixedFloat near (.finite neg a) p) = some (.finite neg a) ∧
    parseDouble rnd (paddedDouble near (.finite neg a) w p) = some (.finite neg a) := by
  obtain ⟨t, q, e, ht, hb, herr⟩ := C176_fixedFloat hn neg hv.1 p
  have pp : (0 : ℚ) < 10 ^ p := by positivity
  have hq : a = 0 → q = 0 := by
    intro h
    have := hb 0
    rw [h] at this
    simpa using this
  have hc : a ≠ 0 → |q - a| * 2 ^ 54 < a := by
    intro h
    have h1 : (2 : ℚ) ^ 53 < a * 10 ^ p := by rcases hp with hp | hp; exacts [absurd hp h, hp]
    have h2 : |q - a| * (2 * 10 ^ p) ≤ 1 := by
      rw [div_div, le_div_iff₀ (by positivity)] at herr
      linarith
    have h3 : |q - a| * 2 ^ 54 * 10 ^ p < a * 10 ^ p := by
      have : |q - a| * 2 ^ 54 * 10 ^ p = |q - a| * (2 * 10 ^ p) * 2 ^ 53 := by ring
      rw [this]
      have : |q - a| * (2 * 10 ^ p) * 2 ^ 53 ≤ 1 * 2 ^ 53 := mul_le_mul_of_nonneg_right h2 (by positivity)
      linarith
    exact lt_of_mul_lt_mul_right h3 pp.le
  have rb := readback hr neg hv (fixed_dec ht) hq hc
  refine ⟨?_, ?_⟩
  · have := rb 0
    rw [e]; simpa using this
  · rw [padded_eq, e]
    exact rb _

example : (F64.finite true (3 / 4)).Valid ∧ (2 : ℚ) ^ 53 < 3 / 4 * 10 ^ 17 :=
  ⟨⟨by norm_num, ⟨3, -2, by norm_num, by norm_num, by norm_num⟩, lt_max (by norm_num)⟩, by norm_num⟩

/-! ## scientific notation -/

theorem scientific_eq (near : ℚ → ℤ) (v : F64) (w p : ℕ) (hp : p + 7 < 2 ^ 32) :
    scientific near v w p =
      List.replicate (max w (p + 7) - (dblText near .scientific p v).length) ' ' ++ dblText near .scientific p v := by
  unfold scientific write put
  simp only [fresh, itemText, Nat.mod_eq_of_lt hp]
  simp
  congr 1
  omega

/-- **C176** `scientific` prints a finite double with `p + 1` significant digits, as a decimal of that many digits that is nearest to it,
behind blanks. -/
theorem C176_scientific {near : ℚ → ℤ} (hn : IsNearest near) (neg : Bool) {a : ℚ} (ha : 0 ≤ a) (w p : ℕ) (hp : p + 7 < 2 ^ 32) :
    ∃ k t q, scientific near (.finite neg a) w p = List.replicate k ' ' ++ (signText neg ++ t) ∧ SciText p t q ∧
      (∀ (n : ℕ) (e : ℤ), n < 10 ^ (p + 1) → |q - a| ≤ |(n : ℚ) * 10 ^ e - a|) ∧ |q - a| * (2 * 10 ^ p) ≤ a := by
  obtain ⟨q, h1, h2, h3⟩ := sciMag_spec hn p ha
  refine ⟨max w (p + 7) - (dblText near .scientific p (.finite neg a)).length, _, q, ?_, h1, h2, h3⟩
  · rw [scientific_eq _ _ _ _ hp]
    simp [dblText, signText, effPrec_nat]

example : scientific near0 (.finite true (3 / 16)) 0 2 = "-1.88e-01".toList := by decide +kernel

/-- **C176** With 17 significant digits or more (`p ≥ 16`) it is read back exactly. -/
theorem C176_scientific_readback {near : ℚ → ℤ} (hn : IsNearest near) {rnd : ℚ → ℚ} (hr : IsRnd rnd) (neg : Bool) {a : ℚ}
    (hv : (F64.finite neg a).Valid) (w p : ℕ) (hp : p + 7 < 2 ^ 32) (h16 : 16 ≤ p) :
    parseDouble rnd (scientific near (.finite neg a) w p) = some (.finite neg a) := by
  obtain ⟨k, t, q, e, ht, hb, herr⟩ := C176_scientific hn neg hv.1 w p hp
  rw [e]
  refine readback hr neg hv (sci_dec ht) ?_ ?_ k
  · intro h
    have := hb 0 0 (by positivity)
    rw [h] at this
    simpa using this
  · intro h
    have ha : 0 < a := lt_of_le_of_ne hv.1 (Ne.symm h)
    have h1 : (10 : ℚ) ^ 16 ≤ 10 ^ p := pow_le_pow_right₀ (by norm_num) h16
    have h0 := abs_nonneg (q - a)
    have h2 : |q - a| * (2 * 10 ^ 16) ≤ a := (mul_le_mul_of_nonneg_left (by linarith) h0).trans herr
    rcases h0.eq_or_lt with hz | hz
    · rw [← hz]; simpa using ha
    · refine lt_of_lt_of_le ?_ h2
      exact mul_lt_mul_of_pos_left (by norm_num) hz

/-- The comment in the code: a width of precision plus 7 holds every number, so that all numbers printed with the same width and precision
have the same length. -/
def C176_scientific_width_claim : Prop := ∀ (near : ℚ → ℤ) (_ : IsNearest near) (v : F64) (w p : ℕ), v.Valid → p + 7 < 2 ^ 32 →
  (scientific near v w p).length = max w (p + 7)

theorem log_bounds {a : ℚ} (ha : 0 < a) (hd : IsDouble a) (hlt : a < 2 ^ 1024) : -324 ≤ Int.log 10 a ∧ Int.log 10 a ≤ 308 := by
  constructor
  · obtain ⟨m, e, hm, he, rfl⟩ := hd
    have h1 : (1 : ℤ) ≤ m := by
      have : (0 : ℚ) < m := by
        by_contra hc
        push Not at hc
        have : (m : ℚ) * 2 ^ e ≤ 0 := mul_nonpos_of_nonpos_of_nonneg hc (by positivity)
        linarith
      have : (0 : ℤ) < m := by exact_mod_cast this
      omega
    have h2 : (10 : ℚ) ^ (-324 : ℤ) ≤ (m : ℚ) * 2 ^ e := by
      have h3 : (1 : ℚ) ≤ m := by exact_mod_cast h1
      have h4 : (2 : ℚ) ^ (-1074 : ℤ) ≤ 2 ^ e := zpow_le_zpow_right₀ (by norm_num) he
      have h5 : (10 : ℚ) ^ (-324 : ℤ) ≤ 2 ^ (-1074 : ℤ) := by decide +kernel
      have h6 : (2 : ℚ) ^ e ≤ m * 2 ^ e := le_mul_of_one_le_left (by positivity) h3
      exact h5.trans (h4.trans h6)
    exact (Int.zpow_le_iff_le_log (by norm_num) ha).mp (by exact_mod_cast h2)
  · have : Int.log 10 a < 309 := by
      refine (Int.lt_zpow_iff_log_lt (by norm_num) ha).mp ?_
      exact hlt.trans (by decide +kernel)
    omega

/-- the length of the text of a finite double in scientific notation -/
theorem sci_length {near : ℚ → ℤ} (hn : IsNearest near) {neg : Bool} {a : ℚ} (hv : (F64.finite neg a).Valid) (p : ℕ) :
    (sciMag near p a).length ≤ p + 7 ∧ (a = 0 ∨ 1 / 10 ^ 99 ≤ a ∧ a < 10 ^ 99 → (sciMag near p a).length ≤ p + 6) := by
  unfold sciMag
  by_cases h : a = 0
  · rw [if_pos h]
    have := sciText_length (p := p) (ds := List.replicate (p + 1) '0') (x := 0) (by simp) (by norm_num)
    exact ⟨this.2.1, fun _ => this.2.2 (by norm_num)⟩
  · rw [if_neg h]
    have ha : 0 < a := lt_of_le_of_ne hv.1 (Ne.symm h)
    obtain ⟨h1, h2, h3, -⟩ := decSig_spec hn p ha
    obtain ⟨b1, b2⟩ := log_bounds ha hv.2.1 hv.2.2
    have := sciText_length (p := p) (x := (decSig near p a).2) (length_toDigits h1 h2) (by omega)
    refine ⟨this.2.1, fun hr => this.2.2 ?_⟩
    rcases hr with hr | ⟨r1, r2⟩
    · exact absurd hr h
    · have l1 : -99 ≤ Int.log 10 a := (Int.zpow_le_iff_le_log (by norm_num) ha).mp (by
        push_cast; rw [zpow_neg]; norm_num at r1 ⊢; exact r1)
      have l2 : Int.log 10 a < 99 := (Int.lt_zpow_iff_log_lt (by norm_num) ha).mp (by push_cast; exact_mod_cast r2)
      omega

/-- **C176** False: an exponent may have three digits, and a minus sign in front. -/
theorem C176_scientific_width_negation : ¬ C176_scientific_width_claim := by
  intro h
  have hv : (F64.finite true (2 ^ 400)).Valid := by
    refine ⟨by positivity, ⟨1, 400, by norm_num, by norm_num, ?_⟩, ?_⟩
    · norm_cast
    · exact pow_lt_pow_right₀ (by norm_num) (by norm_num)
  have h1 := h near0 isNearest_near0 (.finite true (2 ^ 400)) 0 2 hv (by norm_num)
  have e : (scientific near0 (.finite true (2 ^ 400)) 0 2).length = 10 := by decide +kernel
  rw [e] at h1
  simp at h1

/-- **C176** True of numbers without a minus sign, of zero, of the numbers with magnitude from `10 ^ -99` up to `10 ^ 99`, of infinities and
NaN; and no text is longer by more than one character. -/
theorem C176_scientific_width_partial {near : ℚ → ℤ} (hn : IsNearest near) (v : F64) (w p : ℕ) (hv : v.Valid) (hp : p + 7 < 2 ^ 32) :
    ((∀ a, v = .finite true a → a = 0 ∨ 1 / 10 ^ 99 ≤ a ∧ a < 10 ^ 99) → (scientific near v w p).length = max w (p + 7)) ∧
    (scientific near v w p).length ≤ max w (p + 8) ∧ max w (p + 7) ≤ (scientific near v w p).length := by
  rw [scientific_eq _ _ _ _ hp, List.length_append, List.length_replicate]
  have main : (dblText near .scientific p v).length ≤ p + 8 ∧
      ((∀ a, v = .finite true a → a = 0 ∨ 1 / 10 ^ 99 ≤ a ∧ a < 10 ^ 99) → (dblText near .scientific p v).length ≤ p + 7) := by
    cases v with
    | finite neg a =>
      have hl := sci_length hn hv p
      cases neg
      · simp only [dblText, effPrec_nat]; simp; exact ⟨by omega, by omega⟩
      · simp only [dblText, effPrec_nat]
        simp
        refine ⟨by omega, fun h => ?_⟩
        have := hl.2 (by simpa using h)
        omega
    | inf neg => cases neg <;> simp [dblText]
    | nan neg => cases neg <;> simp [dblText]
  refine ⟨fun h => ?_, ?_, ?_⟩
  · have := main.2 h; omega
  · have := main.1; omega
  · omega

example : (F64.finite true (3 / 4)).Valid ∧ (1 : ℚ) / 10 ^ 99 ≤ 3 / 4 ∧ (3 / 4 : ℚ) < 10 ^ 99 :=
  ⟨⟨by norm_num, ⟨3, -2, by norm_num, by norm_num, by norm_num⟩, lt_max (by norm_num)⟩, by norm_num, by norm_num⟩

/-! ## sequences -/

/-- one element of `paddedToString`: in fixed notation, behind blanks up to the width -/
def cell (near : ℚ → ℤ) (pad dec : ℤ) (i : Item) : Str :=
  let t := dblItem i
  List.replicate (pad.toNat - t.length) ' ' ++ t
where
  /-- the text of the element itself -/
  dblItem : Item → Str
    | .dbl v => fixedFloat near v (if dec < 0 then 6 else dec.toNat)
    | .int n => (toString n).toList
    | .str t => t

theorem itemText_fixed (near : ℚ → ℤ) (dec : ℤ) (s : Stream) (i : Item) (hf : s.field = .fixed) (hp : s.prec = dec) :
    itemText near s i = cell.dblItem near dec i := by
  cases i with
  | dbl v =>
    simp only [itemText, cell.dblItem, hf, hp, fixedFloat_eq]
    cases v with
    | finite neg a =>
      simp only [dblText]
      congr 2
    | inf neg => rfl
    | nan neg => rfl
  | int n => simp only [itemText, cell.dblItem, printInt_eq]
  | str t => rfl

theorem paddedItem_eq (near : ℚ → ℤ) (pad dec : ℤ) (s : Stream) (i : Item) (hl : s.left = false) :
    paddedItem near pad dec s i = ⟨s.out ++ cell near pad dec i, 0, ' ', dec, .fixed, false⟩ := by
  unfold paddedItem write
  rw [itemText_fixed near dec _ i rfl rfl]
  unfold put cell
  simp only [hl]
  simp

theorem paddedRest_eq (near : ℚ → ℤ) (pad dec : ℤ) (delim : Str) (items : List Item) (o : Str) :
    paddedRest near pad dec delim ⟨o, 0, ' ', dec, .fixed, false⟩ items =
      ⟨o ++ (items.map fun i => delim ++ cell near pad dec i).flatten, 0, ' ', dec, .fixed, false⟩ := by
  induction items generalizing o with
  | nil => simp [paddedRest]
  | cons i r ih =>
    rw [paddedRest, put_nowidth _ _ rfl, paddedItem_eq _ _ _ _ _ rfl]
    simp only
    rw [ih]
    simp

theorem intercalate_cons {α} (d x : List α) (r : List (List α)) : d.intercalate (x :: r) = x ++ (r.map fun y => d ++ y).flatten := by
  induction r generalizing x with
  | nil => simp [List.intercalate]
  | cons y r ih =>
    have := ih y
    unfold List.intercalate at this ⊢
    rw [List.intersperse_cons_cons]
    simp only [List.flatten_cons]
    rw [this]
    simp

/-- the format of a stream: everything but the text written -/
def sameFormat (s s' : Stream) : Prop :=
  s.width = s'.width ∧ s.fill = s'.fill ∧ s.prec = s'.prec ∧ s.field = s'.field ∧ s.left = s'.left

/-- **C176** `paddedToString` writes the prefix, the elements in fixed notation padded with blanks, with the delimiter between any two, and
the postfix; doubles get the number of decimals asked for (6 if it is negative), other elements are printed as usual. -/
theorem C176_paddedToString (near : ℚ → ℤ) (pad dec : ℤ) (items : List Item) (delim pre post : Str) :
    paddedToString near pad dec items delim pre post = pre ++ delim.intercalate (items.map (cell near pad dec)) ++ post := by
  unfold paddedToString paddedToStream
  simp only
  rw [put_nowidth fresh pre rfl]
  cases items with
  | nil =>
    simp only
    rw [put_nowidth _ _ rfl]
    simp [fresh]
  | cons i r =>
    simp only
    rw [paddedItem_eq _ _ _ _ _ rfl, paddedRest_eq, put_nowidth _ _ rfl]
    simp only [fresh, List.nil_append, List.map_cons, intercalate_cons, List.map_map]
    simp [Function.comp_def]

example : paddedToString near0 6 2 [.dbl (.finite false (3 / 2)), .int 7, .dbl (.inf true)] ",".toList "[".toList "]".toList
    = "[  1.50,     7,  -inf]".toList := by decide +kernel

/-- **C176** If no element is wider than the column, all columns line up: the length depends on the number of elements only. -/
theorem C176_columns (near : ℚ → ℤ) (pad dec : ℤ) (items : List Item) (delim pre post : Str) (hne : items ≠ [])
    (hw : ∀ i ∈ items, (cell.dblItem near dec i).length ≤ pad.toNat) :
    (paddedToString near pad dec items delim pre post).length + delim.length =
      pre.length + items.length * (pad.toNat + delim.length) + post.length := by
  rw [C176_paddedToString]
  have hc : ∀ i ∈ items, (cell near pad dec i).length = pad.toNat := by
    intro i hi
    have := hw i hi
    unfold cell
    simp only [List.length_append, List.length_replicate]
    omega
  have key : ∀ l : List Item, (∀ i ∈ l, (cell near pad dec i).length = pad.toNat) →
      ((l.map fun i => delim ++ cell near pad dec i).flatten).length = l.length * (pad.toNat + delim.length) := by
    intro l
    induction l with
    | nil => simp
    | cons i r ih =>
      intro h
      have h1 := h i (by simp)
      have h2 := ih fun j hj => h j (by simp [hj])
      simp only [List.map_cons, List.flatten_cons, List.length_append, List.length_cons, h1, h2]
      ring
  cases items with
  | nil => exact absurd rfl hne
  | cons i r =>
    have h1 := key r fun j hj => hc j (by simp [hj])
    have h2 := hc i (by simp)
    rw [List.map_cons, intercalate_cons, List.map_map]
    simp only [List.length_append, List.length_cons, h2]
    have : ((List.map ((fun y => delim ++ y) ∘ cell near pad dec) r).flatten).length = r.length * (pad.toNat + delim.length) := by
      rw [← h1]; rfl
    rw [this]
    ring

example : ∀ i ∈ [Item.dbl (.finite false (3 / 2)), .int 7, .dbl (.inf true)], (cell.dblItem near0 2 i).length ≤ (6 : ℤ).toNat := by
  decide +kernel

/-- `paddedToStream` leaves the caller's stream as it was, apart from the text. -/
def C176_stream_claim : Prop := ∀ (near : ℚ → ℤ) (_ : IsNearest near) (s : Stream) (pad dec : ℤ) (items : List Item) (delim pre post : Str),
  s.width = 0 → sameFormat (paddedToStream near s pad dec items delim pre post) s

/-- **C176** False: it leaves fixed notation, the number of decimals and the blank as fill character behind, so that what the caller
prints next looks different. -/
theorem C176_stream_negation : ¬ C176_stream_claim ∧
    (write near0 (paddedToStream near0 fresh 6 2 [.int 1] [] [] []) (.dbl (.finite false (1 / 8)))).out = "     10.13".toList ∧
    (write near0 (write near0 { fresh with width := 6 } (.int 1)) (.dbl (.finite false (1 / 8)))).out = "     10.125".toList := by
  refine ⟨?_, by decide +kernel, by decide +kernel⟩
  intro h
  have := (h near0 isNearest_near0 fresh 6 2 [.int 1] [] [] [] rfl).2.2.2.1
  revert this
  decide +kernel

/-- **C176** What it leaves behind: for an empty sequence nothing changes; otherwise fixed notation, the number of decimals and the blank.
The text is the one of `paddedToString`, appended (for a stream without a pending width that is not set to `left`). -/
theorem C176_stream_partial (near : ℚ → ℤ) (s : Stream) (pad dec : ℤ) (items : List Item) (delim pre post : Str)
    (hw : s.width = 0) (hl : s.left = false) :
    (paddedToStream near s pad dec items delim pre post).out = s.out ++ paddedToString near pad dec items delim pre post ∧
    (items = [] → sameFormat (paddedToStream near s pad dec items delim pre post) s) ∧
    (items ≠ [] → sameFormat (paddedToStream near s pad dec items delim pre post) ⟨[], 0, ' ', dec, .fixed, false⟩) := by
  rw [C176_paddedToString]
  unfold paddedToStream
  simp only
  rw [put_nowidth s pre hw]
  cases items with
  | nil =>
    simp only
    rw [put_nowidth _ _ (by exact hw)]
    exact ⟨by simp, fun _ => ⟨rfl, rfl, rfl, rfl, rfl⟩, fun h => absurd rfl h⟩
  | cons i r =>
    simp only
    rw [paddedItem_eq _ _ _ _ _ (by exact hl), paddedRest_eq, put_nowidth _ _ rfl]
    refine ⟨?_, fun h => absurd h (by simp), fun _ => ⟨rfl, rfl, rfl, rfl, rfl⟩⟩
    simp only [List.map_cons, intercalate_cons, List.map_map]
    simp [Function.comp_def]

/-! ## tuples -/

theorem tupleRest_eq (near : ℚ → ℤ) (items : List Item) (o : Str) :
    (tupleRest near { fresh with out := o } items).out =
      o ++ (items.map fun i => ',' :: itemText near fresh i).flatten ++ [']'] := by
  induction items generalizing o with
  | nil => rw [tupleRest, put_nowidth _ _ rfl]; simp
  | cons i r ih =>
    rw [tupleRest, put_nowidth _ _ rfl]
    unfold write
    rw [put_nowidth _ _ rfl]
    have e : itemText near { fresh with out := o ++ [','] } i = itemText near fresh i := by cases i <;> rfl
    have := ih (o ++ [','] ++ itemText near fresh i)
    simp only at e this ⊢
    rw [e, this]
    simp

theorem ts_eq (near : ℚ → ℤ) (i : Item) : ts near i = itemText near fresh i := by
  unfold ts write
  rw [put_nowidth _ _ rfl]
  simp [fresh]

/-- **C176** `s_tuple` of two values or more is the texts of `ts`, separated by commas, in brackets; of one value it is its text, without
brackets. -/
theorem C176_tuple (near : ℚ → ℤ) (items : List Item) (h : 2 ≤ items.length) :
    sTuple near items = '[' :: ([','].intercalate (items.map (ts near)) ++ [']']) ∧
    ∀ i, sTuple near [i] = ts near i := by
  refine ⟨?_, fun i => rfl⟩
  rcases items with _ | ⟨i, _ | ⟨j, r⟩⟩
  · simp at h
  · simp at h
  · unfold sTuple write
    rw [put_nowidth _ _ rfl]
    simp only
    rw [put_nowidth _ _ rfl]
    have e : itemText near { fresh with out := fresh.out ++ ['['] } i = itemText near fresh i := by cases i <;> rfl
    rw [e]
    have := tupleRest_eq near (j :: r) (fresh.out ++ ['['] ++ itemText near fresh i)
    simp only at this ⊢
    rw [this, List.map_cons (f := ts near), intercalate_cons, List.map_map]
    simp only [ts_eq]
    simp [fresh, Function.comp_def, ts_eq]

theorem digit_or_minus (n : ℤ) : ∀ c ∈ (toString n).toList, c ≠ ',' := by
  rw [← printInt_eq]
  intro c hc
  unfold printInt at hc
  rcases List.mem_append.mp hc with h | h
  · split at h
    · simp at h; rw [h]; decide
    · simp at h
  · have := allDigits_toDigits _ c h
    rintro rfl
    revert this; decide

theorem printInt_inj {m n : ℤ} (h : (toString m).toList = (toString n).toList) : m = n := by
  rw [← printInt_eq, ← printInt_eq] at h
  have key : ∀ k : ℤ, ∃ sg t, Sign sg (decide (k < 0)) ∧ printInt k = sg ++ t ∧ AllDigits t ∧ t ≠ [] ∧ k = signed (decide (k < 0)) t := by
    intro k
    refine ⟨if k < 0 then ['-'] else [], Nat.toDigits 10 k.natAbs, ?_, rfl, allDigits_toDigits _, ?_, ?_⟩
    · by_cases hk : k < 0
      · simp [hk]; exact .minus
      · simp [hk]; exact .none
    · intro hc
      have := Nat.length_toDigits_pos (b := 10) (n := k.natAbs)
      rw [hc] at this; simp at this
    · unfold signed
      have hv : Nat.ofDigitChars 10 (Nat.toDigits 10 k.natAbs) 0 = k.natAbs := Nat.ofDigitChars_ten_toDigits
      rw [hv]
      by_cases hk : k < 0
      · rw [if_pos (by simpa using hk)]; omega
      · rw [if_neg (by simpa using hk)]; omega
  obtain ⟨sg, t, hs, e, hd, hne, hm⟩ := key m
  obtain ⟨sg', t', hs', e', hd', hne', hm'⟩ := key n
  have r1 := readSign_append (t := t) hs fun c hc => digit_not_sign (by simpa using head_digits (r := []) hd hne c (by simpa using hc))
  have r2 := readSign_append (t := t') hs' fun c hc => digit_not_sign (by simpa using head_digits (r := []) hd' hne' c (by simpa using hc))
  rw [e, e'] at h
  rw [h, r2] at r1
  have := Prod.mk.inj r1
  rw [hm, hm', this.1, this.2]

theorem split_comma {a b : Str} {u v : Str} (ha : ∀ c ∈ a, c ≠ ',') (hb : ∀ c ∈ b, c ≠ ',') (h : a ++ ',' :: u = b ++ ',' :: v) :
    a = b ∧ u = v := by
  induction a generalizing b with
  | nil =>
    cases b with
    | nil => simpa using h
    | cons c b => simp at h; exact absurd h.1.symm (hb c (by simp))
  | cons c a ih =>
    cases b with
    | nil => simp at h; exact absurd h.1 (ha c (by simp))
    | cons c' b =>
      simp at h
      have := ih (fun x hx => ha x (by simp [hx])) (fun x hx => hb x (by simp [hx])) h.2
      exact ⟨by rw [h.1, this.1], this.2⟩

theorem intercalate_inj (l l' : List ℤ) (hl : l ≠ []) (hl' : l' ≠ [])
    (h : [','].intercalate (l.map fun n => (toString n).toList) = [','].intercalate (l'.map fun n => (toString n).toList)) : l = l' := by
  induction l generalizing l' with
  | nil => exact absurd rfl hl
  | cons m l ih =>
    cases l' with
    | nil => exact absurd rfl hl'
    | cons n l' =>
      rw [List.map_cons, List.map_cons, intercalate_cons, intercalate_cons] at h
      cases l with
      | nil =>
        cases l' with
        | nil =>
          simp only [List.map_nil, List.flatten_nil, List.append_nil] at h
          rw [printInt_inj h]
        | cons n' l' =>
          exfalso
          have : ',' ∈ (toString m).toList := by
            simp only [List.map_nil, List.flatten_nil, List.append_nil] at h
            rw [h]; simp
          exact digit_or_minus m _ this rfl
      | cons m' l =>
        cases l' with
        | nil =>
          exfalso
          have : ',' ∈ (toString n).toList := by
            simp only [List.map_nil, List.flatten_nil, List.append_nil] at h
            rw [← h]; simp
          exact digit_or_minus n _ this rfl
        | cons n' l' =>
          have h' : (toString m).toList ++ ',' :: [','].intercalate ((m' :: l).map fun n => (toString n).toList) =
              (toString n).toList ++ ',' :: [','].intercalate ((n' :: l').map fun n => (toString n).toList) := by
            rw [List.map_cons, List.map_cons, intercalate_cons, intercalate_cons]
            simpa using h
          obtain ⟨e1, e2⟩ := split_comma (digit_or_minus m) (digit_or_minus n) h'
          rw [printInt_inj e1, ih (n' :: l') (by simp) (by simp) e2]

/-- **C176** Tuples of integers can be told apart: equal texts come from equal tuples. -/
theorem C176_tuple_inj (near : ℚ → ℤ) (l l' : List ℤ) (hl : l ≠ []) (hl' : l' ≠ [])
    (h : sTuple near (l.map .int) = sTuple near (l'.map .int)) : l = l' := by
  have one : ∀ n, sTuple near [.int n] = (toString n).toList := by
    intro n; rw [← printInt_eq]; exact ts_eq near (.int n)
  have many : ∀ a b r, sTuple near ((a :: b :: r).map Item.int) =
      '[' :: ([','].intercalate ((a :: b :: r).map fun n => (toString n).toList) ++ [']']) := by
    intro a b r
    rw [(C176_tuple near _ (by simp)).1, List.map_map]
    congr 3
    refine List.map_congr_left fun n _ => ?_
    simp only [Function.comp, ts_eq, itemText, printInt_eq]
  have nobr : ∀ n : ℤ, ∀ u, (toString n).toList ≠ '[' :: u := by
    intro n u he
    have : '[' ∈ printInt n := by rw [printInt_eq, he]; simp
    unfold printInt at this
    rcases List.mem_append.mp this with h | h
    · split at h <;> simp at h
    · have := allDigits_toDigits _ _ h
      revert this; decide
  rcases l with _ | ⟨a, _ | ⟨b, r⟩⟩
  · exact absurd rfl hl
  · rcases l' with _ | ⟨a', _ | ⟨b', r'⟩⟩
    · exact absurd rfl hl'
    · simp only [List.map_cons, List.map_nil, one] at h
      rw [printInt_inj h]
    · rw [many] at h
      simp only [List.map_cons, List.map_nil, one] at h
      exact absurd h (nobr _ _)
  · rcases l' with _ | ⟨a', _ | ⟨b', r'⟩⟩
    · exact absurd rfl hl'
    · rw [many] at h
      simp only [List.map_cons, List.map_nil, one] at h
      exact absurd h.symm (nobr _ _)
    · rw [many, many] at h
      have := (List.cons.inj h).2
      exact intercalate_inj _ _ hl hl' (List.append_inj_left' this rfl)

example : sTuple near0 [.int 1, .int (-2), .dbl (.finite false (1 / 2))] = "[1,-2,0.5]".toList := by decide +kernel

/-! ## `ts` of a double -/

/-- different doubles have different texts -/
def C176_ts_claim : Prop := ∀ (near : ℚ → ℤ) (_ : IsNearest near) (v w : F64), v.Valid → w.Valid → ts near (.dbl v) = ts near (.dbl w) → v = w

/-- **C176** False: `ts` and everything that prints with the format of a new stream (`s_tuple`, `arrToString`) keeps six digits. -/
theorem C176_ts_negation : ¬ C176_ts_claim := by
  intro h
  have e : ts near0 (.dbl (.finite false 1)) = ts near0 (.dbl (.finite false (1 + 1 / 2 ^ 52))) := by decide +kernel
  have h1 : (F64.finite false 1).Valid := ⟨by norm_num, ⟨1, 0, by norm_num, by norm_num, by norm_num⟩, lt_max (by norm_num)⟩
  have h2 : (F64.finite false (1 + 1 / 2 ^ 52)).Valid :=
    ⟨by norm_num, ⟨2 ^ 52 + 1, -52, by norm_num, by norm_num, by norm_num⟩, lt_max (by norm_num)⟩
  have := h near0 isNearest_near0 _ _ h1 h2 e
  norm_num at this

/-- **C176** What `ts` prints denotes a number with six digits, and none of six digits is nearer. -/
theorem C176_ts_partial {near : ℚ → ℤ} (hn : IsNearest near) (neg : Bool) {a : ℚ} (ha : 0 ≤ a) :
    ∃ t q, ts near (.dbl (.finite neg a)) = signText neg ++ t ∧ DecText t q ∧
      (∀ (n : ℕ) (e : ℤ), n < 10 ^ 6 → |q - a| ≤ |(n : ℚ) * 10 ^ e - a|) ∧ |q - a| * (2 * 10 ^ 5) ≤ a := by
  rw [ts_eq]
  refine ⟨genMag near 6 a, if a = 0 then 0 else ((decSig near 5 a).1 : ℚ) * 10 ^ ((decSig near 5 a).2 - (5 : ℕ)), ?_, ?_, ?_, ?_⟩
  · simp [itemText, dblText, fresh, signText, effPrec]
  · unfold genMag
    by_cases h : a = 0
    · simp only [if_pos h]
      refine ⟨['0'], [], [], [], 0, rfl, by simp [AllDigits], .none, .none, by simp, ?_⟩
      have : Nat.ofDigitChars 10 (['0'] ++ []) 0 = 0 := rfl
      rw [this]; simp
    · simp only [if_neg h]
      have hp : 0 < a := lt_of_le_of_ne ha (Ne.symm h)
      obtain ⟨h1, h2, -, -⟩ := decSig_spec hn 5 hp
      have hl := length_toDigits h1 h2
      have hd := allDigits_toDigits (decSig near 5 a).1
      have hv : Nat.ofDigitChars 10 (Nat.toDigits 10 (decSig near 5 a).1) 0 = (decSig near 5 a).1 := Nat.ofDigitChars_ten_toDigits
      simp only [show 6 - 1 = 5 from rfl]
      revert hl hd hv
      generalize Nat.toDigits 10 (decSig near 5 a).1 = ds
      generalize (decSig near 5 a).1 = m
      generalize (decSig near 5 a).2 = x
      intro hl hd hv
      have hdt : ∀ k, AllDigits (ds.take k) := fun k c hc => hd c (List.mem_of_mem_take hc)
      have hdd : ∀ k, AllDigits (ds.drop k) := fun k c hc => hd c (List.mem_of_mem_drop hc)
      split
      · rename_i hx
        split
        · rename_i hx0
          refine ⟨ds.take (x.toNat + 1), fracText (ds.drop (x.toNat + 1)), stripZeros (ds.drop (x.toNat + 1)), [], 0, by simp, hdt _,
            fracText_frac (hdd _), .none, ?_, ?_⟩
          · intro h
            have := congrArg List.length (List.append_eq_nil_iff.mp h).1
            simp [hl] at this
          · rw [strip_value, List.take_append_drop, hv, List.length_drop, hl]
            congr 2
            push_cast at hx ⊢
            omega
        · rename_i hx0
          have hz : AllDigits (List.replicate (-x - 1).toNat '0' ++ ds) := by
            intro c hc
            rcases List.mem_append.mp hc with h | h
            · rw [List.eq_of_mem_replicate h]; decide
            · exact hd c h
          refine ⟨['0'], fracText (List.replicate (-x - 1).toNat '0' ++ ds), stripZeros (List.replicate (-x - 1).toNat '0' ++ ds), [], 0,
            by simp, by simp [AllDigits], fracText_frac hz, .none, by simp, ?_⟩
          rw [strip_value, List.singleton_append, natOf_zero_cons, natOf_append, natOf_zeros, hv, List.length_append, List.length_replicate, hl]
          simp only [mul_zero, zero_add]
          congr 2
          push_cast
          omega
      · refine ⟨ds.take 1, fracText (ds.drop 1), stripZeros (ds.drop 1), expText x, x, rfl, hdt _, fracText_frac (hdd _), expText_exp x, ?_, ?_⟩
        · intro h
          have := congrArg List.length (List.append_eq_nil_iff.mp h).1
          simp [hl] at this
        · rw [strip_value, List.take_append_drop, hv, List.length_drop, hl]
  · intro n e hne
    by_cases h : a = 0
    · rw [if_pos h, h]; simp; positivity
    · rw [if_neg h]
      exact decSig_best hn 5 (lt_of_le_of_ne ha (Ne.symm h)) n e hne
  · by_cases h : a = 0
    · rw [if_pos h, h]; simp
    · rw [if_neg h]
      exact decSig_err hn 5 (lt_of_le_of_ne ha (Ne.symm h))

example : ts near0 (.dbl (.finite false (1 / 3))) = "0.333333".toList ∧ ts near0 (.dbl (.finite true 12345678)) = "-1.23457e+07".toList := by
  decide +kernel

end Verif.Format
