import Verif.Logging.TimeString
import Verif.Common.ProgressProps

/-!
# C136: the time stamps of log messages
-/

namespace Verif.Logging.Stamp

open Verif.Common

/-- Specification: `text` is the decimal notation of `us` microseconds, in seconds with six decimals, no superfluous leading zero, a minus sign if and only if negative. -/
def Shows (text : List Char) (us : ℤ) : Prop :=
  ∃ whole frac : List Char, text = (if us < 0 then ['-'] else []) ++ whole ++ '.' :: frac ∧
    (∀ c ∈ whole ++ frac, c.isDigit = true) ∧ frac.length = 6 ∧ whole ≠ [] ∧ (whole.head? = some '0' → whole.length = 1) ∧
    Nat.ofDigitChars 10 (whole ++ frac) 0 = us.natAbs

/-- Specification: the times a `system_clock` can show -/
def IsTime (ns : ℤ) : Prop := -2 ^ 63 ≤ ns ∧ ns < 2 ^ 63

theorem padded_length (w n : ℕ) : (padded w n).length = w := by
  induction w generalizing n with
  | zero => rfl
  | succ w ih => simp [padded, ih]

theorem padded_val (w n : ℕ) (h : n < 10 ^ w) : Nat.ofDigitChars 10 (padded w n) 0 = n := by
  induction w generalizing n with
  | zero => simp [padded] at *; omega
  | succ w ih =>
    rw [padded, Nat.ofDigitChars_append, ih _ (by rw [pow_succ] at h; omega), Nat.ofDigitChars_cons_digitChar_of_lt_ten (by omega)]
    simp; omega

theorem digitChar_isDigit (n : ℕ) (h : n < 10) : (Nat.digitChar n).isDigit = true := by
  have : ∀ m : Fin 10, (Nat.digitChar m).isDigit = true := by decide
  exact this ⟨n, h⟩

theorem padded_digits (w n : ℕ) : ∀ c ∈ padded w n, c.isDigit = true := by
  induction w generalizing n with
  | zero => simp [padded]
  | succ w ih =>
    intro c hc
    rw [padded, List.mem_append] at hc
    rcases hc with hc | hc
    · exact ih _ c hc
    · simp at hc; subst hc; exact digitChar_isDigit _ (by omega)

theorem digitChar_zero (n : ℕ) (h : n < 10) (hz : Nat.digitChar n = '0') : n = 0 := by
  have : ∀ m : Fin 10, Nat.digitChar m = '0' → (m : ℕ) = 0 := by decide
  exact this ⟨n, h⟩ hz

theorem toDigits_head (n : ℕ) : (Nat.toDigits 10 n).head? = some '0' → n = 0 := by
  induction n using Nat.strong_induction_on with
  | _ n ih =>
    intro h
    by_cases hn : n < 10
    · rw [Nat.toDigits_of_lt_base hn] at h
      exact digitChar_zero n hn (by simpa using h)
    · rw [Nat.toDigits_of_base_le (by norm_num) (by omega), List.head?_append_of_ne_nil _ Nat.toDigits_ne_nil] at h
      have := ih (n / 10) (by omega) h
      omega

/-- the six decimals text of the nearest integer -/
theorem shows_of_round (x : ℚ) (k : ℤ) (hk : roundEven (1000000 * x) = k) (hs : x < 0 ↔ k < 0) : Shows (fixed6 x) k := by
  refine ⟨Nat.toDigits 10 (k.natAbs / 1000000), padded 6 (k.natAbs % 1000000), ?_, ?_, padded_length _ _, Nat.toDigits_ne_nil, ?_, ?_⟩
  · simp only [fixed6, hk, hs, List.append_assoc, List.singleton_append]
  · intro c hc
    rw [List.mem_append] at hc
    rcases hc with hc | hc
    · exact Nat.isDigit_of_mem_toDigits (by norm_num) (by norm_num) hc
    · exact padded_digits _ _ c hc
  · intro h
    rw [toDigits_head _ h]; rfl
  · rw [Nat.ofDigitChars_append, Nat.ofDigitChars_ten_toDigits, Nat.ofDigitChars_eq_ofDigitChars_zero, padded_length,
      padded_val _ _ (by norm_num; omega)]
    omega

theorem tdiv_eq (ns : ℤ) : ns.tdiv 1000 = if 0 ≤ ns then ns / 1000 else -((-ns) / 1000) := by
  split_ifs with h
  · exact Int.tdiv_eq_ediv_of_nonneg h
  · have := Int.neg_tdiv (a := -ns) (b := 1000)
    rw [neg_neg] at this
    rw [this, Int.tdiv_eq_ediv_of_nonneg (by omega)]

theorem micros_time (ns : ℤ) (h : IsTime ns) : |micros ns| ≤ 9223372036854776 := by
  obtain ⟨h1, h2⟩ := h
  unfold micros
  rw [abs_le, tdiv_eq]
  norm_num at h1 h2
  split_ifs <;> omega

/-- the stamp of `m` microseconds, as microseconds -/
def stampMicros (rnd : ℚ → ℚ) (m : ℤ) : ℤ := roundEven (1000000 * rnd (rnd (m : ℚ) / 1000000))

theorem stampMicros_mono {rnd : ℚ → ℚ} (h : IsRnd rnd) {m m' : ℤ} (hm : m ≤ m') : stampMicros rnd m ≤ stampMicros rnd m' := by
  apply roundEven_mono
  have h1 : rnd (m : ℚ) ≤ rnd (m' : ℚ) := h.mono (by exact_mod_cast hm)
  have h2 : rnd (rnd (m : ℚ) / 1000000) ≤ rnd (rnd (m' : ℚ) / 1000000) := h.mono (by linarith)
  linarith

theorem stamp_exact {rnd : ℚ → ℚ} (h : IsRnd rnd) (m : ℤ) (hm : |m| ≤ 2 ^ 33 * 1000000) :
    stampMicros rnd m = m := by
  have hm' : |(m : ℚ)| ≤ 2 ^ 33 * 1000000 := by
    have := hm
    have : ((|m| : ℤ) : ℚ) ≤ ((2 ^ 33 * 1000000 : ℤ) : ℚ) := by exact_mod_cast this
    push_cast at this; norm_num at this ⊢; exact this
  have e1 : rnd (m : ℚ) = m := h.fix (double_int_le m (by norm_num at hm ⊢; omega))
  unfold stampMicros
  rw [e1]
  have he := h.err_abs (x := (m : ℚ) / 1000000) (e := -20) (by norm_num) (by
    rw [abs_div, abs_of_pos (show (0 : ℚ) < 1000000 by norm_num)]
    rw [div_le_iff₀ (by norm_num)]
    norm_num at hm' ⊢; linarith)
  have hr := roundEven_err (1000000 * rnd ((m : ℚ) / 1000000))
  rw [abs_le] at he hr
  norm_num at he
  have h1 : ((roundEven (1000000 * rnd ((m : ℚ) / 1000000)) : ℤ) : ℚ) - m < 1 := by linarith [he.2, hr.2]
  have h2 : (-1 : ℚ) < ((roundEven (1000000 * rnd ((m : ℚ) / 1000000)) : ℤ) : ℚ) - m := by linarith [he.1, hr.1]
  generalize roundEven (1000000 * rnd ((m : ℚ) / 1000000)) = k at h1 h2
  have h3 : k - m < 1 := by exact_mod_cast h1
  have h4 : -1 < k - m := by exact_mod_cast h2
  omega

theorem stamp_near {rnd : ℚ → ℚ} (h : IsRnd rnd) (m : ℤ) (hm : |m| ≤ 9223372036854776) :
    |stampMicros rnd m - m| ≤ 2 := by
  have hm' : |(m : ℚ)| ≤ 9223372036854776 := by exact_mod_cast hm
  have he0 := h.err_abs (x := (m : ℚ)) (e := 1) (by norm_num) (by norm_num; linarith)
  norm_num at he0
  set y := rnd (m : ℚ) with hy
  have hyb : |y| ≤ 9223372036854777 := by
    rw [abs_le] at *; constructor <;> linarith
  have he := h.err_abs (x := y / 1000000) (e := -19) (by norm_num) (by
    rw [abs_div, abs_of_pos (show (0 : ℚ) < 1000000 by norm_num)]
    rw [div_le_iff₀ (by norm_num)]
    norm_num; linarith)
  have hr := roundEven_err (1000000 * rnd (y / 1000000))
  unfold stampMicros
  rw [← hy]
  rw [abs_le] at he hr he0
  norm_num at he
  have h1 : ((roundEven (1000000 * rnd (y / 1000000)) : ℤ) : ℚ) - m < 3 := by linarith [he.2, hr.2, he0.2]
  have h2 : (-3 : ℚ) < ((roundEven (1000000 * rnd (y / 1000000)) : ℤ) : ℚ) - m := by linarith [he.1, hr.1, he0.1]
  generalize roundEven (1000000 * rnd (y / 1000000)) = k at h1 h2
  have h3 : k - m < 3 := by exact_mod_cast h1
  have h4 : -3 < k - m := by exact_mod_cast h2
  rw [abs_le]; omega

theorem stamp_sign {rnd : ℚ → ℚ} (h : IsRnd rnd) (m : ℤ) :
    (rnd (rnd (m : ℚ) / 1000000) < 0 ↔ stampMicros rnd m < 0) := by
  have d0 : IsDouble 0 := by exact_mod_cast isDouble_int 0 (by norm_num)
  have z0 : stampMicros rnd 0 = 0 := stamp_exact h 0 (by norm_num)
  have z1 : stampMicros rnd (-1) = -1 := stamp_exact h (-1) (by norm_num)
  rcases lt_or_ge m 0 with hm | hm
  · have h1 : stampMicros rnd m ≤ -1 := z1 ▸ stampMicros_mono h (by omega)
    refine ⟨fun _ => by omega, fun _ => ?_⟩
    by_contra hc
    have : roundEven (0 : ℚ) ≤ stampMicros rnd m := roundEven_mono (by linarith)
    have hz : roundEven (0 : ℚ) = 0 := by norm_num [roundEven]
    omega
  · have h1 : 0 ≤ stampMicros rnd m := z0 ▸ stampMicros_mono h hm
    have h2 : 0 ≤ rnd (rnd (m : ℚ) / 1000000) := h.nonneg (div_nonneg (h.nonneg (by exact_mod_cast hm)) (by norm_num))
    constructor <;> intro <;> linarith

theorem shows_stamp {rnd : ℚ → ℚ} (h : IsRnd rnd) (ns : ℤ) : Shows (currentTimeString rnd ns) (stampMicros rnd (micros ns)) :=
  shows_of_round _ _ rfl (stamp_sign h _)

/-- **C136, the claim as a user reads it** (false): the time stamp of a message shows the microseconds of its time exactly, at every time the clock can show. -/
def C136_claim : Prop := ∀ rnd, IsRnd rnd → ∀ ns, IsTime ns → Shows (currentTimeString rnd ns) (ns.tdiv 1000)

/-- **C136, what holds for every time of the next two centuries**: up to 2³³ seconds (in the year 2242) before or after the epoch, the stamp shows the microseconds of the time exactly,
the rest of a microsecond dropped (toward the epoch). -/
theorem C136_exact_partial {rnd : ℚ → ℚ} (h : IsRnd rnd) (ns : ℤ) (hns : |ns| ≤ 2 ^ 33 * 10 ^ 9) :
    Shows (currentTimeString rnd ns) (ns.tdiv 1000) := by
  have := shows_stamp h ns
  rw [stamp_exact h] at this
  · exact this
  · unfold micros
    rw [abs_le, tdiv_eq] at *
    norm_num at *
    split_ifs <;> omega

/-- **C136, at every time**: the stamp is a number of seconds with six decimals, wrong by two microseconds at most. -/
theorem C136_near {rnd : ℚ → ℚ} (h : IsRnd rnd) (ns : ℤ) (hns : IsTime ns) :
    ∃ us, Shows (currentTimeString rnd ns) us ∧ |us - ns.tdiv 1000| ≤ 2 :=
  ⟨_, shows_stamp h ns, stamp_near h _ (micros_time ns hns)⟩

theorem shows_inj {text : List Char} {a b : ℤ} (ha : Shows text a) (hb : Shows text b) : a = b := by
  obtain ⟨w, f, e, hd, hf, hw, _, hv⟩ := ha
  obtain ⟨w', f', e', hd', hf', hw', _, hv'⟩ := hb
  rw [e] at e'
  have sg : ∀ (w : List Char) (k : ℤ) (rest : List Char), w ≠ [] → (∀ c ∈ w, c.isDigit = true) →
      (((if k < 0 then ['-'] else []) ++ w ++ rest).head? = some '-' ↔ k < 0) := by
    intro w k rest hw hd
    obtain ⟨c, w', rfl⟩ := List.exists_cons_of_ne_nil hw
    split_ifs with hk
    · simp [hk]
    · simp [hk]
      intro hc
      have := hd c (by simp)
      rw [hc] at this
      simp at this
  have hsg : a < 0 ↔ b < 0 := by
    rw [← sg w a ('.' :: f) hw (fun c hc => hd c (by simp [hc])), ← sg w' b ('.' :: f') hw' (fun c hc => hd' c (by simp [hc])), e']
  simp only [hsg] at e'
  rw [List.append_assoc, List.append_assoc, List.append_cancel_left_eq] at e'
  have hl : w.length = w'.length := by
    have := congrArg List.length e'
    simp at this; omega
  obtain ⟨rfl, h2⟩ := List.append_inj e' hl
  simp at h2
  subst h2
  rw [hv] at hv'
  omega

/-- **C136, later is not earlier**: the seconds shown by a later stamp are never fewer. -/
theorem C136_monotone {rnd : ℚ → ℚ} (h : IsRnd rnd) (ns ns' us us' : ℤ) (hle : ns ≤ ns')
    (h1 : Shows (currentTimeString rnd ns) us) (h2 : Shows (currentTimeString rnd ns') us') : us ≤ us' := by
  rw [shows_inj h1 (shows_stamp h ns), shows_inj h2 (shows_stamp h ns')]
  exact stampMicros_mono h (Int.tdiv_le_tdiv (by norm_num) hle)

theorem rnd_stamp_2242 {rnd : ℚ → ℚ} (h : IsRnd rnd) : 2 ^ 33 * 1000000 + 2 ≤ stampMicros rnd (2 ^ 33 * 1000000 + 1) := by
  set z : ℚ := (2 ^ 33 * 1000000 + 1) / 1000000 with hz
  have e1 : rnd (((2 ^ 33 * 1000000 + 1 : ℤ)) : ℚ) / 1000000 = z := by
    rw [h.fix (double_int_le _ (by norm_num))]; rw [hz]; norm_num
  have hy : IsDouble (2 ^ 33 + 1 / 2 ^ 19) := ⟨2 ^ 52 + 1, -19, by norm_num, by norm_num, by norm_num⟩
  have hn := h.near z _ hy
  rw [hz] at hn
  norm_num at hn
  have hgt : (2 : ℚ) ^ 33 < rnd z := by
    rw [hz]
    have := (abs_le.mp hn).1
    norm_num at this ⊢; linarith
  have hle : rnd z ≤ 2 ^ 34 := h.le_of_le ⟨1, 34, by norm_num, by norm_num, by norm_num⟩ (by rw [hz]; norm_num)
  have hge : (2 : ℚ) ^ 33 + 1 / 2 ^ 19 ≤ rnd z := by
    obtain ⟨m, e, hm, _, hx⟩ := h.mem z
    rw [hx] at hgt ⊢
    have hp : (0 : ℚ) < 2 ^ e := by positivity
    have he : -19 ≤ e := by
      by_contra hc
      have h1 : (2 : ℚ) ^ e ≤ 2 ^ (-20 : ℤ) := zpow_le_zpow_right₀ (by norm_num) (by omega)
      have h2 : (m : ℚ) ≤ 2 ^ 53 := by
        have : m ≤ 2 ^ 53 := by have := le_abs_self m; omega
        exact_mod_cast this
      have h3 : (m : ℚ) * 2 ^ e ≤ 2 ^ 53 * 2 ^ (-20 : ℤ) := by
        calc (m : ℚ) * 2 ^ e ≤ 2 ^ 53 * 2 ^ e := mul_le_mul_of_nonneg_right h2 hp.le
          _ ≤ _ := mul_le_mul_of_nonneg_left h1 (by positivity)
      norm_num at h3 hgt
      linarith
    obtain ⟨j, rfl⟩ : ∃ j : ℕ, e = -19 + j := ⟨(e + 19).toNat, by omega⟩
    have hq : ((m : ℚ) * 2 ^ (-19 + (j : ℤ))) = ((m * 2 ^ j : ℤ) : ℚ) / 2 ^ 19 := by
      rw [zpow_add₀ (by norm_num), zpow_natCast]; push_cast; norm_num; ring
    rw [hq] at hgt ⊢
    rw [lt_div_iff₀ (by norm_num)] at hgt
    have h1 : (2 ^ 33 * 2 ^ 19 : ℤ) < m * 2 ^ j := by exact_mod_cast hgt
    have h2 : (2 ^ 33 * 2 ^ 19 + 1 : ℤ) ≤ m * 2 ^ j := h1
    rw [le_div_iff₀ (by norm_num)]
    have h3 : ((2 ^ 33 * 2 ^ 19 + 1 : ℤ) : ℚ) ≤ ((m * 2 ^ j : ℤ) : ℚ) := by exact_mod_cast h2
    norm_num at h3 ⊢; linarith
  have hv : roundEven (1000000 * (2 ^ 33 + 1 / 2 ^ 19) : ℚ) = 2 ^ 33 * 1000000 + 2 := by
    norm_num [roundEven]
  unfold stampMicros
  rw [e1, ← hv]
  exact roundEven_mono (by linarith)

/-- **C136, refuted**: from 2³³ seconds on, doubles are further apart than a microsecond: a time stamp of that day of the year 2242 is a microsecond late. -/
theorem C136_one_late {rnd : ℚ → ℚ} (h : IsRnd rnd) (us : ℤ) (hs : Shows (currentTimeString rnd ((2 ^ 33 * 1000000 + 1) * 1000)) us) :
    2 ^ 33 * 1000000 + 2 ≤ us := by
  rw [shows_inj hs (shows_stamp h _)]
  have : micros ((2 ^ 33 * 1000000 + 1) * 1000) = 2 ^ 33 * 1000000 + 1 := by decide
  rw [this]
  exact rnd_stamp_2242 h

theorem C136_negation : ¬ C136_claim := by
  intro hc
  have h := isRnd_rndEven
  have := C136_one_late h _ (hc _ h ((2 ^ 33 * 1000000 + 1) * 1000) (by unfold IsTime; norm_num))
  have e : ((2 ^ 33 * 1000000 + 1) * 1000 : ℤ).tdiv 1000 = 2 ^ 33 * 1000000 + 1 := by decide
  rw [e] at this
  norm_num at this

/-! ## the order of the texts -/

theorem digitChar_lt {a b : ℕ} (ha : a < 10) (hb : b < 10) : Nat.digitChar a < Nat.digitChar b ↔ a < b := by
  have : ∀ a b : Fin 10, Nat.digitChar a < Nat.digitChar b ↔ (a : ℕ) < b := by decide
  exact this ⟨a, ha⟩ ⟨b, hb⟩

theorem lex_append_right {xs ys a b : List Char} (hl : xs.length = ys.length) (h : xs < ys) : xs ++ a < ys ++ b := by
  induction xs generalizing ys with
  | nil =>
    have : ys = [] := by simpa [eq_comm] using hl
    subst this; simp at h
  | cons x xs ih =>
    obtain ⟨y, ys, rfl⟩ : ∃ y ys', ys = y :: ys' := by
      cases ys with
      | nil => simp at hl
      | cons y ys => exact ⟨y, ys, rfl⟩
    rw [List.cons_lt_cons_iff] at h
    rw [List.cons_append, List.cons_append, List.cons_lt_cons_iff]
    rcases h with h | ⟨rfl, h⟩
    · exact Or.inl h
    · exact Or.inr ⟨rfl, ih (by simpa using hl) h⟩

theorem lex_append_left {xs a b : List Char} (h : a < b) : xs ++ a < xs ++ b := by
  induction xs with
  | nil => exact h
  | cons x xs ih => rw [List.cons_append, List.cons_append, List.cons_lt_cons_iff]; exact Or.inr ⟨rfl, ih⟩

theorem padded_lt (w a b : ℕ) (hb : b < 10 ^ w) (hab : a < b) : padded w a < padded w b := by
  induction w generalizing a b with
  | zero => simp at hb; omega
  | succ w ih =>
    rw [padded, padded]
    rcases Nat.lt_or_ge (a / 10) (b / 10) with h | h
    · exact lex_append_right (by rw [padded_length, padded_length]) (ih _ _ (by rw [pow_succ] at hb; omega) h)
    · have e : a / 10 = b / 10 := by omega
      rw [e]
      apply lex_append_left
      rw [List.cons_lt_cons_iff]
      exact Or.inl ((digitChar_lt (by omega) (by omega)).2 (by omega))

theorem toDigits_padded (w n : ℕ) (h1 : 10 ^ w ≤ n) (h2 : n < 10 ^ (w + 1)) : Nat.toDigits 10 n = padded (w + 1) n := by
  induction w generalizing n with
  | zero =>
    rw [Nat.toDigits_of_lt_base (by simpa using h2), padded, padded]
    simp at h2
    rw [Nat.mod_eq_of_lt h2]; rfl
  | succ w ih =>
    have : 10 ≤ n := le_trans (by rw [pow_succ]; have := Nat.one_le_pow w 10 (by norm_num); omega) h1
    rw [Nat.toDigits_of_base_le (by norm_num) this, padded, ih _ (by rw [pow_succ] at h1; omega) (by rw [pow_succ] at h2; omega)]

/-- the text of `k` microseconds -/
def textOf (k : ℕ) : List Char := Nat.toDigits 10 (k / 1000000) ++ ['.'] ++ padded 6 (k % 1000000)

theorem textOf_lt (w a b : ℕ) (ha : 10 ^ w * 1000000 ≤ a) (hb : b < 10 ^ (w + 1) * 1000000) (hab : a < b) : textOf a < textOf b := by
  unfold textOf
  rw [toDigits_padded w (a / 1000000) (by omega) (by omega), toDigits_padded w (b / 1000000) (by omega) (by omega)]
  rcases Nat.lt_or_ge (a / 1000000) (b / 1000000) with h | h
  · rw [List.append_assoc, List.append_assoc]
    exact lex_append_right (by rw [padded_length, padded_length]) (padded_lt _ _ _ (by omega) h)
  · have e : a / 1000000 = b / 1000000 := by omega
    rw [e]
    exact lex_append_left (padded_lt _ _ _ (by norm_num; omega) (by omega))

theorem text_eq {rnd : ℚ → ℚ} (h : IsRnd rnd) (ns : ℤ) (h0 : 0 ≤ stampMicros rnd (micros ns)) :
    currentTimeString rnd ns = textOf (stampMicros rnd (micros ns)).toNat := by
  have := stamp_sign h (micros ns)
  have hx : ¬ currentTimeSecondsUtc rnd ns < 0 := by
    intro hc
    have := this.1 hc
    omega
  have e : (roundEven (1000000 * currentTimeSecondsUtc rnd ns)).natAbs = (stampMicros rnd (micros ns)).toNat := by
    have : roundEven (1000000 * currentTimeSecondsUtc rnd ns) = stampMicros rnd (micros ns) := rfl
    rw [this]; omega
  unfold currentTimeString fixed6 textOf
  simp only [hx, if_false, e, List.nil_append]

theorem text_irrefl (a : List Char) : ¬ a < a := List.lt_irrefl a
theorem text_asymm {a b : List Char} (h : a < b) : ¬ b < a := fun h' => List.lt_irrefl a (List.lt_trans h h')

/-- **C136, sorting by text**: between 10⁹ seconds (September 2001) and the end of the clock, sorting messages by the text of the stamp puts them in the order of time:
a later message never has a smaller text. -/
theorem C136_text_order {rnd : ℚ → ℚ} (h : IsRnd rnd) (ns ns' : ℤ) (h0 : 10 ^ 18 ≤ ns) (hle : ns ≤ ns') (h1 : ns' < 2 ^ 63) :
    ¬ currentTimeString rnd ns' < currentTimeString rnd ns := by
  have hmono : stampMicros rnd (micros ns) ≤ stampMicros rnd (micros ns') := stampMicros_mono h (Int.tdiv_le_tdiv (by norm_num) hle)
  have hlo : (10 ^ 15 : ℤ) ≤ stampMicros rnd (micros ns) := by
    have e : stampMicros rnd (10 ^ 15) = 10 ^ 15 := stamp_exact h _ (by norm_num)
    rw [← e]
    apply stampMicros_mono h
    unfold micros; rw [tdiv_eq]; norm_num at *; split_ifs <;> omega
  have hhi : stampMicros rnd (micros ns') < 10 ^ 16 := by
    have b := micros_time ns' ⟨by norm_num at *; omega, h1⟩
    have := stamp_near h _ b
    rw [abs_le] at *
    norm_num at *; omega
  rw [text_eq h ns (by norm_num at *; omega), text_eq h ns' (by norm_num at *; omega)]
  rcases lt_or_eq_of_le hmono with hl | he
  · exact text_asymm (textOf_lt 9 (stampMicros rnd (micros ns)).toNat (stampMicros rnd (micros ns')).toNat (by norm_num at *; omega) (by norm_num at *; omega) (by omega))
  · rw [he]; exact text_irrefl _

/-- **C136, distinct microseconds have distinct texts, in order**, up to the year 2242 -/
theorem C136_text_strict_partial {rnd : ℚ → ℚ} (h : IsRnd rnd) (ns ns' : ℤ) (h0 : 10 ^ 18 ≤ ns) (h0' : 10 ^ 18 ≤ ns') (h1 : ns ≤ 2 ^ 33 * 10 ^ 9) (h1' : ns' ≤ 2 ^ 33 * 10 ^ 9) :
    currentTimeString rnd ns < currentTimeString rnd ns' ↔ ns / 1000 < ns' / 1000 := by
  have key : ∀ ns : ℤ, 10 ^ 18 ≤ ns → ns ≤ 2 ^ 33 * 10 ^ 9 → currentTimeString rnd ns = textOf (ns / 1000).toNat := by
    intro ns h0 h1
    have e : stampMicros rnd (micros ns) = ns / 1000 := by
      rw [stamp_exact h]
      · unfold micros; rw [tdiv_eq, if_pos (by norm_num at *; omega)]
      · unfold micros; rw [tdiv_eq, if_pos (by norm_num at *; omega), abs_le]; norm_num at *; omega
    rw [text_eq h ns (by rw [e]; norm_num at *; omega), e]
  rw [key ns h0 h1, key ns' h0' h1']
  have step : ∀ a b : ℤ, 10 ^ 18 ≤ a → b ≤ 2 ^ 33 * 10 ^ 9 → a / 1000 < b / 1000 → textOf (a / 1000).toNat < textOf (b / 1000).toNat := by
    intro a b ha hb hab
    exact textOf_lt 9 _ _ (by norm_num at *; omega) (by norm_num at *; omega) (by norm_num at *; omega)
  constructor
  · intro hlt
    by_contra hc
    rcases lt_or_eq_of_le (not_lt.mp hc) with hl | he
    · exact text_asymm (step ns' ns h0' h1 hl) hlt
    · rw [he] at hlt; exact text_irrefl _ hlt
  · exact step ns ns' h0 h1'

/-- before September 2001 the order of the texts is not that of the times -/
theorem C136_text_order_2001 {rnd : ℚ → ℚ} (h : IsRnd rnd) : currentTimeString rnd (10 ^ 18) < currentTimeString rnd (10 ^ 18 - 1000) := by
  have e1 : stampMicros rnd (micros (10 ^ 18)) = 10 ^ 15 := stamp_exact h _ (by decide)
  have e2 : stampMicros rnd (micros (10 ^ 18 - 1000)) = 10 ^ 15 - 1 := stamp_exact h _ (by decide)
  rw [text_eq h _ (by rw [e1]; norm_num), text_eq h _ (by rw [e2]; norm_num), e1, e2]
  decide

/-! ## the hypotheses are met -/

example : IsRnd rndEven ∧ |(1700000000123456789 : ℤ)| ≤ 2 ^ 33 * 10 ^ 9 ∧ IsTime 1700000000123456789 ∧ (1700000000123456789 : ℤ).tdiv 1000 = 1700000000123456 :=
  ⟨isRnd_rndEven, by norm_num, by unfold IsTime; norm_num, by decide⟩
example : Shows (currentTimeString rndEven (-1500)) (-1) := C136_exact_partial isRnd_rndEven (-1500) (by norm_num)
example : Shows "1700000000.123456".toList 1700000000123456 :=
  ⟨"1700000000".toList, "123456".toList, by decide, by decide, by decide, by decide, by decide, by decide⟩
example : Shows "-0.000001".toList (-1) := ⟨"0".toList, "000001".toList, by decide, by decide, by decide, by decide, by decide, by decide⟩
example : Shows (currentTimeString rndEven 1700000000123456789) 1700000000123456 ∧ currentTimeString rndEven 1700000000123456789 < currentTimeString rndEven 1700000000123457000 :=
  ⟨C136_exact_partial isRnd_rndEven _ (by norm_num), (C136_text_strict_partial isRnd_rndEven _ _ (by norm_num) (by norm_num) (by norm_num) (by norm_num)).2 (by norm_num)⟩

end Verif.Logging.Stamp
