import Verif.PTree.CodecsLemmas
import Verif.PTree.Props

/-!
# Values in a property tree: what is written is read back (C167), and which texts can be read as which values (C168)
-/

namespace Verif.PTree.Codecs

open Verif.Common

/-! ## C168 -/

/-- a getter gives a value iff the entry holds a text of that value -/
theorem get_value_iff {T} (c : Codec T) (t : Tree) (ns key : Str) (v : T) :
    get c t ns key = .value v ↔ ∃ d, get strCodec t ns key = .value d ∧ c.parse d = some v := by
  unfold get strCodec
  cases getData t (keyPath (qualify ns key)).frags with
  | none => simp
  | some d =>
    simp only [GetRes.value.injEq, exists_eq_left']
    cases c.parse d <;> simp

theorem get_badValue_iff {T} (c : Codec T) (t : Tree) (ns key : Str) :
    get c t ns key = .badValue ↔ ∃ d, get strCodec t ns key = .value d ∧ ∀ v, c.parse d ≠ some v := by
  unfold get strCodec
  cases getData t (keyPath (qualify ns key)).frags with
  | none => simp
  | some d =>
    simp only [GetRes.value.injEq, exists_eq_left']
    cases c.parse d <;> simp

theorem get_badKey_iff {T} (c : Codec T) (t : Tree) (ns key : Str) :
    get c t ns key = .badKey ↔ get strCodec t ns key = .badKey := by
  unfold get strCodec
  cases getData t (keyPath (qualify ns key)).frags with
  | none => simp
  | some d =>
    simp only
    cases c.parse d <;> simp

/-- **C168** `getInt` succeeds exactly on the texts of integers in the range of an `int`, with the integer that the text denotes;
on any other text it throws `InvalidValueException`. -/
theorem C168_getInt (t : Tree) (ns key : Str) :
    (∀ n, get intCodec t ns key = .value n ↔ ∃ d, get strCodec t ns key = .value d ∧ IntText d n) ∧
    (get intCodec t ns key = .badValue ↔ ∃ d, get strCodec t ns key = .value d ∧ ∀ n, ¬ IntText d n) ∧
    (get intCodec t ns key = .badKey ↔ get strCodec t ns key = .badKey) := by
  refine ⟨fun n => ?_, ?_, get_badKey_iff _ _ _ _⟩
  · rw [get_value_iff]
    simp only [intCodec, parseInt_iff]
  · rw [get_badValue_iff]
    simp only [intCodec, ne_eq, parseInt_iff]

/-- **C168** `getBool` succeeds exactly on the texts of truth values. -/
theorem C168_getBool (t : Tree) (ns key : Str) :
    (∀ b, get boolCodec t ns key = .value b ↔ ∃ d, get strCodec t ns key = .value d ∧ BoolText d b) ∧
    (get boolCodec t ns key = .badValue ↔ ∃ d, get strCodec t ns key = .value d ∧ ∀ b, ¬ BoolText d b) ∧
    (get boolCodec t ns key = .badKey ↔ get strCodec t ns key = .badKey) := by
  refine ⟨fun n => ?_, ?_, get_badKey_iff _ _ _ _⟩
  · rw [get_value_iff]
    simp only [boolCodec, parseBool_iff]
  · rw [get_badValue_iff]
    simp only [boolCodec, ne_eq, parseBool_iff]

/-- **C168** `getDouble` succeeds exactly on the texts of decimal numbers in the range of a `double`, with the nearest `double`. -/
theorem C168_getDouble {rnd : ℚ → ℚ} (near : ℚ → ℤ) (t : Tree) (ns key : Str) :
    (∀ v, get (doubleCodec near rnd) t ns key = .value v ↔ ∃ d, get strCodec t ns key = .value d ∧ DoubleText rnd d v) ∧
    (get (doubleCodec near rnd) t ns key = .badValue ↔ ∃ d, get strCodec t ns key = .value d ∧ ∀ v, ¬ DoubleText rnd d v) ∧
    (get (doubleCodec near rnd) t ns key = .badKey ↔ get strCodec t ns key = .badKey) := by
  refine ⟨fun n => ?_, ?_, get_badKey_iff _ _ _ _⟩
  · rw [get_value_iff]
    simp only [doubleCodec, parseDouble_iff]
  · rw [get_badValue_iff]
    simp only [doubleCodec, ne_eq, parseDouble_iff]

/-- **C168** A text denotes at most one value of each type, and the double is always a finite one. -/
theorem C168_unique {rnd : ℚ → ℚ} (hr : IsRnd rnd) (s : Str) :
    (∀ n n', IntText s n → IntText s n' → n = n') ∧ (∀ b b', BoolText s b → BoolText s b' → b = b') ∧
    (∀ v v', DoubleText rnd s v → DoubleText rnd s v' → v = v') ∧ (∀ v, DoubleText rnd s v → v.Valid) := by
  refine ⟨?_, ?_, ?_, ?_⟩
  · intro n n' h h'
    rw [← parseInt_iff] at h h'
    rw [h] at h'; exact Option.some.inj h'
  · intro n n' h h'
    rw [← parseBool_iff] at h h'
    rw [h] at h'; exact Option.some.inj h'
  · intro n n' h h'
    rw [← parseDouble_iff] at h h'
    rw [h] at h'; exact Option.some.inj h'
  · rintro v ⟨w, sg, neg, t, w', q, rfl, hw, hw', hsg, ht, hq, rfl⟩
    refine ⟨hr.nonneg ?_, hr.mem q, hq⟩
    obtain ⟨i, fr, f, ex, e, rfl, hi, hf, hex, hne, rfl⟩ := ht
    exact mul_nonneg (Nat.cast_nonneg _) (zpow_nonneg (by norm_num) _)

/-- Is a text accepted as a truth value only if it is `0`, `1`, `true` or `false` between white space (with a sign or leading zeros on
the numbers)? -/
def C168_bool_claim : Prop := ∀ s b, BoolText s b →
  (∃ n, IntText s n ∧ n = if b then 1 else 0) ∨ ∃ w w', s = w ++ wordOf b ++ w' ∧ Blank w ∧ Blank w'

/-- **C168** No: anything that the attempt to read a number consumed may stand before the word, so `2true` is true. -/
theorem C168_bool_negation : ¬ C168_bool_claim := by
  intro h
  have h2 : BoolText "2true".toList true :=
    .inr ⟨[], [], false, ['2'], [], [], by decide, by simp [Blank], by simp [Blank], by simp [Blank], .none, by simp [AllDigits], by decide⟩
  rcases h _ _ h2 with ⟨n, h3, -⟩ | ⟨w, w', h3, h4, -⟩
  · rw [← parseInt_iff] at h3
    revert h3
    rw [show parseInt "2true".toList = none by decide]
    simp
  · cases w with
    | nil =>
      have : '2' = 't' := (List.cons.inj h3).1
      revert this; decide
    | cons c w =>
      have hc := h4 c (by simp)
      simp only [List.cons_append] at h3
      have : '2' = c := (List.cons.inj h3).1
      subst this
      revert hc; decide

/-! ### Examples -/

example : IntText " -0042\n".toList (-42) := (parseInt_iff _ _).mp (by decide)
example : ¬ IntText "0x10".toList 16 := fun h => by rw [← parseInt_iff] at h; revert h; decide
example : ∀ n, ¬ IntText "2147483648".toList n := fun n h => by
  rw [← parseInt_iff, show parseInt "2147483648".toList = none by decide] at h; cases h
example : BoolText " 01 ".toList true := (parseBool_iff _ _).mp (by decide)
example : BoolText "- 7".toList false → False := fun h => by rw [← parseBool_iff] at h; revert h; decide
example : BoolText "-1 false".toList false := (parseBool_iff _ _).mp (by decide)
example : DecText "12.50e-1".toList (5 / 4) :=
  ⟨['1', '2'], ['.', '5', '0'], ['5', '0'], ['e', '-', '1'], -1, by decide, by simp [AllDigits], .some (by simp [AllDigits]),
    .some (c := 'e') (sg := ['-']) (neg := true) (d := ['1']) (by decide) .minus (by simp [AllDigits]) (by decide), by decide, by
      rw [show Nat.ofDigitChars 10 (['1', '2'] ++ ['5', '0']) 0 = 1250 by decide]; norm_num⟩

/-! ## C167 -/

/-- Is every value read back after it was written? -/
def C167_claim : Prop := ∀ near, IsNearest near → ∀ rnd, IsRnd rnd → ∀ (t : Tree) (ns key : Str), Namespace ns → CleanEnd ns key →
  ∀ v : F64, v.Valid → ∃ t', set (doubleCodec near rnd) t ns key v = some t' ∧ get (doubleCodec near rnd) t' ns key = .value v

/-- after a write, every getter reads the text that was written -/
theorem set_then_get {T} (c : Codec T) (t : Tree) {ns : Str} (hns : Namespace ns) (key : Str) (hc : CleanEnd ns key) (v : T) :
    ∃ t', set c t ns key v = some t' ∧ ∀ {U} (c' : Codec U), get c' t' ns key = readAs c' (c.print v) := by
  refine ⟨_, set_eq c hns key hc t v, fun c' => ?_⟩
  unfold get
  rw [keyPath_frags hns key hc, getData_putFrags, if_pos rfl]
  rfl

theorem readAs_value {T} (c : Codec T) (d : Str) (v : T) : readAs c d = .value v ↔ c.parse d = some v := by
  unfold readAs; cases c.parse d <;> simp

theorem readAs_bad {T} (c : Codec T) (d : Str) : readAs c d = .badValue ↔ ∀ v, c.parse d ≠ some v := by
  unfold readAs; cases c.parse d <;> simp

theorem printInt_eq (n : ℤ) : printInt n = (toString n).toList := by
  cases n with
  | ofNat m =>
    have : ¬ (Int.ofNat m < 0) := by simp
    simp only [printInt, this, if_false, List.nil_append, Int.ofNat_eq_natCast, Int.natAbs_natCast]
    exact Nat.toList_repr.symm
  | negSucc m =>
    have : Int.negSucc m < 0 := Int.negSucc_lt_zero m
    simp only [printInt, this, if_true, Int.natAbs_negSucc]
    change _ = ("-" ++ Nat.repr (m + 1)).toList
    rw [String.toList_append, Nat.toList_repr]
    rfl

theorem isDouble_small {k : ℕ} (h : k < 2 ^ 53) : IsDouble k := by
  have := isDouble_int (k : ℤ) (by rw [Nat.abs_cast]; exact_mod_cast h)
  exact_mod_cast this

theorem natCast_lt_max {k : ℕ} (h : k < 2 ^ 53) : (k : ℚ) < 2 ^ 1024 := by
  have : (k : ℚ) < 2 ^ 53 := by exact_mod_cast h
  exact this.trans (pow_lt_pow_right₀ (by norm_num) (by norm_num))

/-- the text of an integer is the text of that number as a double -/
theorem intText_double {rnd : ℚ → ℚ} (hr : IsRnd rnd) {s : Str} {n : ℤ} (h : IntText s n) :
    ∃ neg, DoubleText rnd s (.finite neg |n|) ∧ (n ≠ 0 → neg = decide (n < 0)) := by
  obtain ⟨w, sg, neg, d, w', rfl, hw, hw', hsg, hd, hne, rfl, h1, h2⟩ := h
  have hq : (((|signed neg d| : ℤ)) : ℚ) = (Nat.ofDigitChars 10 d 0 : ℕ) := by
    unfold signed; cases neg <;> simp
  have hlt : Nat.ofDigitChars 10 d 0 < 2 ^ 53 := by
    revert h1 h2
    unfold signed; cases neg <;> simp <;> omega
  have hfix : rnd (Nat.ofDigitChars 10 d 0 : ℕ) = (Nat.ofDigitChars 10 d 0 : ℕ) := hr.fix (isDouble_small hlt)
  refine ⟨neg, ⟨w, sg, neg, d, w', (Nat.ofDigitChars 10 d 0 : ℕ), rfl, hw, hw', hsg, ?_, ?_, ?_⟩, ?_⟩
  · exact ⟨d, [], [], [], 0, by simp, hd, .none, .none, by simpa using hne, by simp⟩
  · rw [hfix]; exact natCast_lt_max hlt
  · rw [hfix, ← hq]; push_cast; rfl
  · intro h0
    revert h0
    unfold signed
    cases neg
    · simp
    · simp
      omega

/-- **C167** A string that was written is read back. -/
theorem C167_string (t : Tree) {ns : Str} (hns : Namespace ns) (key : Str) (hc : CleanEnd ns key) (v : Str) :
    ∃ t', set strCodec t ns key v = some t' ∧ get strCodec t' ns key = .value v := by
  obtain ⟨t', h1, h2⟩ := set_then_get strCodec t hns key hc v
  exact ⟨t', h1, h2 _⟩

/-- **C167** An `int` that was written is read back; as a string it is its usual decimal text, as a double it is the same number, and
it is a truth value iff it is 0 or 1. -/
theorem C167_int (t : Tree) {ns : Str} (hns : Namespace ns) (key : Str) (hc : CleanEnd ns key) (n : ℤ)
    (h1 : -2147483648 ≤ n) (h2 : n ≤ 2147483647) :
    ∃ t', set intCodec t ns key n = some t' ∧ get intCodec t' ns key = .value n ∧
      get strCodec t' ns key = .value (toString n).toList ∧
      (∀ near rnd, IsRnd rnd → get (doubleCodec near rnd) t' ns key = .value (.finite (decide (n < 0)) |n|)) ∧
      (∀ b, get boolCodec t' ns key = .value b ↔ n = if b then 1 else 0) := by
  obtain ⟨t', e1, e2⟩ := set_then_get intCodec t hns key hc n
  have hI := intText_print n h1 h2
  refine ⟨t', e1, ?_, ?_, ?_, ?_⟩
  · rw [e2, readAs_value]; exact (parseInt_iff _ _).mpr hI
  · rw [e2, ← printInt_eq]; rfl
  · intro near rnd hr
    rw [e2, readAs_value]
    refine (parseDouble_iff _ _ _).mpr ?_
    change DoubleText rnd (printInt n) _
    rw [← parseDouble_iff]
    obtain ⟨neg, h3, h4⟩ := intText_double hr hI
    by_cases h0 : n = 0
    · subst h0
      have hz : rnd 0 = 0 := by simpa using hr.fix (isDouble_small (k := 0) (by norm_num))
      rw [parseDouble_iff]
      refine ⟨[], [], false, ['0'], [], 0, by decide, by simp [Blank], by simp [Blank], .none, ?_, by rw [hz]; norm_num, by simp [hz]⟩
      exact ⟨['0'], [], [], [], 0, rfl, by simp [AllDigits], .none, .none, by simp, by
        rw [show Nat.ofDigitChars 10 (['0'] ++ []) 0 = 0 from rfl]; simp⟩
    · rw [h4 h0] at h3
      rw [parseDouble_iff]; exact h3
  · intro b
    rw [e2, readAs_value]
    change parseBool (printInt n) = some b ↔ _
    rw [parseBool_iff]
    constructor
    · rintro (⟨w, sg, neg, d, w', hs, hw, hw', hsg, hd, hne, hv⟩ | ⟨w, sg, neg, d, w', w'', hs, -⟩)
      · have h3 : IntText (printInt n) (if b then 1 else 0) :=
          ⟨w, sg, neg, d, w', hs, hw, hw', hsg, hd, hne, hv.symm, by split <;> norm_num, by split <;> norm_num⟩
        rw [← parseInt_iff] at h3 hI
        rw [hI] at h3
        exact Option.some.inj h3
      · exfalso
        have hmem : 'e' ∈ printInt n := by
          rw [hs]; cases b <;> simp [wordOf]
        unfold printInt at hmem
        rcases List.mem_append.mp hmem with h | h
        · split at h <;> simp at h
        · have := allDigits_toDigits _ _ h
          revert this; decide
    · intro h
      obtain ⟨w, sg, neg, d, w', hs, hw, hw', hsg, hd, hne, hv, -⟩ := hI
      exact .inl ⟨w, sg, neg, d, w', hs, hw, hw', hsg, hd, hne, by rw [← hv, h]⟩

/-- **C167** A truth value that was written is read back; as a string it is `true` or `false`, and it is not a number. -/
theorem C167_bool (t : Tree) {ns : Str} (hns : Namespace ns) (key : Str) (hc : CleanEnd ns key) (b : Bool) :
    ∃ t', set boolCodec t ns key b = some t' ∧ get boolCodec t' ns key = .value b ∧
      get strCodec t' ns key = .value (toString b).toList ∧ get intCodec t' ns key = .badValue ∧
      ∀ near rnd, get (doubleCodec near rnd) t' ns key = .badValue := by
  obtain ⟨t', e1, e2⟩ := set_then_get boolCodec t hns key hc b
  refine ⟨t', e1, ?_, ?_, ?_, ?_⟩
  · rw [e2, readAs_value]
    refine (parseBool_iff _ _).mpr (.inr ⟨[], [], false, [], [], [], ?_, by simp [Blank], by simp [Blank], by simp [Blank], .none,
      by simp [AllDigits], by simp⟩)
    cases b <;> rfl
  · rw [e2]; cases b <;> rfl
  · rw [e2]; cases b <;> decide
  · intro near rnd
    rw [e2]; cases b <;> rfl

/-! ### doubles -/

/-- the number that a finite double is -/
def F64.num : F64 → Option ℚ
  | .finite neg a => some (if neg then -a else a)
  | _ => none

theorem toDigits_mul_pow {k : ℕ} (hk : 0 < k) (j : ℕ) : Nat.toDigits 10 (k * 10 ^ j) = Nat.toDigits 10 k ++ List.replicate j '0' := by
  induction j with
  | zero => simp
  | succ j ih =>
    have h := Nat.toDigits_append_toDigits (b := 10) (n := k * 10 ^ j) (d := 0) (by norm_num) (by positivity) (by norm_num)
    rw [ih, Nat.toDigits_zero, List.append_assoc, ← List.replicate_succ'] at h
    rw [h]
    congr 1
    ring

theorem near_int {near : ℚ → ℤ} (hn : IsNearest near) (k : ℤ) : near k = k := by
  have := abs_le.mp (hn k)
  have h1 : (near k : ℚ) < ((k + 1 : ℤ) : ℚ) := by push_cast; linarith
  have h2 : ((k - 1 : ℤ) : ℚ) < (near k : ℚ) := by push_cast; linarith
  have := Int.cast_lt.mp h1
  have := Int.cast_lt.mp h2
  omega

theorem length_toDigits {k x : ℕ} (h1 : 10 ^ x ≤ k) (h2 : k < 10 ^ (x + 1)) : (Nat.toDigits 10 k).length = x + 1 := by
  have a := (Nat.length_toDigits_le_iff (b := 10) (n := k) (k := x + 1) (by norm_num) (by omega)).mpr h2
  rcases x with _ | x
  · have := Nat.length_toDigits_pos (b := 10) (n := k); omega
  · have b := (Nat.length_toDigits_le_iff (b := 10) (n := k) (k := x + 1) (by norm_num) (by omega)).not.mpr (by omega)
    omega

/-- an integral double below `10 ^ 17` is written without a point -/
theorem gText_nat {near : ℚ → ℤ} (hn : IsNearest near) {k : ℕ} (hk : 0 < k) (hlt : k < 10 ^ 17) :
    gText (dec17 near k).1 (dec17 near k).2 = Nat.toDigits 10 k := by
  obtain ⟨x, hx⟩ : ∃ x : ℕ, Nat.log 10 k = x := ⟨_, rfl⟩
  have hl : Int.log 10 (k : ℚ) = x := by rw [Int.log_natCast, hx]
  have h1 : 10 ^ x ≤ k := by rw [← hx]; exact Nat.pow_log_le_self 10 hk.ne'
  have h2 : k < 10 ^ (x + 1) := by rw [← hx]; exact Nat.lt_pow_succ_log_self (by norm_num) k
  have hx16 : x ≤ 16 := by
    have : 10 ^ x < 10 ^ 17 := h1.trans_lt hlt
    have := (Nat.pow_lt_pow_iff_right (by norm_num : 1 < 10)).mp this
    omega
  have hm : (near ((k : ℚ) / 10 ^ ((x : ℤ) - 16))).toNat = k * 10 ^ (16 - x) := by
    have : (k : ℚ) / 10 ^ ((x : ℤ) - 16) = ((k * 10 ^ (16 - x) : ℤ) : ℚ) := by
      push_cast
      rw [div_eq_iff (by positivity), mul_assoc, ← zpow_natCast, ← zpow_add₀ (by norm_num)]
      have : ((16 - x : ℕ) : ℤ) + ((x : ℤ) - 16) = 0 := by omega
      rw [this]; simp
    rw [this, near_int hn]
    norm_cast
  have hm2 : k * 10 ^ (16 - x) < 10 ^ 17 := by
    calc k * 10 ^ (16 - x) < 10 ^ (x + 1) * 10 ^ (16 - x) := by gcongr
      _ = 10 ^ 17 := by rw [← pow_add]; congr 1; omega
  have hd : dec17 near k = (k * 10 ^ (16 - x), (x : ℤ)) := by
    unfold dec17
    simp only [hl, hm]
    rw [if_neg hm2.ne]
  have hlen := length_toDigits h1 h2
  rw [hd]
  unfold gText
  simp only
  rw [if_pos ⟨by omega, by omega⟩, if_pos (by omega), toDigits_mul_pow hk, Int.toNat_natCast, ← hlen, List.take_left, List.drop_left]
  have : fracText (List.replicate (16 - x) '0') = [] := by
    unfold fracText stripZeros
    rw [if_pos]
    rw [List.reverse_eq_nil_iff, List.dropWhile_eq_nil_iff]
    intro c hc
    rw [List.reverse_replicate] at hc
    simpa using List.eq_of_mem_replicate hc
  rw [this, List.append_nil]

/-- **C167** A finite `double` that was written is read back, exactly and with the sign of zero.  As an `int` it can be read iff it is an
integer in the range of an `int`, and then it is that integer; as a string, such a double is the usual decimal text. -/
theorem C167_double_partial {near : ℚ → ℤ} (hn : IsNearest near) {rnd : ℚ → ℚ} (hr : IsRnd rnd) (t : Tree) {ns : Str} (hns : Namespace ns)
    (key : Str) (hc : CleanEnd ns key) (v : F64) (hv : v.Valid) (hfin : v.num ≠ none) :
    ∃ t', set (doubleCodec near rnd) t ns key v = some t' ∧ get (doubleCodec near rnd) t' ns key = .value v ∧
      (∀ n, get intCodec t' ns key = .value n ↔ v.num = some (n : ℚ) ∧ -2147483648 ≤ n ∧ n ≤ 2147483647) ∧
      (∀ n : ℤ, n ≠ 0 → |n| < 10 ^ 17 → v.num = some (n : ℚ) → get strCodec t' ns key = .value (toString n).toList) := by
  obtain ⟨t', e1, e2⟩ := set_then_get (doubleCodec near rnd) t hns key hc v
  cases v with
  | inf => exact absurd rfl hfin
  | nan => exact absurd rfl hfin
  | finite neg a =>
    have hD := doubleText_print hn hr neg hv
    obtain ⟨hv0, hv1, hv2⟩ := hv
    -- the text of an integral double
    have txt : ∀ k : ℕ, a = k → k < 10 ^ 17 → printDouble near (.finite neg a) = (if neg then ['-'] else []) ++ Nat.toDigits 10 k := by
      rintro k rfl hlt
      unfold printDouble
      by_cases hk : k = 0
      · subst hk; simp
      · simp only [Nat.cast_eq_zero, hk, if_false]
        rw [gText_nat hn (Nat.pos_of_ne_zero hk) hlt]
    refine ⟨t', e1, ?_, ?_, ?_⟩
    · rw [e2, readAs_value]
      exact (parseDouble_iff _ _ _).mpr hD
    · intro n
      rw [e2, readAs_value]
      change parseInt (printDouble near (.finite neg a)) = some n ↔ _
      rw [parseInt_iff]
      constructor
      · intro h
        obtain ⟨neg', h3, h4⟩ := intText_double hr h
        have := (C168_unique hr _).2.2.1 _ _ hD h3
        injection this with h5 h6
        obtain ⟨-, -, -, -, -, -, -, -, -, -, -, -, h7, h8⟩ := h
        refine ⟨?_, h7, h8⟩
        simp only [F64.num, Option.some.injEq]
        by_cases h0 : n = 0
        · subst h0
          rw [h6]; cases neg <;> simp
        · rw [h5, h4 h0, h6]
          by_cases hneg : n < 0
          · have : (n : ℚ) < 0 := by exact_mod_cast hneg
            simp [hneg, abs_of_neg this]
          · have : (0 : ℚ) ≤ n := by exact_mod_cast not_lt.mp hneg
            simp [hneg, abs_of_nonneg this]
      · rintro ⟨h3, h4, h5⟩
        simp only [F64.num, Option.some.injEq] at h3
        have ha : a = (n.natAbs : ℕ) := by
          have : ((n.natAbs : ℕ) : ℚ) = |(n : ℚ)| := by rw [Nat.cast_natAbs, Int.cast_abs]
          rw [this, ← h3]
          cases neg <;> simp [abs_of_nonneg hv0]
        rw [txt _ ha (by omega)]
        refine ⟨[], if neg then ['-'] else [], neg, Nat.toDigits 10 n.natAbs, [], by simp, by simp [Blank], by simp [Blank], ?_, allDigits_toDigits _,
          Nat.toDigits_ne_nil, ?_, h4, h5⟩
        · cases neg; exacts [.none, .minus]
        · unfold signed
          rw [Nat.ofDigitChars_ten_toDigits]
          have : (n : ℚ) = ((if neg = true then -(n.natAbs : ℤ) else n.natAbs : ℤ) : ℚ) := by
            rw [← h3]
            conv_lhs => rw [ha]
            cases neg <;> simp
          exact_mod_cast this
    · intro n h0 hlt h3
      simp only [F64.num, Option.some.injEq] at h3
      have ha : a = (n.natAbs : ℕ) := by
        have : ((n.natAbs : ℕ) : ℚ) = |(n : ℚ)| := by rw [Nat.cast_natAbs, Int.cast_abs]
        rw [this, ← h3]
        cases neg <;> simp [abs_of_nonneg hv0]
      rw [e2, readAs_value]
      change some (printDouble near (.finite neg a)) = _
      rw [txt _ ha (by rw [Int.abs_eq_natAbs] at hlt; exact_mod_cast hlt), ← printInt_eq]
      unfold printInt
      have hsg : (neg = true ↔ n < 0) := by
        have hp : 0 < a := lt_of_le_of_ne hv0 (by rintro rfl; apply h0; rw [eq_comm] at ha; simpa using ha)
        cases neg
        · simp only [Bool.false_eq_true, if_false] at h3
          have : (0 : ℚ) < n := by rw [← h3]; exact hp
          have : 0 < n := by exact_mod_cast this
          simp only [Bool.false_eq_true, false_iff]; omega
        · simp only [if_true] at h3
          have : (n : ℚ) < 0 := by rw [← h3]; linarith
          have : n < 0 := by exact_mod_cast this
          simp [this]
      simp only [hsg]

/-- **C167** An infinity or a NaN that was written cannot be read back: `getDouble` throws `InvalidValueException`, and with a default
it gives the default. -/
theorem C167_nonfinite {near : ℚ → ℤ} {rnd : ℚ → ℚ} (t : Tree) {ns : Str} (hns : Namespace ns)
    (key : Str) (hc : CleanEnd ns key) (v : F64) (hv : v.num = none) :
    ∃ t', set (doubleCodec near rnd) t ns key v = some t' ∧ get (doubleCodec near rnd) t' ns key = .badValue ∧
      ∀ d, getDefault (doubleCodec near rnd) t' ns key d = d := by
  obtain ⟨t', e1, e2⟩ := set_then_get (doubleCodec near rnd) t hns key hc v
  have e3 : get (doubleCodec near rnd) t' ns key = .badValue := by
    rw [e2]
    cases v with
    | finite => cases hv
    | inf neg => cases neg <;> rfl
    | nan neg => cases neg <;> rfl
  refine ⟨t', e1, e3, fun d => ((C27_defaults _ t' hns key hc d).2 ?_).1⟩
  intro v
  rw [e3]; simp

/-- **C167** So the claim is false of the values that are not finite. -/
theorem C167_negation : ¬ C167_claim := by
  intro h
  have hn : IsNearest fun y => round y := fun y => by rw [abs_sub_comm]; exact abs_sub_round y
  obtain ⟨t', h1, h2⟩ := h _ hn _ isRnd_rndNearest (.node [] []) "/".toList "a".toList (.root []) (by decide) (.inf false) trivial
  obtain ⟨t'', h3, h4, -⟩ := C167_nonfinite (near := fun y => round y) (rnd := rndNearest) (.node [] []) (ns := "/".toList) (.root []) "a".toList
    (by decide) (.inf false) rfl
  rw [h1] at h3
  cases h3
  rw [h2] at h4
  cases h4

/-! ### Examples -/

/-- rounding to the nearest integer, for the examples -/
def near0 (y : ℚ) : ℤ := round y

theorem isNearest_near0 : IsNearest near0 := fun y => by rw [abs_sub_comm]; exact abs_sub_round y

example : printDouble near0 (.finite false (1 / 2)) = "0.5".toList := by decide +kernel
example : printDouble near0 (.finite false (3602879701896397 / 2 ^ 55)) = "0.10000000000000001".toList := by decide +kernel
example : printDouble near0 (.finite true (2 ^ 70)) = "-1.1805916207174113e+21".toList := by decide +kernel

/-- the double nearest to a tenth, written and read back -/
example : ∃ t', set (doubleCodec near0 rndNearest) (.node [] []) "/".toList "a/b".toList (.finite false (3602879701896397 / 2 ^ 55)) = some t' ∧
    get (doubleCodec near0 rndNearest) t' "/".toList "a/b".toList = .value (.finite false (3602879701896397 / 2 ^ 55)) := by
  obtain ⟨t', h1, h2, -⟩ := C167_double_partial isNearest_near0 isRnd_rndNearest (.node [] []) (ns := "/".toList) (.root []) "a/b".toList (by decide)
    (.finite false (3602879701896397 / 2 ^ 55))
    ⟨by norm_num, ⟨3602879701896397, -55, by norm_num, by norm_num, by norm_num [zpow_neg]⟩, by
      refine lt_of_le_of_lt (b := (1 : ℚ)) (by norm_num) (one_lt_pow₀ (by norm_num) (by norm_num))⟩ (by simp [F64.num])
  exact ⟨t', h1, h2⟩

example : ∃ t', set intCodec (.node [] []) "/".toList "a".toList (-2147483648) = some t' ∧ get intCodec t' "/".toList "a".toList = .value (-2147483648) := by
  obtain ⟨t', h1, h2, -⟩ := C167_int (.node [] []) (ns := "/".toList) (.root []) "a".toList (by decide) (-2147483648) (by norm_num) (by norm_num)
  exact ⟨t', h1, h2⟩

end Verif.PTree.Codecs
