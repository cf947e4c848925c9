import Verif.PTree.Codecs
import Mathlib.Tactic.IntervalCases
import Mathlib.Data.List.TakeWhile

/-!
# Which texts the getters of a property tree accept (C168)
-/

namespace Verif.PTree.Codecs

open Verif.Common

/-! ## Specification: the texts of numbers and truth values -/

/-- white space -/
def Blank (w : Str) : Prop := ∀ c ∈ w, c ∈ [' ', '\t', '\n', '\r', Char.ofNat 11, Char.ofNat 12]

/-- decimal digits only -/
def AllDigits (d : Str) : Prop := ∀ c ∈ d, c ∈ "0123456789".toList

/-- an optional sign, and whether it is a minus -/
inductive Sign : Str → Bool → Prop
  | none : Sign [] false
  | plus : Sign ['+'] false
  | minus : Sign ['-'] true

/-- the number of a sign and digits -/
def signed (neg : Bool) (d : Str) : ℤ := if neg then -(Nat.ofDigitChars 10 d 0 : ℤ) else Nat.ofDigitChars 10 d 0

/-- the texts of integers: a sign and digits between white space, within the range of an `int` -/
def IntText (s : Str) (n : ℤ) : Prop :=
  ∃ w sg neg d w', s = w ++ sg ++ d ++ w' ∧ Blank w ∧ Blank w' ∧ Sign sg neg ∧ AllDigits d ∧ d ≠ [] ∧
    n = signed neg d ∧ -2147483648 ≤ n ∧ n ≤ 2147483647

/-- the words of truth values -/
def wordOf (b : Bool) : Str := if b then "true".toList else "false".toList

/-- the texts of truth values: a number that is 0 or 1; or a word, before which an (otherwise unusable) sign or number may stand -/
def BoolText (s : Str) (b : Bool) : Prop :=
  (∃ w sg neg d w', s = w ++ sg ++ d ++ w' ∧ Blank w ∧ Blank w' ∧ Sign sg neg ∧ AllDigits d ∧ d ≠ [] ∧
    signed neg d = if b then 1 else 0) ∨
  (∃ w sg neg d w' w'', s = w ++ sg ++ d ++ w' ++ wordOf b ++ w'' ∧ Blank w ∧ Blank w' ∧ Blank w'' ∧ Sign sg neg ∧ AllDigits d ∧
    (d ≠ [] → signed neg d ≠ 0 ∧ signed neg d ≠ 1))

/-- an optional exponent and its value -/
inductive ExpText : Str → ℤ → Prop
  | none : ExpText [] 0
  | some {c sg neg d} : c ∈ ['e', 'E'] → Sign sg neg → AllDigits d → d ≠ [] → ExpText (c :: (sg ++ d)) (signed neg d)

/-- an optional fraction: the point and the digits after it -/
inductive FracText : Str → Str → Prop
  | none : FracText [] []
  | some {f} : AllDigits f → FracText ('.' :: f) f

/-- the texts of unsigned decimal numbers: digits, a fraction, an exponent; at least one digit before the exponent -/
def DecText (t : Str) (q : ℚ) : Prop :=
  ∃ i fr f ex e, t = i ++ fr ++ ex ∧ AllDigits i ∧ FracText fr f ∧ ExpText ex e ∧ i ++ f ≠ [] ∧
    q = (Nat.ofDigitChars 10 (i ++ f) 0 : ℚ) * 10 ^ (e - (f.length : ℤ))

/-- the texts of doubles: a sign and a decimal number between white space, which is rounded into the range of a `double` -/
def DoubleText (rnd : ℚ → ℚ) (s : Str) (v : F64) : Prop :=
  ∃ w sg neg t w' q, s = w ++ sg ++ t ++ w' ∧ Blank w ∧ Blank w' ∧ Sign sg neg ∧ DecText t q ∧ rnd q < 2 ^ 1024 ∧
    v = .finite neg (rnd q)

/-! ## Lemmas -/

theorem isSpace_iff (c : Char) : isSpace c = true ↔ c ∈ [' ', '\t', '\n', '\r', Char.ofNat 11, Char.ofNat 12] := by
  simp [isSpace, or_assoc]

theorem isDigit_iff (c : Char) : c.isDigit = true ↔ c ∈ "0123456789".toList := by
  constructor
  · intro h
    simp only [Char.isDigit, Bool.and_eq_true, decide_eq_true_eq] at h
    have h1 : 48 ≤ c.toNat := h.1
    have h2 : c.toNat ≤ 57 := h.2
    have : c = Char.ofNat c.toNat := (Char.ofNat_toNat c).symm
    rw [this]
    interval_cases c.toNat <;> decide
  · exact (by decide : ∀ c ∈ "0123456789".toList, c.isDigit = true) c

theorem dropWhile_append {p : Char → Bool} {a b : Str} (ha : ∀ c ∈ a, p c = true) (hb : ∀ c, b.head? = some c → p c = false) :
    (a ++ b).dropWhile p = b := by
  induction a with
  | nil => cases b with
    | nil => rfl
    | cons x b => simp [hb x rfl]
  | cons x a ih => simp [ha x (by simp), ih (fun c hc => ha c (by simp [hc]))]

theorem takeWhile_append {p : Char → Bool} {a b : Str} (ha : ∀ c ∈ a, p c = true) (hb : ∀ c, b.head? = some c → p c = false) :
    (a ++ b).takeWhile p = a := by
  induction a with
  | nil => cases b with
    | nil => rfl
    | cons x b => simp [hb x rfl]
  | cons x a ih => simp [ha x (by simp), ih (fun c hc => ha c (by simp [hc]))]

theorem skipWs_blank {w s : Str} (hw : Blank w) (hs : ∀ c, s.head? = some c → isSpace c = false) : skipWs (w ++ s) = s :=
  dropWhile_append (fun c hc => (isSpace_iff c).mpr (hw c hc)) hs

theorem skipWs_split (s : Str) : ∃ w, Blank w ∧ s = w ++ skipWs s ∧ ∀ c, (skipWs s).head? = some c → isSpace c = false := by
  refine ⟨s.takeWhile isSpace, fun c hc => (isSpace_iff c).mp (List.mem_takeWhile_imp hc), (List.takeWhile_append_dropWhile).symm, ?_⟩
  intro c hc
  have := List.head?_dropWhile_not isSpace s
  unfold skipWs at hc
  rw [hc] at this
  simpa using this

theorem skipWs_nil_iff (s : Str) : skipWs s = [] ↔ Blank s := by
  unfold skipWs Blank
  rw [List.dropWhile_eq_nil_iff]
  exact forall₂_congr fun c _ => isSpace_iff c

theorem digits_append {d r : Str} (hd : AllDigits d) (hr : ∀ c, r.head? = some c → c.isDigit = false) :
    digits (d ++ r) = d ∧ afterDigits (d ++ r) = r :=
  ⟨takeWhile_append (fun c hc => (isDigit_iff c).mpr (hd c hc)) hr, dropWhile_append (fun c hc => (isDigit_iff c).mpr (hd c hc)) hr⟩

theorem digits_split (s : Str) : AllDigits (digits s) ∧ s = digits s ++ afterDigits s ∧
    ∀ c, (afterDigits s).head? = some c → c.isDigit = false := by
  refine ⟨fun c hc => (isDigit_iff c).mp (List.mem_takeWhile_imp hc), (List.takeWhile_append_dropWhile).symm, ?_⟩
  intro c hc
  have := List.head?_dropWhile_not Char.isDigit s
  unfold afterDigits at hc
  rw [hc] at this
  simpa using this

theorem space_not_digit {c : Char} (h : isSpace c = true) : c.isDigit = false := by
  rw [isSpace_iff] at h
  simp only [List.mem_cons, List.not_mem_nil, or_false] at h
  rcases h with rfl | rfl | rfl | rfl | rfl | rfl <;> rfl

theorem digit_not_space {c : Char} (h : c.isDigit = true) : isSpace c = false := by
  cases hc : isSpace c with
  | false => rfl
  | true => rw [space_not_digit hc] at h; cases h

theorem blank_head {w : Str} (hw : Blank w) : ∀ c, w.head? = some c → c.isDigit = false := by
  intro c hc
  exact space_not_digit ((isSpace_iff c).mpr (hw c (List.mem_of_head? hc)))

theorem readSign_append {sg t : Str} {neg : Bool} (h : Sign sg neg) (ht : ∀ c, t.head? = some c → c ≠ '+' ∧ c ≠ '-') :
    readSign (sg ++ t) = (neg, t) := by
  cases h with
  | none =>
    cases t with
    | nil => rfl
    | cons c t =>
      have := ht c rfl
      simp only [List.nil_append]
      unfold readSign
      split
      · rename_i h; simp only [List.cons.injEq] at h; exact absurd h.1 this.2
      · rename_i h; simp only [List.cons.injEq] at h; exact absurd h.1 this.1
      · rfl
  | plus => rfl
  | minus => rfl

theorem readSign_split (s : Str) : ∃ sg, Sign sg (readSign s).1 ∧ s = sg ++ (readSign s).2 := by
  unfold readSign
  split
  · exact ⟨['-'], .minus, rfl⟩
  · exact ⟨['+'], .plus, rfl⟩
  · exact ⟨[], .none, rfl⟩

theorem digit_not_sign {c : Char} (h : c.isDigit = true) : c ≠ '+' ∧ c ≠ '-' := by
  constructor <;> rintro rfl <;> cases h

theorem sign_not_space {sg t : Str} {neg : Bool} (h : Sign sg neg) (ht : ∀ c, t.head? = some c → isSpace c = false) :
    ∀ c, (sg ++ t).head? = some c → isSpace c = false := by
  cases h with
  | none => exact ht
  | plus => intro c hc; simp at hc; subst hc; rfl
  | minus => intro c hc; simp at hc; subst hc; rfl

theorem head_digits {d r : Str} (hd : AllDigits d) (hne : d ≠ []) : ∀ c, (d ++ r).head? = some c → c.isDigit = true := by
  intro c hc
  cases d with
  | nil => exact absurd rfl hne
  | cons x d =>
    simp only [List.cons_append, List.head?_cons, Option.some.injEq] at hc
    subst hc
    exact (isDigit_iff x).mpr (hd x (by simp))

/-! ## integers -/

theorem parseInt_iff (s : Str) (n : ℤ) : parseInt s = some n ↔ IntText s n := by
  constructor
  · intro h
    unfold parseInt at h
    obtain ⟨w, hw, hs, -⟩ := skipWs_split s
    obtain ⟨sg, hsg, hs2⟩ := readSign_split (skipWs s)
    obtain ⟨hd, hs3, -⟩ := digits_split (readSign (skipWs s)).2
    revert h hsg hs2 hd hs3
    generalize readSign (skipWs s) = p
    obtain ⟨neg, s1⟩ := p
    intro h hsg hs2 hd hs3
    simp only at h hsg hs2 hd hs3
    have e : (if neg = true then -(natOf (digits s1) : ℤ) else natOf (digits s1)) = signed neg (digits s1) := rfl
    rw [e] at h
    by_cases hc : digits s1 ≠ [] ∧ -2 ^ 31 ≤ signed neg (digits s1) ∧ signed neg (digits s1) < 2 ^ 31 ∧ skipWs (afterDigits s1) = []
    · rw [if_pos hc] at h
      obtain ⟨h1, h2, h3, h4⟩ := hc
      cases h
      refine ⟨w, sg, neg, digits s1, afterDigits s1, ?_, hw, (skipWs_nil_iff _).mp h4, hsg, hd, h1, rfl, by omega, by omega⟩
      rw [List.append_assoc, ← hs3, List.append_assoc, ← hs2, ← hs]
    · rw [if_neg hc] at h; cases h
  · rintro ⟨w, sg, neg, d, w', rfl, hw, hw', hsg, hd, hne, rfl, h1, h2⟩
    have hD := head_digits (r := w') hd hne
    have e1 : skipWs (w ++ sg ++ d ++ w') = sg ++ (d ++ w') := by
      rw [List.append_assoc, List.append_assoc]
      exact skipWs_blank hw (sign_not_space hsg fun c hc => digit_not_space (hD c hc))
    have e2 := readSign_append (t := d ++ w') hsg fun c hc => digit_not_sign (hD c hc)
    have e3 := digits_append hd (blank_head hw')
    unfold parseInt
    rw [e1, e2]
    simp only [e3.1, e3.2]
    have e : (if neg = true then -(natOf d : ℤ) else natOf d) = signed neg d := rfl
    rw [e, if_pos ⟨hne, by omega, by omega, (skipWs_nil_iff _).mpr hw'⟩]

/-! ## truth values -/

theorem word_head (b : Bool) (r : Str) : ∀ c, (wordOf b ++ r).head? = some c → isSpace c = false ∧ c.isDigit = false ∧ c ≠ '+' ∧ c ≠ '-' := by
  intro c hc
  cases b
  · have : c = 'f' := by simpa [wordOf] using hc.symm
    subst this; decide
  · have : c = 't' := by simpa [wordOf] using hc.symm
    subst this; decide

theorem parseWord_iff (s : Str) (b : Bool) : parseWord s = some b ↔ ∃ w w', s = w ++ wordOf b ++ w' ∧ Blank w ∧ Blank w' := by
  constructor
  · intro h
    obtain ⟨w, hw, hs, -⟩ := skipWs_split s
    unfold parseWord at h
    split at h
    · rename_i hc
      obtain ⟨⟨r, hr⟩, h2⟩ := hc
      cases h
      refine ⟨w, r, ?_, hw, ?_⟩
      · rw [List.append_assoc]; change s = w ++ ("true".toList ++ r); rw [hr]; exact hs
      · rw [← hr] at h2; exact (skipWs_nil_iff _).mp h2
    split at h
    · rename_i hc
      obtain ⟨⟨r, hr⟩, h2⟩ := hc
      cases h
      refine ⟨w, r, ?_, hw, ?_⟩
      · rw [List.append_assoc]; change s = w ++ ("false".toList ++ r); rw [hr]; exact hs
      · rw [← hr] at h2; exact (skipWs_nil_iff _).mp h2
    · cases h
  · rintro ⟨w, w', rfl, hw, hw'⟩
    have e1 : skipWs (w ++ wordOf b ++ w') = wordOf b ++ w' := by
      rw [List.append_assoc]
      exact skipWs_blank hw fun c hc => (word_head b w' c hc).1
    unfold parseWord
    rw [e1]
    cases b
    · rw [if_neg, if_pos]
      · exact ⟨⟨w', rfl⟩, (skipWs_nil_iff _).mpr hw'⟩
      · rintro ⟨⟨r, hr⟩, -⟩
        simp [wordOf] at hr
    · rw [if_pos]
      exact ⟨⟨w', rfl⟩, (skipWs_nil_iff _).mpr hw'⟩

theorem signed_zero {neg : Bool} {d : Str} : signed neg d = 0 ↔ natOf d = 0 := by
  unfold signed natOf; split <;> simp

theorem signed_one {neg : Bool} {d : Str} : signed neg d = 1 ↔ natOf d = 1 ∧ neg = false := by
  unfold signed natOf
  cases neg
  · simp
  · simp; omega

theorem parseBool_iff (s : Str) (b : Bool) : parseBool s = some b ↔ BoolText s b := by
  constructor
  · intro h
    unfold parseBool at h
    obtain ⟨w, hw, hs, -⟩ := skipWs_split s
    obtain ⟨sg, hsg, hs2⟩ := readSign_split (skipWs s)
    obtain ⟨hd, hs3, -⟩ := digits_split (readSign (skipWs s)).2
    revert h hsg hs2 hd hs3
    generalize readSign (skipWs s) = p
    obtain ⟨neg, s1⟩ := p
    intro h hsg hs2 hd hs3
    simp only at h hsg hs2 hd hs3
    split at h
    · rename_i hc
      obtain ⟨h1, h2⟩ := hc
      split at h
      · rename_i h4
        refine .inl ⟨w, sg, neg, digits s1, afterDigits s1, ?_, hw, (skipWs_nil_iff _).mp h4, hsg, hd, h1, ?_⟩
        · rw [List.append_assoc, ← hs3, List.append_assoc, ← hs2, ← hs]
        · cases h
          rcases h2 with h2 | ⟨h2, h3⟩
          · rw [h2]; exact signed_zero.mpr h2
          · rw [h2]; exact signed_one.mpr ⟨h2, h3⟩
      · cases h
    · rename_i hc
      obtain ⟨u, u', h1, h2, h3⟩ := (parseWord_iff _ _).mp h
      refine .inr ⟨w, sg, neg, digits s1, u, u', ?_, hw, h2, h3, hsg, hd, ?_⟩
      · rw [hs, hs2, hs3, h1]
        simp only [List.append_assoc]
        have : digits (digits s1 ++ (u ++ (wordOf b ++ u'))) = digits s1 := by
          have : digits s1 ++ (u ++ (wordOf b ++ u')) = s1 := by rw [← List.append_assoc u, ← h1, ← hs3]
          rw [this]
        rw [this]
      · intro hne
        simp only [not_and, not_or] at hc
        have := hc hne
        rw [Ne, Ne, signed_zero, signed_one]
        exact ⟨this.1, fun hh => this.2 hh.1 hh.2⟩
  · rintro (⟨w, sg, neg, d, w', rfl, hw, hw', hsg, hd, hne, hv⟩ | ⟨w, sg, neg, d, w', w'', rfl, hw, hw', hw'', hsg, hd, hv⟩)
    · have hD := head_digits (r := w') hd hne
      have e1 : skipWs (w ++ sg ++ d ++ w') = sg ++ (d ++ w') := by
        rw [List.append_assoc, List.append_assoc]
        exact skipWs_blank hw (sign_not_space hsg fun c hc => digit_not_space (hD c hc))
      have e2 := readSign_append (t := d ++ w') hsg fun c hc => digit_not_sign (hD c hc)
      have e3 := digits_append hd (blank_head hw')
      unfold parseBool
      rw [e1, e2]
      simp only [e3.1, e3.2]
      have hs := (skipWs_nil_iff _).mpr hw'
      cases b
      · have := signed_zero.mp hv
        rw [if_pos ⟨hne, .inl this⟩, if_pos hs, this]; rfl
      · have := signed_one.mp hv
        rw [if_pos ⟨hne, .inr this⟩, if_pos hs, this.1]; rfl
    · have hwd := word_head b w''
      -- a sign or digits after which the word follows; without them the blanks join
      by_cases hsd : sg = [] ∧ d = []
      · obtain ⟨rfl, rfl⟩ := hsd
        have hww : Blank (w ++ w') := by
          intro c hc; rcases List.mem_append.mp hc with h | h; exacts [hw c h, hw' c h]
        have e1 : skipWs (w ++ [] ++ [] ++ w' ++ wordOf b ++ w'') = wordOf b ++ w'' := by
          simp only [List.append_nil]
          rw [List.append_assoc (w ++ w')]
          exact skipWs_blank hww fun c hc => (hwd c hc).1
        have e2 := readSign_append (t := wordOf b ++ w'') .none fun c hc => (hwd c hc).2.2
        have e3 := digits_append (d := []) (r := wordOf b ++ w'') (by simp [AllDigits]) fun c hc => (hwd c hc).2.1
        unfold parseBool
        rw [List.nil_append] at e2 e3
        rw [e1, e2]
        simp only [e3.1, e3.2]
        rw [if_neg (by simp), parseWord_iff]
        exact ⟨[], w'', by simp, by simp [Blank], hw''⟩
      · have hr : ∀ c, (w' ++ wordOf b ++ w'').head? = some c → c.isDigit = false := by
          intro c hc
          cases w' with
          | nil => exact (hwd c hc).2.1
          | cons x w' =>
            simp only [List.cons_append, List.head?_cons, Option.some.injEq] at hc
            subst hc
            exact space_not_digit ((isSpace_iff x).mpr (hw' x (by simp)))
        have e3 := digits_append (d := d) (r := w' ++ wordOf b ++ w'') hd hr
        have e1 : skipWs (w ++ sg ++ d ++ w' ++ wordOf b ++ w'') = sg ++ (d ++ (w' ++ wordOf b ++ w'')) := by
          simp only [List.append_assoc]
          refine skipWs_blank hw ?_
          by_cases hd0 : d = []
          · have hs0 : sg ≠ [] := fun h => hsd ⟨h, hd0⟩
            cases hsg with
            | none => exact absurd rfl hs0
            | plus => intro c hc; simp at hc; subst hc; rfl
            | minus => intro c hc; simp at hc; subst hc; rfl
          · exact sign_not_space hsg fun c hc => digit_not_space (head_digits hd hd0 c hc)
        have e2 : readSign (sg ++ (d ++ (w' ++ wordOf b ++ w''))) = (neg, d ++ (w' ++ wordOf b ++ w'')) := by
          refine readSign_append hsg ?_
          by_cases hd0 : d = []
          · subst hd0
            intro c hc
            cases w' with
            | nil => exact (hwd c hc).2.2
            | cons x w' =>
              simp only [List.nil_append, List.cons_append, List.head?_cons, Option.some.injEq] at hc
              subst hc
              have := hw' x (by simp)
              simp only [List.mem_cons, List.not_mem_nil, or_false] at this
              rcases this with rfl | rfl | rfl | rfl | rfl | rfl <;> decide
          · exact fun c hc => digit_not_sign (head_digits hd hd0 c hc)
        unfold parseBool
        rw [e1, e2]
        simp only [e3.1, e3.2]
        rw [if_neg, parseWord_iff]
        · exact ⟨w', w'', rfl, hw', hw''⟩
        · rintro ⟨hne, h⟩
          have := hv hne
          rw [Ne, Ne, signed_zero, signed_one] at this
          rcases h with h | h
          · exact this.1 h
          · exact this.2 h

/-! ## doubles -/

theorem scanExponent_iff (s : Str) (e : ℤ) (r : Str) (hr : ∀ c, r.head? = some c → c.isDigit = false ∧ c ≠ 'e' ∧ c ≠ 'E') :
    scanExponent s = some (e, r) ↔ ∃ ex, s = ex ++ r ∧ ExpText ex e := by
  constructor
  · intro h
    unfold scanExponent at h
    split at h
    · rename_i c r0
      split at h
      · rename_i hc
        obtain ⟨sg, hsg, hs2⟩ := readSign_split r0
        obtain ⟨hd, hs3, -⟩ := digits_split (readSign r0).2
        revert h hsg hs2 hd hs3
        generalize readSign r0 = p
        obtain ⟨neg, s1⟩ := p
        intro h hsg hs2 hd hs3
        simp only at h hsg hs2 hd hs3
        split at h
        · cases h
        · rename_i hne
          simp only [Option.some.injEq, Prod.mk.injEq] at h
          obtain ⟨h1, h2⟩ := h
          refine ⟨c :: (sg ++ digits s1), ?_, ?_⟩
          · rw [← h2, List.cons_append, List.append_assoc, ← hs3, ← hs2]
          · have : e = signed neg (digits s1) := h1.symm
            rw [this]
            exact .some (by simpa using hc) hsg hd hne
      · simp only [Option.some.injEq, Prod.mk.injEq] at h
        exact ⟨[], by rw [← h.2]; rfl, by rw [← h.1]; exact .none⟩
    · simp only [Option.some.injEq, Prod.mk.injEq] at h
      exact ⟨[], by rw [← h.2]; rfl, by rw [← h.1]; exact .none⟩
  · rintro ⟨ex, rfl, hex⟩
    cases hex with
    | none =>
      unfold scanExponent
      cases r with
      | nil => rfl
      | cons c r =>
        have := hr c rfl
        simp only [List.nil_append]
        rw [if_neg (by rintro (h | h) <;> simp_all)]
    | @some c sg neg d hc hsg hd hne =>
      have e2 := readSign_append (t := d ++ r) hsg fun c hc => digit_not_sign (head_digits hd hne c hc)
      have e3 := digits_append hd fun c hc => (hr c hc).1
      unfold scanExponent
      simp only [List.cons_append, List.append_assoc]
      rw [if_pos (by simpa using hc), e2]
      simp only [e3.1, e3.2]
      rw [if_neg hne]
      rfl

/-- nothing of a number follows -/
def Ends (r : Str) : Prop := ∀ c, r.head? = some c → c.isDigit = false ∧ c ≠ 'e' ∧ c ≠ 'E' ∧ c ≠ '.'

theorem scanMantissa_append {i fr f r : Str} (hi : AllDigits i) (hf : FracText fr f)
    (hr : ∀ c, r.head? = some c → c.isDigit = false ∧ c ≠ '.') : scanMantissa (i ++ fr ++ r) = (i, f, r) := by
  cases hf with
  | none =>
    have := digits_append (r := r) hi fun c hc => (hr c hc).1
    unfold scanMantissa
    rw [List.append_nil, this.1, this.2]
    split
    · rename_i h; exact absurd rfl (hr '.' rfl).2
    · rfl
  | some hf =>
    have e1 := digits_append (r := '.' :: (f ++ r)) hi (by intro c hc; simp at hc; subst hc; rfl)
    have e2 := digits_append (r := r) hf fun c hc => (hr c hc).1
    unfold scanMantissa
    rw [List.append_assoc, List.cons_append, e1.1, e1.2]
    simp only [e2.1, e2.2]

theorem scanMantissa_split (s : Str) : ∃ i fr f r, scanMantissa s = (i, f, r) ∧ s = i ++ fr ++ r ∧ AllDigits i ∧ FracText fr f := by
  obtain ⟨hd, hs, -⟩ := digits_split s
  unfold scanMantissa
  split
  · rename_i r hr
    obtain ⟨hd2, hs2, -⟩ := digits_split r
    refine ⟨digits s, '.' :: digits r, digits r, afterDigits r, rfl, ?_, hd, .some hd2⟩
    rw [List.append_assoc, List.cons_append, ← hs2, ← hr]; exact hs
  · exact ⟨digits s, [], [], afterDigits s, rfl, by rw [List.append_nil]; exact hs, hd, .none⟩

theorem scanDec_iff (s : Str) (q : ℚ) (r : Str) (hr : Ends r) :
    scanDec s = some (q, r) ↔ ∃ t, s = t ++ r ∧ DecText t q := by
  constructor
  · intro h
    obtain ⟨i, fr, f, r', h1, h2, h3, h4⟩ := scanMantissa_split s
    unfold scanDec at h
    rw [h1] at h
    simp only at h
    split at h
    · cases h
    · rename_i hne
      cases he : scanExponent r' with
      | none => rw [he] at h; cases h
      | some p =>
        obtain ⟨e, r''⟩ := p
        rw [he] at h
        simp only [Option.map_some, Option.some.injEq, Prod.mk.injEq] at h
        obtain ⟨hq, rfl⟩ := h
        obtain ⟨ex, rfl, hex⟩ := (scanExponent_iff _ _ _ fun c hc => ⟨(hr c hc).1, (hr c hc).2.1, (hr c hc).2.2.1⟩).mp he
        refine ⟨i ++ fr ++ ex, by rw [h2]; simp, i, fr, f, ex, e, rfl, h3, h4, hex, ?_, hq.symm⟩
        intro h0
        exact hne (List.append_eq_nil_iff.mp h0)
  · rintro ⟨t, rfl, i, fr, f, ex, e, rfl, hi, hf, hex, hne, rfl⟩
    have hh : ∀ c, (ex ++ r).head? = some c → c.isDigit = false ∧ c ≠ '.' := by
      intro c hc
      cases hex with
      | none => exact ⟨(hr c hc).1, (hr c hc).2.2.2⟩
      | @some c' sg neg d hc' hsg hd hne =>
        simp only [List.cons_append, List.head?_cons, Option.some.injEq] at hc
        subst hc
        simp only [List.mem_cons, List.not_mem_nil, or_false] at hc'
        rcases hc' with rfl | rfl <;> decide
    have e1 := scanMantissa_append (r := ex ++ r) hi hf hh
    have e2 := (scanExponent_iff (ex ++ r) e r fun c hc => ⟨(hr c hc).1, (hr c hc).2.1, (hr c hc).2.2.1⟩).mpr ⟨ex, rfl, hex⟩
    unfold scanDec
    rw [show i ++ fr ++ ex ++ r = i ++ fr ++ (ex ++ r) by simp, e1]
    simp only [e2]
    rw [if_neg (fun h => hne (by rw [h.1, h.2]; rfl))]
    rfl

theorem blank_ends {w : Str} (hw : Blank w) : Ends w := by
  intro c hc
  have := hw c (List.mem_of_head? hc)
  simp only [List.mem_cons, List.not_mem_nil, or_false] at this
  rcases this with rfl | rfl | rfl | rfl | rfl | rfl <;> decide

theorem dec_head {t : Str} {q : ℚ} (h : DecText t q) (r : Str) :
    ∀ c, (t ++ r).head? = some c → isSpace c = false ∧ c ≠ '+' ∧ c ≠ '-' := by
  obtain ⟨i, fr, f, ex, e, rfl, hi, hf, hex, hne, rfl⟩ := h
  intro c hc
  cases i with
  | cons x i =>
    simp only [List.cons_append, List.head?_cons, Option.some.injEq] at hc
    subst hc
    have := (isDigit_iff x).mpr (hi x (by simp))
    exact ⟨digit_not_space this, digit_not_sign this⟩
  | nil =>
    cases hf with
    | none => exact absurd rfl hne
    | some hf =>
      simp only [List.nil_append, List.cons_append, List.head?_cons, Option.some.injEq] at hc
      subst hc; decide

theorem parseDouble_iff (rnd : ℚ → ℚ) (s : Str) (v : F64) : parseDouble rnd s = some v ↔ DoubleText rnd s v := by
  constructor
  · intro h
    unfold parseDouble at h
    obtain ⟨w, hw, hs, -⟩ := skipWs_split s
    obtain ⟨sg, hsg, hs2⟩ := readSign_split (skipWs s)
    revert h hsg hs2
    generalize readSign (skipWs s) = p
    obtain ⟨neg, s1⟩ := p
    intro h hsg hs2
    simp only at h hsg hs2
    cases hsc : scanDec s1 with
    | none => rw [hsc] at h; cases h
    | some p =>
      obtain ⟨q, r⟩ := p
      rw [hsc] at h
      simp only at h
      split at h
      · rename_i hc
        cases h
        have hb := (skipWs_nil_iff _).mp hc.2
        obtain ⟨t, rfl, ht⟩ := (scanDec_iff s1 q r (blank_ends hb)).mp hsc
        exact ⟨w, sg, neg, t, r, q, by rw [hs, hs2]; simp, hw, hb, hsg, ht, hc.1, rfl⟩
      · cases h
  · rintro ⟨w, sg, neg, t, w', q, rfl, hw, hw', hsg, ht, hq, rfl⟩
    have hh := dec_head ht w'
    have e1 : skipWs (w ++ sg ++ t ++ w') = sg ++ (t ++ w') := by
      rw [List.append_assoc, List.append_assoc]
      exact skipWs_blank hw (sign_not_space hsg fun c hc => (hh c hc).1)
    have e2 := readSign_append (t := t ++ w') hsg fun c hc => (hh c hc).2
    have e3 := (scanDec_iff (t ++ w') q w' (blank_ends hw')).mpr ⟨t, rfl, ht⟩
    unfold parseDouble
    rw [e1, e2]
    simp only [e3]
    rw [if_pos ⟨hq, (skipWs_nil_iff _).mpr hw'⟩]

end Verif.PTree.Codecs
