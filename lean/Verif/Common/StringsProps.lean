import Verif.Common.StringsLemmas

/-!
# Properties C16, C17, C18: string routines
-/

namespace Verif.Strings

/-! ## C16 -/

/-- The claim of C16: both functions terminate and return the specified string, for all arguments. -/
def C16_claim : Prop :=
  (∀ (s : List Char) (t r : Char) (skip : Nat),
    ∃ fuel, replace fuel s t r skip = some (replaceSpec t r skip s)) ∧
  (∀ (s : List Char) (t r : Char) (skip : Nat),
    ∃ fuel, replaceReverse fuel s t r skip = some (replaceReverseSpec t r skip s))

/-- C16 is false of the code: replacing a character by itself hangs … -/
theorem C16_replace_hangs : ∀ fuel, replace fuel ['a'] 'a' 'a' 0 = none := by
  intro fuel
  exact (replaceLoop_same 'a' ['a'] [] fuel 0).1 (by decide)

/-- … and `replace_reverse` restarts from the end when it skips an occurrence at position 0. -/
theorem C16_replace_reverse_wraps :
    replaceReverse 10 ['a'] 'a' 'b' 1 = some ['b'] ∧ replaceReverseSpec 'a' 'b' 1 ['a'] = ['a'] := by
  decide

theorem C16_negation : ¬ C16_claim := by
  intro h
  obtain ⟨fuel, hf⟩ := h.1 ['a'] 'a' 'a' 0
  rw [C16_replace_hangs fuel] at hf
  cases hf

/-- C16 for `replace`, exactly: with different characters it terminates (in at most one more
iteration than the string has characters) and returns the specified string; with
`target = replacement` it returns the string itself if at most `skip` occurrences exist, and
otherwise never terminates.  Missing from the full claim: termination in that last case. -/
theorem C16_replace_partial (s : List Char) (t r : Char) (skip fuel : Nat) :
    (t ≠ r → s.length < fuel → replace fuel s t r skip = some (replaceSpec t r skip s)) ∧
    (t = r → s.count t ≤ skip → s.length < fuel → replace fuel s t r skip = some s) ∧
    (t = r → skip < s.count t → replace fuel s t r skip = none) := by
  refine ⟨?_, ?_, ?_⟩
  · intro h hf
    exact replaceLoop_spec t r h s [] fuel skip hf
  · rintro rfl h hf
    exact (replaceLoop_same t s [] fuel skip).2 h hf
  · rintro rfl h
    exact (replaceLoop_same t s [] fuel skip).1 h

/-- C16 for `replace_reverse`: correct whenever the first character is not the target or fewer than
all occurrences are to be skipped; otherwise (target at position 0, at least as many skips as
occurrences) the code behaves as if `skip` had been reduced modulo the number of occurrences.
Missing from the full claim: returning the string unchanged in that last case. -/
theorem C16_replace_reverse_partial (s : List Char) (t r : Char) (htr : t ≠ r) (skip : Nat) :
    ((s.head? ≠ some t ∨ skip < s.count t) →
      ∃ fuel, replaceReverse fuel s t r skip = some (replaceReverseSpec t r skip s)) ∧
    (s.head? = some t →
      ∃ fuel, replaceReverse fuel s t r skip =
        some (replaceReverseSpec t r (skip % s.count t) s)) := by
  have base : ∀ skip, (s.head? ≠ some t ∨ skip < s.count t) → ∀ fuel, s.length < fuel →
      rloop t r fuel s s.length skip = some (replaceReverseSpec t r skip s) := by
    intro skip h fuel hf
    have := rloop_spec t r htr s.reverse [] fuel skip (by simpa using hf)
      (by simpa [List.getLast?_reverse, List.count_reverse] using h)
    simpa [replaceReverseSpec] using this
  have hb : ∀ fuel skip, replaceReverse fuel s t r skip = rloop t r fuel s s.length skip := by
    intro fuel skip
    unfold replaceReverse
    rw [rloop_eq]; rfl
  refine ⟨?_, ?_⟩
  · intro h
    exact ⟨s.length + 1, by rw [hb]; exact base skip h _ (by omega)⟩
  · intro hh
    have hpos : 0 < s.count t := by
      apply List.count_pos_iff.2
      exact List.mem_of_head? hh
    induction skip using Nat.strongRecOn with
    | _ skip ih =>
      by_cases hlt : skip < s.count t
      · refine ⟨s.length + 1, ?_⟩
        rw [hb, Nat.mod_eq_of_lt hlt]
        exact base skip (Or.inr hlt) _ (by omega)
      · obtain ⟨fuel, hf⟩ := ih (skip - s.count t) (by omega)
        refine ⟨fuel + s.count t, ?_⟩
        have hw := rloop_wrap t r s.reverse [] fuel skip
          (by simpa [List.getLast?_reverse] using hh) (by simp [List.count_reverse]; omega)
        simp only [List.count_reverse, List.reverse_reverse, List.append_nil, List.length_reverse] at hw
        rw [hb, hw, ← hb, hf, ← Nat.mod_eq_sub_mod (by omega)]

/-- C16: what the specification says, in words: the length is unchanged, characters other than the
target are untouched, and position `i` is replaced exactly if it holds the target and at least
`skip` occurrences precede it. -/
theorem C16_spec_meaning (t r : Char) (skip : Nat) (s : List Char) :
    (replaceSpec t r skip s).length = s.length ∧
    ∀ (i : Nat) (c : Char), s[i]? = some c → (replaceSpec t r skip s)[i]? =
      some (if c = t ∧ skip ≤ (s.take i).count t then r else c) := by
  induction s generalizing skip with
  | nil => simp [replaceSpec]
  | cons d cs ih =>
    by_cases hd : d = t
    · subst hd
      cases skip with
      | succ k =>
        have e : replaceSpec d r (k + 1) (d :: cs) = d :: replaceSpec d r k cs := by
          simp [replaceSpec]
        rw [e]
        refine ⟨by simp [(ih k).1], ?_⟩
        intro i c hi
        cases i with
        | zero => simp at hi; subst hi; simp
        | succ i =>
          simp only [List.getElem?_cons_succ] at hi ⊢
          rw [(ih k).2 i c hi]
          simp [List.count_cons]
      | zero =>
        have e : replaceSpec d r 0 (d :: cs) = r :: replaceSpec d r 0 cs := by
          simp [replaceSpec]
        rw [e]
        refine ⟨by simp [(ih 0).1], ?_⟩
        intro i c hi
        cases i with
        | zero => simp at hi; subst hi; simp
        | succ i =>
          simp only [List.getElem?_cons_succ] at hi ⊢
          rw [(ih 0).2 i c hi]
          simp
    · have e : replaceSpec t r skip (d :: cs) = d :: replaceSpec t r skip cs := by
        cases skip <;> simp [replaceSpec, hd]
      rw [e]
      refine ⟨by simp [(ih skip).1], ?_⟩
      intro i c hi
      cases i with
      | zero => simp at hi; subst hi; simp [hd]
      | succ i =>
        simp only [List.getElem?_cons_succ] at hi ⊢
        rw [(ih skip).2 i c hi]
        simp [List.count_cons, hd]

example : replace 20 "a/b/c".toList '/' '.' 1 = some "a/b.c".toList := by decide
example : replaceReverse 20 "a/b/c".toList '/' '.' 1 = some "a.b/c".toList := by decide

/-! ## C17 -/

/-- C17: the result ends with `/`, at most one `/` was appended, nothing else changed, and a second
application does nothing. -/
theorem C17_ensureTrailingBackslash (s : List Char) :
    (ensureTrailingBackslash s).getLast? = some '/' ∧
    (ensureTrailingBackslash s = s ∨ ensureTrailingBackslash s = s ++ ['/']) ∧
    (ensureTrailingBackslash s = s ↔ s.getLast? = some '/') ∧
    ensureTrailingBackslash (ensureTrailingBackslash s) = ensureTrailingBackslash s := by
  have key : ∀ s : List Char, s.getLast? = some '/' → ensureTrailingBackslash s = s := by
    intro s h
    unfold ensureTrailingBackslash
    have hne : s.length ≠ 0 := by
      intro h0; rw [List.length_eq_zero_iff] at h0; subst h0; simp at h
    rw [if_neg hne, if_pos (by rw [← List.getLast?_eq_getElem?]; exact h)]
  have key2 : ∀ s : List Char, s.getLast? ≠ some '/' → ensureTrailingBackslash s = s ++ ['/'] := by
    intro s h
    unfold ensureTrailingBackslash
    split
    · rename_i h0; rw [List.length_eq_zero_iff] at h0; subst h0; rfl
    · rw [if_neg (by rw [← List.getLast?_eq_getElem?]; exact h)]
  by_cases h : s.getLast? = some '/'
  · rw [key s h, key s h]
    exact ⟨h, Or.inl rfl, by simp [h], rfl⟩
  · rw [key2 s h]
    refine ⟨by simp, Or.inr rfl, by simp [h], ?_⟩
    exact key _ (by simp)

/-- C17: `leading_pad` returns pad characters followed by the value, of length
`max (length) (desired)`. `padded` (the stream-based variant) gives the same string. -/
theorem C17_leading_pad (s : List Char) (n : Nat) (c : Char) :
    (leadingPad s n c).length = max s.length n ∧
    (∃ k, leadingPad s n c = List.replicate k c ++ s) ∧
    padded s n c = leadingPad s n c := by
  unfold leadingPad padded
  split
  · refine ⟨by simp; omega, ⟨_, rfl⟩, rfl⟩
  · refine ⟨by omega, ⟨0, by simp⟩, ?_⟩
    rw [show n - s.length = 0 by omega]; simp

/-- C17: `arrToString` prints the elements separated by single commas between brackets. -/
theorem C17_arrToString (items : List (List Char)) :
    arrToString items = '[' :: (List.intercalate [','] items ++ [']']) := by
  unfold arrToString toStream
  cases items with
  | nil => rfl
  | cons x xs =>
    have : ∀ (x : List Char), x ++ xs.flatMap ([','] ++ ·) = List.intercalate [','] (x :: xs) := by
      induction xs with
      | nil => intro x; simp [List.intercalate, List.intersperse]
      | cons y ys ih =>
        intro x
        have := ih y
        simp only [List.intercalate, List.flatMap_cons] at this ⊢
        simp only [List.intersperse]
        simp only [List.flatten_cons]
        rw [← this]
        simp
    simp only [this]
    simp

example : ensureTrailingBackslash "a/b".toList = "a/b/".toList ∧
    leadingPad "7".toList 3 '0' = "007".toList := by decide

/-! ## C18 -/

/-- C18: `substituteEnvVars` terminates and computes the left-to-right expansion. -/
theorem C18_substitute (env : List Char → Option (List Char)) (s : List Char) (fuel : Nat)
    (hf : s.length < fuel) : substituteEnvVars fuel env s = some (expand env s) := by
  have := envLoop_spec env s.length s [] [] 0 fuel (Nat.le_refl _) (Nat.le_refl _) hf
  simpa [substituteEnvVars] using this

/-- C18: corollaries that pin the meaning down: text without `$(` is unchanged; a set variable is
replaced and its value is not rescanned; a reference to an unset variable stays; an unterminated
reference stays. `pre` must not contain `$(` nor end in `$` (which could join the following text). -/
theorem C18_meaning (env : List Char → Option (List Char)) (pre name post : List Char)
    (hpre : ∀ i, ¬ (pre[i]? = some '$' ∧ (pre ++ ['$'])[i + 1]? = some '('))
    (hname : ')' ∉ name) :
    expand env pre = pre ∧
    (∀ v, env name = some v →
      expand env (pre ++ '$' :: '(' :: (name ++ ')' :: post)) = pre ++ (v ++ expand env post)) ∧
    (env name = none →
      expand env (pre ++ '$' :: '(' :: (name ++ ')' :: post)) =
        pre ++ ('$' :: '(' :: (name ++ ')' :: expand env post))) ∧
    expand env (pre ++ '$' :: '(' :: name) = pre ++ '$' :: '(' :: name := by
  have hsp : ∀ name post : List Char, ')' ∉ name →
      splitParen (name ++ ')' :: post) = some (name, post) ∧ splitParen name = none := by
    intro name post h
    induction name with
    | nil => simp [splitParen]
    | cons c cs ih =>
      simp only [List.mem_cons, not_or] at h
      obtain ⟨i1, i2⟩ := ih h.2
      simp only [List.cons_append, splitParen, if_neg (Ne.symm h.1), i1, i2]
      simp
  -- copying a prefix free of references in front of a string starting with `$`
  have hcopy : ∀ (pre rest : List Char),
      (∀ i, ¬ (pre[i]? = some '$' ∧ (pre ++ ['$'])[i + 1]? = some '(')) →
      expand env (pre ++ '$' :: rest) = pre ++ expand env ('$' :: rest) := by
    intro pre rest
    induction pre with
    | nil => intro _; rfl
    | cons c cs ih =>
      intro h
      have hih := ih (fun i hi => h (i + 1) (by simpa using hi))
      rw [List.cons_append, expand_cons, hih]
      · simp
      · intro rest' he
        simp only [List.cons.injEq] at he
        have := h 0
        apply this
        refine ⟨by simp [he.1], ?_⟩
        cases cs with
        | nil => simp at he
        | cons d ds => simp at he ⊢; exact he.2.1
  have hpreself : ∀ pre : List Char,
      (∀ i, ¬ (pre[i]? = some '$' ∧ (pre ++ ['$'])[i + 1]? = some '(')) → expand env pre = pre := by
    intro pre
    induction pre with
    | nil => intro _; rw [expand]
    | cons c cs ih =>
      intro h
      rw [expand_cons, ih (fun i hi => h (i + 1) (by simpa using hi))]
      intro rest' he
      simp only [List.cons.injEq] at he
      apply h 0
      refine ⟨by simp [he.1], ?_⟩
      cases cs with
      | nil => simp at he
      | cons d ds => simp at he ⊢; exact he.2.1
  refine ⟨hpreself pre hpre, ?_, ?_, ?_⟩
  · intro v hv
    rw [hcopy pre _ hpre, expand_ref_some env _ name post (hsp name post hname).1, hv]
  · intro hv
    rw [hcopy pre _ hpre, expand_ref_some env _ name post (hsp name post hname).1, hv]
    simp
  · rw [hcopy pre _ hpre, expand_ref_none env _ (hsp name post hname).2]

example : substituteEnvVars 50 (fun n => if n = "HOME".toList then some "/root".toList else none)
    "x=$(HOME)/$(NO)$(".toList = some "x=/root/$(NO)$(".toList := by decide
example : ∀ i, ¬ ("cost $5 ".toList[i]? = some '$' ∧ ("cost $5 ".toList ++ ['$'])[i + 1]? = some '(') := by
  intro i
  by_cases h : i < 8
  · have : ∀ i : Fin 8, ¬ ("cost $5 ".toList[i.val]? = some '$' ∧
        ("cost $5 ".toList ++ ['$'])[i.val + 1]? = some '(') := by decide
    exact this ⟨i, h⟩
  · rintro ⟨h1, _⟩
    have := (List.getElem?_eq_some_iff.1 h1).1
    exact h this

end Verif.Strings
