import Verif.Logging.Model
import Mathlib.Tactic.Ring
import Mathlib.Algebra.Order.Ring.Rat
import Mathlib.Tactic.Linarith
import Mathlib.Tactic.IntervalCases
import Mathlib.Data.List.TakeWhile

/-!
# Logging: names, levels, formats, statements, printing (C47–C50, C65, C66)
-/

namespace Verif.Logging

/-! ## C47 -/

/-- starts with the default prefix -/
def Prefixed (n : List Char) : Prop := ∃ r, n = ['s', 'm', '.'] ++ r

theorem take3_iff (n : List Char) : n.take 3 = ['s', 'm', '.'] ↔ Prefixed n := by
  constructor
  · intro h; exact ⟨n.drop 3, by rw [← h, List.take_append_drop]⟩
  · rintro ⟨r, rfl⟩; simp

theorem addPrefix_eq (n : List Char) : (Prefixed n ∨ n = ['s', 'm'] → addPrefix n = n) ∧
    (¬ (Prefixed n ∨ n = ['s', 'm']) → addPrefix n = ['s', 'm', '.'] ++ n) := by
  unfold addPrefix defaultName
  constructor
  · intro h
    split
    · rfl
    · rename_i h1
      rcases h with h | h
      · exact absurd ((take3_iff n).2 h) h1
      · simp [h]
  · intro h
    have h1 : ¬ Prefixed n := fun x => h (Or.inl x)
    have h2 : n ≠ ['s', 'm'] := fun x => h (Or.inr x)
    have h1' : ¬ n.take 3 = ['s', 'm'] ++ ['.'] := fun x => h1 ((take3_iff n).1 x)
    rw [if_neg h1', if_pos h2]
    rfl

/-- **C47** The stream a name denotes is `sm` or begins with `sm.`; normalising again changes nothing; and
two names denote the same stream exactly if they are equal or one is the other with `sm.` put in front of
a name that does not have it. -/
theorem C47_normalised (n m : List Char) :
    (addPrefix n = ['s', 'm'] ∨ Prefixed (addPrefix n)) ∧ addPrefix (addPrefix n) = addPrefix n ∧
    (addPrefix n = addPrefix m ↔ n = m ∨
      (¬ Prefixed n ∧ n ≠ ['s', 'm'] ∧ m = ['s', 'm', '.'] ++ n) ∨
      (¬ Prefixed m ∧ m ≠ ['s', 'm'] ∧ n = ['s', 'm', '.'] ++ m)) := by
  have key : ∀ n, addPrefix n = ['s', 'm'] ∨ Prefixed (addPrefix n) := by
    intro n
    by_cases h : Prefixed n ∨ n = ['s', 'm']
    · rw [(addPrefix_eq n).1 h]; exact h.symm
    · rw [(addPrefix_eq n).2 h]; exact Or.inr ⟨n, rfl⟩
  refine ⟨key n, (addPrefix_eq _).1 (key n).symm, ?_⟩
  by_cases hn : Prefixed n ∨ n = ['s', 'm'] <;> by_cases hm : Prefixed m ∨ m = ['s', 'm']
  · rw [(addPrefix_eq n).1 hn, (addPrefix_eq m).1 hm]
    constructor
    · exact Or.inl
    · rintro (h | ⟨h1, h2, _⟩ | ⟨h1, h2, _⟩)
      · exact h
      · exact absurd hn (by simp [h1, h2])
      · exact absurd hm (by simp [h1, h2])
  · rw [(addPrefix_eq n).1 hn, (addPrefix_eq m).2 hm]
    push Not at hm
    constructor
    · intro h; exact Or.inr (Or.inr ⟨hm.1, hm.2, h⟩)
    · rintro (h | ⟨h1, h2, _⟩ | ⟨_, _, h⟩)
      · subst h; exact absurd hn (by simp [hm])
      · exact absurd hn (by simp [h1, h2])
      · exact h
  · rw [(addPrefix_eq n).2 hn, (addPrefix_eq m).1 hm]
    push Not at hn
    constructor
    · intro h; exact Or.inr (Or.inl ⟨hn.1, hn.2, h.symm⟩)
    · rintro (h | ⟨_, _, h⟩ | ⟨h1, h2, _⟩)
      · subst h; exact absurd hm (by simp [hn])
      · exact h.symm
      · exact absurd hm (by simp [h1, h2])
  · rw [(addPrefix_eq n).2 hn, (addPrefix_eq m).2 hm]
    constructor
    · intro h; exact Or.inl (List.append_cancel_left h)
    · rintro (h | ⟨_, _, h⟩ | ⟨_, _, h⟩)
      · rw [h]
      · exact absurd (Or.inl ⟨n, h⟩) hm
      · exact absurd (Or.inl ⟨m, h⟩) hn

example : addPrefix ['n', 'e', 't'] = addPrefix ['s', 'm', '.', 'n', 'e', 't'] := by decide

/-- what a user expects: `enableNamedStream(name)` concerns the `SM_…_NAMED(name, …)` statements -/
def C47_claim : Prop := ∀ n, addPrefix n = namedStatement n

/-- **C47** that is false: for the name `sm` (or `sm.x`) the statements log to `sm.sm` (`sm.sm.x`), the
functions switch `sm` (`sm.x`). -/
theorem C47_negation : ¬ C47_claim := fun h => absurd (h ['s', 'm']) (by decide)

/-- **C47, what holds**: exactly the names that are `sm` or begin with `sm.` are affected. -/
theorem C47_partial (n : List Char) : addPrefix n = namedStatement n ↔ ¬ (Prefixed n ∨ n = ['s', 'm']) := by
  constructor
  · intro h hn
    rw [(addPrefix_eq n).1 hn] at h
    have := congrArg List.length h
    simp [namedStatement, defaultName] at this
    omega
  · intro hn; rw [(addPrefix_eq n).2 hn]; rfl

example : addPrefix ['n', 'e', 't'] = namedStatement ['n', 'e', 't'] := by decide

/-! ## C48 -/

/-- the executions that print, as positions -/
def printsAt (l : List Bool) (i : Nat) : Prop := l[i]? = some true

theorem runOnce_length {T : Type} (hit : Bool) (es : List (Exec T)) : (runOnce hit es).length = es.length := by
  induction es generalizing hit with
  | nil => rfl
  | cons e es ih => simp [runOnce, ih]

theorem runOnce_hit {T : Type} (es : List (Exec T)) : runOnce true es = es.map fun _ => false := by
  induction es with
  | nil => rfl
  | cons e es ih => simp [runOnce, once, ih]

/-- **C48, once.** Over any sequence of executions of a `*_ONCE` statement, exactly the first enabled one
prints. -/
theorem C48_once {T : Type} (es : List (Exec T)) (i : Nat) :
    printsAt (runOnce false es) i ↔
      (∃ e, es[i]? = some e ∧ e.enabled = true) ∧ ∀ j e, j < i → es[j]? = some e → e.enabled = false := by
  induction es generalizing i with
  | nil => simp [printsAt, runOnce]
  | cons e es ih =>
    unfold printsAt at *
    by_cases he : e.enabled = true
    · have : runOnce false (e :: es) = true :: es.map fun _ => false := by
        simp [runOnce, once, he, runOnce_hit]
      rw [this]
      cases i with
      | zero => simp [he]
      | succ i =>
        simp only [List.getElem?_cons_succ, List.getElem?_map]
        constructor
        · intro h; cases h' : es[i]? <;> simp [h'] at h
        · rintro ⟨_, h⟩
          have := h 0 e (by omega) rfl
          rw [he] at this; cases this
    · have he' : e.enabled = false := by simpa using he
      have : runOnce false (e :: es) = false :: runOnce false es := by simp [runOnce, once, he']
      rw [this]
      cases i with
      | zero => simp [he']
      | succ i =>
        simp only [List.getElem?_cons_succ]
        rw [ih]
        constructor
        · rintro ⟨h1, h2⟩
          refine ⟨h1, ?_⟩
          intro j e' hj hje
          cases j with
          | zero => simp at hje; rw [← hje]; exact he'
          | succ j => exact h2 j e' (by omega) (by simpa using hje)
        · rintro ⟨h1, h2⟩
          exact ⟨h1, fun j e' hj hje => h2 (j + 1) e' (by omega) (by simpa using hje)⟩

example : runOnce false [⟨false, 0⟩, ⟨true, 1⟩, ⟨true, (2 : Nat)⟩] = [false, true, false] := by decide

/-- the clock reading of execution `i` -/
def timeOf (es : List (Exec ℚ)) (i : Nat) (t : ℚ) : Prop := ∃ e, es[i]? = some e ∧ e.now = t

theorem throttle_from (rate last : ℚ) (hrate : 0 ≤ rate) (es : List (Exec ℚ)) :
    (∀ i t, printsAt (runThrottle rate last es) i → timeOf es i t → last + rate ≤ t) ∧
    (∀ i j s t, i < j → printsAt (runThrottle rate last es) i → printsAt (runThrottle rate last es) j →
      timeOf es i s → timeOf es j t → s + rate ≤ t) ∧
    (∀ j e, es[j]? = some e → e.enabled = true → ¬ printsAt (runThrottle rate last es) j →
      (e.now < last + rate ∧ ∀ i, i < j → ¬ printsAt (runThrottle rate last es) i) ∨
      ∃ i s, i < j ∧ printsAt (runThrottle rate last es) i ∧ timeOf es i s ∧ e.now < s + rate ∧
        ∀ k, i < k → k < j → ¬ printsAt (runThrottle rate last es) k) := by
  induction es generalizing last with
  | nil => simp [printsAt, runThrottle]
  | cons e es ih =>
    by_cases hp : e.enabled = true ∧ last + rate ≤ e.now
    · have hr : runThrottle rate last (e :: es) = true :: runThrottle rate e.now es := by
        simp [runThrottle, throttle, hp.1, hp.2]
      obtain ⟨i1, i2, i3⟩ := ih e.now
      rw [hr]
      refine ⟨?_, ?_, ?_⟩
      · intro i t h1 h2
        cases i with
        | zero => obtain ⟨e', he, rfl⟩ := h2; simp at he; subst he; exact hp.2
        | succ i =>
          have := i1 i t (by simpa [printsAt] using h1) (by simpa [timeOf] using h2)
          linarith [hp.2]
      · intro i j s t hij h1 h2 h3 h4
        cases j with
        | zero => omega
        | succ j =>
          have hj : printsAt (runThrottle rate e.now es) j := by simpa [printsAt] using h2
          have ht : timeOf es j t := by simpa [timeOf] using h4
          cases i with
          | zero =>
            obtain ⟨e', he, rfl⟩ := h3; simp at he; subst he
            exact i1 j t hj ht
          | succ i =>
            exact i2 i j s t (by omega) (by simpa [printsAt] using h1) hj (by simpa [timeOf] using h3) ht
      · intro j e' he hen hnp
        cases j with
        | zero => simp [printsAt] at hnp
        | succ j =>
          right
          rcases i3 j e' (by simpa using he) hen (by simpa [printsAt] using hnp) with ⟨h1, h2⟩ | ⟨i, s, h1, h2, h3, h4, h5⟩
          · refine ⟨0, e.now, by omega, by simp [printsAt], ⟨e, by simp, rfl⟩, h1, ?_⟩
            intro k hk1 hk2
            cases k with
            | zero => omega
            | succ k => intro h; exact h2 k (by omega) (by simpa [printsAt] using h)
          · refine ⟨i + 1, s, by omega, by simpa [printsAt] using h2, by simpa [timeOf] using h3, h4, ?_⟩
            intro k hk1 hk2
            cases k with
            | zero => omega
            | succ k => intro h; exact h5 k (by omega) (by omega) (by simpa [printsAt] using h)
    · have hr : runThrottle rate last (e :: es) = false :: runThrottle rate last es := by
        by_cases h1 : e.enabled = true
        · have h2 : ¬ last + rate ≤ e.now := fun h => hp ⟨h1, h⟩
          simp [runThrottle, throttle, h2]
        · simp [runThrottle, throttle, h1]
      obtain ⟨i1, i2, i3⟩ := ih last
      rw [hr]
      refine ⟨?_, ?_, ?_⟩
      · intro i t h1 h2
        cases i with
        | zero => simp [printsAt] at h1
        | succ i => exact i1 i t (by simpa [printsAt] using h1) (by simpa [timeOf] using h2)
      · intro i j s t hij h1 h2 h3 h4
        cases i with
        | zero => simp [printsAt] at h1
        | succ i =>
          cases j with
          | zero => omega
          | succ j =>
            exact i2 i j s t (by omega) (by simpa [printsAt] using h1) (by simpa [printsAt] using h2)
              (by simpa [timeOf] using h3) (by simpa [timeOf] using h4)
      · intro j e' he hen hnp
        cases j with
        | zero =>
          left
          simp at he; subst he
          refine ⟨?_, by omega⟩
          by_contra hc
          exact hp ⟨hen, not_lt.1 hc⟩
        | succ j =>
          rcases i3 j e' (by simpa using he) hen (by simpa [printsAt] using hnp) with ⟨h1, h2⟩ | ⟨i, s, h1, h2, h3, h4, h5⟩
          · left
            refine ⟨h1, ?_⟩
            intro i hi
            cases i with
            | zero => simp [printsAt]
            | succ i => intro h; exact h2 i (by omega) (by simpa [printsAt] using h)
          · right
            refine ⟨i + 1, s, by omega, by simpa [printsAt] using h2, by simpa [timeOf] using h3, h4, ?_⟩
            intro k hk1 hk2
            cases k with
            | zero => omega
            | succ k => intro h; exact h5 k (by omega) (by omega) (by simpa [printsAt] using h)

theorem runThrottle_enabled (rate last : ℚ) (es : List (Exec ℚ)) (i : Nat)
    (h : printsAt (runThrottle rate last es) i) : ∃ e, es[i]? = some e ∧ e.enabled = true := by
  induction es generalizing last i with
  | nil => simp [printsAt, runThrottle] at h
  | cons e es ih =>
    cases i with
    | zero =>
      simp only [printsAt, runThrottle, throttle, List.getElem?_cons_zero, Option.some.injEq] at h
      refine ⟨e, rfl, ?_⟩
      by_contra hc
      simp [hc] at h
    | succ i =>
      have := ih _ i (by simpa [printsAt, runThrottle] using h)
      simpa using this

/-- **C48, throttle.** Over any sequence of executions of a `*_THROTTLE(rate)` statement (with any clock, even
one that goes backwards): only enabled executions print; two prints are at least `rate` apart; and an
enabled execution is silent only if less than `rate` has passed since the latest print before it — or,
while nothing has been printed yet, if the clock itself shows less than `rate`. -/
theorem C48_throttle (rate : ℚ) (hrate : 0 ≤ rate) (es : List (Exec ℚ)) :
    (∀ i, printsAt (runThrottle rate 0 es) i → ∃ e, es[i]? = some e ∧ e.enabled = true) ∧
    (∀ i j s t, i < j → printsAt (runThrottle rate 0 es) i → printsAt (runThrottle rate 0 es) j →
      timeOf es i s → timeOf es j t → s + rate ≤ t) ∧
    (∀ j e, es[j]? = some e → e.enabled = true → ¬ printsAt (runThrottle rate 0 es) j →
      (e.now < rate ∧ ∀ i, i < j → ¬ printsAt (runThrottle rate 0 es) i) ∨
      ∃ i s, i < j ∧ printsAt (runThrottle rate 0 es) i ∧ timeOf es i s ∧ e.now < s + rate ∧
        ∀ k, i < k → k < j → ¬ printsAt (runThrottle rate 0 es) k) := by
  have h := throttle_from rate 0 hrate es
  rw [zero_add] at h
  exact ⟨fun i => runThrottle_enabled rate 0 es i, h.2.1, h.2.2⟩

example : runThrottle (2 : ℚ) 0 [⟨true, 100⟩, ⟨true, 101⟩, ⟨false, 103⟩, ⟨true, 104⟩] =
    [true, false, false, true] := by decide +kernel

/-! ## C49 -/

/-- `n` may stand between the braces: one or more letters -/
def IsName (n : List Char) : Prop := n ≠ [] ∧ ∀ c ∈ n, ('a' ≤ c ∧ c ≤ 'z') ∨ ('A' ≤ c ∧ c ≤ 'Z')

theorem isLetter_iff (c : Char) : isLetter c = true ↔ ('a' ≤ c ∧ c ≤ 'z') ∨ ('A' ≤ c ∧ c ≤ 'Z') := by
  simp only [isLetter, Bool.or_eq_true, Bool.and_eq_true, decide_eq_true_eq]
  rfl

theorem isName_iff (n : List Char) : IsName n ↔ n ≠ [] ∧ ∀ c ∈ n, isLetter c = true := by
  unfold IsName; simp only [isLetter_iff]

/-- `${n}` -/
def tag (n : List Char) : List Char := ['$', '{'] ++ n ++ ['}']

theorem takeWhile_all {p : Char → Bool} {n r : List Char} (hn : ∀ c ∈ n, p c = true) (c : Char) (hc : p c = false) :
    (n ++ c :: r).takeWhile p = n ∧ (n ++ c :: r).dropWhile p = c :: r := by
  induction n with
  | nil => simp [hc]
  | cons a n ih =>
    have := ih fun c h => hn c (by simp [h])
    have ha := hn a (by simp)
    simp [ha, this]

theorem matchName_tag {n : List Char} (hn : IsName n) (r : List Char) : matchName (n ++ '}' :: r) = some (n, r) := by
  unfold matchName
  obtain ⟨h1, h2⟩ := takeWhile_all (p := isLetter) (r := r) ((isName_iff n).1 hn).2 '}' (by decide)
  rw [h1, h2]
  cases n with
  | nil => exact absurd rfl hn.1
  | cons => rfl

theorem matchName_some {t n r : List Char} (h : matchName t = some (n, r)) : IsName n ∧ t = n ++ '}' :: r := by
  unfold matchName at h
  split at h
  · rename_i c n' rest h1 h2
    simp only [Option.some.injEq, Prod.mk.injEq] at h
    obtain ⟨rfl, rfl⟩ := h
    refine ⟨⟨by simp, ?_⟩, ?_⟩
    · intro c' hc'
      rw [← h1] at hc'
      exact (isLetter_iff c').1 (List.mem_takeWhile_imp hc')
    · rw [← h1, ← h2, List.takeWhile_append_dropWhile]
  · cases h

theorem matchHere_iff (t n r : List Char) : matchHere t = some (n, r) ↔ IsName n ∧ t = tag n ++ r := by
  constructor
  · intro h
    unfold matchHere at h
    split at h
    · obtain ⟨h1, h2⟩ := matchName_some h
      exact ⟨h1, by simp [tag, h2]⟩
    · cases h
  · rintro ⟨h, rfl⟩
    simp only [tag, List.cons_append, List.nil_append, List.append_assoc, matchHere]
    exact matchName_tag h r

/-- the search fails exactly if no tag occurs -/
theorem search_none (t : List Char) : search t = none ↔ ¬ ∃ a n r, IsName n ∧ t = a ++ tag n ++ r := by
  induction t with
  | nil => simp [search, tag]
  | cons c t ih =>
    constructor
    · rintro h ⟨a, n, r, hn, ht⟩
      unfold search at h
      split at h
      · cases h
      rename_i h0
      split at h
      · cases h
      rename_i h1
      cases a with
      | nil =>
        have := (matchHere_iff (c :: t) n r).2 ⟨hn, by simpa using ht⟩
        rw [h0] at this; cases this
      | cons c' a =>
        simp only [List.cons_append, List.cons.injEq] at ht
        exact ih.1 h1 ⟨a, n, r, hn, ht.2⟩
    · intro h
      unfold search
      split
      · rename_i n r h0
        obtain ⟨hn, ht⟩ := (matchHere_iff _ _ _).1 h0
        exact absurd ⟨[], n, r, hn, by simpa using ht⟩ h
      · split
        · rename_i p n r h1
          exfalso
          have : ¬ ∃ a n r, IsName n ∧ t = a ++ tag n ++ r := by
            rintro ⟨a, n, r, hn, ht⟩
            exact h ⟨c :: a, n, r, hn, by simp [ht]⟩
          rw [ih.2 this] at h1; cases h1
        · rfl

theorem matchHere_append (a : List Char) (ha : a ≠ []) (x : List Char) :
    matchHere (a ++ '$' :: x) = (matchHere a).map fun p => (p.1, p.2 ++ '$' :: x) := by
  cases h : matchHere a with
  | some p =>
    obtain ⟨n, r⟩ := p
    obtain ⟨hn, rfl⟩ := (matchHere_iff _ _ _).1 h
    exact (matchHere_iff _ _ _).2 ⟨hn, by simp⟩
  | none =>
    cases h2 : matchHere (a ++ '$' :: x) with
    | none => rfl
    | some p =>
      exfalso
      obtain ⟨n, r⟩ := p
      obtain ⟨hn, he⟩ := (matchHere_iff _ _ _).1 h2
      -- the tag cannot reach the appended '$'
      rcases List.append_eq_append_iff.1 he with ⟨l, h3, h4⟩ | ⟨l, h3, h4⟩
      · -- tag n = a ++ l
        cases l with
        | nil => 
          rw [List.append_nil] at h3
          have := (matchHere_iff a n []).2 ⟨hn, by simp [h3]⟩
          rw [h] at this; cases this
        | cons c l =>
          simp only [List.cons_append, List.cons.injEq] at h4
          obtain ⟨rfl, h4⟩ := h4
          -- '$' occurs in the tag behind a nonempty a
          unfold tag at h3
          cases a with
          | nil => exact ha rfl
          | cons c1 a =>
            simp only [List.cons_append, List.nil_append, List.cons.injEq] at h3
            have hmem : '$' ∈ ('{' :: (n ++ ['}'])) := by rw [h3.2]; simp
            simp only [List.mem_cons, List.mem_append] at hmem
            rcases hmem with h5 | h5 | h5
            · exact absurd h5 (by decide)
            · exact absurd (hn.2 _ h5) (by decide)
            · exact absurd h5 (by simp)
      · have := (matchHere_iff a n l).2 ⟨hn, h3⟩
        rw [h] at this; cases this

theorem search_append (a : List Char) (n r : List Char) (hn : IsName n) :
    search (a ++ tag n ++ r) = match search a with
      | some (p, m, s) => some (p, m, s ++ tag n ++ r)
      | none => some (a, n, r) := by
  induction a with
  | nil =>
    have h : matchHere (tag n ++ r) = some (n, r) := (matchHere_iff _ _ _).2 ⟨hn, rfl⟩
    simp only [List.nil_append, search]
    unfold tag at h ⊢
    simp only [List.cons_append, List.nil_append] at h ⊢
    unfold search
    rw [h]
  | cons c a ih =>
    have hm := matchHere_append (c :: a) (by simp) ('{' :: n ++ ['}'] ++ r)
    have e : (c :: a) ++ '$' :: ('{' :: n ++ ['}'] ++ r) = c :: a ++ tag n ++ r := by simp [tag]
    rw [e] at hm
    have e2 : '$' :: ('{' :: n ++ ['}'] ++ r) = tag n ++ r := by simp [tag]
    simp only [List.cons_append] at hm ⊢
    unfold search
    rw [hm]
    cases h : matchHere (c :: a) with
    | some p => obtain ⟨m, s⟩ := p; simp [tag]
    | none =>
      simp only [Option.map_none]
      rw [ih]
      cases search a with
      | some p => rfl
      | none => rfl

/-- the text `${…}` tokens stand for -/
def spelling : Token → List Char
  | .fixed s => s
  | .named n => tag n

theorem search_some {t p n r : List Char} (h : search t = some (p, n, r)) :
    IsName n ∧ t = p ++ tag n ++ r ∧ search p = none := by
  induction t generalizing p with
  | nil => simp [search] at h
  | cons c t ih =>
    unfold search at h
    split at h
    · rename_i n' r' heq
      simp only [Option.some.injEq, Prod.mk.injEq] at h
      obtain ⟨rfl, rfl, rfl⟩ := h
      obtain ⟨h1, h2⟩ := (matchHere_iff _ _ _).1 heq
      exact ⟨h1, by simpa using h2, rfl⟩
    · rename_i h0
      split at h
      · rename_i p' n' r' heq
        simp only [Option.some.injEq, Prod.mk.injEq] at h
        obtain ⟨rfl, rfl, rfl⟩ := h
        obtain ⟨h1, h2, h3⟩ := ih heq
        refine ⟨h1, by simp [h2], ?_⟩
        unfold search
        have hm := matchHere_append (c :: p') (by simp) ('{' :: n' ++ ['}'] ++ r')
        have e : (c :: p') ++ '$' :: ('{' :: n' ++ ['}'] ++ r') = c :: t := by rw [h2]; simp [tag]
        rw [e, h0] at hm
        have : matchHere (c :: p') = none := by
          cases hx : matchHere (c :: p') with
          | none => rfl
          | some q => rw [hx] at hm; simp at hm
        rw [this, h3]
      · cases h

theorem tokenize_unfold (t : List Char) : tokenize t = match search t with
    | some (p, n, r) => .fixed p :: .named n :: tokenize r
    | none => [.fixed t] := by
  conv => lhs; unfold tokenize
  split <;> rename_i h <;> rw [h]

/-- **C49** Tokenisation loses nothing: the pieces, spelled out, are the format; the named pieces are names;
and no fixed piece contains a tag. -/
theorem C49_lossless (t : List Char) :
    ((tokenize t).map spelling).flatten = t ∧
    (∀ n, .named n ∈ tokenize t → IsName n) ∧
    (∀ s, .fixed s ∈ tokenize t → ¬ ∃ a n r, IsName n ∧ s = a ++ tag n ++ r) := by
  induction hl : t.length using Nat.strongRecOn generalizing t with
  | ind k ih =>
    rw [tokenize_unfold]
    cases hs : search t with
    | none =>
      refine ⟨by simp [spelling], by simp, ?_⟩
      intro s hm
      simp only [List.mem_singleton, Token.fixed.injEq] at hm
      rw [hm]; exact (search_none t).1 hs
    | some q =>
      obtain ⟨p, n, r⟩ := q
      obtain ⟨h1, h2, h3⟩ := search_some hs
      obtain ⟨i1, i2, i3⟩ := ih r.length (by rw [← hl]; exact search_length hs) r rfl
      refine ⟨?_, ?_, ?_⟩
      · simp only [List.map_cons, List.flatten_cons, spelling, i1]
        rw [h2]; simp
      · intro m hm
        simp only [List.mem_cons, Token.named.injEq, reduceCtorEq, false_or] at hm
        rcases hm with rfl | hm
        · exact h1
        · exact i2 m hm
      · intro s hm
        simp only [List.mem_cons, Token.fixed.injEq, reduceCtorEq, false_or] at hm
        rcases hm with rfl | hm
        · exact (search_none s).1 h3
        · exact i3 s hm

/-- **C49** What is printed: text without any tag is printed as it is… -/
theorem C49_text (extra : List Char → Option (List Char)) (e : Event) (t : List Char)
    (h : ¬ ∃ a n r, IsName n ∧ t = a ++ tag n ++ r) : formatted extra t e = t := by
  unfold formatted
  rw [tokenize_unfold, (search_none t).2 h]
  simp [value]

/-- **C49** …and a tag, wherever it occurs, is replaced by its value and what is before and behind it is
printed as it would be alone. -/
theorem C49_substitution (extra : List Char → Option (List Char)) (e : Event) (a n r : List Char) (hn : IsName n) :
    formatted extra (a ++ tag n ++ r) e = formatted extra a e ++ value extra e (.named n) ++ formatted extra r e := by
  induction hl : a.length using Nat.strongRecOn generalizing a with
  | ind k ih =>
    have hs := search_append a n r hn
    cases h : search a with
    | none =>
      rw [h] at hs
      unfold formatted
      rw [tokenize_unfold (a ++ tag n ++ r), tokenize_unfold a, hs, h]
      simp [value]
    | some q =>
      obtain ⟨p, m, s⟩ := q
      rw [h] at hs
      have := ih s.length (by rw [← hl]; exact search_length h) s rfl
      unfold formatted at this ⊢
      rw [tokenize_unfold (a ++ tag n ++ r), tokenize_unfold a, hs, h]
      simp only [List.append_assoc] at this ⊢
      simp only [List.map_cons, List.flatten_cons, this, List.append_assoc]

/-- the names with a built-in meaning -/
def builtin : List (List Char) :=
  [['s','e','v','e','r','i','t','y'], ['m','e','s','s','a','g','e'], ['t','i','m','e'], ['t','h','r','e','a','d'],
   ['f','i','l','e'], ['l','i','n','e'], ['f','u','n','c','t','i','o','n'], ['s','t','r','e','a','m','n','a','m','e']]

theorem value_unknown (extra : List Char → Option (List Char)) (e : Event) (n : List Char)
    (h : n ∉ builtin) (hx : extra n = none) : value extra e (.named n) = tag n := by
  simp only [builtin, List.mem_cons, List.not_mem_nil, or_false, not_or] at h
  obtain ⟨h1, h2, h3, h4, h5, h6, h7, h8⟩ := h
  simp only [value, if_neg h1, if_neg h2, if_neg h3, if_neg h4, if_neg h5, if_neg h6, if_neg h7, if_neg h8, hx]
  rfl

/-- **C49** A format in which no built-in tag occurs is printed as it is if there are no extra tokens. -/
theorem C49_unknown (e : Event) (t : List Char)
    (h : ∀ a n r, n ∈ builtin → t ≠ a ++ tag n ++ r) : formatted (fun _ => none) t e = t := by
  obtain ⟨h1, h2, _⟩ := C49_lossless t
  have key : ∀ tok ∈ tokenize t, value (fun _ => none) e tok = spelling tok := by
    intro tok hm
    cases tok with
    | fixed s => rfl
    | named n =>
      apply value_unknown _ _ _ _ rfl
      intro hb
      obtain ⟨l1, l2, hl⟩ := List.append_of_mem hm
      refine h ((l1.map spelling).flatten) n ((l2.map spelling).flatten) hb ?_
      rw [← h1, hl]
      simp [spelling]
  unfold formatted
  rw [List.map_congr_left key, h1]

example : formatted (fun _ => none) ['[','$','{','s','e','v','e','r','i','t','y','}',']',' ','$','{','x','}','$','{','1','}']
    ⟨[], .warn, [], 3, [], ['h','i'], [], []⟩ =
    ['[',' ','W','A','R','N',']',' ','$','{','x','}','$','{','1','}'] := by
  simp [formatted, tokenize_unfold, search, matchHere, matchName, isLetter, value, severity]

/-! ## C50 -/

/-- the enumerators' names, in lower case -/
def levelName : Level → List Char
  | .all => ['a','l','l'] | .finest => ['f','i','n','e','s','t'] | .verbose => ['v','e','r','b','o','s','e']
  | .finer => ['f','i','n','e','r'] | .trace => ['t','r','a','c','e'] | .fine => ['f','i','n','e']
  | .debug => ['d','e','b','u','g'] | .info => ['i','n','f','o'] | .warn => ['w','a','r','n']
  | .error => ['e','r','r','o','r'] | .fatal => ['f','a','t','a','l'] | .count => ['c','o','u','n','t']

/-- **C50** A string that is the name of a level (other than the end marker), in any capitalisation, is read
as that level; every other string as `Info`. -/
theorem C50_names (s : List Char) :
    (∀ l, l ≠ .count → s.map lower = levelName l → fromString s = l) ∧
    ((∀ l, l ≠ .count → s.map lower ≠ levelName l) → fromString s = .info) := by
  constructor
  · intro l hl h
    unfold fromString
    rw [h]
    cases l <;> first | exact absurd rfl hl | decide
  · intro h
    unfold fromString
    have : levelTable.find? (fun e => e.1 == s.map lower) = none := by
      rw [List.find?_eq_none]
      intro e he
      have : ∃ l, l ≠ Level.count ∧ e.1 = levelName l := by
        simp only [levelTable, List.mem_cons, List.not_mem_nil, or_false] at he
        rcases he with rfl | rfl | rfl | rfl | rfl | rfl | rfl | rfl | rfl | rfl | rfl
        exacts [⟨.all, by decide, rfl⟩, ⟨.finest, by decide, rfl⟩, ⟨.verbose, by decide, rfl⟩, ⟨.finer, by decide, rfl⟩,
          ⟨.trace, by decide, rfl⟩, ⟨.fine, by decide, rfl⟩, ⟨.debug, by decide, rfl⟩, ⟨.info, by decide, rfl⟩,
          ⟨.warn, by decide, rfl⟩, ⟨.error, by decide, rfl⟩, ⟨.fatal, by decide, rfl⟩]
      obtain ⟨l, hl, e1⟩ := this
      simp only [beq_iff_eq]
      rw [e1]; exact fun hc => h l hl hc.symm
    rw [this]

/-- **C50** `lower` is what makes it independent of the capitalisation: it is idempotent and identifies
exactly the ASCII letters that differ in case. -/
theorem C50_lower (c : Char) : lower (lower c) = lower c ∧
    (65 ≤ c.toNat ∧ c.toNat ≤ 90 → (lower c).toNat = c.toNat + 32) ∧ (¬ (65 ≤ c.toNat ∧ c.toNat ≤ 90) → lower c = c) := by
  have key : 65 ≤ c.toNat ∧ c.toNat ≤ 90 → (lower c).toNat = c.toNat + 32 := by
    intro h
    unfold lower
    rw [if_pos h]
    obtain ⟨h1, h2⟩ := h
    generalize c.toNat = k at h1 h2
    interval_cases k <;> rfl
  refine ⟨?_, key, fun h => by unfold lower; rw [if_neg h]⟩
  by_cases h : 65 ≤ c.toNat ∧ c.toNat ≤ 90
  · have := key h
    generalize lower c = d at this
    unfold lower
    rw [if_neg (by omega)]
  · have e : lower c = c := by unfold lower; rw [if_neg h]
    rw [e, e]

example : fromString ['W','a','R','n'] = .warn ∧ fromString [' ','W','A','R','N'] = .info := by decide

/-! ### what the tags print -/

/-- the ASCII upper case of a lower-case letter -/
def upperLetter (c : Char) : Char := if 97 ≤ c.toNat ∧ c.toNat ≤ 122 then Char.ofNat (c.toNat - 32) else c

/-- five characters: a short text moved to the right, a long one cut -/
def five (s : List Char) : List Char := (List.replicate (5 - s.length) ' ' ++ s).take 5

/-- **C49** Every built-in tag prints the event's item of that name; `severity` prints the level's name in
capital letters in five characters. -/
theorem C49_values (extra : List Char → Option (List Char)) (e : Event) (a r : List Char) :
    (e.level ≠ .count → formatted extra (a ++ tag ['s','e','v','e','r','i','t','y'] ++ r) e =
      formatted extra a e ++ five ((levelName e.level).map upperLetter) ++ formatted extra r e) ∧
    formatted extra (a ++ tag ['m','e','s','s','a','g','e'] ++ r) e = formatted extra a e ++ e.message ++ formatted extra r e ∧
    formatted extra (a ++ tag ['t','i','m','e'] ++ r) e = formatted extra a e ++ e.time ++ formatted extra r e ∧
    formatted extra (a ++ tag ['t','h','r','e','a','d'] ++ r) e = formatted extra a e ++ e.thread ++ formatted extra r e ∧
    formatted extra (a ++ tag ['f','i','l','e'] ++ r) e = formatted extra a e ++ e.file ++ formatted extra r e ∧
    formatted extra (a ++ tag ['l','i','n','e'] ++ r) e = formatted extra a e ++ Nat.toDigits 10 e.line ++ formatted extra r e ∧
    formatted extra (a ++ tag ['f','u','n','c','t','i','o','n'] ++ r) e =
      formatted extra a e ++ e.function ++ formatted extra r e ∧
    formatted extra (a ++ tag ['s','t','r','e','a','m','n','a','m','e'] ++ r) e =
      formatted extra a e ++ e.stream ++ formatted extra r e ∧
    ∀ n v, IsName n → n ∉ builtin → extra n = some v →
      formatted extra (a ++ tag n ++ r) e = formatted extra a e ++ v ++ formatted extra r e := by
  have hsev : e.level ≠ .count → severity e.level = five ((levelName e.level).map upperLetter) := by
    intro h
    cases hl : e.level <;> first | exact absurd hl h | decide
  refine ⟨fun h => ?_, ?_, ?_, ?_, ?_, ?_, ?_, ?_, ?_⟩
  · rw [C49_substitution extra e a _ r ⟨by decide, by decide⟩, ← hsev h]; rfl
  · rw [C49_substitution extra e a _ r ⟨by decide, by decide⟩]; rfl
  · rw [C49_substitution extra e a _ r ⟨by decide, by decide⟩]; rfl
  · rw [C49_substitution extra e a _ r ⟨by decide, by decide⟩]; rfl
  · rw [C49_substitution extra e a _ r ⟨by decide, by decide⟩]; rfl
  · rw [C49_substitution extra e a _ r ⟨by decide, by decide⟩]; rfl
  · rw [C49_substitution extra e a _ r ⟨by decide, by decide⟩]; rfl
  · rw [C49_substitution extra e a _ r ⟨by decide, by decide⟩]; rfl
  · intro n v hn hb hx
    rw [C49_substitution extra e a _ r hn]
    simp only [builtin, List.mem_cons, List.not_mem_nil, or_false, not_or] at hb
    obtain ⟨h1, h2, h3, h4, h5, h6, h7, h8⟩ := hb
    simp only [value, if_neg h1, if_neg h2, if_neg h3, if_neg h4, if_neg h5, if_neg h6, if_neg h7, if_neg h8, hx]

/-- a terminal colour code: escape, bracket, digits, `m` -/
def IsColourCode (s : List Char) : Prop := ∃ d, d ≠ [] ∧ (∀ c ∈ d, c.isDigit = true) ∧ s = ['\x1b', '['] ++ d ++ ['m']

/-- **C49** Each event is one line: the formatted text and a newline, nothing else without colours; with
colours the text stands between a colour code and the code that resets the colour. -/
theorem C49_print (extra : List Char → Option (List Char)) (format : List Char) (e : Event) :
    printEvent false extra format e = formatted extra format e ++ ['\n'] ∧
    ∃ code, IsColourCode code ∧
      printEvent true extra format e = code ++ formatted extra format e ++ ['\x1b', '[', '0', 'm'] ++ ['\n'] := by
  refine ⟨by simp [printEvent], colour e.level, ?_, by simp [printEvent]⟩
  cases e.level
  case fatal => exact ⟨['9', '1'], by simp, by decide, rfl⟩
  case error => exact ⟨['3', '1'], by simp, by decide, rfl⟩
  case warn => exact ⟨['3', '3'], by simp, by decide, rfl⟩
  case debug => exact ⟨['3', '2'], by simp, by decide, rfl⟩
  case info => exact ⟨['0'], by simp, by decide, rfl⟩
  case count => exact ⟨['0'], by simp, by decide, rfl⟩
  all_goals exact ⟨['9', '2'], by simp, by decide, rfl⟩

example : (⟨[], .warn, [], 3, [], ['h','i'], [], []⟩ : Event).level ≠ .count ∧ IsName ['x'] ∧ ['x'] ∉ builtin ∧
    five ((levelName .verbose).map upperLetter) = ['V', 'E', 'R', 'B', 'O'] := by
  refine ⟨by simp, ⟨by simp, by decide⟩, by decide, by decide⟩

/-- the levels from the least to the most severe -/
def documentedOrder : List Level :=
  [.all, .finest, .verbose, .finer, .trace, .fine, .debug, .info, .warn, .error, .fatal]

/-- **C50** The levels are ordered as documented: one level is below another iff it comes earlier in the
list, and the end marker is above all of them. -/
theorem C50_order (a b : Level) (pre mid post : List Level) (h : documentedOrder = pre ++ a :: mid ++ b :: post) :
    a.toNat < b.toNat ∧ b.toNat < Level.count.toNat := by
  have hs : (documentedOrder ++ [Level.count]).Pairwise (fun a b => a.toNat < b.toNat) := by decide
  rw [h] at hs
  simp only [List.append_assoc, List.cons_append] at hs
  have h2 := (List.pairwise_append.1 hs).2.1
  rw [List.pairwise_cons] at h2
  refine ⟨h2.1 b (by simp), ?_⟩
  have h3 := (List.pairwise_append.1 h2.2).2.1
  rw [List.pairwise_cons] at h3
  exact h3.1 .count (by simp)

example : documentedOrder = [.all, .finest, .verbose, .finer, .trace, .fine] ++ .debug :: [.info] ++ .warn :: [.error, .fatal] :=
  rfl

/-! ## C66: the message buffer -/

/-- the buffer size after a history of formatted messages -/
def sizeAfter (size : Nat) (fs : List Formatted) : Nat := fs.foldl (fun s f => (vformatToBuffer s f).1) size

theorem vformat_some (size : Nat) (t : List Char) : vformatToBuffer size (some t) =
    if size ≤ t.length then ((t.length + 2) % 18446744073709551616,
      t.take ((t.length + 2) % 18446744073709551616 - 1) ++ ['\x00'])
    else (size, t.take (size - 1) ++ ['\x00']) := rfl

theorem vformat_none (size : Nat) : vformatToBuffer size none =
    if size ≤ 18446744073709551615 then ((18446744073709551615 + 2) % 18446744073709551616, ['\x00'])
    else (size, ['\x00']) := rfl

theorem vformat_size (size : Nat) (hs : 1 ≤ size) (f : Formatted) (hf : ∀ t, f = some t → t.length < 2147483648) :
    1 ≤ (vformatToBuffer size f).1 := by
  cases f with
  | none =>
    rw [vformat_none]
    by_cases h : size ≤ 18446744073709551615
    · rw [if_pos h]
    · rw [if_neg h]; exact hs
  | some t =>
    have := hf t rfl
    rw [vformat_some]
    by_cases h : size ≤ t.length
    · rw [if_pos h]; simp only; omega
    · rw [if_neg h]; exact hs

/-- **C66** After any history of messages (some of which may have failed to format), a message is delivered
whole, up to its first NUL, whatever its length (which the standard library limits to `INT_MAX`). -/
theorem C66_whole (history : List Formatted) (hh : ∀ f ∈ history, ∀ t, f = some t → t.length < 2147483648)
    (t : List Char) (ht : t.length < 2147483648) :
    cstr (vformatToBuffer (sizeAfter 4096 history) (some t)).2 = cstr t := by
  have hs : ∀ size, 1 ≤ size → 1 ≤ sizeAfter size history := by
    induction history with
    | nil => intro size h; exact h
    | cons f fs ih =>
      intro size h
      exact ih (fun g hg => hh g (by simp [hg])) _ (vformat_size size h f (hh f (by simp)))
  have hsize := hs 4096 (by omega)
  have hcut : ∀ l : List Char, cstr (l ++ ['\x00']) = cstr l := by
    intro l
    unfold cstr
    induction l with
    | nil => rfl
    | cons c l ih => simp only [List.cons_append, List.takeWhile_cons, ih]
  generalize sizeAfter 4096 history = size at hsize
  rw [vformat_some]
  by_cases h : size ≤ t.length
  · rw [if_pos h]; simp only; rw [hcut, List.take_of_length_le (by omega)]
  · rw [if_neg h]; simp only; rw [hcut, List.take_of_length_le (by omega)]

example : cstr (vformatToBuffer (sizeAfter 4096 [none, some ['a']]) (some ['x', 'y', '\x00', 'z'])).2 = ['x', 'y'] := by
  decide

/-! ## C65: printing -/

def PState.fresh : PState := ⟨false, [], false⟩

theorem doPrints_printing (s : PState) (hs : s.printing = true) : ∀ p : Prints, doPrints s p = s
  | .nil => by rw [doPrints]
  | .cons m a rest => by
    obtain ⟨nested, o⟩ := a
    rw [doPrints]
    split
    · rfl
    · rw [doPrint, if_pos hs]; exact doPrints_printing s hs rest

theorem doPrint_fresh (d : List (List Char)) (m : List Char) (nested : Prints) (o : Outcome) :
    doPrint ⟨false, d, false⟩ m (.mk nested o) = match o with
      | .throwsOther => ⟨true, d ++ [m], true⟩
      | _ => ⟨false, d ++ [m], false⟩ := by
  rw [doPrint]
  simp only [Bool.false_eq_true, if_false]
  rw [doPrints_printing _ rfl]
  cases o <;> rfl

/-- the logger throws something not derived from `std::exception` -/
def Action.escapes : Action → Bool
  | .mk _ .throwsOther => true
  | _ => false

/-- the calls up to and including the first on which such an exception escapes -/
def untilEscape : List (List Char × Action) → List (List Char)
  | [] => []
  | (m, a) :: rest => if a.escapes then [m] else m :: untilEscape rest

theorem history_printing (d : List (List Char)) (h : List (List Char × Action)) :
    history ⟨true, d, false⟩ h = ⟨true, d, false⟩ := by
  induction h with
  | nil => rfl
  | cons x rest ih =>
    obtain ⟨m, nested, o⟩ := x
    simp only [history]
    rw [doPrint]
    simp only [if_true]
    exact ih

/-- **C65** For every history of log calls of one thread and every logger behaviour (the logger may itself log,
return, or throw): calls made from inside the logger are dropped, and the others are delivered exactly once
and in order — until the logger throws something that is not a `std::exception`: from then on every message
of that thread is lost. -/
theorem C65_delivery (h : List (List Char × Action)) :
    (history .fresh h).delivered = untilEscape h := by
  have : ∀ d, (history ⟨false, d, false⟩ h).delivered = d ++ untilEscape h := by
    induction h with
    | nil => intro d; simp [history, untilEscape]
    | cons x rest ih =>
      intro d
      obtain ⟨m, nested, o⟩ := x
      simp only [history, doPrint_fresh, untilEscape]
      cases o
      · simp [ih, Action.escapes]
      · simp [ih, Action.escapes]
      · simp [history_printing, Action.escapes]
  simpa [PState.fresh] using this []

/-- what a user expects: every message is delivered -/
def C65_claim : Prop := ∀ h : List (List Char × Action), (history .fresh h).delivered = h.map Prod.fst

/-- **C65** that is false. -/
theorem C65_negation : ¬ C65_claim := by
  intro hc
  have := hc [([], .mk .nil .throwsOther), ([], .mk .nil .returns)]
  rw [C65_delivery] at this
  simp [untilEscape, Action.escapes] at this

/-- **C65, what holds**: if no such exception is thrown, every message is delivered once and in order. -/
theorem C65_partial (h : List (List Char × Action)) (hn : ∀ x ∈ h, x.2.escapes = false) :
    (history .fresh h).delivered = h.map Prod.fst := by
  rw [C65_delivery]
  induction h with
  | nil => rfl
  | cons x rest ih =>
    obtain ⟨m, a⟩ := x
    have : a.escapes = false := hn (m, a) (by simp)
    simp [untilEscape, this, ih fun y hy => hn y (by simp [hy])]

example : (history .fresh [(['a'], .mk (.cons ['n'] (.mk .nil .returns) .nil) .throwsStd), (['b'], .mk .nil .returns)]).delivered =
    [['a'], ['b']] := by rw [C65_delivery]; simp [untilEscape, Action.escapes]

end Verif.Logging
