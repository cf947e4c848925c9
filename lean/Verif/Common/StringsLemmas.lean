import Verif.Common.StringsSpec

/-!
# Helper lemmas for C16, C17, C18
-/

namespace Verif.Strings

/-! ## forward replace -/

theorem findFrom_app (done rest : List Char) (t : Char) :
    findFrom (done ++ rest) t done.length = (rest.findIdx? (· == t)).map (· + done.length) := by
  simp [findFrom]

theorem findFrom_skip (done : List Char) (c : Char) (cs : List Char) (t : Char) (h : c ≠ t) :
    findFrom (done ++ c :: cs) t done.length = findFrom (done ++ c :: cs) t (done.length + 1) := by
  have e : done ++ c :: cs = (done ++ [c]) ++ cs := by simp
  have l : done.length + 1 = (done ++ [c]).length := by simp
  rw [findFrom_app]
  conv => rhs; rw [e, l, findFrom_app]
  rw [List.findIdx?_cons]
  simp only [beq_iff_eq, h, if_false, Option.map_map]
  congr 1
  funext x
  simp; omega

theorem findFrom_hit (done : List Char) (cs : List Char) (t : Char) :
    findFrom (done ++ t :: cs) t done.length = some done.length := by
  rw [findFrom_app, List.findIdx?_cons]
  simp

theorem replaceLoop_skip (t r : Char) (fuel : Nat) (done : List Char) (c : Char) (cs : List Char)
    (k : Nat) (h : c ≠ t) :
    replaceLoop t r fuel (done ++ c :: cs) done.length k =
      replaceLoop t r fuel (done ++ c :: cs) (done.length + 1) k := by
  cases fuel with
  | zero => rfl
  | succ n => simp only [replaceLoop, findFrom_skip done c cs t h]

theorem replaceLoop_spec (t r : Char) (htr : t ≠ r) (rest : List Char) :
    ∀ (done : List Char) (fuel k : Nat), rest.length < fuel →
      replaceLoop t r fuel (done ++ rest) done.length k = some (done ++ replaceSpec t r k rest) := by
  induction rest with
  | nil =>
    intro done fuel k hf
    cases fuel with
    | zero => simp at hf
    | succ n =>
      simp only [replaceLoop, findFrom_app]
      simp [replaceSpec]
  | cons c cs ih =>
    intro done fuel k hf
    simp only [List.length_cons] at hf
    have e : ∀ d : Char, done ++ d :: cs = (done ++ [d]) ++ cs := by simp
    have l : ∀ d : Char, done.length + 1 = (done ++ [d]).length := by simp
    by_cases hc : c = t
    · subst hc
      obtain ⟨n, rfl⟩ : ∃ n, fuel = n + 1 := ⟨fuel - 1, by omega⟩
      simp only [replaceLoop, findFrom_hit]
      cases k with
      | succ k =>
        simp only
        rw [e c, l c, ih (done ++ [c]) n k (by omega)]
        simp [replaceSpec]
      | zero =>
        simp only
        have hset : (done ++ c :: cs).set done.length r = done ++ r :: cs := by
          rw [List.set_append_right _ _ (Nat.le_refl _)]; simp
        rw [hset, replaceLoop_skip c r n done r cs 0 (Ne.symm htr)]
        rw [e r, l r, ih (done ++ [r]) n 0 (by omega)]
        simp [replaceSpec]
    · rw [replaceLoop_skip t r fuel done c cs k hc]
      rw [e c, l c, ih (done ++ [c]) fuel k (by omega)]
      have : replaceSpec t r k (c :: cs) = c :: replaceSpec t r k cs := by
        cases k <;> simp [replaceSpec, hc]
      rw [this]; simp

/-- With `target = replacement`: returns the string if the occurrences are exhausted by `skip`, and
otherwise never returns. -/
theorem replaceLoop_same (t : Char) (rest : List Char) :
    ∀ (done : List Char) (fuel k : Nat),
      (k < rest.count t → replaceLoop t t fuel (done ++ rest) done.length k = none) ∧
      (rest.count t ≤ k → rest.length < fuel →
        replaceLoop t t fuel (done ++ rest) done.length k = some (done ++ rest)) := by
  induction rest with
  | nil =>
    intro done fuel k
    refine ⟨by simp, ?_⟩
    intro _ hf
    cases fuel with
    | zero => simp at hf
    | succ n => simp only [replaceLoop, findFrom_app]; simp
  | cons c cs ih =>
    intro done fuel k
    have e : done ++ c :: cs = (done ++ [c]) ++ cs := by simp
    have l : done.length + 1 = (done ++ [c]).length := by simp
    by_cases hc : c = t
    · subst hc
      simp only [List.count_cons_self]
      cases k with
      | succ k =>
        cases fuel with
        | zero => exact ⟨fun _ => rfl, by simp⟩
        | succ n =>
          simp only [replaceLoop, findFrom_hit]
          rw [e, l]
          constructor
          · intro h; exact (ih (done ++ [c]) n k).1 (by omega)
          · intro h1 h2
            exact (ih (done ++ [c]) n k).2 (by omega) (by simpa using h2)
      | zero =>
        refine ⟨fun _ => ?_, by simp⟩
        induction fuel with
        | zero => rfl
        | succ n ihn =>
          simp only [replaceLoop, findFrom_hit]
          have hset : (done ++ c :: cs).set done.length c = done ++ c :: cs := by
            rw [List.set_append_right _ _ (Nat.le_refl _)]; simp
          rw [hset]; exact ihn
    · rw [List.count_cons_of_ne (by simpa using hc)]
      rw [replaceLoop_skip t t fuel done c cs k hc, e, l]
      constructor
      · intro h; exact (ih (done ++ [c]) fuel k).1 h
      · intro h1 h2
        simp only [List.length_cons] at h2
        exact (ih (done ++ [c]) fuel k).2 h1 (by omega)

/-! ## reverse replace -/

/-- the position argument as an exclusive bound -/
def bound (s : List Char) : Option Nat → Nat
  | none => s.length
  | some p => min (p + 1) s.length

theorem rfind_bound (s : List Char) (c : Char) (pos : Option Nat) :
    rfind s c pos = lastBelow s c (bound s pos) := by
  cases pos <;> rfl

/-- the loop expressed with an exclusive bound -/
def rloop (t r : Char) : Nat → List Char → Nat → Nat → Option (List Char)
  | 0, _, _, _ => none
  | fuel + 1, s, n, skip =>
    match lastBelow s t n with
    | none => some s
    | some p =>
      match skip with
      | k + 1 => rloop t r fuel s (if p = 0 then s.length else p) k
      | 0 => rloop t r fuel (s.set p r) (p + 1) 0

theorem lastBelow_lt {s : List Char} {c : Char} {n p : Nat} (h : lastBelow s c n = some p) :
    p < n ∧ s[p]? = some c := by
  induction n with
  | zero => simp [lastBelow] at h
  | succ n ih =>
    unfold lastBelow at h
    split at h
    · simp at h; subst h; exact ⟨by omega, by assumption⟩
    · have := ih h; exact ⟨by omega, this.2⟩

theorem rloop_eq (t r : Char) (fuel : Nat) (s : List Char) (pos : Option Nat) (skip : Nat) :
    replaceReverseLoop t r fuel s pos skip = rloop t r fuel s (bound s pos) skip := by
  induction fuel generalizing s pos skip with
  | zero => rfl
  | succ n ih =>
    simp only [replaceReverseLoop, rloop, rfind_bound]
    cases hp : lastBelow s t (bound s pos) with
    | none => rfl
    | some p =>
      have hlt := lastBelow_lt hp
      have hpl : p < s.length := (List.getElem?_eq_some_iff.1 hlt.2).1
      cases skip with
      | succ k =>
        simp only [ih]
        congr 1
        cases p with
        | zero => simp [decPos, bound]
        | succ q => simp [decPos, bound]; omega
      | zero =>
        simp only [ih]
        congr 1
        simp [bound]; omega

theorem get_rev_last (rest done : List Char) (c : Char) :
    ((c :: rest).reverse ++ done)[rest.length]? = some c := by
  simp

theorem lastBelow_hit (rest done : List Char) (t : Char) :
    lastBelow ((t :: rest).reverse ++ done) t (rest.length + 1) = some rest.length := by
  rw [lastBelow, if_pos (get_rev_last rest done t)]

theorem lastBelow_skip (rest done : List Char) (c t : Char) (h : c ≠ t) :
    lastBelow ((c :: rest).reverse ++ done) t (rest.length + 1) =
      lastBelow ((c :: rest).reverse ++ done) t rest.length := by
  rw [lastBelow, get_rev_last, if_neg (by simpa using h)]

theorem rloop_skip (t r : Char) (fuel : Nat) (rest done : List Char) (c : Char) (k : Nat) (h : c ≠ t) :
    rloop t r fuel ((c :: rest).reverse ++ done) (rest.length + 1) k =
      rloop t r fuel ((c :: rest).reverse ++ done) rest.length k := by
  cases fuel with
  | zero => rfl
  | succ n => simp only [rloop, lastBelow_skip rest done c t h]

/-- no wrap-around: `rest` is the reversed part still to be searched -/
theorem rloop_spec (t r : Char) (htr : t ≠ r) (rest : List Char) :
    ∀ (done : List Char) (fuel k : Nat), rest.length < fuel →
      (rest.getLast? ≠ some t ∨ k < rest.count t) →
      rloop t r fuel (rest.reverse ++ done) rest.length k =
        some ((replaceSpec t r k rest).reverse ++ done) := by
  induction rest with
  | nil =>
    intro done fuel k hf _
    obtain ⟨n, rfl⟩ : ∃ n, fuel = n + 1 := ⟨fuel - 1, by simp at hf; omega⟩
    simp [rloop, lastBelow, replaceSpec]
  | cons c cs ih =>
    intro done fuel k hf hw
    simp only [List.length_cons] at hf
    have e : ∀ d : Char, (d :: cs).reverse ++ done = cs.reverse ++ (d :: done) := by simp
    simp only [List.length_cons]
    by_cases hc : c = t
    · subst hc
      obtain ⟨n, rfl⟩ : ∃ n, fuel = n + 1 := ⟨fuel - 1, by omega⟩
      simp only [rloop, lastBelow_hit]
      cases k with
      | succ k =>
        simp only
        have hcs : cs ≠ [] := by
          rintro rfl
          rcases hw with hw | hw
          · simp at hw
          · simp at hw
        have hl : cs.length ≠ 0 := by simpa using hcs
        rw [if_neg hl, e c, ih (c :: done) n k (by omega)]
        · simp [replaceSpec]
        · rcases hw with hw | hw
          · left
            rw [List.getLast?_cons_of_ne_nil hcs] at hw
            exact hw
          · right
            simp only [List.count_cons_self] at hw; omega
      | zero =>
        simp only
        have hset : ((c :: cs).reverse ++ done).set cs.length r = (r :: cs).reverse ++ done := by
          rw [e c, e r]
          rw [List.set_append_right _ _ (by simp)]
          simp
        rw [hset, rloop_skip c r n cs done r 0 (Ne.symm htr), e r]
        by_cases hcs : cs.getLast? ≠ some c ∨ 0 < cs.count c
        · rw [ih (r :: done) n 0 (by omega) hcs]
          simp [replaceSpec]
        · exfalso
          simp only [ne_eq, not_or, Decidable.not_not] at hcs
          have : c ∈ cs := List.mem_of_getLast? hcs.1
          have := List.count_pos_iff.2 this
          exact hcs.2 this
    · rw [rloop_skip t r fuel cs done c k hc, e c, ih (c :: done) fuel k (by omega)]
      · have : replaceSpec t r k (c :: cs) = c :: replaceSpec t r k cs := by
          cases k <;> simp [replaceSpec, hc]
        rw [this]; simp
      · by_cases hcs : cs = []
        · subst hcs; left; simp
        · rcases hw with hw | hw
          · left; rw [List.getLast?_cons_of_ne_nil hcs] at hw; exact hw
          · right; rwa [List.count_cons_of_ne (by simpa using hc)] at hw

/-- wrap-around: an occurrence at position 0 and too many skips: the search starts over -/
theorem rloop_wrap (t r : Char) (rest : List Char) :
    ∀ (done : List Char) (fuel k : Nat), rest.getLast? = some t → rest.count t ≤ k →
      rloop t r (fuel + rest.count t) (rest.reverse ++ done) rest.length k =
        rloop t r fuel (rest.reverse ++ done) (rest.reverse ++ done).length (k - rest.count t) := by
  induction rest with
  | nil => intro done fuel k h; simp at h
  | cons c cs ih =>
    intro done fuel k hl hk
    have e : (c :: cs).reverse ++ done = cs.reverse ++ (c :: done) := by simp
    by_cases hc : c = t
    · subst hc
      simp only [List.count_cons_self] at hk ⊢
      obtain ⟨k, rfl⟩ : ∃ j, k = j + 1 := ⟨k - 1, by omega⟩
      rw [show fuel + (cs.count c + 1) = (fuel + cs.count c) + 1 by omega]
      simp only [rloop, List.length_cons, lastBelow_hit]
      by_cases hcs : cs = []
      · subst hcs; simp
      · have hlen : cs.length ≠ 0 := by simpa using hcs
        rw [if_neg hlen]
        rw [List.getLast?_cons_of_ne_nil hcs] at hl
        rw [e, ih (c :: done) fuel k hl (by omega)]
        congr 1; omega
    · have hcs : cs ≠ [] := by
        rintro rfl
        simp at hl; exact hc hl
      rw [List.getLast?_cons_of_ne_nil hcs] at hl
      rw [List.count_cons_of_ne (by simpa using hc)] at hk ⊢
      rw [List.length_cons, rloop_skip t r _ cs done c k hc, e, ih (c :: done) fuel k hl hk]

/-! ## environment substitution -/

theorem findFrom_add (a b : List Char) (c : Char) (i : Nat) :
    findFrom (a ++ b) c (a.length + i) = (findFrom b c i).map (a.length + ·) := by
  unfold findFrom
  have hd : (a ++ b).drop (a.length + i) = b.drop i := by
    rw [List.drop_append]; simp
  rw [hd]
  simp only [Option.map_map]
  congr 1
  funext x; simp; omega

theorem go_cons (c : Char) (cs : List Char) (i : Nat)
    (h : ∀ rest, c :: cs ≠ '$' :: '(' :: rest) :
    findDollar.go (c :: cs) i = findDollar.go cs (i + 1) := by
  rw [findDollar.go]
  intro rest h1 h2
  exact h rest (by rw [h1, h2])

theorem go_shift (s : List Char) (i j : Nat) :
    findDollar.go s (i + j) = (findDollar.go s i).map (j + ·) := by
  induction s generalizing i with
  | nil => simp [findDollar.go]
  | cons c cs ih =>
    by_cases hd : ∃ rest, c :: cs = '$' :: '(' :: rest
    · obtain ⟨rest, hr⟩ := hd
      rw [hr]
      simp [findDollar.go]; omega
    · have hd' : ∀ rest, c :: cs ≠ '$' :: '(' :: rest := fun rest h => hd ⟨rest, h⟩
      rw [go_cons c cs _ hd', go_cons c cs _ hd', ← ih (i + 1)]
      congr 1; omega

theorem splitParen_find (s : List Char) :
    match splitParen s with
    | none => s.findIdx? (· == ')') = none
    | some (a, b) => s.findIdx? (· == ')') = some a.length ∧ s = a ++ ')' :: b := by
  induction s with
  | nil => simp [splitParen]
  | cons c cs ih =>
    unfold splitParen
    by_cases hc : c = ')'
    · subst hc; simp [List.findIdx?_cons]
    · rw [if_neg hc]
      cases hs : splitParen cs with
      | none =>
        rw [hs] at ih
        simp only [Option.map_none, List.findIdx?_cons, beq_iff_eq, hc, if_false, ih]
      | some p =>
        obtain ⟨a, b⟩ := p
        rw [hs] at ih
        simp only at ih
        simp only [Option.map_some, List.findIdx?_cons, beq_iff_eq, hc, if_false, ih.1,
          Option.map_some]
        refine ⟨by simp, ?_⟩
        rw [ih.2]; simp

/-- one unfolding of `expand` at a character that does not start a reference -/
theorem expand_cons (env : List Char → Option (List Char)) (c : Char) (cs : List Char)
    (h : ∀ rest, c :: cs ≠ '$' :: '(' :: rest) : expand env (c :: cs) = c :: expand env cs := by
  rw [expand]
  intro rest h1 h2
  exact h rest (by rw [h1, h2])

/-- where the next reference starts: everything before is copied -/
theorem find_expand (env : List Char → Option (List Char)) (s : List Char) :
    match findDollar.go s 0 with
    | none => expand env s = s
    | some i => ∃ rest, s.drop i = '$' :: '(' :: rest ∧ i ≤ s.length ∧
        expand env s = s.take i ++ expand env ('$' :: '(' :: rest) := by
  induction s with
  | nil => simp [findDollar.go, expand]
  | cons c cs ih =>
    by_cases hd : ∃ rest, c :: cs = '$' :: '(' :: rest
    · obtain ⟨rest, hr⟩ := hd
      rw [hr]
      simp [findDollar.go]
    · have hd' : ∀ rest, c :: cs ≠ '$' :: '(' :: rest := fun rest h => hd ⟨rest, h⟩
      rw [go_cons c cs 0 hd', expand_cons env c cs hd']
      have hsh := go_shift cs 0 1
      rw [hsh]
      cases hg : findDollar.go cs 0 with
      | none => rw [hg] at ih; simp only [Option.map_none]; rw [ih]
      | some i =>
        rw [hg] at ih
        obtain ⟨rest, h1, h2, h3⟩ := ih
        simp only [Option.map_some]
        refine ⟨rest, ?_, ?_, ?_⟩
        · rw [Nat.add_comm]; simpa using h1
        · simp; omega
        · rw [Nat.add_comm, h3]; simp

theorem expand_ref_none (env : List Char → Option (List Char)) (rest : List Char)
    (h : splitParen rest = none) : expand env ('$' :: '(' :: rest) = '$' :: '(' :: rest := by
  rw [expand]
  split
  · rfl
  · rename_i heq; rw [h] at heq; simp at heq

theorem expand_ref_some (env : List Char → Option (List Char)) (rest name after : List Char)
    (h : splitParen rest = some (name, after)) :
    expand env ('$' :: '(' :: rest) =
      match env name with
      | some v => v ++ expand env after
      | none => ['$', '('] ++ name ++ [')'] ++ expand env after := by
  rw [expand]
  split
  · rename_i heq; rw [h] at heq; simp at heq
  · rename_i n a heq
    rw [h] at heq
    simp only [Option.some.injEq, Prod.mk.injEq] at heq
    obtain ⟨rfl, rfl⟩ := heq
    rfl

theorem envLoop_spec (env : List Char → Option (List Char)) (n : Nat) :
    ∀ (b a out : List Char) (pidx fuel : Nat), b.length ≤ n → pidx ≤ a.length → b.length < fuel →
      envLoop env fuel (a ++ b) a.length pidx out =
        some (out ++ a.drop pidx ++ expand env b) := by
  induction n with
  | zero =>
    intro b a out pidx fuel hn hp hf
    have hb : b = [] := by simpa using hn
    subst hb
    obtain ⟨m, rfl⟩ : ∃ m, fuel = m + 1 := ⟨fuel - 1, by simp at hf; omega⟩
    simp [envLoop, findDollar, findDollar.go, expand]
  | succ n ih =>
    intro b a out pidx fuel hn hp hf
    obtain ⟨m, rfl⟩ : ∃ m, fuel = m + 1 := ⟨fuel - 1, by omega⟩
    have hfd : findDollar (a ++ b) a.length = (findDollar.go b 0).map (a.length + ·) := by
      unfold findDollar
      rw [List.drop_left]
      have := go_shift b 0 a.length
      simpa using this
    have hdrop : (a ++ b).drop pidx = a.drop pidx ++ b := by
      rw [List.drop_append_of_le_length hp]
    have hfe := find_expand env b
    simp only [envLoop, hfd]
    cases hg : findDollar.go b 0 with
    | none =>
      rw [hg] at hfe
      simp only at hfe
      simp [hfe, hdrop]
    | some i =>
      rw [hg] at hfe
      obtain ⟨rest, h1, h2, h3⟩ := hfe
      simp only [Option.map_some]
      have hb : b = b.take i ++ '$' :: '(' :: rest := by rw [← h1, List.take_append_drop]
      have hlenb : b.length = i + 2 + rest.length := by
        have := congrArg List.length hb
        simp only [List.length_append, List.length_take, List.length_cons] at this
        omega
      have hsp := splitParen_find rest
      have hff : findFrom (a ++ b) ')' (a.length + i) =
          (rest.findIdx? (· == ')')).map (fun x => a.length + i + 2 + x) := by
        rw [findFrom_add, findFrom, h1]
        simp only [List.findIdx?_cons]
        have e1 : ('$' == ')') = false := by decide
        have e2 : ('(' == ')') = false := by decide
        simp only [e1, e2, Bool.false_eq_true, if_false, Option.map_map]
        congr 1
        funext x; simp; omega
      rw [hff]
      cases hs : splitParen rest with
      | none =>
        rw [hs] at hsp
        simp only at hsp
        simp only [hsp, Option.map_none]
        rw [h3, expand_ref_none env rest hs, hdrop, ← hb]
        simp
      | some p =>
        obtain ⟨name, after⟩ := p
        rw [hs] at hsp
        simp only at hsp
        obtain ⟨hidx, hrest⟩ := hsp
        simp only [hidx, Option.map_some]
        have hlenr : rest.length = name.length + 1 + after.length := by
          rw [hrest]; simp; omega
        have hname : ((a ++ b).drop (a.length + i + 2)).take
            (a.length + i + 2 + name.length - (a.length + i) - 2) = name := by
          have : a.length + i + 2 + name.length - (a.length + i) - 2 = name.length := by omega
          rw [this, Nat.add_assoc a.length i 2, ← List.drop_drop, List.drop_left]
          rw [← List.drop_drop, h1]
          simp [hrest]
        rw [hname]
        have hsplit : a ++ b = (a ++ (b.take i ++ ['$', '('] ++ name ++ [')'])) ++ after := by
          conv => lhs; rw [hb, hrest]
          simp
        have hlen2 : a.length + i + 2 + name.length + 1 =
            (a ++ (b.take i ++ ['$', '('] ++ name ++ [')'])).length := by
          simp; omega
        rw [h3, expand_ref_some env rest name after hs]
        cases he : env name with
        | some v =>
          simp only
          conv => lhs; rw [hlen2]
          have htake : ((a ++ b).drop pidx).take (a.length + i - pidx) = a.drop pidx ++ b.take i := by
            rw [hdrop, List.take_append]
            have : a.length + i - pidx - (a.drop pidx).length = i := by simp; omega
            rw [this, List.take_of_length_le (by simp; omega)]
          rw [htake, hsplit, ih after _ _ _ m (by omega) (by omega) (by omega)]
          simp
        | none =>
          simp only
          rw [hlen2, hsplit, ih after _ _ _ m (by omega) (by simp; omega) (by omega)]
          rw [List.drop_append_of_le_length hp]
          simp

end Verif.Strings
