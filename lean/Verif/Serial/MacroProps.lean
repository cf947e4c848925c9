import Verif.Serial.Macro

/-!
# C74: what a conjunction of `SM_CHECKSAME` / `SM_CHECKMEMBERSSAME` tests

The expansion of the macros is not enclosed in parentheses, so in `SM_CHECKMEMBERSSAME(rhs, a) && SM_CHECKMEMBERSSAME(rhs, b)`
the second check ends up in the "else" branch of the first: the conjunction is the value of its first check.
-/

namespace Verif.Serial

/-- which of the two macros -/
inductive Kind
  | same
  | member
  deriving DecidableEq, Repr

/-- one use of a macro: its kind, the number of the report, the result of its comparison -/
structure Check where
  kind : Kind
  id : Nat
  eq : Bool
  deriving DecidableEq, Repr

def Check.toks (c : Check) : List Tok :=
  match c.kind with
  | .same => checkSame c.id c.eq
  | .member => checkMember c.id c.eq

/-! ## Parsing -/

/-- the parenthesised first part of a macro -/
def Check.head (c : Check) : List Tok :=
  match c.kind with
  | .same => [.lp, .val true, .and, .val c.eq, .rp]
  | .member => [.lp, .lp, .val true, .rp, .and, .lp, .val c.eq, .rp, .rp]

theorem Check.toks_eq (c : Check) : c.toks = c.head ++ (.quest :: .val true :: .colon :: failPart c.id) := by
  obtain ⟨k, i, b⟩ := c
  cases k <;> rfl

def failE (i : Nat) : Expr := .cond .verbose (.and (.report i) (.val false)) (.val false)

theorem prim_head (c : Check) (f : Nat) (rest : List Tok) :
    parsePrim (f + 12) (c.head ++ rest) = some (.and (.val true) (.val c.eq), rest) := by
  obtain ⟨k, i, b⟩ := c
  cases k <;> rfl

theorem prim_fail (i : Nat) (f : Nat) (rest : List Tok) : parsePrim (f + 12) (failPart i ++ rest) = some (failE i, rest) := rfl

/-- the text after the first operand: `&&` and a macro, again and again -/
def tailToks : List Check → List Tok
  | [] => []
  | c :: r => .and :: c.toks ++ tailToks r

/-- its meaning after an operand `p` -/
def tailE (p : Expr) : List Check → Expr
  | [] => p
  | c :: r => .cond (.and p (.and (.val true) (.val c.eq))) (.val true) (tailE (failE c.id) r)

theorem parse_tail (cs : List Check) (P : List Tok) (p : Expr)
    (hP : ∀ f rest, parsePrim (f + 12) (P ++ rest) = some (p, rest)) (f : Nat) :
    parseCond (f + 16 + cs.length) (P ++ tailToks cs) = some (tailE p cs, []) := by
  induction cs generalizing P p f with
  | nil =>
    have h1 := hP (f + 2) []
    have e : f + 16 = (f + 2 + 12) + 1 + 1 := by omega
    simp only [List.length_nil, Nat.add_zero, tailToks, tailE]
    rw [e, parseCond, parseAnd, h1]
  | cons c r ih =>
    have h1 := hP (f + 2 + r.length + 1) (.and :: c.toks ++ tailToks r)
    have h2 := prim_head c (f + 2 + r.length) (.quest :: .val true :: .colon :: failPart c.id ++ tailToks r)
    have h3 := ih (failPart c.id) (failE c.id) (prim_fail c.id) f
    have e : f + 16 + (c :: r).length = (f + 16 + r.length) + 1 := by simp; omega
    have e1 : f + 16 + r.length = (f + 2 + r.length + 1 + 12) + 1 := by omega
    have e2 : f + 2 + r.length + 1 + 12 = (f + 2 + r.length + 12) + 1 := by omega
    have hand : parseAnd (f + 16 + r.length) (P ++ tailToks (c :: r)) =
        some (.and p (.and (.val true) (.val c.eq)), .quest :: .val true :: .colon :: failPart c.id ++ tailToks r) := by
      rw [e1, parseAnd]
      simp only [tailToks]
      rw [h1]
      simp only [List.cons_append]
      rw [e2, parseAnd, Check.toks_eq, List.append_assoc]
      simp only [List.cons_append] at h2 ⊢
      rw [h2]
    have htrue : parseCond (f + 16 + r.length) (.val true :: .colon :: (failPart c.id ++ tailToks r)) =
        some (.val true, .colon :: (failPart c.id ++ tailToks r)) := by
      rw [show f + 16 + r.length = (f + 13 + r.length) + 1 + 1 + 1 by omega]
      rfl
    rw [e, parseCond, hand]
    simp only [List.cons_append]
    rw [htrue]
    simp only []
    rw [h3]
    rfl

theorem parse_chain (c : Check) (cs : List Check) (f : Nat) :
    parseCond (f + 17 + cs.length) (c.toks ++ tailToks cs) =
      some (.cond (.and (.val true) (.val c.eq)) (.val true) (tailE (failE c.id) cs), []) := by
  have h2 := prim_head c (f + 3 + cs.length) (.quest :: .val true :: .colon :: failPart c.id ++ tailToks cs)
  have h3 := parse_tail cs (failPart c.id) (failE c.id) (prim_fail c.id) f
  have e : f + 17 + cs.length = (f + 16 + cs.length) + 1 := by omega
  have hand : parseAnd (f + 16 + cs.length) (c.toks ++ tailToks cs) =
      some (.and (.val true) (.val c.eq), .quest :: .val true :: .colon :: failPart c.id ++ tailToks cs) := by
    rw [show f + 16 + cs.length = (f + 3 + cs.length + 12) + 1 by omega, parseAnd, Check.toks_eq, List.append_assoc]
    simp only [List.cons_append] at h2 ⊢
    rw [h2]
  have htrue : parseCond (f + 16 + cs.length) (.val true :: .colon :: (failPart c.id ++ tailToks cs)) =
      some (.val true, .colon :: (failPart c.id ++ tailToks cs)) := by
    rw [show f + 16 + cs.length = (f + 13 + cs.length) + 1 + 1 + 1 by omega]
    rfl
  rw [e, parseCond, hand]
  simp only [List.cons_append]
  rw [htrue]
  simp only []
  rw [h3]

theorem join_eq (c : Check) (cs : List Check) : joinAnd ((c :: cs).map Check.toks) = c.toks ++ tailToks cs := by
  induction cs generalizing c with
  | nil => simp [joinAnd, tailToks]
  | cons d r ih =>
    have := ih d
    simp only [List.map_cons] at this ⊢
    rw [joinAnd, this]
    simp [tailToks]

theorem length_toks (c : Check) : 19 ≤ c.toks.length := by
  obtain ⟨k, i, b⟩ := c
  cases k <;> simp [Check.toks, checkSame, checkMember, failPart]

theorem length_tail (cs : List Check) : 20 * cs.length ≤ (tailToks cs).length := by
  induction cs with
  | nil => simp [tailToks]
  | cons c r ih =>
    have := length_toks c
    simp [tailToks]
    omega

/-! ## Evaluation -/

/-- the reports of the checks `cs` if verbose -/
def reports (s : St) (cs : List Check) : St := { s with out := s.out ++ (if s.verbose then cs.map Check.id else []) }

theorem eval_fail (i : Nat) (s : St) : (failE i).eval s = (false, { s with out := s.out ++ (if s.verbose then [i] else []) }) := by
  obtain ⟨v, o⟩ := s
  cases v <;> simp [failE, Expr.eval]

theorem eval_tail (i : Nat) (cs : List Check) (s : St) :
    (tailE (failE i) cs).eval s =
      (false, { s with out := s.out ++ (if s.verbose then i :: cs.map Check.id else []) }) := by
  induction cs generalizing i s with
  | nil => rw [tailE, eval_fail]; simp
  | cons c r ih =>
    rw [tailE, Expr.eval, Expr.eval, eval_fail]
    simp only []
    rw [ih]
    obtain ⟨v, o⟩ := s
    cases v <;> simp

/-! ## The property -/

/-- what the conjunction of checks should do: true iff every comparison succeeds, up to the first that fails,
which is reported if the verbosity is on -/
def C74_claim : Prop := ∀ (cs : List Check), cs ≠ [] → ∀ s,
  ∃ s', run (joinAnd (cs.map Check.toks)) s = some (cs.all Check.eq, s')

/-- **C74, what holds**: the conjunction of any number of checks, with any mixture of the two macros, compiles,
and its value is the value of its *first* comparison; if that fails and the verbosity is on, *all* the checks are
reported as failed, in order. -/
theorem C74_first_partial (c : Check) (cs : List Check) (s : St) :
    run (joinAnd ((c :: cs).map Check.toks)) s =
      some (c.eq, if c.eq then s else { s with out := s.out ++ (if s.verbose then (c :: cs).map Check.id else []) }) := by
  rw [join_eq]
  have hl : 17 + cs.length ≤ 8 * (c.toks ++ tailToks cs).length + 8 := by
    have h1 := length_toks c
    have h2 := length_tail cs
    rw [List.length_append]
    omega
  obtain ⟨f, hf⟩ : ∃ f, 8 * (c.toks ++ tailToks cs).length + 8 = f + 17 + cs.length :=
    ⟨8 * (c.toks ++ tailToks cs).length + 8 - (17 + cs.length), by omega⟩
  unfold run
  rw [hf, parse_chain]
  simp only [Expr.eval]
  cases h : c.eq
  · simp only []
    rw [eval_tail]
    simp
  · simp

/-- **C74** the claim is false: a conjunction of two checks is true although the second comparison fails. -/
theorem C74_negation : ¬ C74_claim := by
  intro h
  obtain ⟨s', h'⟩ := h [⟨.member, 0, true⟩, ⟨.member, 1, false⟩] (by simp) ⟨false, []⟩
  rw [C74_first_partial] at h'
  simp at h'

/-- **C74, what holds**: a single check means what it says, and so does a check after one other operand
(`same && SM_CHECKMEMBERSSAME(…)`, the form used in the unit tests), with exactly one report per failure. -/
theorem C74_single_partial (c : Check) (x : Bool) (s : St) :
    run c.toks s = some (c.eq, if c.eq || !s.verbose then s else { s with out := s.out ++ [c.id] }) ∧
    run (.val x :: .and :: c.toks) s =
      some (x && c.eq, if (x && c.eq) || !s.verbose then s else { s with out := s.out ++ [c.id] }) := by
  constructor
  · have := C74_first_partial c [] s
    simp only [List.map_cons, List.map_nil, joinAnd] at this
    rw [this]
    obtain ⟨v, o⟩ := s
    cases v <;> cases c.eq <;> simp
  · have hP : ∀ f rest, parsePrim (f + 12) ([Tok.val x] ++ rest) = some (.val x, rest) := fun _ _ => rfl
    have h1 := parse_tail [c] [.val x] (.val x) hP
    have ht : [Tok.val x] ++ tailToks [c] = .val x :: .and :: c.toks := by simp [tailToks]
    rw [ht] at h1
    unfold run
    obtain ⟨f, hf⟩ : ∃ f, 8 * (Tok.val x :: Tok.and :: c.toks).length + 8 = f + 16 + [c].length :=
      ⟨8 * (Tok.val x :: Tok.and :: c.toks).length + 8 - 17, by simp; omega⟩
    rw [hf, h1]
    simp only [tailE, Expr.eval]
    obtain ⟨v, o⟩ := s
    cases x <;> cases c.eq <;> cases v <;> simp [eval_fail]

/-- **C74** the forms with an explicit verbosity: `SM_CHECKSAME(a, b, v)` sets the verbosity and then does the
check; `SM_CHECKMEMBERSSAME(o, m, v)` does not compile, wherever a closing parenthesis is not supplied by luck. -/
theorem C74_verbose_partial (i : Nat) (b v : Bool) (s : St) :
    run (checkSameV i b v) s =
      some (b, if b || !v then { s with verbose := v } else { verbose := v, out := s.out ++ [i] }) ∧
    run (checkMemberV i b v) s = none := by
  obtain ⟨w, o⟩ := s
  constructor
  · cases b <;> cases v <;> rfl
  · cases b <;> cases v <;> rfl

/-- Concrete: three members, the last two different, silent and verbose. -/
example : run (joinAnd [checkMember 0 true, checkMember 1 false, checkMember 2 false]) ⟨true, []⟩ = some (true, ⟨true, []⟩) ∧
    run (joinAnd [checkMember 0 false, checkMember 1 true, checkMember 2 true]) ⟨true, []⟩ = some (false, ⟨true, [0, 1, 2]⟩) ∧
    run (.val true :: .and :: checkMember 1 false) ⟨false, []⟩ = some (false, ⟨false, []⟩) := by
  decide

end Verif.Serial
