import Verif.Common.Strings

/-!
# Specification of the string routines (C16, C17, C18)
-/

namespace Verif.Strings

/-- Keep the first `skip` occurrences of `t`, replace all later ones by `r`. -/
def replaceSpec (t r : Char) : Nat → List Char → List Char
  | _, [] => []
  | skip, c :: cs =>
    if c = t then
      match skip with
      | k + 1 => c :: replaceSpec t r k cs
      | 0 => r :: replaceSpec t r 0 cs
    else c :: replaceSpec t r skip cs

/-- The same counting from the end of the string. -/
def replaceReverseSpec (t r : Char) (skip : Nat) (s : List Char) : List Char :=
  (replaceSpec t r skip s.reverse).reverse

/-- Split at the first `)`: `(before, after)`. -/
def splitParen : List Char → Option (List Char × List Char)
  | [] => none
  | c :: cs => if c = ')' then some ([], cs) else (splitParen cs).map fun p => (c :: p.1, p.2)

theorem splitParen_length {s a b : List Char} (h : splitParen s = some (a, b)) :
    b.length < s.length := by
  induction s generalizing a b with
  | nil => simp [splitParen] at h
  | cons c cs ih =>
    unfold splitParen at h
    split at h
    · simp at h; rw [h.2]; simp
    · cases hs : splitParen cs with
      | none => simp [hs] at h
      | some p =>
        simp only [hs, Option.map_some, Option.some.injEq, Prod.mk.injEq] at h
        have := ih (a := p.1) (b := p.2) (by rw [hs])
        rw [← h.2]; simp; omega

/-- Expansion of `$(NAME)` references, read left to right. -/
def expand (env : List Char → Option (List Char)) : List Char → List Char
  | [] => []
  | '$' :: '(' :: rest =>
    match h : splitParen rest with
    | none => '$' :: '(' :: rest
    | some (name, after) =>
      have := splitParen_length h
      match env name with
      | some v => v ++ expand env after
      | none => ['$', '('] ++ name ++ [')'] ++ expand env after
  | c :: cs => c :: expand env cs
termination_by s => s.length
decreasing_by all_goals (simp; try omega)

end Verif.Strings
