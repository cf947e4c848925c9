/-!
# Model of sm_common/include/sm/serialization_macros.hpp: what `SM_CHECKSAME` / `SM_CHECKMEMBERSSAME` mean in an expression

The macros paste *text* into the surrounding expression, so their meaning depends on how C++ groups `&&` and
`? :`.  The model therefore works on token lists: the expansion of a macro is a token list, a parser for the
fragment of the C++ grammar that occurs (conditional-expression, logical-and-expression, primary-expression;
[expr.cond], [expr.log.and]) builds the expression tree, and an evaluator with short circuits runs it.
-/

namespace Verif.Serial

/-- tokens; the sub-expressions without `&&`, `?`, `:` at the top level are single tokens -/
inductive Tok
  | lp | rp | and | quest | colon
  /-- a boolean operand that is evaluated without effects: `true`, `false`, the call of `isSame<…>::eval`, … -/
  | val (b : Bool)
  /-- `IS_CHECKSAME_CURRENTLY_VERBOSE` (serialization_macros.hpp:310-311) -/
  | verbose
  /-- `SET_CHECKSAME_VERBOSITY(v)` (313-314), which sets the flag and returns `true` (289-292) -/
  | setVerbose (v : Bool)
  /-- the chain of `std::cout << …` that reports a failed check; used as a condition it is true while the stream is
  good -/
  | report (member : Nat)
  deriving DecidableEq, Repr

/-- expression trees -/
inductive Expr
  | val (b : Bool)
  | verbose
  | setVerbose (v : Bool)
  | report (member : Nat)
  | and (a b : Expr)
  | cond (c t e : Expr)
  deriving DecidableEq, Repr

mutual
/-- primary-expression: an operand or a parenthesised expression -/
def parsePrim : Nat → List Tok → Option (Expr × List Tok)
  | 0, _ => none
  | f + 1, ts =>
    match ts with
    | .val b :: r => some (.val b, r)
    | .verbose :: r => some (.verbose, r)
    | .setVerbose v :: r => some (.setVerbose v, r)
    | .report m :: r => some (.report m, r)
    | .lp :: r =>
      match parseCond f r with
      | some (e, .rp :: r') => some (e, r')
      | _ => none
    | _ => none

/-- logical-and-expression: operands joined by `&&` (grouped to the right here: `&&` is associative, with its
short circuit) -/
def parseAnd : Nat → List Tok → Option (Expr × List Tok)
  | 0, _ => none
  | f + 1, ts =>
    match parsePrim f ts with
    | some (e, .and :: r) =>
      match parseAnd f r with
      | some (e', r') => some (.and e e', r')
      | none => none
    | x => x

/-- conditional-expression: `logical-and ? expression : conditional-expression`; `&&` binds tighter than `?:`,
and `?:` groups to the right -/
def parseCond : Nat → List Tok → Option (Expr × List Tok)
  | 0, _ => none
  | f + 1, ts =>
    match parseAnd f ts with
    | some (c, .quest :: r) =>
      match parseCond f r with
      | some (t, .colon :: r') =>
        match parseCond f r' with
        | some (e, r'') => some (.cond c t e, r'')
        | none => none
      | _ => none
    | x => x
end

/-- the state an expression can touch: the verbosity flag and the reports written to `std::cout` so far -/
structure St where
  verbose : Bool
  out : List Nat
  deriving DecidableEq, Repr

/-- evaluation, left to right with short circuits -/
def Expr.eval : Expr → St → Bool × St
  | .val b, s => (b, s)
  | .verbose, s => (s.verbose, s)
  | .setVerbose v, s => (true, { s with verbose := v })
  | .report m, s => (true, { s with out := s.out ++ [m] })
  | .and a b, s =>
    match a.eval s with
    | (true, s') => b.eval s'
    | (false, s') => (false, s')
  | .cond c t e, s =>
    match c.eval s with
    | (true, s') => t.eval s'
    | (false, s') => e.eval s'

/-- compile and run an expression given as tokens; `none` if it is not an expression of the grammar (then the
program does not compile) -/
def run (ts : List Tok) (s : St) : Option (Bool × St) :=
  match parseCond (8 * ts.length + 8) ts with
  | some (e, []) => some (e.eval s)
  | _ => none

/-- the second half of both macros (337-351, 367-378): the report if verbose, and false -/
def failPart (i : Nat) : List Tok :=
  [.lp, .verbose, .quest, .lp, .report i, .rp, .and, .val false, .colon, .val false, .rp]

/-- the expansion of `SM_CHECKSAME(THIS, OTHER)` (326-351); `b` is the result of the comparison
`isSame<…>::eval(THIS, OTHER)`, `i` tells reports apart.  `checkTypeIsNotOpencvMat<…>::value` is true in every program
that compiles (201-231). -/
def checkSame (i : Nat) (b : Bool) : List Tok :=
  [.lp, .val true, .and, .val b, .rp, .quest, .val true, .colon] ++ failPart i

/-- the expansion of `SM_CHECKSAME(THIS, OTHER, VERBOSE)` (322-324) -/
def checkSameV (i : Nat) (b v : Bool) : List Tok := [.setVerbose v, .and] ++ checkSame i b

/-- the expansion of `SM_CHECKMEMBERSSAME(OTHER, MEMBER)` (357-378) -/
def checkMember (i : Nat) (b : Bool) : List Tok :=
  [.lp, .lp, .val true, .rp, .and, .lp, .val b, .rp, .rp, .quest, .val true, .colon] ++ failPart i

/-- the expansion of `SM_CHECKMEMBERSSAME(OTHER, MEMBER, VERBOSE)` (353-355), whose first parenthesis is never closed -/
def checkMemberV (i : Nat) (b v : Bool) : List Tok := [.lp, .setVerbose v, .and] ++ checkMember i b

/-- operands joined by `&&`, as text -/
def joinAnd : List (List Tok) → List Tok
  | [] => []
  | [x] => x
  | x :: y :: r => x ++ .and :: joinAnd (y :: r)

end Verif.Serial
