import Mathlib.Data.Int.Basic

/-!
# Model of `SM_ASSERT`, `SM_ASSERT_MSG` and `SM_ASSERT_CMD` (sm_logging/include/sm/logging/assert.h)

`SM_ASSERT_CMD` pastes its argument behind a `!` without parentheses, so what it tests depends on how C++ groups the tokens.
The model has the tokens of conditions, a parser with the precedences of C++ ([expr.unary], [expr.rel], [expr.eq],
[expr.log.and], [expr.log.or]) and an evaluator.  Operands are integers without side effects.
-/

namespace Verif.Assert

/-- binary operators in conditions -/
inductive Op
  | gt | lt | ge | le | eq | ne | and | or
  deriving DecidableEq, Repr

/-- how tightly an operator binds: `||` < `&&` < `== !=` < `< > <= >=` -/
def Op.prec : Op → ℕ
  | .or => 1
  | .and => 2
  | .eq => 3
  | .ne => 3
  | .gt => 4
  | .lt => 4
  | .ge => 4
  | .le => 4

/-- tokens; an operand is an integer (the value of a variable or a literal) -/
inductive Tk
  | lp | rp | bang
  | op (o : Op)
  | val (v : ℤ)
  deriving DecidableEq, Repr

/-- conditions as C++ understands them; `paren` is a parenthesised expression -/
inductive Cond
  | val (v : ℤ)
  | bang (e : Cond)
  | paren (e : Cond)
  | bin (o : Op) (a b : Cond)
  deriving DecidableEq, Repr

mutual
/-- unary-expression: an operand, `!` and a unary-expression, or a parenthesised expression -/
def unary : ℕ → List Tk → Option (Cond × List Tk)
  | 0, _ => none
  | f + 1, ts =>
    match ts with
    | .val v :: r => some (.val v, r)
    | .bang :: r =>
      match unary f r with
      | some (e, r) => some (.bang e, r)
      | none => none
    | .lp :: r =>
      match expr f 1 r with
      | some (e, .rp :: r) => some (.paren e, r)
      | _ => none
    | _ => none

/-- an expression whose operators bind at least as tightly as `p` -/
def expr : ℕ → ℕ → List Tk → Option (Cond × List Tk)
  | 0, _, _ => none
  | f + 1, p, ts =>
    match unary f ts with
    | some (a, r) => more f p a r
    | none => none

/-- go on with binary operators, grouping to the left -/
def more : ℕ → ℕ → Cond → List Tk → Option (Cond × List Tk)
  | 0, _, _, _ => none
  | f + 1, p, a, ts =>
    match ts with
    | .op o :: r =>
      if p ≤ o.prec then
        match expr f (o.prec + 1) r with
        | some (b, r) => more f p (.bin o a b) r
        | none => none
      else some (a, ts)
    | _ => some (a, ts)
end

/-- the tokens `ts` are the expression `e` -/
def Means (ts : List Tk) (e : Cond) : Prop := ∃ f, expr f 1 ts = some (e, [])

/-- the value of a condition: comparisons and logical operators give 0 or 1 -/
def Cond.value : Cond → ℤ
  | .val v => v
  | .bang e => if e.value = 0 then 1 else 0
  | .paren e => e.value
  | .bin o a b =>
    let t (c : Bool) : ℤ := if c then 1 else 0
    match o with
    | .gt => t (decide (a.value > b.value))
    | .lt => t (decide (a.value < b.value))
    | .ge => t (decide (a.value ≥ b.value))
    | .le => t (decide (a.value ≤ b.value))
    | .eq => t (decide (a.value = b.value))
    | .ne => t (decide (a.value ≠ b.value))
    | .and => t (decide (a.value ≠ 0) && decide (b.value ≠ 0))
    | .or => t (decide (a.value ≠ 0) || decide (b.value ≠ 0))

/-- the text in the parentheses of the `if` in `SM_ASSERT` and `SM_ASSERT_MSG` (assert.h:119, 127): `!(cond)` -/
def assertCond (cond : List Tk) : List Tk := .bang :: .lp :: cond ++ [.rp]

/-- the text in the parentheses of the `if` in `SM_ASSERT_CMD` (137): `!cond` -/
def cmdCond (cond : List Tk) : List Tk := .bang :: cond

/-- what a statement does that an observer sees -/
inductive Act
  | fatal (text : String)
  | trap
  | cmd
  deriving DecidableEq, Repr

/-- the body of the `if` in `SM_ASSERT` (120-121) -/
def assertBody (file cond : String) (line : ℕ) : List Act :=
  [.fatal s!"ASSERTION FAILED\n\tfile = {file}\n\tline = {line}\n\tcond = {cond}\n", .trap]

/-- the body of the `if` in `SM_ASSERT_MSG` (128-131) -/
def assertMsgBody (file cond msg : String) (line : ℕ) : List Act :=
  [.fatal s!"ASSERTION FAILED\n\tfile = {file}\n\tline = {line}\n\tcond = {cond}\n\tmessage = ", .fatal msg, .fatal "\n", .trap]

/-- `do { if (ts) { body } } while (0)`: what the statement does, if the condition has a meaning; nothing in a build with `NDEBUG`
(104-106, 143-148) -/
def Does (ndebug : Bool) (ts : List Tk) (body acts : List Act) : Prop :=
  if ndebug then acts = [] else ∃ e, Means ts e ∧ acts = if e.value ≠ 0 then body else []

end Verif.Assert
