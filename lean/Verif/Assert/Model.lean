import Verif.Common.Fp

/-!
# Model of the assertion macros

sm_common/include/sm/assert_macros.hpp, source_file_pos.hpp and sm_logging/include/sm/logging/assert.h.

The arguments of a macro are expressions: their evaluation may change the state of the program, and a macro evaluates the
text of an argument as often as it occurs in its expansion.  An expression is therefore a function from states to a value
and a new state, and comes with its source text (for `#value`) and a way to print its value.
-/

namespace Verif.Assert

open Verif.Common

/-- the comparison operators of a C++ type -/
class CppOrd (α : Type) where
  lt : α → α → Bool
  le : α → α → Bool
  eq : α → α → Bool

/-- integers, and any other type whose operators are a linear order -/
def CppOrd.ofLinear (α : Type) [LinearOrder α] : CppOrd α where
  lt a b := decide (a < b)
  le a b := decide (a ≤ b)
  eq a b := decide (a = b)

instance : CppOrd ℤ := CppOrd.ofLinear ℤ

/-- floating point values -/
instance : CppOrd Fp where
  lt := Fp.lt
  le := Fp.le
  eq := Fp.eq

/-- an argument of a macro: its text, its evaluation, and `operator<<` for its value -/
structure Ex (σ α : Type) where
  text : String
  eval : σ → α × σ
  print : α → String

/-- where a macro stands: `__FUNCTION__`, `__FILE__`, `__LINE__` -/
structure Pos where
  function : String
  file : String
  line : ℕ

/-- `source_file_pos::toString` and `operator<<` (source_file_pos.hpp:29-34, 41-45) -/
def Pos.toString (p : Pos) : String := p.file ++ ":" ++ ToString.toString p.line ++ ": " ++ p.function ++ "()"

/-- how a statement ends: normally, or with an exception of the type named, with this `what()` -/
inductive Outcome (σ : Type)
  | normal (s : σ)
  | thrown (type : String) (what : String) (s : σ)
  deriving DecidableEq

/-- `sm_throw_exception` (assert_macros.hpp:35-53) with the type string the macros pass, `"[" #exceptionType "] "` -/
def throwEx {σ : Type} (type : String) (p : Pos) (message : String) (s : σ) : Outcome σ :=
  .thrown type (("[" ++ type ++ "] ") ++ p.toString ++ " " ++ message) s

/-- `sm_assert_throw` (57-64): the type string is empty here -/
def assertThrow {σ : Type} (cond : Bool) (type message : String) (p : Pos) (s : σ) : Outcome σ :=
  if !cond then .thrown type ("" ++ p.toString ++ " " ++ message) s else .normal s

/-- `SM_THROW` (70-75), given the text of the message -/
def smThrow {σ : Type} (type : String) (p : Pos) (message : String) (s : σ) : Outcome σ := throwEx type p message s

variable {σ α : Type}

/-- evaluate an argument and print it -/
def Ex.show (e : Ex σ α) (s : σ) : String × σ := let (v, s) := e.eval s; (e.print v, s)

/-- the two-argument comparison macros: `LT`, `GE`, `LE`, `GT`, `EQ`, `NE` -/
inductive Rel
  | lt | ge | le | gt | eq | ne
  deriving DecidableEq, Repr

/-- the condition in the `if` of the macro, which tests for failure (130, 138, 148, 156, 220, 228) -/
def Rel.fails [CppOrd α] : Rel → α → α → Bool
  | .lt, a, b => CppOrd.le b a
  | .ge, a, b => CppOrd.lt a b
  | .le, a, b => CppOrd.lt b a
  | .gt, a, b => CppOrd.le a b
  | .eq, a, b => !CppOrd.eq a b
  | .ne, a, b => CppOrd.eq a b

/-- the relation the message prints (133, 141, 151, 159, 223, 231) -/
def Rel.sign : Rel → String
  | .lt => " < "
  | .ge => " >= "
  | .le => " <= "
  | .gt => " > "
  | .eq => " == "
  | .ne => " != "

/-- the prefix of the message: `_DBG` macros say "debug assert(" -/
def head (dbg : Bool) : String := if dbg then "debug assert(" else "assert("

/-- `SM_ASSERT_LT` … `SM_ASSERT_NE` (129-160, 219-233) and their `_DBG` versions (364-418): both arguments are evaluated
once for the test and once more for the message.  (The order in which the two operands of a comparison are evaluated is
unspecified in C++; the model takes them from left to right.) -/
def assertRel [CppOrd α] (r : Rel) (dbg : Bool) (type : String) (p : Pos) (value bound : Ex σ α) (message : String) (s : σ) :
    Outcome σ :=
  let (v, s) := value.eval s
  let (b, s) := bound.eval s
  if r.fails v b then
    let (vt, s) := value.show s
    let (bt, s) := bound.show s
    throwEx type p (head dbg ++ value.text ++ r.sign ++ bound.text ++ ") failed [" ++ vt ++ r.sign ++ bt ++ "]: " ++ message) s
  else .normal s

/-- the range macros: `GE_LT`, `GT_LE`, `GE_LE` -/
inductive Range
  | geLt | gtLe | geLe
  deriving DecidableEq, Repr

/-- the first operand of `||` (106, 114, 122) -/
def Range.below [CppOrd α] : Range → α → α → Bool
  | .geLt, v, l => CppOrd.lt v l
  | .gtLe, v, l => CppOrd.le v l
  | .geLe, v, l => CppOrd.lt v l

/-- the second operand of `||` -/
def Range.above [CppOrd α] : Range → α → α → Bool
  | .geLt, v, u => CppOrd.le u v
  | .gtLe, v, u => CppOrd.lt u v
  | .geLe, v, u => CppOrd.lt u v

/-- the two signs in the message (109, 117, 125) -/
def Range.signs : Range → String × String
  | .geLt => (" <= ", " < ")
  | .gtLe => (" < ", " <= ")
  | .geLe => (" <= ", " <= ")

/-- `SM_ASSERT_GE_LT`, `SM_ASSERT_GT_LE`, `SM_ASSERT_GE_LE` (105-127, 292-314): `value` occurs twice in the condition -/
def assertRange [CppOrd α] (r : Range) (dbg : Bool) (type : String) (p : Pos) (value lower upper : Ex σ α) (message : String)
    (s : σ) : Outcome σ :=
  let (v, s) := value.eval s
  let (l, s) := lower.eval s
  let (bad, s) :=
    if r.below v l then (true, s)
    else
      let (v, s) := value.eval s
      let (u, s) := upper.eval s
      (r.above v u, s)
  if bad then
    let (lt, s) := lower.show s
    let (vt, s) := value.show s
    let (ut, s) := upper.show s
    throwEx type p (head dbg ++ lower.text ++ r.signs.1 ++ value.text ++ r.signs.2 ++ upper.text ++ ") failed [" ++ lt ++ r.signs.1
      ++ vt ++ r.signs.2 ++ ut ++ "]: " ++ message) s
  else .normal s

/-- the macros that compare with zero -/
inductive Sign
  | positive | nonnegative | negative | nonpositive | zero
  deriving DecidableEq, Repr

/-- the condition in the `if` (164, 172, 180, 188, 196); `0.0` is given as `z` -/
def Sign.fails [CppOrd α] (z : α) : Sign → α → Bool
  | .positive, v => CppOrd.le v z
  | .nonnegative, v => CppOrd.lt v z
  | .negative, v => CppOrd.le z v
  | .nonpositive, v => CppOrd.lt z v
  | .zero, v => !CppOrd.eq v z

/-- the relation the message prints (167, 175, 183, 191, 199): that of `NONPOSITIVE` is `>= 0.0` -/
def Sign.text : Sign → String
  | .positive => " > 0.0"
  | .nonnegative => " >= 0.0"
  | .negative => " < 0.0"
  | .nonpositive => " >= 0.0"
  | .zero => " == 0.0"

/-- `SM_ASSERT_POSITIVE` … `SM_ASSERT_ZERO` (163-201, 316-354) -/
def assertSign [CppOrd α] (z : α) (r : Sign) (dbg : Bool) (type : String) (p : Pos) (value : Ex σ α) (message : String) (s : σ) :
    Outcome σ :=
  let (v, s) := value.eval s
  if r.fails z v then
    let (vt, s) := value.show s
    throwEx type p (head dbg ++ value.text ++ r.text ++ ") failed [" ++ vt ++ r.text ++ "]: " ++ message) s
  else .normal s

/-- `SM_ASSERT_TRUE` (87-93, 273-279) -/
def assertTrue (dbg : Bool) (type : String) (p : Pos) (cond : Ex σ Bool) (message : String) (s : σ) : Outcome σ :=
  let (v, s) := cond.eval s
  if !v then throwEx type p (head dbg ++ cond.text ++ ") failed: " ++ message) s else .normal s

/-- `SM_ASSERT_FALSE` (95-101, 281-287) -/
def assertFalse (dbg : Bool) (type : String) (p : Pos) (cond : Ex σ Bool) (message : String) (s : σ) : Outcome σ :=
  let (v, s) := cond.eval s
  if v then throwEx type p (head dbg ++ " not " ++ cond.text ++ ") failed: " ++ message) s else .normal s

/-- `SM_ASSERT_NOTNULL` (203-209, 356-362) and `SM_ASSERT_NULL` (211-217); a pointer is an `Option`.  (The argument is not in
parentheses in 204 and 212: for arguments with operators that bind weaker than `==`, of pointer type, that does not compile.) -/
def assertNull (null dbg : Bool) (type : String) (p : Pos) (value : Ex σ (Option α)) (message : String) (s : σ) : Outcome σ :=
  let (v, s) := value.eval s
  if v.isNone != null then
    throwEx type p (head dbg ++ value.text ++ (if null then " == NULL" else " != NULL") ++ ") failed: " ++ message) s
  else .normal s

/-- the condition of `SM_ASSERT_NEAR` (236) -/
def nearFails (v t e : Fp) : Bool := !(Fp.le ((t.sub v).abs) e.abs)

/-- `SM_ASSERT_NEAR` (235-241, 421-427); `printFp` prints a `double` -/
def assertNear (printFp : Fp → String) (dbg : Bool) (type : String) (p : Pos) (value test err : Ex σ Fp) (message : String) (s : σ) :
    Outcome σ :=
  let (t, s) := test.eval s
  let (v, s) := value.eval s
  let (e, s) := err.eval s
  if nearFails v t e then
    let (vt, s) := value.show s
    let (tt, s) := test.show s
    let (t, s) := test.eval s
    let (v, s) := value.eval s
    let (e, s) := err.eval s
    throwEx type p (head dbg ++ value.text ++ " == " ++ test.text ++ ") failed [" ++ vt ++ " == " ++ tt ++ " (" ++
      printFp ((t.sub v).abs) ++ " > " ++ printFp e.abs ++ ")]: " ++ message) s
  else .normal s

/-- `SM_ASSERT_FINITE` (243-249, 429-435) -/
def assertFinite (dbg : Bool) (type : String) (p : Pos) (value : Ex σ Fp) (message : String) (s : σ) : Outcome σ :=
  let (v, s) := value.eval s
  if !v.isFinite then
    let (vt, s) := value.show s
    throwEx type p (head dbg ++ "isfinite(" ++ value.text ++ ")) failed [isfinite(" ++ vt ++ ") = false]: " ++ message) s
  else .normal s

/-- `SM_ASSERT_NOTNAN` (251-257, 437-443) -/
def assertNotNan (dbg : Bool) (type : String) (p : Pos) (value : Ex σ Fp) (message : String) (s : σ) : Outcome σ :=
  let (v, s) := value.eval s
  if v.isNan then throwEx type p (head dbg ++ "!isnan(" ++ value.text ++ ")) failed: " ++ message) s else .normal s

/-- a `_DBG` macro: its expansion if `NDEBUG` is not defined or `SM_ALWAYS_ASSERT` (or `ALWAYS_ASSERT`) is (259-263), and nothing
otherwise (449-471) -/
def dbgMacro (ndebug alwaysAssert : Bool) (stmt : σ → Outcome σ) (s : σ) : Outcome σ :=
  if !ndebug || alwaysAssert then stmt s else .normal s

end Verif.Assert
