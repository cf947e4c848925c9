import Verif.Assert.Model
import Mathlib.Order.WithBot
import Mathlib.Algebra.Order.Field.Rat

/-!
# What the assertion macros assert
-/

namespace Verif.Assert

open Verif.Common

/-- the extended number a floating point value stands for; NaN stands for none -/
def num : Fp → Option (WithBot (WithTop ℚ))
  | .fin q => some ((q : WithTop ℚ) : WithBot (WithTop ℚ))
  | .inf true => some ⊥
  | .inf false => some ((⊤ : WithTop ℚ) : WithBot (WithTop ℚ))
  | .nan => none

/-- the relation that `SM_ASSERT_<r>(E, v, b, …)` asserts, on a linear order -/
def Rel.Holds {α : Type} [LinearOrder α] : Rel → α → α → Prop
  | .lt, a, b => a < b
  | .ge, a, b => a ≥ b
  | .le, a, b => a ≤ b
  | .gt, a, b => a > b
  | .eq, a, b => a = b
  | .ne, a, b => a ≠ b

/-- the same for floating point values: an ordering or an equality with NaN does not hold, `!=` does -/
def Rel.HoldsFp (r : Rel) (a b : Fp) : Prop :=
  match num a, num b with
  | some x, some y => r.Holds x y
  | _, _ => r = .ne

/-- the C++ operator -/
def Rel.symbol : Rel → String
  | .lt => "<"
  | .ge => ">="
  | .le => "<="
  | .gt => ">"
  | .eq => "=="
  | .ne => "!="

/-- the asserted range: which relation on the left (lower bound to value) and on the right (value to upper bound) -/
def Range.rels : Range → Rel × Rel
  | .geLt => (.le, .lt)
  | .gtLe => (.lt, .le)
  | .geLe => (.le, .le)

/-- the relation to zero that is asserted -/
def Sign.rel : Sign → Rel
  | .positive => .gt
  | .nonnegative => .ge
  | .negative => .lt
  | .nonpositive => .le
  | .zero => .eq

/-- an argument without side effects, whose value in each state is given by `f` -/
def Pure {σ α : Type} (e : Ex σ α) (f : σ → α) : Prop := ∀ s, e.eval s = (f s, s)

/-- `what()` of the exception of a failed assertion -/
def whatText (type : String) (p : Pos) (text : String) : String :=
  s!"[{type}] {p.file}:{p.line}: {p.function}() {text}"

end Verif.Assert
