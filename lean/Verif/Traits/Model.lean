import Mathlib.Data.List.Basic

/-!
# Model of sm_common/include/sm/typetraits.hpp

The traits are class templates with partial specializations.  The model has C++ types (in the normal form in which the
compiler sees them), the patterns of specializations, the rule that the most specialized matching one is chosen
([temp.class.spec.match], [temp.class.order]), and the tables of the header.  `volatile`, arrays and functions are left out.
-/

namespace Verif.Traits

/-- types -/
inductive Ty
  | base (n : ℕ)
  | const (t : Ty)
  | ref (t : Ty)
  /-- rvalue reference -/
  | rref (t : Ty)
  | ptr (t : Ty)
  deriving DecidableEq, Repr

/-- patterns: the types in which a template parameter `T` occurs once -/
inductive Pat
  | var
  | const (p : Pat)
  | ref (p : Pat)
  | ptr (p : Pat)
  deriving DecidableEq, Repr

/-- the `T` for which the pattern is the given type, if there is one -/
def Pat.matchTy : Pat → Ty → Option Ty
  | .var, t => some t
  | .const p, .const t => p.matchTy t
  | .ref p, .ref t => p.matchTy t
  | .ptr p, .ptr t => p.matchTy t
  | _, _ => none

/-- `p` is at least as specialized as `q`: `q` matches `p`, seen as a type -/
def Pat.atLeast : Pat → Pat → Bool
  | _, .var => true
  | .const p, .const q => p.atLeast q
  | .ref p, .ref q => p.atLeast q
  | .ptr p, .ptr q => p.atLeast q
  | _, _ => false

/-- a class template: its specializations in the order of the file, the primary template with pattern `var` among them, with what
each defines -/
abbrev Template (α : Type) := List (Pat × α)

/-- the specialization that is used: the matching one that is at least as specialized as all matching ones -/
def Template.select {α : Type} (T : Template α) (t : Ty) : Option (Ty × α) :=
  let m := T.filterMap fun (p, a) => (p.matchTy t).map fun x => (p, x, a)
  (m.find? fun (p, _) => m.all fun (q, _) => p.atLeast q).map fun (_, x, a) => (x, a)

/-- what a specialization says about its result, in terms of `T` -/
inductive Out
  | T
  | constT
  | refT
  | constRefT
  | ptrT
  | constPtrT
  deriving DecidableEq, Repr

/-- `const T` -/
def mkConst : Ty → Ty
  | .const t => .const t
  | .ref t => .ref t
  | .rref t => .rref t
  | t => .const t

/-- `T&`, with reference collapsing -/
def mkRef : Ty → Ty
  | .ref t => .ref t
  | .rref t => .ref t
  | t => .ref t

/-- `T*`; a pointer to a reference does not compile -/
def mkPtr : Ty → Option Ty
  | .ref _ => none
  | .rref _ => none
  | t => some (.ptr t)

/-- the type that `result_t` names -/
def Out.ty (t : Ty) : Out → Option Ty
  | .T => some t
  | .constT => some (mkConst t)
  | .refT => some (mkRef t)
  | .constRefT => some (mkRef (mkConst t))
  | .ptrT => mkPtr t
  | .constPtrT => mkPtr (mkConst t)

/-- `Trait<t>::result_t` -/
def Template.result (T : Template Out) (t : Ty) : Option Ty := (T.select t).bind fun (x, o) => o.ty x

/-- `Trait<t>::value` -/
def Template.value (T : Template Bool) (t : Ty) : Option Bool := (T.select t).map Prod.snd

/-- `SameType` (typetraits.hpp:41-42) -/
def sameType (t u : Ty) : Bool := if t = u then true else false

/-- `StripReference` (45-60) -/
def stripReference : Template Out := [(.var, .T), (.ref .var, .T), (.const .var, .constT), (.ref (.const .var), .constT)]

/-- `StripConstReference` (62-77) -/
def stripConstReference : Template Out := [(.var, .T), (.ref .var, .T), (.ref (.const .var), .T), (.const .var, .T)]

/-- `StripConstPtr` (79-94) -/
def stripConstPtr : Template Out := [(.var, .T), (.ptr .var, .T), (.ptr (.const .var), .T), (.const .var, .T)]

/-- `AddReference` (97-112) -/
def addReference : Template Out := [(.var, .refT), (.ref .var, .refT), (.const .var, .constRefT), (.ref (.const .var), .constRefT)]

/-- `AddConstReference` (114-129) -/
def addConstReference : Template Out :=
  [(.var, .constRefT), (.ref .var, .constRefT), (.const .var, .constRefT), (.ref (.const .var), .constRefT)]

/-- `AddPtr` (131-146) -/
def addPtr : Template Out := [(.var, .ptrT), (.ptr .var, .ptrT), (.const .var, .constPtrT), (.ptr (.const .var), .constPtrT)]

/-- `AddConstPtr` (148-163) -/
def addConstPtr : Template Out :=
  [(.var, .constPtrT), (.ptr .var, .constPtrT), (.const .var, .constPtrT), (.ptr (.const .var), .constPtrT)]

/-- `IsReferenceType` (165-182) -/
def isReferenceType : Template Bool := [(.var, false), (.ref .var, true), (.ref (.const .var), true)]

/-- `IsPointerType` (185-202) -/
def isPointerType : Template Bool := [(.var, false), (.ptr .var, true), (.ptr (.const .var), true)]

end Verif.Traits
