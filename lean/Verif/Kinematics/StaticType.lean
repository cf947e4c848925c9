import Verif.Python.Dispatch

/-!
# Model of C++ expressions on transformations and points whose static type is a base class
(`Transformation.hpp`, `UncertainTransformation.hpp`, `HomogeneousPoint.hpp`, `UncertainHomogeneousPoint.hpp`)

A function that takes a `const Transformation &` can be given an `UncertainTransformation`.  C++ chooses the overload of an operator by the static
types of both operands ([over.match.best]) and, if the chosen member is virtual, the override of the left operand's dynamic type; the right operand's dynamic type is never looked at.
-/

namespace Verif.Python

open Verif.Kinematics

/-- an expression: an object seen as a reference of a static type, its class or the base class of that -/
structure Expr where
  obj : Obj
  static : Cls
  ok : obj.cls.isA static = true

/-- `operator*` is virtual for right operands of type `UncertainTransformation` and `UncertainHomogeneousPoint` (Transformation.hpp:91-92), `operator+` and `operator-` for
`UncertainHomogeneousPoint` (HomogeneousPoint.hpp:56, 67); the others (Transformation.hpp:86-89, UncertainTransformation.hpp:46-50, HomogeneousPoint.hpp:50, 62) are not -/
def isVirtual (arg : Cls) : Bool := arg = .utf || arg = .uhp

/-- the value of `a ∘ b` for the members `operator∘` in `table`; `none` = does not compile -/
noncomputable def cppCall (table : Cls → List (Overload Cls Bin)) (a b : Expr) : Option Obj :=
  match cppResolve Cls.isA (table a.static) b.static with
  | none => none
  | some o =>
    if isVirtual o.arg then ((table a.obj.cls).find? fun o' => o'.arg = o.arg).map fun o' => o'.fn a.obj b.obj
    else some (o.fn a.obj b.obj)

/-- `a * b` -/
noncomputable def exprMul (a b : Expr) : Option Obj := cppCall cppMulTable a b
/-- `a + b` -/
noncomputable def exprAdd (a b : Expr) : Option Obj := cppCall (cppPointTable P_add_P P_add_UP UP_add_P UP_add_UP) a b
/-- `a - b` -/
noncomputable def exprSub (a b : Expr) : Option Obj := cppCall (cppPointTable P_sub_P P_sub_UP UP_sub_P UP_sub_UP) a b

/-- `a.inverse()` (Transformation.hpp:75, not virtual; UncertainTransformation.hpp:55) -/
noncomputable def exprInverse (a : Expr) : Option Obj := match a.static with
  | .tf => some (.tf a.obj.asTf.inverse)
  | .utf => some (.utf a.obj.asUtf.inverse)
  | _ => none

end Verif.Python
