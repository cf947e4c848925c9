import Verif.Python.PTree
import Verif.PTree.Spec

/-!
# What users of property trees in Python rely on (C131–C133)
-/

namespace Verif.Python.Tree

open Verif.PTree (Str)

/-- the objects a statement mentions -/
def Cmd.uses {D : Type} : Cmd D → List Nat
  | .newConst p _ => [p]
  | .newTree p _ => [p]
  | .newBoost _ => []
  | .call i _ args => i :: args.filterMap fun
    | .obj j => some j
    | _ => none

/-- the sessions Python code can reach from the import of the module -/
def Reachable {D : Type} (E : Env D) (s : Sess) : Prop := ∃ P, run E ⟨[], []⟩ P = some s

/-- the names of a kind -/
def VK.name : VK → String
  | .int => "Int"
  | .bool => "Bool"
  | .str => "String"
  | .dbl => "Double"

/-- the object is of a class that can write -/
def Obj.writer (o : Obj) : Prop := o.cls = .tree ∨ o.cls = .boost

/-- the call raised an exception before any function of the library ran -/
def Out.rejected {D : Type} : Out D → Prop
  | .attributeError => True
  | .argumentError => True
  | .overflowError => True
  | _ => False

end Verif.Python.Tree
