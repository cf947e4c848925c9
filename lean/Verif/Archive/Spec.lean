import Verif.Archive.Model

/-!
# Specification vocabulary for the MatrixArchive properties (C19-C24)
-/

namespace Verif.Archive

/-- The public mutating calls. -/
inductive Op where
  | clearAll
  | clearName (n : Name)
  | setScalar (n : Name) (x : BitVec 64)
  | setString (n : Name) (s : List Byte)
  | setMatrix (n : Name) (m : Mat)
  | setVector (n : Name) (m : Mat)
  | createMatrix (n : Name) (m : Mat) (overwrite : Bool)
  | load (validNames : List Name) (file : List Byte)

/-- Matrices passed in are genuine matrices. -/
def Op.Genuine : Op → Prop
  | .setMatrix _ m => m.WF
  | .setVector _ m => m.WF
  | .createMatrix _ m _ => m.WF
  | _ => True

/-- The archive after a call (whether it returned or threw); `none` = undefined behaviour. -/
def step (a : Archive) : Op → Option Archive
  | .clearAll => some (clearAll a)
  | .clearName n => some (clearName a n)
  | .setScalar n x => some (setScalar a n x).2
  | .setString n s => some (setString a n s).2
  | .setMatrix n m => some (setMatrix a n m).2
  | .setVector n m => some (setVector a n m).2
  | .createMatrix n m o => some (createMatrix a n m o).2
  | .load G f => match Verif.Archive.load a G f with
    | .ok b => some b
    | .threw b => some b
    | .ub => none

/-- Archives obtainable from an empty one by any history of calls. -/
inductive Reachable : Archive → Prop
  | init : Reachable empty
  | step {a b : Archive} {op : Op} : Reachable a → op.Genuine → step a op = some b → Reachable b

/-- The English rule for names: 1 to 32 characters, a letter first, then letters, digits, `_`. -/
def GoodName (n : Name) : Prop :=
  1 ≤ n.length ∧ n.length ≤ 32 ∧
  (∀ c, n.head? = some c → isAlpha c = true) ∧
  (∀ c ∈ n.tail, isAlpha c = true ∨ (48 ≤ c.toNat ∧ c.toNat ≤ 57) ∨ c.toNat = 95)

/-- Everything the filter selects can be represented in the file format: valid matrix names (string
names always are), header fields within 32 bits. -/
def Savable (a : Archive) (F : List Name) : Prop :=
  (∀ n m, selected F n = true → getMatrix a n = some m → GoodName n ∧ m.rows < 2 ^ 32 ∧ m.cols < 2 ^ 32 ∧
    m.rows * m.cols * 8 < 2 ^ 32) ∧
  (∀ n s, selected F n = true → getString a n = some s → s.length < 2 ^ 32)

/-- The filter rule in English: an empty filter selects everything, otherwise exactly its members. -/
def InFilter (F : List Name) (n : Name) : Prop := F = [] ∨ n ∈ F

end Verif.Archive
