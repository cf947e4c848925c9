import Verif.Kinematics.FromTree
import Verif.Kinematics.QuatDouble
import Verif.PTree.Codecs

/-!
# Transformations in property trees, on doubles

`sm_eigen/property_tree.hpp` and `sm_kinematics/property_tree.hpp` again (there is a model over the real numbers in
`Verif.Kinematics.FromTree`), now with the texts of the entries, the conversions of boost and the arithmetic of the machine.
-/

namespace Verif.KinematicsDouble

open Verif.Common Verif.PTree Verif.PTree.Codecs
open Verif.Kinematics (andThen qName tName)

/-- a `double` in the arithmetic of `Verif.Common.Fp` (which does not tell the zeros and the NaNs apart) -/
def ofF64 : F64 → Fp
  | .finite neg a => .fin (if neg then -a else a)
  | .inf neg => .inf neg
  | .nan _ => .nan

/-- and back, for writing -/
def toF64 : Fp → F64
  | .fin q => .finite (decide (q < 0)) |q|
  | .inf neg => .inf neg
  | .nan => .nan false

section
variable {R : ℝ → ℚ} (E : Eigen fun q => R q) (near : ℚ → ℤ)

/-- `getDouble` of a view -/
def getDouble (R : ℝ → ℚ) (near : ℚ → ℤ) (t : PTree.Tree) (ns key : Str) : GetRes Fp :=
  andThen (get (doubleCodec near fun q => R q) t ns key) fun v => .value (ofF64 v)

/-- `vector3FromPropertyTree` (sm_eigen property_tree.hpp:10-18) -/
def vector3FromTree (R : ℝ → ℚ) (near : ℚ → ℤ) (t : PTree.Tree) (ns : Str) : GetRes F3 :=
  andThen (getDouble R near t ns ['x']) fun x =>
  andThen (getDouble R near t ns ['y']) fun y =>
  andThen (getDouble R near t ns ['z']) fun z => .value ![x, y, z]

/-- `quaternionFromPropertyTree` (21-29) -/
def quaternionFromTree (R : ℝ → ℚ) (near : ℚ → ℤ) (t : PTree.Tree) (ns : Str) : GetRes F4 :=
  andThen (getDouble R near t ns ['x']) fun x =>
  andThen (getDouble R near t ns ['y']) fun y =>
  andThen (getDouble R near t ns ['z']) fun z =>
  andThen (getDouble R near t ns ['w']) fun w => .value ![x, y, z, w]

/-- `q / q.norm()`; whether the division of a vector multiplies by the reciprocal is left open here too -/
noncomputable def divideByNorm (byReciprocal : Bool) (q : F4) : F4 :=
  let rnd : ℚ → ℚ := fun x => R x
  let n := norm E q
  fun i => if byReciprocal then fmul rnd (q i) (fdiv rnd (.fin 1) n) else fdiv rnd (q i) n

/-- `transformationFromPropertyTree` (sm_kinematics property_tree.hpp:10-16): the quotient, then the constructor, which
normalises again -/
noncomputable def transformationFromTree (byReciprocal : Bool) (t : PTree.Tree) (ns : Str) : GetRes TransformationD :=
  andThen (quaternionFromTree R near t (childNamespace ns qName)) fun q =>
  andThen (vector3FromTree R near t (childNamespace ns tName)) fun v =>
  .value (.mkQT E (divideByNorm E byReciprocal q) v)

/-- a client that stores a transformation under the keys from which it is read: seven `setDouble` -/
def store (R : ℝ → ℚ) (near : ℚ → ℤ) (t : PTree.Tree) (ns : Str) (X : TransformationD) : Option PTree.Tree :=
  let put := fun (t : PTree.Tree) (g : Str) (k : Char) (x : Fp) => set (doubleCodec near fun q => R q) t (childNamespace ns g) [k] (toF64 x)
  (put t qName 'x' (X.q 0)).bind fun t => (put t qName 'y' (X.q 1)).bind fun t => (put t qName 'z' (X.q 2)).bind fun t =>
  (put t qName 'w' (X.q 3)).bind fun t => (put t tName 'x' (X.t 0)).bind fun t => (put t tName 'y' (X.t 1)).bind fun t =>
  put t tName 'z' (X.t 2)

/-- storing and reading, a number of times; the tree may have any other contents -/
noncomputable def reload (byReciprocal : Bool) (t : PTree.Tree) (ns : Str) : ℕ → TransformationD → Option TransformationD
  | 0, X => some X
  | n + 1, X => (store R near t ns X).bind fun t' => match transformationFromTree E near byReciprocal t' ns with
    | .value Y => reload byReciprocal t ns n Y
    | _ => none

end

end Verif.KinematicsDouble
