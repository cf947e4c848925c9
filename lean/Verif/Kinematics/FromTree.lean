import Verif.PTree.Model
import Verif.Kinematics.Transf

/-!
# Model of sm_eigen/include/sm/eigen/property_tree.hpp and sm_kinematics/include/sm/kinematics/property_tree.hpp

Reading vectors, quaternions and transformations from a `ConstPropertyTree` (`Verif.PTree`).  Conversion of text to `double` is
boost's translator, here a `Codec ℝ`.
-/

namespace Verif.Kinematics

open Verif.PTree

/-- the exception of the first getter that fails leaves the function -/
def andThen {A B : Type} : GetRes A → (A → GetRes B) → GetRes B
  | .value a, f => f a
  | .badValue, _ => .badValue
  | .badKey, _ => .badKey

/-- `vector3FromPropertyTree` (sm_eigen property_tree.hpp:10-18) -/
def vector3FromTree (c : Codec ℝ) (t : PTree.Tree) (ns : Str) : GetRes V3 :=
  andThen (get c t ns ['x']) fun x =>
  andThen (get c t ns ['y']) fun y =>
  andThen (get c t ns ['z']) fun z => .value ![x, y, z]

/-- `quaternionFromPropertyTree` (21-29) -/
def quaternionFromTree (c : Codec ℝ) (t : PTree.Tree) (ns : Str) : GetRes V4 :=
  andThen (get c t ns ['x']) fun x =>
  andThen (get c t ns ['y']) fun y =>
  andThen (get c t ns ['z']) fun z =>
  andThen (get c t ns ['w']) fun w => .value ![x, y, z, w]

def qName : Str := ['q', '_', 'a', '_', 'b']
def tName : Str := ['t', '_', 'a', '_', 'b', '_', 'a']

/-- `transformationFromPropertyTree` (sm_kinematics property_tree.hpp:10-16): `q = q / q.norm()`, then the constructor, which
normalises again.  (For the zero quaternion C++ divides by zero and the transformation consists of NaN.) -/
noncomputable def transformationFromTree (c : Codec ℝ) (t : PTree.Tree) (ns : Str) : GetRes Transformation :=
  andThen (quaternionFromTree c t (childNamespace ns qName)) fun q =>
  andThen (vector3FromTree c t (childNamespace ns tName)) fun v =>
  .value (.mkQT (fun i => q i / norm q) v)

end Verif.Kinematics
