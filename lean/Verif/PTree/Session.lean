import Verif.PTree.Files
import Verif.PTree.Codecs

/-!
# Programs that fill a property tree

A program sets values of the four types through whatever views (`PropertyTree::setString`, `setInt`, `setBool`, `setDouble`,
PropertyTree.cpp:140-162), saves the tree to a file (BoostPropertyTree.cpp:72-87), and another program loads the file and reads the values.
-/

namespace Verif.PTree.Session

open Verif.PTree Verif.PTree.Codecs

/-- a value of one of the four types -/
inductive Value where
  | str (v : Str)
  | int (n : ℤ)
  | bool (b : Bool)
  | dbl (x : F64)

/-- one statement: a setter is called on the view with this namespace -/
structure Setting where
  ns : Str
  key : Str
  value : Value

/-- `setString`, `setInt`, `setBool`, `setDouble` -/
def perform (near : ℚ → ℤ) (rnd : ℚ → ℚ) (t : Tree) (s : Setting) : Option Tree :=
  match s.value with
  | .str v => set Codecs.strCodec t s.ns s.key v
  | .int n => set intCodec t s.ns s.key n
  | .bool b => set boolCodec t s.ns s.key b
  | .dbl x => set (doubleCodec near rnd) t s.ns s.key x

/-- the statements one after the other -/
def run (near : ℚ → ℤ) (rnd : ℚ → ℚ) : Tree → List Setting → Option Tree
  | t, [] => some t
  | t, s :: l => (perform near rnd t s).bind fun t' => run near rnd t' l

end Verif.PTree.Session
