import Verif.Common.Strings

/-!
# Model of `sm::PropertyTree` over boost's `ptree`
(`sm_property_tree/src/PropertyTree.cpp`, `BoostPropertyTreeImplementation.{hpp,cpp}`)

`boost::property_tree::ptree` is modelled as a rose tree: a data string and an ordered list of keyed
children (keys may repeat; searching finds the first).  Paths are strings cut at a separator exactly
as boost's `string_path` does.  Strings are lists of characters.  Value conversion (boost's stream
translators) is a parameter.  Reading and writing INFO and XML files is in `InfoFile.lean` and `XmlFile.lean`.
-/

namespace Verif.PTree

open Verif.Strings (ensureTrailingBackslash)

abbrev Str := List Char
abbrev Key := Str

/-- `boost::property_tree::ptree` -/
inductive Tree where
  | node (data : Str) (kids : List (Key × Tree))

/-- `ptree()` -/
def Tree.empty : Tree := .node [] []
/-- `data()` -/
def Tree.data : Tree → Str
  | .node d _ => d
def Tree.kids : Tree → List (Key × Tree)
  | .node _ ks => ks

/-! ## paths -/

/-- A `ptree::path_type`: the fragments successive `reduce()` calls return, and whether the string ends
in a separator (in which case the last fragment is not `single()`). -/
structure Path where
  frags : List Key
  trailing : Bool
deriving DecidableEq, Repr

/-- successive `reduce()` calls (boost/property_tree/string_path.hpp): cut at the next separator; a
separator at the very end yields no further fragment -/
def reduceAll (sep : Char) (s : Str) : List Key :=
  match s with
  | [] => []
  | c :: cs =>
    if c = sep then [] :: reduceAll sep cs
    else match cs with
      | [] => [[c]]
      | d :: ds =>
        if d = sep then [c] :: reduceAll sep ds
        else match reduceAll sep (d :: ds) with
          | [] => [[c]]
          | f :: fs => (c :: f) :: fs

/-- `ptree::path_type(s, sep)` -/
def mkPath (s : Str) (sep : Char) : Path := ⟨reduceAll sep s, s.getLast? = some sep⟩

/-! ## walking and writing -/

/-- `find(key)`: the first child with that key -/
def findKid (ks : List (Key × Tree)) (k : Key) : Option Tree :=
  match ks with
  | [] => none
  | (k', t) :: rest => if k = k' then some t else findKid rest k

/-- `walk_path` / `get_child_optional` -/
def getChild (t : Tree) : List Key → Option Tree
  | [] => some t
  | f :: fs => match findKid t.kids f with
    | none => none
    | some c => getChild c fs

/-- `get_optional<std::string>` -/
def getData (t : Tree) (p : List Key) : Option Str := (getChild t p).map Tree.data

/-- replace the first child with key `k`, or append one -/
def setKid (ks : List (Key × Tree)) (k : Key) (t : Tree) : List (Key × Tree) :=
  match ks with
  | [] => [(k, t)]
  | (k', t') :: rest => if k = k' then (k', t) :: rest else (k', t') :: setKid rest k t

/-- `put` along existing or freshly created children (`put_value`, `put_child`, `force_path`) -/
def putFrags (t : Tree) (p : List Key) (v : Str) : Tree :=
  match p with
  | [] => .node v t.kids
  | f :: fs => .node t.data (setKid t.kids f (putFrags ((findKid t.kids f).getD .empty) fs v))

/-- `_ptree.put(path, value)`; `none` = failed assertion / undefined behaviour: creating a node for a
path that ends in a separator (`force_path` runs out of fragments). -/
def put (t : Tree) (p : Path) (v : Str) : Option Tree :=
  if (getChild t p.frags).isSome then some (putFrags t p.frags v)
  else if p.trailing then none
  else some (putFrags t p.frags v)

/-! ## keys of `sm::PropertyTree` -/

/-- the constructor from an implementation (PropertyTree.cpp:7-12) -/
def rootNamespace (base : Str) : Str :=
  let n := ensureTrailingBackslash base
  if n.head? = some '/' then n else '/' :: n

/-- the child-view constructor, `getChild` (PropertyTree.cpp:14-28, PropertyTree.hpp:104-106, 137-139) -/
def childNamespace (ns child : Str) : Str :=
  let n := if child.head? = some '/' then ensureTrailingBackslash child
    else ensureTrailingBackslash (ns ++ child)
  if n.head? = some '/' then n else '/' :: n

/-- `buildQualifiedKeyName` (PropertyTree.cpp:52-59) -/
def qualify (ns key : Str) : Str :=
  let q := if key.head? = some '/' then key else ns ++ key
  if 1 < q.length ∧ q.getLast? = some '/' then q.dropLast else q

/-- `path_type(key.substr(1), '/')` (BoostPropertyTreeImplementation.hpp:97, 114, 128, 143) -/
def keyPath (qkey : Str) : Path := mkPath qkey.tail '/'

/-- value conversion for one type (boost's translator): `put` prints, `get` parses -/
structure Codec (T : Type) where
  print : T → Str
  parse : Str → Option T

/-- outcome of a getter without default -/
inductive GetRes (T : Type) where
  | value (v : T)
  /-- `InvalidValueException` -/
  | badValue
  /-- `InvalidKeyException` -/
  | badKey
deriving DecidableEq, Repr

/-- `get<T>(key)` (BoostPropertyTreeImplementation.hpp:90-109) through a view with namespace `ns` -/
def get {T} (c : Codec T) (t : Tree) (ns key : Str) : GetRes T :=
  match getData t (keyPath (qualify ns key)).frags with
  | none => .badKey
  | some d => match c.parse d with
    | some v => .value v
    | none => .badValue

/-- const `get<T>(key, default)` (BoostPropertyTreeImplementation.hpp:111-123) -/
def getDefault {T} (c : Codec T) (t : Tree) (ns key : Str) (dflt : T) : T :=
  match (getData t (keyPath (qualify ns key)).frags).bind c.parse with
  | some v => v
  | none => dflt

/-- `set<T>(key, value)` (BoostPropertyTreeImplementation.hpp:140-144) -/
def set {T} (c : Codec T) (t : Tree) (ns key : Str) (v : T) : Option Tree :=
  put t (keyPath (qualify ns key)) (c.print v)

/-- non-const `get<T>(key, default)` (BoostPropertyTreeImplementation.hpp:125-138): returns the value and
the tree afterwards (`none` = undefined behaviour in `put`) -/
def getDefaultMut {T} (c : Codec T) (t : Tree) (ns key : Str) (dflt : T) : Option (T × Tree) :=
  match (getData t (keyPath (qualify ns key)).frags).bind c.parse with
  | some v => some (v, t)
  | none => (set c t ns key dflt).map fun t' => (dflt, t')

/-- `doesKeyExist` (PropertyTree.cpp:133-137, BoostPropertyTreeImplementation.cpp:95-101) -/
def doesKeyExist (t : Tree) (ns key : Str) : Bool :=
  let q := qualify ns key
  let k := if q.head? = some '/' then q.tail else q
  (getData t (mkPath k '/').frags).isSome

/-- `std::replace(k.begin(), k.end(), '/', '.')` -/
def slashToDot (s : Str) : Str := s.map fun c => if c = '/' then '.' else c

/-- `getChildren` of a view (PropertyTree.cpp:164-176, BoostPropertyTreeImplementation.cpp:260-278): the
children's keys and copies of their trees; `none` = exception (no such child). -/
def getChildren (t : Tree) (ns : Str) : Option (List (Key × Tree)) :=
  let k := if ns.head? = some '/' then ns.tail else ns
  let k := if k.getLast? = some '/' then k.dropLast else k
  if k = [] then some t.kids
  else (getChild t (mkPath (slashToDot k) '.').frags).map Tree.kids

/-! ## update -/

/-- `childPath / path_type(key)` (string_path `operator /`): nothing is appended for an empty key -/
def joinPath (p k : Str) : Str :=
  if k = [] then p else if p = [] then k else p ++ '.' :: k

mutual
/-- the calls `method(childPath, child)` of `traverse_recursive` in order
(BoostPropertyTreeImplementation.cpp:285-295) -/
def traverse (p : Str) : Tree → List (Str × Str)
  | .node d ks => (p, d) :: traverseKids p ks
def traverseKids (p : Str) : List (Key × Tree) → List (Str × Str)
  | [] => []
  | (k, t) :: rest => traverse (joinPath p k) t ++ traverseKids p rest
end

/-- `child.data().empty() || find_first_not_of(" \n\t\r") == npos` -/
def isBlank (s : Str) : Bool := s.all fun c => c = ' ' || c = '\n' || c = '\t' || c = '\r'

inductive UpdRes where
  | ok (t : Tree)
  /-- `KeyNotFoundException`, with the tree as left behind -/
  | threw (t : Tree)
  | ub

/-- `updateOnly` / `merge` on one visited node (BoostPropertyTreeImplementation.cpp:297-307) -/
def updateOne (create ignoreEmpty : Bool) (dest : Tree) (p d : Str) : UpdRes :=
  if ignoreEmpty && isBlank d then .ok dest
  else if !create && (getData dest (mkPath p '.').frags).isNone then .threw dest
  else match put dest (mkPath p '.') d with
    | some t => .ok t
    | none => .ub

/-- the visits one after the other, stopping at the first exception -/
def updateAll (create ignoreEmpty : Bool) (dest : Tree) : List (Str × Str) → UpdRes
  | [] => .ok dest
  | (p, d) :: rest => match updateOne create ignoreEmpty dest p d with
    | .ok t => updateAll create ignoreEmpty t rest
    | r => r

/-- `update(with, createIfNecessary, ignoreEmptyUpdates)`
(BoostPropertyTreeImplementation.cpp:309-318) -/
def update (dest src : Tree) (create ignoreEmpty : Bool) : UpdRes :=
  updateAll create ignoreEmpty dest (traverse [] src)

end Verif.PTree
