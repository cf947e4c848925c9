import Verif.PTree.Model

/-!
# Model of `sm_value_store`

A `Store` is the structure of a value store: property trees (`PropertyTreeValueStore`), layered and
prefixed stores, verbose wrappers (their log output is not modelled) and an arbitrary user store with flat
keys and no support for children.  A store is read at one moment: trees are the contents at that moment.
Values are read through a `Codec` (boost's translator) as in the property tree model.
-/

namespace Verif.ValueStore

open Verif.PTree (Str Key Tree Codec GetRes childNamespace qualify keyPath getData doesKeyExist)

/-- result of a call: a value, an exception, or undefined behaviour -/
inductive R (T : Type) where
  | val (v : T)
  | threw
  | ub
deriving DecidableEq, Repr

def R.bind {T U} (r : R T) (f : T → R U) : R U :=
  match r with
  | .val v => f v
  | .threw => .threw
  | .ub => .ub

/-- `PrefixedValueStore::PrefixMode` -/
inductive Mode where
  | add
  | remove
deriving DecidableEq, Repr

inductive Store where
  /-- `PropertyTreeValueStore`: a view with namespace `ns` -/
  | tree (t : Tree) (ns : Str)
  /-- `LayeredValueStore`; null pointers are never stored (LayeredValueStore.hpp:24-25) -/
  | layered (layers : List Store)
  /-- `PrefixedValueStore`; `pre` is the prefix given to the constructor (PrefixedValueStore.hpp:15) -/
  | prefixed (mode : Mode) (pre : Str) (s : Store)
  /-- `VerboseValueStore` -/
  | verbose (s : Store)
  /-- a store outside the library: key/text pairs, `isChildSupported` false -/
  | user (f : Str → Option Str)

/-- `ValueStoreRef()`: a fresh empty property tree (ValueStore.cpp:115-119) -/
def Store.fresh : Store := .tree .empty ['/']

/-- `applyPrefix(path, &isPossible)` (PrefixedValueStore.cpp:50-73): the translated path and `isPossible`;
`none` for `isPossible` is an uninitialised variable. -/
def applyPrefix (mode : Mode) (pre path : Str) : Str × Option Bool :=
  let p := pre ++ ['/']
  match mode with
  | .add => (p ++ path, none)
  | .remove =>
    if p.length ≤ path.length ∧ path.take p.length = p then (path.drop p.length, some true)
    else ([], some (decide (path.length = p.length - 1 ∧ path ++ ['/'] = p)))

/-- `applyPrefix(path)`: in REMOVE mode an exception for a path without the prefix -/
def applyPrefixOrThrow (mode : Mode) (pre path : Str) : R Str :=
  let p := pre ++ ['/']
  match mode with
  | .add => .val (p ++ path)
  | .remove =>
    if p.length ≤ path.length ∧ path.take p.length = p then .val (path.drop p.length)
    else .threw

mutual
/-- `hasKey` (ValueStore.cpp:40-48, PrefixedValueStore.cpp:23-27, PropertyTreeValueStore.cpp:84-86,
VerboseValueStore.cpp:55-57) -/
def Store.hasKey : Store → Str → R Bool
  | .tree t ns, path => .val (doesKeyExist t ns path)
  | .layered ls, path => anyHasKey ls path
  | .prefixed mode pre s, path =>
    match (applyPrefix mode pre path).2 with
    | none => .ub
    | some false => .val false
    | some true => s.hasKey (applyPrefix mode pre path).1
  | .verbose s, path => s.hasKey path
  | .user f, path => .val (f path).isSome
/-- the loop of `LayeredValueStore::hasKey` -/
def anyHasKey : List Store → Str → R Bool
  | [], _ => .val false
  | s :: ls, path => (s.hasKey path).bind fun b => if b then .val true else anyHasKey ls path
end

/-- `get<T>(path)` / `get<T>(path, def)` of a tree view (PropertyTreeValueStore.cpp:62-69); a default is
read by the const getter, which does not write -/
def treeGet {T} (c : Codec T) (t : Tree) (ns path : Str) : Option T → R T
  | some d => .val (Verif.PTree.getDefault c t ns path d)
  | none => match Verif.PTree.get c t ns path with
    | .value v => .val v
    | .badValue => .threw
    | .badKey => .threw

mutual
/-- `getBool` / `getInt` / `getDouble` / `getString` with an optional default -/
def Store.get {T} (c : Codec T) [Inhabited T] : Store → Str → Option T → R T
  | .tree t ns, path, d => treeGet c t ns path d
  | .layered ls, path, d => getFromLayers c ls path d
  | .prefixed mode pre s, path, d => match applyPrefixOrThrow mode pre path with
    | .val q => s.get c q d
    | .threw => .threw
    | .ub => .ub
  | .verbose s, path, d => (s.get c path d).bind fun v => match d with
    -- `logValue` asks `hasKey` when a default was given (VerboseValueStore.cpp:66-78)
    | some _ => (s.hasKey path).bind fun _ => .val v
    | none => .val v
  | .user f, path, d => match f path, d with
    | none, some d => .val d
    | none, none => .threw
    | some t, _ => match c.parse t with
      | some v => .val v
      | none => .threw
/-- `getFromLayers` (ValueStore.cpp:50-62): all but the last layer are asked for the key first -/
def getFromLayers {T} (c : Codec T) [Inhabited T] : List Store → Str → Option T → R T
  | [], _, _ => .val default
  | s :: ls, path, d => match ls with
    | [] => s.get c path d
    | _ :: _ => match s.hasKey path with
      | .val true => s.get c path none
      | .val false => getFromLayers c ls path d
      | .threw => .threw
      | .ub => .ub
end

mutual
/-- `getChild` (ValueStore.cpp:70-86, PrefixedValueStore.cpp:29-41, PropertyTreeValueStore.cpp:98-100,
VerboseValueStore.cpp:59-64); the user store does not support it -/
def Store.getChild : Store → Str → R Store
  | .tree t ns, key => .val (.tree t (childNamespace ns key))
  | .layered ls, key => (childLayers ls key).bind fun cs => match cs with
    | [c] => .val c
    | _ => .val (.layered cs)
  | .prefixed mode pre s, key =>
    match (applyPrefix mode pre key).2 with
    | none => .ub
    | some false => .val .fresh
    | some true =>
      if mode = .remove ∧ ((applyPrefix mode pre key).1 = [] ∨ (applyPrefix mode pre key).1 = ['/']) then .val s
      else .val (.prefixed mode (applyPrefix mode pre key).1 s)
  | .verbose s, key => (s.getChild key).bind fun c => .val (.verbose c)
  | .user _, _ => .threw
/-- the children of all layers, in order -/
def childLayers : List Store → Str → R (List Store)
  | [], _ => .val []
  | s :: ls, key => (s.getChild key).bind fun c => (childLayers ls key).bind fun cs => .val (c :: cs)
end

mutual
/-- `isChildSupported` (ValueStore.cpp:64-69, PrefixedValueStore.cpp:75-82, VerboseValueStore.cpp:80-82) -/
def Store.childSupported : Store → Bool
  | .tree _ _ => true
  | .layered ls => allChildSupported ls
  | .prefixed .remove _ s => s.childSupported
  | .prefixed .add _ _ => true
  | .verbose s => s.childSupported
  | .user _ => false
def allChildSupported : List Store → Bool
  | [] => true
  | s :: ls => s.childSupported && allChildSupported ls
end

/-- the children `map` collects under each key, in the order the keys were first seen
(ValueStore.cpp:88-110; the iteration order of the `unordered_map` is not fixed by the code) -/
def groupKeys (cs : List (Str × Store)) : List Str := (cs.map Prod.fst).eraseDups

/-- one child itself, or the layering of all children with that key (ValueStore.cpp:98-108) -/
def groupStore (cs : List (Str × Store)) (k : Str) : Store :=
  match (cs.filter fun c => c.1 = k).map Prod.snd with
  | [c] => c
  | l => .layered l

mutual
/-- `getChildren` (ValueStore.cpp:88-110, PrefixedValueStore.cpp:42-44, PropertyTreeValueStore.cpp:88-96,
VerboseValueStore.cpp:85-93).  Children of a tree are trees of their own. -/
def Store.getChildren : Store → R (List (Str × Store))
  | .tree t ns => match Verif.PTree.getChildren t ns with
    | some ks => .val (ks.map fun k => (k.1, .tree k.2 ['/']))
    | none => .threw
  | .layered ls => (allChildren ls).bind fun cs =>
      .val ((groupKeys cs).map fun k => (k, groupStore cs k))
  | .prefixed _ _ _ => .threw
  | .verbose s => s.getChildren.bind fun cs => verboseChildren s (cs.map Prod.fst)
  | .user _ => .threw
/-- the children of all layers in order -/
def allChildren : List Store → R (List (Str × Store))
  | [] => .val []
  | s :: ls => s.getChildren.bind fun cs => (allChildren ls).bind fun r => .val (cs ++ r)
/-- the loop `verboseChildren.push_back(this->getChild(c.getKey()))` -/
def verboseChildren (s : Store) : List Str → R (List (Str × Store))
  | [] => .val []
  | k :: ks => (s.getChild k).bind fun c => (verboseChildren s ks).bind fun r => .val ((k, .verbose c) :: r)
end

/-- `ValueStoreRef::getChild` (ValueStore.cpp:19-26) -/
def Store.refChild (s : Store) (key : Str) : R Store :=
  if s.childSupported then s.getChild key else .val (.prefixed .add key s)

/-! ## findPathAndAlert -/

/-- what `findPathAndAlert` does: the path, and the alert `(path, message)` if one was given;
`defaultMessage` stands for the generated text when the message is missing -/
structure Found where
  path : Str
  alert : Option (Str × Str)
deriving DecidableEq, Repr

/-- the text used when a deprecated path is the last entry (ValueStore.cpp:135-136) -/
def deprecatedMessage (pp first : Str) : Str :=
  "Property name '".toList ++ pp ++ "' is deprecated! Use ".toList ++ first ++ " instead.".toList

/-- the loop of `findPathAndAlert` (ValueStore.cpp:126-146) over the rest of the list; `none` = not found -/
def findLoop (has : Str → Bool) (first : Str) : List Str → Option Found
  | [] => none
  | p :: rest =>
    match p with
    | '!' :: pp =>
      if has pp then
        match rest with
        | m :: _ => some ⟨pp, some (pp, m)⟩
        | [] => some ⟨pp, some (pp, deprecatedMessage pp first)⟩
      else findLoop has first rest
    | _ => if has p then some ⟨p, none⟩ else findLoop has first rest

/-- `findPathAndAlert` (ValueStore.cpp:126-149); `none` = undefined behaviour (`front()` of an empty vector) -/
def findPathAndAlert (has : Str → Bool) (paths : List Str) : Option Found :=
  match findLoop has (paths.headD []) paths with
  | some f => some f
  | none => match paths with
    | [] => none
    | p :: _ => some ⟨p, none⟩

/-! ## the property tree view of a store -/

/-- `translateKey` (PropertyTreeValueStore.cpp:226-233) -/
def translateKey (key : Str) : Str := if key.head? = some '/' then key.tail else key

/-- `asPropertyTree().get…(key)` and `…(key, def)` through the root view of the resulting tree
(PropertyTreeValueStore.cpp:148-187, 236-238; PropertyTree.cpp:7-12, 52-59) -/
def asTreeGet {T} (c : Codec T) [Inhabited T] (s : Store) (ns key : Str) (d : Option T) : R T :=
  s.get c (translateKey (qualify ns key)) d

/-- `asPropertyTree().doesKeyExist(key)` -/
def asTreeHas (s : Store) (ns key : Str) : R Bool := s.hasKey (translateKey (qualify ns key))

end Verif.ValueStore
