import Verif.ValueStore.Model

/-!
# Value handles, sharing and logging in `sm_value_store`

In `Verif.ValueStore.Model` a store is read at one moment.  Here the property trees live on a heap that stores share, so that
updates through handles, children and `add…` can be followed; and the lines that verbose stores log are kept.
The other stores (`LayeredValueStore`, `PrefixedValueStore`, the verbose ones) have no changing state of their own.
Stores of other classes are not in this model.
-/

namespace Verif.ValueStore

open Verif.PTree (Str Key Tree Codec childNamespace doesKeyExist)

/-- the `BoostPropertyTreeImplementation` objects by identity, and the next fresh identity -/
structure Heap where
  trees : Nat → Tree
  next : Nat

def Heap.set (h : Heap) (i : Nat) (t : Tree) : Heap := { h with trees := fun j => if j = i then t else h.trees j }

inductive HStore where
  /-- `PropertyTreeValueStore`: the implementation it shares, and the namespace -/
  | tree (i : Nat) (ns : Str)
  | layered (layers : List HStore)
  | prefixed (mode : Mode) (pre : Str) (s : HStore)
  /-- `VerboseValueStore`: its `log_` writes the text behind `tag` to the sink -/
  | verbose (sink : Nat) (tag : Str) (s : HStore)
  /-- `VerboseExtendibleValueStore` -/
  | verboseExt (sink : Nat) (tag : Str) (s : HStore)

mutual
/-- the store as `Verif.ValueStore.Model` sees it at the moment -/
def HStore.at (h : Heap) : HStore → Store
  | .tree i ns => .tree (h.trees i) ns
  | .layered ls => .layered (atAll h ls)
  | .prefixed mode pre s => .prefixed mode pre (s.at h)
  | .verbose _ _ s => .verbose (s.at h)
  | .verboseExt _ _ s => .verbose (s.at h)
def atAll (h : Heap) : List HStore → List Store
  | [] => []
  | s :: ls => s.at h :: atAll h ls
end

/-- lines written to the sinks, in order -/
abbrev Lines := List (Nat × Str)

/-- result and lines written -/
abbrev W (T : Type) := R T × Lines

def W.bind {T U} (x : W T) (f : T → W U) : W U :=
  match x.1 with
  | .val v => ((f v).1, x.2 ++ (f v).2)
  | .threw => (.threw, x.2)
  | .ub => (.ub, x.2)

/-- one of the four value types: translator, the names of the functions, and `getValue` (VerboseValueStore.cpp:20-27) -/
structure Kind (T : Type) where
  codec : Codec T
  getter : Str
  adder : Str
  shown : T → Str

def quoted (s : Str) : Str := ['"'] ++ s ++ ['"']

/-- `std::to_string(bool)` -/
def showBool (b : Bool) : Str := if b then ['1'] else ['0']

mutual
/-- `hasKey` with what the verbose stores log (VerboseValueStore.cpp:47-50, 59-71) -/
def HStore.hasKey (h : Heap) : HStore → Str → W Bool
  | .tree i ns, path => (.val (doesKeyExist (h.trees i) ns path), [])
  | .layered ls, path => hasAny h ls path
  | .prefixed mode pre s, path =>
    match (applyPrefix mode pre path).2 with
    | none => (.ub, [])
    | some false => (.val false, [])
    | some true => s.hasKey h (applyPrefix mode pre path).1
  | .verbose k tag s, path => (s.hasKey h path).bind fun b =>
      (.val b, [(k, tag ++ "hasKey(".toList ++ quoted path ++ ")->".toList ++ showBool b)])
  | .verboseExt k tag s, path => (s.hasKey h path).bind fun b =>
      (.val b, [(k, tag ++ "hasKey(".toList ++ quoted path ++ ")->".toList ++ showBool b)])
def hasAny (h : Heap) : List HStore → Str → W Bool
  | [], _ => (.val false, [])
  | s :: ls, path => (s.hasKey h path).bind fun b => if b then (.val true, []) else hasAny h ls path
end

/-- `ValueHandle<T>` with its implementation: `ConstValueHandleImpl` (ValueStore.hpp:27-37) or
`PropertyTreeValueStoreValueHanlder` (PropertyTreeValueStore.cpp:45-60), which keeps a view of the tree and the path -/
inductive Handle (T : Type) where
  | const (v : T)
  | live (i : Nat) (ns path : Str)
deriving DecidableEq

/-- `isUpdateable` -/
def Handle.isUpdateable {T} : Handle T → Bool
  | .const _ => false
  | .live _ _ _ => true

/-- `get` -/
def Handle.get {T} (c : Codec T) (h : Heap) : Handle T → R T
  | .const v => .val v
  | .live i ns path => treeGet c (h.trees i) ns path none

/-- what `update` does: the heap afterwards; the failed `assert(false)`; or undefined behaviour in `ptree::put` -/
inductive UpdateRes where
  | done (h : Heap)
  | assertion
  | ub

/-- `update`; `ndebug` is whether assertions are compiled away -/
def Handle.update {T} (c : Codec T) (ndebug : Bool) (h : Heap) (v : T) : Handle T → UpdateRes
  | .const _ => if ndebug then .done h else .assertion
  | .live i ns path => match Verif.PTree.set c (h.trees i) ns path v with
    | some t => .done (h.set i t)
    | none => .ub

/-- the line of `logValue` for a getter (VerboseValueStore.cpp:59-71), after the inner getter: `hasKey` is asked only when there is a default -/
def logGet {T} (K : Kind T) (h : Heap) (sink : Nat) (tag path : Str) (d : Option T) (has : W Bool) (hd : Handle T) : W (Handle T) :=
  match d with
  | none => match hd.get K.codec h with
    | .val v => (.val hd, [(sink, tag ++ K.getter ++ ['('] ++ quoted path ++ ")->".toList ++ K.shown v)])
    | .threw => (.threw, [])
    | .ub => (.ub, [])
  | some _ => has.bind fun b => match hd.get K.codec h with
    | .val v => (.val hd, [(sink, tag ++ K.getter ++ ['('] ++ quoted path ++ ")->".toList ++ (if b then [] else "DEFAULT:".toList) ++ K.shown v)])
    | .threw => (.threw, [])
    | .ub => (.ub, [])

mutual
/-- `getBool` / `getInt` / `getDouble` / `getString` as functions that give a handle -/
def HStore.handle {T} (K : Kind T) [Inhabited T] (h : Heap) : HStore → Str → Option T → W (Handle T)
  | .tree i ns, path, some d => (.val (.const (Verif.PTree.getDefault K.codec (h.trees i) ns path d)), [])
  | .tree i ns, path, none => match Verif.PTree.get K.codec (h.trees i) ns path with
    | .value _ => (.val (.live i ns path), [])
    | .badValue => (.threw, [])
    | .badKey => (.threw, [])
  | .layered ls, path, d => handleLayers K h ls path d
  | .prefixed mode pre s, path, d => match applyPrefixOrThrow mode pre path with
    | .val q => s.handle K h q d
    | .threw => (.threw, [])
    | .ub => (.ub, [])
  | .verbose k tag s, path, d => (s.handle K h path d).bind fun hd => logGet K h k tag path d (s.hasKey h path) hd
  | .verboseExt k tag s, path, d => (s.handle K h path d).bind fun hd => logGet K h k tag path d (s.hasKey h path) hd
/-- `getFromLayers` (ValueStore.cpp:50-62) -/
def handleLayers {T} (K : Kind T) [Inhabited T] (h : Heap) : List HStore → Str → Option T → W (Handle T)
  | [], _, _ => (.val (.const default), [])
  | s :: ls, path, d => match ls with
    | [] => s.handle K h path d
    | _ :: _ => (s.hasKey h path).bind fun b => if b then s.handle K h path none else handleLayers K h ls path d
end

mutual
/-- `getChild` (as in `Verif.ValueStore.Model`): views share the implementation.  `ValueStoreRef()` allocates a fresh tree. -/
def HStore.getChild (h : Heap) : HStore → Str → W HStore × Heap
  | .tree i ns, key => ((.val (.tree i (childNamespace ns key)), []), h)
  | .layered ls, key => match getChildLayers h ls key with
    | ((.val cs, l), h') => ((.val (match cs with | [c] => c | _ => .layered cs), l), h')
    | ((.threw, l), h') => ((.threw, l), h')
    | ((.ub, l), h') => ((.ub, l), h')
  | .prefixed mode pre s, key =>
    match (applyPrefix mode pre key).2 with
    | none => ((.ub, []), h)
    | some false => ((.val (.tree h.next ['/']), []), { h.set h.next .empty with next := h.next + 1 })
    | some true =>
      if mode = .remove ∧ ((applyPrefix mode pre key).1 = [] ∨ (applyPrefix mode pre key).1 = ['/']) then ((.val s, []), h)
      else ((.val (.prefixed mode (applyPrefix mode pre key).1 s), []), h)
  | .verbose k tag s, key => match s.getChild h key with
    | (x, h') => (W.bind (.val (), [(k, tag ++ "getChild(".toList ++ key ++ [')'])]) fun _ => x.bind fun c =>
        (.val (.verbose k (tag ++ "child(".toList ++ key ++ "):".toList) c), []), h')
  | .verboseExt k tag s, key => match s.getChild h key with
    | (x, h') => (W.bind (.val (), [(k, tag ++ "getChild(".toList ++ key ++ [')'])]) fun _ => x.bind fun c =>
        (.val (.verbose k (tag ++ "child(".toList ++ key ++ "):".toList) c), []), h')
def getChildLayers (h : Heap) : List HStore → Str → W (List HStore) × Heap
  | [], _ => ((.val [], []), h)
  | s :: ls, key => match s.getChild h key with
    | ((.val c, l), h') => match getChildLayers h' ls key with
      | (x, h'') => (W.bind (.val (), l) fun _ => x.bind fun cs => (.val (c :: cs), []), h'')
    | ((.threw, l), h') => ((.threw, l), h')
    | ((.ub, l), h') => ((.ub, l), h')
end

/-- copies of trees as new objects (BoostPropertyTreeImplementation.cpp:274-276) -/
def allocAll (h : Heap) : List (Key × Tree) → List (Str × HStore) × Heap
  | [] => ([], h)
  | (k, t) :: rest =>
    let r := allocAll { h.set h.next t with next := h.next + 1 } rest
    ((k, .tree h.next ['/']) :: r.1, r.2)

/-- `PropertyTreeValueStore::getChildren` and `getExtendibleChildren` (PropertyTreeValueStore.cpp:88-96, 127-135) -/
def treeChildren (h : Heap) (i : Nat) (ns : Str) : R (List (Str × HStore)) × Heap :=
  match Verif.PTree.getChildren (h.trees i) ns with
  | some ks => (.val (allocAll h ks).1, (allocAll h ks).2)
  | none => (.threw, h)

/-- the loop `verboseChildren.push_back(this->getChild(c.getKey()))` (VerboseValueStore.cpp:82-84) -/
def HStore.childrenOneByOne (h : Heap) (s : HStore) : List Str → W (List (Str × HStore)) × Heap
  | [] => ((.val [], []), h)
  | k :: ks => match s.getChild h k with
    | ((.val c, l), h') => match HStore.childrenOneByOne h' s ks with
      | (x, h'') => (W.bind (.val (), l) fun _ => x.bind fun cs => (.val ((k, c) :: cs), []), h'')
    | ((.threw, l), h') => ((.threw, l), h')
    | ((.ub, l), h') => ((.ub, l), h')

/-- `getChildren` of a property tree store, or of a verbose store over one (PropertyTreeValueStore.cpp:88-96, VerboseValueStore.cpp:78-86); of the others the
reading is in `Verif.ValueStore.Model` -/
def HStore.getChildren (h : Heap) : HStore → W (List (Str × HStore)) × Heap
  | .tree i ns => (((treeChildren h i ns).1, []), (treeChildren h i ns).2)
  | .verbose k tag s => match s.getChildren h with
    | (x, h') => match x.1 with
      | .val cs => match (HStore.verbose k tag s).childrenOneByOne h' (cs.map Prod.fst) with
        | (y, h'') => (W.bind (.val (), (k, tag ++ "getChildren()".toList) :: x.2) fun _ => y, h'')
      | .threw => ((.threw, (k, tag ++ "getChildren()".toList) :: x.2), h')
      | .ub => ((.ub, (k, tag ++ "getChildren()".toList) :: x.2), h')
  | _ => ((.threw, []), h)

/-! ## Extendible stores, saving, emptiness -/

/-- `isExtendible` (ValueStore.hpp:86-88, 229-231): `ExtendibleValueStore` and the classes that derive from it -/
def HStore.isExtendible : HStore → Bool
  | .tree _ _ => true
  | .verboseExt _ _ _ => true
  | _ => false

/-- `addBool` / … of an extendible store (PropertyTreeValueStore.cpp:103-121, VerboseValueStore.cpp:93-111): the heap afterwards, and the handle, which is
constant.  `none`: not an extendible store (does not compile). -/
def HStore.add {T} (K : Kind T) (h : Heap) : HStore → Str → T → Option (W (Handle T × Heap))
  | .tree i ns, path, v => some (match Verif.PTree.set K.codec (h.trees i) ns path v with
    | some t => (.val (.const v, h.set i t), [])
    | none => (.ub, []))
  | .verboseExt k tag s, path, v => (s.add K h path v).map fun x => x.bind fun r => match r.1.get K.codec r.2 with
    | .val w => (.val r, [(k, tag ++ K.adder ++ ['('] ++ quoted path ++ ")->INITIAL:".toList ++ K.shown w)])
    | .threw => (.threw, [])
    | .ub => (.ub, [])
  | _, _, _ => none

/-- `getExtendibleChild` (PropertyTreeValueStore.cpp:123-125, VerboseValueStore.cpp:113-116) -/
def HStore.getExtendibleChild : HStore → Str → Option (HStore × Lines)
  | .tree i ns, key => some (.tree i (childNamespace ns key), [])
  | .verboseExt k tag s, key => (s.getExtendibleChild key).map fun c =>
      (.verboseExt k (tag ++ "EC(".toList ++ key ++ "):".toList) c.1, (k, tag ++ "getExtendibleChild(".toList ++ key ++ [')']) :: c.2)
  | _, _ => none

/-- `canSave` (PropertyTreeValueStore.cpp:250-261) -/
def HStore.canSave : HStore → Bool
  | .tree _ _ => true
  | _ => false

/-- the tree that `saveTo` writes to the file (PropertyTreeValueStore.cpp:263-270): a `BoostPropertyTree` made of the implementation, without the namespace;
`none`: the exception -/
def HStore.saved (h : Heap) : HStore → Option Tree
  | .tree i _ => some (h.trees i)
  | _ => none

/-- `isEmpty` (ValueStore.cpp:15-17, PropertyTreeValueStore.cpp:243-248): the implementation's `begin() == end()`; false for all other stores -/
def HStore.isEmpty (h : Heap) : HStore → Bool
  | .tree i _ => (h.trees i).kids.isEmpty
  | _ => false

end Verif.ValueStore
