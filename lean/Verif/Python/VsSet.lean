import Verif.ValueStore.Handles

/-!
# Model of setting values of value stores from Python (`sm_python/python/sm/__init__.py`, `sm_python/src/exportValueStoreRef.cpp`)

The exported `add<Type>` and `set<Type>` functions convert the argument; for the class the dispatch picks the conversion never fails, except that a Python
integer outside the range of `int` raises OverflowError.  `str`, `bool`, `int`, `float` stand for the classes and their subclasses.
-/

namespace Verif.Python

open Verif.PTree (Str)
open Verif.ValueStore

/-- a Python object, as far as the dispatch looks at it; `D` is the type of doubles -/
inductive PyVal (D : Type) where
  | str (s : Str)
  | bool (b : Bool)
  | int (n : Int)
  | float (x : D)
  /-- anything else: `unicode`, `long`, `None`, lists, … -/
  | other

/-- the four kinds of values -/
structure Kinds (D : Type) where
  s : Kind Str
  b : Kind Bool
  i : Kind Int
  d : Kind D

/-- how a call ends -/
inductive SetRes where
  | done (h : Heap)
  /-- an exception: of the store, or OverflowError -/
  | raised
  /-- `logFatal`, then `return`: nothing is set -/
  | ignored
  | ub

/-- `setBool` / `setInt` / … (exportValueStoreRef.cpp:57-64): `vs->get…(path).update(newVal)`; a handle without default is asked for -/
def pySet {T} (K : Kind T) [Inhabited T] (nd : Bool) (h : Heap) (s : HStore) (p : Str) (v : T) : SetRes :=
  match (s.handle K h p none).1 with
  | .val hd => match hd.update K.codec nd h v with
    | .done h' => .done h'
    | .assertion => .ub
    | .ub => .ub
  | .threw => .raised
  | .ub => .ub

/-- `addBool` / … (exportValueStoreRef.cpp:105-112) -/
def pyAddKey {T} (K : Kind T) (h : Heap) (s : HStore) (p : Str) (v : T) : SetRes :=
  match s.add K h p v with
  | some (.val r, _) => .done r.2
  | some (.threw, _) => .raised
  | some (.ub, _) => .ub
  | none => .raised

/-- the last statement (__init__.py:105-108) with the accessors of one kind -/
def pyStore {T} (K : Kind T) [Inhabited T] (nd : Bool) (h : Heap) (s : HStore) (p : Str) (v : T) (addIfMissing forceAdd : Bool) : SetRes :=
  if addIfMissing then
    match (s.hasKey h p).1 with
    | .val b => if !b || forceAdd then pyAddKey K h s p v else pySet K nd h s p v
    | .threw => .raised
    | .ub => .ub
  else pySet K nd h s p v

/-- `setExtendableValueStoreValue(evs, key, value, add_if_missing=True, force_add=False)` (__init__.py:89-108); a `bool` is also an `int`, so the order of the
tests matters -/
def pySetValue {D : Type} [Inhabited D] (Ks : Kinds D) (nd : Bool) (h : Heap) (s : HStore) (p : Str) (v : PyVal D) (addIfMissing forceAdd : Bool) : SetRes :=
  match v with
  | .str x => pyStore Ks.s nd h s p x addIfMissing forceAdd
  | .bool x => pyStore Ks.b nd h s p x addIfMissing forceAdd
  | .int n =>
    if -2147483648 ≤ n ∧ n ≤ 2147483647 then pyStore Ks.i nd h s p n addIfMissing forceAdd
    else if addIfMissing then
      match (s.hasKey h p).1 with
      | .val _ => .raised
      | .threw => .raised
      | .ub => .ub
    else .raised
  | .float x => pyStore Ks.d nd h s p x addIfMissing forceAdd
  | .other => .ignored

end Verif.Python
