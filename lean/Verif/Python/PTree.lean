import Verif.PTree.Model

/-!
# Model of the Python classes of property trees (`sm_python/src/exportPropertyTree.cpp`)

A Python object of one of the classes `ConstPropertyTree`, `PropertyTree`, `BoostPropertyTree` holds a C++ object by value; that object is a pointer to a tree and
a namespace.  Calling a method looks the name up in the class of the object and then in its bases; the function found asks for its first argument as a reference
to a C++ class, and Boost.Python finds the object inside if its class is that class or derives from it.  `.def("getChild", &PropertyTree::getChild)` in the class of
`ConstPropertyTree` (exportPropertyTree.cpp:43) registers a function whose first argument is the more derived of the two classes, `PropertyTree`
(`boost/python/signature.hpp`, `most_derived`).

Simplified: arguments are positional; the text of exceptions is left out; doubles are any type with a conversion from integers; the readers of files
are a parameter; `saveXml`, … do not touch a tree and are left out (C81 and the properties of `load` and `save` treat files).
-/

namespace Verif.Python.Tree

open Verif.PTree (Str Tree Codec)

/-- the three classes -/
inductive Cls
  | const | tree | boost
  deriving DecidableEq, Repr

/-- the class and its bases in the order of lookup: `bases<ConstPropertyTree>`, `bases<PropertyTree>` (exportPropertyTree.cpp:51, 63) -/
def Cls.mro : Cls → List Cls
  | .const => [.const]
  | .tree => [.tree, .const]
  | .boost => [.boost, .tree, .const]

/-- the four kinds of values -/
inductive VK
  | int | bool | str | dbl
  deriving DecidableEq, Repr

/-- the C++ type of a kind -/
def VK.Ty (D : Type) : VK → Type
  | .int => Int
  | .bool => Bool
  | .str => Str
  | .dbl => D

/-- a Python object given as an argument -/
inductive Arg (D : Type) where
  | str (s : Str)
  | bool (b : Bool)
  | int (n : Int)
  | float (x : D)
  | none
  /-- the `i`-th object of the three classes -/
  | obj (i : Nat)
  /-- anything else -/
  | other

/-- the outcome of converting an argument -/
inductive Conv (T : Type) where
  | ok (v : T)
  /-- no conversion: `ArgumentError` -/
  | mismatch
  /-- `OverflowError` -/
  | overflow

/-- what the model does not fix: the conversions between values and text, that of integers to doubles, and the readers of files -/
structure Env (D : Type) where
  codec : (k : VK) → Codec (k.Ty D)
  ofInt : Int → Option D
  /-- `read_xml`, `read_ini`, `read_info` for a file name; `none` = exception, the tree is not changed -/
  read : Nat → Str → Option Tree

/-- `std::string` from Python (boost `builtin_converters.cpp`): only `str` -/
def convStr {D : Type} : Arg D → Conv Str
  | .str s => .ok s
  | _ => .mismatch

/-- `int`: integers (a `bool` is one) in the range of `int` -/
def convInt {D : Type} : Arg D → Conv Int
  | .int n => if -2147483648 ≤ n ∧ n ≤ 2147483647 then .ok n else .overflow
  | .bool b => .ok (if b then 1 else 0)
  | _ => .mismatch

/-- `bool`: integers and `None` -/
def convBool {D : Type} : Arg D → Conv Bool
  | .int n => .ok (n != 0)
  | .bool b => .ok b
  | .none => .ok false
  | _ => .mismatch

/-- `double`: numbers -/
def convDbl {D : Type} (E : Env D) : Arg D → Conv D
  | .float x => .ok x
  | .int n => match E.ofInt n with
    | some x => .ok x
    | Option.none => .overflow
  | .bool b => match E.ofInt (if b then 1 else 0) with
    | some x => .ok x
    | Option.none => .overflow
  | _ => .mismatch

/-- the argument of the kind `k` -/
def conv {D : Type} (E : Env D) : (k : VK) → Arg D → Conv (k.Ty D)
  | .int => convInt
  | .bool => convBool
  | .str => convStr
  | .dbl => convDbl E

/-- the Python value of a C++ value -/
def toPy {D : Type} : (k : VK) → k.Ty D → Arg D
  | .int, n => .int n
  | .bool, b => .bool b
  | .str, s => .str s
  | .dbl, x => .float x

/-- the C++ functions that are registered -/
inductive Fn
  | getChild
  | get (k : VK)
  | getDefault (k : VK)
  | doesKeyExist
  | getOrCreate (k : VK)
  | set (k : VK)
  | load (format : Nat)
  | update3 | update2 | update1
  deriving DecidableEq, Repr

/-- the `.def`s of a class (exportPropertyTree.cpp:42-49, 51-61, 63-88) -/
def defs : Cls → List (String × Fn)
  | .const =>
    [("getChild", .getChild), ("getInt", .get .int), ("getIntDefault", .getDefault .int), ("getString", .get .str), ("getStringDefault", .getDefault .str),
     ("getBool", .get .bool), ("getBoolDefault", .getDefault .bool), ("getDouble", .get .dbl), ("getDoubleDefault", .getDefault .dbl), ("doesKeyExist", .doesKeyExist)]
  | .tree =>
    [("getChild", .getChild), ("getOrCreateInt", .getOrCreate .int), ("getOrCreateString", .getOrCreate .str), ("getOrCreatetBool", .getOrCreate .bool),
     ("getOrCreateDouble", .getOrCreate .dbl), ("setInt", .set .int), ("setBool", .set .bool), ("setString", .set .str), ("setDouble", .set .dbl)]
  | .boost =>
    [("loadXml", .load 0), ("loadIni", .load 1), ("loadInfo", .load 2), ("update", .update3), ("updateWithEmptyUpdates", .update2), ("updateOrCreate", .update1)]

/-- the class of the first argument of a function -/
def Fn.self : Fn → Cls
  | .getChild => .tree
  | .get _ => .const
  | .getDefault _ => .const
  | .doesKeyExist => .const
  | .getOrCreate _ => .tree
  | .set _ => .tree
  | .load _ => .boost
  | .update3 => .boost
  | .update2 => .boost
  | .update1 => .boost

/-- `getattr(object, name)`: the first class that has the name -/
def lookup (c : Cls) (name : String) : Option Fn :=
  c.mro.findSome? fun d => (defs d).lookup name

/-- an object: its class, `_imp` and `_namespace` -/
structure Obj where
  cls : Cls
  imp : Nat
  ns : Str
  deriving DecidableEq, Repr

/-- the trees (`PropertyTreeImplementation`s, shared) and the objects made so far -/
structure Sess where
  trees : List Tree
  objs : List Obj

/-- how a call ends -/
inductive Out (D : Type) where
  | value (v : Arg D)
  /-- returned `None` -/
  | unit
  /-- a new object -/
  | made (i : Nat)
  | attributeError | argumentError | overflowError
  /-- an exception of the library, derived from `std::runtime_error` -/
  | runtimeError
  /-- undefined behaviour -/
  | ub

/-- the statements -/
inductive Cmd (D : Type) where
  /-- `ConstPropertyTree(parent, childNamespace)` (exportPropertyTree.cpp:42) -/
  | newConst (parent : Nat) (ns : Arg D)
  /-- `PropertyTree(parent, childNamespace)` (51) -/
  | newTree (parent : Nat) (ns : Arg D)
  /-- `BoostPropertyTree()` and `BoostPropertyTree(baseNamespace)` (63-64) -/
  | newBoost (base : Option (Arg D))
  /-- `object.name(args)` -/
  | call (self : Nat) (name : String) (args : List (Arg D))

/-- the class of an object derives from `d` -/
def Obj.isA (o : Obj) (d : Cls) : Bool := o.cls.mro.contains d

/-- a new object at the end of the list -/
def Sess.push {D : Type} (s : Sess) (o : Obj) : Out D × Sess := (.made s.objs.length, { s with objs := s.objs ++ [o] })

/-- the tree `i` -/
def Sess.tree (s : Sess) (i : Nat) : Tree := s.trees.getD i .empty

/-- the session with another tree `i` -/
def Sess.putTree (s : Sess) (i : Nat) (t : Tree) : Sess := { s with trees := s.trees.set i t }

/-- run the rest with a converted argument -/
def withArg {D T : Type} (s : Sess) (c : Conv T) (f : T → Out D × Sess) : Out D × Sess :=
  match c with
  | .ok v => f v
  | .mismatch => (.argumentError, s)
  | .overflow => (.overflowError, s)

/-- `BoostPropertyTree::update` (BoostPropertyTree.cpp:196-200): the namespaces play no part -/
def doUpdate {D : Type} (s : Sess) (dst src : Obj) (create ignoreEmpty : Bool) : Out D × Sess :=
  match Verif.PTree.update (s.tree dst.imp) (s.tree src.imp) create ignoreEmpty with
  | .ok t => (.unit, s.putTree dst.imp t)
  | .threw t => (.runtimeError, s.putTree dst.imp t)
  | .ub => (.ub, s)

/-- the argument as a reference to a `BoostPropertyTree` -/
def withBoost {D : Type} (s : Sess) (a : Arg D) (f : Obj → Out D × Sess) : Out D × Sess :=
  match a with
  | .obj j => match s.objs[j]? with
    | some o => if o.isA .boost then f o else (.argumentError, s)
    | none => (.argumentError, s)
  | _ => (.argumentError, s)

/-- a function on an object whose class fits -/
def invoke {D : Type} (E : Env D) (s : Sess) (o : Obj) (f : Fn) (args : List (Arg D)) : Out D × Sess :=
  match f, args with
  | .getChild, [c] => withArg s (convStr c) fun c => s.push ⟨.tree, o.imp, Verif.PTree.childNamespace o.ns c⟩
  | .get k, [key] => withArg s (convStr key) fun key =>
    match Verif.PTree.get (E.codec k) (s.tree o.imp) o.ns key with
    | .value v => (.value (toPy k v), s)
    | _ => (.runtimeError, s)
  | .getDefault k, [key, d] => withArg s (convStr key) fun key => withArg s (conv E k d) fun d =>
    (.value (toPy k (Verif.PTree.getDefault (E.codec k) (s.tree o.imp) o.ns key d)), s)
  | .doesKeyExist, [key] => withArg s (convStr key) fun key => (.value (.bool (Verif.PTree.doesKeyExist (s.tree o.imp) o.ns key)), s)
  | .getOrCreate k, [key, d] => withArg s (convStr key) fun key => withArg s (conv E k d) fun d =>
    match Verif.PTree.getDefaultMut (E.codec k) (s.tree o.imp) o.ns key d with
    | some (v, t) => (.value (toPy k v), s.putTree o.imp t)
    | none => (.ub, s)
  | .set k, [key, v] => withArg s (convStr key) fun key => withArg s (conv E k v) fun v =>
    match Verif.PTree.set (E.codec k) (s.tree o.imp) o.ns key v with
    | some t => (.unit, s.putTree o.imp t)
    | none => (.ub, s)
  | .load fmt, [p] => withArg s (convStr p) fun p =>
    match E.read fmt p with
    | some t => (.unit, s.putTree o.imp t)
    | none => (.runtimeError, s)
  | .update3, [w, c, e] => withBoost s w fun w => withArg s (convBool c) fun c => withArg s (convBool e) fun e => doUpdate s o w c e
  | .update2, [w, c] => withBoost s w fun w => withArg s (convBool c) fun c => doUpdate s o w c false
  | .update1, [w] => withBoost s w fun w => doUpdate s o w true false
  | _, _ => (.argumentError, s)

/-- one statement -/
def step {D : Type} (E : Env D) (s : Sess) : Cmd D → Out D × Sess
  | .newConst p c => match s.objs[p]? with
    | some o => if o.isA .const then withArg s (convStr c) fun c => s.push ⟨.const, o.imp, Verif.PTree.childNamespace o.ns c⟩ else (.argumentError, s)
    | none => (.argumentError, s)
  | .newTree p c => match s.objs[p]? with
    | some o => if o.isA .tree then withArg s (convStr c) fun c => s.push ⟨.tree, o.imp, Verif.PTree.childNamespace o.ns c⟩ else (.argumentError, s)
    | none => (.argumentError, s)
  | .newBoost b =>
    withArg s (match b with | some a => convStr a | none => .ok []) fun b =>
      ({ s with trees := s.trees ++ [Verif.PTree.Tree.empty] } : Sess).push ⟨.boost, s.trees.length, Verif.PTree.rootNamespace b⟩
  | .call i name args => match s.objs[i]? with
    | some o => match lookup o.cls name with
      | some f => if o.isA f.self then invoke E s o f args else (.argumentError, s)
      | none => (.attributeError, s)
    | none => (.attributeError, s)

/-- a program; exceptions are caught; `none` = it had undefined behaviour -/
def run {D : Type} (E : Env D) (s : Sess) : List (Cmd D) → Option Sess
  | [] => some s
  | c :: cs => match step E s c with
    | (.ub, _) => none
    | (_, s') => run E s' cs

end Verif.Python.Tree
