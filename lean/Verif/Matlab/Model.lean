import Mathlib.Data.List.Basic

/-!
# Model of `sm::matlab::Engine` (sm_matlab/src/Engine.cpp, sm_matlab/include/sm/matlab/Engine.hpp)

The MATLAB engine library (`engOpen`, `engGetVariable`, `mxCreateString`, …) is modelled by its documented contract: a workspace of named
variables, a process that is alive or not, and arrays that the caller owns and must destroy.  `double` is a type `D` with the conversions
from integers.  Strings are lists of characters.  Not modelled: visibility (Windows), the constructor with a host name, the text MATLAB
prints (a parameter of `executeCommand`).
-/

namespace Verif.Matlab

abbrev Str := List Char

/-- what `double` must provide: the value of an integer, and the double with the bits of a 64-bit integer -/
structure Dbl (D : Type) where
  ofInt : Int → D
  bits : Int → D

/-- an `mxArray` -/
inductive Mx (D : Type)
  /-- class `double`, possibly complex -/
  | double (dims : List Nat) (re : List D) (im : Option (List D))
  /-- class `int64` or `uint64`: elements of eight bytes -/
  | int64 (dims : List Nat) (vals : List Int)
  /-- the other numeric classes: elements of 1, 2 or 4 bytes; the values as doubles -/
  | small (size : Nat) (dims : List Nat) (vals : List D)
  | char (dims : List Nat) (s : Str)
  | logical (dims : List Nat) (b : List Bool)
  /-- cells, structures, function handles, objects -/
  | other (dims : List Nat)

variable {D : Type}

/-- the sizes -/
def Mx.dims : Mx D → List Nat
  | .double d _ _ => d
  | .int64 d _ => d
  | .small _ d _ => d
  | .char d _ => d
  | .logical d _ => d
  | .other d => d

/-- `mxGetNumberOfElements` -/
def Mx.numel (m : Mx D) : Nat := m.dims.prod
/-- `mxIsEmpty` -/
def Mx.isEmpty (m : Mx D) : Bool := m.dims.any (· = 0)
/-- `mxIsNumeric` -/
def Mx.isNumeric : Mx D → Bool
  | .double .. => true
  | .int64 .. => true
  | .small .. => true
  | _ => false
/-- `mxIsChar` -/
def Mx.isChar : Mx D → Bool
  | .char .. => true
  | _ => false
/-- `mxIsLogical` -/
def Mx.isLogical : Mx D → Bool
  | .logical .. => true
  | _ => false
/-- `mxGetElementSize` -/
def Mx.elementSize : Mx D → Nat
  | .double .. => 8
  | .int64 .. => 8
  | .small s .. => s
  | .char .. => 2
  | .logical .. => 1
  | .other .. => 8
/-- `mxGetScalar`: the first element as a double -/
def Mx.scalar (c : Dbl D) : Mx D → Option D
  | .double _ re _ => re.head?
  | .int64 _ v => v.head?.map c.ofInt
  | .small _ _ v => v.head?
  | _ => none
/-- the doubles that `memcpy` makes of the data -/
def Mx.raw (c : Dbl D) : Mx D → List D
  | .double _ re _ => re
  | .int64 _ v => v.map c.bits
  | _ => []

/-- the exceptions of Engine.hpp -/
inductive Exc
  | invalidName | notInitialized | noSuchVariable | empty | invalidType | invalidSize | put | execution
  deriving DecidableEq, Repr

/-- outcome of a call; `ub` = the library is called with a handle that is not valid -/
inductive Out (α : Type)
  | ok (a : α)
  | threw (e : Exc)
  | ub
  deriving DecidableEq, Repr

/-- the member `_engine` -/
inductive Handle
  | null
  | valid
  /-- not initialised -/
  | garbage
  deriving DecidableEq, Repr

/-- MATLAB and the memory: the variables, whether the process still answers, the number of `mxArray`s and buffers that the program owns -/
structure W (D : Type) where
  vars : Str → Option (Mx D)
  alive : Bool
  owned : Nat

/-- a call on an engine: its outcome and the world afterwards -/
abbrev Call (D α : Type) := W D → Out α × W D

/-! ## Checks -/

/-- the characters in `assertValidVariableName` -/
def nameChars : Str := "abcdefghijklmnopqrstuvwxyzABCDEFGHIJKLMNOPQRSTUVWXYZ01234567890_".toList

/-- `std::isdigit` -/
def isDigit (c : Char) : Bool := '0' ≤ c && c ≤ '9'

/-- `assertValidVariableName` (Engine.cpp:379-384): whether the name passes; `name[0]` of an empty string is the zero character -/
def nameOk (name : Str) : Bool := name.all (nameChars.contains ·) && !(isDigit (name.headD (Char.ofNat 0)))

/-- `assertIsInitialized(); assertValidVariableName(name);` and then the library is called with the handle -/
def guarded {α : Type} (h : Handle) (name : Str) (f : Call D α) : Call D α := fun w =>
  if h = .null then (.threw .notInitialized, w)
  else if !nameOk name then (.threw .invalidName, w)
  else if h = .garbage then (.ub, w)
  else f w

/-- `engGetVariable`: a copy that the caller owns, or nothing -/
def getVariable (name : Str) (w : W D) : Option (Mx D) × W D :=
  if w.alive then
    match w.vars name with
    | some m => (some m, { w with owned := w.owned + 1 })
    | none => (none, w)
  else (none, w)

/-- `mxDestroyArray` -/
def destroy (w : W D) : W D := { w with owned := w.owned - 1 }

/-! ## Testers (Engine.cpp:145-211) -/

/-- `exists` (148-155): does not ask whether the engine is initialised; the library returns NULL for a NULL handle -/
def exists_ (h : Handle) (name : Str) : Call D Bool := fun w =>
  if !nameOk name then (.threw .invalidName, w)
  else match h with
  | .null => (.ok false, w)
  | .garbage => (.ub, w)
  | .valid => (.ok (getVariable name w).1.isSome, (getVariable name w).2)

/-- the three testers that ask for a property of an existing variable -/
def tester (p : Mx D → Bool) (h : Handle) (name : Str) : Call D Bool := guarded h name fun w =>
  match (getVariable name w).1 with
  | none => (.threw .noSuchVariable, (getVariable name w).2)
  | some m => (.ok (p m), (getVariable name w).2)

/-- `isScalar` (157-167) -/
def isScalar : Handle → Str → Call D Bool := tester fun m => m.numel = 1
/-- `isEmpty` (169-179) -/
def isEmpty : Handle → Str → Call D Bool := tester Mx.isEmpty
/-- `isCharOrString` (181-191) -/
def isCharOrString : Handle → Str → Call D Bool := tester Mx.isChar

/-- `getDimensions` (193-210): the return value and, if it is true, the dimensions; `mxGetN` multiplies all sizes but the first -/
def getDimensions (h : Handle) (name : Str) : Call D (Option (Nat × Nat)) := guarded h name fun w =>
  match (getVariable name w).1 with
  | none => (.ok none, (getVariable name w).2)
  | some m => (.ok (some (m.dims.headD 1, m.dims.tail.prod)), (getVariable name w).2)

/-! ## Setters -/

/-- create an array, send it, destroy it: `put` and `putEigen` (Engine.cpp:217-245, Engine.hpp:173-222) -/
def putMx (h : Handle) (name : Str) (m : Mx D) : Call D Unit := guarded h name fun w =>
  if w.alive then
    (.ok (), destroy { w with vars := fun n => if n = name then some m else w.vars n, owned := w.owned + 1 })
  else (.threw .put, { w with owned := w.owned + 1 })

/-- `put(name, string)` (217-230): `value.c_str()` ends at a zero character; `mxCreateString` of nothing is 0×0 -/
def putString (h : Handle) (name value : Str) : Call D Unit :=
  let s := value.takeWhile (· ≠ Char.ofNat 0)
  putMx h name (.char (if s = [] then [0, 0] else [1, s.length]) s)

/-- `put(name, bool)` (233-246) -/
def putBool (h : Handle) (name : Str) (value : Bool) : Call D Unit := putMx h name (.logical [1, 1] [value])

/-- `put(name, scalar)` (Engine.hpp:205-219), the scalar converted to `double` -/
def putScalar (h : Handle) (name : Str) (value : D) : Call D Unit := putMx h name (.double [1, 1] [value] none)

/-- a dynamic matrix: rows, columns, elements column by column -/
structure Mat (D : Type) where
  rows : Nat
  cols : Nat
  data : List D
  deriving DecidableEq, Repr

/-- `putEigen` (Engine.hpp:173-201), the elements converted to `double` -/
def putEigen (h : Handle) (name : Str) (m : Mat D) : Call D Unit := putMx h name (.double [m.rows, m.cols] m.data none)

/-! ## Getters.  The result: the return value and, together with it, the value of the reference argument afterwards. -/

/-- `get(name, double&)` (252-276) -/
def getDouble (c : Dbl D) (h : Handle) (name : Str) (r : D) : Call D (Bool × D) := guarded h name fun w =>
  match (getVariable name w).1 with
  | none => (.ok (false, r), (getVariable name w).2)
  | some m =>
    if !m.isNumeric then (.threw .invalidType, (getVariable name w).2)
    else if m.isEmpty then (.threw .empty, (getVariable name w).2)
    else if m.numel ≠ 1 then (.threw .invalidType, (getVariable name w).2)
    else (.ok (true, (m.scalar c).getD r), destroy (getVariable name w).2)

/-- `get(name, string&)` (278-306): the buffer `new char[length]` is not deleted -/
def getString (h : Handle) (name : Str) (r : Str) : Call D (Bool × Str) := guarded h name fun w =>
  match (getVariable name w).1 with
  | none => (.ok (false, r), (getVariable name w).2)
  | some m =>
    if m.isEmpty then (.threw .empty, (getVariable name w).2)
    else match m with
      | .char _ s => (.ok (true, s.takeWhile (· ≠ Char.ofNat 0)), destroy { (getVariable name w).2 with owned := (getVariable name w).2.owned + 1 })
      | _ => (.threw .invalidType, (getVariable name w).2)

/-- `get(name, bool&)` (308-332) -/
def getBool (h : Handle) (name : Str) (r : Bool) : Call D (Bool × Bool) := guarded h name fun w =>
  match (getVariable name w).1 with
  | none => (.ok (false, r), (getVariable name w).2)
  | some m =>
    match m with
    | .logical d b =>
      if d.any (· = 0) then (.threw .empty, (getVariable name w).2)
      else if d.prod ≠ 1 then (.threw .invalidType, (getVariable name w).2)
      else (.ok (true, b.headD r), destroy (getVariable name w).2)
    | _ => (.threw .invalidType, (getVariable name w).2)

/-- `getEigen` (334-365): also returns the matrix argument as it is after an exception (it has been resized before the element size is
checked; resizing keeps the elements only if their number stays the same, otherwise they are arbitrary) -/
def getEigen (c : Dbl D) (junk : D) (h : Handle) (name : Str) (r : Mat D) : W D → (Out Bool × Mat D) × W D := fun w =>
  if h = .null then ((.threw .notInitialized, r), w)
  else if !nameOk name then ((.threw .invalidName, r), w)
  else if h = .garbage then ((.ub, r), w)
  else match (getVariable name w).1 with
    | none => ((.ok false, r), (getVariable name w).2)
    | some m =>
      if !m.isNumeric then ((.threw .invalidType, r), (getVariable name w).2)
      else if m.isEmpty then ((.threw .empty, r), (getVariable name w).2)
      else if m.dims.length ≠ 2 then ((.threw .invalidSize, r), (getVariable name w).2)
      else
        let rows := m.dims.headD 1
        let cols := m.dims.tail.prod
        if m.elementSize ≠ 8 then
          ((.threw .invalidType, ⟨rows, cols, if rows * cols = r.data.length then r.data else List.replicate (rows * cols) junk⟩),
            (getVariable name w).2)
        else ((.ok true, ⟨rows, cols, m.raw c⟩), destroy (getVariable name w).2)

/-! ## Commands -/

/-- `executeCommand` (93-107): `output` is what MATLAB left in the output buffer; the last character is cut off -/
def executeCommand (h : Handle) (output : Str) (after : Str → Option (Mx D)) : Call D Str := fun w =>
  match h with
  | .null => (.threw .notInitialized, w)
  | .garbage => (.ub, w)
  | .valid =>
    if w.alive then (.ok ((output.takeWhile (· ≠ Char.ofNat 0)).dropLast), { w with vars := after })
    else (.threw .execution, w)

/-- outcome of the command line -/
inductive Repl
  /-- the commands that were executed, in order; the user left with `quit`/`exit` or the input ended -/
  | done (commands : List Str)
  /-- `std::length_error` from `resize(size_t(-1))`, after these commands -/
  | lengthError (commands : List Str)
  deriving DecidableEq, Repr

def Repl.cons (s : Str) : Repl → Repl
  | .done l => .done (s :: l)
  | .lengthError l => .lengthError (s :: l)

/-- one `fgets(buffer, 256, stdin)`: at most 255 characters, up to and including a line break -/
def fgets (input : Str) : Str × Str :=
  let chunk := input.take 255
  if '\n' ∈ chunk then
    ((chunk.takeWhile (· ≠ '\n')) ++ ['\n'], input.drop ((chunk.takeWhile (· ≠ '\n')).length + 1))
  else (chunk, input.drop chunk.length)

theorem fgets_rest_lt (input : Str) (h : input ≠ []) : (fgets input).2.length < input.length := by
  have hp : 0 < input.length := List.length_pos_iff.2 h
  unfold fgets
  simp only
  split
  · simp only [List.length_drop]; omega
  · simp only [List.length_drop, List.length_take]; omega

/-- `openCommandLine` (114-143) with standard input `input`: the commands that are executed -/
def openCommandLine (input : Str) : Repl :=
  if hne : input = [] then .done []
  else
    let command := (fgets input).1.takeWhile (· ≠ Char.ofNat 0)
    if command = [] then .lengthError []
    else
      let command := command.dropLast
      if command = "quit".toList ∨ command = "exit".toList then .done []
      else .cons command (openCommandLine (fgets input).2)
termination_by input.length
decreasing_by exact fgets_rest_lt input hne

/-! ## Lifecycle -/

/-- events of one `Engine` object and its copies; the flags say whether the library call succeeds -/
inductive Ev
  /-- `initialize()` on object `i` -/
  | init (i : Nat) (opens : Bool)
  /-- `stop()` -/
  | stop (i : Nat) (closes : Bool)
  /-- the destructor -/
  | destroy (i : Nat) (closes : Bool)
  /-- the implicit copy constructor -/
  | copy (i : Nat)
  deriving DecidableEq, Repr

/-- an object: what `_engine` is (a connection has a number), or destroyed -/
inductive Obj
  | null
  | conn (n : Nat)
  | garbage
  | dead
  deriving DecidableEq, Repr

/-- the objects, the connections that were opened and the ones that were closed, in order -/
structure L where
  objs : List Obj
  opened : List Nat
  closed : List Nat
  deriving DecidableEq, Repr

/-- `Engine()` (9-14) -/
def construct : L := ⟨[.null], [], []⟩
/-- `Engine(bool)` (16-28): without starting MATLAB, `_engine` is not set -/
def constructWith (start opens : Bool) : L :=
  if start then (if opens then ⟨[.conn 0], [0], []⟩ else ⟨[.null], [], []⟩) else ⟨[.garbage], [], []⟩

/-- what an event leads to -/
inductive LOut
  | ok (l : L)
  /-- an invalid handle is passed to the library, or a connection is closed a second time -/
  | ub
  /-- an exception leaves the destructor (a debug build, closing failed) -/
  | terminate
  deriving DecidableEq, Repr

/-- `engClose` on a connection; closing it twice is undefined -/
def closeConn (l : L) (n : Nat) (i : Nat) (o : Obj) : LOut :=
  if n ∈ l.closed then .ub else .ok { l with objs := l.objs.set i o, closed := l.closed ++ [n] }

/-- one event (initialize 50-61, stop 63-72, destructor 39-47); events of objects that do not exist do nothing -/
def step (dbg : Bool) (l : L) : Ev → LOut
  | .init i opens =>
    match l.objs[i]? with
    | some .null => if opens then .ok { l with objs := l.objs.set i (.conn l.opened.length), opened := l.opened ++ [l.opened.length] } else .ok l
    | _ => .ok l
  | .stop i _ =>
    match l.objs[i]? with
    | some (.conn n) => closeConn l n i .null
    | some .garbage => .ub
    | _ => .ok l
  | .destroy i closes =>
    match l.objs[i]? with
    | some (.conn n) => if dbg && !closes then .terminate else closeConn l n i .dead
    | some .garbage => .ub
    | some .null => .ok { l with objs := l.objs.set i .dead }
    | _ => .ok l
  | .copy i =>
    match l.objs[i]? with
    | some .dead => .ok l
    | some o => .ok { l with objs := l.objs ++ [o] }
    | none => .ok l

/-- a history -/
def run (dbg : Bool) (l : L) : List Ev → LOut
  | [] => .ok l
  | e :: es => match step dbg l e with
    | .ok l' => run dbg l' es
    | r => r

end Verif.Matlab
