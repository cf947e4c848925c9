import Mathlib.Data.Rat.Defs
import Mathlib.Algebra.Order.Ring.Rat
import Verif.Logging.Config

/-!
# Model of the log statements of a program (macros_generated.hpp, console.hpp:67-228, macros.h:103-120)

One thread; the interleavings of several are in `Verif.Logging.Config`.  A program has any number of log statements, each with its own static variables.  The arguments of a statement are expressions of the program: an execution has the value every argument would have, and the model records which arguments are really evaluated.

Simplifications: the printf and the `_STREAM` forms differ only in how the message is put together, which is not modelled here (a message is its text); the level is a constant of the statement (so in the macros of macros_generated.hpp; the re-check of console.hpp:73-77 then never happens, `C45_statement` has it); times and rates are exact.
-/

namespace Verif.Logging.Statement

open Verif.Logging (Level addPrefix defaultName)

abbrev Name := List Char

/-- the suffixes `_ONCE` and `_THROTTLE` -/
inductive Limit where
  | always | once | throttle
deriving DecidableEq

/-- a log statement `SM_<level>[_STREAM][_COND|_ONCE|_THROTTLE][_NAMED]` (macros_generated.hpp:32-427).  `_COND` cannot be combined with a limit. -/
structure Stmt where
  level : Level
  named : Bool
  cond : Bool
  limit : Limit

/-- what the arguments of one execution evaluate to (if they are evaluated), and the clock -/
structure Input where
  name : Name
  cond : Bool
  rate : ℚ
  msg : List Char
  now : ℚ

/-- what can be observed of an execution, in order -/
inductive Effect where
  | evalName
  | evalCond
  | readClock
  | evalRate
  | evalMsg
  | print (stream : Name) (level : Level) (msg : List Char)
deriving DecidableEq

/-- the static variables of a statement: `LogLocation loc` (LogLocation.hpp:6-15), `hit` (console.hpp:141), `last_hit` (console.hpp:179) -/
structure Statics where
  initialized : Bool
  enabled : Bool
  level : Nat
  stream : Name
  hit : Bool
  last : ℚ

/-- `LoggingGlobals` and the static variables of all statements -/
structure St where
  level : Nat
  streams : Name → Bool
  registered : List Nat
  loc : Nat → Statics

/-- how the program is compiled: `SMCONSOLE_MIN_SEVERITY` (macros.h:118-120) and `SMCONSOLE_NAME_PREFIX` (macros.h:103-110) -/
structure Build where
  minSeverity : Nat
  package : Name

/-- the beginning of the program (LoggingGlobals.cpp:11-18; static variables are zero-initialised, LogLocation.hpp:8-9).  The library itself is compiled with the default name. -/
def init : St where
  level := Level.info.toNat
  streams := fun n => n = defaultName
  registered := []
  loc := fun _ => ⟨false, false, Level.count.toNat, [], false, 0⟩

def upd {β : Type} (f : Nat → β) (a : Nat) (b : β) : Nat → β := fun x => if x = a then b else f x

/-- `checkLogLocationEnabledNoLock` (LoggingGlobals.cpp:42-44) -/
def check (s : St) (l : Nat) : St :=
  { s with loc := upd s.loc l { s.loc l with
      enabled := decide ((s.loc l).level ≥ s.level) && (decide ((s.loc l).stream.length = 0) || s.streams (s.loc l).stream) } }

/-- `notifyLoggerLevelsChanged` (LoggingGlobals.cpp:86-97) -/
def notify (s : St) : St := s.registered.foldl check s

/-- `setLevel` (LoggingGlobals.cpp:240-249) -/
def setLevel (s : St) (v : Level) : St := if v.toNat ≠ s.level then notify { s with level := v.toNat } else s

/-- `enableNamedStream` (LoggingGlobals.cpp:107-111, 291-294) -/
def enable (s : St) (n : Name) : St :=
  notify { s with streams := fun m => if m = addPrefix n then true else s.streams m }

/-- `disableNamedStream` (LoggingGlobals.cpp:113-121, 295-298) -/
def disable (s : St) (n : Name) : St :=
  if s.streams (addPrefix n) then notify { s with streams := fun m => if m = addPrefix n then false else s.streams m } else s

/-- `initializeLogLocation` (LoggingGlobals.cpp:46-62) for a location that is not initialized -/
def initLoc (s : St) (l : Nat) (n : Name) (v : Level) : St :=
  let s := { s with loc := upd s.loc l { s.loc l with stream := n, level := v.toNat }, registered := s.registered ++ [l] }
  let s := check s l
  { s with loc := upd s.loc l { s.loc l with initialized := true } }

/-- the argument `name` of the macros of console.hpp (macros_generated.hpp:50-66) -/
def streamOf (b : Build) (st : Stmt) (i : Input) : Name := if st.named then b.package ++ ['.'] ++ i.name else b.package

/-- executing the statement with index `l`: `#if (SMCONSOLE_MIN_SEVERITY > SMCONSOLE_SEVERITY_…)` (macros_generated.hpp:32 and ten more), `SMCONSOLE_DEFINE_LOCATION` (console.hpp:67-78), `SM_LOG_COND`, `SM_LOG_ONCE`, `SM_LOG_THROTTLE` (console.hpp:104-204) -/
def exec (b : Build) (s : St) (l : Nat) (st : Stmt) (i : Input) : St × List Effect :=
  if b.minSeverity > st.level.toNat then (s, [])
  else
    let fresh := !(s.loc l).initialized
    let s := if fresh then initLoc s l (streamOf b st i) st.level else s
    let e1 := if fresh && st.named then [Effect.evalName] else []
    let flag := (s.loc l).enabled
    let e2 := if flag && st.cond then [Effect.evalCond] else []
    let enabled := flag && (!st.cond || i.cond)
    let output := [Effect.evalMsg, .print (s.loc l).stream st.level i.msg]
    match st.limit with
    | .always => (s, e1 ++ e2 ++ if enabled then output else [])
    | .once =>
      if enabled && !(s.loc l).hit then ({ s with loc := upd s.loc l { s.loc l with hit := true } }, e1 ++ e2 ++ output)
      else (s, e1 ++ e2)
    | .throttle =>
      let e3 := if enabled then [Effect.evalRate] else []
      if enabled && decide ((s.loc l).last + i.rate ≤ i.now) then
        ({ s with loc := upd s.loc l { s.loc l with last := i.now } }, e1 ++ e2 ++ [.readClock] ++ e3 ++ output)
      else (s, e1 ++ e2 ++ [.readClock] ++ e3)

/-- what a program does with the logging system -/
inductive Op where
  | setLevel (v : Level)
  | enable (n : Name)
  | disable (n : Name)
  | exec (l : Nat) (i : Input)

/-- one operation of a program whose statements are `prog` -/
def step (b : Build) (prog : Nat → Stmt) (s : St) : Op → St × List Effect
  | .setLevel v => (setLevel s v, [])
  | .enable n => (enable s n, [])
  | .disable n => (disable s n, [])
  | .exec l i => exec b s l (prog l) i

/-- a run of the program: the state reached, and every operation with its effects -/
def run (b : Build) (prog : Nat → Stmt) : List Op → St × List (Op × List Effect)
  | ops => ops.foldl (fun r o => ((step b prog r.1 o).1, r.2 ++ [(o, (step b prog r.1 o).2)])) (init, [])

end Verif.Logging.Statement
