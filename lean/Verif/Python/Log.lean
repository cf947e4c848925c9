import Verif.Logging.Model

/-!
# Model of logging from Python (`sm_python/src/Logging.cpp`, `sm_python/python/sm/__init__.py`)

One call with the globals quiet (their concurrency is in `Verif.Logging.Config`).  The file, line and function of the
caller are inputs.
-/

namespace Verif.Python

open Verif.Logging

/-- the state the calls read: the level, the set of enabled streams -/
structure LogGlobals where
  level : Level
  enabled : List Char → Bool

/-- where a statement is, and what the clock says -/
structure Site where
  file : List Char
  line : Nat
  function : List Char
  time : List Char
  thread : List Char

/-- what a call does -/
inductive LogResult where
  | silent
  /-- the logger gets this event -/
  | logged (e : Event)
  /-- `AttributeError` -/
  | attributeError
  /-- Boost.Python's `ArgumentError` -/
  | argumentError

/-- `isNamedStreamEnabled`, the free function that Python calls (LoggingGlobals.cpp:288-291) -/
def streamEnabled (g : LogGlobals) (name : List Char) : Bool := g.enabled (addPrefix name)

/-- a level as a Python program can pass it: a value of the exported enumeration, or a plain `int` -/
inductive PyLevel where
  | enum (l : Level)
  | int (n : Int)

/-- the enumeration is a subclass of `int` -/
def PyLevel.value : PyLevel → Int
  | .enum l => l.toNat
  | .int n => n

/-- `rawLogNamed` = `smLogNamed` (Logging.cpp:6-24, 74).  A plain `int` is not converted to the enumeration.  The event is made of C strings. -/
def rawLogNamed (g : LogGlobals) (name : List Char) (l : PyLevel) (s : Site) (m : List Char) : LogResult :=
  match l with
  | .int _ => .argumentError
  | .enum l =>
    if !streamEnabled g name then .silent
    else .logged ⟨cstr name, l, cstr s.file, s.line, cstr s.function, cstr m, s.time, s.thread⟩

/-- `rawLog` = `smLog` (Logging.cpp:26-31, 73) -/
def rawLog (g : LogGlobals) (l : PyLevel) (s : Site) (m : List Char) : LogResult := rawLogNamed g defaultName l s m

/-- `logNamed` (__init__.py:20-26) -/
def logNamed (g : LogGlobals) (name : List Char) (l : PyLevel) (s : Site) (m : List Char) : LogResult :=
  if l.value < (g.level.toNat : Int) then .silent else rawLogNamed g name l s m

/-- `log` (__init__.py:12-18) -/
def log (g : LogGlobals) (l : PyLevel) (s : Site) (m : List Char) : LogResult :=
  if l.value < (g.level.toNat : Int) then .silent else rawLog g l s m

/-- the attributes of `LoggingLevel` (Logging.cpp:39-51) -/
def levelAttr : String → Option Level
  | "All" => some .all | "Finest" => some .finest | "Verbose" => some .verbose | "Finer" => some .finer | "Trace" => some .trace
  | "Fine" => some .fine | "Debug" => some .debug | "Info" => some .info | "Warn" => some .warn | "Error" => some .error
  | "Fatal" => some .fatal | _ => none

/-- the attribute each `log<Level>` function reads (__init__.py:28-56) -/
def logFunctions : List (String × String) :=
  [("logFinest", "Finest"), ("logVerbose", "FineVerbose"), ("logFiner", "Finer"), ("logTrace", "Trace"), ("logFine", "Fine"),
   ("logInfo", "Info"), ("logDebug", "Debug"), ("logWarn", "Warn"), ("logFatal", "Fatal"), ("logError", "Error")]

/-- the attribute each `log<Level>Named` function reads (__init__.py:59-87) -/
def logNamedFunctions : List (String × String) :=
  [("logFinestNamed", "Finest"), ("logVerboseNamed", "Verbose"), ("logFinerNamed", "Finer"), ("logTraceNamed", "Trace"),
   ("logFineNamed", "Fine"), ("logInfoNamed", "Info"), ("logDebugNamed", "Debug"), ("logWarnNamed", "Warn"), ("logFatalNamed", "Fatal"),
   ("logErrorNamed", "Error")]

/-- calling such a function with the message: the attribute is evaluated before `log` is called; `none`: no function with that name -/
def callLog (g : LogGlobals) (f : String) (s : Site) (m : List Char) : Option LogResult :=
  (logFunctions.lookup f).map fun a => match levelAttr a with
    | none => .attributeError
    | some l => log g (.enum l) s m

def callLogNamed (g : LogGlobals) (f : String) (name : List Char) (s : Site) (m : List Char) : Option LogResult :=
  (logNamedFunctions.lookup f).map fun a => match levelAttr a with
    | none => .attributeError
    | some l => logNamed g name (.enum l) s m

/-! ## The statements of C++ -/

/-- a statement of C++ that is executed for the first time (or whose location is up to date): `checkLogLocationEnabledNoLock`
(LoggingGlobals.cpp:41-43) and `print` (165-230) with a quiet logger -/
def cppStatement (g : LogGlobals) (stream : List Char) (l : Level) (s : Site) (m : List Char) : LogResult :=
  if decide (g.level.toNat ≤ l.toNat) && (stream.isEmpty || g.enabled stream) then
    .logged ⟨stream, l, cstr s.file, s.line, cstr s.function, cstr m, s.time, s.thread⟩
  else .silent

/-- `SM_<LEVEL>_STREAM(m)` (macros_generated.hpp) -/
def cppLog (g : LogGlobals) (l : Level) (s : Site) (m : List Char) : LogResult := cppStatement g defaultName l s m

/-- `SM_<LEVEL>_STREAM_NAMED(name, m)` -/
def cppLogNamed (g : LogGlobals) (name : List Char) (l : Level) (s : Site) (m : List Char) : LogResult :=
  cppStatement g (namedStatement name) l s m

end Verif.Python
