/-!
# Model of `sm_logging`: levels, stream names, formatter, statement macros, printing

The configuration state shared by threads is in `Verif.Logging.Config`.
Strings are lists of characters; `char*` strings end at the first NUL.
-/

namespace Verif.Logging

/-! ## Levels (Levels.hpp:23-38, Levels.cpp) -/

/-- `levels::Level` (Levels.hpp:25-39) -/
inductive Level where
  | all | finest | verbose | finer | trace | fine | debug | info | warn | error | fatal | count
deriving DecidableEq, Repr

/-- the value of the enumerator (Levels.hpp:25-39, 4-15) -/
def Level.toNat : Level → Nat
  | .all => 0 | .finest => 1 | .verbose => 2 | .finer => 3 | .trace => 4 | .fine => 5
  | .debug => 6 | .info => 7 | .warn => 8 | .error => 9 | .fatal => 10 | .count => 11

/-- `::tolower` in the C locale -/
def lower (c : Char) : Char :=
  if 65 ≤ c.toNat ∧ c.toNat ≤ 90 then Char.ofNat (c.toNat + 32) else c

/-- the comparisons of `fromString` (Levels.cpp:16-38), in order -/
def levelTable : List (List Char × Level) :=
  [(['a','l','l'], .all), (['f','i','n','e','s','t'], .finest), (['v','e','r','b','o','s','e'], .verbose),
   (['f','i','n','e','r'], .finer), (['t','r','a','c','e'], .trace), (['f','i','n','e'], .fine),
   (['d','e','b','u','g'], .debug), (['i','n','f','o'], .info), (['w','a','r','n'], .warn),
   (['e','r','r','o','r'], .error), (['f','a','t','a','l'], .fatal)]

/-- `levels::fromString` (Levels.cpp:12-43); the error message of the last branch is not modelled -/
def fromString (s : List Char) : Level :=
  match levelTable.find? fun e => e.1 == s.map lower with
  | some e => e.2
  | none => .info

/-! ## Stream names (LoggingGlobals.cpp:278-298) -/

/-- `SMCONSOLE_DEFAULT_NAME` (macros.h:100-107) -/
def defaultName : List Char := ['s', 'm']

/-- `addDefaultPrefixIfMissing` (LoggingGlobals.cpp:278-286) -/
def addPrefix (name : List Char) : List Char :=
  if name.take 3 = defaultName ++ ['.'] then name
  else if name ≠ ['s', 'm'] then defaultName ++ ['.'] ++ name
  else name

/-- the stream of the `SM_<LEVEL>_NAMED(name, …)` macros (macros_generated.hpp:54-69) -/
def namedStatement (name : List Char) : List Char := defaultName ++ ['.'] ++ name

/-! ## Formatter (Formatter.cpp, Tokens.hpp) -/

inductive Token where
  /-- `FixedToken` (Tokens.hpp:38-52) -/
  | fixed (s : List Char)
  /-- a token created by `createTokenFromType` (Formatter.cpp:15-51) -/
  | named (name : List Char)
deriving DecidableEq, Repr

/-- `[a-zA-Z]` -/
def isLetter (c : Char) : Bool :=
  (97 ≤ c.toNat && c.toNat ≤ 122) || (65 ≤ c.toNat && c.toNat ≤ 90)

/-- `[a-zA-Z]+[}]` at the beginning of the text: the letters and the text behind the brace.  The letters and
the brace are disjoint, so the greedy match is the only one. -/
def matchName (t : List Char) : Option (List Char × List Char) :=
  match t.takeWhile isLetter, t.dropWhile isLetter with
  | c :: n, '}' :: rest => some (c :: n, rest)
  | _, _ => none

/-- the pattern `\$\{([a-zA-Z]+)[}]` at the beginning of the text (Formatter.cpp:59) -/
def matchHere : List Char → Option (List Char × List Char)
  | '$' :: '{' :: t => matchName t
  | _ => none

/-- `regex_search`: the leftmost match — prefix, group 1, suffix -/
def search : List Char → Option (List Char × List Char × List Char)
  | [] => none
  | c :: t => match matchHere (c :: t) with
    | some (n, rest) => some ([], n, rest)
    | none => match search t with
      | some (p, n, rest) => some (c :: p, n, rest)
      | none => none

theorem dropWhile_length {α : Type} (p : α → Bool) : ∀ l : List α, (l.dropWhile p).length ≤ l.length
  | [] => by simp
  | a :: l => by
    simp only [List.dropWhile]
    split
    · have := dropWhile_length p l; simp; omega
    · simp

theorem matchName_length {t n r : List Char} (h : matchName t = some (n, r)) : r.length < t.length := by
  unfold matchName at h
  split at h
  · rename_i heq
    simp only [Option.some.injEq, Prod.mk.injEq] at h
    have := dropWhile_length isLetter t
    rw [heq] at this
    rw [← h.2]
    simp at this
    omega
  · cases h

theorem matchHere_length {t n r : List Char} (h : matchHere t = some (n, r)) : r.length < t.length := by
  unfold matchHere at h
  split at h
  · have := matchName_length h; simp; omega
  · cases h

theorem search_length {t p n r : List Char} (h : search t = some (p, n, r)) : r.length < t.length := by
  induction t generalizing p n r with
  | nil => simp [search] at h
  | cons c t ih =>
    unfold search at h
    split at h
    · rename_i heq; simp only [Option.some.injEq, Prod.mk.injEq] at h
      have := matchHere_length heq; rw [← h.2.2]; exact this
    · split at h
      · rename_i heq; simp only [Option.some.injEq, Prod.mk.injEq] at h
        have := ih heq; rw [← h.2.2]; simp; omega
      · cases h

/-- the loop of `Formatter::init` (Formatter.cpp:71-101): after a match the suffix is searched; behind the
last match the suffix (or, without any match, the whole format) becomes a fixed token -/
def tokenize (t : List Char) : List Token :=
  match h : search t with
  | some (p, n, r) => .fixed p :: .named n :: tokenize r
  | none => [.fixed t]
termination_by t.length
decreasing_by exact search_length h

/-- `SeverityToken::getString` (Tokens.hpp:89-143) -/
def severity : Level → List Char
  | .fatal => ['F','A','T','A','L'] | .error => ['E','R','R','O','R'] | .warn => [' ','W','A','R','N']
  | .info => [' ','I','N','F','O'] | .debug => ['D','E','B','U','G'] | .fine => [' ','F','I','N','E']
  | .trace => ['T','R','A','C','E'] | .finer => ['F','I','N','E','R'] | .verbose => ['V','E','R','B','O']
  | .finest => ['F','I','N','E','S'] | .all => [' ',' ','A','L','L'] | .count => ['U','N','K','N','O']

/-- `LoggingEvent` (LoggingEvent.hpp:12-38) plus what the thread token prints -/
structure Event where
  stream : List Char
  level : Level
  file : List Char
  line : Nat
  function : List Char
  message : List Char
  time : List Char
  thread : List Char

/-- decimal digits (`ss << event.line`, non-negative) -/
def decimal (n : Nat) : List Char := Nat.toDigits 10 n

/-- `createTokenFromType` (Formatter.cpp:15-51) and `getString` of the tokens (Tokens.hpp:38-232); `extra` is
`extra_fixed_tokens_` -/
def value (extra : List Char → Option (List Char)) (e : Event) : Token → List Char
  | .fixed s => s
  | .named n =>
    if n = ['s','e','v','e','r','i','t','y'] then severity e.level
    else if n = ['m','e','s','s','a','g','e'] then e.message
    else if n = ['t','i','m','e'] then e.time
    else if n = ['t','h','r','e','a','d'] then e.thread
    else if n = ['f','i','l','e'] then e.file
    else if n = ['l','i','n','e'] then decimal e.line
    else if n = ['f','u','n','c','t','i','o','n'] then e.function
    else if n = ['s','t','r','e','a','m','n','a','m','e'] then e.stream
    else match extra n with
      | some v => v
      | none => ['$', '{'] ++ n ++ ['}']

/-- the text `Formatter::print` writes between the colour codes (Formatter.cpp:160-165) -/
def formatted (extra : List Char → Option (List Char)) (format : List Char) (e : Event) : List Char :=
  ((tokenize format).map (value extra e)).flatten

/-- the colour escape of `Formatter::print` (Formatter.cpp:106-154, Tokens.hpp:16-23) -/
def colour : Level → List Char
  | .fatal => ['\x1b','[','9','1','m'] | .error => ['\x1b','[','3','1','m'] | .warn => ['\x1b','[','3','3','m']
  | .info => ['\x1b','[','0','m'] | .debug => ['\x1b','[','3','2','m']
  | .fine | .trace | .finer | .verbose | .finest | .all => ['\x1b','[','9','2','m']
  | .count => ['\x1b','[','0','m']

/-- `Formatter::print` (Formatter.cpp:104-172) -/
def printEvent (doColor : Bool) (extra : List Char → Option (List Char)) (format : List Char) (e : Event) :
    List Char :=
  (if doColor then colour e.level else []) ++ formatted extra format e ++
    (if doColor then ['\x1b','[','0','m'] else []) ++ ['\n']

/-! ## Statement macros (console.hpp) -/

/-- one execution of a statement: whether it is enabled (`loc._loggerEnabled && cond`) and the clock reading -/
structure Exec (T : Type) where
  enabled : Bool
  now : T

/-- `SM_LOG_ONCE` (console.hpp:138-148): new `hit` and whether it prints -/
def once {T : Type} (hit : Bool) (e : Exec T) : Bool × Bool :=
  if e.enabled && !hit then (true, true) else (hit, false)

/-- `SM_LOG_THROTTLE` (console.hpp:175-186): new `last_hit` and whether it prints.  Arithmetic is exact. -/
def throttle {T : Type} [Add T] [LE T] [DecidableLE T] (rate : T) (last : T) (e : Exec T) : T × Bool :=
  if e.enabled && decide (last + rate ≤ e.now) then (e.now, true) else (last, false)

/-- which executions of a sequence print -/
def runOnce {T : Type} (hit : Bool) : List (Exec T) → List Bool
  | [] => []
  | e :: es => (once hit e).2 :: runOnce (once hit e).1 es

def runThrottle {T : Type} [Add T] [LE T] [DecidableLE T] (rate last : T) : List (Exec T) → List Bool
  | [] => []
  | e :: es => (throttle rate last e).2 :: runThrottle rate (throttle rate last e).1 es

/-! ## Formatting into the buffer (LoggingGlobals.cpp:126-152) -/

/-- the C string in a buffer: up to the first NUL -/
def cstr (b : List Char) : List Char := b.takeWhile fun c => c != '\x00'

/-- what a `printf` format with its arguments produces: a text, or an encoding error -/
abbrev Formatted := Option (List Char)

/-- `vsnprintf` into a buffer of size `n > 0`: the returned count and the buffer.  The text is cut to `n - 1`
characters and followed by NUL; on an error the result is -1, i.e. `SIZE_MAX` as `size_t`, and the buffer is
modelled as empty text. -/
def vsnprintf (n : Nat) (f : Formatted) : Nat × List Char :=
  match f with
  | some t => (t.length, t.take (n - 1) ++ ['\x00'])
  | none => (18446744073709551615, ['\x00'])

/-- `vformatToBuffer`: the new buffer size and contents.  `total + 2` is computed in `size_t` and wraps. -/
def vformatToBuffer (size : Nat) (f : Formatted) : Nat × List Char :=
  let r := vsnprintf size f
  if size ≤ r.1 then
    let size' := (r.1 + 2) % 18446744073709551616
    (size', (vsnprintf size' f).2)
  else (size, r.2)

/-! ## print (LoggingGlobals.cpp:165-230) -/

mutual
/-- what a logger does with an event: it may itself execute log statements, and then return or throw -/
inductive Action where
  | mk (nested : Prints) (outcome : Outcome)
/-- a sequence of print calls, each with its message and what the logger does when it gets it -/
inductive Prints where
  | nil
  | cons (message : List Char) (a : Action) (rest : Prints)
/-- how the logger's `log` ends -/
inductive Outcome where
  | returns | throwsStd | throwsOther
end

/-- per thread: `_printing_thread_id == this thread`; and the messages delivered to the logger so far -/
structure PState where
  printing : Bool
  delivered : List (List Char)
  /-- an exception not derived from `std::exception` is propagating -/
  escaping : Bool

mutual
/-- a call of `print` on one thread, with the other threads quiet: a recursive call is dropped (170-174);
otherwise the thread id is set (178), the logger called (189), a `std::exception` swallowed (191-194) and the
thread id reset (197) — unless another exception escapes -/
def doPrint (s : PState) (m : List Char) : Action → PState
  | .mk nested o =>
    if s.printing then s
    else
      let s1 : PState := { s with printing := true, delivered := s.delivered ++ [m] }
      let s2 := doPrints s1 nested
      if s2.escaping then s2
      else match o with
        | .returns | .throwsStd => { s2 with printing := false }
        | .throwsOther => { s2 with escaping := true }
/-- consecutive calls; an escaping exception skips the rest -/
def doPrints (s : PState) : Prints → PState
  | .nil => s
  | .cons m a rest => if s.escaping then s else doPrints (doPrint s m a) rest
end

/-- a history of top-level calls of one thread: the caller of a log statement catches what escapes from it -/
def history (s : PState) : List (List Char × Action) → PState
  | [] => s
  | (m, a) :: rest => history { doPrint s m a with escaping := false } rest

end Verif.Logging
