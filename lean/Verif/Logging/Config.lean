import Verif.Logging.Model

/-!
# Model of the logging configuration shared by threads (LoggingGlobals.cpp, console.hpp:67-78)

Any number of threads execute log statements, `setLevel`, `enableNamedStream`, `disableNamedStream` and
`isNamedStreamEnabled`; their steps are interleaved arbitrarily.  Each lock acquisition, and each access to a
variable that is read or written outside its lock (`_level`, `loc._initialized`, `loc._level`), is a step of
its own.  Memory is sequentially consistent (the C++ code has formal data races on the unlocked accesses;
their other consequences are not modelled).  `isNamedStreamEnabled` inside a check is one step: it is only
possible while the (recursive) stream mutex is free or owned by the thread itself.
-/

namespace Verif.Logging.Config

abbrev Name := List Char
abbrev Tid := Nat

/-- `LogLocation` (LogLocation.hpp:6-15) -/
structure Loc where
  initialized : Bool
  enabled : Bool
  level : Nat
  stream : Name

/-- the calls a thread can make -/
inductive Call where
  /-- executing the log statement with location `l`, stream name `n` and level `v` -/
  | log (l : Nat) (n : Name) (v : Nat)
  | setLevel (v : Nat)
  | enable (n : Name)
  | disable (n : Name)
  | isEnabled (n : Name)

/-- where a thread is -/
inductive PC where
  | idle
  /-- console.hpp:69 -/
  | logStart (l : Nat) (n : Name) (v : Nat)
  /-- LoggingGlobals.cpp:47, waiting for `_locations_mutex` -/
  | initWait (l : Nat) (n : Name) (v : Nat)
  /-- 49-57, owning it -/
  | initIn (l : Nat) (n : Name) (v : Nat)
  /-- 59 → 43, comparing levels -/
  | initCheck (l : Nat) (v : Nat)
  /-- 59 → 43 → 101, waiting for `_named_stream_mutex` -/
  | initNs (l : Nat) (v : Nat)
  /-- 61-62 -/
  | initDone (l : Nat) (v : Nat)
  /-- console.hpp:73 -/
  | logLevel (l : Nat) (v : Nat)
  /-- 66 -/
  | setWait (l : Nat) (v : Nat)
  /-- 67-68 -/
  | setIn (l : Nat) (v : Nat)
  /-- 72 -/
  | chkWait (l : Nat) (v : Nat)
  /-- 73 → 43 -/
  | chkIn (l : Nat) (v : Nat)
  /-- 73 → 43 → 101 -/
  | chkNs (l : Nat) (v : Nat)
  /-- 74 -/
  | chkDone (l : Nat) (v : Nat)
  /-- console.hpp:78, reading the flag -/
  | logEnd (l : Nat) (v : Nat)
  /-- 242 -/
  | slTest (v : Nat)
  /-- 244 -/
  | slWrite (v : Nat)
  /-- 88, waiting for `_locations_mutex`; `k`: called by enable/disable, i.e. owning `_named_stream_mutex` -/
  | notWait (k : Bool)
  /-- 92-95 at index `i`, comparing levels -/
  | notLoop (i : Nat) (k : Bool)
  /-- 95 → 43 → 101 at index `i` -/
  | notNs (i : Nat) (k : Bool)
  /-- 111, 120: releasing `_named_stream_mutex` -/
  | nsRelease
  /-- 108 -/
  | enWait (n : Name)
  /-- 109 -/
  | enIn (n : Name)
  /-- 114 -/
  | disWait (n : Name)
  /-- 115-118 -/
  | disIn (n : Name)
  /-- 101-103 -/
  | isWait (n : Name)
deriving DecidableEq

structure St where
  level : Nat
  streams : Name → Bool
  loc : Nat → Loc
  /-- `_log_locations` -/
  registered : List Nat
  /-- owner of `_locations_mutex` -/
  locM : Option Tid
  /-- owner of `_named_stream_mutex` -/
  nsM : Option Tid
  pc : Tid → PC

/-- after the constructor (11-18), the log locations being zero-initialised statics (LogLocation.hpp:8-9) -/
def init : St where
  level := Level.info.toNat
  streams := fun n => n = defaultName
  loc := fun _ => ⟨false, false, Level.count.toNat, []⟩
  registered := []
  locM := none
  nsM := none
  pc := fun _ => .idle

def upd {β : Type} (f : Nat → β) (a : Nat) (b : β) : Nat → β := fun x => if x = a then b else f x

def setPc (s : St) (t : Tid) (p : PC) : St := { s with pc := upd s.pc t p }

def setEnabled (s : St) (l : Nat) (b : Bool) : St := { s with loc := upd s.loc l { s.loc l with enabled := b } }

/-- an idle thread starts a call -/
def start (s : St) (t : Tid) : Call → St
  | .log l n v => setPc s t (.logStart l n v)
  | .setLevel v => setPc s t (.slTest v)
  | .enable n => setPc s t (.enWait n)
  | .disable n => setPc s t (.disWait n)
  | .isEnabled n => setPc s t (.isWait n)

/-- the first half of `checkLogLocationEnabledNoLock` (42-44): continue at `ns` if the stream has to be looked
up, else set the flag and continue at `next` -/
def check1 (s : St) (t : Tid) (l : Nat) (ns next : PC) : St :=
  if s.level ≤ (s.loc l).level then
    if (s.loc l).stream = [] then setPc (setEnabled s l true) t next else setPc s t ns
  else setPc (setEnabled s l false) t next

/-- the second half: look the stream up (100-105) and set the flag -/
def check2 (s : St) (t : Tid) (l : Nat) (next : PC) : Option St :=
  if s.nsM = none ∨ s.nsM = some t then
    some (setPc (setEnabled s l (s.streams (s.loc l).stream)) t next)
  else none

/-- one step of thread `t` in the middle of a call; `none`: it has to wait -/
def step (s : St) (t : Tid) : Option St :=
  match s.pc t with
  | .idle => none
  | .logStart l n v =>
    some (setPc s t (if (s.loc l).initialized then .logLevel l v else .initWait l n v))
  | .initWait l n v =>
    if s.locM = none then some (setPc { s with locM := some t } t (.initIn l n v)) else none
  | .initIn l n v =>
    if (s.loc l).initialized then some (setPc { s with locM := none } t (.logLevel l v))
    else some (setPc { s with
      loc := upd s.loc l { s.loc l with stream := n, level := v }
      registered := s.registered ++ [l] } t (.initCheck l v))
  | .initCheck l v => some (check1 s t l (.initNs l v) (.initDone l v))
  | .initNs l v => check2 s t l (.initDone l v)
  | .initDone l v =>
    some (setPc { s with
      loc := upd s.loc l { s.loc l with initialized := true }
      locM := none } t (.logLevel l v))
  | .logLevel l v => some (setPc s t (if (s.loc l).level ≠ v then .setWait l v else .logEnd l v))
  | .setWait l v =>
    if s.locM = none then some (setPc { s with locM := some t } t (.setIn l v)) else none
  | .setIn l v =>
    some (setPc { s with loc := upd s.loc l { s.loc l with level := v }, locM := none } t (.chkWait l v))
  | .chkWait l v =>
    if s.locM = none then some (setPc { s with locM := some t } t (.chkIn l v)) else none
  | .chkIn l v => some (check1 s t l (.chkNs l v) (.chkDone l v))
  | .chkNs l v => check2 s t l (.chkDone l v)
  | .chkDone l v => some (setPc { s with locM := none } t (.logEnd l v))
  | .logEnd _ _ => some (setPc s t .idle)
  | .slTest v => some (setPc s t (if v ≠ s.level then .slWrite v else .idle))
  | .slWrite v => some (setPc { s with level := v } t (.notWait false))
  | .notWait k =>
    if s.locM = none then some (setPc { s with locM := some t } t (.notLoop 0 k)) else none
  | .notLoop i k =>
    match s.registered[i]? with
    | some l => some (check1 s t l (.notNs i k) (.notLoop (i + 1) k))
    | none => some (setPc { s with locM := none } t (if k then .nsRelease else .idle))
  | .notNs i k =>
    match s.registered[i]? with
    | some l => check2 s t l (.notLoop (i + 1) k)
    | none => none
  | .nsRelease => some (setPc { s with nsM := none } t .idle)
  | .enWait n =>
    if s.nsM = none then some (setPc { s with nsM := some t } t (.enIn n)) else none
  | .enIn n =>
    some (setPc { s with streams := fun m => if m = n then true else s.streams m } t (.notWait true))
  | .disWait n =>
    if s.nsM = none then some (setPc { s with nsM := some t } t (.disIn n)) else none
  | .disIn n =>
    if s.streams n then
      some (setPc { s with streams := fun m => if m = n then false else s.streams m } t (.notWait true))
    else some (setPc { s with nsM := none } t .idle)
  | .isWait _ => if s.nsM = none then some (setPc s t .idle) else none

/-- the states reachable by any interleaving in which every call made satisfies `ok` -/
inductive Reach (ok : Call → Prop) : St → Prop where
  | init : Reach ok init
  | start {s t c} : Reach ok s → s.pc t = .idle → ok c → Reach ok (start s t c)
  | step {s t s'} : Reach ok s → step s t = some s' → Reach ok s'

end Verif.Logging.Config
