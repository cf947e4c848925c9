import Mathlib.Data.Rat.Floor
import Mathlib.Algebra.Order.Field.Rat

/-!
# Model of `sm_timing`: time conversions and the timer registry
(`sm_timing/src/NsecTimeUtilities.cpp`, `sm_timing/src/Timer.cpp`, `Timer.hpp`)

Seconds are exact rationals unless a rounding function is given.  The clock is an input: each operation
that reads it carries the value read.  The registry is a process-wide singleton guarded by a mutex; the
operations below are its atomic steps in any interleaving.  (The statistics getters and `getTag` do not
take the mutex; for interleavings access by access and their data races see `Verif.Timing.Conc`, C130.)
-/

namespace Verif.Timing

/-! ## nanosecond times -/

/-- integer division rounding towards zero, as C++ integer and duration casts do -/
def tdiv (a b : ℤ) : ℤ := Int.tdiv a b

/-- `nsecToChrono` (NsecTimeUtilities.cpp:7-11): ticks of the system clock; `period` = nanoseconds per tick
(1 with libstdc++, 1000 with libc++) -/
def nsecToChrono (period : ℤ) (t : ℤ) : ℤ := tdiv t period

/-- `chronoToNsec` (NsecTimeUtilities.cpp:15-17) -/
def chronoToNsec (period : ℤ) (ticks : ℤ) : ℤ := ticks * period

/-- conversion of a floating value to an integer: the fractional part is discarded -/
def trunc (x : ℚ) : ℤ := if 0 ≤ x then ⌊x⌋ else ⌈x⌉

/-- `nsecToSec` (NsecTimeUtilities.cpp:28-30); `rnd` is the rounding of double arithmetic, `c` the double
nearest to 1e-9 -/
def nsecToSec (rnd : ℚ → ℚ) (c : ℚ) (t : ℤ) : ℚ := rnd (rnd t * c)

/-- `secToNsec` (NsecTimeUtilities.cpp:34-36); results outside the 64 bit range are undefined and not
modelled -/
def secToNsec (rnd : ℚ → ℚ) (s : ℚ) : ℤ := trunc (rnd (s * 1000000000))

/-- `std::numeric_limits<NsecTime>::min()` (NsecTimeUtilities.cpp:38-40) -/
def invalidTime : ℤ := -9223372036854775808

/-- `isValid` (NsecTimeUtilities.cpp:42-44) -/
def isValid (t : ℤ) : Bool := decide (invalidTime = t)

/-! ## secondsToTimeString -/

/-- what `secondsToTimeString` prints (Timer.cpp:221-235): hours, minutes, and the seconds in millionths
as `%09.6f` rounds them (`rnd6` is the rounding of the C library) -/
structure TimeString where
  hours : ℤ
  minutes : ℤ
  micros : ℤ
deriving DecidableEq, Repr

/-- the value kept by a narrowing conversion to 32 bit `int` -/
def toInt32 (x : ℤ) : ℤ := (x + 2147483648) % 4294967296 - 2147483648

/-- `fmod(x, 60)` -/
def fmod60 (x : ℚ) : ℚ := x - 60 * trunc (x / 60)

/-- Timer.cpp:221-235; the divisions are rounded by `rnd`, the rounding of double arithmetic; `fmod` is exact -/
def secondsToTimeString (rnd : ℚ → ℚ) (rnd6 : ℚ → ℤ) (seconds : ℚ) : TimeString :=
  let secs := fmod60 seconds
  let minutes := toInt32 (trunc (rnd (seconds / 60)))
  let hours := toInt32 (trunc (rnd (seconds / 3600)))
  ⟨hours, toInt32 (minutes - hours * 60), rnd6 (secs * 1000000)⟩

/-! ## accumulators -/

/-- the boost accumulator set of one timer (Timer.cpp:17-31): count, sum, sum of squares
(`lazy_variance`), extremes, and the window of the last 50 samples with its running sum
(`rolling_mean`). -/
structure Acc where
  count : ℕ
  sum : ℚ
  sumSq : ℚ
  min : Option ℚ
  max : Option ℚ
  window : List ℚ
  windowSum : ℚ
deriving DecidableEq

/-- `TimerMapValue()` -/
def Acc.init : Acc := ⟨0, 0, 0, none, none, [], 0⟩

def windowSize : ℕ := 50

/-- one sample is pushed into the accumulator set (`m_acc(seconds)`, Timer.cpp:151-154) -/
def Acc.push (a : Acc) (x : ℚ) : Acc :=
  { count := a.count + 1
    sum := a.sum + x
    sumSq := a.sumSq + x * x
    min := some (match a.min with | none => x | some m => if x < m then x else m)
    max := some (match a.max with | none => x | some m => if m < x then x else m)
    window := if a.window.length < windowSize then a.window ++ [x] else a.window.tail ++ [x]
    windowSum := if a.window.length < windowSize then a.windowSum + x
      else a.windowSum - a.window.headD 0 + x }

/-- the statistics the getters return (Timer.cpp:156-207); the mean, variance and rate of no samples (a
division by zero, NaN) are `none` -/
def Acc.total (a : Acc) : ℚ := a.sum
def Acc.mean (a : Acc) : Option ℚ := if a.count = 0 then none else some (a.sum / a.count)
def Acc.variance (a : Acc) : Option ℚ :=
  if a.count = 0 then none else some (a.sumSq / a.count - (a.sum / a.count) * (a.sum / a.count))
def Acc.hz (a : Acc) : Option ℚ :=
  if a.window.length = 0 then none else some (1 / (a.windowSum / a.window.length))

/-! ## the registry and timer objects -/

abbrev Tag := List Char

/-- a `Timer` object: its handle and, while it is timing, the start time (`m_timing`, `m_time`; the start
time is only read while timing) -/
structure TimerObj where
  handle : ℕ
  started : Option ℚ
deriving DecidableEq

/-- `Timing::instance()` (`m_tagMap`, `m_timers`, `m_maxTagLength`) and all `Timer` objects.  The tag map
is an association list (its iteration order is irrelevant: tags and handles are unique). -/
structure Sys where
  tagMap : List (Tag × ℕ)
  accs : List Acc
  maxLen : ℕ
  timers : ℕ → Option TimerObj

def Sys.init : Sys := ⟨[], [], 0, fun _ => none⟩

/-- `m_tagMap.find(tag)` -/
def lookup (m : List (Tag × ℕ)) (t : Tag) : Option ℕ :=
  match m with
  | [] => none
  | (t', h) :: rest => if t' = t then some h else lookup rest t

/-- `Timing::getHandle` (Timer.cpp:58-74) -/
def getHandle (s : Sys) (t : Tag) : ℕ × Sys :=
  match lookup s.tagMap t with
  | none => (s.accs.length, { s with
      tagMap := s.tagMap ++ [(t, s.accs.length)]
      accs := s.accs ++ [Acc.init]
      maxLen := Nat.max s.maxLen t.length })
  | some h => (h, s)

/-- `Timing::getTag` (Timer.cpp:77-94); `none` = exception -/
def getTag (s : Sys) (h : ℕ) : Option Tag :=
  (s.tagMap.find? fun e => e.2 = h).map Prod.fst

/-- operations of a program using timers; `now` is the clock value an operation reads -/
inductive Op where
  | getHandle (t : Tag)
  | newTag (id : ℕ) (t : Tag) (constructStopped : Bool) (now : ℚ)
  | newHandle (id : ℕ) (h : ℕ) (constructStopped : Bool) (now : ℚ)
  | start (id : ℕ) (now : ℚ)
  | stop (id : ℕ) (now : ℚ)
  | destroy (id : ℕ) (now : ℚ)
  | resetHandle (h : ℕ)
  | resetTag (t : Tag)
  /-- any statistics getter by tag: registers the tag (Timer.cpp:160-207) -/
  | query (t : Tag)

inductive Out where
  | ok
  | handle (h : ℕ)
  | threw
  /-- the program names an object that does not exist (or reuses a live one): not a C++ program -/
  | invalid
deriving DecidableEq

def Sys.setTimer (s : Sys) (id : ℕ) (t : Option TimerObj) : Sys :=
  { s with timers := fun i => if i = id then t else s.timers i }

/-- `addTime` (Timer.cpp:151-154) -/
def Sys.addTime (s : Sys) (h : ℕ) (dt : ℚ) : Sys :=
  { s with accs := s.accs.modify h (fun a => a.push dt) }

/-- `Timer::stop` of a running timer (Timer.cpp:127-144) -/
def Sys.stopTimer (s : Sys) (id : ℕ) (tm : TimerObj) (t0 now : ℚ) : Sys :=
  (s.addTime tm.handle (now - t0)).setTimer id (some { tm with started := none })

/-- one operation -/
def step (s : Sys) : Op → Out × Sys
  | .getHandle t => (.handle (getHandle s t).1, (getHandle s t).2)
  -- Timer.cpp:107-113
  | .newTag id t stopped now => match s.timers id with
    | some _ => (.invalid, s)
    | none => (.ok, (getHandle s t).2.setTimer id
        (some ⟨(getHandle s t).1, if stopped then none else some now⟩))
  -- Timer.cpp:98-105
  | .newHandle id h stopped now => match s.timers id with
    | some _ => (.invalid, s)
    | none => if h < s.accs.length then (.ok, s.setTimer id (some ⟨h, if stopped then none else some now⟩))
      else (.threw, s)
  -- Timer.cpp:117-125
  | .start id now => match s.timers id with
    | none => (.invalid, s)
    | some tm => match tm.started with
      | some _ => (.threw, s)
      | none => (.ok, s.setTimer id (some { tm with started := some now }))
  -- Timer.cpp:127-144
  | .stop id now => match s.timers id with
    | none => (.invalid, s)
    | some tm => match tm.started with
      | none => (.threw, s)
      | some t0 => (.ok, s.stopTimer id tm t0 now)
  -- Timer.cpp:114-117
  | .destroy id now => match s.timers id with
    | none => (.invalid, s)
    | some tm => match tm.started with
      | none => (.ok, s.setTimer id none)
      | some t0 => (.ok, (s.stopTimer id tm t0 now).setTimer id none)
  -- Timer.cpp:209-213
  | .resetHandle h => if h < s.accs.length then (.ok, { s with accs := s.accs.modify h fun _ => Acc.init })
      else (.threw, s)
  -- Timer.cpp:215-218
  | .resetTag t => (.ok, { (getHandle s t).2 with
      accs := (getHandle s t).2.accs.modify (getHandle s t).1 fun _ => Acc.init })
  | .query t => (.ok, (getHandle s t).2)

/-- a whole program run: the outcomes and the final state -/
def run (s : Sys) : List Op → List Out × Sys
  | [] => ([], s)
  | o :: os => ((step s o).1 :: (run (step s o).2 os).1, (run (step s o).2 os).2)

end Verif.Timing
