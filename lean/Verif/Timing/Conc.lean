import Verif.Timing.Model

/-!
# Timers used by several threads

The registry of `Verif.Timing.Model`, with the calls of several threads interleaved access by access (Timer.cpp:33-219).  A thread's step is one access to the shared data (`m_mutex`, `m_tagMap`, `m_timers`, an accumulator, `m_maxTagLength`); steps on data of the thread alone (the fields of its `Timer` object, the clock) are merged with the access beside them.  A `Timer` object belongs to one thread.  Not modelled: the initialisation of the static `instance()` (thread-safe since C++11), `print` (a sequence of getters), exceptions of the allocator.
-/

namespace Verif.Timing.Conc

open Verif.Timing

/-- threads are numbered -/
scoped notation "Tid" => ℕ

/-- what a call does after `getHandle` returned: nothing, start a `Timer` (Timer.cpp:107-113), `reset(handle)` (:215-218), a getter (:160-207) -/
inductive Then where
  | ret
  | timer (id : ℕ) (stopped : Bool) (now : ℚ)
  | reset
  | get
deriving DecidableEq

/-- what a thread does next -/
inductive Pc where
  | idle
  /-- `getHandle` before `scoped_lock` (Timer.cpp:60) -/
  | ghWant (t : Tag) (k : Then)
  /-- `m_tagMap.find` (:61) -/
  | ghFind (t : Tag) (k : Then)
  /-- `m_timers.size()` (:64) -/
  | ghSize (t : Tag) (k : Then)
  /-- `m_tagMap[tag] = handle` (:65) -/
  | ghMap (t : Tag) (h : ℕ) (k : Then)
  /-- `m_timers.push_back` (:66) -/
  | ghPush (t : Tag) (h : ℕ) (k : Then)
  /-- `m_maxTagLength = …` (:68) -/
  | ghMax (t : Tag) (h : ℕ) (k : Then)
  /-- the lock is released and the handle returned (:69-72) -/
  | ghUnlock (t : Tag) (h : ℕ) (k : Then)
  /-- `addTime` before `scoped_lock` (:152), called by `stop` or the destructor (`fin`) of timer `id` -/
  | addWant (id h : ℕ) (t0 now : ℚ) (fin : Bool)
  /-- `m_timers[handle].m_acc(seconds)` (:153) -/
  | addPush (id h : ℕ) (t0 now : ℚ) (fin : Bool)
  | addUnlock (id h : ℕ) (t0 now : ℚ) (fin : Bool)
  /-- `reset` before `scoped_lock` (:210) -/
  | rsWant (h : ℕ)
  /-- the assertion about `m_timers.size()` (:211) -/
  | rsCheck (h : ℕ)
  /-- `m_timers[handle] = TimerMapValue()` (:212) -/
  | rsWrite (h : ℕ)
  | rsUnlock (h : ℕ) (ok : Bool)
  /-- a getter: the assertion about `m_timers.size()`, no lock (:157 and the like) -/
  | gtSize (h : ℕ)
  /-- … and the read of the accumulator, no lock (:158 and the like) -/
  | gtRead (h : ℕ)
  /-- `getTag`, no lock (:82-89); also for the message of a failed assertion in `start` and `stop` (:118, :129) -/
  | tagRead
  /-- `Timer(handle)`: the assertion about `m_timers.size()`, no lock (:102) -/
  | ctSize (id h : ℕ) (stopped : Bool) (now : ℚ)
deriving DecidableEq

/-- the calls of the interface -/
inductive Call where
  | getHandle (t : Tag)
  | newTag (id : ℕ) (t : Tag) (stopped : Bool) (now : ℚ)
  | newHandle (id h : ℕ) (stopped : Bool) (now : ℚ)
  | start (id : ℕ) (now : ℚ)
  | stop (id : ℕ) (now : ℚ)
  | destroy (id : ℕ) (now : ℚ)
  | resetHandle (h : ℕ)
  | resetTag (t : Tag)
  | getter (h : ℕ)
  | getterTag (t : Tag)
  | getTag (h : ℕ)
deriving DecidableEq

/-- the shared data, the holder of `m_mutex`, what every thread does, and a record of finished critical sections with their results (not part of the program) -/
structure St where
  sys : Sys
  lock : Option Tid
  pc : Tid → Pc
  log : List (Tid × Op × Out)

def St.init : St := ⟨Sys.init, none, fun _ => .idle, []⟩

def St.goto (c : St) (i : Tid) (p : Pc) : St := { c with pc := fun j => if j = i then p else c.pc j }
def St.record (c : St) (i : Tid) (o : Op) (r : Out) : St := { c with log := c.log ++ [(i, o, r)] }

/-- a thread that is not in a call begins one; `none` = not a program (a `Timer` that does not exist or belongs to another thread) -/
def call (owner : ℕ → Tid) (c : St) (i : Tid) (cl : Call) : Option St :=
  if c.pc i ≠ .idle then none
  else match cl with
  | .getHandle t => some (c.goto i (.ghWant t .ret))
  | .newTag id t stopped now => if owner id = i ∧ c.sys.timers id = none then some (c.goto i (.ghWant t (.timer id stopped now))) else none
  | .newHandle id h stopped now => if owner id = i ∧ c.sys.timers id = none then some (c.goto i (.ctSize id h stopped now)) else none
  | .start id now => if owner id = i then match c.sys.timers id with
    | none => none
    | some tm => match tm.started with
      | some _ => some ((c.goto i .tagRead).record i (.start id now) .threw)
      | none => some ({ c with sys := c.sys.setTimer id (some { tm with started := some now }) }.record i (.start id now) .ok)
    else none
  | .stop id now => if owner id = i then match c.sys.timers id with
    | none => none
    | some tm => match tm.started with
      | none => some ((c.goto i .tagRead).record i (.stop id now) .threw)
      | some t0 => some (c.goto i (.addWant id tm.handle t0 now false))
    else none
  | .destroy id now => if owner id = i then match c.sys.timers id with
    | none => none
    | some tm => match tm.started with
      | none => some ({ c with sys := c.sys.setTimer id none }.record i (.destroy id now) .ok)
      | some t0 => some (c.goto i (.addWant id tm.handle t0 now true))
    else none
  | .resetHandle h => some (c.goto i (.rsWant h))
  | .resetTag t => some (c.goto i (.ghWant t .reset))
  | .getter h => some (c.goto i (.gtSize h))
  | .getterTag t => some (c.goto i (.ghWant t .get))
  | .getTag _ => some (c.goto i .tagRead)

/-- `scoped_lock lock(m_mutex)`: blocks while another thread holds the mutex -/
def acquire (c : St) (i : Tid) (p : Pc) : Option St :=
  match c.lock with
  | none => some { c.goto i p with lock := some i }
  | some _ => none

def release (c : St) (i : Tid) (p : Pc) : St := { c.goto i p with lock := none }

/-- the next access of thread `i`; `none` = it is not in a call, or it waits for the mutex -/
def step (c : St) (i : Tid) : Option St :=
  match c.pc i with
  | .idle => none
  | .ghWant t k => acquire c i (.ghFind t k)
  | .ghFind t k => match lookup c.sys.tagMap t with
    | some h => some (c.goto i (.ghUnlock t h k))
    | none => some (c.goto i (.ghSize t k))
  | .ghSize t k => some (c.goto i (.ghMap t c.sys.accs.length k))
  | .ghMap t h k => some ({ c with sys := { c.sys with tagMap := c.sys.tagMap ++ [(t, h)] } }.goto i (.ghPush t h k))
  | .ghPush t h k => some ({ c with sys := { c.sys with accs := c.sys.accs ++ [Acc.init] } }.goto i (.ghMax t h k))
  | .ghMax t h k => some ({ c with sys := { c.sys with maxLen := Nat.max c.sys.maxLen t.length } }.goto i (.ghUnlock t h k))
  | .ghUnlock t h k => match k with
    | .ret => some ((release c i .idle).record i (.getHandle t) (.handle h))
    | .timer id stopped now => some ((release { c with sys := c.sys.setTimer id (some ⟨h, if stopped then none else some now⟩) } i .idle).record i
        (.newTag id t stopped now) .ok)
    | .reset => some ((release c i (.rsWant h)).record i (.getHandle t) (.handle h))
    | .get => some ((release c i (.gtSize h)).record i (.getHandle t) (.handle h))
  | .addWant id h t0 now fin => acquire c i (.addPush id h t0 now fin)
  | .addPush id h t0 now fin => some ({ c with sys := c.sys.addTime h (now - t0) }.goto i (.addUnlock id h t0 now fin))
  | .addUnlock id h _ now fin =>
    some ((release { c with sys := c.sys.setTimer id (if fin then none else some ⟨h, none⟩) } i .idle).record i
      (if fin then .destroy id now else .stop id now) .ok)
  | .rsWant h => acquire c i (.rsCheck h)
  | .rsCheck h => some (c.goto i (if h < c.sys.accs.length then .rsWrite h else .rsUnlock h false))
  | .rsWrite h => some ({ c with sys := { c.sys with accs := c.sys.accs.modify h fun _ => Acc.init } }.goto i (.rsUnlock h true))
  | .rsUnlock h ok => some ((release c i .idle).record i (.resetHandle h) (if ok then .ok else .threw))
  | .gtSize h => some (c.goto i (if h < c.sys.accs.length then .gtRead h else .idle))
  | .gtRead _ => some (c.goto i .idle)
  | .tagRead => some (c.goto i .idle)
  | .ctSize id h stopped now => if h < c.sys.accs.length
    then some (({ c with sys := c.sys.setTimer id (some ⟨h, if stopped then none else some now⟩) }.goto i .idle).record i (.newHandle id h stopped now) .ok)
    else some ((c.goto i .idle).record i (.newHandle id h stopped now) .threw)

/-- one event of a history: thread `i` begins a call, or makes its next access -/
inductive Ev where
  | call (i : Tid) (cl : Call)
  | step (i : Tid)
deriving DecidableEq

def ev (owner : ℕ → Tid) (c : St) : Ev → Option St
  | .call i cl => call owner c i cl
  | .step i => step c i

/-- a history; `none` = not possible -/
def exec (owner : ℕ → Tid) (c : St) : List Ev → Option St
  | [] => some c
  | e :: es => (ev owner c e).bind fun c' => exec owner c' es

end Verif.Timing.Conc
