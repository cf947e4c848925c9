/-!
# Model of `sm::JobQueue` (`sm_boost/src/JobQueue.cpp`, `sm_boost/include/sm/boost/JobQueue.hpp`)

A small-step interleaving machine.  Threads are the pool's workers (created by `start`) and any number
of client threads.  Between two steps of one thread any other thread may step.

Granularity: a critical section in which the code does not wait and which reads and writes only data
protected by `mutex_` is one step; `killWorkers_`, which `stop()` writes without the mutex, is read and
written in steps of its own, and so is the unprotected `notify_all` of `join()`.  `condition::wait` is
two steps: deciding to wait (still holding the mutex) and going to sleep, which releases the mutex and
registers the sleeper atomically; after being notified (or spuriously woken) the sleeper must first
reacquire the mutex.

Not modelled here: jobs that throw and futures (see `Verif.JobQueue.Future`), `boost::thread` creation failure, weak memory
effects of the unsynchronised `killWorkers_` (sequential consistency is assumed), concurrent calls of
`start` with one another (they race on `work_`), thread interruption.
-/

namespace Verif.JobQueue

/-- A job (`boost::function<void()>`), identified by a number; the same number may be scheduled twice. -/
abbrev Job := Nat

/-- Program counter of a worker inside `exec_loop` (JobQueue.cpp:58-80). -/
inductive WPC where
  /-- thread created, before `scoped_lock lck(mutex_)` (59) -/
  | enter
  /-- holds the mutex, about to test `q_.empty() && !killWorkers_` (62) -/
  | check
  /-- holds the mutex, decided to wait (63) -/
  | presleep
  /-- inside `condition_.wait`, mutex released -/
  | sleep
  /-- notified, must reacquire the mutex -/
  | woken
  /-- holds the mutex, about to test `killWorkers_` (64) -/
  | check2
  /-- holds the mutex, about to pop the front job (69-73) -/
  | take
  /-- executing the job without the mutex (75) -/
  | run (j : Job)
  /-- the job returned, about to lock (76) -/
  | done (j : Job)
  /-- returned from `exec_loop` (67) -/
  | fin
deriving DecidableEq, Repr

/-- Program counter of a client thread inside one of the blocking calls. -/
inductive CPC where
  | idle
  /-- `waitForEmptyQueue` (JobQueue.cpp:49-56) -/
  | wEnter | wCheck | wPresleep | wSleep | wWoken
  /-- `join` (JobQueue.cpp:36-41): after `stop()`, before `notify_all`; then inside `join_all` -/
  | jNotify | jWait
  /-- `~JobQueue` (JobQueue.cpp:6-12) -/
  | dEnter | dCheck | dPresleep | dSleep | dWoken | dFin
deriving DecidableEq, Repr

/-- Thread identities (mutex owners). -/
inductive Tid where
  | W (i : Nat)
  | C (k : Nat)
deriving DecidableEq, Repr

/-- The object's members (JobQueue.hpp:63-71), the threads and three history variables
(`scheduled`, `begun`, `finished`) that no step reads. -/
structure State where
  q : List Job
  kill : Bool
  inPool : Int
  active : Int
  lock : Option Tid
  /-- `work_` is non-null -/
  started : Bool
  workers : List WPC
  clients : List CPC
  /-- the destructor has returned -/
  freed : Bool
  /-- history: jobs passed to `scheduleWork`, oldest first -/
  scheduled : List Job
  /-- history: jobs handed to workers (worker, job), oldest first -/
  begun : List (Nat × Job)
  /-- history: jobs whose function returned, oldest first -/
  finished : List Job
deriving DecidableEq, Repr

/-- `JobQueue()` (JobQueue.cpp:5) used by `n` client threads. -/
def init (n : Nat) : State :=
  { q := [], kill := false, inPool := 0, active := 0, lock := none, started := false,
    workers := [], clients := List.replicate n .idle, freed := false,
    scheduled := [], begun := [], finished := [] }

/-- The scheduler's choices. -/
inductive Act where
  /-- some thread (client or running job) executes `scheduleWork(j)` (JobQueue.cpp:14-19);
  `scheduleFuture` (implementation/JobQueue.hpp:8-22) is the same call with a packaged task -/
  | schedule (j : Job)
  /-- `stop()` (JobQueue.cpp:32-34) -/
  | stop
  /-- `start(n)` (JobQueue.cpp:21-30) -/
  | start (n : Nat)
  /-- worker `i` performs its next step -/
  | w (i : Nat)
  /-- worker `i` wakes up spuriously -/
  | spurW (i : Nat)
  /-- client `k` calls `waitForEmptyQueue` / `join` / the destructor -/
  | callWait (k : Nat)
  | callJoin (k : Nat)
  | callDtor (k : Nat)
  /-- client `k` performs the next step of its call -/
  | c (k : Nat)
  /-- client `k` wakes up spuriously -/
  | spurC (k : Nat)
deriving DecidableEq, Repr

/-- Result of a step that is enabled. -/
inductive Out where
  | ok (s : State)
  /-- undefined behaviour: use after destruction, null `work_`, `front()` of an empty deque -/
  | ub
deriving DecidableEq, Repr

/-- `condition_.notify_all()` on one worker / client -/
def wakeW : WPC → WPC
  | .sleep => .woken
  | pc => pc
def wakeD : CPC → CPC
  | .dSleep => .dWoken
  | pc => pc
/-- `workCondition_.notify_all()` on one client -/
def wakeQ : CPC → CPC
  | .wSleep => .wWoken
  | pc => pc

/-- `condition_.notify_all()` -/
def notifyCond (s : State) : State :=
  { s with workers := s.workers.map wakeW, clients := s.clients.map wakeD }
/-- `workCondition_.notify_all()` -/
def notifyWork (s : State) : State := { s with clients := s.clients.map wakeQ }

def setW (s : State) (i : Nat) (pc : WPC) : State := { s with workers := s.workers.set i pc }
def setC (s : State) (k : Nat) (pc : CPC) : State := { s with clients := s.clients.set k pc }

/-- Acquire the mutex if it is free, otherwise the thread is blocked. -/
def acquire (s : State) (t : Tid) (next : State → State) : Option Out :=
  if s.lock = none then some (.ok (next { s with lock := some t })) else none

/-- One step of worker `i` at `pc` (`exec_loop`, JobQueue.cpp:58-80). -/
def wstep (s : State) (i : Nat) : WPC → Option Out
  | .enter => acquire s (.W i) fun s => setW { s with inPool := s.inPool + 1 } i .check
  | .check => if s.q = [] ∧ s.kill = false then some (.ok (setW s i .presleep))
      else some (.ok (setW s i .check2))
  | .presleep => some (.ok (setW { s with lock := none } i .sleep))
  | .sleep => none
  | .woken => acquire s (.W i) fun s => setW s i .check
  | .check2 =>
    if s.kill then
      some (.ok (notifyCond (setW { s with inPool := s.inPool - 1, lock := none } i .fin)))
    else some (.ok (setW s i .take))
  | .take => match s.q with
    | [] => some .ub
    | j :: q =>
      some (.ok (setW { s with
        q := q
        active := s.active + 1
        lock := none
        begun := s.begun ++ [(i, j)] } i (.run j)))
  | .run j => some (.ok (setW { s with finished := s.finished ++ [j] } i (.done j)))
  | .done _ => acquire s (.W i) fun s => notifyWork (setW { s with active := s.active - 1 } i .check)
  | .fin => none

/-- One step of client `k` inside its call. -/
def cstep (s : State) (k : Nat) : CPC → Option Out
  | .idle => none
  -- waitForEmptyQueue (49-56)
  | .wEnter => acquire s (.C k) fun s => setC s k .wCheck
  | .wCheck => if s.active ≠ 0 ∨ s.q ≠ [] then some (.ok (setC s k .wPresleep))
      else some (.ok (setC { s with lock := none } k .idle))
  | .wPresleep => some (.ok (setC { s with lock := none } k .wSleep))
  | .wSleep => none
  | .wWoken => acquire s (.C k) fun s => setC s k .wCheck
  -- join (36-41)
  | .jNotify => some (.ok (setC (notifyCond s) k .jWait))
  | .jWait => if s.started = false then some .ub
      else if s.workers.all (· == .fin) then some (.ok (setC s k .idle)) else none
  -- ~JobQueue (6-12)
  | .dEnter => acquire s (.C k) fun s => setC (notifyCond { s with kill := true }) k .dCheck
  | .dCheck => if s.inPool ≠ 0 then some (.ok (setC s k .dPresleep))
      else some (.ok (setC { s with lock := none, freed := true } k .dFin))
  | .dPresleep => some (.ok (setC { s with lock := none } k .dSleep))
  | .dSleep => none
  | .dWoken => acquire s (.C k) fun s => setC s k .dCheck
  | .dFin => none

/-- One step of the whole system; `none` = the chosen action is not possible now. -/
def step (s : State) : Act → Option Out
  | .schedule j =>
    if s.freed then some .ub
    else if s.lock = none then
      some (.ok (notifyCond { s with q := s.q ++ [j], scheduled := s.scheduled ++ [j] }))
    else none
  | .stop => if s.freed then some .ub else some (.ok { s with kill := true })
  | .start n =>
    if s.freed then some .ub
    else if s.started then some (.ok s)
    else some (.ok { s with started := true, workers := List.replicate n .enter })
  | .w i => match s.workers[i]? with
    | none => none
    | some .fin => none
    | some pc => if s.freed then some .ub else wstep s i pc
  | .spurW i => if s.workers[i]? = some .sleep then
      (if s.freed then some .ub else some (.ok (setW s i .woken))) else none
  | .callWait k => if s.clients[k]? = some .idle then
      (if s.freed then some .ub else some (.ok (setC s k .wEnter))) else none
  | .callJoin k => if s.clients[k]? = some .idle then
      (if s.freed then some .ub else some (.ok (setC { s with kill := true } k .jNotify))) else none
  | .callDtor k => if s.clients[k]? = some .idle then
      (if s.freed then some .ub else some (.ok (setC s k .dEnter))) else none
  | .c k => match s.clients[k]? with
    | none => none
    | some .idle => none
    | some .dFin => none
    | some pc => if s.freed then some .ub else cstep s k pc
  | .spurC k => match s.clients[k]? with
    | some .wSleep => if s.freed then some .ub else some (.ok (setC s k .wWoken))
    | some .dSleep => if s.freed then some .ub else some (.ok (setC s k .dWoken))
    | _ => none

/-- Run a schedule (a list of choices); `none` if some choice was not possible or was undefined
behaviour. -/
def exec (s : State) : List Act → Option State
  | [] => some s
  | a :: as => match step s a with
    | some (.ok s') => exec s' as
    | _ => none

/-- The states the object can be in. -/
def Reachable (s : State) : Prop := ∃ n as, exec (init n) as = some s

end Verif.JobQueue
