import Verif.JobQueue.Model

/-! # Vocabulary of the JobQueue properties (C01-C07), stated on schedules (lists of actions) -/

namespace Verif.JobQueue

/-- The jobs passed to `scheduleWork` in a schedule, in order. -/
def jobsScheduled (as : List Act) : List Job :=
  as.filterMap fun
    | .schedule j => some j
    | _ => none

/-- The argument of a `start` call. -/
def startArg : Act → Option Nat
  | .start n => some n
  | _ => none

/-- The argument of the first `start` call (0 if there was none). -/
def poolSize (as : List Act) : Nat := (as.findSome? startArg).getD 0

/-- Worker `i` is executing job `j` right now. -/
def Executing (s : State) (i : Nat) (j : Job) : Prop := s.workers[i]? = some (.run j)

/-- number of jobs executing right now -/
def executing (s : State) : Nat :=
  s.workers.countP fun
    | .run _ => true
    | _ => false

/-- The pool has been asked to stop. -/
def Stopped (s : State) : Prop := s.kill = true

/-- Client `k` is inside `waitForEmptyQueue` / `join` / the destructor. -/
def InWait (s : State) (k : Nat) : Prop :=
  ∃ pc ∈ [CPC.wEnter, .wCheck, .wPresleep, .wSleep, .wWoken], s.clients[k]? = some pc
def InJoin (s : State) (k : Nat) : Prop := ∃ pc ∈ [CPC.jNotify, .jWait], s.clients[k]? = some pc
def InDtor (s : State) (k : Nat) : Prop :=
  ∃ pc ∈ [CPC.dEnter, .dCheck, .dPresleep, .dSleep, .dWoken], s.clients[k]? = some pc

end Verif.JobQueue
