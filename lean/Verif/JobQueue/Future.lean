import Verif.JobQueue.Spec

/-!
# Futures and exceptions of jobs

`scheduleFuture` (implementation/JobQueue.hpp:26-33) wraps the function into a `boost::packaged_task` and queues that: on top of the machine of `Verif.JobQueue.Model`, every job scheduled so has a future.  A packaged task stores the value or the exception of its function; if the task is destroyed without having been executed the future gets `broken_promise`.  Tasks are destroyed with the queue `q_`, when the object dies (JobQueue.hpp:69), or after their execution (JobQueue.cpp:70, end of the scope of `f`).  A job scheduled with `scheduleWork` is called as it is: an exception leaves `exec_loop` and the process is terminated.

Simplification: making the future and queueing the task (JobQueue.hpp:30-32) is one step.  Every job number is used for one call of `scheduleFuture` or `scheduleWork` (the theorems assume the scheduled numbers distinct).
-/

namespace Verif.JobQueue

/-- what is known about a job's function -/
structure JobFn where
  /-- scheduled by `scheduleFuture` -/
  isFuture : Bool
  /-- it throws (else it returns) -/
  throws : Bool

/-- a `boost::unique_future` -/
inductive Fut where
  /-- there is none (yet) -/
  | none
  /-- `get()` blocks -/
  | waiting
  /-- `get()` returns the function's value -/
  | value
  /-- `get()` rethrows the function's exception -/
  | error
  /-- `get()` throws `broken_promise` -/
  | broken
deriving DecidableEq, Repr

/-- `is_ready()` -/
def Fut.ready : Fut → Bool
  | .value | .error | .broken => true
  | _ => false

def updF (f : Job → Fut) (j : Job) (x : Fut) : Job → Fut := fun k => if k = j then x else f k

/-- the futures after a step of the queue -/
def futStep (fn : Job → JobFn) (s : State) (fut : Job → Fut) : Act → Job → Fut
  -- scheduleFuture (implementation/JobQueue.hpp:26-33)
  | .schedule j => if (fn j).isFuture then updF fut j .waiting else fut
  -- f() (JobQueue.cpp:75), taskWrapper::operator() (implementation/JobQueue.hpp:18)
  | .w i => match s.workers[i]? with
    | some (.run j) => if (fn j).isFuture then updF fut j (if (fn j).throws then .error else .value) else fut
    | _ => fut
  -- the end of the destructor: q_ is destroyed
  | .c k => match s.clients[k]? with
    | some .dCheck => if s.inPool = 0 then fun j => if j ∈ s.q ∧ fut j = .waiting then .broken else fut j else fut
    | _ => fut
  | _ => fut

/-- the step lets an exception out of a thread -/
def terminates (fn : Job → JobFn) (s : State) : Act → Bool
  | .w i => match s.workers[i]? with
    | some (.run j) => !(fn j).isFuture && (fn j).throws
    | _ => false
  | _ => false

structure FState where
  base : State
  fut : Job → Fut

/-- how a schedule ends -/
inductive FOut where
  | ok (s : FState)
  /-- `std::terminate` -/
  | terminated
  /-- undefined behaviour, or a step that is not possible -/
  | no

def fstep (fn : Job → JobFn) (s : FState) (a : Act) : FOut :=
  match step s.base a with
  | some (.ok b) => if terminates fn s.base a then .terminated else .ok ⟨b, futStep fn s.base s.fut a⟩
  | _ => .no

/-- run a schedule -/
def fexec (fn : Job → JobFn) (s : FState) : List Act → FOut
  | [] => .ok s
  | a :: as => match fstep fn s a with
    | .ok s => fexec fn s as
    | r => r

/-- a new queue used by `n` client threads -/
def finit (n : Nat) : FState := ⟨init n, fun _ => .none⟩

/-- Jobs whose function waits for the future of another job: worker `i` is executing a job that waits for the future of a job `d` (`dep j = some d`) and that future is not ready.  A simplification: the wait is the last thing the function does. -/
def blocked (dep : Job → Option Job) (s : FState) (i : Nat) : Bool :=
  match s.base.workers[i]? with
  | some (.run j) => match dep j with
    | some d => !(s.fut d).ready
    | none => false
  | _ => false

/-- the action is a step of a blocked job -/
def actBlocked (dep : Job → Option Job) (s : FState) : Act → Bool
  | .w i => blocked dep s i
  | _ => false

/-- run a schedule in which blocked jobs do not return -/
def dexec (fn : Job → JobFn) (dep : Job → Option Job) (s : FState) : List Act → FOut
  | [] => .ok s
  | a :: as =>
    if actBlocked dep s a then .no
    else match fstep fn s a with
      | .ok s => dexec fn dep s as
      | r => r

end Verif.JobQueue
