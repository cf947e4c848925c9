import Verif.Timing.Conc

/-! # What is claimed of timers used by several threads -/

namespace Verif.Timing.Conc

open Verif.Timing

/-- the shared data two threads can both reach -/
inductive Loc where
  /-- `m_tagMap` -/
  | map
  /-- the vector `m_timers` itself: its size and where its elements are -/
  | vec
  /-- one accumulator in it -/
  | acc (h : ℕ)
  /-- `m_maxTagLength` -/
  | maxLen
deriving DecidableEq

/-- the data a thread's next step touches; `true` = written -/
def accesses : Pc → List (Loc × Bool)
  | .ghFind _ _ => [(.map, false)]
  | .ghSize _ _ => [(.vec, false)]
  | .ghMap _ _ _ => [(.map, true)]
  | .ghPush _ _ _ => [(.vec, true)]
  | .ghMax _ _ _ => [(.maxLen, true)]
  | .addPush _ h _ _ _ => [(.vec, false), (.acc h, true)]
  | .rsCheck _ => [(.vec, false)]
  | .rsWrite h => [(.vec, false), (.acc h, true)]
  | .gtSize _ => [(.vec, false)]
  | .gtRead h => [(.vec, false), (.acc h, false)]
  | .tagRead => [(.map, false)]
  | .ctSize _ _ _ _ => [(.vec, false)]
  | _ => []

/-- two threads are about to touch the same data and one of them writes: a data race, undefined behaviour -/
def Race (c : St) : Prop := ∃ i j, i ≠ j ∧ ∃ l wi wj, (l, wi) ∈ accesses (c.pc i) ∧ (l, wj) ∈ accesses (c.pc j) ∧ (wi = true ∨ wj = true)

/-- the calls that use the mutex: everything about timers made by tag, and `reset`; not the getters, not `getTag`, not `Timer(handle)` -/
def Locked : Call → Prop
  | .newHandle .. | .getter _ | .getterTag _ | .getTag _ => False
  | _ => True

/-- starting a running timer or stopping one that does not run throws, with a message that reads the tags -/
def Misuse (c : St) : Call → Prop
  | .start id _ => ∃ tm t0, c.sys.timers id = some tm ∧ tm.started = some t0
  | .stop id _ => ∃ tm, c.sys.timers id = some tm ∧ tm.started = none
  | _ => False

/-- a history of calls that use the mutex, without misuse of timers -/
def Disciplined (owner : ℕ → Tid) (c : St) : List Ev → Prop
  | [] => True
  | e :: es => (∀ i cl, e = .call i cl → Locked cl ∧ ¬ Misuse c cl) ∧ ∀ c', ev owner c e = some c' → Disciplined owner c' es

/-- the atomic operations, with their results, a call stands for: a reset or a getter by tag is a registration followed by the reset or the read of that handle -/
inductive Stands : Call → List (Op × Out) → Prop
  | getHandle t h : Stands (.getHandle t) [(.getHandle t, .handle h)]
  | newTag id t s n : Stands (.newTag id t s n) [(.newTag id t s n, .ok)]
  | newHandle id h s n r : Stands (.newHandle id h s n) [(.newHandle id h s n, r)]
  | start id n r : Stands (.start id n) [(.start id n, r)]
  | stop id n r : Stands (.stop id n) [(.stop id n, r)]
  | destroy id n : Stands (.destroy id n) [(.destroy id n, .ok)]
  | resetHandle h r : Stands (.resetHandle h) [(.resetHandle h, r)]
  | resetTag t h r : Stands (.resetTag t) [(.getHandle t, .handle h), (.resetHandle h, r)]
  | getter h : Stands (.getter h) []
  | getterTag t h : Stands (.getterTag t) [(.getHandle t, .handle h)]
  | getTag h : Stands (.getTag h) []

/-- … and a sequence of calls -/
inductive StandsAll : List Call → List (Op × Out) → Prop
  | nil : StandsAll [] []
  | snoc {cs os cl l} : StandsAll cs os → Stands cl l → StandsAll (cs ++ [cl]) (os ++ l)

/-- the calls thread `i` began, in order -/
def callsOf (i : Tid) (es : List Ev) : List Call :=
  es.filterMap fun e => match e with
    | .call j cl => if j = i then some cl else none
    | .step _ => none

/-- the recorded operations of thread `i` and their results, in order -/
def opsOf (i : Tid) (c : St) : List (Op × Out) := (c.log.filter fun e => e.1 = i).map fun e => e.2

/-- all recorded operations, in order -/
def allOps (c : St) : List Op := c.log.map fun e => e.2.1

/-- the thread of an event -/
def tidOf : Ev → Tid
  | .call i _ => i
  | .step i => i

def isCall : Ev → Bool
  | .call _ _ => true
  | .step _ => false

end Verif.Timing.Conc
