import Verif.JobQueue.Spec
import Verif.JobQueue.Liveness

/-! # Properties C01-C07 of `sm::JobQueue` -/

namespace Verif.JobQueue

/-! ## C01 -/

/-- C01: after any schedule, the jobs scheduled so far are, in order, the jobs handed to workers
followed by the jobs still queued; and for every job the number of times it was handed out equals the
number of times it has finished plus the number of workers executing it now. -/
theorem C01_conservation (n : Nat) (as : List Act) (s : State) (h : exec (init n) as = some s) :
    jobsScheduled as = s.begun.map Prod.snd ++ s.q ∧
    (∀ j, (s.begun.map Prod.snd).count j =
      s.finished.count j + s.workers.countP (fun pc => decide (pc = .run j))) := by
  have hI := inv_exec (inv_init n) h
  constructor
  · rw [← hI.fifo]
    refine exec_induction (P := fun as s => jobsScheduled as = s.scheduled) (inv_init n) rfl ?_ h
    intro as s a s' _ hP _ htr
    have e : ∀ a, jobsScheduled (as ++ [a]) = jobsScheduled as ++ jobsScheduled [a] := by
      intro a; simp [jobsScheduled, List.filterMap_append]
    rw [e, hP]
    cases htr <;> simp [jobsScheduled, setW, setC, notifyCond, notifyWork]
  · intro j
    rw [hI.jobs j]
    congr 1
    apply List.countP_congr
    intro x _
    cases x <;> simp [runs]

/-- C01: the record of handed-out jobs is what the workers do: it only ever grows, and it grows by
`(i, j)` exactly in the step in which worker `i` starts executing `j`. -/
theorem C01_handing_out (s s' : State) (a : Act) (hs : Reachable s) (h : step s a = some (.ok s')) :
    (s'.begun = s.begun ∧ ∀ i j, Executing s' i j → Executing s i j) ∨
    (∃ i j, a = .w i ∧ s'.begun = s.begun ++ [(i, j)] ∧ s.q = j :: s'.q ∧ ¬ (∃ j', Executing s i j') ∧
      Executing s' i j ∧ ∀ i', i' ≠ i → ∀ j', Executing s' i' j' ↔ Executing s i' j') := by
  have hI := inv_reachable hs
  have hwk : ∀ p j, wakeW p = .run j → p = .run j := by intro p j; cases p <;> simp [wakeW]
  have htr := (step_tr h).2
  unfold Executing
  cases htr
  case take i j q hi hq =>
    right
    have hb := (List.getElem?_eq_some_iff.1 hi).1
    refine ⟨i, j, rfl, rfl, hq, ?_, ?_, ?_⟩
    · rintro ⟨j', hj⟩; rw [hi] at hj; simp at hj
    · simp [setW, hb]
    · intro i' hne j'
      simp [setW, Ne.symm hne]
  all_goals left
  all_goals refine ⟨rfl, ?_⟩
  all_goals (try simp only [setW, setC, notifyCond, notifyWork, List.getElem?_map, Option.map_eq_some_iff])
  all_goals grind

/-- C01/memory safety: no worker ever pops from an empty queue; on a live object the only undefined
behaviour is `join()` on a queue that was never started. -/
theorem C01_no_ub (s : State) (hs : Reachable s) (hf : s.freed = false) (a : Act) (h : step s a = some .ub) :
    ∃ k : Nat, a = .c k ∧ s.clients[k]? = some .jWait ∧ s.started = false := by
  have hI := inv_reachable hs
  cases a with
  | schedule j => simp [step, hf] at h
  | stop => simp [step, hf] at h
  | start n => simp [step, hf] at h; split at h <;> simp at h
  | w i =>
    simp only [step] at h
    split at h
    · simp at h
    · simp at h
    · rename_i pc _ hi
      cases pc <;> simp [hf, wstep, acquire] at h
      · split at h <;> simp at h
      · split at h <;> simp at h
      · split at h
        · rename_i hq; exact absurd hq (hI.tk i hi)
        · simp at h
  | spurW i => simp [step, hf] at h
  | callWait k => simp [step, hf] at h
  | callJoin k => simp [step, hf] at h
  | callDtor k => simp [step, hf] at h
  | spurC k => simp only [step, hf] at h; split at h <;> simp at h
  | c k =>
    simp only [step] at h
    split at h
    · simp at h
    · simp at h
    · simp at h
    · rename_i pc _ _ hi
      cases pc <;> simp [hf, cstep, acquire] at h
      · split at h <;> simp at h
      · refine ⟨k, rfl, hi, ?_⟩
        cases hst : s.started with
        | false => rfl
        | true => simp [hst] at h
      · split at h <;> simp at h

/-- non-vacuity: two jobs are scheduled, one is running, one is queued -/
def exampleActs : List Act :=
  [.start 1, .schedule 7, .schedule 8, .w 0, .w 0, .w 0, .w 0, .callWait 0, .c 0]
example : (exec (init 1) exampleActs).isSome = true ∧ jobsScheduled exampleActs = [7, 8] := by decide

/-! ## C02 -/

/-- C02: in the step in which a `waitForEmptyQueue()` call returns, no job is queued or running and
every job scheduled so far has finished (as many times as it was scheduled). -/
theorem C02_wait_returns_idle (n : Nat) (as : List Act) (s s' : State) (k : Nat)
    (h : exec (init n) as = some s) (hw : InWait s k) (hstep : step s (.c k) = some (.ok s'))
    (hret : s'.clients[k]? = some .idle) :
    s.q = [] ∧ executing s = 0 ∧ (∀ j, (jobsScheduled as).count j = s.finished.count j) ∧
    s.finished.Perm (jobsScheduled as) := by
  have hI := inv_exec (inv_init n) h
  have hb : ∀ s0 : State, ∀ pc, (setC s0 k pc).clients[k]? = some .idle → pc = .idle := by
    intro s0 pc hp
    simp only [setC, List.getElem?_set_self'] at hp
    cases hc : s0.clients[k]? with
    | none => rw [hc] at hp; simp at hp
    | some p => rw [hc] at hp; simpa using hp
  obtain ⟨pc0, hmem, hpc⟩ := hw
  have key : s.active = 0 ∧ s.q = [] := by
    have htr := (step_tr hstep).2
    cases htr
    case wCheck_ret ha hq hi => exact ⟨ha, hq⟩
    case jWait _ _ hi => rw [hpc] at hi; simp at hi; subst hi; simp at hmem
    all_goals (have := hb _ _ hret; simp at this)
  obtain ⟨ha, hq⟩ := key
  have hbz : s.workers.countP busy = 0 := by have := hI.act; omega
  have hrun : ∀ j, s.workers.countP (fun pc => decide (pc = .run j)) = 0 := by
    intro j
    rw [List.countP_eq_zero] at hbz ⊢
    intro x hx
    have := hbz x hx
    cases x <;> simp_all [busy]
  have hC := C01_conservation n as s h
  have hcount : ∀ j, (jobsScheduled as).count j = s.finished.count j := by
    intro j
    have := hC.2 j
    rw [hC.1, hq, List.append_nil, this, hrun j]; simp
  refine ⟨hq, ?_, hcount, ?_⟩
  · unfold executing
    rw [List.countP_eq_zero] at hbz ⊢
    intro x hx
    have := hbz x hx
    cases x <;> simp_all [busy]
  · rw [List.perm_iff_count]
    intro j; exact (hcount j).symm

/-- non-vacuity: a run in which the call returns after a job was executed -/
def waitActs : List Act :=
  [.start 1, .schedule 7, .callWait 0, .c 0, .c 0, .c 0,
   .w 0, .w 0, .w 0, .w 0, .w 0, .w 0, .w 0, .w 0, .c 0]
example : ∃ s s', exec (init 1) waitActs = some s ∧ InWait s 0 ∧ step s (.c 0) = some (.ok s') ∧
    s'.clients[0]? = some .idle ∧ s.finished = [7] :=
  ⟨_, _, rfl, ⟨.wCheck, by decide, by decide⟩, rfl, by decide, by decide⟩

/-! ## C03 -/

/-- C03: the pool consists of exactly as many workers as the first `start` asked for, so never more
than that many jobs execute at the same time. -/
theorem C03_parallelism (n : Nat) (as : List Act) (s : State) (h : exec (init n) as = some s) :
    s.workers.length = poolSize as ∧ executing s ≤ poolSize as := by
  have key : (s.started = true → (as.findSome? startArg).isSome = true ∧
        s.workers.length = poolSize as) ∧
      (s.started = false → (as.findSome? startArg) = none ∧ s.workers = []) := by
    refine exec_induction (P := fun as s =>
      (s.started = true → (as.findSome? startArg).isSome = true ∧
        s.workers.length = poolSize as) ∧
      (s.started = false → (as.findSome? startArg) = none ∧ s.workers = []))
      (inv_init n) (by simp [init]) ?_ h
    intro as s a s' hI hP hf htr
    have hq : ∀ a : Act, (∀ n, a ≠ .start n) → ((as ++ [a]).findSome? startArg) =
        (as.findSome? startArg) := by
      intro a ha
      rw [List.findSome?_append]
      cases a <;> simp_all [startArg]
    have hps : ∀ a : Act, (∀ n, a ≠ .start n) → poolSize (as ++ [a]) = poolSize as := by
      intro a ha; unfold poolSize; rw [hq a ha]
    cases htr
    case start_again m hst =>
      refine ⟨fun _ => ?_, fun hc => by rw [hst] at hc; cases hc⟩
      obtain ⟨h1, h2⟩ := hP.1 hst
      unfold poolSize at h2 ⊢
      rw [List.findSome?_append]
      obtain ⟨v, hv⟩ := Option.isSome_iff_exists.1 h1
      rw [hv] at h2 ⊢
      simpa using h2
    case start m hst =>
      obtain ⟨h1, h2⟩ := hP.2 hst
      refine ⟨fun _ => ?_, fun hc => by cases hc⟩
      unfold poolSize
      rw [List.findSome?_append, h1]
      simp [startArg]
    all_goals (
      rw [hq _ (by simp), hps _ (by simp)]
      simp only [setW, setC, notifyCond, notifyWork, List.length_set, List.length_map, List.map_eq_nil_iff,
        List.set_eq_nil_iff]
      exact hP)
  have hlen : s.workers.length = poolSize as := by
    cases hst : s.started with
    | true => exact (key.1 hst).2
    | false =>
      obtain ⟨h1, h2⟩ := key.2 hst
      unfold poolSize
      rw [h1, h2]; rfl
  exact ⟨hlen, hlen ▸ List.countP_le_length⟩

example : ∃ s, exec (init 0) [.start 2, .start 5, .schedule 1] = some s ∧ s.workers.length = 2 := ⟨_, rfl, rfl⟩

/-! ## C04 -/

def isTake : WPC → Bool
  | .take => true
  | _ => false

/-- at most one worker is committed to popping a job: it owns the mutex -/
theorem takers_le_one {s : State} (hI : Inv s) : s.workers.countP isTake ≤ 1 := by
  have : ∀ i k : Nat, s.workers[i]? = some .take → s.workers[k]? = some .take → i = k := by
    intro i k hi hk
    have h1 := (hI.lockW i _ hi).1 rfl
    have h2 := (hI.lockW k _ hk).1 rfl
    rw [h1] at h2; simpa using h2
  generalize s.workers = l at this
  clear hI
  induction l with
  | nil => simp
  | cons a l ih =>
    rw [List.countP_cons]
    by_cases ha : isTake a = true
    · have hat : a = .take := by cases a <;> simp_all [isTake]
      have h0 : l.countP isTake = 0 := by
        rw [List.countP_eq_zero]
        intro x hx hxt
        have hxx : x = .take := by cases x <;> simp_all [isTake]
        obtain ⟨k, hk⟩ := List.getElem?_of_mem hx
        have := this 0 (k + 1) (by simp [hat]) (by simp [hk, hxx])
        omega
      rw [h0]; simp [ha]
    · have := ih (fun i k hi hk => by
        have := this (i + 1) (k + 1) (by simpa using hi) (by simpa using hk); omega)
      simp [ha, this]

theorem stopped_step {s s' : State} {a : Act} (hk : s.kill = true) (h : Tr s a s') :
    s'.kill = true ∧ ∃ extra, s'.begun = s.begun ++ extra ∧
      extra.length + s'.workers.countP isTake ≤ s.workers.countP isTake ∧
      (∃ fresh, extra.map Prod.snd ++ s'.q = s.q ++ fresh) := by
  have hwt : ∀ l : List WPC, (l.map wakeW).countP isTake = l.countP isTake := by
    intro l
    rw [List.countP_map]
    congr 1
    funext p
    cases p <;> rfl
  cases h
  case take i j q hi hq =>
    refine ⟨hk, [(i, j)], rfl, ?_, [], by simp [setW, hq]⟩
    have := countP_set_nat (p := isTake) (y := .run j) hi
    simp [isTake] at this
    simp only [setW, List.length_singleton]
    omega
  case schedule j hl =>
    exact ⟨hk, [], by simp [notifyCond], by simp [notifyCond, hwt], [j], by simp [notifyCond]⟩
  case stop => exact ⟨rfl, [], by simp, by simp, [], by simp⟩
  case start_again n h => exact ⟨hk, [], by simp, by simp, [], by simp⟩
  case start n h => exact ⟨hk, [], by simp, by simp [List.countP_replicate, isTake], [], by simp⟩
  case check2 i hi hk' => rw [hk] at hk'; cases hk'
  case exit i hi _ =>
    have := countP_set_nat (p := isTake) (y := .fin) hi
    simp only [isTake] at this
    refine ⟨hk, [], by simp [notifyCond, setW], ?_, [], by simp [notifyCond, setW]⟩
    simp only [notifyCond, setW, hwt]; simp at this ⊢; omega
  case enter i hi hl =>
    have := countP_set_nat (p := isTake) (y := .check) hi
    simp only [isTake] at this
    refine ⟨hk, [], by simp [setW], ?_, [], by simp [setW]⟩
    simp only [setW]; simp at this ⊢; omega
  case check_wait i hi hc =>
    have := countP_set_nat (p := isTake) (y := .presleep) hi
    simp only [isTake] at this
    refine ⟨hk, [], by simp [setW], ?_, [], by simp [setW]⟩
    simp only [setW]; simp at this ⊢; omega
  case check_go i hi hc =>
    have := countP_set_nat (p := isTake) (y := .check2) hi
    simp only [isTake] at this
    refine ⟨hk, [], by simp [setW], ?_, [], by simp [setW]⟩
    simp only [setW]; simp at this ⊢; omega
  case presleep i hi =>
    have := countP_set_nat (p := isTake) (y := .sleep) hi
    simp only [isTake] at this
    refine ⟨hk, [], by simp [setW], ?_, [], by simp [setW]⟩
    simp only [setW]; simp at this ⊢; omega
  case woken i hi hl =>
    have := countP_set_nat (p := isTake) (y := .check) hi
    simp only [isTake] at this
    refine ⟨hk, [], by simp [setW], ?_, [], by simp [setW]⟩
    simp only [setW]; simp at this ⊢; omega
  case run i j hi =>
    have := countP_set_nat (p := isTake) (y := .done j) hi
    simp only [isTake] at this
    refine ⟨hk, [], by simp [setW], ?_, [], by simp [setW]⟩
    simp only [setW]; simp at this ⊢; omega
  case done i j hi hl =>
    have := countP_set_nat (p := isTake) (y := .check) hi
    simp only [isTake] at this
    refine ⟨hk, [], by simp [setW, notifyWork], ?_, [], by simp [setW, notifyWork]⟩
    simp only [setW, notifyWork]; simp at this ⊢; omega
  case spurW i hi =>
    have := countP_set_nat (p := isTake) (y := .woken) hi
    simp only [isTake] at this
    refine ⟨hk, [], by simp [setW], ?_, [], by simp [setW]⟩
    simp only [setW]; simp at this ⊢; omega
  case jNotify k hi => exact ⟨hk, [], by simp [setC, notifyCond], by simp [setC, notifyCond, hwt], [], by simp [setC, notifyCond]⟩
  case dEnter k hi hl => exact ⟨rfl, [], by simp [setC, notifyCond], by simp [setC, notifyCond, hwt], [], by simp [setC, notifyCond]⟩
  all_goals exact ⟨by simp [setC, hk], [], by simp [setC], by simp [setC], [], by simp [setC]⟩

theorem stopped_exec {as : List Act} {s s' : State} (hI : Inv s) (hk : s.kill = true) (h : exec s as = some s') :
    s'.kill = true ∧ ∃ extra, s'.begun = s.begun ++ extra ∧
      extra.length + s'.workers.countP isTake ≤ s.workers.countP isTake ∧
      (∃ fresh, extra.map Prod.snd ++ s'.q = s.q ++ fresh) := by
  refine exec_induction (P := fun _ s' => s'.kill = true ∧ ∃ extra, s'.begun = s.begun ++ extra ∧
      extra.length + s'.workers.countP isTake ≤ s.workers.countP isTake ∧
      (∃ fresh, extra.map Prod.snd ++ s'.q = s.q ++ fresh)) hI ⟨hk, [], by simp, by simp, [], by simp⟩ ?_ h
  rintro as t a t' _ ⟨h1, e, h2, h3, f, h4⟩ _ htr
  obtain ⟨g1, e', g2, g3, f', g4⟩ := stopped_step h1 htr
  refine ⟨g1, e ++ e', by rw [g2, h2, List.append_assoc], by simp only [List.length_append]; omega, f ++ f', ?_⟩
  rw [List.map_append, List.append_assoc, g4, ← List.append_assoc, h4, List.append_assoc]

/-- C04: from any moment after the queue was told to stop, whatever is scheduled next, at most one more
job begins *in the whole pool* (so at most one per worker), the flag stays set, and every other
queued job stays in the queue, in order. -/
theorem C04_stop_bound (s s' : State) (as : List Act) (hs : Reachable s) (hk : Stopped s)
    (h : exec s as = some s') :
    Stopped s' ∧ ∃ extra, s'.begun = s.begun ++ extra ∧ extra.length ≤ 1 ∧
      (∃ fresh, extra.map Prod.snd ++ s'.q = s.q ++ fresh) := by
  obtain ⟨h1, e, h2, h3, h4⟩ := stopped_exec (inv_reachable hs) hk h
  have := takers_le_one (inv_reachable hs)
  exact ⟨h1, e, h2, by omega, h4⟩

/-- C04: if no worker had passed its last check of the flag (none is between line 64 and line 73), no
further job begins at all. -/
theorem C04_stop_final (s s' : State) (as : List Act) (hs : Reachable s) (hk : Stopped s)
    (hnone : ∀ i : Nat, s.workers[i]? ≠ some .take) (h : exec s as = some s') : s'.begun = s.begun := by
  obtain ⟨_, e, h2, h3, _⟩ := stopped_exec (inv_reachable hs) hk h
  have h0 : s.workers.countP isTake = 0 := by
    rw [List.countP_eq_zero]
    intro x hx hxt
    have hxx : x = .take := by cases x <;> simp_all [isTake]
    obtain ⟨k, hk⟩ := List.getElem?_of_mem hx
    exact hnone k (by rw [hk, hxx])
  have : e = [] := List.eq_nil_of_length_eq_zero (by omega)
  rw [h2, this, List.append_nil]

/-- non-vacuity: one job does begin after `stop()` (the worker was already past its check), the second
one never does -/
example : ∃ s s', exec (init 0) [.start 1, .schedule 7, .schedule 8, .w 0, .w 0, .w 0, .stop] = some s ∧ Stopped s ∧
    s.begun = [] ∧ exec s [.w 0, .w 0, .w 0, .w 0, .w 0] = some s' ∧ s'.begun = [(0, 7)] ∧ s'.q = [8] :=
  ⟨_, _, rfl, rfl, rfl, rfl, rfl, rfl⟩

/-! ## Termination of internal activity, used by C05-C07 -/

/-- From every state the threads inside the queue's code can only make a bounded number of steps
without a new call from outside or a spurious wake-up; so "what can a stuck state look like" decides
what every call eventually does, for every (even unfair) scheduler. -/
theorem C07_runs_are_finite (s : State) : ∃ bound, ∀ as s', (∀ a ∈ as, a.internal = true) →
    exec s as = some s' → as.length ≤ bound :=
  ⟨rank s, fun _ _ ha h => by have := exec_bounded ha h; omega⟩

/-! ## C05 -/

/-- C05, full claim: a `join()` on a started, live queue never ends up blocked for good. -/
def C05_claim : Prop :=
  ∀ s k, Reachable s → s.freed = false → s.started = true → InJoin s k → ¬ Stuck s

/-- The lost wake-up: the worker tests its predicate, then `join` sets the flag and notifies (without
the mutex), then the worker goes to sleep. -/
def lostWakeup : List Act := [.start 1, .w 0, .w 0, .callJoin 0, .c 0, .w 0]

def lostState : State :=
  { q := [], kill := true, inPool := 1, active := 0, lock := none, started := true, workers := [.sleep],
    clients := [.jWait], freed := false, scheduled := [], begun := [], finished := [] }

/-- C05 is false of the code: there is a schedule after which `join()` waits forever for a sleeping
worker that nobody will notify. -/
theorem C05_negation : ¬ C05_claim := by
  intro h
  refine h lostState 0 ⟨1, lostWakeup, rfl⟩ rfl rfl ⟨.jWait, by decide, rfl⟩ ⟨?_, ?_⟩
  · intro i; cases i <;> rfl
  · intro k; cases k <;> rfl

theorem awake_step {s s' : State} {a : Act} (hk : s.kill = true) (hst : s.started = true)
    (haw : ∀ (i : Nat) pc, s.workers[i]? = some pc → dozing pc = false) (h : Tr s a s') :
    s'.kill = true ∧ s'.started = true ∧ (∀ (i : Nat) pc, s'.workers[i]? = some pc → dozing pc = false) := by
  have hw : ∀ p, dozing p = false → dozing (wakeW p) = false := by intro p; cases p <;> simp [dozing, wakeW]
  cases h <;> (try simp only [setW, setC, notifyCond, notifyWork, List.getElem?_map, Option.map_eq_some_iff]) <;>
    grind [dozing]

/-- C05, what does hold: if at the moment of `join`'s notification no worker is between its test and
its sleep (for instance because all workers are asleep or executing jobs), then whatever happens
next, whenever the threads can no longer move, every worker has terminated and no `join` call is
still blocked. -/
theorem C05_partial (s s' : State) (k : Nat) (as : List Act) (s'' : State) (hs : Reachable s)
    (hst : s.started = true) (hj : s.clients[k]? = some .jNotify)
    (hno : ∀ i : Nat, s.workers[i]? ≠ some .presleep)
    (hstep : step s (.c k) = some (.ok s')) (hrun : exec s' as = some s'') (hkill : s.kill = true)
    (hf : s''.freed = false) (hstuck : Stuck s'') :
    (∀ pc ∈ s''.workers, pc = .fin) ∧ ∀ k', ¬ InJoin s'' k' := by
  have hI := inv_reachable hs
  have hI' := inv_step hI hstep
  have hs' : s'.kill = true ∧ s'.started = true ∧ (∀ (i : Nat) pc, s'.workers[i]? = some pc → dozing pc = false) := by
    have htr := (step_tr hstep).2
    cases htr
    case jNotify =>
      refine ⟨hkill, hst, ?_⟩
      intro i pc hi
      simp only [setC, notifyCond, List.getElem?_map, Option.map_eq_some_iff] at hi
      obtain ⟨p, hp, rfl⟩ := hi
      have := hno i
      cases p <;> simp_all [dozing, wakeW]
    all_goals simp_all
  have h2 : s''.kill = true ∧ s''.started = true ∧ (∀ (i : Nat) pc, s''.workers[i]? = some pc → dozing pc = false) := by
    refine exec_induction (P := fun _ s'' => s''.kill = true ∧ s''.started = true ∧
      (∀ (i : Nat) pc, s''.workers[i]? = some pc → dozing pc = false)) hI' hs' ?_ hrun
    rintro _ t a t' _ ⟨g1, g2, g3⟩ _ htr
    exact awake_step g1 g2 g3 htr
  obtain ⟨_, hW, hC⟩ := stuck_shape (inv_exec hI' hrun) hf hstuck
  have hall : ∀ pc ∈ s''.workers, pc = .fin := by
    intro pc hpc
    obtain ⟨i, hi⟩ := List.getElem?_of_mem hpc
    rcases hW i pc hi with rfl | rfl
    · have := h2.2.2 i _ hi; simp [dozing] at this
    · rfl
  refine ⟨hall, ?_⟩
  rintro k' ⟨pc, hpc, hk'⟩
  rcases hC k' pc hk' with rfl | rfl | rfl | rfl | ⟨rfl, _, p, hp, hne⟩
  · simp at hpc
  · simp at hpc
  · simp at hpc
  · simp at hpc
  · exact hne (hall p hp)

/-- non-vacuity: the worker is asleep when `join` notifies; the run ends with the call returned -/
example : ∃ s s' s'', exec (init 1) [.start 1, .w 0, .w 0, .w 0, .callJoin 0] = some s ∧
    s.clients[0]? = some .jNotify ∧ step s (.c 0) = some (.ok s') ∧
    exec s' [.w 0, .w 0, .w 0, .c 0] = some s'' ∧ s''.workers = [.fin] ∧ s''.clients = [.idle] :=
  ⟨_, _, _, rfl, rfl, rfl, rfl, rfl, rfl⟩

/-! ## C06 -/

/-- C06, full claim: once the destructor has returned no worker will touch the object again. -/
def C06_claim : Prop := ∀ s i, Reachable s → s.freed = true → step s (.w i) ≠ some .ub

/-- C06 is false of the code: a worker thread that was created but has not yet incremented
`threadsInPool_` is not waited for. -/
theorem C06_negation : ¬ C06_claim := by
  intro h
  refine h { (init 1) with kill := true, started := true, workers := [.enter], clients := [.dFin], freed := true } 0
    ⟨1, [.start 1, .callDtor 0, .c 0, .c 0], rfl⟩ rfl rfl

theorem freed_inv {s : State} (hs : Reachable s) (hf : s.freed = true) :
    ∀ pc ∈ s.workers, pc = .enter ∨ pc = .fin := by
  obtain ⟨n, as, h⟩ := hs
  refine exec_induction (P := fun _ s => s.freed = true → ∀ pc ∈ s.workers, pc = .enter ∨ pc = .fin)
    (inv_init n) (by simp [init]) ?_ h hf
  intro as s a s' hI hP hnf htr hf'
  cases htr
  case dCheck_ret k hi hc =>
    intro pc hpc
    have hz : s.workers.countP pooled = 0 := by have := hI.pool; omega
    rw [List.countP_eq_zero] at hz
    have := hz pc (by simpa [setC] using hpc)
    cases pc <;> simp_all [pooled]
  all_goals (simp [setW, setC, notifyCond, notifyWork, hnf] at hf')

/-- C06, what does hold: when the destructor has returned every worker that ever entered its loop has
left it; so if every created thread had started running before, no worker touches the object again. -/
theorem C06_partial (s : State) (hs : Reachable s) (hf : s.freed = true) :
    (∀ (i : Nat) (pc : WPC), s.workers[i]? = some pc → pc = .fin ∨ pc = .enter) ∧
    ((∀ i : Nat, s.workers[i]? ≠ some .enter) → ∀ i, step s (.w i) = none) := by
  have h := freed_inv hs hf
  refine ⟨fun i pc hi => (h pc (List.mem_of_getElem? hi)).symm, fun hne i => ?_⟩
  cases hi : s.workers[i]? with
  | none => simp [step, hi]
  | some pc =>
    rcases h pc (List.mem_of_getElem? hi) with rfl | rfl
    · exact absurd hi (hne i)
    · simp [step, hi]

/-- C06, liveness: the destructor itself is never blocked for good (also after `stop`, and even after a
wake-up was lost). -/
theorem C06_dtor_completes (s : State) (k : Nat) (hs : Reachable s) (hf : s.freed = false) (hd : InDtor s k) :
    ¬ Stuck s := by
  intro hst
  have hI := inv_reachable hs
  obtain ⟨hl, hW, hC⟩ := stuck_shape hI hf hst
  obtain ⟨pc, hmem, hk⟩ := hd
  rcases hC k pc hk with rfl | rfl | rfl | rfl | ⟨rfl, _⟩
  · simp at hmem
  · simp at hmem
  · have hp := hI.dw k _ hk rfl
    have hn := hI.dn k _ hk rfl
    have hpos : s.workers.countP pooled ≠ 0 := by have := hI.pool; omega
    apply hpos
    rw [List.countP_eq_zero]
    intro x hx
    obtain ⟨i, hi⟩ := List.getElem?_of_mem hx
    rcases hW i x hi with rfl | rfl
    · have := hn i _ hi; simp [dozing] at this
    · simp [pooled]
  · simp at hmem
  · simp at hmem

/-- non-vacuity of both: a destructor waiting for a worker, and the same destructor returned -/
example : ∃ s s', exec (init 1) [.start 1, .w 0, .w 0, .w 0, .callDtor 0, .c 0, .c 0, .c 0] = some s ∧
    InDtor s 0 ∧ s.freed = false ∧ exec s [.w 0, .w 0, .w 0, .c 0, .c 0] = some s' ∧ s'.freed = true ∧
    s'.workers = [.fin] :=
  ⟨_, _, rfl, ⟨.dSleep, by decide, rfl⟩, rfl, rfl, rfl, rfl⟩

/-! ## C07 -/

/-- C07: a pool that was not stopped never stalls: while a job is queued *no* worker is asleep, about to
fall asleep or gone (each one runs, can run, or has a pending wake-up). -/
theorem C07_no_stall (s : State) (hs : Reachable s) (hk : ¬ Stopped s) (hq : s.q ≠ []) :
    ∀ pc ∈ s.workers, pc ≠ .sleep ∧ pc ≠ .presleep ∧ pc ≠ .fin := by
  have hI := inv_reachable hs
  intro pc hpc
  obtain ⟨i, hi⟩ := List.getElem?_of_mem hpc
  refine ⟨?_, ?_, ?_⟩
  · rintro rfl; exact hq (hI.doze i _ hi rfl)
  · rintro rfl; exact hq (hI.doze i _ hi rfl)
  · rintro rfl; exact hk (fin_kill hs i hi)

/-- C07: a thread asleep in `waitForEmptyQueue` is never left behind: while it sleeps there is a job
queued or running. -/
theorem C07_no_lost_waiter (s : State) (k : Nat) (hs : Reachable s) (hk : s.clients[k]? = some .wSleep) :
    s.q ≠ [] ∨ ∃ pc ∈ s.workers, (∃ j, pc = .run j) ∨ (∃ j, pc = .done j) := by
  have hI := inv_reachable hs
  rcases hI.qw k _ hk rfl with h | h
  · right
    have hz : 0 < s.workers.countP busy := by have := hI.act; omega
    obtain ⟨x, hx, hb⟩ := List.countP_pos_iff.1 hz
    refine ⟨x, hx, ?_⟩
    cases x <;> simp_all [busy]
  · exact Or.inl h

/-- C07, liveness: on a live pool that was not stopped, whenever the threads can no longer move, every
scheduled job has finished, the queue is empty and no call of `waitForEmptyQueue` or `join` is still
waiting.  With `C07_runs_are_finite`: every run in which jobs return and callers stop submitting ends
with all work done. -/
theorem C07_liveness (n : Nat) (as : List Act) (s : State) (h : exec (init n) as = some s)
    (hf : s.freed = false) (hk : ¬ Stopped s) (hw : s.workers ≠ []) (hst : Stuck s) :
    s.q = [] ∧ s.finished.Perm (jobsScheduled as) ∧ (∀ k, ¬ InWait s k) := by
  have hI := inv_exec (inv_init n) h
  have hR : Reachable s := ⟨n, as, h⟩
  obtain ⟨hl, hW, hC⟩ := stuck_shape hI hf hst
  have hsl : ∀ pc ∈ s.workers, pc = .sleep := by
    intro pc hpc
    obtain ⟨i, hi⟩ := List.getElem?_of_mem hpc
    rcases hW i pc hi with rfl | rfl
    · rfl
    · exact absurd (fin_kill hR i hi) hk
  have hq : s.q = [] := by
    cases hws : s.workers with
    | nil => exact absurd hws hw
    | cons a l =>
      have : a = .sleep := hsl a (by simp [hws])
      exact hI.doze 0 a (by simp [hws]) (by rw [this]; rfl)
  have hbz : s.workers.countP busy = 0 := by
    rw [List.countP_eq_zero]
    intro x hx; rw [hsl x hx]; simp [busy]
  refine ⟨hq, ?_, ?_⟩
  · have hC' := C01_conservation n as s h
    rw [List.perm_iff_count]
    intro j
    rw [hC'.1, hq, List.append_nil, hC'.2 j]
    have : s.workers.countP (fun pc => decide (pc = .run j)) = 0 := by
      rw [List.countP_eq_zero]
      intro x hx; rw [hsl x hx]; simp
    omega
  · rintro k ⟨pc, hmem, hkk⟩
    rcases hC k pc hkk with rfl | rfl | rfl | rfl | ⟨rfl, _⟩
    · simp at hmem
    · rcases hI.qw k _ hkk rfl with h | h
      · exact h (by have := hI.act; omega)
      · exact h hq
    · simp at hmem
    · simp at hmem
    · simp at hmem

/-- non-vacuity: a stuck, live, unstopped state after one job was done and waited for -/
example : ∃ s, exec (init 1) (waitActs ++ [.c 0]) = some s ∧ s.freed = false ∧ ¬ Stopped s ∧
    s.workers ≠ [] ∧ Stuck s := by
  refine ⟨{ (init 1) with inPool := 1, started := true, workers := [.sleep], scheduled := [7], begun := [(0, 7)], finished := [7] }, rfl, rfl, (by intro h; cases h), by decide, ?_, ?_⟩
  · intro i; cases i <;> rfl
  · intro k; cases k <;> rfl

/-- The hypothesis "not stopped" of C07 is needed: after `stop()` with a job still queued a
`waitForEmptyQueue()` call blocks for good. -/
theorem C07_wait_after_stop_blocks : ∃ s, Reachable s ∧ s.freed = false ∧ s.workers ≠ [] ∧ InWait s 0 ∧ Stuck s := by
  refine ⟨{ (init 1) with q := [7], kill := true, started := true, workers := [.fin], clients := [.wSleep], scheduled := [7] },
    ⟨1, [.start 1, .schedule 7, .w 0, .stop, .w 0, .w 0, .callWait 0, .c 0, .c 0, .c 0], rfl⟩, rfl,
    by decide, ⟨.wSleep, by decide, rfl⟩, ?_, ?_⟩
  · intro i; cases i <;> rfl
  · intro k; cases k <;> rfl

end Verif.JobQueue
