import Verif.JobQueue.Future
import Verif.JobQueue.Props

/-! # C127: futures of jobs; C128: calls from inside jobs -/

namespace Verif.JobQueue

theorem fexec_snoc (fn : Job → JobFn) (as : List Act) (a : Act) : ∀ s : FState, fexec fn s (as ++ [a]) =
    match fexec fn s as with
    | .ok s => fstep fn s a
    | r => r := by
  induction as with
  | nil => intro s; simp only [List.nil_append, fexec]; split <;> simp_all
  | cons b as ih =>
    intro s
    simp only [List.cons_append, fexec]
    cases fstep fn s b with
    | ok t => exact ih t
    | terminated => rfl
    | no => rfl

/-- the base machine makes the same steps -/
theorem fexec_base {fn : Job → JobFn} : ∀ {as : List Act} {s s' : FState}, fexec fn s as = .ok s' → exec s.base as = some s'.base
  | [], s, s', h => by simp only [fexec, FOut.ok.injEq] at h; subst h; rfl
  | a :: as, s, s', h => by
    simp only [fexec, fstep] at h
    cases hs : step s.base a with
    | none => rw [hs] at h; cases h
    | some o =>
      rw [hs] at h
      cases o with
      | ub => cases h
      | ok b =>
        dsimp only at h
        by_cases ht : terminates fn s.base a = true
        · simp [ht] at h
        · simp only [ht] at h
          have := fexec_base h
          simp only [exec, hs]
          exact this

/-- induction over schedules of the machine with futures -/
theorem fexec_induction {fn : Job → JobFn} {n : Nat} {P : List Act → FState → Prop} (hP : P [] (finit n))
    (hstep : ∀ as s a b, exec (init n) as = some s.base → P as s → s.base.freed = false → Tr s.base a b → terminates fn s.base a = false →
      P (as ++ [a]) ⟨b, futStep fn s.base s.fut a⟩) {as : List Act} {s : FState} (h : fexec fn (finit n) as = .ok s) : P as s := by
  suffices H : ∀ (k : Nat) (as : List Act), as.length = k → ∀ s, fexec fn (finit n) as = .ok s → P as s from H _ as rfl s h
  intro k
  induction k with
  | zero =>
    intro as hl s h
    have : as = [] := List.eq_nil_of_length_eq_zero hl
    subst this
    simp only [fexec, FOut.ok.injEq] at h
    subst h
    exact hP
  | succ k ih =>
    intro as hl s h
    obtain ⟨bs, a, rfl⟩ : ∃ bs a, as = bs ++ [a] := by
      have hne : as ≠ [] := by intro e; subst e; simp at hl
      exact ⟨as.dropLast, as.getLast hne, (List.dropLast_concat_getLast hne).symm⟩
    rw [fexec_snoc] at h
    cases hb : fexec fn (finit n) bs with
    | terminated => rw [hb] at h; cases h
    | no => rw [hb] at h; cases h
    | ok t =>
      rw [hb] at h
      dsimp only at h
      have hp := ih bs (by simpa using hl) t hb
      simp only [fstep] at h
      cases hs : step t.base a with
      | none => rw [hs] at h; cases h
      | some o =>
        rw [hs] at h
        cases o with
        | ub => cases h
        | ok b =>
          dsimp only at h
          by_cases ht : terminates fn t.base a = true
          · simp [ht] at h
          · simp only [ht] at h
            have : s = ⟨b, futStep fn t.base t.fut a⟩ := by simpa using h.symm
            subst this
            obtain ⟨hf, htr⟩ := step_tr hs
            exact hstep bs t a b (fexec_base hb) hp hf htr (by simpa using ht)

/-- what the future of job `j` should be -/
def expectedFut (fn : Job → JobFn) (as : List Act) (s : State) (j : Job) : Fut :=
  if (fn j).isFuture = false ∨ j ∉ jobsScheduled as then .none
  else if j ∈ s.finished then (if (fn j).throws then .error else .value)
  else if s.freed then .broken
  else .waiting

/-- **C127** After any schedule in which every job is scheduled once, the future of every job is: nothing unless the job was scheduled by `scheduleFuture`; ready with the function's value or exception iff the function has finished; broken iff the queue has been destroyed before the job ran; waiting otherwise.  In particular a future never waits once the destructor has returned. -/
theorem C127_futures (fn : Job → JobFn) (n : Nat) (as : List Act) (s : FState) (h : fexec fn (finit n) as = .ok s)
    (hu : (jobsScheduled as).Nodup) (j : Job) : s.fut j = expectedFut fn as s.base j := by
  revert hu j
  refine fexec_induction (P := fun as s => (jobsScheduled as).Nodup → ∀ j, s.fut j = expectedFut fn as s.base j) ?_ ?_ h
  · intro _ j; simp [finit, expectedFut, jobsScheduled]
  intro as s a b he hP hf htr hterm hu j
  have hI := inv_exec (inv_init n) he
  have hC := C01_conservation n as s.base he
  have hja : jobsScheduled (as ++ [a]) = jobsScheduled as ++ (match a with | .schedule j => [j] | _ => []) := by
    simp only [jobsScheduled, List.filterMap_append]
    congr 1
    cases a <;> rfl
  have hu' : (jobsScheduled as).Nodup := by rw [hja] at hu; exact (List.nodup_append.1 hu).1
  have ih := hP hu' j
  have same : jobsScheduled (as ++ [a]) = jobsScheduled as → futStep fn s.base s.fut a = s.fut → b.finished = s.base.finished → b.freed = s.base.freed →
      futStep fn s.base s.fut a j = expectedFut fn (as ++ [a]) b j := by
    intro e1 e2 e3 e4
    rw [e2, ih]
    simp only [expectedFut, e1, e3, e4]
  have hmem : ∀ j, j ∈ s.base.finished → j ∈ jobsScheduled as := by
    intro j hj
    rw [hC.1, List.mem_append]
    left
    have := hC.2 j
    have h1 : 0 < s.base.finished.count j := List.count_pos_iff.2 hj
    exact List.count_pos_iff.1 (by omega)
  dsimp only
  cases htr
  case schedule j0 hl =>
    rw [hja] at hu
    have hn : j0 ∉ jobsScheduled as := fun h => (List.nodup_append.1 hu).2.2 j0 h j0 (by simp) rfl
    have hnf : j0 ∉ s.base.finished := fun h => hn (hmem j0 h)
    simp only [futStep, expectedFut, hja, notifyCond, List.mem_append, List.mem_singleton]
    by_cases hj : j = j0
    · subst hj
      by_cases hi : (fn j).isFuture = true
      · simp [hi, updF, hnf, hf]
      · have hi' : (fn j).isFuture = false := by simpa using hi
        rw [if_neg hi, ih]
        simp only [expectedFut]
        simp [hi']
    · have hx : (if (fn j0).isFuture = true then updF s.fut j0 .waiting else s.fut) j = s.fut j := by
        split
        · simp [updF, hj]
        · rfl
      rw [hx, ih]
      simp only [expectedFut, hj, or_false]
      congr
  case run i j0 hi =>
    have hsch : j0 ∈ jobsScheduled as := by
      rw [hC.1, List.mem_append]
      left
      have := hC.2 j0
      have h1 : 0 < s.base.workers.countP (fun pc => decide (pc = .run j0)) :=
        List.countP_pos_iff.2 ⟨_, List.mem_of_getElem? hi, by simp⟩
      exact List.count_pos_iff.1 (by omega)
    have e1 : jobsScheduled (as ++ [.w i]) = jobsScheduled as := by rw [hja]; simp
    simp only [futStep, hi, expectedFut, e1, setW, List.mem_append, List.mem_singleton]
    by_cases hj : j = j0
    · subst hj
      by_cases hfu : (fn j).isFuture = true
      · simp [hfu, updF, hsch]
      · have hi' : (fn j).isFuture = false := by simpa using hfu
        rw [if_neg hfu, ih]
        simp only [expectedFut]
        simp [hi']
    · have hx : (if (fn j0).isFuture = true then updF s.fut j0 (if (fn j0).throws = true then .error else .value) else s.fut) j = s.fut j := by
        split
        · simp [updF, hj]
        · rfl
      rw [hx, ih]
      simp only [expectedFut, hj, or_false]
      congr
  case dCheck_ret k hi hc =>
    have e1 : jobsScheduled (as ++ [.c k]) = jobsScheduled as := by rw [hja]; simp
    have hz : ∀ j, s.base.workers.countP (fun pc => decide (pc = .run j)) = 0 := by
      intro j
      have hz : s.base.workers.countP pooled = 0 := by have := hI.pool; omega
      rw [List.countP_eq_zero] at hz ⊢
      intro x hx
      have := hz x hx
      cases x <;> simp_all [pooled]
    have hq : j ∈ jobsScheduled as → j ∉ s.base.finished → j ∈ s.base.q := by
      intro h1 h2
      rw [hC.1, List.mem_append] at h1
      rcases h1 with h1 | h1
      · have := hC.2 j
        rw [hz j] at this
        have h3 : 0 < (s.base.begun.map Prod.snd).count j := List.count_pos_iff.2 h1
        exact absurd (List.count_pos_iff.1 (by omega)) h2
      · exact h1
    simp only [futStep, hi, hc, if_true]
    rw [ih]
    simp only [expectedFut, e1, setC, hf]
    by_cases h1 : (fn j).isFuture = false ∨ j ∉ jobsScheduled as
    · simp [h1]
    · by_cases h2 : j ∈ s.base.finished
      · simp only [h1, h2, if_false, if_true]
        cases (fn j).throws <;> simp
      · have h3 := hq (by simp only [not_or, Classical.not_not] at h1; exact h1.2) h2
        simp [h1, h2, h3]
  case dCheck_wait k hi hc =>
    exact same (by rw [hja]; simp) (by funext j; simp [futStep, hi, hc]) rfl rfl
  case wAcquire k pc hi hp hl =>
    refine same (by rw [hja]; simp) ?_ rfl rfl
    rcases hp with rfl | rfl <;> simp [futStep, hi]
  all_goals
    refine same (by rw [hja]; simp) ?_ rfl rfl
    first
      | rfl
      | (rename_i hi _; simp [futStep, hi]; done)
      | (rename_i hi _ _; simp [futStep, hi]; done)
      | (rename_i hi; simp [futStep, hi]; done)

theorem fexec_append (fn : Job → JobFn) : ∀ (as bs : List Act) (s : FState), fexec fn s (as ++ bs) =
    match fexec fn s as with
    | .ok s => fexec fn s bs
    | r => r
  | [], _, _ => rfl
  | a :: as, bs, s => by
    simp only [List.cons_append, fexec]
    cases fstep fn s a with
    | ok t => exact fexec_append fn as bs t
    | terminated => rfl
    | no => rfl

/-- finished jobs stay finished -/
theorem finished_mono {as : List Act} {s s' : State} (hI : Inv s) (h : exec s as = some s') : ∀ j ∈ s.finished, j ∈ s'.finished := by
  refine exec_induction (P := fun _ s' => ∀ j ∈ s.finished, j ∈ s'.finished) hI (fun _ h => h) ?_ h
  intro as t a t' _ hP _ htr j hj
  have := hP j hj
  cases htr <;> simp_all [setW, setC, notifyCond, notifyWork]

/-- no step is possible once the object is gone -/
theorem freed_stop {as : List Act} {s s' : State} (hf : s.freed = true) (h : exec s as = some s') : as = [] := by
  cases as with
  | nil => rfl
  | cons a as =>
    simp only [exec] at h
    split at h
    · rename_i t ht
      have := (step_tr ht).1
      rw [hf] at this; cases this
    · cases h

theorem jobsScheduled_append (as bs : List Act) : jobsScheduled (as ++ bs) = jobsScheduled as ++ jobsScheduled bs := by
  simp [jobsScheduled, List.filterMap_append]

/-- **C127** A future that is ready stays as it is, whatever happens next. -/
theorem C127_stable (fn : Job → JobFn) (n : Nat) (as bs : List Act) (s s' : FState) (h : fexec fn (finit n) as = .ok s)
    (h' : fexec fn s bs = .ok s') (hu : (jobsScheduled (as ++ bs)).Nodup) (j : Job) (hr : (s.fut j).ready = true) :
    s'.fut j = s.fut j := by
  have hs' : fexec fn (finit n) (as ++ bs) = .ok s' := by rw [fexec_append, h]; exact h'
  have hu1 : (jobsScheduled as).Nodup := by rw [jobsScheduled_append] at hu; exact (List.nodup_append.1 hu).1
  have e1 := C127_futures fn n as s h hu1 j
  have e2 := C127_futures fn n (as ++ bs) s' hs' hu j
  have hb := fexec_base h'
  have hm := finished_mono (inv_exec (inv_init n) (fexec_base h)) hb
  rw [e1] at hr ⊢
  rw [e2]
  simp only [expectedFut] at hr ⊢
  by_cases h1 : (fn j).isFuture = false ∨ j ∉ jobsScheduled as
  · simp [h1, Fut.ready] at hr
  · have h1' : ¬ ((fn j).isFuture = false ∨ j ∉ jobsScheduled (as ++ bs)) := by
      simp only [not_or, Classical.not_not, jobsScheduled_append, List.mem_append] at h1 ⊢
      exact ⟨h1.1, fun hx => hx.1 h1.2⟩
    rw [if_neg h1] at hr ⊢
    rw [if_neg h1']
    by_cases h2 : j ∈ s.base.finished
    · rw [if_pos h2, if_pos (hm j h2)]
    · rw [if_neg h2] at hr ⊢
      by_cases h3 : s.base.freed = true
      · have := freed_stop h3 hb
        subst this
        simp only [fexec, FOut.ok.injEq] at h'
        subst h'
        rw [if_neg h2]
      · simp [h3, Fut.ready] at hr

/-- **C127** On a live, not stopped queue with a non-empty pool: when no thread can go on, the future of every job scheduled by `scheduleFuture` holds its function's value or exception. -/
theorem C127_all_ready (fn : Job → JobFn) (n : Nat) (as : List Act) (s : FState) (h : fexec fn (finit n) as = .ok s)
    (hu : (jobsScheduled as).Nodup) (hf : s.base.freed = false) (hk : ¬ Stopped s.base) (hw : s.base.workers ≠ []) (hst : Stuck s.base)
    (j : Job) (hj : j ∈ jobsScheduled as) (hi : (fn j).isFuture = true) :
    s.fut j = if (fn j).throws then .error else .value := by
  have hl := (C07_liveness n as s.base (fexec_base h) hf hk hw hst).2.1
  rw [C127_futures fn n as s h hu j]
  simp [expectedFut, hi, hj, hl.mem_iff.2 hj]

/-- **C127** Once the destructor has returned no future waits any more: every job scheduled by `scheduleFuture` has run or its future says `broken_promise`. -/
theorem C127_after_destructor (fn : Job → JobFn) (n : Nat) (as : List Act) (s : FState) (h : fexec fn (finit n) as = .ok s)
    (hu : (jobsScheduled as).Nodup) (hf : s.base.freed = true) (j : Job) (hj : j ∈ jobsScheduled as) (hi : (fn j).isFuture = true) :
    (s.fut j).ready = true ∧ (s.fut j = .broken ↔ j ∉ s.base.finished) := by
  rw [C127_futures fn n as s h hu j]
  by_cases h2 : j ∈ s.base.finished
  · cases ht : (fn j).throws <;> simp [expectedFut, hi, hj, h2, Fut.ready, ht]
  · simp [expectedFut, hi, hj, h2, Fut.ready, hf]

/-- **C127**, claim: a job that throws harms nobody else, in particular not the process. -/
def C127_claim : Prop := ∀ fn n as, fexec fn (finit n) as ≠ .terminated

/-- C127: the claim is false of the code: a job scheduled by `scheduleWork` that throws terminates the process. -/
theorem C127_negation : ¬ C127_claim := by
  intro h
  exact h (fun _ => ⟨false, true⟩) 0 [.start 1, .schedule 7, .w 0, .w 0, .w 0, .w 0, .w 0] rfl

/-- **C127** What does hold: only a job that throws and was scheduled by `scheduleWork` does so. -/
theorem C127_terminate_partial (fn : Job → JobFn) (n : Nat) (as : List Act) (h : fexec fn (finit n) as = .terminated) :
    ∃ j ∈ jobsScheduled as, (fn j).isFuture = false ∧ (fn j).throws = true := by
  suffices H : ∀ (k : Nat) (as : List Act), as.length = k → fexec fn (finit n) as = .terminated →
      ∃ j ∈ jobsScheduled as, (fn j).isFuture = false ∧ (fn j).throws = true from H _ as rfl h
  intro k
  induction k with
  | zero =>
    intro as hl h
    have : as = [] := List.eq_nil_of_length_eq_zero hl
    subst this
    cases h
  | succ k ih =>
    intro as hl h
    obtain ⟨bs, a, rfl⟩ : ∃ bs a, as = bs ++ [a] := by
      have hne : as ≠ [] := by intro e; subst e; simp at hl
      exact ⟨as.dropLast, as.getLast hne, (List.dropLast_concat_getLast hne).symm⟩
    have hsub : ∀ j ∈ jobsScheduled bs, j ∈ jobsScheduled (bs ++ [a]) := by
      intro j hj; rw [jobsScheduled_append]; exact List.mem_append_left _ hj
    rw [fexec_snoc] at h
    cases hb : fexec fn (finit n) bs with
    | terminated =>
      obtain ⟨j, hj, hx⟩ := ih bs (by simpa using hl) hb
      exact ⟨j, hsub j hj, hx⟩
    | no => rw [hb] at h; cases h
    | ok t =>
      rw [hb] at h
      dsimp only at h
      simp only [fstep] at h
      split at h
      · split at h
        · rename_i ht
          cases a with
          | w i =>
            simp only [terminates] at ht
            split at ht
            · rename_i j hi
              have hC := C01_conservation n bs t.base (fexec_base hb)
              refine ⟨j, hsub j ?_, by simpa using ht⟩
              rw [hC.1, List.mem_append]
              left
              have := hC.2 j
              have h1 : 0 < t.base.workers.countP (fun pc => decide (pc = .run j)) :=
                List.countP_pos_iff.2 ⟨_, List.mem_of_getElem? hi, by simp⟩
              exact List.count_pos_iff.1 (by omega)
            · cases ht
          | _ => cases ht
        · cases h
      · cases h

/-- **C127** … and it does, as soon as its function throws. -/
theorem C127_terminate_exact (fn : Job → JobFn) (n : Nat) (as : List Act) (s : FState) (h : fexec fn (finit n) as = .ok s) (i : Nat) (j : Job)
    (hx : Executing s.base i j) : fstep fn s (.w i) = .terminated ↔ (fn j).isFuture = false ∧ (fn j).throws = true := by
  have hf : s.base.freed = false := by
    cases hc' : s.base.freed with
    | false => rfl
    | true =>
    rcases freed_inv ⟨n, as, fexec_base h⟩ hc' _ (List.mem_of_getElem? hx) with h | h <;> cases h
  unfold Executing at hx
  simp only [fstep, step, hx, hf, wstep, terminates]
  cases h1 : (fn j).isFuture <;> cases h2 : (fn j).throws <;> simp

/-- **C127**, claim: after `join()` has returned every future is ready. -/
def C127_join_claim : Prop := ∀ fn n as s j, fexec fn (finit n) as = .ok s → (jobsScheduled as).Nodup → s.base.started = true →
  (∀ pc ∈ s.base.workers, pc = .fin) → j ∈ jobsScheduled as → (fn j).isFuture = true → (s.fut j).ready = true

theorem C127_join_negation : ¬ C127_join_claim := by
  intro h
  have := h (fun _ => ⟨true, false⟩) 1 [.start 1, .schedule 7, .w 0, .callJoin 0, .c 0, .w 0, .w 0, .c 0] _ 7 rfl (by decide) rfl (by decide) (by decide) rfl
  exact absurd this (by decide)

theorem all_fin_step {s s' : State} {a : Act} (hst : s.started = true) (hfin : ∀ pc ∈ s.workers, pc = .fin) (h : Tr s a s') :
    s'.started = true ∧ (∀ pc ∈ s'.workers, pc = .fin) ∧ s'.finished = s.finished := by
  have hw : ∀ p ∈ s.workers.map wakeW, p = .fin := by
    intro p hp
    obtain ⟨q, hq, rfl⟩ := List.mem_map.1 hp
    rw [hfin q hq]; rfl
  cases h
  case start h => rw [hst] at h; cases h
  case enter hi _ => have := hfin _ (List.mem_of_getElem? hi); cases this
  case check_wait hi _ => have := hfin _ (List.mem_of_getElem? hi); cases this
  case check_go hi _ => have := hfin _ (List.mem_of_getElem? hi); cases this
  case presleep hi => have := hfin _ (List.mem_of_getElem? hi); cases this
  case woken hi _ => have := hfin _ (List.mem_of_getElem? hi); cases this
  case exit hi _ => have := hfin _ (List.mem_of_getElem? hi); cases this
  case check2 hi _ => have := hfin _ (List.mem_of_getElem? hi); cases this
  case take hi _ => have := hfin _ (List.mem_of_getElem? hi); cases this
  case run hi => have := hfin _ (List.mem_of_getElem? hi); cases this
  case done hi _ => have := hfin _ (List.mem_of_getElem? hi); cases this
  case spurW hi => have := hfin _ (List.mem_of_getElem? hi); cases this
  all_goals
    refine ⟨by simp [setC, notifyCond, hst], ?_, by simp [setC, notifyCond]⟩
    first
      | exact hfin
      | exact hw

/-- **C127** What does hold about `join()`: when all workers have returned, the waiting futures are exactly those of the jobs left in the queue, and they stay waiting, whatever is done with the queue (also `start` again), until it is destroyed: `get()` before that blocks for good. -/
theorem C127_join_partial (fn : Job → JobFn) (n : Nat) (as bs : List Act) (s s' : FState) (h : fexec fn (finit n) as = .ok s)
    (h' : fexec fn s bs = .ok s') (hu : (jobsScheduled (as ++ bs)).Nodup) (hf : s.base.freed = false) (hst : s.base.started = true)
    (hfin : ∀ pc ∈ s.base.workers, pc = .fin) (j : Job) (hi : (fn j).isFuture = true) :
    (s.fut j = .waiting ↔ j ∈ s.base.q) ∧
    (s.fut j = .waiting → s'.fut j = if s'.base.freed then .broken else .waiting) := by
  have hs' : fexec fn (finit n) (as ++ bs) = .ok s' := by rw [fexec_append, h]; exact h'
  have hu1 : (jobsScheduled as).Nodup := by rw [jobsScheduled_append] at hu; exact (List.nodup_append.1 hu).1
  have e1 := C127_futures fn n as s h hu1 j
  have e2 := C127_futures fn n (as ++ bs) s' hs' hu j
  have hb := fexec_base h'
  have hC := C01_conservation n as s.base (fexec_base h)
  have hz : s.base.workers.countP (fun pc => decide (pc = .run j)) = 0 := by
    rw [List.countP_eq_zero]
    intro x hx
    rw [hfin x hx]; simp
  have hcj := hC.2 j
  rw [hz, Nat.add_zero] at hcj
  have hbf : j ∈ s.base.begun.map Prod.snd ↔ j ∈ s.base.finished := by
    rw [← List.count_pos_iff, ← List.count_pos_iff, hcj]
  have hwq : s.fut j = .waiting ↔ j ∈ s.base.q := by
    have hsch : j ∈ jobsScheduled as ↔ (j ∈ s.base.finished ∨ j ∈ s.base.q) := by rw [hC.1, List.mem_append, hbf]
    rw [e1]
    simp only [expectedFut, hi, hsch, hf]
    by_cases h2 : j ∈ s.base.finished
    · have h3 : j ∉ s.base.q := by
        intro hq
        rw [hC.1] at hu1
        exact (List.nodup_append.1 hu1).2.2 j (hbf.2 h2) j hq rfl
      cases (fn j).throws <;> simp [h2, h3]
    · by_cases h3 : j ∈ s.base.q <;> simp [h2, h3]
  refine ⟨hwq, fun hw => ?_⟩
  have hfe : s'.base.finished = s.base.finished := by
    refine (exec_induction (P := fun _ t => t.started = true ∧ (∀ pc ∈ t.workers, pc = .fin) ∧ t.finished = s.base.finished)
      (inv_exec (inv_init n) (fexec_base h)) ⟨hst, hfin, rfl⟩ ?_ hb).2.2
    rintro _ t a t' _ ⟨g1, g2, g3⟩ _ htr
    obtain ⟨k1, k2, k3⟩ := all_fin_step g1 g2 htr
    exact ⟨k1, k2, k3.trans g3⟩
  have hq := hwq.1 hw
  have hnf : j ∉ s.base.finished := by
    intro h2
    rw [hC.1] at hu1
    exact (List.nodup_append.1 hu1).2.2 j (hbf.2 h2) j hq rfl
  have hsch : j ∈ jobsScheduled (as ++ bs) := by
    rw [jobsScheduled_append, List.mem_append, hC.1, List.mem_append]
    exact Or.inl (Or.inr hq)
  rw [e2]
  simp [expectedFut, hi, hsch, hfe, hnf]

/-- non-vacuity: job 7 returns, job 8 throws, job 9 is left when the queue is destroyed -/
def futActs : List Act :=
  [.start 1, .schedule 7, .schedule 8, .schedule 9, .w 0, .w 0, .w 0, .w 0, .w 0, .w 0, .w 0, .w 0, .w 0, .stop, .w 0, .w 0, .w 0, .w 0,
   .callDtor 0, .c 0, .c 0]
def futFn : Job → JobFn := fun j => ⟨true, j == 8⟩
example : ∃ s, fexec futFn (finit 1) futActs = .ok s ∧ (jobsScheduled futActs).Nodup ∧ s.base.freed = true ∧
    s.fut 7 = .value ∧ s.fut 8 = .error ∧ s.fut 9 = .broken ∧ s.fut 10 = .none := ⟨_, rfl, by decide, rfl, by decide, by decide, by decide, by decide⟩
/-- non-vacuity of the `join` theorem: the worker has gone, a job is left -/
example : ∃ s, fexec futFn (finit 1) [.start 1, .schedule 7, .w 0, .callJoin 0, .c 0, .w 0, .w 0, .c 0] = .ok s ∧ s.base.freed = false ∧
    s.base.started = true ∧ (∀ pc ∈ s.base.workers, pc = .fin) ∧ s.fut 7 = .waiting ∧ s.base.clients = [.idle] :=
  ⟨_, rfl, rfl, rfl, by decide, by decide, by decide⟩

end Verif.JobQueue
