import Verif.JobQueue.Invariant

/-! # The transitions of the JobQueue machine, one constructor per case of `step` -/

namespace Verif.JobQueue

/-- Every normal transition (proved complete for `step` below). -/
inductive Tr (s : State) : Act → State → Prop
  | schedule {j} (hl : s.lock = none) :
      Tr s (.schedule j) (notifyCond { s with q := s.q ++ [j], scheduled := s.scheduled ++ [j] })
  | stop : Tr s .stop { s with kill := true }
  | start_again {n} (h : s.started = true) : Tr s (.start n) s
  | start {n} (h : s.started = false) :
      Tr s (.start n) { s with started := true, workers := List.replicate n .enter }
  | enter {i} (hi : s.workers[i]? = some .enter) (hl : s.lock = none) :
      Tr s (.w i) (setW { s with lock := some (.W i), inPool := s.inPool + 1 } i .check)
  | check_wait {i} (hi : s.workers[i]? = some .check) (hc : s.q = [] ∧ s.kill = false) :
      Tr s (.w i) (setW s i .presleep)
  | check_go {i} (hi : s.workers[i]? = some .check) (hc : ¬ (s.q = [] ∧ s.kill = false)) :
      Tr s (.w i) (setW s i .check2)
  | presleep {i} (hi : s.workers[i]? = some .presleep) :
      Tr s (.w i) (setW { s with lock := none } i .sleep)
  | woken {i} (hi : s.workers[i]? = some .woken) (hl : s.lock = none) :
      Tr s (.w i) (setW { s with lock := some (.W i) } i .check)
  | exit {i} (hi : s.workers[i]? = some .check2) (hk : s.kill = true) :
      Tr s (.w i) (notifyCond (setW { s with inPool := s.inPool - 1, lock := none } i .fin))
  | check2 {i} (hi : s.workers[i]? = some .check2) (hk : s.kill = false) :
      Tr s (.w i) (setW s i .take)
  | take {i j q} (hi : s.workers[i]? = some .take) (hq : s.q = j :: q) :
      Tr s (.w i) (setW { s with q := q, active := s.active + 1, lock := none,
                                 begun := s.begun ++ [(i, j)] } i (.run j))
  | run {i j} (hi : s.workers[i]? = some (.run j)) :
      Tr s (.w i) (setW { s with finished := s.finished ++ [j] } i (.done j))
  | done {i j} (hi : s.workers[i]? = some (.done j)) (hl : s.lock = none) :
      Tr s (.w i) (notifyWork (setW { s with lock := some (.W i), active := s.active - 1 } i .check))
  | spurW {i} (hi : s.workers[i]? = some .sleep) : Tr s (.spurW i) (setW s i .woken)
  | callWait {k} (hi : s.clients[k]? = some .idle) : Tr s (.callWait k) (setC s k .wEnter)
  | callJoin {k} (hi : s.clients[k]? = some .idle) :
      Tr s (.callJoin k) (setC { s with kill := true } k .jNotify)
  | callDtor {k} (hi : s.clients[k]? = some .idle) : Tr s (.callDtor k) (setC s k .dEnter)
  | wAcquire {k pc} (hi : s.clients[k]? = some pc) (hp : pc = .wEnter ∨ pc = .wWoken) (hl : s.lock = none) :
      Tr s (.c k) (setC { s with lock := some (.C k) } k .wCheck)
  | wCheck_wait {k} (hi : s.clients[k]? = some .wCheck) (hc : s.active ≠ 0 ∨ s.q ≠ []) :
      Tr s (.c k) (setC s k .wPresleep)
  | wCheck_ret {k} (hi : s.clients[k]? = some .wCheck) (ha : s.active = 0) (hq : s.q = []) :
      Tr s (.c k) (setC { s with lock := none } k .idle)
  | wPresleep {k} (hi : s.clients[k]? = some .wPresleep) :
      Tr s (.c k) (setC { s with lock := none } k .wSleep)
  | jNotify {k} (hi : s.clients[k]? = some .jNotify) : Tr s (.c k) (setC (notifyCond s) k .jWait)
  | jWait {k} (hi : s.clients[k]? = some .jWait) (hs : s.started = true)
      (hf : ∀ pc ∈ s.workers, pc = .fin) : Tr s (.c k) (setC s k .idle)
  | dEnter {k} (hi : s.clients[k]? = some .dEnter) (hl : s.lock = none) :
      Tr s (.c k) (setC (notifyCond { s with lock := some (.C k), kill := true }) k .dCheck)
  | dCheck_wait {k} (hi : s.clients[k]? = some .dCheck) (hc : s.inPool ≠ 0) :
      Tr s (.c k) (setC s k .dPresleep)
  | dCheck_ret {k} (hi : s.clients[k]? = some .dCheck) (hc : s.inPool = 0) :
      Tr s (.c k) (setC { s with lock := none, freed := true } k .dFin)
  | dPresleep {k} (hi : s.clients[k]? = some .dPresleep) :
      Tr s (.c k) (setC { s with lock := none } k .dSleep)
  | dWoken {k} (hi : s.clients[k]? = some .dWoken) (hl : s.lock = none) :
      Tr s (.c k) (setC { s with lock := some (.C k) } k .dCheck)
  | spurC_w {k} (hi : s.clients[k]? = some .wSleep) : Tr s (.spurC k) (setC s k .wWoken)
  | spurC_d {k} (hi : s.clients[k]? = some .dSleep) : Tr s (.spurC k) (setC s k .dWoken)

theorem step_tr {s s' : State} {a : Act} (hs : step s a = some (.ok s')) : s.freed = false ∧ Tr s a s' := by
  cases a with
  | schedule j =>
    simp only [step] at hs
    split at hs
    · simp at hs
    · rename_i hf; refine ⟨by simpa using hf, ?_⟩
      split at hs
      · rename_i hl; cases hs; exact .schedule hl
      · simp at hs
  | stop =>
    simp only [step] at hs
    split at hs
    · simp at hs
    · rename_i hf; refine ⟨by simpa using hf, ?_⟩
      cases hs; exact .stop
  | start n =>
    simp only [step] at hs
    split at hs
    · simp at hs
    · rename_i hf; refine ⟨by simpa using hf, ?_⟩
      split at hs
      · rename_i hst; cases hs; exact .start_again hst
      · rename_i hst; cases hs; exact .start (by simpa using hst)
  | w i =>
    simp only [step] at hs
    split at hs
    · simp at hs
    · simp at hs
    · rename_i pc _ hi
      split at hs
      · simp at hs
      · rename_i hf; refine ⟨by simpa using hf, ?_⟩
        cases pc <;> simp only [wstep, acquire] at hs
        · split at hs
          · rename_i hl; cases hs; exact .enter hi hl
          · simp at hs
        · split at hs
          · rename_i hc; cases hs; exact .check_wait hi hc
          · rename_i hc; cases hs; exact .check_go hi hc
        · cases hs; exact .presleep hi
        · simp at hs
        · split at hs
          · rename_i hl; cases hs; exact .woken hi hl
          · simp at hs
        · split at hs
          · rename_i hk; cases hs; exact .exit hi hk
          · rename_i hk; cases hs; exact .check2 hi (by simpa using hk)
        · split at hs
          · simp at hs
          · rename_i hq; cases hs; exact .take hi hq
        · cases hs; exact .run hi
        · split at hs
          · rename_i hl; cases hs; exact .done hi hl
          · simp at hs
        · simp at hs
  | spurW i =>
    simp only [step] at hs
    split at hs
    · rename_i hi
      split at hs
      · simp at hs
      · rename_i hf; cases hs; exact ⟨by simpa using hf, .spurW hi⟩
    · simp at hs
  | callWait k =>
    simp only [step] at hs
    split at hs
    · rename_i hi
      split at hs
      · simp at hs
      · rename_i hf; cases hs; exact ⟨by simpa using hf, .callWait hi⟩
    · simp at hs
  | callJoin k =>
    simp only [step] at hs
    split at hs
    · rename_i hi
      split at hs
      · simp at hs
      · rename_i hf; cases hs; exact ⟨by simpa using hf, .callJoin hi⟩
    · simp at hs
  | callDtor k =>
    simp only [step] at hs
    split at hs
    · rename_i hi
      split at hs
      · simp at hs
      · rename_i hf; cases hs; exact ⟨by simpa using hf, .callDtor hi⟩
    · simp at hs
  | spurC k =>
    simp only [step] at hs
    split at hs
    · rename_i hi
      split at hs
      · simp at hs
      · rename_i hf; cases hs; exact ⟨by simpa using hf, .spurC_w hi⟩
    · rename_i hi
      split at hs
      · simp at hs
      · rename_i hf; cases hs; exact ⟨by simpa using hf, .spurC_d hi⟩
    · simp at hs
  | c k =>
    simp only [step] at hs
    split at hs
    · simp at hs
    · simp at hs
    · simp at hs
    · rename_i pc _ _ hi
      split at hs
      · simp at hs
      · rename_i hf; refine ⟨by simpa using hf, ?_⟩
        cases pc <;> simp only [cstep, acquire] at hs
        · simp at hs
        · split at hs
          · rename_i hl; cases hs; exact .wAcquire hi (by simp) hl
          · simp at hs
        · split at hs
          · rename_i hc; cases hs; exact .wCheck_wait hi hc
          · rename_i hc; cases hs; simp only [ne_eq, not_or, Decidable.not_not] at hc; exact .wCheck_ret hi hc.1 hc.2
        · cases hs; exact .wPresleep hi
        · simp at hs
        · split at hs
          · rename_i hl; cases hs; exact .wAcquire hi (by simp) hl
          · simp at hs
        · cases hs; exact .jNotify hi
        · split at hs
          · simp at hs
          · rename_i hst
            split at hs
            · rename_i hall; cases hs; exact .jWait hi (by simpa using hst) (by simpa using hall)
            · simp at hs
        · split at hs
          · rename_i hl; cases hs; exact .dEnter hi hl
          · simp at hs
        · split at hs
          · rename_i hc; cases hs; exact .dCheck_wait hi hc
          · rename_i hc; cases hs; exact .dCheck_ret hi (by simpa using hc)
        · cases hs; exact .dPresleep hi
        · simp at hs
        · split at hs
          · rename_i hl; cases hs; exact .dWoken hi hl
          · simp at hs
        · simp at hs

/-- Induction over schedules: a property kept by every transition from a reachable state holds at the
end of every schedule. -/
theorem exec_induction {P : List Act → State → Prop} {s0 : State} (h0 : Inv s0) (hP : P [] s0)
    (hstep : ∀ as s a s', Inv s → P as s → s.freed = false → Tr s a s' → P (as ++ [a]) s')
    {as : List Act} {s : State} (hs : exec s0 as = some s) : P as s := by
  suffices H : ∀ (bs pre : List Act) (t : State), Inv t → P pre t → exec t bs = some s → P (pre ++ bs) s by
    simpa using H as [] s0 h0 hP hs
  intro bs
  induction bs with
  | nil => intro pre t _ hp h; simp [exec] at h; subst h; simpa using hp
  | cons b bs ih =>
    intro pre t ht hp h
    simp only [exec] at h
    split at h
    · rename_i s1 hst
      obtain ⟨hf, htr⟩ := step_tr hst
      have := ih (pre ++ [b]) s1 (inv_step ht hst) (hstep pre t b s1 ht hp hf htr) h
      simpa using this
    · simp at h

/-- A finished worker means the queue was told to stop. -/
theorem fin_kill {s : State} (h : Reachable s) : ∀ i : Nat, s.workers[i]? = some .fin → s.kill = true := by
  obtain ⟨n, as, h⟩ := h
  refine exec_induction (P := fun _ s => ∀ i : Nat, s.workers[i]? = some .fin → s.kill = true)
    (inv_init n) (by simp [init]) ?_ h
  intro as s a s' hI hP hf htr
  have hw : ∀ p, wakeW p = .fin → p = .fin := by intro p; cases p <;> simp [wakeW]
  cases htr <;> (try simp only [setW, setC, notifyCond, notifyWork, List.getElem?_map, Option.map_eq_some_iff]) <;> grind

end Verif.JobQueue
