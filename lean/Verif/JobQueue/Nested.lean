import Verif.JobQueue.FutureProps

/-! # C128: jobs that use their own queue -/

namespace Verif.JobQueue

/-- a job that does not return keeps its worker -/
theorem executing_keeps {as : List Act} {s s' : State} {i : Nat} {j : Job} (hI : Inv s) (hx : Executing s i j) (hn : Act.w i ∉ as)
    (h : exec s as = some s') : Executing s' i j := by
  revert hn
  refine exec_induction (P := fun as s' => Act.w i ∉ as → Executing s' i j) hI (fun _ => hx) ?_ h
  intro as t a t' hIt hP _ htr hn
  have hn' : Act.w i ∉ as := fun h => hn (List.mem_append_left _ h)
  have ha : a ≠ .w i := fun h => hn (by rw [h]; simp)
  have hb := hP hn'
  unfold Executing at hb ⊢
  have hset : ∀ (i' : Nat) (pc : WPC) (l : List WPC), i' ≠ i → (l.set i' pc)[i]? = l[i]? := by
    intro i' pc l hne; exact List.getElem?_set_ne hne
  have hmap : (t.workers.map wakeW)[i]? = some (.run j) := by rw [List.getElem?_map, hb]; rfl
  cases htr
  case start hst => rw [hIt.st hst] at hb; simp at hb
  case schedule => exact hmap
  case jNotify => exact hmap
  case dEnter => exact hmap
  case exit i' _ _ =>
    have hne : i' ≠ i := fun e => ha (by rw [e])
    simp only [notifyCond, setW, List.getElem?_map, hset i' _ _ hne, hb]
    rfl
  case enter i' _ _ => exact (hset i' _ _ (fun e => ha (by rw [e]))).trans hb
  case check_wait i' _ _ => exact (hset i' _ _ (fun e => ha (by rw [e]))).trans hb
  case check_go i' _ _ => exact (hset i' _ _ (fun e => ha (by rw [e]))).trans hb
  case presleep i' _ => exact (hset i' _ _ (fun e => ha (by rw [e]))).trans hb
  case woken i' _ _ => exact (hset i' _ _ (fun e => ha (by rw [e]))).trans hb
  case check2 i' _ _ => exact (hset i' _ _ (fun e => ha (by rw [e]))).trans hb
  case take i' _ _ _ _ => exact (hset i' _ _ (fun e => ha (by rw [e]))).trans hb
  case run i' _ _ => exact (hset i' _ _ (fun e => ha (by rw [e]))).trans hb
  case done i' _ _ _ => exact (hset i' _ _ (fun e => ha (by rw [e]))).trans hb
  case spurW i' hi => 
    have hne : i' ≠ i := by intro e; subst e; rw [hb] at hi; cases hi
    exact (hset i' _ _ hne).trans hb
  all_goals exact hb

theorem inCall_step {s s' : State} {a : Act} {i k : Nat} {j : Job} (hI : Inv s) (hx : Executing s i j) (htr : Tr s a s') :
    (InWait s k → InWait s' k) ∧ (InJoin s k → InJoin s' k) ∧ (InDtor s k → InDtor s' k) ∧ (s.freed = false → s'.freed = false) := by
  have hact : s.active ≠ 0 := by
    have : 0 < s.workers.countP busy := List.countP_pos_iff.2 ⟨_, List.mem_of_getElem? hx, rfl⟩
    have := hI.act
    omega
  have hpool : s.inPool ≠ 0 := by
    have : 0 < s.workers.countP pooled := List.countP_pos_iff.2 ⟨_, List.mem_of_getElem? hx, rfl⟩
    have := hI.pool
    omega
  have hnf : ¬ ∀ pc ∈ s.workers, pc = .fin := by
    intro h; have := h _ (List.mem_of_getElem? hx); cases this
  have hwD : ∀ (P : CPC → Prop), (∀ pc, P pc → P (wakeD pc)) → ∀ l : List CPC, (∃ pc, P pc ∧ l[k]? = some pc) → ∃ pc, P pc ∧ (l.map wakeD)[k]? = some pc := by
    rintro P hP l ⟨pc, h1, h2⟩; exact ⟨wakeD pc, hP pc h1, by rw [List.getElem?_map, h2]; rfl⟩
  have hwQ : ∀ (P : CPC → Prop), (∀ pc, P pc → P (wakeQ pc)) → ∀ l : List CPC, (∃ pc, P pc ∧ l[k]? = some pc) → ∃ pc, P pc ∧ (l.map wakeQ)[k]? = some pc := by
    rintro P hP l ⟨pc, h1, h2⟩; exact ⟨wakeQ pc, hP pc h1, by rw [List.getElem?_map, h2]; rfl⟩
  have hset : ∀ (P : CPC → Prop) (k' : Nat) (p p' : CPC) (l : List CPC), l[k']? = some p → (P p → P p') → (∃ pc, P pc ∧ l[k]? = some pc) →
      ∃ pc, P pc ∧ (l.set k' p')[k]? = some pc := by
    rintro P k' p p' l hk hpp ⟨pc, h1, h2⟩
    by_cases e : k' = k
    · subst e
      rw [hk] at h2
      cases h2
      exact ⟨p', hpp h1, by simp [(List.getElem?_eq_some_iff.1 hk).1]⟩
    · exact ⟨pc, h1, by rw [List.getElem?_set_ne e]; exact h2⟩
  have W1 : ∀ pc, pc ∈ [CPC.wEnter, .wCheck, .wPresleep, .wSleep, .wWoken] → wakeD pc ∈ [CPC.wEnter, .wCheck, .wPresleep, .wSleep, .wWoken] := by decide +revert
  have W2 : ∀ pc, pc ∈ [CPC.wEnter, .wCheck, .wPresleep, .wSleep, .wWoken] → wakeQ pc ∈ [CPC.wEnter, .wCheck, .wPresleep, .wSleep, .wWoken] := by decide +revert
  have J1 : ∀ pc, pc ∈ [CPC.jNotify, .jWait] → wakeD pc ∈ [CPC.jNotify, .jWait] := by decide +revert
  have J2 : ∀ pc, pc ∈ [CPC.jNotify, .jWait] → wakeQ pc ∈ [CPC.jNotify, .jWait] := by decide +revert
  have D1 : ∀ pc, pc ∈ [CPC.dEnter, .dCheck, .dPresleep, .dSleep, .dWoken] → wakeD pc ∈ [CPC.dEnter, .dCheck, .dPresleep, .dSleep, .dWoken] := by decide +revert
  have D2 : ∀ pc, pc ∈ [CPC.dEnter, .dCheck, .dPresleep, .dSleep, .dWoken] → wakeQ pc ∈ [CPC.dEnter, .dCheck, .dPresleep, .dSleep, .dWoken] := by decide +revert
  unfold InWait InJoin InDtor
  cases htr
  case wCheck_ret ha _ => exact absurd ha hact
  case dCheck_ret hc => exact absurd hc hpool
  case jWait _ _ hf => exact absurd hf hnf
  case schedule => exact ⟨hwD _ W1 _, hwD _ J1 _, hwD _ D1 _, id⟩
  case exit => exact ⟨hwD _ W1 _, hwD _ J1 _, hwD _ D1 _, id⟩
  case done => exact ⟨hwQ _ W2 _, hwQ _ J2 _, hwQ _ D2 _, id⟩
  case callWait k' hi => exact ⟨hset _ k' _ _ _ hi (by decide), hset _ k' _ _ _ hi (by decide), hset _ k' _ _ _ hi (by decide), id⟩
  case callJoin k' hi => exact ⟨hset _ k' _ _ _ hi (by decide), hset _ k' _ _ _ hi (by decide), hset _ k' _ _ _ hi (by decide), id⟩
  case callDtor k' hi => exact ⟨hset _ k' _ _ _ hi (by decide), hset _ k' _ _ _ hi (by decide), hset _ k' _ _ _ hi (by decide), id⟩
  case wAcquire k' pc hi hp hl =>
    rcases hp with rfl | rfl <;>
      exact ⟨hset _ k' _ _ _ hi (by decide), hset _ k' _ _ _ hi (by decide), hset _ k' _ _ _ hi (by decide), id⟩
  case wCheck_wait k' hi hc => exact ⟨hset _ k' _ _ _ hi (by decide), hset _ k' _ _ _ hi (by decide), hset _ k' _ _ _ hi (by decide), id⟩
  case wPresleep k' hi => exact ⟨hset _ k' _ _ _ hi (by decide), hset _ k' _ _ _ hi (by decide), hset _ k' _ _ _ hi (by decide), id⟩
  case jNotify k' hi =>
    have hi' : (s.clients.map wakeD)[k']? = some .jNotify := by rw [List.getElem?_map, hi]; rfl
    exact ⟨fun h => hset _ k' _ _ _ hi' (by decide) (hwD _ W1 _ h), fun h => hset _ k' _ _ _ hi' (by decide) (hwD _ J1 _ h),
      fun h => hset _ k' _ _ _ hi' (by decide) (hwD _ D1 _ h), id⟩
  case dEnter k' hi hl =>
    have hi' : (s.clients.map wakeD)[k']? = some .dEnter := by rw [List.getElem?_map, hi]; rfl
    exact ⟨fun h => hset _ k' _ _ _ hi' (by decide) (hwD _ W1 _ h), fun h => hset _ k' _ _ _ hi' (by decide) (hwD _ J1 _ h),
      fun h => hset _ k' _ _ _ hi' (by decide) (hwD _ D1 _ h), id⟩
  case dCheck_wait k' hi hc => exact ⟨hset _ k' _ _ _ hi (by decide), hset _ k' _ _ _ hi (by decide), hset _ k' _ _ _ hi (by decide), id⟩
  case dPresleep k' hi => exact ⟨hset _ k' _ _ _ hi (by decide), hset _ k' _ _ _ hi (by decide), hset _ k' _ _ _ hi (by decide), id⟩
  case dWoken k' hi _ => exact ⟨hset _ k' _ _ _ hi (by decide), hset _ k' _ _ _ hi (by decide), hset _ k' _ _ _ hi (by decide), id⟩
  case spurC_w k' hi => exact ⟨hset _ k' _ _ _ hi (by decide), hset _ k' _ _ _ hi (by decide), hset _ k' _ _ _ hi (by decide), id⟩
  case spurC_d k' hi => exact ⟨hset _ k' _ _ _ hi (by decide), hset _ k' _ _ _ hi (by decide), hset _ k' _ _ _ hi (by decide), id⟩
  all_goals exact ⟨id, id, id, id⟩

/-- **C128** While one job does not return, no `waitForEmptyQueue()`, no `join()` and no destructor returns.  So a job that calls one of them on its own queue (and hence returns only after the call) blocks for good, and with it every later caller of any of them. -/
theorem C128_no_call_returns (s s' : State) (as : List Act) (hs : Reachable s) (i : Nat) (j : Job) (hx : Executing s i j) (hn : Act.w i ∉ as)
    (h : exec s as = some s') (hf : s.freed = false) :
    Executing s' i j ∧ s'.freed = false ∧ ∀ k, (InWait s k → InWait s' k) ∧ (InJoin s k → InJoin s' k) ∧ (InDtor s k → InDtor s' k) := by
  have hI := inv_reachable hs
  refine ⟨executing_keeps hI hx hn h, ?_⟩
  suffices H : s'.freed = false ∧ ∀ k, (InWait s k → InWait s' k) ∧ (InJoin s k → InJoin s' k) ∧ (InDtor s k → InDtor s' k) from H
  revert hn
  have hex : ∀ (l : List Act) (t : State), exec s l = some t → Act.w i ∉ l → Executing t i j := fun l t h hn => executing_keeps hI hx hn h
  have key := exec_induction (s0 := s) (P := fun as s' => Act.w i ∉ as → Executing s' i j ∧ s'.freed = false ∧ ∀ k, (InWait s k → InWait s' k) ∧ (InJoin s k → InJoin s' k) ∧ (InDtor s k → InDtor s' k))
    hI (fun _ => ⟨hx, hf, fun k => ⟨id, id, id⟩⟩) (by
      intro as t a t' hIt hP hft htr hn
      have hn' : Act.w i ∉ as := fun h => hn (List.mem_append_left _ h)
      obtain ⟨g1, g2, g3⟩ := hP hn'
      have ha : Act.w i ∉ [a] := fun h => hn (List.mem_append_right _ h)
      have hx' : Executing t' i j := by
        have hb := g1
        unfold Executing at hb ⊢
        have ha' : a ≠ .w i := fun h => ha (by rw [h]; simp)
        have hset : ∀ (i' : Nat) (pc : WPC) (l : List WPC), i' ≠ i → (l.set i' pc)[i]? = l[i]? := by
          intro i' pc l hne; exact List.getElem?_set_ne hne
        have hmap : (t.workers.map wakeW)[i]? = some (.run j) := by rw [List.getElem?_map, hb]; rfl
        cases htr <;> (try simp only [setW, setC, notifyCond, notifyWork, List.getElem?_map]) <;> (try (first | exact hmap | exact hb)) <;> grind [hIt.st, wakeW]
      refine ⟨hx', ?_, ?_⟩
      · exact (inCall_step (k := 0) hIt g1 htr).2.2.2 g2
      · intro k
        obtain ⟨c1, c2, c3, _⟩ := inCall_step (k := k) hIt g1 htr
        exact ⟨fun h => c1 ((g3 k).1 h), fun h => c2 ((g3 k).2.1 h), fun h => c3 ((g3 k).2.2 h)⟩) h
  intro hn
  exact (key hn).2

/-- non-vacuity: job 7 executes and its thread (client 0) waits for the empty queue; another client is in the destructor -/
example : ∃ s, exec (init 2) [.start 2, .schedule 7, .w 0, .w 0, .w 0, .w 0, .callWait 0, .callDtor 1] = some s ∧ Executing s 0 7 ∧ InWait s 0 ∧ InDtor s 1 ∧
    s.freed = false ∧ (exec s [.c 0, .c 0, .c 0, .c 1, .c 1, .c 1, .w 1, .w 1, .w 1]).isSome = true :=
  ⟨_, rfl, rfl, ⟨.wEnter, by decide, rfl⟩, ⟨.dEnter, by decide, rfl⟩, rfl, by decide⟩

/-! ## Jobs that wait for the futures of other jobs -/

/-- no thread can go on, where a blocked job cannot return -/
def DStuck (dep : Job → Option Job) (s : FState) : Prop :=
  (∀ i, blocked dep s i = true ∨ step s.base (.w i) = none) ∧ ∀ k, step s.base (.c k) = none

theorem dexec_fexec {fn : Job → JobFn} {dep : Job → Option Job} : ∀ {as : List Act} {s s' : FState}, dexec fn dep s as = .ok s' → fexec fn s as = .ok s'
  | [], s, s', h => h
  | a :: as, s, s', h => by
    simp only [dexec] at h
    split at h
    · cases h
    · simp only [fexec]
      cases hs : fstep fn s a with
      | ok t => rw [hs] at h; exact dexec_fexec h
      | terminated => rw [hs] at h; cases h
      | no => rw [hs] at h; cases h

/-- **C128**, claim: whatever futures of scheduled jobs the jobs wait for (as long as there is no cycle), a live, not stopped pool gets everything done. -/
def C128_claim : Prop := ∀ fn dep n as s, dexec fn dep (finit n) as = .ok s → (jobsScheduled as).Nodup → s.base.freed = false → ¬ Stopped s.base →
  s.base.workers ≠ [] → (∃ r : Job → Nat, ∀ j d, dep j = some d → r d < r j ∧ (fn d).isFuture = true ∧ d ∈ jobsScheduled as) → DStuck dep s →
  ∀ j ∈ jobsScheduled as, j ∈ s.base.finished

/-- C128: false of the code: a job that schedules another one and waits for its future blocks the only worker for good. -/
theorem C128_negation : ¬ C128_claim := by
  intro h
  have := h (fun _ => ⟨true, false⟩) (fun j => if j = 1 then some 0 else none) 0 [.start 1, .schedule 1, .w 0, .w 0, .w 0, .w 0, .schedule 0] _ rfl (by decide) rfl
    (by intro h; cases h) (by decide) ⟨id, by intro j d hd; split at hd <;> simp_all [jobsScheduled]⟩ ⟨by
      intro i
      cases i with
      | zero => left; decide
      | succ i => right; rfl, by intro k; rfl⟩ 1 (by decide)
  exact absurd this (by decide)

/-- **C128** In general: once every worker executes a job that waits for the future of a job still in the queue, no job ever returns or begins again, however long the program runs. -/
theorem C128_deadlock (fn : Job → JobFn) (dep : Job → Option Job) (n : Nat) (as bs : List Act) (s s' : FState) (h : dexec fn dep (finit n) as = .ok s)
    (h' : dexec fn dep s bs = .ok s') (hu : (jobsScheduled (as ++ bs)).Nodup) (hst : s.base.started = true) (hf : s.base.freed = false)
    (hne : s.base.workers ≠ [])
    (hd : ∀ pc ∈ s.base.workers, ∃ j d, pc = .run j ∧ dep j = some d ∧ d ∈ s.base.q ∧ (fn d).isFuture = true) :
    s'.base.workers = s.base.workers ∧ s'.base.finished = s.base.finished ∧ s'.base.freed = false ∧ ∃ new, s'.base.q = s.base.q ++ new := by
  induction bs generalizing as s with
  | nil =>
    simp only [dexec, FOut.ok.injEq] at h'
    subst h'
    exact ⟨rfl, rfl, hf, [], by simp⟩
  | cons a bs ih => 
    have hfx := dexec_fexec h
    have hu1 : (jobsScheduled as).Nodup := by rw [jobsScheduled_append] at hu; exact (List.nodup_append.1 hu).1
    have hI := inv_exec (inv_init n) (fexec_base hfx)
    have hC := C01_conservation n as s.base (fexec_base hfx)
    have hblk : ∀ i pc, s.base.workers[i]? = some pc → blocked dep s i = true := by
      intro i pc hi
      obtain ⟨j, d, rfl, hdep, hq, hfu⟩ := hd pc (List.mem_of_getElem? hi)
      have hdf : d ∉ s.base.finished := by
        intro hx
        rw [hC.1] at hu1
        have h1 : 0 < s.base.finished.count d := List.count_pos_iff.2 hx
        have := hC.2 d
        exact (List.nodup_append.1 hu1).2.2 d (List.count_pos_iff.1 (by omega)) d hq rfl
      have e := C127_futures fn n as s hfx (by rw [jobsScheduled_append] at hu; exact (List.nodup_append.1 hu).1) d
      have hsch : d ∈ jobsScheduled as := by rw [hC.1, List.mem_append]; exact Or.inr hq
      simp only [blocked, hi, hdep, e]
      simp [expectedFut, hfu, hsch, hdf, hf, Fut.ready]
    simp only [dexec] at h'
    split at h'
    · cases h'
    · rename_i hnb
      cases hs : fstep fn s a with
      | terminated => rw [hs] at h'; cases h'
      | no => rw [hs] at h'; cases h'
      | ok t =>
        rw [hs] at h'
        dsimp only at h'
        have hdt : dexec fn dep (finit n) (as ++ [a]) = .ok t := by
          have : ∀ (l : List Act) (s0 : FState), dexec fn dep s0 l = .ok s → dexec fn dep s0 (l ++ [a]) = .ok t := by
            intro l
            induction l with
            | nil =>
              intro s0 h0
              simp only [dexec, FOut.ok.injEq] at h0
              subst h0
              simp only [List.nil_append, dexec]
              rw [if_neg hnb, hs]
            | cons b l ihl =>
              intro s0 h0
              simp only [List.cons_append, dexec] at h0 ⊢
              split at h0
              · cases h0
              · rename_i hb
                rw [if_neg hb]
                cases hs0 : fstep fn s0 b with
                | ok t0 => rw [hs0] at h0; exact ihl t0 h0
                | terminated => rw [hs0] at h0; cases h0
                | no => rw [hs0] at h0; cases h0
          exact this as _ h
        have hbs : exec s.base [a] = some t.base := fexec_base (fn := fn) (by simp only [fexec, hs])
        obtain ⟨w1, w2, w3, new, w4⟩ : t.base.workers = s.base.workers ∧ t.base.finished = s.base.finished ∧ t.base.freed = false ∧ ∃ new, t.base.q = s.base.q ++ new := by
          have hstep : step s.base a = some (.ok t.base) := by
            simp only [exec] at hbs
            split at hbs
            · rename_i x hx; simp only [Option.some.injEq] at hbs; rw [hx, hbs]
            · cases hbs
          obtain ⟨_, htr⟩ := step_tr hstep
          have hwk : s.base.workers.map wakeW = s.base.workers := by
            apply List.ext_getElem?
            intro i
            rw [List.getElem?_map]
            cases hi : s.base.workers[i]? with
            | none => rfl
            | some pc =>
              obtain ⟨j, d, rfl, _⟩ := hd pc (List.mem_of_getElem? hi)
              rfl
          have hnw : ∀ i pc, s.base.workers[i]? = some pc → a ≠ .w i := by
            intro i pc hi e
            subst e
            exact hnb (hblk i pc hi)
          have hpool : s.base.inPool ≠ 0 := by
            obtain ⟨pc, hpc⟩ := List.exists_mem_of_ne_nil _ hne
            obtain ⟨j, d, rfl, _⟩ := hd pc hpc
            have : 0 < s.base.workers.countP pooled := List.countP_pos_iff.2 ⟨_, hpc, rfl⟩
            have := hI.pool
            omega
          generalize t.base = b at htr
          generalize s.base = s0 at *
          cases htr
          case schedule j hl => exact ⟨hwk, rfl, hf, [j], rfl⟩
          case start h0 => rw [hst] at h0; cases h0
          case jNotify => exact ⟨hwk, rfl, hf, [], by simp [setC, notifyCond]⟩
          case dEnter => exact ⟨hwk, rfl, hf, [], by simp [setC, notifyCond]⟩
          case dCheck_ret hc => exact absurd hc hpool
          case spurW hi =>
            obtain ⟨j, d, e, _⟩ := hd _ (List.mem_of_getElem? hi)
            cases e
          all_goals first
            | exact ⟨rfl, rfl, hf, [], by simp [setC]⟩
            | (rename_i hi; exact absurd rfl (hnw _ _ hi))
            | (rename_i hi _; exact absurd rfl (hnw _ _ hi))
        have hst' : t.base.started = true := by
          cases hc : t.base.started with
          | true => rfl
          | false =>
            have := (inv_exec hI hbs).st hc
            rw [w1] at this
            exact absurd this hne
        obtain ⟨r1, r2, r3, new', r4⟩ := ih (as ++ [a]) t hdt h' (by simpa using hu) hst' w3 (by rw [w1]; exact hne) (by
          rw [w1, w4]
          intro pc hpc
          obtain ⟨j, d, e1, e2, e3, e4⟩ := hd pc hpc
          exact ⟨j, d, e1, e2, List.mem_append_left _ e3, e4⟩)
        exact ⟨r1.trans w1, r2.trans w2, r3, new ++ new', by rw [r4, w4, List.append_assoc]⟩

/-- **C128** What does hold: if every job waits only for futures of jobs scheduled *before* itself, a live, not stopped pool of any size gets everything done: when no thread can go on, every scheduled job has finished, every future is ready and no `waitForEmptyQueue` is left waiting. -/
theorem C128_earlier_partial (fn : Job → JobFn) (dep : Job → Option Job) (n : Nat) (as : List Act) (s : FState) (h : dexec fn dep (finit n) as = .ok s)
    (hu : (jobsScheduled as).Nodup) (hf : s.base.freed = false) (hk : ¬ Stopped s.base) (hw : s.base.workers ≠ [])
    (hdep : ∀ j d, dep j = some d → (fn d).isFuture = true ∧ d ∈ (jobsScheduled as).takeWhile (· ≠ j)) (hst : DStuck dep s) :
    (∀ j ∈ jobsScheduled as, j ∈ s.base.finished ∧ ((fn j).isFuture = true → (s.fut j).ready = true)) ∧ ∀ k, ¬ InWait s.base k := by
  have hfx := dexec_fexec h
  have hb := fexec_base hfx
  have hI := inv_exec (inv_init n) hb
  have hC := C01_conservation n as s.base hb
  have hrun : ∀ i j, Executing s.base i j → step s.base (.w i) ≠ none := by
    intro i j hx
    unfold Executing at hx
    simp [step, hx, hf, wstep]
  -- nobody is blocked: descend along the order of scheduling
  have hno : ∀ (m : Nat) i j, Executing s.base i j → (jobsScheduled as).idxOf j = m → False := by
    intro m
    induction m using Nat.strongRecOn with
    | _ m ih =>
      intro i j hx hm
      rcases hst.1 i with hbk | hbk
      · have hx' : s.base.workers[i]? = some (.run j) := hx
        simp only [blocked, hx'] at hbk
        cases hd : dep j with
        | none => rw [hd] at hbk; cases hbk
        | some d =>
          rw [hd] at hbk
          dsimp only at hbk
          obtain ⟨hfu, hdm⟩ := hdep j d hd
          have hdS : d ∈ jobsScheduled as := List.takeWhile_subset _ hdm
          have e := C127_futures fn n as s hfx hu d
          have hdf : d ∉ s.base.finished := by
            intro hc
            rw [e] at hbk
            cases ht : (fn d).throws <;> simp [expectedFut, hfu, hdS, hc, Fut.ready, ht] at hbk
          have hjb : j ∈ s.base.begun.map Prod.snd := by
            have h1 : 0 < s.base.workers.countP (fun pc => decide (pc = .run j)) := List.countP_pos_iff.2 ⟨_, List.mem_of_getElem? hx', by simp⟩
            have := hC.2 j
            exact List.count_pos_iff.1 (by omega)
          have hlt : (jobsScheduled as).idxOf d < (jobsScheduled as).idxOf j := by
            obtain ⟨l1, l2, hl⟩ := List.append_of_mem (show j ∈ jobsScheduled as by rw [hC.1]; exact List.mem_append_left _ hjb)
            have hj1 : j ∉ l1 := by
              intro hc
              rw [hl] at hu
              exact (List.nodup_append.1 hu).2.2 j hc j (by simp) rfl
            rw [hl] at hdm ⊢
            rw [List.takeWhile_append_of_pos (by intro x hx; simp; intro e; exact hj1 (e ▸ hx))] at hdm
            simp only [List.takeWhile, ne_eq, not_true_eq_false, decide_false, List.append_nil] at hdm
            rw [List.idxOf_append, List.idxOf_append, if_pos hdm, if_neg hj1]
            have := List.idxOf_lt_length_of_mem hdm
            omega
          have hdb : d ∈ s.base.begun.map Prod.snd := by
            rw [hC.1] at hdm
            obtain ⟨l1, l2, hl⟩ := List.append_of_mem hjb
            have hj1 : j ∉ l1 := by
              intro hc
              rw [hC.1, hl] at hu
              exact (List.nodup_append.1 (List.nodup_append.1 hu).1).2.2 j hc j (by simp) rfl
            rw [hl, List.append_assoc, List.takeWhile_append_of_pos (by intro x hx; simp; intro e; exact hj1 (e ▸ hx))] at hdm
            simp only [List.cons_append, List.takeWhile, ne_eq, not_true_eq_false, decide_false, List.append_nil] at hdm
            rw [hl]; exact List.mem_append_left _ hdm
          have h1 : 0 < (s.base.begun.map Prod.snd).count d := List.count_pos_iff.2 hdb
          have h2 : s.base.finished.count d = 0 := List.count_eq_zero.2 hdf
          have h3 := hC.2 d
          obtain ⟨pc, hpc, hp⟩ := List.countP_pos_iff.1 (show 0 < s.base.workers.countP (fun pc => decide (pc = .run d)) by omega)
          obtain ⟨i', hi'⟩ := List.getElem?_of_mem hpc
          have hp' : pc = .run d := by simpa using hp
          subst hp'
          exact ih _ (hm ▸ hlt) i' d hi' rfl
      · exact hrun i j hx hbk
  have hstk : Stuck s.base := by
    refine ⟨fun i => ?_, hst.2⟩
    rcases hst.1 i with hbk | hbk
    · exfalso
      simp only [blocked] at hbk
      split at hbk
      · rename_i j hj
        exact hno _ i j hj rfl
      · cases hbk
    · exact hbk
  obtain ⟨l1, l2, l3⟩ := C07_liveness n as s.base hb hf hk hw hstk
  refine ⟨fun j hj => ⟨l2.mem_iff.2 hj, fun hi => ?_⟩, l3⟩
  rw [C127_all_ready fn n as s hfx hu hf hk hw hstk j hj hi]
  cases (fn j).throws <;> rfl

/-- non-vacuity of the deadlock theorem: two workers, two jobs, each waiting for a job it has scheduled -/
example : ∃ s, dexec (fun _ => ⟨true, false⟩) (fun j => if j = 1 then some 11 else if j = 2 then some 12 else none) (finit 1)
      [.start 2, .schedule 1, .schedule 2, .w 0, .w 0, .w 0, .w 0, .w 1, .w 1, .w 1, .w 1, .schedule 11, .schedule 12] = .ok s ∧
    s.base.workers = [.run 1, .run 2] ∧ s.base.q = [11, 12] := ⟨_, rfl, rfl, rfl⟩
/-- non-vacuity of the positive theorem: job 2 waits for job 1, which runs on another worker -/
example : ∃ s, dexec (fun _ => ⟨true, false⟩) (fun j => if j = 2 then some 1 else none) (finit 0)
      [.start 2, .schedule 1, .schedule 2, .w 0, .w 0, .w 0, .w 0, .w 1, .w 1, .w 1, .w 1, .w 0, .w 0, .w 0, .w 0, .w 1, .w 1, .w 1, .w 1] = .ok s ∧
    s.base.finished = [1, 2] ∧ s.base.workers = [.sleep, .sleep] := ⟨_, rfl, rfl, rfl⟩

end Verif.JobQueue
