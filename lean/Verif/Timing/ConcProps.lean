import Verif.Timing.ConcLemmas

/-! # C130: timers used by several threads -/

namespace Verif.Timing.Conc

open Verif.Timing

/-- **C130** The claim: however calls of several threads interleave, no two touch the same data at once with one writing. -/
def C130_claim : Prop := ∀ (owner : ℕ → Tid) (es : List Ev) (c : St), exec owner .init es = some c → ¬ Race c

/-- thread 0 owns timer 0 and so on -/
def own : ℕ → Tid := id

/-- **C130** It is false, in three ways: a getter reads an accumulator while another thread's `stop` updates it; `Timer(handle)` and every getter read the vector of timers while another thread registers a tag (and moves the vector); `getTag`, also called for the message when a running timer is started again, reads the map of tags while another thread registers a tag. -/
theorem C130_race_negation :
    (∃ c, exec own .init [.call 0 (.newTag 0 ['a'] false 0), .step 0, .step 0, .step 0, .step 0, .step 0, .step 0, .step 0,
      .call 1 (.getter 0), .step 1, .call 0 (.stop 0 1), .step 0] = some c ∧ Race c) ∧
    (∃ c, exec own .init [.call 0 (.getHandle ['a']), .step 0, .step 0, .step 0, .step 0, .step 0, .step 0, .step 0,
      .call 1 (.newHandle 1 0 true 0), .call 0 (.getHandle ['b']), .step 0, .step 0, .step 0, .step 0] = some c ∧ Race c) ∧
    (∃ c, exec own .init [.call 0 (.newTag 0 ['a'] false 0), .step 0, .step 0, .step 0, .step 0, .step 0, .step 0, .step 0,
      .call 0 (.start 0 1), .call 1 (.getHandle ['b']), .step 1, .step 1, .step 1] = some c ∧ Race c) := by
  refine ⟨⟨_, rfl, 0, 1, by decide, .acc 0, true, false, ?_, ?_, Or.inl rfl⟩, ⟨_, rfl, 0, 1, by decide, .vec, true, false, ?_, ?_, Or.inl rfl⟩,
    ⟨_, rfl, 0, 1, by decide, .map, false, true, ?_, ?_, Or.inr rfl⟩⟩
  · exact List.mem_cons_of_mem _ (List.mem_singleton.2 rfl)
  · exact List.mem_cons_of_mem _ (List.mem_singleton.2 rfl)
  · exact List.mem_singleton.2 rfl
  · exact List.mem_singleton.2 rfl
  · exact List.mem_singleton.2 rfl
  · exact List.mem_singleton.2 rfl

theorem C130_negation : ¬ C130_claim := by
  intro h
  obtain ⟨c, hc, hr⟩ := C130_race_negation.1
  exact h _ _ c hc hr

theorem accesses_crit {p : Pc} (hl : lockedPc p = true) (h : accesses p ≠ []) : crit p = true := by
  cases p <;> simp_all [accesses, crit, lockedPc]

/-- **C130** Histories of calls that use the mutex – timers made by tag, started, stopped and destroyed, `getHandle`, `reset` – have no race, for any number of threads and every interleaving. -/
theorem C130_no_race_partial (owner : ℕ → Tid) (es : List Ev) (c : St) (hd : Disciplined owner .init es) (h : exec owner .init es = some c) : ¬ Race c := by
  rintro ⟨i, j, hij, l, wi, wj, hi, hj, _⟩
  have hc := cinv_exec hd h
  have h1 := (hc.lock i).2 (accesses_crit (hc.locked i) (List.ne_nil_of_mem hi))
  have h2 := (hc.lock j).2 (accesses_crit (hc.locked j) (List.ne_nil_of_mem hj))
  rw [h1] at h2
  exact hij (Option.some.inj h2)

/-- **C130** Such calls are atomic: all results, and the registry whenever the mutex is free, are those of the recorded operations run one after the other. -/
theorem C130_atomic_partial (owner : ℕ → Tid) (es : List Ev) (c : St) (hd : Disciplined owner .init es) (h : exec owner .init es = some c) :
    (run Sys.init (allOps c)).1 = c.log.map (fun e => e.2.2) ∧ (c.lock = none → c.sys = (run Sys.init (allOps c)).2) ∧
    ((∀ i, c.pc i = .idle) → c.lock = none) := by
  have hc := cinv_exec hd h
  refine ⟨hc.outs, fun hl => ?_, fun hi => ?_⟩
  · have := hc.mid; rw [hl] at this; exact this
  · cases hl : c.lock with
    | none => rfl
    | some j =>
      have := (hc.lock j).1 hl
      rw [hi j] at this; cases this

/-- **C130** … so when no call is under way the statistics of every tag are those of the samples the threads recorded, each exactly once. -/
theorem C130_statistics_partial (owner : ℕ → Tid) (es : List Ev) (c : St) (hd : Disciplined owner .init es) (h : exec owner .init es = some c) (hi : ∀ i, c.pc i = .idle)
    (hdl : ℕ) (t : Tag) (ht : getTag c.sys hdl = some t) :
    ∃ acc, c.sys.accs[hdl]? = some acc ∧
      let xs := (Abs.run Abs.init (allOps c)).2.samples t
      acc.count = xs.length ∧ acc.total = Stats.total xs ∧ acc.mean = Stats.mean xs ∧
      acc.variance = Stats.variance xs ∧ IsMin xs acc.min ∧ IsMax xs acc.max ∧ acc.hz = Stats.hz xs := by
  obtain ⟨_, h2, h3⟩ := C130_atomic_partial owner es c hd h
  rw [h2 (h3 hi)] at ht ⊢
  exact (C40_statistics (allOps c)).2 hdl t ht

/-- **C130** The record is honest, in every history: a thread that is not in a call has recorded exactly the operations its calls stand for, in the order of its calls; the record only grows, so a call that returned before another began comes first. -/
theorem C130_order (owner : ℕ → Tid) (es es' : List Ev) (c c' : St) (h : exec owner .init es = some c) (h' : exec owner c es' = some c') :
    (∀ i, c.pc i = .idle → StandsAll (callsOf i es) (opsOf i c)) ∧ c.log <+: c'.log := by
  refine ⟨fun i hi => (recInv_exec h i).1 hi, ?_⟩
  clear h
  induction es' generalizing c with
  | nil => cases h'; exact List.prefix_rfl
  | cons e es' ih =>
    simp only [exec] at h'
    cases he : ev owner c e with
    | none => rw [he] at h'; cases h'
    | some b => rw [he] at h'; exact (log_ev he).trans (ih b h')

/-- **C130** `addTime` never indexes outside the vector of timers. -/
theorem C130_in_range_partial (owner : ℕ → Tid) (es : List Ev) (c : St) (hd : Disciplined owner .init es) (h : exec owner .init es = some c)
    (i : Tid) (id hdl : ℕ) (t0 now : ℚ) (fin : Bool) (hp : c.pc i = .addPush id hdl t0 now fin) : hdl < c.sys.accs.length := by
  have hc := cinv_exec hd h
  have how := hc.own i
  rw [hp] at how
  have hl := (hc.lock i).2 (by rw [hp]; rfl)
  have hm := hc.mid
  rw [hl] at hm
  simp only [hp, Mid] at hm
  obtain ⟨_, hinv⟩ := inv_run inv_init (allOps c)
  have ht := hinv.timers id
  have hm' : c.sys = (run Sys.init (allOps c)).2 := hm
  rw [← hm', how.2] at ht
  rw [hm', inv_len hinv]
  cases ha : (Abs.run Abs.init (allOps c)).2.timers id with
  | none => rw [ha] at ht; cases ht
  | some p =>
    rw [ha] at ht
    have hmem := hinv.owner id p.1 p.2 ha
    have : hdl = (Abs.run Abs.init (allOps c)).2.tags.idxOf p.1 := by
      have := Option.some.inj ht
      exact congrArg TimerObj.handle this
    rw [this]
    exact List.idxOf_lt_length_of_mem hmem

/-- **C130** No deadlock, in any history of any calls: while a call is under way some thread can make its next step. -/
theorem C130_no_deadlock (owner : ℕ → Tid) (es : List Ev) (c : St) (h : exec owner .init es = some c) (i : Tid) (hi : c.pc i ≠ .idle) :
    ∃ j c', step c j = some c' := by
  have hl := lockInv_exec h
  cases hk : c.lock with
  | none => exact ⟨i, step_some hi (Or.inl hk)⟩
  | some j =>
    have hj := (hl j).1 hk
    refine ⟨j, step_some ?_ (Or.inr hj)⟩
    intro e; rw [e] at hj; cases hj

theorem sum_update (n : ℕ) (f : Tid → Pc) (i : Tid) (p : Pc) (hi : i < n) :
    (∑ j ∈ Finset.range n, weight (if j = i then p else f j)) + weight (f i) = (∑ j ∈ Finset.range n, weight (f j)) + weight p := by
  have hm := Finset.mem_range.2 hi
  rw [← Finset.add_sum_erase _ _ hm, ← Finset.add_sum_erase (Finset.range n) (fun j => weight (f j)) hm]
  have : ∑ j ∈ (Finset.range n).erase i, weight (if j = i then p else f j) = ∑ j ∈ (Finset.range n).erase i, weight (f j) := by
    apply Finset.sum_congr rfl
    intro j hj
    rw [if_neg (Finset.ne_of_mem_erase hj)]
  rw [this]
  simp only [if_true]
  omega

theorem steps_bound {owner : ℕ → Tid} {es : List Ev} {c : St} (n : ℕ) (hn : ∀ e ∈ es, tidOf e < n) (h : exec owner .init es = some c) :
    (es.filter fun e => !isCall e).length + ∑ j ∈ Finset.range n, weight (c.pc j) ≤ 11 * (es.filter isCall).length := by
  induction es using List.reverseRecOn generalizing c with
  | nil => cases h; simp [St.init, weight]
  | append_singleton es e ih =>
    rw [exec_snoc] at h
    cases hb : exec owner .init es with
    | none => rw [hb] at h; cases h
    | some b =>
      rw [hb] at h
      have hi := ih (fun e he => hn e (List.mem_append_left _ he)) hb
      have hlt := hn e (by simp)
      cases e with
      | call i cl =>
        obtain ⟨h0, p, hp, hw⟩ := call_pc h
        have := sum_update n b.pc i p hlt
        rw [h0, show weight .idle = 0 from rfl] at this
        rw [hp]
        have e1 : (List.filter (fun e => !isCall e) [Ev.call i cl]).length = 0 := rfl
        have e2 : (List.filter isCall [Ev.call i cl]).length = 1 := rfl
        simp only [List.filter_append, List.length_append, e1, e2]
        omega
      | step i =>
        obtain ⟨p, hp, hw⟩ := step_pc h
        have := sum_update n b.pc i p hlt
        rw [hp]
        have e1 : (List.filter (fun e => !isCall e) [Ev.step i]).length = 1 := rfl
        have e2 : (List.filter isCall [Ev.step i]).length = 0 := rfl
        simp only [List.filter_append, List.length_append, e1, e2]
        omega

/-- **C130** … and every call needs at most 11 steps: in every history there are at most 11 steps per call. With the absence of deadlock all calls return, whatever thread that can run is run. -/
theorem C130_steps (owner : ℕ → Tid) (es : List Ev) (c : St) (h : exec owner .init es = some c) :
    (es.filter fun e => !isCall e).length ≤ 11 * (es.filter isCall).length := by
  have hb : ∃ n, ∀ e ∈ es, tidOf e < n := by
    clear h
    induction es with
    | nil => exact ⟨0, by simp⟩
    | cons e es ih =>
      obtain ⟨n, hn⟩ := ih
      refine ⟨max n (tidOf e + 1), fun e' he => ?_⟩
      rcases List.mem_cons.1 he with rfl | he
      · omega
      · have := hn e' he; omega
  obtain ⟨n, hn⟩ := hb
  have := steps_bound n hn h
  omega

/-- **C130** From every reachable state all calls under way can be finished, and then all threads are outside. -/
theorem C130_finish (owner : ℕ → Tid) (es : List Ev) (c : St) (h : exec owner .init es = some c) :
    ∃ es' c', exec owner c es' = some c' ∧ (∀ e ∈ es', isCall e = false) ∧ ∀ i, c'.pc i = .idle := by
  have hb : ∃ n, ∀ e ∈ es, tidOf e < n := by
    clear h
    induction es with
    | nil => exact ⟨0, by simp⟩
    | cons e es ih =>
      obtain ⟨n, hn⟩ := ih
      refine ⟨max n (tidOf e + 1), fun e' he => ?_⟩
      rcases List.mem_cons.1 he with rfl | he
      · omega
      · have := hn e' he; omega
  obtain ⟨n, hn⟩ := hb
  have hout : ∀ i, n ≤ i → c.pc i = .idle := by
    intro i hi
    by_contra hne
    obtain ⟨cs, os, cl, l, _, hcs, _⟩ := (recInv_exec h i).2 hne
    have : cl ∈ callsOf i es := by rw [hcs]; simp
    simp only [callsOf, List.mem_filterMap] at this
    obtain ⟨e, he, hm⟩ := this
    have := hn e he
    cases e with
    | step j => simp at hm
    | call j cl' =>
      simp only at hm
      split at hm
      · rename_i e; simp only [tidOf] at this; omega
      · cases hm
  generalize hk : ∑ j ∈ Finset.range n, weight (c.pc j) = k
  clear hn
  induction k using Nat.strong_induction_on generalizing es c with
  | _ k ih =>
    by_cases hall : ∀ i, c.pc i = .idle
    · exact ⟨[], c, rfl, by simp, hall⟩
    · obtain ⟨i, hi⟩ := not_forall.1 hall
      obtain ⟨j, c', hj⟩ := C130_no_deadlock owner es c h i hi
      have hjn : j < n := by
        by_contra hge
        have := hout j (by omega)
        unfold step at hj; rw [this] at hj; cases hj
      obtain ⟨p, hp, hw⟩ := step_pc hj
      have hsum := sum_update n c.pc j p hjn
      have hrun : exec owner .init (es ++ [.step j]) = some c' := by rw [exec_snoc, h]; exact hj
      have hout' : ∀ i, n ≤ i → c'.pc i = .idle := by
        intro i hi
        rw [hp]
        have : i ≠ j := by omega
        simp only [this, if_false]
        exact hout i hi
      obtain ⟨es', c'', h1, h2, h3⟩ := ih _ (by rw [← hk]; show ∑ j ∈ Finset.range n, weight (c'.pc j) < _; simp only [hp]; omega) _ c' hrun hout' rfl
      refine ⟨.step j :: es', c'', ?_, ?_, h3⟩
      · show (ev owner c (.step j)).bind _ = _
        have : ev owner c (.step j) = some c' := hj
        rw [this]; exact h1
      · intro e he
        rcases List.mem_cons.1 he with rfl | he
        · rfl
        · exact h2 e he

/-! ## Non-vacuity -/

/-- two threads time the same tag, their steps interleaved -/
def twoThreads : List Ev :=
  [.call 0 (.newTag 0 ['a'] false 0), .call 1 (.newTag 1 ['a'] false 1), .step 0, .step 0, .step 0, .step 0, .step 0, .step 0, .step 0, .step 1, .step 1, .step 1,
   .call 1 (.stop 1 3), .call 0 (.stop 0 5), .step 1, .step 1, .step 1, .step 0, .step 0, .step 0]

theorem twoThreads_disciplined : Disciplined own .init twoThreads := by
  have hs : ∀ (c : St) (i : Tid) (es : List Ev), (∀ c', step c i = some c' → Disciplined own c' es) → Disciplined own c (.step i :: es) :=
    fun c i es h => ⟨fun j cl e => (by cases e), h⟩
  have hc : ∀ (c : St) (i : Tid) (cl : Call) (es : List Ev), Locked cl → ¬ Misuse c cl → (∀ c', call own c i cl = some c' → Disciplined own c' es) →
      Disciplined own c (.call i cl :: es) := fun c i cl es h1 h2 h => ⟨fun j cl' e => (by cases e; exact ⟨h1, h2⟩), h⟩
  unfold twoThreads
  refine hc _ _ _ _ trivial (by simp [Misuse]) fun c hc1 => ?_; cases hc1
  refine hc _ _ _ _ trivial (by simp [Misuse]) fun c hc1 => ?_; cases hc1
  iterate 10 (refine hs _ _ _ fun c hc1 => ?_; cases hc1)
  refine hc _ _ _ _ trivial ?_ fun c hc1 => ?_
  · rintro ⟨tm, h1, h2⟩; cases h1; cases h2
  cases hc1
  refine hc _ _ _ _ trivial ?_ fun c hc1 => ?_
  · rintro ⟨tm, h1, h2⟩; cases h1; cases h2
  cases hc1
  iterate 6 (refine hs _ _ _ fun c hc1 => ?_; cases hc1)
  trivial

/-- … it is possible, and records 2 s and 5 s for the tag -/
example : ∃ c, exec own .init twoThreads = some c ∧ Disciplined own .init twoThreads ∧ (∀ i, c.pc i = .idle) ∧
    (Abs.run Abs.init (allOps c)).2.samples ['a'] = [3 - 1, 5 - 0] := by
  refine ⟨_, rfl, twoThreads_disciplined, ?_, ?_⟩
  · intro i
    by_cases h0 : i = 0
    · subst h0; rfl
    · by_cases h1 : i = 1
      · subst h1; rfl
      · simp [h0, h1, St.record, release, St.goto, St.init]
  · rfl

end Verif.Timing.Conc
