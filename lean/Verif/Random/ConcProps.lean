import Verif.Random.Conc
import Mathlib.Tactic.Ring
import Mathlib.Data.List.Nodup

/-!
# C151, C152: random ids and numbers drawn by several threads
-/

namespace Verif.Random.Conc

variable {S W : Type}

/-! ## Specification -/

/-- the state of an engine started at `s0` after `k` outputs -/
def stateAt (next : Engine S W) (s0 : S) : ℕ → S
  | 0 => s0
  | k + 1 => (next (stateAt next s0 k)).2

/-- the `k`-th output, counted from 0, of an engine started at `s0` -/
def output (next : Engine S W) (s0 : S) (k : ℕ) : W := (next (stateAt next s0 k)).1

/-- the value that the last completed call gave to the object `o`, or else `init` -/
def lastGiven (init : W × W) (o : ℕ) : List (ℕ × ℕ × W × W) → W × W
  | [] => init
  | (_, o', v) :: rest => if o' = o then lastGiven v o rest else lastGiven init o rest

/-! ## C151 -/

/-- the object a thread is working on inside the lock -/
def Pc.inside : Pc S → Option ℕ
  | .idle => none
  | .want _ => none
  | .read0 o => some o
  | .write0 o _ => some o
  | .read1 o => some o
  | .write1 o _ => some o
  | .unlock o => some o

/-- what holds of the thread in the critical section, with `m` calls completed -/
def PhaseOk (next : Engine S W) (s0 : S) (m : ℕ) (st : St S W) : Pc S → Prop
  | .idle => False
  | .want _ => False
  | .read0 _ => st.eng = stateAt next s0 (2 * m)
  | .write0 _ s => s = stateAt next s0 (2 * m)
  | .read1 o => st.eng = stateAt next s0 (2 * m + 1) ∧ (st.obj o).1 = output next s0 (2 * m)
  | .write1 o s => s = stateAt next s0 (2 * m + 1) ∧ (st.obj o).1 = output next s0 (2 * m)
  | .unlock o => st.eng = stateAt next s0 (2 * m + 2) ∧ st.obj o = (output next s0 (2 * m), output next s0 (2 * m + 1))

structure Inv (next : Engine S W) (s0 : S) (obj0 : ℕ → W × W) (st : St S W) : Prop where
  owner : ∀ t, (st.pc t).inside.isSome → st.lock = some t
  free : st.lock = none → st.eng = stateAt next s0 (2 * st.log.length)
  held : ∀ t, st.lock = some t → PhaseOk next s0 st.log.length st (st.pc t)
  logged : ∀ k e, st.log[k]? = some e → e.2.2 = (output next s0 (2 * k), output next s0 (2 * k + 1))
  objs : ∀ o, (∀ t, (st.pc t).inside ≠ some o) → st.obj o = lastGiven (obj0 o) o st.log

theorem lastGiven_append (init : W × W) (o : ℕ) (l : List (ℕ × ℕ × W × W)) (e : ℕ × ℕ × W × W) :
    lastGiven init o (l ++ [e]) = if e.2.1 = o then e.2.2 else lastGiven init o l := by
  induction l generalizing init with
  | nil =>
    obtain ⟨t, o', v⟩ := e
    simp [lastGiven]
  | cons x l ih =>
    obtain ⟨t, o', v⟩ := x
    simp only [List.cons_append, lastGiven]
    split <;> rw [ih]

theorem goto_same (st : St S W) (t : ℕ) (p : Pc S) : (st.goto t p).pc t = p := by simp [St.goto]
theorem goto_other (st : St S W) {t u : ℕ} (p : Pc S) (h : u ≠ t) : (st.goto t p).pc u = st.pc u := by simp [St.goto, h]

theorem inv_start (next : Engine S W) (s0 : S) (obj0 : ℕ → W × W) : Inv next s0 obj0 (.start s0 obj0) where
  owner := by intro t h; simp [St.start, Pc.inside] at h
  free := by intro _; rfl
  held := by intro t h; simp [St.start] at h
  logged := by intro k e h; simp [St.start] at h
  objs := by intro o _; rfl

theorem inv_step (next : Engine S W) (s0 : S) (obj0 : ℕ → W × W) {a b : St S W} (ha : Inv next s0 obj0 a)
    (hs : Step next a b) : Inv next s0 obj0 b := by
  cases hs with
  | call t o h =>
    have hl : a.lock ≠ some t := by
      intro hl
      have := ha.held t hl
      rw [h] at this
      exact this
    refine ⟨?_, ha.free, ?_, ha.logged, ?_⟩
    · intro u hu
      by_cases e : u = t
      · subst e; rw [goto_same] at hu; simp [Pc.inside] at hu
      · rw [goto_other _ _ e] at hu; exact ha.owner u hu
    · intro u hu
      have e : u ≠ t := by rintro rfl; exact hl hu
      rw [goto_other _ _ e]
      have := ha.held u hu
      revert this
      cases a.pc u <;> exact id
    · intro o' ho
      apply ha.objs
      intro u
      by_cases e : u = t
      · subst e; rw [h]; simp [Pc.inside]
      · have := ho u; rwa [goto_other _ _ e] at this
  | lock t o h hl =>
    have hout : ∀ u, (a.pc u).inside = none := by
      intro u
      by_contra hne
      have h1 := ha.owner u (Option.isSome_iff_ne_none.2 hne)
      rw [hl] at h1
      cases h1
    refine ⟨?_, ?_, ?_, ha.logged, ?_⟩
    · intro u hu
      by_cases e : u = t
      · subst e; rfl
      · rw [goto_other _ _ e] at hu
        have h1 := hout u
        simp only at hu
        rw [h1] at hu; simp at hu
    · intro hn; simp [St.goto] at hn
    · intro u hu
      have e : u = t := by simpa [St.goto, eq_comm] using hu
      subst e
      rw [goto_same]
      exact ha.free hl
    · intro o' ho
      apply ha.objs
      intro u
      rw [hout u]; simp
  | read0 t o h =>
    have hl : a.lock = some t := ha.owner t (by rw [h]; rfl)
    have hp := ha.held t hl
    rw [h] at hp
    refine ⟨?_, ?_, ?_, ha.logged, ?_⟩
    · intro u hu
      by_cases e : u = t
      · subst e; exact hl
      · rw [goto_other _ _ e] at hu; exact ha.owner u hu
    · intro hn; exact ha.free hn
    · intro u hu
      have e : u = t := by
        have h1 : a.lock = some u := hu
        rw [hl] at h1; cases h1; rfl
      subst e
      rw [goto_same]
      exact hp
    · intro o' ho
      apply ha.objs
      intro u
      by_cases e : u = t
      · subst e; have := ho u; rw [goto_same] at this; rw [h]; exact this
      · have := ho u; rwa [goto_other _ _ e] at this
  | read1 t o h =>
    have hl : a.lock = some t := ha.owner t (by rw [h]; rfl)
    have hp := ha.held t hl
    rw [h] at hp
    refine ⟨?_, ?_, ?_, ha.logged, ?_⟩
    · intro u hu
      by_cases e : u = t
      · subst e; exact hl
      · rw [goto_other _ _ e] at hu; exact ha.owner u hu
    · intro hn; exact ha.free hn
    · intro u hu
      have e : u = t := by
        have h1 : a.lock = some u := hu
        rw [hl] at h1; cases h1; rfl
      subst e
      rw [goto_same]
      exact hp
    · intro o' ho
      apply ha.objs
      intro u
      by_cases e : u = t
      · subst e; have := ho u; rw [goto_same] at this; rw [h]; exact this
      · have := ho u; rwa [goto_other _ _ e] at this
  | write0 t o s h =>
    have hl : a.lock = some t := ha.owner t (by rw [h]; rfl)
    have hp : s = stateAt next s0 (2 * a.log.length) := by
      have := ha.held t hl
      rw [h] at this
      exact this
    refine ⟨?_, ?_, ?_, ha.logged, ?_⟩
    · intro u hu
      by_cases e : u = t
      · subst e; exact hl
      · rw [goto_other _ _ e] at hu; exact ha.owner u hu
    · intro hn
      have h1 : a.lock = none := hn
      rw [hl] at h1; cases h1
    · intro u hu
      have e : u = t := by
        have h1 : a.lock = some u := hu
        rw [hl] at h1; cases h1; rfl
      subst e
      rw [goto_same]
      refine ⟨?_, ?_⟩
      · show (next s).2 = _
        rw [hp]; rfl
      · simp only [St.goto, St.put0, if_true]
        rw [hp]; rfl
    · intro o' ho
      have hne : o' ≠ o := by
        rintro rfl
        exact ho t (by rw [goto_same]; rfl)
      simp only [St.goto, St.put0, if_neg hne]
      apply ha.objs
      intro u
      by_cases e : u = t
      · subst e; have := ho u; rw [goto_same] at this; rw [h]; exact this
      · have := ho u; rwa [goto_other _ _ e] at this
  | write1 t o s h =>
    have hl : a.lock = some t := ha.owner t (by rw [h]; rfl)
    have hp : s = stateAt next s0 (2 * a.log.length + 1) ∧ (a.obj o).1 = output next s0 (2 * a.log.length) := by
      have := ha.held t hl
      rw [h] at this
      exact this
    refine ⟨?_, ?_, ?_, ha.logged, ?_⟩
    · intro u hu
      by_cases e : u = t
      · subst e; exact hl
      · rw [goto_other _ _ e] at hu; exact ha.owner u hu
    · intro hn
      have h1 : a.lock = none := hn
      rw [hl] at h1; cases h1
    · intro u hu
      have e : u = t := by
        have h1 : a.lock = some u := hu
        rw [hl] at h1; cases h1; rfl
      subst e
      rw [goto_same]
      refine ⟨?_, ?_⟩
      · show (next s).2 = _
        rw [hp.1]; rfl
      · simp only [St.goto, St.put1, if_true]
        rw [hp.1, hp.2]; rfl
    · intro o' ho
      have hne : o' ≠ o := by
        rintro rfl
        exact ho t (by rw [goto_same]; rfl)
      simp only [St.goto, St.put1, if_neg hne]
      apply ha.objs
      intro u
      by_cases e : u = t
      · subst e; have := ho u; rw [goto_same] at this; rw [h]; exact this
      · have := ho u; rwa [goto_other _ _ e] at this
  | unlock t o h =>
    have hl : a.lock = some t := ha.owner t (by rw [h]; rfl)
    have hp : a.eng = stateAt next s0 (2 * a.log.length + 2) ∧
        a.obj o = (output next s0 (2 * a.log.length), output next s0 (2 * a.log.length + 1)) := by
      have := ha.held t hl
      rw [h] at this
      exact this
    have hout : ∀ u, u ≠ t → (a.pc u).inside = none := by
      intro u hu
      by_contra hne
      have h1 := ha.owner u (Option.isSome_iff_ne_none.2 hne)
      rw [hl] at h1
      cases h1
      exact hu rfl
    refine ⟨?_, ?_, ?_, ?_, ?_⟩
    · intro u hu
      by_cases e : u = t
      · subst e; rw [goto_same] at hu; simp [Pc.inside] at hu
      · rw [goto_other _ _ e] at hu
        have h1 := hout u e
        simp only at hu
        rw [h1] at hu; simp at hu
    · intro _
      show a.eng = stateAt next s0 (2 * (a.log ++ [(t, o, a.obj o)]).length)
      rw [hp.1]; simp [Nat.mul_add]
    · intro u hu; simp [St.goto] at hu
    · intro k e he
      have he' : (a.log ++ [(t, o, a.obj o)])[k]? = some e := he
      rcases Nat.lt_trichotomy k a.log.length with hk | hk | hk
      · rw [List.getElem?_append_left hk] at he'; exact ha.logged k e he'
      · subst hk
        simp at he'
        subst he'
        exact hp.2
      · rw [List.getElem?_eq_none (by simp; omega)] at he'; cases he'
    · intro o' ho
      show a.obj o' = lastGiven (obj0 o') o' (a.log ++ [(t, o, a.obj o)])
      rw [lastGiven_append]
      split
      · rename_i e; subst e; rfl
      · rename_i e
        apply ha.objs
        intro u
        by_cases e' : u = t
        · subst e'; rw [h]; simp only [Pc.inside]; intro h1; exact e (by cases h1; rfl)
        · rw [hout u e']; simp

theorem inv_reach {next : Engine S W} {s0 : S} {obj0 : ℕ → W × W} {st : St S W} (h : Reach next s0 obj0 st) :
    Inv next s0 obj0 st := by
  induction h with
  | start => exact inv_start next s0 obj0
  | step _ hs ih => exact inv_step next s0 obj0 ih hs

/-- **C151** However the threads are interleaved, the `k`-th completed call of `HashId::randomize` / `random` gave its object
the outputs `2k` and `2k+1` of the engine: consecutive outputs that no other call gets, none skipped. -/
theorem C151_own_outputs (next : Engine S W) (s0 : S) (obj0 : ℕ → W × W) (st : St S W) (h : Reach next s0 obj0 st)
    (k t o : ℕ) (v : W × W) (hk : st.log[k]? = some (t, o, v)) : v = (output next s0 (2 * k), output next s0 (2 * k + 1)) :=
  (inv_reach h).logged k (t, o, v) hk

/-- **C151** An object on which no call is under way inside the lock holds the value that the last completed call gave it, or
its initial value: never one word of one draw and one of another. -/
theorem C151_objects (next : Engine S W) (s0 : S) (obj0 : ℕ → W × W) (st : St S W) (h : Reach next s0 obj0 st) (o : ℕ)
    (ho : st.lock = none ∨ ∀ t, (st.pc t).inside ≠ some o) : st.obj o = lastGiven (obj0 o) o st.log := by
  apply (inv_reach h).objs
  rcases ho with hl | ho
  · intro t hi
    have := (inv_reach h).owner t (by rw [hi]; rfl)
    rw [hl] at this
    cases this
  · exact ho

/-- **C151** Two calls are given different ids, if the engine does not repeat itself in the outputs they used. -/
theorem C151_distinct (next : Engine S W) (s0 : S) (obj0 : ℕ → W × W) (st : St S W) (h : Reach next s0 obj0 st)
    (hne : ∀ i j, i < st.log.length → j < st.log.length → i ≠ j → (output next s0 (2 * i), output next s0 (2 * i + 1)) ≠ (output next s0 (2 * j), output next s0 (2 * j + 1))) :
    (st.log.map fun e => e.2.2).Nodup := by
  rw [List.nodup_iff_injective_get]
  intro i j hij
  by_contra hne'
  have hi : i.1 < st.log.length := by have := i.2; simpa using this
  have hj : j.1 < st.log.length := by have := j.2; simpa using this
  have e1 := (inv_reach h).logged i.1 (st.log[i.1]) (List.getElem?_eq_getElem hi)
  have e2 := (inv_reach h).logged j.1 (st.log[j.1]) (List.getElem?_eq_getElem hj)
  apply hne i.1 j.1 hi hj (fun e => hne' (Fin.ext e))
  rw [← e1, ← e2]
  simpa using hij

/-- **C151** No deadlock: as long as a call is under way, some thread can go on. -/
theorem C151_progress (next : Engine S W) (s0 : S) (obj0 : ℕ → W × W) (st : St S W) (h : Reach next s0 obj0 st) (t : ℕ)
    (ht : st.pc t ≠ .idle) : ∃ st' u, Step next st st' ∧ st.pc u ≠ .idle ∧ (∀ w, w ≠ u → st'.pc w = st.pc w) := by
  have hi := inv_reach h
  rcases hl : st.lock with _ | u
  · rcases hp : st.pc t with _ | o | o | ⟨o, s⟩ | o | ⟨o, s⟩ | o
    · exact absurd hp ht
    · exact ⟨_, t, .lock st t o hp hl, (by rw [hp]; simp), fun w hw => goto_other _ _ hw⟩
    all_goals
      have h1 := hi.owner t (by rw [hp]; rfl)
      rw [hl] at h1
      cases h1
  · have h1 := hi.held u hl
    rcases hp : st.pc u with _ | o | o | ⟨o, s⟩ | o | ⟨o, s⟩ | o
    · rw [hp] at h1; exact h1.elim
    · rw [hp] at h1; exact h1.elim
    · exact ⟨_, u, .read0 st u o hp, (by rw [hp]; simp), fun w hw => goto_other _ _ hw⟩
    · exact ⟨_, u, .write0 st u o s hp, (by rw [hp]; simp), fun w hw => goto_other _ _ hw⟩
    · exact ⟨_, u, .read1 st u o hp, (by rw [hp]; simp), fun w hw => goto_other _ _ hw⟩
    · exact ⟨_, u, .write1 st u o s hp, (by rw [hp]; simp), fun w hw => goto_other _ _ hw⟩
    · exact ⟨_, u, .unlock st u o hp, (by rw [hp]; simp), fun w hw => goto_other _ _ hw⟩

/-- an engine that counts -/
def counter : Engine ℕ ℕ := fun n => (n, n + 1)

/-- Concrete: two threads draw for the objects 7 and 8; thread 1 waits for the lock in the middle of thread 0's call.  The second call
completed was given the outputs 2 and 3. -/
example : ∃ st : St ℕ ℕ, Reach counter 0 (fun _ => (0, 0)) st ∧ st.log = [(0, 7, 0, 1), (1, 8, 2, 3)] ∧ st.lock = none := by
  refine ⟨_, .step (.step (.step (.step (.step (.step (.step (.step (.step (.step (.step (.step (.step (.step .start
    (.call _ 0 7 rfl)) (.lock _ 0 7 rfl rfl)) (.read0 _ 0 7 rfl)) (.call _ 1 8 rfl)) (.write0 _ 0 7 _ rfl)) (.read1 _ 0 7 rfl))
    (.write1 _ 0 7 _ rfl)) (.unlock _ 0 7 rfl)) (.lock _ 1 8 rfl rfl)) (.read0 _ 1 8 rfl)) (.write0 _ 1 8 _ rfl)) (.read1 _ 1 8 rfl))
    (.write1 _ 1 8 _ rfl)) (.unlock _ 1 8 rfl), ?_, rfl⟩
  rfl

/-! ## C152 -/

/-- what users expect of `sm::random` in a program with several threads: every call gets its own output of the engine -/
def C152_claim : Prop := ∀ (S W : Type) (next : Engine S W) (s0 : S) (st : USt S W), UReach next s0 st →
  ∀ (k t : ℕ) (w : W), st.log[k]? = some (t, w) → w = output next s0 k

/-- **C152** that is false: two threads that draw at the same time can be given the same number.  (In C++ it is a data race, and
the behaviour is undefined.) -/
theorem C152_negation : ¬ C152_claim := by
  intro h
  have h1 : UReach counter 0 _ := .step (.step (.step (.step .start (.read _ 0 rfl)) (.read _ 1 rfl)) (.write _ 0 0 rfl)) (.write _ 1 0 rfl)
  have h2 := h ℕ ℕ counter 0 _ h1 1 1 0 rfl
  exact absurd h2 (by decide)

/-- the executions in which a call begins only when no other call is under way -/
inductive OneAtATime (next : Engine S W) (s0 : S) : USt S W → Prop
  | start : OneAtATime next s0 (.start s0)
  | read {a b : USt S W} : OneAtATime next s0 a → (∀ u, a.pc u = .idle) → UStep next a b → OneAtATime next s0 b
  | write {a b : USt S W} : OneAtATime next s0 a → (∃ u, a.pc u ≠ .idle) → UStep next a b → (∀ u, b.pc u = .idle) → OneAtATime next s0 b

/-- **C152, what holds**: where the calls do not overlap (a single thread, or a lock of the program's own), the `k`-th call is given
the `k`-th output, whichever threads make them. -/
theorem C152_one_at_a_time_partial (next : Engine S W) (s0 : S) (st : USt S W) (h : OneAtATime next s0 st) :
    UReach next s0 st ∧ ∀ (k t : ℕ) (w : W), st.log[k]? = some (t, w) → w = output next s0 k := by
  have key : UReach next s0 st ∧ (∀ (k t : ℕ) (w : W), st.log[k]? = some (t, w) → w = output next s0 k) ∧
      st.eng = stateAt next s0 st.log.length ∧ (∀ u s, st.pc u = .loaded s → s = st.eng) := by
    induction h with
    | start => exact ⟨.start, (by intro k t w h; simp [USt.start] at h), rfl, (by intro u s h; simp [USt.start] at h)⟩
    | @read a b _ hidle hs ih =>
      obtain ⟨hr, hlog, heng, _⟩ := ih
      refine ⟨.step hr hs, ?_⟩
      cases hs with
      | read t ht =>
        refine ⟨hlog, heng, ?_⟩
        intro u s hu
        simp only at hu
        by_cases e : u = t
        · rw [if_pos e] at hu; cases hu; rfl
        · rw [if_neg e, hidle u] at hu; cases hu
      | write t s ht => rw [hidle t] at ht; cases ht
    | @write a b _ hbusy hs hidle ih =>
      obtain ⟨hr, hlog, heng, hpc⟩ := ih
      refine ⟨.step hr hs, ?_⟩
      cases hs with
      | read t ht => have := hidle t; simp at this
      | write t s ht =>
        have hse := hpc t s ht
        refine ⟨?_, ?_, ?_⟩
        · intro k t' w hk
          simp only at hk
          rcases Nat.lt_trichotomy k a.log.length with h1 | h1 | h1
          · rw [List.getElem?_append_left h1] at hk; exact hlog k t' w hk
          · subst h1
            simp at hk
            rw [← hk.2, hse, heng]; rfl
          · rw [List.getElem?_eq_none (by simp; omega)] at hk; cases hk
        · simp only [List.length_append, List.length_cons, List.length_nil]
          rw [hse, heng]; rfl
        · intro u s' hu
          have := hidle u
          simp only at this hu
          rw [this] at hu; cases hu
  exact ⟨key.1, key.2.1⟩

/-- Concrete: two threads, one after the other. -/
example : ∃ st : USt ℕ ℕ, OneAtATime counter 0 st ∧ st.log = [(0, 0), (1, 1)] := by
  have i0 : ∀ u, (USt.start (W := ℕ) 0).pc u = .idle := fun _ => rfl
  have s1 := OneAtATime.read (next := counter) .start i0 (.read _ 0 rfl)
  have s2 := OneAtATime.write s1 ⟨0, by simp⟩ (.write _ 0 0 rfl) (by intro u; by_cases h : u = 0 <;> simp [h, USt.start])
  have s3 := OneAtATime.read s2 (by intro u; by_cases h : u = 0 <;> simp [h, USt.start]) (.read _ 1 rfl)
  have s4 := OneAtATime.write s3 ⟨1, by simp⟩ (.write _ 1 1 rfl) (by
    intro u; by_cases h : u = 1 <;> by_cases h' : u = 0 <;> simp [h, h', USt.start])
  exact ⟨_, s4, rfl⟩

end Verif.Random.Conc
