import Verif.Timing.ConcSpec
import Verif.Timing.Props
import Mathlib.Data.List.Induction
import Mathlib.Algebra.BigOperators.Group.Finset.Basic
import Mathlib.Algebra.Order.BigOperators.Group.Finset
import Mathlib.Tactic.Common

namespace Verif.Timing.Conc

open Verif.Timing

/-- between `lock` and `unlock` -/
def crit : Pc → Bool
  | .ghFind .. | .ghSize .. | .ghMap .. | .ghPush .. | .ghMax .. | .ghUnlock .. => true
  | .addPush .. | .addUnlock .. => true
  | .rsCheck .. | .rsWrite .. | .rsUnlock .. => true
  | _ => false

def LockInv (c : St) : Prop := ∀ i, c.lock = some i ↔ crit (c.pc i) = true

theorem lockInv_update {c c' : St} (h : LockInv c) (i : Tid) (p : Pc) (hpc : c'.pc = fun j => if j = i then p else c.pc j)
    (hl : (crit p = true ∧ (c.lock = none ∨ c.lock = some i) ∧ c'.lock = some i) ∨
      (crit p = false ∧ c.lock = some i ∧ c'.lock = none) ∨ (crit p = false ∧ crit (c.pc i) = false ∧ c'.lock = c.lock)) : LockInv c' := by
  intro j
  rw [hpc]
  by_cases hj : j = i
  · subst hj
    simp only [if_true]
    rcases hl with ⟨h1, _, h3⟩ | ⟨h1, _, h3⟩ | ⟨h1, h2, h3⟩
    · simp [h1, h3]
    · simp [h1, h3]
    · have := h j
      rw [h2] at this
      simp [h1, h3]
      simpa using this
  · simp only [hj, if_false]
    have hjj := h j
    rcases hl with ⟨_, h2, h3⟩ | ⟨_, h2, h3⟩ | ⟨_, _, h3⟩
    · rw [h3]
      have h1 : ¬ c.lock = some j := by
        rcases h2 with h2 | h2 <;> rw [h2]
        · simp
        · intro e; exact hj (Option.some.inj e).symm
      have h4 : ¬ crit (c.pc j) = true := fun e => h1 (hjj.2 e)
      constructor
      · intro e; exact absurd (Option.some.inj e).symm hj
      · intro e; exact absurd e h4
    · rw [h3]
      have h1 : ¬ c.lock = some j := by
        rw [h2]; intro e; exact hj (Option.some.inj e).symm
      have h4 : ¬ crit (c.pc j) = true := fun e => h1 (hjj.2 e)
      constructor
      · intro e; cases e
      · intro e; exact absurd e h4
    · rw [h3]; exact hjj

theorem lockInv_call {owner : ℕ → Tid} {c c' : St} (h : LockInv c) {i : Tid} {cl : Call} (hc : call owner c i cl = some c') : LockInv c' := by
  unfold call at hc
  split at hc
  · cases hc
  · rename_i hidle
    have hidle : c.pc i = .idle := Classical.not_not.1 hidle
    have hci : crit (c.pc i) = false := by rw [hidle]; rfl
    have go : ∀ (p : Pc) (c'' : St), crit p = false → c''.pc = (fun j => if j = i then p else c.pc j) → c''.lock = c.lock → LockInv c'' :=
      fun p c'' hp h1 h2 => lockInv_update h i p h1 (Or.inr (Or.inr ⟨hp, hci, h2⟩))
    have same : ∀ c'' : St, c''.pc = c.pc → c''.lock = c.lock → LockInv c'' := by
      intro c'' h1 h2 j; rw [h1, h2]; exact h j
    cases cl <;> simp only at hc <;> (repeat' split at hc) <;> (try cases hc) <;>
      first
        | exact go _ _ rfl rfl rfl
        | exact same _ rfl rfl

theorem lockInv_step {c c' : St} (h : LockInv c) {i : Tid} (hs : step c i = some c') : LockInv c' := by
  have hi := h i
  unfold step at hs
  have acq : ∀ (p : Pc), crit p = true → acquire c i p = some c' → LockInv c' := by
    intro p hp ha
    unfold acquire at ha
    split at ha
    · rename_i hl
      cases ha
      exact lockInv_update h i p rfl (Or.inl ⟨hp, Or.inl hl, rfl⟩)
    · cases ha
  have cc : ∀ (p : Pc) (c'' : St), crit (c.pc i) = true → crit p = true → c''.pc = (fun j => if j = i then p else c.pc j) → c''.lock = c.lock → LockInv c'' :=
    fun p c'' h0 hp h1 h2 => lockInv_update h i p h1 (Or.inl ⟨hp, Or.inr (hi.2 h0), h2.trans (hi.2 h0)⟩)
  have rel : ∀ (p : Pc) (c'' : St), crit (c.pc i) = true → crit p = false → c''.pc = (fun j => if j = i then p else c.pc j) → c''.lock = none → LockInv c'' :=
    fun p c'' h0 hp h1 h2 => lockInv_update h i p h1 (Or.inr (Or.inl ⟨hp, hi.2 h0, h2⟩))
  have go : ∀ (p : Pc) (c'' : St), crit (c.pc i) = false → crit p = false → c''.pc = (fun j => if j = i then p else c.pc j) → c''.lock = c.lock → LockInv c'' :=
    fun p c'' h0 hp h1 h2 => lockInv_update h i p h1 (Or.inr (Or.inr ⟨hp, h0, h2⟩))
  cases hp : c.pc i <;> rw [hp] at hs <;> simp only at hs
  case idle => cases hs
  case ghWant t k => exact acq _ rfl hs
  case addWant => exact acq _ rfl hs
  case rsWant => exact acq _ rfl hs
  case ghFind t k =>
    split at hs <;> cases hs <;> exact cc _ _ (by rw [hp]; rfl) (by rfl) rfl rfl
  case ghUnlock t h k =>
    cases k <;> simp only at hs <;> cases hs <;> exact rel _ _ (by rw [hp]; rfl) (by rfl) rfl rfl
  case rsCheck h' =>
    cases hs
    refine cc _ _ (by rw [hp]; rfl) ?_ rfl rfl
    split <;> rfl
  case gtSize h' =>
    cases hs
    refine go _ _ (by rw [hp]; rfl) ?_ rfl rfl
    split <;> rfl
  case ctSize =>
    split at hs <;> cases hs <;> exact go _ _ (by rw [hp]; rfl) (by rfl) rfl rfl
  case ghSize => cases hs; exact cc _ _ (by rw [hp]; rfl) (by rfl) rfl rfl
  case ghMap => cases hs; exact cc _ _ (by rw [hp]; rfl) (by rfl) rfl rfl
  case ghPush => cases hs; exact cc _ _ (by rw [hp]; rfl) (by rfl) rfl rfl
  case ghMax => cases hs; exact cc _ _ (by rw [hp]; rfl) (by rfl) rfl rfl
  case addPush => cases hs; exact cc _ _ (by rw [hp]; rfl) (by rfl) rfl rfl
  case rsWrite => cases hs; exact cc _ _ (by rw [hp]; rfl) (by rfl) rfl rfl
  case addUnlock => cases hs; exact rel _ _ (by rw [hp]; rfl) (by rfl) rfl rfl
  case rsUnlock => cases hs; exact rel _ _ (by rw [hp]; rfl) (by rfl) rfl rfl
  case gtRead => cases hs; exact go _ _ (by rw [hp]; rfl) (by rfl) rfl rfl
  case tagRead => cases hs; exact go _ _ (by rw [hp]; rfl) (by rfl) rfl rfl

theorem exec_snoc (owner : ℕ → Tid) (c : St) (es : List Ev) (e : Ev) : exec owner c (es ++ [e]) = (exec owner c es).bind fun c' => ev owner c' e := by
  induction es generalizing c with
  | nil => simp [exec]
  | cons a es ih =>
    simp only [List.cons_append, exec]
    cases ev owner c a with
    | none => rfl
    | some c' => simpa using ih c'

theorem lockInv_init : LockInv St.init := by intro i; simp [St.init, crit]

theorem lockInv_exec {owner : ℕ → Tid} {es : List Ev} {c : St} (h : exec owner .init es = some c) : LockInv c := by
  induction es using List.reverseRecOn generalizing c with
  | nil => cases h; exact lockInv_init
  | append_singleton es e ih =>
    rw [exec_snoc] at h
    cases hb : exec owner .init es with
    | none => rw [hb] at h; cases h
    | some b =>
      rw [hb] at h
      cases e with
      | call i cl => exact lockInv_call (ih hb) h
      | step i => exact lockInv_step (ih hb) h

/-- a thread in a critical section, or with the mutex free, is never stuck -/
theorem step_some {c : St} {i : Tid} (hp : c.pc i ≠ .idle) (h : c.lock = none ∨ crit (c.pc i) = true) : ∃ c', step c i = some c' := by
  unfold step
  have acq : ∀ p, crit (c.pc i) = false → ∃ c', acquire c i p = some c' := by
    intro p hc
    unfold acquire
    rcases h with h | h
    · rw [h]; exact ⟨_, rfl⟩
    · rw [hc] at h; cases h
  cases hpc : c.pc i <;> simp only
  case idle => exact absurd hpc hp
  case ghWant => exact acq _ (by rw [hpc]; rfl)
  case addWant => exact acq _ (by rw [hpc]; rfl)
  case rsWant => exact acq _ (by rw [hpc]; rfl)
  case ghFind => split <;> exact ⟨_, rfl⟩
  case ghUnlock t h k => cases k <;> exact ⟨_, rfl⟩
  case ctSize => split <;> exact ⟨_, rfl⟩
  all_goals exact ⟨_, rfl⟩

/-! ## the number of steps -/

def after : Then → ℕ
  | .ret | .timer .. => 0
  | .reset => 4
  | .get => 2

/-- the steps a thread has at most before it, in this call -/
def weight : Pc → ℕ
  | .idle => 0
  | .ghWant _ k => 7 + after k
  | .ghFind _ k => 6 + after k
  | .ghSize _ k => 5 + after k
  | .ghMap _ _ k => 4 + after k
  | .ghPush _ _ k => 3 + after k
  | .ghMax _ _ k => 2 + after k
  | .ghUnlock _ _ k => 1 + after k
  | .addWant .. => 3
  | .addPush .. => 2
  | .addUnlock .. => 1
  | .rsWant _ => 4
  | .rsCheck _ => 3
  | .rsWrite _ => 2
  | .rsUnlock _ _ => 1
  | .gtSize _ => 2
  | .gtRead _ => 1
  | .tagRead => 1
  | .ctSize .. => 1

/-- every step and every call changes what its own thread does next, and only that -/
theorem step_pc {c c' : St} {i : Tid} (hs : step c i = some c') : ∃ p, c'.pc = (fun j => if j = i then p else c.pc j) ∧ weight p < weight (c.pc i) := by
  unfold step at hs
  have acq : ∀ p, weight p < weight (c.pc i) → acquire c i p = some c' →
      ∃ p, c'.pc = (fun j => if j = i then p else c.pc j) ∧ weight p < weight (c.pc i) := by
    intro p hw ha
    unfold acquire at ha
    split at ha
    · cases ha; exact ⟨p, rfl, hw⟩
    · cases ha
  cases hp : c.pc i <;> rw [hp] at hs acq <;> simp only at hs
  case idle => cases hs
  case ghWant t k => exact acq _ (by simp [weight]) hs
  case addWant => exact acq _ (by simp [weight]) hs
  case rsWant => exact acq _ (by simp [weight]) hs
  case ghFind t k => split at hs <;> cases hs <;> exact ⟨_, rfl, by simp [weight]⟩
  case ghUnlock t h k => cases k <;> simp only at hs <;> cases hs <;> exact ⟨_, rfl, by simp [weight, after]⟩
  case rsCheck h' => cases hs; exact ⟨_, rfl, by split <;> simp [weight]⟩
  case gtSize h' => cases hs; exact ⟨_, rfl, by split <;> simp [weight]⟩
  case ctSize => split at hs <;> cases hs <;> exact ⟨_, rfl, by simp [weight]⟩
  all_goals (cases hs; exact ⟨_, rfl, by simp [weight]⟩)

theorem call_pc {owner : ℕ → Tid} {c c' : St} {i : Tid} {cl : Call} (hc : call owner c i cl = some c') :
    c.pc i = .idle ∧ ∃ p, c'.pc = (fun j => if j = i then p else c.pc j) ∧ weight p ≤ 11 := by
  unfold call at hc
  split at hc
  · cases hc
  · rename_i hidle
    have hidle : c.pc i = .idle := Classical.not_not.1 hidle
    refine ⟨hidle, ?_⟩
    have same : ∀ c'' : St, c''.pc = c.pc → ∃ p, c''.pc = (fun j => if j = i then p else c.pc j) ∧ weight p ≤ 11 := by
      intro c'' h1
      refine ⟨.idle, ?_, by simp [weight]⟩
      rw [h1]; funext j
      split
      · rename_i e; rw [e, hidle]
      · rfl
    cases cl <;> simp only at hc <;> (repeat' split at hc) <;> (try cases hc) <;>
      first
        | exact ⟨_, rfl, by simp [weight, after]⟩
        | exact same _ rfl

/-! ## atomicity -/

theorem run_snoc (s : Sys) (os : List Op) (o : Op) :
    run s (os ++ [o]) = ((run s os).1 ++ [(Timing.step (run s os).2 o).1], (Timing.step (run s os).2 o).2) := by
  induction os generalizing s with
  | nil => simp [run]
  | cons a os ih => simp [run, ih]

theorem getHandle_setTimer (s : Sys) (id : ℕ) (v : Option TimerObj) (t : Tag) :
    getHandle (s.setTimer id v) t = ((getHandle s t).1, (getHandle s t).2.setTimer id v) := by
  unfold getHandle Sys.setTimer
  cases lookup s.tagMap t <;> rfl

theorem getHandle_timers (s : Sys) (t : Tag) : (getHandle s t).2.timers = s.timers := by
  unfold getHandle
  cases lookup s.tagMap t <;> rfl

/-- the registry in the middle of a critical section: `R` is the registry before it -/
def Mid (R s : Sys) : Pc → Prop
  | .ghFind _ _ => s = R
  | .ghSize t _ => s = R ∧ lookup R.tagMap t = none
  | .ghMap t h _ => s = R ∧ lookup R.tagMap t = none ∧ h = R.accs.length
  | .ghPush t h _ => s = { R with tagMap := R.tagMap ++ [(t, h)] } ∧ lookup R.tagMap t = none ∧ h = R.accs.length
  | .ghMax t h _ => s = { R with tagMap := R.tagMap ++ [(t, h)], accs := R.accs ++ [Acc.init] } ∧ lookup R.tagMap t = none ∧ h = R.accs.length
  | .ghUnlock t h _ => (h, s) = getHandle R t
  | .addPush .. => s = R
  | .addUnlock _ h t0 now _ => s = R.addTime h (now - t0)
  | .rsCheck _ => s = R
  | .rsWrite h => s = R ∧ h < R.accs.length
  | .rsUnlock h ok => if ok then h < R.accs.length ∧ s = { R with accs := R.accs.modify h fun _ => Acc.init } else ¬ h < R.accs.length ∧ s = R
  | _ => s = R

theorem Mid.timers {R s : Sys} {p : Pc} (h : Mid R s p) : s.timers = R.timers := by
  cases p <;> simp only [Mid] at h
  case ghUnlock t h' k => rw [← getHandle_timers R t, ← h]
  case ghSize => rw [h.1]
  case ghMap => rw [h.1]
  case ghPush => rw [h.1]
  case ghMax => rw [h.1]
  case rsWrite => rw [h.1]
  case rsUnlock h' ok => split at h <;> rw [h.2]
  case addUnlock => rw [h]; rfl
  all_goals rw [h]

theorem Mid.setTimer {R s : Sys} {p : Pc} (h : Mid R s p) (id : ℕ) (v : Option TimerObj) : Mid (R.setTimer id v) (s.setTimer id v) p := by
  cases p <;> simp only [Mid] at h ⊢
  case ghUnlock t h' k => rw [getHandle_setTimer, ← h]
  case ghSize => exact ⟨by rw [h.1], h.2⟩
  case ghMap => exact ⟨by rw [h.1], h.2⟩
  case ghPush => exact ⟨by rw [h.1]; rfl, h.2⟩
  case ghMax => exact ⟨by rw [h.1]; rfl, h.2⟩
  case rsWrite => exact ⟨by rw [h.1], h.2⟩
  case rsUnlock h' ok =>
    split
    · rename_i e; rw [if_pos e] at h; exact ⟨h.1, by rw [h.2]; rfl⟩
    · rename_i e; rw [if_neg e] at h; exact ⟨h.1, by rw [h.2]⟩
  case addUnlock => rw [h]; rfl
  all_goals rw [h]

/-- the `Timer` a call works on belongs to its thread and does not change meanwhile -/
def Own (owner : ℕ → Tid) (tm : ℕ → Option TimerObj) (i : Tid) : Pc → Prop
  | .ghWant _ (.timer id _ _) | .ghFind _ (.timer id _ _) | .ghSize _ (.timer id _ _) | .ghMap _ _ (.timer id _ _) | .ghPush _ _ (.timer id _ _)
  | .ghMax _ _ (.timer id _ _) | .ghUnlock _ _ (.timer id _ _) => owner id = i ∧ tm id = none
  | .addWant id h t0 _ _ | .addPush id h t0 _ _ | .addUnlock id h t0 _ _ => owner id = i ∧ tm id = some ⟨h, some t0⟩
  | _ => True

/-- the calls that take the mutex -/
def lockedPc : Pc → Bool
  | .ghWant _ k | .ghFind _ k | .ghSize _ k | .ghMap _ _ k | .ghPush _ _ k | .ghMax _ _ k | .ghUnlock _ _ k => k ≠ .get
  | .gtSize _ | .gtRead _ | .tagRead | .ctSize .. => false
  | _ => true

/-- the registry the recorded operations give, one after the other -/
def reg (c : St) : Sys := (run Sys.init (allOps c)).2

structure CInv (owner : ℕ → Tid) (c : St) : Prop where
  lock : LockInv c
  locked : ∀ i, lockedPc (c.pc i) = true
  own : ∀ i, Own owner c.sys.timers i (c.pc i)
  outs : (run Sys.init (allOps c)).1 = c.log.map fun e => e.2.2
  mid : match c.lock with
    | none => c.sys = reg c
    | some i => Mid (reg c) c.sys (c.pc i)

theorem CInv.timers {owner : ℕ → Tid} {c : St} (h : CInv owner c) : (reg c).timers = c.sys.timers := by
  have := h.mid
  cases hl : c.lock with
  | none => rw [hl] at this; simp only at this; rw [← this]
  | some i => rw [hl] at this; exact this.timers.symm

theorem Own.congr {owner : ℕ → Tid} {tm tm' : ℕ → Option TimerObj} {j : Tid} {p : Pc} (h : Own owner tm j p) (he : ∀ id, owner id = j → tm' id = tm id) : Own owner tm' j p := by
  unfold Own at h ⊢
  split <;> simp_all

theorem allOps_record (c : St) (i : Tid) (o : Op) (r : Out) : allOps (c.record i o r) = allOps c ++ [o] := by simp [allOps, St.record]

theorem reg_record (c : St) (i : Tid) (o : Op) (r : Out) : reg (c.record i o r) = (Timing.step (reg c) o).2 := by
  unfold reg; rw [allOps_record, run_snoc]

theorem outs_record (c : St) (i : Tid) (o : Op) (r : Out) (h : (run Sys.init (allOps c)).1 = c.log.map fun e => e.2.2) (hr : (Timing.step (reg c) o).1 = r) :
    (run Sys.init (allOps (c.record i o r))).1 = (c.record i o r).log.map fun e => e.2.2 := by
  rw [allOps_record, run_snoc]
  simp only [St.record, List.map_append, List.map_cons, List.map_nil]
  rw [h]
  simp only [reg] at hr
  rw [hr]

theorem CInv.update {owner : ℕ → Tid} {c c' : St} (h : CInv owner c) {i : Tid} {p : Pc} (hpc : c'.pc = fun j => if j = i then p else c.pc j)
    (hl : LockInv c') (hlp : lockedPc p = true) (hown : Own owner c'.sys.timers i p) (hoth : ∀ id, owner id ≠ i → c'.sys.timers id = c.sys.timers id)
    (houts : (run Sys.init (allOps c')).1 = c'.log.map fun e => e.2.2)
    (hmid : match c'.lock with
      | none => c'.sys = reg c'
      | some i => Mid (reg c') c'.sys (c'.pc i)) : CInv owner c' := by
  refine ⟨hl, fun j => ?_, fun j => ?_, houts, hmid⟩
  · rw [hpc]; by_cases hj : j = i
    · simp [hj, hlp]
    · simpa [hj] using h.locked j
  · rw [hpc]; by_cases hj : j = i
    · subst hj; simpa using hown
    · simp only [hj, if_false]
      exact (h.own j).congr fun id hid => hoth id (by rw [hid]; exact hj)

/-- a step outside the critical sections that leaves the registry alone -/
theorem CInv.goto {owner : ℕ → Tid} {c : St} (h : CInv owner c) {i : Tid} {p : Pc} (hl : LockInv (c.goto i p)) (hni : crit (c.pc i) = false) (hlp : lockedPc p = true)
    (hown : Own owner c.sys.timers i p) : CInv owner (c.goto i p) := by
  refine h.update rfl hl hlp hown (fun _ _ => rfl) h.outs ?_
  have := h.mid
  cases hlk : c.lock with
  | none => rw [hlk] at this; simp only [St.goto, hlk]; exact this
  | some j =>
    rw [hlk] at this
    have hj : j ≠ i := by
      rintro rfl
      have := (h.lock j).1 hlk
      rw [hni] at this; cases this
    simp only [St.goto, hlk, hj, if_false]
    exact this

/-- an operation on a `Timer` of the thread alone -/
theorem CInv.local {owner : ℕ → Tid} {c : St} (h : CInv owner c) {i : Tid} (hidle : c.pc i = .idle) (id : ℕ) (hid : owner id = i) (v : Option TimerObj) (o : Op) (r : Out)
    (ho : Timing.step (reg c) o = (r, (reg c).setTimer id v)) : CInv owner ({ c with sys := c.sys.setTimer id v }.record i o r) := by
  have hpc : ({ c with sys := c.sys.setTimer id v }.record i o r).pc = fun j => if j = i then Pc.idle else c.pc j := by
    funext j
    simp only [St.record]
    split
    · rename_i e; rw [e, hidle]
    · rfl
  refine h.update hpc (fun j => h.lock j) rfl trivial ?_ ?_ ?_
  · intro id' hne
    have : id' ≠ id := by rintro rfl; exact hne hid
    simp [St.record, Sys.setTimer, this]
  · apply outs_record
    · exact h.outs
    · show (Timing.step (reg c) o).1 = r
      rw [ho]
  · have := h.mid
    have hr : reg ({ c with sys := c.sys.setTimer id v }.record i o r) = (reg c).setTimer id v := by
      rw [reg_record]; show (Timing.step (reg c) o).2 = _; rw [ho]
    rw [hr]
    simp only [St.record]
    cases hlk : c.lock with
    | none => rw [hlk] at this; simp only at this; rw [← this]
    | some j => rw [hlk] at this; exact this.setTimer id v

theorem cinv_call {owner : ℕ → Tid} {c c' : St} (h : CInv owner c) {i : Tid} {cl : Call} (hL : Locked cl) (hM : ¬ Misuse c cl) (hc : call owner c i cl = some c') :
    CInv owner c' := by
  have hl := lockInv_call h.lock hc
  unfold call at hc
  split at hc
  · cases hc
  · rename_i hidle
    have hidle : c.pc i = .idle := Classical.not_not.1 hidle
    have hci : crit (c.pc i) = false := by rw [hidle]; rfl
    cases cl <;> simp only at hc
    case getHandle t => cases hc; exact h.goto hl hci rfl trivial
    case newTag id t s n =>
      split at hc
      · rename_i ho; cases hc; exact h.goto hl hci rfl ho
      · cases hc
    case newHandle => exact hL.elim
    case start id n =>
      split at hc
      · rename_i ho
        cases ht : c.sys.timers id with
        | none => rw [ht] at hc; cases hc
        | some tm =>
          rw [ht] at hc; simp only at hc
          cases hst : tm.started with
          | some t0 => exact absurd ⟨tm, t0, ht, hst⟩ hM
          | none =>
            rw [hst] at hc; simp only at hc; cases hc
            refine h.local hidle id ho _ _ _ ?_
            simp only [Timing.step, h.timers, ht, hst]
      · cases hc
    case stop id n =>
      split at hc
      · rename_i ho
        cases ht : c.sys.timers id with
        | none => rw [ht] at hc; cases hc
        | some tm =>
          rw [ht] at hc; simp only at hc
          cases hst : tm.started with
          | none => exact absurd ⟨tm, ht, hst⟩ hM
          | some t0 =>
            rw [hst] at hc; simp only at hc; cases hc
            refine h.goto hl hci rfl ⟨ho, ?_⟩
            rw [ht]; cases tm; simp_all
      · cases hc
    case destroy id n =>
      split at hc
      · rename_i ho
        cases ht : c.sys.timers id with
        | none => rw [ht] at hc; cases hc
        | some tm =>
          rw [ht] at hc; simp only at hc
          cases hst : tm.started with
          | none =>
            rw [hst] at hc; simp only at hc; cases hc
            refine h.local hidle id ho _ _ _ ?_
            simp only [Timing.step, h.timers, ht, hst]
          | some t0 =>
            rw [hst] at hc; simp only at hc; cases hc
            refine h.goto hl hci rfl ⟨ho, ?_⟩
            rw [ht]; cases tm; simp_all
      · cases hc
    case resetHandle => cases hc; exact h.goto hl hci rfl trivial
    case resetTag => cases hc; exact h.goto hl hci rfl trivial
    case getter => exact hL.elim
    case getterTag => exact hL.elim
    case getTag => exact hL.elim

/-- the holder of the mutex makes a step and keeps it -/
theorem CInv.inside {owner : ℕ → Tid} {c : St} (h : CInv owner c) {i : Tid} {p : Pc} {s : Sys} (hl : LockInv ({ c with sys := s }.goto i p)) (hci : crit (c.pc i) = true)
    (hlp : lockedPc p = true) (hown : Own owner c.sys.timers i p) (ht : s.timers = c.sys.timers) (hm : Mid (reg c) c.sys (c.pc i) → Mid (reg c) s p) :
    CInv owner ({ c with sys := s }.goto i p) := by
  have hlk := (h.lock i).2 hci
  have hm0 := h.mid
  rw [hlk] at hm0
  refine h.update rfl hl hlp ?_ ?_ h.outs ?_
  · show Own owner s.timers i p
    rw [ht]; exact hown
  · intro id _; show s.timers id = _; rw [ht]
  · simp only [St.goto, hlk, if_true]
    exact hm hm0

/-- the holder of the mutex releases it -/
theorem CInv.unlock {owner : ℕ → Tid} {c : St} (h : CInv owner c) {i : Tid} {p : Pc} {s : Sys} {o : Op} {r : Out} (hl : LockInv ((release { c with sys := s } i p).record i o r))
    (hci : crit (c.pc i) = true) (hlp : lockedPc p = true) (hown : Own owner s.timers i p) (hoth : ∀ id, owner id ≠ i → s.timers id = c.sys.timers id)
    (hm : Mid (reg c) c.sys (c.pc i) → Timing.step (reg c) o = (r, s)) :
    CInv owner ((release { c with sys := s } i p).record i o r) := by
  have hlk := (h.lock i).2 hci
  have hm0 := h.mid
  rw [hlk] at hm0
  have ho := hm hm0
  refine h.update rfl hl hlp hown hoth ?_ ?_
  · apply outs_record
    · exact h.outs
    · show (Timing.step (reg c) o).1 = r
      rw [ho]
  · simp only [St.record, release]
    show s = reg ((release { c with sys := s } i p).record i o r)
    rw [reg_record]
    show s = (Timing.step (reg c) o).2
    rw [ho]

theorem CInv.lockStep {owner : ℕ → Tid} {c c' : St} (h : CInv owner c) {i : Tid} {p : Pc} (ha : acquire c i p = some c') (hl : LockInv c')
    (hlp : lockedPc p = true) (hown : Own owner c.sys.timers i p) (hm : ∀ s, Mid s s p) : CInv owner c' := by
  unfold acquire at ha
  split at ha
  · rename_i hlk
    cases ha
    have := h.mid
    rw [hlk] at this
    simp only at this
    refine h.update rfl hl hlp hown (fun _ _ => rfl) h.outs ?_
    show Mid (reg c) c.sys (if i = i then p else c.pc i)
    rw [if_pos rfl, ← this]
    exact hm _
  · cases ha

theorem cinv_step {owner : ℕ → Tid} {c c' : St} (h : CInv owner c) {i : Tid} (hs : step c i = some c') : CInv owner c' := by
  have hl := lockInv_step h.lock hs
  have hlo := h.locked i
  have how := h.own i
  unfold step at hs
  cases hp : c.pc i <;> rw [hp] at hs hlo how <;> simp only at hs
  case idle => cases hs
  case ghWant t k => exact h.lockStep hs hl (by cases k <;> simpa [lockedPc] using hlo) (by cases k <;> exact how) (fun _ => rfl)
  case addWant => exact h.lockStep hs hl rfl how (fun _ => rfl)
  case rsWant => exact h.lockStep hs hl rfl trivial (fun _ => rfl)
  case ghFind t k =>
    cases hk : lookup c.sys.tagMap t with
    | some hd =>
      rw [hk] at hs; simp only at hs; cases hs
      refine h.inside (s := c.sys) hl (by rw [hp]; rfl) (by cases k <;> simpa [lockedPc] using hlo) (by cases k <;> exact how) rfl ?_
      rw [hp]
      intro hm
      simp only [Mid] at hm ⊢
      rw [← hm]
      simp [getHandle, hk]
    | none =>
      rw [hk] at hs; simp only at hs; cases hs
      refine h.inside (s := c.sys) hl (by rw [hp]; rfl) (by cases k <;> simpa [lockedPc] using hlo) (by cases k <;> exact how) rfl ?_
      rw [hp]
      intro hm
      simp only [Mid] at hm ⊢
      exact ⟨hm, by rw [← hm]; exact hk⟩
  case ghSize t k =>
    cases hs
    refine h.inside (s := c.sys) hl (by rw [hp]; rfl) (by cases k <;> simpa [lockedPc] using hlo) (by cases k <;> exact how) rfl ?_
    rw [hp]
    intro hm
    exact ⟨hm.1, hm.2, by rw [← hm.1]⟩
  case ghMap t hd k =>
    cases hs
    refine h.inside hl (by rw [hp]; rfl) (by cases k <;> simpa [lockedPc] using hlo) (by cases k <;> exact how) rfl ?_
    rw [hp]
    intro hm
    exact ⟨by rw [hm.1], hm.2⟩
  case ghPush t hd k =>
    cases hs
    refine h.inside hl (by rw [hp]; rfl) (by cases k <;> simpa [lockedPc] using hlo) (by cases k <;> exact how) rfl ?_
    rw [hp]
    intro hm
    exact ⟨by rw [hm.1], hm.2⟩
  case ghMax t hd k =>
    cases hs
    refine h.inside hl (by rw [hp]; rfl) (by cases k <;> simpa [lockedPc] using hlo) (by cases k <;> exact how) rfl ?_
    rw [hp]
    intro hm
    obtain ⟨h1, h2, h3⟩ := hm
    simp only [Mid, getHandle, h2]
    rw [h1, h3]
  case ghUnlock t hd k =>
    have hid : c = { c with sys := c.sys } := rfl
    cases k <;> simp only at hs
    case ret =>
      cases hs
      refine h.unlock (s := c.sys) hl (by rw [hp]; rfl) rfl trivial (fun _ _ => rfl) ?_
      rw [hp]; intro hm
      simp only [Mid] at hm
      simp only [Timing.step, ← hm]
    case timer id st nw =>
      cases hs
      refine h.unlock hl (by rw [hp]; rfl) rfl trivial ?_ ?_
      · intro id' hne
        have : id' ≠ id := by rintro rfl; exact hne how.1
        simp [Sys.setTimer, this]
      · rw [hp]; intro hm
        simp only [Mid] at hm
        simp only [Timing.step, h.timers, how.2, ← hm]
    case reset =>
      cases hs
      refine h.unlock (s := c.sys) hl (by rw [hp]; rfl) rfl trivial (fun _ _ => rfl) ?_
      rw [hp]; intro hm
      simp only [Mid] at hm
      simp only [Timing.step, ← hm]
    case get => simp [lockedPc] at hlo
  case addPush id hd t0 nw fin =>
    cases hs
    refine h.inside hl (by rw [hp]; rfl) rfl how rfl ?_
    rw [hp]; intro hm
    simp only [Mid] at hm ⊢
    rw [hm]
  case addUnlock id hd t0 nw fin =>
    cases hs
    refine h.unlock hl (by rw [hp]; rfl) rfl trivial ?_ ?_
    · intro id' hne
      have : id' ≠ id := by rintro rfl; exact hne how.1
      simp [Sys.setTimer, this]
    · rw [hp]; intro hm
      simp only [Mid] at hm
      have ht : (reg c).timers id = some ⟨hd, some t0⟩ := by rw [h.timers]; exact how.2
      rw [hm]
      cases fin
      · simp only [Timing.step, ht, Sys.stopTimer, Bool.false_eq_true, if_false]
      · simp only [Timing.step, ht, Sys.stopTimer, if_true]
        congr 1
        simp only [Sys.setTimer, Sys.addTime]
        congr 1
        funext j
        split <;> rfl
  case rsCheck hd =>
    cases hs
    refine h.inside (s := c.sys) hl (by rw [hp]; rfl) (by split <;> rfl) (by split <;> trivial) rfl ?_
    rw [hp]; intro hm
    simp only [Mid] at hm
    rw [hm]
    split
    · rename_i e; exact ⟨rfl, e⟩
    · rename_i e; exact ⟨e, rfl⟩
  case rsWrite hd =>
    cases hs
    refine h.inside hl (by rw [hp]; rfl) rfl trivial rfl ?_
    rw [hp]; intro hm
    exact ⟨hm.2, by rw [hm.1]⟩
  case rsUnlock hd ok =>
    cases hs
    refine h.unlock (s := c.sys) hl (by rw [hp]; rfl) rfl trivial (fun _ _ => rfl) ?_
    rw [hp]; intro hm
    cases ok
    · obtain ⟨h1, h2⟩ := hm
      simp [Timing.step, h1, h2]
    · obtain ⟨h1, h2⟩ := hm
      simp [Timing.step, h1, h2]
  case gtSize => simp [lockedPc] at hlo
  case gtRead => simp [lockedPc] at hlo
  case tagRead => simp [lockedPc] at hlo
  case ctSize => simp [lockedPc] at hlo

theorem cinv_init (owner : ℕ → Tid) : CInv owner .init :=
  ⟨lockInv_init, fun _ => rfl, fun _ => trivial, rfl, rfl⟩

theorem cinv_exec' {owner : ℕ → Tid} {es : List Ev} {b c : St} (hb : CInv owner b) (hd : Disciplined owner b es) (h : exec owner b es = some c) : CInv owner c := by
  induction es generalizing b with
  | nil => cases h; exact hb
  | cons e es ih =>
    simp only [exec] at h
    cases he : ev owner b e with
    | none => rw [he] at h; cases h
    | some b' =>
      rw [he] at h
      refine ih ?_ (hd.2 b' he) h
      cases e with
      | call i cl => exact cinv_call hb (hd.1 i cl rfl).1 (hd.1 i cl rfl).2 he
      | step i => exact cinv_step hb he

theorem cinv_exec {owner : ℕ → Tid} {es : List Ev} {c : St} (hd : Disciplined owner .init es) (h : exec owner .init es = some c) : CInv owner c :=
  cinv_exec' (cinv_init owner) hd h

/-! ## the record and the calls -/

/-- a call under way and the operations it has recorded -/
def Pend : Pc → Call → List (Op × Out) → Prop
  | .idle, _, _ => False
  | .ghWant t k, cl, l | .ghFind t k, cl, l | .ghSize t k, cl, l | .ghMap t _ k, cl, l | .ghPush t _ k, cl, l | .ghMax t _ k, cl, l | .ghUnlock t _ k, cl, l =>
    l = [] ∧ match k with
      | .ret => cl = .getHandle t
      | .timer id s n => cl = .newTag id t s n
      | .reset => cl = .resetTag t
      | .get => cl = .getterTag t
  | .addWant id _ _ n fin, cl, l | .addPush id _ _ n fin, cl, l | .addUnlock id _ _ n fin, cl, l => l = [] ∧ cl = if fin then .destroy id n else .stop id n
  | .rsWant h, cl, l | .rsCheck h, cl, l | .rsWrite h, cl, l | .rsUnlock h _, cl, l =>
    (l = [] ∧ cl = .resetHandle h) ∨ ∃ t, l = [(.getHandle t, .handle h)] ∧ cl = .resetTag t
  | .gtSize _, cl, l | .gtRead _, cl, l | .tagRead, cl, l => Stands cl l
  | .ctSize id h s n, cl, l => l = [] ∧ cl = .newHandle id h s n

/-- what thread `i` has called and recorded -/
def RecInv (i : Tid) (es : List Ev) (c : St) : Prop :=
  (c.pc i = .idle → StandsAll (callsOf i es) (opsOf i c)) ∧
  (c.pc i ≠ .idle → ∃ cs os cl l, StandsAll cs os ∧ callsOf i es = cs ++ [cl] ∧ opsOf i c = os ++ l ∧ Pend (c.pc i) cl l)

theorem callsOf_snoc (i : Tid) (es : List Ev) (e : Ev) : callsOf i (es ++ [e]) = callsOf i es ++ (match e with
    | .call j cl => if j = i then [cl] else []
    | .step _ => []) := by
  cases e with
  | call j cl => by_cases h : j = i <;> simp [callsOf, h]
  | step j => simp [callsOf]

theorem opsOf_record (c : St) (i j : Tid) (o : Op) (r : Out) : opsOf i (c.record j o r) = opsOf i c ++ (if j = i then [(o, r)] else []) := by
  by_cases h : j = i <;> simp [opsOf, St.record, h]

theorem opsOf_congr {c c' : St} (h : c'.log = c.log) (i : Tid) : opsOf i c' = opsOf i c := by simp [opsOf, h]

/-- events of other threads do not concern thread `i` -/
theorem other_log {owner : ℕ → Tid} {c c' : St} {e : Ev} (h : ev owner c e = some c') (i j : Tid) (hj : tidOf e = j) (hne : j ≠ i) :
    opsOf i c' = opsOf i c ∧ c'.pc i = c.pc i := by
  have hne' : ¬ i = j := fun e => hne e.symm
  cases e with
  | call k cl =>
    simp only [tidOf] at hj; subst hj
    obtain ⟨_, p, hp, _⟩ := call_pc h
    refine ⟨?_, by rw [hp]; simp [hne']⟩
    have h : call owner c k cl = some c' := h
    unfold call at h
    split at h
    · cases h
    · cases cl <;> simp only at h <;> (repeat' split at h) <;> (try cases h) <;>
        first
          | rfl
          | (rw [opsOf_record]; simp [hne]; rfl)
  | step k =>
    simp only [tidOf] at hj; subst hj
    obtain ⟨p, hp, _⟩ := step_pc h
    refine ⟨?_, by rw [hp]; simp [hne']⟩
    have h : step c k = some c' := h
    unfold step at h
    have acq : ∀ p, acquire c k p = some c' → opsOf i c' = opsOf i c := by
      intro p ha
      unfold acquire at ha
      split at ha
      · cases ha; rfl
      · cases ha
    cases hpc : c.pc k <;> rw [hpc] at h <;> simp only at h
    case idle => cases h
    case ghWant => exact acq _ h
    case addWant => exact acq _ h
    case rsWant => exact acq _ h
    case ghFind => split at h <;> cases h <;> rfl
    case ghUnlock t hd kk =>
      cases kk <;> simp only at h <;> cases h <;> (rw [opsOf_record]; simp [hne]; rfl)
    case addUnlock => cases h; (rw [opsOf_record]; simp [hne]; rfl)
    case rsUnlock => cases h; (rw [opsOf_record]; simp [hne]; rfl)
    case ctSize => split at h <;> cases h <;> (rw [opsOf_record]; simp [hne]; rfl)
    all_goals (cases h; rfl)

theorem opsOf_record_self {c b : St} (h : b.log = c.log) {i : Tid} {o : Op} {r : Out} : opsOf i (b.record i o r) = opsOf i c ++ [(o, r)] := by
  rw [opsOf_record, opsOf_congr h]; simp

theorem goto_pc (c : St) (i : Tid) (p : Pc) : (c.goto i p).pc i = p := by simp [St.goto]

theorem recInv_call {owner : ℕ → Tid} {c c' : St} {i : Tid} {cl : Call} {es : List Ev} (h : RecInv i es c) (hc : call owner c i cl = some c') :
    RecInv i (es ++ [.call i cl]) c' := by
  have hcs : callsOf i (es ++ [.call i cl]) = callsOf i es ++ [cl] := by rw [callsOf_snoc]; simp
  unfold call at hc
  split at hc
  · cases hc
  · rename_i hidle
    have hidle : c.pc i = .idle := Classical.not_not.1 hidle
    have h0 := h.1 hidle
    -- a call that goes on
    have go : ∀ (p : Pc) (c'' : St), p ≠ .idle → c''.pc i = p → opsOf i c'' = opsOf i c → Pend p cl [] → RecInv i (es ++ [.call i cl]) c'' := by
      intro p c'' hp hpc hlog hpend
      refine ⟨fun e => absurd (hpc ▸ e) hp, fun _ => ⟨_, _, cl, [], h0, hcs, by rw [hlog]; simp, by rw [hpc]; exact hpend⟩⟩
    -- a call that is over at once
    have fin : ∀ (o : Op) (r : Out) (c'' : St), c''.pc i = .idle → opsOf i c'' = opsOf i c ++ [(o, r)] → Stands cl [(o, r)] → RecInv i (es ++ [.call i cl]) c'' := by
      intro o r c'' hpc hlog hst
      refine ⟨fun _ => ?_, fun e => absurd hpc e⟩
      rw [hcs, hlog]; exact .snoc h0 hst
    have msg : ∀ (o : Op) (r : Out) (c'' : St), c''.pc i = .tagRead → opsOf i c'' = opsOf i c ++ [(o, r)] → Stands cl [(o, r)] → RecInv i (es ++ [.call i cl]) c'' := by
      intro o r c'' hpc hlog hst
      refine ⟨fun e => (by rw [hpc] at e; cases e), fun _ => ⟨_, _, cl, _, h0, hcs, hlog, by rw [hpc]; exact hst⟩⟩
    cases cl <;> simp only at hc
    case getHandle t => cases hc; exact go (.ghWant t .ret) _ (by simp) (by simp [St.goto]) rfl ⟨rfl, rfl⟩
    case newTag id t s n =>
      split at hc
      · cases hc; exact go (.ghWant t (.timer id s n)) _ (by simp) (by simp [St.goto]) rfl ⟨rfl, rfl⟩
      · cases hc
    case newHandle id hd s n =>
      split at hc
      · cases hc; exact go (.ctSize id hd s n) _ (by simp) (by simp [St.goto]) rfl ⟨rfl, rfl⟩
      · cases hc
    case start id n =>
      split at hc
      · split at hc
        · cases hc
        · split at hc
          · cases hc; exact msg _ _ _ (by simp [St.goto, St.record]) (opsOf_record_self rfl) (.start id n _)
          · cases hc; exact fin _ _ _ (by simpa [St.record] using hidle) (opsOf_record_self rfl) (.start id n _)
      · cases hc
    case stop id n =>
      split at hc
      · split at hc
        · cases hc
        · split at hc
          · cases hc; exact msg _ _ _ (by simp [St.goto, St.record]) (opsOf_record_self rfl) (.stop id n _)
          · cases hc; refine go _ _ ?_ (goto_pc _ _ _) rfl ⟨rfl, by simp⟩; simp
      · cases hc
    case destroy id n =>
      split at hc
      · split at hc
        · cases hc
        · split at hc
          · cases hc; exact fin _ _ _ (by simpa [St.record] using hidle) (opsOf_record_self rfl) (.destroy id n)
          · cases hc; refine go _ _ ?_ (goto_pc _ _ _) rfl ⟨rfl, by simp⟩; simp
      · cases hc
    case resetHandle hd => cases hc; exact go (.rsWant hd) _ (by simp) (by simp [St.goto]) rfl (Or.inl ⟨rfl, rfl⟩)
    case resetTag t => cases hc; exact go (.ghWant t .reset) _ (by simp) (by simp [St.goto]) rfl ⟨rfl, rfl⟩
    case getter hd => cases hc; exact go (.gtSize hd) _ (by simp) (by simp [St.goto]) rfl (.getter hd)
    case getterTag t => cases hc; exact go (.ghWant t .get) _ (by simp) (by simp [St.goto]) rfl ⟨rfl, rfl⟩
    case getTag hd => cases hc; exact go .tagRead _ (by simp) (by simp [St.goto]) rfl (.getTag hd)

theorem recInv_step {c c' : St} {i : Tid} {es : List Ev} (h : RecInv i es c) (hs : step c i = some c') : RecInv i (es ++ [.step i]) c' := by
  have hcs : callsOf i (es ++ [.step i]) = callsOf i es := by rw [callsOf_snoc]; simp
  by_cases hidle : c.pc i = .idle
  · unfold step at hs; rw [hidle] at hs; cases hs
  · obtain ⟨cs, os, cl, l, h1, h2, h3, h4⟩ := h.2 hidle
    -- the call goes on
    have go : ∀ (p : Pc) (c'' : St), p ≠ .idle → c''.pc i = p → opsOf i c'' = opsOf i c → Pend p cl l → RecInv i (es ++ [.step i]) c'' := by
      intro p c'' hp hpc hlog hpend
      exact ⟨fun e => absurd (hpc ▸ e) hp, fun _ => ⟨cs, os, cl, l, h1, by rw [hcs, h2], by rw [hlog, h3], by rw [hpc]; exact hpend⟩⟩
    -- … recording an operation
    have gorec : ∀ (p : Pc) (o : Op) (r : Out) (c'' : St), p ≠ .idle → c''.pc i = p → opsOf i c'' = opsOf i c ++ [(o, r)] → Pend p cl (l ++ [(o, r)]) →
        RecInv i (es ++ [.step i]) c'' := by
      intro p o r c'' hp hpc hlog hpend
      exact ⟨fun e => absurd (hpc ▸ e) hp, fun _ => ⟨cs, os, cl, l ++ [(o, r)], h1, by rw [hcs, h2], by rw [hlog, h3]; simp, by rw [hpc]; exact hpend⟩⟩
    -- it returns
    have fin : ∀ (c'' : St), c''.pc i = .idle → opsOf i c'' = opsOf i c → Stands cl l → RecInv i (es ++ [.step i]) c'' := by
      intro c'' hpc hlog hst
      refine ⟨fun _ => ?_, fun e => absurd hpc e⟩
      rw [hcs, h2, hlog, h3]; exact .snoc h1 hst
    have finrec : ∀ (o : Op) (r : Out) (c'' : St), c''.pc i = .idle → opsOf i c'' = opsOf i c ++ [(o, r)] → Stands cl (l ++ [(o, r)]) →
        RecInv i (es ++ [.step i]) c'' := by
      intro o r c'' hpc hlog hst
      refine ⟨fun _ => ?_, fun e => absurd hpc e⟩
      rw [hcs, h2, hlog, h3, List.append_assoc]; exact .snoc h1 hst
    have acq : ∀ p, acquire c i p = some c' → p ≠ .idle → Pend p cl l → RecInv i (es ++ [.step i]) c' := by
      intro p ha hp hpend
      unfold acquire at ha
      split at ha
      · cases ha; exact go p _ hp (by simp [St.goto]) rfl hpend
      · cases ha
    unfold step at hs
    cases hp : c.pc i <;> rw [hp] at hs h4 <;> simp only at hs
    case idle => cases hs
    case ghWant t k => exact acq _ hs (by simp) h4
    case addWant => exact acq _ hs (by simp) h4
    case rsWant => exact acq _ hs (by simp) h4
    case ghFind t k => split at hs <;> cases hs <;> (refine go _ _ ?_ (goto_pc _ _ _) rfl h4; simp)
    case ghSize => cases hs; refine go _ _ ?_ (goto_pc _ _ _) rfl h4; simp
    case ghMap => cases hs; refine go _ _ ?_ (goto_pc _ _ _) rfl h4; simp
    case ghPush => cases hs; refine go _ _ ?_ (goto_pc _ _ _) rfl h4; simp
    case ghMax => cases hs; refine go _ _ ?_ (goto_pc _ _ _) rfl h4; simp
    case ghUnlock t hd k =>
      cases k <;> simp only at hs <;> cases hs <;> obtain ⟨h5, h6⟩ := h4 <;> simp only at h6 <;> subst h5 h6
      · exact finrec _ _ _ (by simp [St.record, release, St.goto]) (opsOf_record_self rfl) (.getHandle t hd)
      · exact finrec _ _ _ (by simp [St.record, release, St.goto]) (opsOf_record_self rfl) (.newTag _ t _ _)
      · exact gorec (.rsWant hd) _ _ _ (by simp) (by simp [St.record, release, St.goto]) (opsOf_record_self rfl) (Or.inr ⟨t, rfl, rfl⟩)
      · exact gorec (.gtSize hd) _ _ _ (by simp) (by simp [St.record, release, St.goto]) (opsOf_record_self rfl) (.getterTag t hd)
    case addPush => cases hs; refine go _ _ ?_ (goto_pc _ _ _) rfl h4; simp
    case addUnlock id hd t0 n fn =>
      cases hs
      obtain ⟨h5, h6⟩ := h4
      subst h5 h6
      refine finrec _ _ _ (by simp [St.record, release, St.goto]) (opsOf_record_self rfl) ?_
      cases fn
      · exact .stop id n _
      · exact .destroy id n
    case rsCheck hd =>
      cases hs
      by_cases hlt : hd < c.sys.accs.length
      · exact go (.rsWrite hd) _ (by simp) (by simp [St.goto, hlt]) rfl h4
      · exact go (.rsUnlock hd false) _ (by simp) (by simp [St.goto, hlt]) rfl h4
    case rsWrite => cases hs; refine go _ _ ?_ (goto_pc _ _ _) rfl h4; simp
    case rsUnlock hd ok =>
      cases hs
      refine finrec _ _ _ (by simp [St.record, release, St.goto]) (opsOf_record_self rfl) ?_
      rcases h4 with ⟨h5, h6⟩ | ⟨t, h5, h6⟩
      · subst h5 h6; exact .resetHandle hd _
      · subst h5 h6; exact .resetTag t hd _
    case gtSize hd =>
      cases hs
      by_cases hlt : hd < c.sys.accs.length
      · exact go (.gtRead hd) _ (by simp) (by simp [St.goto, hlt]) rfl h4
      · exact fin _ (by simp [St.goto, hlt]) rfl h4
    case gtRead => cases hs; exact fin _ (by simp [St.goto]) rfl h4
    case tagRead => cases hs; exact fin _ (by simp [St.goto]) rfl h4
    case ctSize id hd s n =>
      obtain ⟨h5, h6⟩ := h4
      subst h5 h6
      split at hs <;> cases hs <;>
        exact finrec _ _ _ (by simp [St.record, St.goto]) (opsOf_record_self rfl) (.newHandle id hd s n _)

theorem recInv_exec {owner : ℕ → Tid} {es : List Ev} {c : St} (h : exec owner .init es = some c) (i : Tid) : RecInv i es c := by
  induction es using List.reverseRecOn generalizing c with
  | nil => cases h; exact ⟨fun _ => .nil, fun e => absurd rfl e⟩
  | append_singleton es e ih =>
    rw [exec_snoc] at h
    cases hb : exec owner .init es with
    | none => rw [hb] at h; cases h
    | some b =>
      rw [hb] at h
      have h : ev owner b e = some c := h
      have hi := ih hb
      have other : ∀ j, tidOf e = j → j ≠ i → callsOf i (es ++ [e]) = callsOf i es → RecInv i (es ++ [e]) c := by
        intro j hj hne hcs
        obtain ⟨o1, o2⟩ := other_log h i j hj hne
        unfold RecInv
        rw [hcs, o1, o2]; exact hi
      cases e with
      | call j cl =>
        by_cases hj : j = i
        · subst hj; exact recInv_call hi h
        · exact other j rfl hj (by rw [callsOf_snoc]; simp [hj])
      | step j =>
        by_cases hj : j = i
        · subst hj; exact recInv_step hi h
        · exact other j rfl hj (by rw [callsOf_snoc]; simp)

/-- the record only grows -/
theorem log_ev {owner : ℕ → Tid} {c c' : St} {e : Ev} (h : ev owner c e = some c') : c.log <+: c'.log := by
  cases e with
  | call k cl =>
    have h : call owner c k cl = some c' := h
    unfold call at h
    split at h
    · cases h
    · cases cl <;> simp only at h <;> (repeat' split at h) <;> (try cases h) <;>
        first
          | exact List.prefix_rfl
          | exact List.prefix_append _ _
  | step k =>
    have h : step c k = some c' := h
    unfold step at h
    have acq : ∀ p, acquire c k p = some c' → c.log <+: c'.log := by
      intro p ha
      unfold acquire at ha
      split at ha
      · cases ha; exact List.prefix_rfl
      · cases ha
    cases hpc : c.pc k <;> rw [hpc] at h <;> simp only at h
    case idle => cases h
    case ghWant => exact acq _ h
    case addWant => exact acq _ h
    case rsWant => exact acq _ h
    case ghFind => split at h <;> cases h <;> exact List.prefix_rfl
    case ghUnlock t hd kk => cases kk <;> simp only at h <;> cases h <;> exact List.prefix_append _ _
    case addUnlock => cases h; exact List.prefix_append _ _
    case rsUnlock => cases h; exact List.prefix_append _ _
    case ctSize => split at h <;> cases h <;> exact List.prefix_append _ _
    all_goals (cases h; exact List.prefix_rfl)

end Verif.Timing.Conc
