import Verif.Logging.Config
import Verif.Logging.Props

/-!
# Logging configuration under concurrency (C45, C46) and switching streams (C47)
-/

namespace Verif.Logging.Config

/-! ## specification -/

/-- what the flag of a location should be -/
def shouldBeEnabled (s : St) (l : Nat) : Bool :=
  decide (s.level ≤ (s.loc l).level) && (decide ((s.loc l).stream = []) || s.streams (s.loc l).stream)

/-- some call is in progress, and no thread can go on -/
def Deadlocked (s : St) : Prop := (∃ t, s.pc t ≠ .idle) ∧ ∀ t, step s t = none

/-! ## the mutexes -/

/-- inside a critical section of `_locations_mutex` -/
def holdsLoc : PC → Bool
  | .initIn .. | .initCheck .. | .initNs .. | .initDone .. | .setIn .. | .chkIn .. | .chkNs .. | .chkDone ..
  | .notLoop .. | .notNs .. => true
  | _ => false

/-- inside a critical section of `_named_stream_mutex` -/
def holdsNs : PC → Bool
  | .enIn .. | .disIn .. | .nsRelease => true
  | .notWait k | .notLoop _ k | .notNs _ k => k
  | _ => false

def Owns (f : PC → Bool) (pc : Tid → PC) (m : Option Tid) : Prop := ∀ t, f (pc t) = true ↔ m = some t

theorem upd_self {β : Type} (f : Nat → β) (a : Nat) (b : β) : upd f a b a = b := by simp [upd]
theorem upd_ne {β : Type} (f : Nat → β) (a : Nat) (b : β) {x : Nat} (h : x ≠ a) : upd f a b x = f x := by simp [upd, h]

theorem owns_keep {f pc m t} {p : PC} (h : Owns f pc m) (e : f p = f (pc t)) : Owns f (upd pc t p) m := by
  intro u
  by_cases hu : u = t
  · subst hu; rw [upd_self, e]; exact h u
  · rw [upd_ne _ _ _ hu]; exact h u

theorem owns_acq {f pc m t} {p : PC} (h : Owns f pc m) (hn : m = none) (e : f p = true) :
    Owns f (upd pc t p) (some t) := by
  intro u
  by_cases hu : u = t
  · subst hu; rw [upd_self]; simp [e]
  · rw [upd_ne _ _ _ hu]
    have := h u
    rw [hn] at this
    simp only [this, reduceCtorEq, Option.some.injEq, false_iff]
    exact fun h => hu h.symm

theorem owns_rel {f pc m t} {p : PC} (h : Owns f pc m) (e0 : f (pc t) = true) (e : f p = false) :
    Owns f (upd pc t p) none := by
  intro u
  by_cases hu : u = t
  · subst hu; rw [upd_self]; simp [e]
  · rw [upd_ne _ _ _ hu]
    have h1 := (h t).1 e0
    have := h u
    rw [h1] at this
    simp only [this, Option.some.injEq, reduceCtorEq, iff_false]
    exact fun h => hu h.symm

structure MutexInv (s : St) : Prop where
  loc : Owns holdsLoc s.pc s.locM
  ns : Owns holdsNs s.pc s.nsM
  idx : ∀ t i k, s.pc t = .notNs i k → i < s.registered.length

theorem mutex_check1 {s : St} {t : Tid} {a : Nat} {ns next : PC} (hi : MutexInv s)
    (h1 : holdsLoc ns = holdsLoc (s.pc t)) (h2 : holdsLoc next = holdsLoc (s.pc t))
    (h3 : holdsNs ns = holdsNs (s.pc t)) (h4 : holdsNs next = holdsNs (s.pc t))
    (h5 : ∀ i k, ns = .notNs i k → i < s.registered.length) (h6 : ∀ i k, next ≠ .notNs i k) :
    MutexInv (check1 s t a ns next) := by
  have key : ∀ (s' : St) (p : PC), s'.pc = upd s.pc t p → s'.locM = s.locM → s'.nsM = s.nsM →
      s'.registered = s.registered → holdsLoc p = holdsLoc (s.pc t) → holdsNs p = holdsNs (s.pc t) →
      (∀ i k, p = .notNs i k → i < s.registered.length) → MutexInv s' := by
    intro s' p e1 e2 e3 e4 e5 e6 e7
    refine ⟨?_, ?_, ?_⟩
    · rw [e1, e2]; exact owns_keep hi.loc e5
    · rw [e1, e3]; exact owns_keep hi.ns e6
    · intro u i k hu
      rw [e1] at hu
      rw [e4]
      by_cases hut : u = t
      · subst hut; rw [upd_self] at hu; exact e7 i k hu
      · rw [upd_ne _ _ _ hut] at hu; exact hi.idx u i k hu
  unfold check1
  split
  · split
    · exact key _ next rfl rfl rfl rfl h2 h4 fun i k h => absurd h (h6 i k)
    · exact key _ ns rfl rfl rfl rfl h1 h3 h5
  · exact key _ next rfl rfl rfl rfl h2 h4 fun i k h => absurd h (h6 i k)

theorem mutex_check2 {s s' : St} {t : Tid} {a : Nat} {next : PC} (hi : MutexInv s) (h : check2 s t a next = some s')
    (h2 : holdsLoc next = holdsLoc (s.pc t)) (h4 : holdsNs next = holdsNs (s.pc t))
    (h6 : ∀ i k, next ≠ .notNs i k) : MutexInv s' := by
  unfold check2 at h
  split at h
  · cases h
    refine ⟨owns_keep hi.loc h2, owns_keep hi.ns h4, ?_⟩
    intro u i k hu
    by_cases hut : u = t
    · subst hut; simp only [setPc, upd_self] at hu; exact absurd hu (h6 i k)
    · simp only [setPc, setEnabled, upd_ne _ _ _ hut] at hu; exact hi.idx u i k hu
  · cases h

theorem idx_keep {s : St} {pc' : Tid → PC} {r : List Nat} {t : Tid} {p : PC} (hi : MutexInv s) (e : pc' = upd s.pc t p)
    (hr : s.registered.length ≤ r.length) (hp : ∀ i k, p ≠ .notNs i k) : ∀ u i k, pc' u = .notNs i k → i < r.length := by
  intro u i k hu
  rw [e] at hu
  by_cases hut : u = t
  · subst hut; rw [upd_self] at hu; exact absurd hu (hp i k)
  · rw [upd_ne _ _ _ hut] at hu
    have := hi.idx u i k hu; omega

theorem mutex_start {s : St} {t : Tid} (hi : MutexInv s) (h : s.pc t = .idle) (c : Call) : MutexInv (start s t c) := by
  cases c <;> exact ⟨owns_keep hi.loc (by rw [h]; rfl), owns_keep hi.ns (by rw [h]; rfl),
    idx_keep hi rfl (Nat.le_refl _) (by simp)⟩

theorem mutex_step {s s' : St} {t : Tid} (hi : MutexInv s) (h : step s t = some s') : MutexInv s' := by
  unfold step at h
  split at h
  next => cases h
  next hp => 
    cases h
    refine ⟨owns_keep hi.loc ?_, owns_keep hi.ns ?_, idx_keep hi rfl (Nat.le_refl _) ?_⟩
    · rw [hp]; split <;> rfl
    · rw [hp]; split <;> rfl
    · intro i k; split <;> simp
  next hp =>
    split at h
    · rename_i hn; cases h
      exact ⟨owns_acq hi.loc hn rfl, owns_keep hi.ns (by rw [hp]; rfl), idx_keep hi rfl (Nat.le_refl _) (by simp)⟩
    · cases h
  next hp =>
    split at h
    · cases h
      exact ⟨owns_rel hi.loc (by rw [hp]; rfl) rfl, owns_keep hi.ns (by rw [hp]; rfl), idx_keep hi rfl (Nat.le_refl _) (by simp)⟩
    · cases h
      exact ⟨owns_keep hi.loc (by rw [hp]; rfl), owns_keep hi.ns (by rw [hp]; rfl),
        idx_keep hi rfl (by simp [setPc]) (by simp)⟩
  next hp =>
    cases h
    exact mutex_check1 hi (by rw [hp]; rfl) (by rw [hp]; rfl) (by rw [hp]; rfl) (by rw [hp]; rfl) (by simp) (by simp)
  next hp => exact mutex_check2 hi h (by rw [hp]; rfl) (by rw [hp]; rfl) (by simp)
  next hp =>
    cases h
    exact ⟨owns_rel hi.loc (by rw [hp]; rfl) rfl, owns_keep hi.ns (by rw [hp]; rfl), idx_keep hi rfl (Nat.le_refl _) (by simp)⟩
  next hp =>
    cases h
    refine ⟨owns_keep hi.loc ?_, owns_keep hi.ns ?_, idx_keep hi rfl (Nat.le_refl _) ?_⟩
    · rw [hp]; split <;> rfl
    · rw [hp]; split <;> rfl
    · intro i k; split <;> simp
  next hp =>
    split at h
    · rename_i hn; cases h
      exact ⟨owns_acq hi.loc hn rfl, owns_keep hi.ns (by rw [hp]; rfl), idx_keep hi rfl (Nat.le_refl _) (by simp)⟩
    · cases h
  next hp =>
    cases h
    exact ⟨owns_rel hi.loc (by rw [hp]; rfl) rfl, owns_keep hi.ns (by rw [hp]; rfl), idx_keep hi rfl (Nat.le_refl _) (by simp)⟩
  next hp =>
    split at h
    · rename_i hn; cases h
      exact ⟨owns_acq hi.loc hn rfl, owns_keep hi.ns (by rw [hp]; rfl), idx_keep hi rfl (Nat.le_refl _) (by simp)⟩
    · cases h
  next hp =>
    cases h
    exact mutex_check1 hi (by rw [hp]; rfl) (by rw [hp]; rfl) (by rw [hp]; rfl) (by rw [hp]; rfl) (by simp) (by simp)
  next hp => exact mutex_check2 hi h (by rw [hp]; rfl) (by rw [hp]; rfl) (by simp)
  next hp =>
    cases h
    exact ⟨owns_rel hi.loc (by rw [hp]; rfl) rfl, owns_keep hi.ns (by rw [hp]; rfl), idx_keep hi rfl (Nat.le_refl _) (by simp)⟩
  next hp =>
    cases h
    exact ⟨owns_keep hi.loc (by rw [hp]; rfl), owns_keep hi.ns (by rw [hp]; rfl), idx_keep hi rfl (Nat.le_refl _) (by simp)⟩
  next hp =>
    cases h
    refine ⟨owns_keep hi.loc ?_, owns_keep hi.ns ?_, idx_keep hi rfl (Nat.le_refl _) ?_⟩
    · rw [hp]; split <;> rfl
    · rw [hp]; split <;> rfl
    · intro i k; split <;> simp
  next hp =>
    cases h
    exact ⟨owns_keep hi.loc (by rw [hp]; rfl), owns_keep hi.ns (by rw [hp]; rfl), idx_keep hi rfl (Nat.le_refl _) (by simp)⟩
  next hp =>
    split at h
    · rename_i hn; cases h
      exact ⟨owns_acq hi.loc hn rfl, owns_keep hi.ns (by rw [hp]; rfl), idx_keep hi rfl (Nat.le_refl _) (by simp)⟩
    · cases h
  next i k hp =>
    split at h
    · rename_i l hl
      cases h
      refine mutex_check1 hi (by rw [hp]; rfl) (by rw [hp]; rfl) (by rw [hp]; rfl) (by rw [hp]; rfl) ?_ (by simp)
      intro i' k' e
      cases e
      exact (List.getElem?_eq_some_iff.1 hl).1
    · cases h
      refine ⟨owns_rel hi.loc (by rw [hp]; rfl) ?_, owns_keep hi.ns ?_, idx_keep hi rfl (Nat.le_refl _) ?_⟩
      · split <;> rfl
      · rw [hp]; cases k <;> rfl
      · intro i k; split <;> simp
  next hp =>
    split at h
    · exact mutex_check2 hi h (by rw [hp]; rfl) (by rw [hp]; rfl) (by simp)
    · cases h
  next hp =>
    cases h
    exact ⟨owns_keep hi.loc (by rw [hp]; rfl), owns_rel hi.ns (by rw [hp]; rfl) rfl, idx_keep hi rfl (Nat.le_refl _) (by simp)⟩
  next hp =>
    split at h
    · rename_i hn; cases h
      exact ⟨owns_keep hi.loc (by rw [hp]; rfl), owns_acq hi.ns hn rfl, idx_keep hi rfl (Nat.le_refl _) (by simp)⟩
    · cases h
  next hp =>
    cases h
    exact ⟨owns_keep hi.loc (by rw [hp]; rfl), owns_keep hi.ns (by rw [hp]; rfl), idx_keep hi rfl (Nat.le_refl _) (by simp)⟩
  next hp =>
    split at h
    · rename_i hn; cases h
      exact ⟨owns_keep hi.loc (by rw [hp]; rfl), owns_acq hi.ns hn rfl, idx_keep hi rfl (Nat.le_refl _) (by simp)⟩
    · cases h
  next hp =>
    split at h
    · cases h
      exact ⟨owns_keep hi.loc (by rw [hp]; rfl), owns_keep hi.ns (by rw [hp]; rfl), idx_keep hi rfl (Nat.le_refl _) (by simp)⟩
    · cases h
      exact ⟨owns_keep hi.loc (by rw [hp]; rfl), owns_rel hi.ns (by rw [hp]; rfl) rfl, idx_keep hi rfl (Nat.le_refl _) (by simp)⟩
  next hp =>
    split at h
    · cases h
      exact ⟨owns_keep hi.loc (by rw [hp]; rfl), owns_keep hi.ns (by rw [hp]; rfl), idx_keep hi rfl (Nat.le_refl _) (by simp)⟩
    · cases h

theorem reach_mutex {ok : Call → Prop} {s : St} (h : Reach ok s) : MutexInv s := by
  induction h with
  | init => exact ⟨fun t => by simp [init, holdsLoc], fun t => by simp [init, holdsNs], by simp [init]⟩
  | start _ hp _ ih => exact mutex_start ih hp _
  | step _ hs ih => exact mutex_step ih hs

/-! ## C46 -/

/-- the calls that first lock `_named_stream_mutex` and then `_locations_mutex` -/
def Call.switches : Call → Bool
  | .enable _ | .disable _ => true
  | _ => false

/-- a thread there is executing `enableNamedStream` or `disableNamedStream` -/
def pcSwitches : PC → Bool
  | .enWait _ | .enIn _ | .disWait _ | .disIn _ | .nsRelease => true
  | .notWait k | .notLoop _ k | .notNs _ k => k
  | _ => false

/-- a thread there is executing a log statement or `setLevel` -/
def pcReads : PC → Bool
  | .idle | .isWait _ => false
  | p => !pcSwitches p

theorem kind_step {s s' : St} {t : Tid} (h : step s t = some s') :
    (∀ u, u ≠ t → s'.pc u = s.pc u) ∧
    (pcSwitches (s'.pc t) = true → pcSwitches (s.pc t) = true) ∧ (pcReads (s'.pc t) = true → pcReads (s.pc t) = true) := by
  have hc1 : ∀ a ns next, (∀ u, u ≠ t → (check1 s t a ns next).pc u = s.pc u) ∧
      ((check1 s t a ns next).pc t = ns ∨ (check1 s t a ns next).pc t = next) := by
    intro a ns next
    unfold check1
    split
    · split <;> exact ⟨fun u hu => upd_ne _ _ _ hu, by simp [setPc, upd_self]⟩
    · exact ⟨fun u hu => upd_ne _ _ _ hu, by simp [setPc, upd_self]⟩
  have hc2 : ∀ a next s'', check2 s t a next = some s'' → (∀ u, u ≠ t → s''.pc u = s.pc u) ∧ s''.pc t = next := by
    intro a next s'' h
    unfold check2 at h
    split at h
    · cases h; exact ⟨fun u hu => upd_ne _ _ _ hu, by simp [setPc, upd_self]⟩
    · cases h
  have hs : ∀ (s'' : St) (p : PC), s''.pc = upd s.pc t p → some s'' = some s' →
      (pcSwitches p = true → pcSwitches (s.pc t) = true) → (pcReads p = true → pcReads (s.pc t) = true) →
      (∀ u, u ≠ t → s'.pc u = s.pc u) ∧
      (pcSwitches (s'.pc t) = true → pcSwitches (s.pc t) = true) ∧
      (pcReads (s'.pc t) = true → pcReads (s.pc t) = true) := by
    intro s'' p e1 e2 e3 e4
    cases e2
    rw [e1]
    exact ⟨fun u hu => upd_ne _ _ _ hu, by rw [upd_self]; exact e3, by rw [upd_self]; exact e4⟩
  have c1 : ∀ a ns next, some (check1 s t a ns next) = some s' →
      (pcSwitches ns = true ∨ pcSwitches next = true → pcSwitches (s.pc t) = true) →
      (pcReads ns = true ∨ pcReads next = true → pcReads (s.pc t) = true) →
      (∀ u, u ≠ t → s'.pc u = s.pc u) ∧
      (pcSwitches (s'.pc t) = true → pcSwitches (s.pc t) = true) ∧
      (pcReads (s'.pc t) = true → pcReads (s.pc t) = true) := by
    intro a ns next e1 e2 e3
    obtain ⟨h1, h2⟩ := hc1 a ns next
    rw [Option.some.inj e1] at h1 h2
    refine ⟨h1, ?_, ?_⟩ <;> rcases h2 with h2 | h2 <;> rw [h2]
    exacts [fun h => e2 (Or.inl h), fun h => e2 (Or.inr h), fun h => e3 (Or.inl h), fun h => e3 (Or.inr h)]
  have c2 : ∀ a next, check2 s t a next = some s' →
      (pcSwitches next = true → pcSwitches (s.pc t) = true) → (pcReads next = true → pcReads (s.pc t) = true) →
      (∀ u, u ≠ t → s'.pc u = s.pc u) ∧
      (pcSwitches (s'.pc t) = true → pcSwitches (s.pc t) = true) ∧
      (pcReads (s'.pc t) = true → pcReads (s.pc t) = true) := by
    intro a next e1 e2 e3
    obtain ⟨h1, h2⟩ := hc2 a next s' e1
    exact ⟨h1, by rw [h2]; exact e2, by rw [h2]; exact e3⟩
  unfold step at h
  cases hp : s.pc t <;> rw [hp] at h hs c1 c2 <;> simp only at h
  case idle => cases h
  case logStart => exact hs _ _ rfl h (by split <;> simp [pcSwitches]) (by simp [pcReads, pcSwitches])
  case initWait => split at h; exacts [hs _ _ rfl h (by simp [pcSwitches]) (by simp [pcReads, pcSwitches]), by cases h]
  case initIn =>
    split at h <;> exact hs _ _ rfl h (by simp [pcSwitches]) (by simp [pcReads, pcSwitches])
  case initCheck => exact c1 _ _ _ h (by simp [pcSwitches]) (by simp [pcReads, pcSwitches])
  case initNs => exact c2 _ _ h (by simp [pcSwitches]) (by simp [pcReads, pcSwitches])
  case initDone => exact hs _ _ rfl h (by simp [pcSwitches]) (by simp [pcReads, pcSwitches])
  case logLevel => exact hs _ _ rfl h (by split <;> simp [pcSwitches]) (by simp [pcReads, pcSwitches])
  case setWait => split at h; exacts [hs _ _ rfl h (by simp [pcSwitches]) (by simp [pcReads, pcSwitches]), by cases h]
  case setIn => exact hs _ _ rfl h (by simp [pcSwitches]) (by simp [pcReads, pcSwitches])
  case chkWait => split at h; exacts [hs _ _ rfl h (by simp [pcSwitches]) (by simp [pcReads, pcSwitches]), by cases h]
  case chkIn => exact c1 _ _ _ h (by simp [pcSwitches]) (by simp [pcReads, pcSwitches])
  case chkNs => exact c2 _ _ h (by simp [pcSwitches]) (by simp [pcReads, pcSwitches])
  case chkDone => exact hs _ _ rfl h (by simp [pcSwitches]) (by simp [pcReads, pcSwitches])
  case logEnd => exact hs _ _ rfl h (by simp [pcSwitches]) (by simp [pcReads, pcSwitches])
  case slTest => exact hs _ _ rfl h (by split <;> simp [pcSwitches]) (by simp [pcReads, pcSwitches])
  case slWrite => exact hs _ _ rfl h (by simp [pcSwitches]) (by simp [pcReads, pcSwitches])
  case notWait => split at h; exacts [hs _ _ rfl h (by simp [pcSwitches]) (by simp [pcReads, pcSwitches]), by cases h]
  case notLoop i k =>
    split at h
    · exact c1 _ _ _ h (by simp [pcSwitches]) (by simp [pcReads, pcSwitches])
    · exact hs _ _ rfl h (by cases k <;> simp [pcSwitches]) (by cases k <;> simp [pcReads, pcSwitches])
  case notNs =>
    split at h
    · exact c2 _ _ h (by simp [pcSwitches]) (by simp [pcReads, pcSwitches])
    · cases h
  case nsRelease => exact hs _ _ rfl h (by simp [pcSwitches]) (by simp [pcReads, pcSwitches])
  case enWait => split at h; exacts [hs _ _ rfl h (by simp [pcSwitches]) (by simp [pcReads, pcSwitches]), by cases h]
  case enIn => exact hs _ _ rfl h (by simp [pcSwitches]) (by simp [pcReads, pcSwitches])
  case disWait => split at h; exacts [hs _ _ rfl h (by simp [pcSwitches]) (by simp [pcReads, pcSwitches]), by cases h]
  case disIn =>
    split at h <;> exact hs _ _ rfl h (by simp [pcSwitches]) (by simp [pcReads, pcSwitches])
  case isWait => split at h; exacts [hs _ _ rfl h (by simp [pcSwitches]) (by simp [pcReads, pcSwitches]), by cases h]

theorem kind_reach {ok : Call → Prop} {s : St} (h : Reach ok s) :
    (∀ t, pcSwitches (s.pc t) = true → ∃ c, ok c ∧ c.switches = true) ∧
    (∀ t, pcReads (s.pc t) = true → ∃ c, ok c ∧ (∃ l n v, c = .log l n v ∨ c = .setLevel v)) := by
  induction h with
  | init => simp [init, pcSwitches, pcReads]
  | @start s t c _ hp hok ih =>
    constructor
    · intro u hu
      by_cases hut : u = t
      · subst hut
        cases c <;> simp [start, setPc, upd_self, pcSwitches] at hu
        · exact ⟨_, hok, rfl⟩
        · exact ⟨_, hok, rfl⟩
      · refine ih.1 u ?_
        cases c <;> simpa [start, setPc, upd_ne _ _ _ hut] using hu
    · intro u hu
      by_cases hut : u = t
      · subst hut
        cases c <;> simp [start, setPc, upd_self, pcReads, pcSwitches] at hu
        · exact ⟨_, hok, _, _, _, Or.inl rfl⟩
        · exact ⟨_, hok, 0, [], _, Or.inr rfl⟩
      · refine ih.2 u ?_
        cases c <;> simpa [start, setPc, upd_ne _ _ _ hut] using hu
  | @step s t s' _ hs ih =>
    obtain ⟨h1, h2, h3⟩ := kind_step hs
    constructor
    · intro u hu
      by_cases hut : u = t
      · subst hut; exact ih.1 u (h2 hu)
      · rw [h1 u hut] at hu; exact ih.1 u hu
    · intro u hu
      by_cases hut : u = t
      · subst hut; exact ih.2 u (h3 hu)
      · rw [h1 u hut] at hu; exact ih.2 u hu

/-- a thread that holds `_locations_mutex` and cannot go on waits for `_named_stream_mutex` -/
theorem blocked_loc {s : St} (hi : MutexInv s) {u : Tid} (hu : holdsLoc (s.pc u) = true) (hb : step s u = none) :
    pcReads (s.pc u) = true ∧ ∃ w, s.nsM = some w ∧ w ≠ u := by
  have key : ∀ a next, check2 s u a next = none → ∃ w, s.nsM = some w ∧ w ≠ u := by
    intro a next h
    unfold check2 at h
    split at h
    · cases h
    · rename_i hn
      push Not at hn
      cases e : s.nsM with
      | none => exact absurd e hn.1
      | some w => exact ⟨w, rfl, fun hw => hn.2 (by rw [e, hw])⟩
  unfold step at hb
  cases hp : s.pc u <;> rw [hp] at hu hb <;> simp only [holdsLoc, Bool.false_eq_true] at hu <;> simp only at hb
  case initIn => split at hb <;> cases hb
  case initCheck => cases hb
  case initNs => exact ⟨rfl, key _ _ hb⟩
  case initDone => cases hb
  case setIn => cases hb
  case chkIn => cases hb
  case chkNs => exact ⟨rfl, key _ _ hb⟩
  case chkDone => cases hb
  case notLoop => split at hb <;> cases hb
  case notNs i k =>
    have hidx := hi.idx u i k hp
    rw [List.getElem?_eq_getElem hidx] at hb
    have := key _ _ hb
    refine ⟨?_, this⟩
    cases k with
    | false => rfl
    | true =>
      exfalso
      obtain ⟨w, hw, hne⟩ := this
      have := (hi.ns u).1 (by rw [hp]; rfl)
      rw [hw] at this
      exact hne (Option.some.inj this)

/-- a thread that holds `_named_stream_mutex` and cannot go on waits for `_locations_mutex` -/
theorem blocked_ns {s : St} (hi : MutexInv s) {w : Tid} (hw : holdsNs (s.pc w) = true) (hb : step s w = none) :
    pcSwitches (s.pc w) = true ∧ ∃ u, s.locM = some u := by
  have hsw : pcSwitches (s.pc w) = true := by
    cases hp : s.pc w <;> rw [hp] at hw <;> simp_all [holdsNs, pcSwitches]
  refine ⟨hsw, ?_⟩
  by_cases hl : holdsLoc (s.pc w) = true
  · exact ⟨w, (hi.loc w).1 hl⟩
  · unfold step at hb
    cases hp : s.pc w <;> rw [hp] at hw hb hl <;> simp only [holdsNs, holdsLoc, Bool.false_eq_true, not_true_eq_false] at hw hl <;> simp only at hb
    case notWait =>
      split at hb
      · cases hb
      · rename_i h
        cases e : s.locM with
        | none => exact absurd e h
        | some u => exact ⟨u, rfl⟩
    case nsRelease => cases hb
    case enIn => cases hb
    case disIn => split at hb <;> cases hb

/-- **C46** A deadlock always involves a thread inside `enableNamedStream` or `disableNamedStream` and another
one inside a log statement or `setLevel`. -/
theorem deadlock_shape {s : St} (hi : MutexInv s) (h : Deadlocked s) :
    (∃ w, pcSwitches (s.pc w) = true) ∧ ∃ u, pcReads (s.pc u) = true := by
  obtain ⟨⟨t, ht⟩, hb⟩ := h
  -- whoever holds the location mutex, or the stream mutex, completes the picture
  have fromLoc : ∀ u, s.locM = some u → (∃ w, pcSwitches (s.pc w) = true) ∧ ∃ u, pcReads (s.pc u) = true := by
    intro u hu
    obtain ⟨h1, w, hw, _⟩ := blocked_loc hi ((hi.loc u).2 hu) (hb u)
    exact ⟨⟨w, (blocked_ns hi ((hi.ns w).2 hw) (hb w)).1⟩, u, h1⟩
  have fromNs : ∀ w, s.nsM = some w → (∃ w, pcSwitches (s.pc w) = true) ∧ ∃ u, pcReads (s.pc u) = true := by
    intro w hw
    obtain ⟨_, u, hu⟩ := blocked_ns hi ((hi.ns w).2 hw) (hb w)
    exact fromLoc u hu
  have locNone : ∀ {x : Option St}, (if s.locM = none then x else none) = none → x ≠ none →
      (∃ w, pcSwitches (s.pc w) = true) ∧ ∃ u, pcReads (s.pc u) = true := by
    intro x h hx
    cases e : s.locM with
    | none => rw [if_pos e] at h; exact absurd h hx
    | some u => exact fromLoc u e
  have nsNone : ∀ {x : Option St}, (if s.nsM = none then x else none) = none → x ≠ none →
      (∃ w, pcSwitches (s.pc w) = true) ∧ ∃ u, pcReads (s.pc u) = true := by
    intro x h hx
    cases e : s.nsM with
    | none => rw [if_pos e] at h; exact absurd h hx
    | some u => exact fromNs u e
  by_cases hl : holdsLoc (s.pc t) = true
  · exact fromLoc t ((hi.loc t).1 hl)
  by_cases hn : holdsNs (s.pc t) = true
  · exact fromNs t ((hi.ns t).1 hn)
  have hbt := hb t
  unfold step at hbt
  cases hp : s.pc t <;> rw [hp] at hbt hl hn <;>
    simp only [holdsNs, holdsLoc, Bool.false_eq_true, not_true_eq_false] at hl hn <;> simp only at hbt
  case idle => exact absurd hp ht
  case initWait => exact locNone hbt (by simp)
  case setWait => exact locNone hbt (by simp)
  case chkWait => exact locNone hbt (by simp)
  case notWait => exact locNone hbt (by simp)
  case enWait => exact nsNone hbt (by simp)
  case disWait => exact nsNone hbt (by simp)
  case isWait => exact nsNone hbt (by simp)
  all_goals cases hbt

/-- what users expect -/
def C46_claim : Prop := ∀ s, Reach (fun _ => True) s → ¬ Deadlocked s

/-- **C46, what holds**: with calls of only one of the two kinds — log statements and `setLevel`; or
`enableNamedStream` and `disableNamedStream` — and `isNamedStreamEnabled`, no interleaving of any number of
threads deadlocks. -/
theorem C46_partial {ok : Call → Prop}
    (hok : (∀ c, ok c → c.switches = false) ∨ (∀ c, ok c → ∀ l n v, c ≠ .log l n v ∧ c ≠ .setLevel v))
    {s : St} (h : Reach ok s) : ¬ Deadlocked s := by
  intro hd
  obtain ⟨⟨w, hw⟩, u, hu⟩ := deadlock_shape (reach_mutex h) hd
  rcases hok with hok | hok
  · obtain ⟨c, h1, h2⟩ := (kind_reach h).1 w hw
    rw [hok c h1] at h2; cases h2
  · obtain ⟨c, h1, l, n, v, h2⟩ := (kind_reach h).2 u hu
    rcases h2 with h2 | h2
    · exact (hok c h1 l n v).1 h2
    · exact (hok c h1 l n v).2 h2

/-- **C46** is false: thread 0 executes a log statement for the first time while thread 1 enables a stream;
each owns the mutex the other waits for. -/
theorem C46_negation : ¬ C46_claim := by
  intro hc
  have r0 := Reach.init (ok := fun _ => True)
  have r1 := r0.start (t := 0) (c := .log 0 ['x'] 10) rfl trivial
  have r2 := r1.start (t := 1) (c := .enable ['x']) (by simp [start, setPc, upd, init]) trivial
  have r3 := r2.step (t := 0) (s' := _) (by simp [step, start, setPc, upd, init]; rfl)
  have r4 := r3.step (t := 0) (s' := _) (by simp [step, start, setPc, upd, init]; rfl)
  have r5 := r4.step (t := 0) (s' := _) (by simp [step, start, setPc, upd, init]; rfl)
  have r6 := r5.step (t := 0) (s' := _) (by simp [step, check1, Level.toNat, start, setPc, upd, init]; rfl)
  have r7 := r6.step (t := 1) (s' := _) (by simp [step, start, setPc, upd, init]; rfl)
  have r8 := r7.step (t := 1) (s' := _) (by simp [step, start, setPc, upd, init]; rfl)
  refine hc _ r8 ⟨⟨0, by simp [upd]⟩, ?_⟩
  intro t
  by_cases h0 : t = 0
  · subst h0; simp [step, check2, upd]
  · by_cases h1 : t = 1
    · subst h1; simp [step, upd]
    · simp [step, upd, h0, h1]

example : ∃ s, Reach (fun c => c.switches = false) s ∧ s.pc 0 = .initWait 0 ['x'] 10 := by
  have r0 := Reach.init (ok := fun c => c.switches = false)
  have r1 := r0.start (t := 0) (c := .log 0 ['x'] 10) rfl rfl
  have r2 := r1.step (t := 0) (s' := _) (by simp [step, start, setPc, upd, init]; rfl)
  exact ⟨_, r2, by simp [upd]⟩

/-! ## the flags -/

def Correct (s : St) (l : Nat) : Prop := (s.loc l).enabled = shouldBeEnabled s l

/-- the level comparison of `l` still holds and the stream has to be looked up -/
def Half (s : St) (l : Nat) : Prop := s.level ≤ (s.loc l).level ∧ (s.loc l).stream ≠ []

/-- a thread there is going to set the flag of `l` rightly -/
def WillFix (s : St) (l : Nat) : PC → Prop
  | .initCheck l' _ => l' = l
  | .initNs l' _ => l' = l ∧ Half s l
  | .chkWait l' _ => l' = l
  | .chkIn l' _ => l' = l
  | .chkNs l' _ => l' = l ∧ Half s l
  | .notWait _ => True
  | .notLoop i _ => ∃ j, i ≤ j ∧ s.registered[j]? = some l
  | .notNs i _ => (s.registered[i]? = some l ∧ Half s l) ∨ ∃ j, i + 1 ≤ j ∧ s.registered[j]? = some l
  | _ => False

structure FlagInv (s : St) : Prop where
  fix : ∀ l ∈ s.registered, Correct s l ∨ ∃ t, WillFix s l (s.pc t)
  reg : ∀ l, (s.loc l).initialized = true → l ∈ s.registered
  mid : ∀ t l v, (s.pc t = .initCheck l v ∨ s.pc t = .initNs l v ∨ s.pc t = .initDone l v) → l ∈ s.registered

/-- a step that changes only the program counter of `t` and the mutexes -/
theorem flag_silent {s s' : St} {t : Tid} {p : PC} (hi : FlagInv s)
    (h1 : s'.level = s.level) (h2 : s'.streams = s.streams) (h3 : s'.loc = s.loc) (h4 : s'.registered = s.registered)
    (h5 : s'.pc = upd s.pc t p) (hf : ∀ l, WillFix s l (s.pc t) → WillFix s l p)
    (hm : ∀ l v, (p = .initCheck l v ∨ p = .initNs l v ∨ p = .initDone l v) → l ∈ s.registered) : FlagInv s' := by
  have hc : ∀ l, Correct s' l ↔ Correct s l := fun l => by simp [Correct, shouldBeEnabled, h1, h2, h3]
  have hh : ∀ l, Half s' l ↔ Half s l := fun l => by simp [Half, h1, h3]
  have hw : ∀ l q, WillFix s' l q ↔ WillFix s l q := by
    intro l q; cases q <;> simp [WillFix, hh, h4]
  refine ⟨?_, ?_, ?_⟩
  · intro l hl
    rw [h4] at hl
    rcases hi.fix l hl with h | ⟨u, hu⟩
    · exact Or.inl ((hc l).2 h)
    · right
      by_cases hut : u = t
      · subst hut
        exact ⟨u, by rw [h5, upd_self, hw]; exact hf l hu⟩
      · exact ⟨u, by rw [h5, upd_ne _ _ _ hut, hw]; exact hu⟩
  · intro l hl; rw [h3] at hl; rw [h4]; exact hi.reg l hl
  · intro u l v hu
    rw [h4]
    by_cases hut : u = t
    · subst hut; rw [h5, upd_self] at hu; exact hm l v hu
    · rw [h5, upd_ne _ _ _ hut] at hu; exact hi.mid u l v hu

/-- a step that sets the flag of `a` as it should be -/
theorem flag_set {s : St} {t : Tid} {p : PC} {a : Nat} {b : Bool} (hi : FlagInv s)
    (hb : b = shouldBeEnabled s a ∨ ¬ Half s a ∧ ∃ u, u ≠ t ∧ WillFix s a (s.pc u))
    (hf : ∀ l, l ≠ a → WillFix s l (s.pc t) → WillFix s l p)
    (hm : ∀ l v, (p = .initCheck l v ∨ p = .initNs l v ∨ p = .initDone l v) → l ∈ s.registered) :
    FlagInv (setPc (setEnabled s a b) t p) := by
  have hloc : ∀ l, ((setPc (setEnabled s a b) t p).loc l).level = (s.loc l).level ∧
      ((setPc (setEnabled s a b) t p).loc l).stream = (s.loc l).stream ∧
      ((setPc (setEnabled s a b) t p).loc l).initialized = (s.loc l).initialized := by
    intro l
    simp only [setPc, setEnabled]
    by_cases h : l = a
    · subst h; rw [upd_self]; exact ⟨rfl, rfl, rfl⟩
    · rw [upd_ne _ _ _ h]; exact ⟨rfl, rfl, rfl⟩
  have hs : ∀ l, shouldBeEnabled (setPc (setEnabled s a b) t p) l = shouldBeEnabled s l := by
    intro l
    unfold shouldBeEnabled
    rw [(hloc l).1, (hloc l).2.1]; rfl
  have hh : ∀ l, Half (setPc (setEnabled s a b) t p) l ↔ Half s l := by
    intro l; unfold Half; rw [(hloc l).1, (hloc l).2.1]; rfl
  have hw : ∀ l q, WillFix (setPc (setEnabled s a b) t p) l q ↔ WillFix s l q := by
    intro l q; cases q <;> simp only [WillFix, hh] <;> rfl
  have hpc : ∀ u, (setPc (setEnabled s a b) t p).pc u = upd s.pc t p u := fun _ => rfl
  refine ⟨?_, ?_, ?_⟩
  · intro l hl
    by_cases hla : l = a
    · subst hla
      rcases hb with hb | ⟨_, u, hu1, hu2⟩
      · left
        unfold Correct
        rw [hs]
        simp only [setPc, setEnabled, upd_self]
        exact hb
      · right; exact ⟨u, by rw [hpc, upd_ne _ _ _ hu1, hw]; exact hu2⟩
    · rcases hi.fix l hl with h | ⟨u, hu⟩
      · left
        unfold Correct
        rw [hs]
        simp only [setPc, setEnabled, upd_ne _ _ _ hla]
        exact h
      · right
        by_cases hut : u = t
        · subst hut; exact ⟨u, by rw [hpc, upd_self, hw]; exact hf l hla hu⟩
        · exact ⟨u, by rw [hpc, upd_ne _ _ _ hut, hw]; exact hu⟩
  · intro l hl; rw [(hloc l).2.2] at hl; exact hi.reg l hl
  · intro u l v hu
    by_cases hut : u = t
    · subst hut; rw [hpc, upd_self] at hu; exact hm l v hu
    · rw [hpc, upd_ne _ _ _ hut] at hu; exact hi.mid u l v hu

theorem should_of_half {s : St} {l : Nat} (h : Half s l) : shouldBeEnabled s l = s.streams (s.loc l).stream := by
  simp [shouldBeEnabled, h.1, h.2]

theorem flag_check1 {s : St} {t : Tid} {a : Nat} {ns next : PC} (hi : FlagInv s)
    (hf : ∀ l, l ≠ a → WillFix s l (s.pc t) → WillFix s l next ∧ WillFix s l ns)
    (hns : Half s a → WillFix s a ns)
    (hm : ∀ l v, (next = .initCheck l v ∨ next = .initNs l v ∨ next = .initDone l v) → l ∈ s.registered)
    (hm2 : ∀ l v, (ns = .initCheck l v ∨ ns = .initNs l v ∨ ns = .initDone l v) → l ∈ s.registered) :
    FlagInv (check1 s t a ns next) := by
  unfold check1
  split
  · rename_i h1
    split
    · rename_i h2
      exact flag_set hi (Or.inl (by simp [shouldBeEnabled, h1, h2])) (fun l hl h => (hf l hl h).1) hm
    · rename_i h2
      refine flag_silent (t := t) (p := ns) hi rfl rfl rfl rfl rfl ?_ hm2
      intro l hl
      by_cases e : l = a
      · subst e; exact hns ⟨h1, h2⟩
      · exact (hf l e hl).2
  · rename_i h1
    exact flag_set hi (Or.inl (by simp [shouldBeEnabled, h1])) (fun l hl h => (hf l hl h).1) hm


theorem flag_check2 {s s' : St} {t : Tid} {a : Nat} {next : PC} (hi : FlagInv s) (h : check2 s t a next = some s')
    (hstale : Half s a ∨ ∃ u k, u ≠ t ∧ s.pc u = .notWait k)
    (hf : ∀ l, l ≠ a → WillFix s l (s.pc t) → WillFix s l next)
    (hm : ∀ l v, (next = .initCheck l v ∨ next = .initNs l v ∨ next = .initDone l v) → l ∈ s.registered) :
    FlagInv s' := by
  unfold check2 at h
  split at h
  · cases h
    refine flag_set hi ?_ hf hm
    by_cases hh : Half s a
    · exact Or.inl (should_of_half hh).symm
    · rcases hstale with h | ⟨u, k, h1, h2⟩
      · exact absurd h hh
      · exact Or.inr ⟨hh, u, h1, by rw [h2]; trivial⟩
  · cases h

/-- a thread there has compared the levels of `a` and is about to look the stream up -/
def AtNs (s : St) (a : Nat) : PC → Prop
  | .initNs l _ => l = a
  | .chkNs l _ => l = a
  | .notNs i _ => s.registered[i]? = some a
  | _ => False

theorem atNs_holds {s : St} {a : Nat} {p : PC} (h : AtNs s a p) : holdsLoc p = true := by
  cases p <;> simp_all [AtNs, holdsLoc]

/-- whoever has made the comparison stale is waiting to notify -/
def StaleInv (s : St) : Prop :=
  ∀ t a, AtNs s a (s.pc t) → Half s a ∨ ∃ u k, u ≠ t ∧ s.pc u = .notWait k

/-- a step of a thread that was neither there nor waiting to notify, and changes neither levels nor streams of
locations nor the registered ones -/
theorem stale_keep {s s' : St} {t : Tid} {p : PC} (hi : StaleInv s)
    (h1 : s'.level = s.level) (h3 : ∀ l, (s'.loc l).level = (s.loc l).level ∧ (s'.loc l).stream = (s.loc l).stream)
    (h4 : s'.registered = s.registered) (h5 : s'.pc = upd s.pc t p) (hnw : ∀ k, s.pc t ≠ .notWait k)
    (hp : ∀ a, AtNs s a p → Half s a) : StaleInv s' := by
  have hh : ∀ l, Half s' l ↔ Half s l := by
    intro l; unfold Half; rw [h1, (h3 l).1, (h3 l).2]
  have ha : ∀ a q, AtNs s' a q ↔ AtNs s a q := by
    intro a q; cases q <;> simp [AtNs, h4]
  intro u a hu
  rw [ha] at hu
  by_cases hut : u = t
  · subst hut
    rw [h5, upd_self] at hu
    exact Or.inl ((hh a).2 (hp a hu))
  · rw [h5, upd_ne _ _ _ hut] at hu
    rcases hi u a hu with h | ⟨w, k, h6, h7⟩
    · exact Or.inl ((hh a).2 h)
    · refine Or.inr ⟨w, k, h6, ?_⟩
      have : w ≠ t := fun e => hnw k (e ▸ h7)
      rw [h5, upd_ne _ _ _ this]; exact h7

/-- a step into waiting to notify -/
theorem stale_notify {s s' : St} {t : Tid} {k : Bool} (h5 : s'.pc = upd s.pc t (.notWait k)) : StaleInv s' := by
  intro u a hu
  by_cases hut : u = t
  · subst hut; rw [h5, upd_self] at hu; exact absurd hu (by simp [AtNs])
  · exact Or.inr ⟨t, k, fun h => hut h.symm, by rw [h5, upd_self]⟩

/-- a step of the owner of the location mutex, or of a thread acquiring it, to somewhere else -/
theorem stale_owner {s s' : St} {t : Tid} {p : PC} (hm : MutexInv s) (h5 : s'.pc = upd s.pc t p)
    (ho : s.locM = none ∨ s.locM = some t) (hp : ∀ a, ¬ AtNs s' a p) : StaleInv s' := by
  intro u a hu
  by_cases hut : u = t
  · subst hut; rw [h5, upd_self] at hu; exact absurd hu (hp a)
  · rw [h5, upd_ne _ _ _ hut] at hu
    have := (hm.loc u).1 (atNs_holds hu)
    rcases ho with ho | ho
    · rw [ho] at this; cases this
    · rw [ho] at this; exact absurd (Option.some.inj this).symm hut

theorem stale_check1 {s : St} {t : Tid} {a : Nat} {ns next : PC} (hi : StaleInv s)
    (hnw : ∀ k, s.pc t ≠ .notWait k) (hns : ∀ b, AtNs s b ns → b = a) (hnext : ∀ b, ¬ AtNs s b next) :
    StaleInv (check1 s t a ns next) := by
  have hl : ∀ b l, ((setPc (setEnabled s a b) t next).loc l).level = (s.loc l).level ∧
      ((setPc (setEnabled s a b) t next).loc l).stream = (s.loc l).stream := by
    intro b l
    simp only [setPc, setEnabled]
    by_cases h : l = a
    · subst h; rw [upd_self]; exact ⟨rfl, rfl⟩
    · rw [upd_ne _ _ _ h]; exact ⟨rfl, rfl⟩
  unfold check1
  split
  · rename_i h1
    split
    · exact stale_keep (p := next) hi rfl (hl true) rfl rfl hnw fun b h => absurd h (hnext b)
    · rename_i h2
      exact stale_keep (p := ns) hi rfl (fun l => ⟨rfl, rfl⟩) rfl rfl hnw fun b h => by
        rw [hns b h]; exact ⟨h1, h2⟩
  · exact stale_keep (p := next) hi rfl (hl false) rfl rfl hnw fun b h => absurd h (hnext b)

theorem stale_check2 {s s' : St} {t : Tid} {a : Nat} {next : PC} (hi : StaleInv s)
    (hnw : ∀ k, s.pc t ≠ .notWait k) (hnext : ∀ b, ¬ AtNs s b next) (h : check2 s t a next = some s') : StaleInv s' := by
  unfold check2 at h
  split at h
  · cases h
    refine stale_keep (p := next) hi rfl ?_ rfl rfl hnw fun b h => absurd h (hnext b)
    intro l
    simp only [setPc, setEnabled]
    by_cases h : l = a
    · subst h; rw [upd_self]; exact ⟨rfl, rfl⟩
    · rw [upd_ne _ _ _ h]; exact ⟨rfl, rfl⟩
  · cases h

theorem stale_step {s s' : St} {t : Tid} (hm : MutexInv s) (hi : StaleInv s) (h : step s t = some s') : StaleInv s' := by
  have same : ∀ l, (s.loc l).level = (s.loc l).level ∧ (s.loc l).stream = (s.loc l).stream := fun _ => ⟨rfl, rfl⟩
  have own : holdsLoc (s.pc t) = true → s.locM = none ∨ s.locM = some t := fun h => Or.inr ((hm.loc t).1 h)
  unfold step at h
  cases hp : s.pc t <;> rw [hp] at h own <;> simp only at h
  case idle => cases h
  case logStart => cases h; exact stale_keep hi rfl same rfl rfl (by simp [hp]) (by intro a; split <;> simp [AtNs])
  case initWait =>
    split at h
    · cases h; rename_i hn; exact stale_owner hm rfl (Or.inl hn) (by simp [AtNs])
    · cases h
  case initIn =>
    split at h <;> cases h <;> exact stale_owner hm rfl (own rfl) (by simp [AtNs])
  case initCheck l v =>
    cases h
    exact stale_check1 hi (by simp [hp]) (by simp [AtNs]) (by simp [AtNs])
  case initNs => exact stale_check2 hi (by simp [hp]) (by simp [AtNs]) h
  case initDone => cases h; exact stale_owner hm rfl (own rfl) (by simp [AtNs])
  case logLevel => cases h; exact stale_keep hi rfl same rfl rfl (by simp [hp]) (by intro a; split <;> simp [AtNs])
  case setWait =>
    split at h
    · cases h; rename_i hn; exact stale_owner hm rfl (Or.inl hn) (by simp [AtNs])
    · cases h
  case setIn => cases h; exact stale_owner hm rfl (own rfl) (by simp [AtNs])
  case chkWait =>
    split at h
    · cases h; rename_i hn; exact stale_owner hm rfl (Or.inl hn) (by simp [AtNs])
    · cases h
  case chkIn =>
    cases h
    exact stale_check1 hi (by simp [hp]) (by simp [AtNs]) (by simp [AtNs])
  case chkNs => exact stale_check2 hi (by simp [hp]) (by simp [AtNs]) h
  case chkDone => cases h; exact stale_owner hm rfl (own rfl) (by simp [AtNs])
  case logEnd => cases h; exact stale_keep hi rfl same rfl rfl (by simp [hp]) (by simp [AtNs])
  case slTest => cases h; exact stale_keep hi rfl same rfl rfl (by simp [hp]) (by intro a; split <;> simp [AtNs])
  case slWrite => cases h; exact stale_notify rfl
  case notWait =>
    split at h
    · cases h; rename_i hn; exact stale_owner hm rfl (Or.inl hn) (by simp [AtNs])
    · cases h
  case notLoop i k =>
    split at h
    · rename_i l hl
      cases h
      refine stale_check1 hi (by simp [hp]) ?_ (by simp [AtNs])
      intro b hb
      simp only [AtNs, hl, Option.some.injEq] at hb
      exact hb.symm
    · cases h
      exact stale_owner hm rfl (own rfl) (by intro a; split <;> simp [AtNs])
  case notNs i k =>
    split at h
    · exact stale_check2 hi (by simp [hp]) (by simp [AtNs]) h
    · cases h
  case nsRelease => cases h; exact stale_keep hi rfl same rfl rfl (by simp [hp]) (by simp [AtNs])
  case enWait =>
    split at h
    · cases h; exact stale_keep hi rfl same rfl rfl (by simp [hp]) (by simp [AtNs])
    · cases h
  case enIn => cases h; exact stale_notify rfl
  case disWait =>
    split at h
    · cases h; exact stale_keep hi rfl same rfl rfl (by simp [hp]) (by simp [AtNs])
    · cases h
  case disIn =>
    split at h
    · cases h; exact stale_notify rfl
    · cases h; exact stale_keep hi rfl same rfl rfl (by simp [hp]) (by simp [AtNs])
  case isWait =>
    split at h
    · cases h; exact stale_keep hi rfl same rfl rfl (by simp [hp]) (by simp [AtNs])
    · cases h

/-- a step into waiting to notify fixes everything -/
theorem flag_notify {s s' : St} {t : Tid} {k : Bool} (hi : FlagInv s) (h3 : s'.loc = s.loc)
    (h4 : s'.registered = s.registered) (h5 : s'.pc = upd s.pc t (.notWait k)) : FlagInv s' := by
  refine ⟨fun l _ => Or.inr ⟨t, by rw [h5, upd_self]; trivial⟩, ?_, ?_⟩
  · intro l hl; rw [h3] at hl; rw [h4]; exact hi.reg l hl
  · intro u l v hu
    rw [h4]
    by_cases hut : u = t
    · subst hut; rw [h5, upd_self] at hu; simp at hu
    · rw [h5, upd_ne _ _ _ hut] at hu; exact hi.mid u l v hu

/-- a step that changes level or stream of `a` only, and goes on to check `a` -/
theorem flag_write {s s' : St} {t : Tid} {p : PC} {a : Nat} (hm : MutexInv s) (ho : s.locM = some t) (hi : FlagInv s)
    (hnot : ∀ l, WillFix s l (s.pc t) → WillFix s' l p)
    (h1 : s'.level = s.level) (h2 : s'.streams = s.streams)
    (h3 : ∀ l, l ≠ a → s'.loc l = s.loc l) (hin : (s'.loc a).initialized = (s.loc a).initialized)
    (h4 : s'.registered = s.registered ∨ s'.registered = s.registered ++ [a])
    (h5 : s'.pc = upd s.pc t p) (hfix : WillFix s' a p)
    (hmid : ∀ l v, (p = .initCheck l v ∨ p = .initNs l v ∨ p = .initDone l v) → l ∈ s'.registered) : FlagInv s' := by
  have hsub : ∀ l, l ∈ s.registered → l ∈ s'.registered := by
    intro l hl; rcases h4 with h | h <;> rw [h]
    · exact hl
    · simp [hl]
  refine ⟨?_, ?_, ?_⟩
  · intro l hl
    by_cases hla : l = a
    · subst hla; exact Or.inr ⟨t, by rw [h5, upd_self]; exact hfix⟩
    have hl' : l ∈ s.registered := by
      rcases h4 with h | h <;> rw [h] at hl
      · exact hl
      · simpa [hla] using hl
    rcases hi.fix l hl' with h | ⟨u, hu⟩
    · left
      unfold Correct shouldBeEnabled at *
      rw [h3 l hla, h1, h2]; exact h
    · right
      by_cases hut : u = t
      · subst hut; exact ⟨u, by rw [h5, upd_self]; exact hnot l hu⟩
      · refine ⟨u, ?_⟩
        rw [h5, upd_ne _ _ _ hut]
        have hnh : holdsLoc (s.pc u) = false := by
          cases e : holdsLoc (s.pc u) with
          | false => rfl
          | true =>
            have := (hm.loc u).1 e
            rw [ho] at this; exact absurd (Option.some.inj this).symm hut
        cases hq : s.pc u <;> rw [hq] at hu hnh <;> simp_all [WillFix, holdsLoc]
  · intro l hl
    by_cases hla : l = a
    · subst hla; rw [hin] at hl; exact hsub l (hi.reg l hl)
    · rw [h3 l hla] at hl; exact hsub l (hi.reg l hl)
  · intro u l v hu
    by_cases hut : u = t
    · subst hut; rw [h5, upd_self] at hu; exact hmid l v hu
    · rw [h5, upd_ne _ _ _ hut] at hu; exact hsub l (hi.mid u l v hu)

theorem flag_step {s s' : St} {t : Tid} (hm : MutexInv s) (hst : StaleInv s) (hi : FlagInv s)
    (h : step s t = some s') : FlagInv s' := by
  have own : holdsLoc (s.pc t) = true → s.locM = some t := fun h => (hm.loc t).1 h
  have nomid : ∀ {p : PC}, (∀ l v, p ≠ .initCheck l v) → (∀ l v, p ≠ .initNs l v) → (∀ l v, p ≠ .initDone l v) →
      ∀ l v, (p = .initCheck l v ∨ p = .initNs l v ∨ p = .initDone l v) → l ∈ s.registered := by
    intro p h1 h2 h3 l v h
    rcases h with h | h | h
    exacts [absurd h (h1 l v), absurd h (h2 l v), absurd h (h3 l v)]
  have hmid := hi.mid t
  have hstale := hst t
  unfold step at h
  cases hp : s.pc t <;> rw [hp] at h own hmid hstale <;> simp only at h
  case idle => cases h
  case logStart =>
    cases h
    refine flag_silent hi rfl rfl rfl rfl rfl (by simp [hp, WillFix]) ?_
    split <;> exact nomid (by simp) (by simp) (by simp)
  case initWait =>
    split at h
    · cases h; exact flag_silent hi rfl rfl rfl rfl rfl (by simp [hp, WillFix]) (nomid (by simp) (by simp) (by simp))
    · cases h
  case initIn l n v =>
    split at h
    · cases h; exact flag_silent hi rfl rfl rfl rfl rfl (by simp [hp, WillFix]) (nomid (by simp) (by simp) (by simp))
    · cases h
      refine flag_write (a := l) hm (own rfl) hi (by simp [hp, WillFix]) rfl rfl ?_ ?_ (Or.inr rfl) rfl rfl ?_
      · intro l' hl'; simp [setPc, upd_ne _ _ _ hl']
      · simp [setPc, upd_self]
      · intro l' v' h
        simp only [PC.initCheck.injEq, reduceCtorEq, or_false] at h
        simp [setPc, h.1]
  case initCheck l v =>
    cases h
    have hr := hmid l v (Or.inl rfl)
    refine flag_check1 hi ?_ ?_ ?_ ?_
    · intro l' hl' hw; rw [hp] at hw; exact absurd hw.symm hl'
    · intro hh; exact ⟨rfl, hh⟩
    · intro l' v' h
      simp only [PC.initDone.injEq, reduceCtorEq, false_or] at h
      rw [← h.1]; exact hr
    · intro l' v' h
      simp only [PC.initNs.injEq, reduceCtorEq, false_or, or_false] at h
      rw [← h.1]; exact hr
  case initNs l v =>
    refine flag_check2 hi h (hstale l rfl) ?_ ?_
    · intro l' hl' hw; rw [hp] at hw; exact absurd hw.1.symm hl'
    · intro l' v' h
      simp only [PC.initDone.injEq, reduceCtorEq, false_or] at h
      rw [← h.1]; exact hmid l v (Or.inr (Or.inl rfl))
  case initDone l v =>
    cases h
    have hr := hmid l v (Or.inr (Or.inr rfl))
    have hloc : ∀ x, (upd s.loc l { s.loc l with initialized := true } x).level = (s.loc x).level ∧
        (upd s.loc l { s.loc l with initialized := true } x).stream = (s.loc x).stream ∧
        (upd s.loc l { s.loc l with initialized := true } x).enabled = (s.loc x).enabled := by
      intro x
      by_cases hx : x = l
      · subst hx; rw [upd_self]; exact ⟨rfl, rfl, rfl⟩
      · rw [upd_ne _ _ _ hx]; exact ⟨rfl, rfl, rfl⟩
    refine ⟨?_, ?_, ?_⟩
    · intro x hx
      rcases hi.fix x hx with h | ⟨u, hu⟩
      · left
        unfold Correct shouldBeEnabled at *
        simp only [setPc, (hloc x).1, (hloc x).2.1, (hloc x).2.2]
        exact h
      · right
        have hut : u ≠ t := by rintro rfl; rw [hp] at hu; exact hu
        refine ⟨u, ?_⟩
        simp only [setPc, upd_ne _ _ _ hut]
        cases hq : s.pc u <;> rw [hq] at hu <;>
          simp only [WillFix, Half, setPc, (hloc _).1, (hloc _).2.1] at hu ⊢ <;> exact hu
    · intro x hx
      by_cases hxl : x = l
      · subst hxl; exact hr
      · simp only [setPc, upd_ne _ _ _ hxl] at hx; exact hi.reg x hx
    · intro u x w hu
      by_cases hut : u = t
      · subst hut; simp [setPc, upd_self] at hu
      · simp only [setPc, upd_ne _ _ _ hut] at hu; exact hi.mid u x w hu
  case logLevel =>
    cases h
    refine flag_silent hi rfl rfl rfl rfl rfl (by simp [hp, WillFix]) ?_
    split <;> exact nomid (by simp) (by simp) (by simp)
  case setWait =>
    split at h
    · cases h; exact flag_silent hi rfl rfl rfl rfl rfl (by simp [hp, WillFix]) (nomid (by simp) (by simp) (by simp))
    · cases h
  case setIn l v =>
    cases h
    refine flag_write (a := l) hm (own rfl) hi (by simp [hp, WillFix]) rfl rfl ?_ ?_ (Or.inl rfl) rfl rfl
      (by simp)
    · intro l' hl'; simp [setPc, upd_ne _ _ _ hl']
    · simp [setPc, upd_self]
  case chkWait =>
    split at h
    · cases h
      exact flag_silent hi rfl rfl rfl rfl rfl (by simp [hp, WillFix]) (nomid (by simp) (by simp) (by simp))
    · cases h
  case chkIn l v =>
    cases h
    refine flag_check1 hi ?_ ?_ (nomid (by simp) (by simp) (by simp)) (nomid (by simp) (by simp) (by simp))
    · intro l' hl' hw; rw [hp] at hw; exact absurd hw.symm hl'
    · intro hh; exact ⟨rfl, hh⟩
  case chkNs l v =>
    refine flag_check2 hi h (hstale l rfl) ?_ (nomid (by simp) (by simp) (by simp))
    intro l' hl' hw; rw [hp] at hw; exact absurd hw.1.symm hl'
  case chkDone =>
    cases h; exact flag_silent hi rfl rfl rfl rfl rfl (by simp [hp, WillFix]) (nomid (by simp) (by simp) (by simp))
  case logEnd =>
    cases h; exact flag_silent hi rfl rfl rfl rfl rfl (by simp [hp, WillFix]) (nomid (by simp) (by simp) (by simp))
  case slTest =>
    cases h
    refine flag_silent hi rfl rfl rfl rfl rfl (by simp [hp, WillFix]) ?_
    split <;> exact nomid (by simp) (by simp) (by simp)
  case slWrite => cases h; exact flag_notify hi rfl rfl rfl
  case notWait =>
    split at h
    · cases h
      refine ⟨?_, ?_, ?_⟩
      · intro l hl
        right
        refine ⟨t, ?_⟩
        simp only [setPc, upd_self, WillFix]
        obtain ⟨j, hj⟩ := List.getElem?_of_mem hl
        exact ⟨j, Nat.zero_le _, hj⟩
      · exact hi.reg
      · intro u l v hu
        by_cases hut : u = t
        · subst hut; simp [setPc, upd_self] at hu
        · simp only [setPc, upd_ne _ _ _ hut] at hu; exact hi.mid u l v hu
    · cases h
  case notLoop i k =>
    split at h
    · rename_i a ha
      cases h
      have hnext : ∀ l, l ≠ a → WillFix s l (s.pc t) → ∃ j, i + 1 ≤ j ∧ s.registered[j]? = some l := by
        intro l hl hw
        rw [hp] at hw
        obtain ⟨j, hj, e⟩ := hw
        refine ⟨j, ?_, e⟩
        rcases Nat.eq_or_lt_of_le hj with rfl | h
        · rw [ha] at e; exact absurd (Option.some.inj e).symm hl
        · omega
      refine flag_check1 hi ?_ ?_ (nomid (by simp) (by simp) (by simp)) (nomid (by simp) (by simp) (by simp))
      · intro l hl hw
        exact ⟨hnext l hl hw, Or.inr (hnext l hl hw)⟩
      · intro hh; exact Or.inl ⟨ha, hh⟩
    · rename_i hn
      cases h
      refine flag_silent hi rfl rfl rfl rfl rfl ?_ ?_
      · intro l hw
        rw [hp] at hw
        obtain ⟨j, hj, e⟩ := hw
        rw [List.getElem?_eq_none_iff] at hn
        rw [List.getElem?_eq_none (by omega)] at e
        cases e
      · split <;> exact nomid (by simp) (by simp) (by simp)
  case notNs i k =>
    split at h
    · rename_i a ha
      refine flag_check2 hi h (hstale a ha) ?_ (nomid (by simp) (by simp) (by simp))
      intro l hl hw
      rw [hp] at hw
      rcases hw with hw | hw
      · rw [ha] at hw; exact absurd (Option.some.inj hw.1).symm hl
      · exact hw
    · cases h
  case nsRelease =>
    cases h; exact flag_silent hi rfl rfl rfl rfl rfl (by simp [hp, WillFix]) (nomid (by simp) (by simp) (by simp))
  case enWait =>
    split at h
    · cases h; exact flag_silent hi rfl rfl rfl rfl rfl (by simp [hp, WillFix]) (nomid (by simp) (by simp) (by simp))
    · cases h
  case enIn => cases h; exact flag_notify hi rfl rfl rfl
  case disWait =>
    split at h
    · cases h; exact flag_silent hi rfl rfl rfl rfl rfl (by simp [hp, WillFix]) (nomid (by simp) (by simp) (by simp))
    · cases h
  case disIn =>
    split at h
    · cases h; exact flag_notify hi rfl rfl rfl
    · cases h; exact flag_silent hi rfl rfl rfl rfl rfl (by simp [hp, WillFix]) (nomid (by simp) (by simp) (by simp))
  case isWait =>
    split at h
    · cases h; exact flag_silent hi rfl rfl rfl rfl rfl (by simp [hp, WillFix]) (nomid (by simp) (by simp) (by simp))
    · cases h

theorem reach_inv {ok : Call → Prop} {s : St} (h : Reach ok s) : MutexInv s ∧ StaleInv s ∧ FlagInv s := by
  induction h with
  | init =>
    exact ⟨reach_mutex .init (ok := ok), fun t a h => absurd h (by simp [init, AtNs]), ⟨by simp [init], by simp [init], by simp [init]⟩⟩
  | @start s t c hr hp hok ih =>
    obtain ⟨h1, h2, h3⟩ := ih
    refine ⟨mutex_start h1 hp c, ?_, ?_⟩
    · cases c <;> exact stale_keep h2 rfl (fun _ => ⟨rfl, rfl⟩) rfl rfl (by simp [hp]) (by simp [AtNs])
    · cases c <;> exact flag_silent h3 rfl rfl rfl rfl rfl (by simp [hp, WillFix]) (by simp)
  | step _ hs ih => exact ⟨mutex_step ih.1 hs, stale_step ih.1 ih.2.1 hs, flag_step ih.1 ih.2.1 ih.2.2 hs⟩

/-! ## C45 -/

/-- **C45** In every state reachable by any interleaving of calls by any number of threads in which no call is
in progress, the flag of every log statement that has been executed says what it should: its level reaches
the global level, and it has no stream name or its stream is enabled. -/
theorem C45_flags {s : St} (h : Reach (fun _ => True) s) (hq : ∀ t, s.pc t = .idle) (l : Nat)
    (hl : (s.loc l).initialized = true) : (s.loc l).enabled = shouldBeEnabled s l := by
  obtain ⟨_, _, hf⟩ := reach_inv h
  rcases hf.fix l (hf.reg l hl) with h | ⟨t, ht⟩
  · exact h
  · rw [hq t] at ht; exact absurd ht (by simp [WillFix])

/-- steps of one thread alone -/
inductive Solo (t : Tid) : St → St → Prop where
  | refl (s) : Solo t s s
  | step {s s' s''} : step s t = some s' → Solo t s' s'' → Solo t s s''

/-- **C45** A log statement executed while no other call is in progress: it gets, without waiting, to the
point where it decides whether to print (`logEnd`), and there the flag says exactly whether the level of
*this* execution reaches the global level and the stream (of the first execution) is empty or enabled; the
configuration is unchanged. -/
theorem C45_statement {s : St} (h : Reach (fun _ => True) s) (hq : ∀ t, s.pc t = .idle) (t : Tid) (l : Nat) (n : Name)
    (v : Nat) :
    ∃ s', Solo t (start s t (.log l n v)) s' ∧ s'.pc t = .logEnd l v ∧ s'.level = s.level ∧ s'.streams = s.streams ∧
      (s'.loc l).stream = (if (s.loc l).initialized then (s.loc l).stream else n) ∧
      (s'.loc l).enabled = (decide (s.level ≤ v) &&
        (decide ((s'.loc l).stream = []) || s.streams (s'.loc l).stream)) := by
  have hflag := C45_flags h hq l
  obtain ⟨hm, _, _⟩ := reach_inv h
  have hloc : s.locM = none := by
    cases e : s.locM with
    | none => rfl
    | some u => have := (hm.loc u).2 e; rw [hq u] at this; cases this
  have hns : s.nsM = none := by
    cases e : s.nsM with
    | none => rfl
    | some u => have := (hm.ns u).2 e; rw [hq u] at this; cases this
  unfold shouldBeEnabled at hflag
  by_cases hin : (s.loc l).initialized = true
  · by_cases hlv : (s.loc l).level = v
    · refine ⟨_, .step (s' := _) (by simp [step, start, setPc, upd, hin]; rfl)
        (.step (s' := _) (by simp [step, setPc, upd, hlv]; rfl) (.refl _)), ?_⟩
      refine ⟨by simp [upd], rfl, rfl, by simp [hin], ?_⟩
      rw [← hlv]; exact hflag hin
    · by_cases hge : s.level ≤ v
      · by_cases hst : (s.loc l).stream = []
        · refine ⟨_, .step (s' := _) (by simp [step, start, setPc, upd, hin]; rfl)
            (.step (s' := _) (by simp [step, setPc, upd, hlv]; rfl)
            (.step (s' := _) (by simp [step, setPc, upd, hloc]; rfl)
            (.step (s' := _) (by simp [step, setPc, upd]; rfl)
            (.step (s' := _) (by simp [step, setPc, upd]; rfl)
            (.step (s' := _) (by simp [step, check1, setEnabled, setPc, upd, hge, hst]; rfl)
            (.step (s' := _) (by simp [step, setPc, upd]; rfl) (.refl _))))))), ?_⟩
          simp [upd, hin, hge, hst]
        · refine ⟨_, .step (s' := _) (by simp [step, start, setPc, upd, hin]; rfl)
            (.step (s' := _) (by simp [step, setPc, upd, hlv]; rfl)
            (.step (s' := _) (by simp [step, setPc, upd, hloc]; rfl)
            (.step (s' := _) (by simp [step, setPc, upd]; rfl)
            (.step (s' := _) (by simp [step, setPc, upd]; rfl)
            (.step (s' := _) (by simp [step, check1, setEnabled, setPc, upd, hge, hst]; rfl)
            (.step (s' := _) (by simp [step, check2, setEnabled, setPc, upd, hns]; rfl)
            (.step (s' := _) (by simp [step, setPc, upd]; rfl) (.refl _)))))))), ?_⟩
          simp [upd, hin, hge, hst]
      · refine ⟨_, .step (s' := _) (by simp [step, start, setPc, upd, hin]; rfl)
            (.step (s' := _) (by simp [step, setPc, upd, hlv]; rfl)
            (.step (s' := _) (by simp [step, setPc, upd, hloc]; rfl)
            (.step (s' := _) (by simp [step, setPc, upd]; rfl)
            (.step (s' := _) (by simp [step, setPc, upd]; rfl)
            (.step (s' := _) (by simp [step, check1, setEnabled, setPc, upd, hge]; rfl)
            (.step (s' := _) (by simp [step, setPc, upd]; rfl) (.refl _))))))), ?_⟩
        simp [upd, hin, hge]
  · by_cases hge : s.level ≤ v
    · by_cases hst : n = []
      · refine ⟨_, .step (s' := _) (by simp [step, start, setPc, upd, hin]; rfl)
          (.step (s' := _) (by simp [step, setPc, upd, hloc]; rfl)
          (.step (s' := _) (by simp [step, setPc, upd, hin]; rfl)
          (.step (s' := _) (by simp [step, check1, setEnabled, setPc, upd, hge, hst]; rfl)
          (.step (s' := _) (by simp [step, setPc, upd]; rfl)
          (.step (s' := _) (by simp [step, setPc, upd]; rfl) (.refl _)))))), ?_⟩
        simp [upd, hin, hge, hst]
      · refine ⟨_, .step (s' := _) (by simp [step, start, setPc, upd, hin]; rfl)
          (.step (s' := _) (by simp [step, setPc, upd, hloc]; rfl)
          (.step (s' := _) (by simp [step, setPc, upd, hin]; rfl)
          (.step (s' := _) (by simp [step, check1, setEnabled, setPc, upd, hge, hst]; rfl)
          (.step (s' := _) (by simp [step, check2, setEnabled, setPc, upd, hns]; rfl)
          (.step (s' := _) (by simp [step, setPc, upd]; rfl)
          (.step (s' := _) (by simp [step, setPc, upd]; rfl) (.refl _))))))), ?_⟩
        simp [upd, hin, hge, hst]
    · refine ⟨_, .step (s' := _) (by simp [step, start, setPc, upd, hin]; rfl)
          (.step (s' := _) (by simp [step, setPc, upd, hloc]; rfl)
          (.step (s' := _) (by simp [step, setPc, upd, hin]; rfl)
          (.step (s' := _) (by simp [step, check1, setEnabled, setPc, upd, hge]; rfl)
          (.step (s' := _) (by simp [step, setPc, upd]; rfl)
          (.step (s' := _) (by simp [step, setPc, upd]; rfl) (.refl _)))))), ?_⟩
      simp [upd, hin, hge]

/-- Concrete: the premises hold initially, and a `Warn` statement on the default stream is enabled there. -/
example : Reach (fun _ => True) init ∧ (∀ t, init.pc t = .idle) ∧
    (decide (init.level ≤ Level.warn.toNat) && (decide (defaultName = []) || init.streams defaultName)) = true :=
  ⟨.init, fun _ => rfl, by decide⟩

/-! ## C47: switching streams -/

/-- `enableNamedStream` / `disableNamedStream` (LoggingGlobals.cpp:107-121, 291-298) on the set of enabled
streams, called by name -/
def switch (streams : Name → Bool) (on : Bool) (n : Name) : Name → Bool :=
  fun m => if m = addPrefix n then on else streams m

/-- the `_namedStreamsEnabled` after a history of calls -/
def switches (streams : Name → Bool) (h : List (Bool × Name)) : Name → Bool :=
  h.foldl (fun s c => switch s c.1 c.2) streams

/-- `isNamedStreamEnabled` (287-290) -/
def isNamedStreamEnabled (streams : Name → Bool) (n : Name) : Bool := streams (addPrefix n)

/-- **C47** Whether a stream is enabled is decided by the last call, under any spelling of its name; without
any such call it is as before. -/
theorem C47_last_call (streams : Name → Bool) (h : List (Bool × Name)) (n : Name) :
    (∀ h1 h2 on m, h = h1 ++ (on, m) :: h2 → addPrefix m = addPrefix n → (∀ c ∈ h2, addPrefix c.2 ≠ addPrefix n) →
      isNamedStreamEnabled (switches streams h) n = on) ∧
    ((∀ c ∈ h, addPrefix c.2 ≠ addPrefix n) →
      isNamedStreamEnabled (switches streams h) n = isNamedStreamEnabled streams n) := by
  have key : ∀ (h : List (Bool × Name)) (streams : Name → Bool), (∀ c ∈ h, addPrefix c.2 ≠ addPrefix n) →
      isNamedStreamEnabled (switches streams h) n = isNamedStreamEnabled streams n := by
    intro h
    induction h with
    | nil => intro _ _; rfl
    | cons c h ih =>
      intro streams hc
      have := ih (switch streams c.1 c.2) fun d hd => hc d (by simp [hd])
      rw [show switches streams (c :: h) = switches (switch streams c.1 c.2) h from rfl, this]
      unfold isNamedStreamEnabled switch
      rw [if_neg fun e => hc c (by simp) e.symm]
  refine ⟨?_, key h streams⟩
  intro h1 h2 on m e hm hc
  subst e
  have : switches streams (h1 ++ (on, m) :: h2) = switches (switch (switches streams h1) on m) h2 := by
    simp [switches, List.foldl_append]
  rw [this, key h2 _ hc]
  unfold isNamedStreamEnabled switch
  rw [if_pos hm.symm]

example : isNamedStreamEnabled (switches (fun n => n = defaultName) [(true, ['n']), (false, ['s','m','.','n'])]) ['n'] = false ∧
    isNamedStreamEnabled (switches (fun n => n = defaultName) [(true, ['n'])]) ['s','m','.','n'] = true := by decide

end Verif.Logging.Config
