import Verif.Logging.ConfigProps

/-!
# C45: what the configuration calls do, executed while no other call is in progress
-/

namespace Verif.Logging.Config

theorem Solo.trans {t : Tid} {a b c : St} (h1 : Solo t a b) (h2 : Solo t b c) : Solo t a c := by
  induction h1 with
  | refl _ => exact h2
  | step hs _ ih => exact .step hs (ih h2)

/-- the same configuration, and the other threads are where they were -/
def Kept (t : Tid) (s s' : St) : Prop :=
  s'.level = s.level ∧ s'.streams = s.streams ∧ s'.registered = s.registered ∧
    (∀ u, u ≠ t → s'.pc u = s.pc u) ∧
    ∀ l, (s'.loc l).initialized = (s.loc l).initialized ∧ (s'.loc l).level = (s.loc l).level ∧
      (s'.loc l).stream = (s.loc l).stream

theorem Kept.trans {t : Tid} {a b c : St} (h1 : Kept t a b) (h2 : Kept t b c) : Kept t a c := by
  obtain ⟨a1, a2, a3, a4, a5⟩ := h1
  obtain ⟨b1, b2, b3, b4, b5⟩ := h2
  refine ⟨b1.trans a1, b2.trans a2, b3.trans a3, fun u hu => (b4 u hu).trans (a4 u hu), fun l => ?_⟩
  exact ⟨(b5 l).1.trans (a5 l).1, (b5 l).2.1.trans (a5 l).2.1, (b5 l).2.2.trans (a5 l).2.2⟩

theorem kept_setEnabled (t : Tid) (s : St) (l : Nat) (b : Bool) (p : PC) : Kept t s (setPc (setEnabled s l b) t p) := by
  refine ⟨rfl, rfl, rfl, fun u hu => by simp [setPc, setEnabled, upd, hu], fun m => ?_⟩
  simp only [setPc, setEnabled, upd]
  split
  · rename_i h; subst h; exact ⟨rfl, rfl, rfl⟩
  · exact ⟨rfl, rfl, rfl⟩

theorem kept_setPc (t : Tid) (s : St) (p : PC) : Kept t s (setPc s t p) :=
  ⟨rfl, rfl, rfl, fun u hu => by simp [setPc, upd, hu], fun _ => ⟨rfl, rfl, rfl⟩⟩

/-- the notification loop runs to its end -/
theorem notify_runs (t : Tid) (k : Bool) (n : Nat) : ∀ (i : Nat) (s : St), s.registered.length - i = n →
    s.pc t = .notLoop i k → s.locM = some t → s.nsM = (if k then some t else none) →
    ∃ s', Solo t s s' ∧ s'.pc t = .idle ∧ s'.locM = none ∧ s'.nsM = none ∧ Kept t s s' := by
  induction n with
  | zero =>
    intro i s hn hpc hloc hns
    have hr : s.registered[i]? = none := by rw [List.getElem?_eq_none_iff]; omega
    cases k with
    | false =>
      refine ⟨_, .step (s' := _) (by simp only [step, hpc, hr]; rfl) (.refl _), ?_, rfl, by simpa [setPc] using hns, ?_⟩
      · simp [setPc, upd]
      · exact ⟨rfl, rfl, rfl, fun u hu => by simp [setPc, upd, hu], fun _ => ⟨rfl, rfl, rfl⟩⟩
    | true =>
      refine ⟨_, .step (s' := _) (by simp only [step, hpc, hr]; rfl)
        (.step (s' := _) (by simp only [step, setPc, upd, if_true]; rfl) (.refl _)), ?_, rfl, rfl, ?_⟩
      · simp [setPc, upd]
      · exact ⟨rfl, rfl, rfl, fun u hu => by simp [setPc, upd, hu], fun _ => ⟨rfl, rfl, rfl⟩⟩
  | succ n ih =>
    intro i s hn hpc hloc hns
    obtain ⟨l, hr⟩ : ∃ l, s.registered[i]? = some l := by
      have : i < s.registered.length := by omega
      exact ⟨_, List.getElem?_eq_getElem this⟩
    have finish : ∀ b, ∃ s', Solo t (setPc (setEnabled s l b) t (.notLoop (i + 1) k)) s' ∧ s'.pc t = .idle ∧
        s'.locM = none ∧ s'.nsM = none ∧ Kept t s s' := by
      intro b
      obtain ⟨s', h1, h2, h3, h4, h5⟩ := ih (i + 1) (setPc (setEnabled s l b) t (.notLoop (i + 1) k))
        (by show s.registered.length - (i + 1) = n; omega) (by simp [setPc, upd]) hloc hns
      exact ⟨s', h1, h2, h3, h4, (kept_setEnabled t s l b _).trans h5⟩
    have hstep : step s t = some (check1 s t l (.notNs i k) (.notLoop (i + 1) k)) := by
      simp only [step, hpc, hr]
    by_cases hge : s.level ≤ (s.loc l).level
    · by_cases hst : (s.loc l).stream = []
      · obtain ⟨s', h1, h2⟩ := finish true
        refine ⟨s', .step hstep ?_, h2⟩
        rw [check1, if_pos hge, if_pos hst]; exact h1
      · obtain ⟨s', h1, h2⟩ := finish (s.streams (s.loc l).stream)
        refine ⟨s', .step hstep ?_, h2⟩
        rw [check1, if_pos hge, if_neg hst]
        have hr' : (setPc s t (.notNs i k)).registered[i]? = some l := hr
        refine .step (s' := setPc (setEnabled s l (s.streams (s.loc l).stream)) t (.notLoop (i + 1) k)) ?_ h1
        have hp : (setPc s t (.notNs i k)).pc t = .notNs i k := by simp [setPc, upd]
        simp only [step, hp, hr', check2]
        have : (setPc s t (.notNs i k)).nsM = none ∨ (setPc s t (.notNs i k)).nsM = some t := by
          show s.nsM = none ∨ s.nsM = some t
          rw [hns]; cases k <;> simp
        rw [if_pos this]
        congr 1
        simp only [setPc, setEnabled, St.mk.injEq, true_and]
        funext u
        simp only [upd]; split <;> rfl
    · obtain ⟨s', h1, h2⟩ := finish false
      refine ⟨s', .step hstep ?_, h2⟩
      rw [check1, if_neg hge]; exact h1

theorem notify_from_wait (t : Tid) (k : Bool) (s : St) (hpc : s.pc t = .notWait k) (hloc : s.locM = none)
    (hns : s.nsM = (if k then some t else none)) :
    ∃ s', Solo t s s' ∧ s'.pc t = .idle ∧ s'.locM = none ∧ s'.nsM = none ∧ Kept t s s' := by
  obtain ⟨s', h1, h2, h3, h4, h5⟩ := notify_runs t k _ 0 (setPc { s with locM := some t } t (.notLoop 0 k)) rfl
    (by simp [setPc, upd]) rfl hns
  refine ⟨s', .step (by simp only [step, hpc, hloc, if_true]) h1, h2, h3, h4, ?_⟩
  exact Kept.trans (b := setPc { s with locM := some t } t (.notLoop 0 k))
    ⟨rfl, rfl, rfl, fun u hu => by simp [setPc, upd, hu], fun _ => ⟨rfl, rfl, rfl⟩⟩ h5

/-- what a call does to the global level -/
def Call.levelAfter (c : Call) (level : Nat) : Nat :=
  match c with
  | .setLevel v => v
  | _ => level

/-- what a call does to the enabled streams -/
def Call.streamsAfter (c : Call) (streams : Name → Bool) (m : Name) : Bool :=
  match c with
  | .enable n => if m = n then true else streams m
  | .disable n => if m = n then false else streams m
  | _ => streams m

theorem no_locks {s : St} (h : Reach (fun _ => True) s) (hq : ∀ t, s.pc t = .idle) : s.locM = none ∧ s.nsM = none := by
  obtain ⟨hm, _, _⟩ := reach_inv h
  constructor
  · cases e : s.locM with
    | none => rfl
    | some u => have := (hm.loc u).2 e; rw [hq u] at this; cases this
  · cases e : s.nsM with
    | none => rfl
    | some u => have := (hm.ns u).2 e; rw [hq u] at this; cases this

/-- **C45** A configuration call made while no other call is in progress returns without waiting for anyone;
`setLevel` sets the global level and nothing else, `enableNamedStream` / `disableNamedStream` switch the one
stream and nothing else, and afterwards the flag of every log statement executed before says what it should
under the new configuration. -/
theorem C45_calls {s : St} (h : Reach (fun _ => True) s) (hq : ∀ t, s.pc t = .idle) (t : Tid) (c : Call)
    (hc : ∀ l n v, c ≠ .log l n v) :
    ∃ s', Solo t (start s t c) s' ∧ (∀ u, s'.pc u = .idle) ∧ s'.level = c.levelAfter s.level ∧
      (∀ m, s'.streams m = c.streamsAfter s.streams m) ∧
      ∀ l, (s'.loc l).initialized = (s.loc l).initialized ∧ (s'.loc l).level = (s.loc l).level ∧
        (s'.loc l).stream = (s.loc l).stream ∧
        ((s.loc l).initialized = true → (s'.loc l).enabled =
          (decide (c.levelAfter s.level ≤ (s.loc l).level) &&
            (decide ((s.loc l).stream = []) || c.streamsAfter s.streams (s.loc l).stream))) := by
  obtain ⟨hloc, hns⟩ := no_locks h hq
  suffices hs : ∃ s', Solo t (start s t c) s' ∧ s'.pc t = .idle ∧ s'.level = c.levelAfter s.level ∧
      (∀ m, s'.streams m = c.streamsAfter s.streams m) ∧ (∀ u, u ≠ t → s'.pc u = .idle) ∧
      ∀ l, (s'.loc l).initialized = (s.loc l).initialized ∧ (s'.loc l).level = (s.loc l).level ∧
        (s'.loc l).stream = (s.loc l).stream by
    obtain ⟨s', h1, h2, h3, h4, h5, h6⟩ := hs
    have hidle : ∀ u, s'.pc u = .idle := fun u => if hu : u = t then hu ▸ h2 else h5 u hu
    have hreach : ∀ {a b : St}, Solo t a b → Reach (fun _ => True) a → Reach (fun _ => True) b := by
      intro a b hab
      induction hab with
      | refl _ => exact id
      | step hs _ ih => exact fun ha => ih (.step ha hs)
    have hr := hreach h1 (.start h (hq t) trivial)
    refine ⟨s', h1, hidle, h3, h4, fun l => ⟨(h6 l).1, (h6 l).2.1, (h6 l).2.2, fun hl => ?_⟩⟩
    rw [C45_flags hr hidle l ((h6 l).1.trans hl), shouldBeEnabled, h3, h4, (h6 l).2.1, (h6 l).2.2]
  have others : ∀ {a b : St}, (∀ u, u ≠ t → a.pc u = .idle) → Kept t a b → ∀ u, u ≠ t → b.pc u = .idle :=
    fun ha hab u hu => (hab.2.2.2.1 u hu).trans (ha u hu)
  cases c with
  | log l n v => exact absurd rfl (hc l n v)
  | isEnabled n =>
    refine ⟨_, .step (s' := _) (by simp [step, start, setPc, upd, hns]; rfl) (.refl _), ?_⟩
    refine ⟨by simp [upd], rfl, fun _ => rfl, fun u hu => by simp [upd, hu, hq u], fun l => ⟨rfl, rfl, rfl⟩⟩
  | setLevel v =>
    by_cases hv : v = s.level
    · refine ⟨_, .step (s' := _) (by simp [step, start, setPc, upd, hv]; rfl) (.refl _), ?_⟩
      refine ⟨by simp [upd], by simp [Call.levelAfter, hv], fun _ => rfl, fun u hu => by simp [upd, hu, hq u],
        fun l => ⟨rfl, rfl, rfl⟩⟩
    · obtain ⟨s', h1, h2, _, _, h5⟩ := notify_from_wait t false
        (setPc { (setPc (setPc s t (.slTest v)) t (.slWrite v)) with level := v } t (.notWait false))
        (by simp [setPc, upd]) hloc hns
      refine ⟨s', .step (s' := setPc (setPc s t (.slTest v)) t (.slWrite v)) ?_
        (.step (s' := _) ?_ h1), h2, h5.1, fun m => congrFun h5.2.1 m, others ?_ h5, h5.2.2.2.2⟩
      · simp [step, start, setPc, upd, hv]
      · simp [step, setPc, upd]
      · intro u hu; simp [setPc, upd, hu, hq u]
  | enable n =>
    obtain ⟨s', h1, h2, _, _, h5⟩ := notify_from_wait t true
      (setPc { (setPc { (setPc s t (.enWait n)) with nsM := some t } t (.enIn n)) with
        streams := fun m => if m = n then true else s.streams m } t (.notWait true))
      (by simp [setPc, upd]) hloc rfl
    refine ⟨s', .step (s' := setPc { (setPc s t (.enWait n)) with nsM := some t } t (.enIn n)) ?_
        (.step (s' := _) ?_ h1), h2, h5.1, fun m => congrFun h5.2.1 m, others ?_ h5, h5.2.2.2.2⟩
    · simp [step, start, setPc, upd, hns]
    · simp [step, setPc, upd]
    · intro u hu; simp [setPc, upd, hu, hq u]
  | disable n =>
    by_cases hn : s.streams n = true
    · obtain ⟨s', h1, h2, _, _, h5⟩ := notify_from_wait t true
        (setPc { (setPc { (setPc s t (.disWait n)) with nsM := some t } t (.disIn n)) with
          streams := fun m => if m = n then false else s.streams m } t (.notWait true))
        (by simp [setPc, upd]) hloc rfl
      refine ⟨s', .step (s' := setPc { (setPc s t (.disWait n)) with nsM := some t } t (.disIn n)) ?_
          (.step (s' := _) ?_ h1), h2, h5.1, fun m => congrFun h5.2.1 m, others ?_ h5, h5.2.2.2.2⟩
      · simp [step, start, setPc, upd, hns]
      · simp [step, setPc, upd, hn]
      · intro u hu; simp [setPc, upd, hu, hq u]
    · refine ⟨_, .step (s' := setPc { (setPc s t (.disWait n)) with nsM := some t } t (.disIn n)) ?_
        (.step (s' := _) (by simp [step, setPc, upd, hn]; rfl) (.refl _)), ?_⟩
      · simp [step, start, setPc, upd, hns]
      · refine ⟨by simp [upd], rfl, fun m => ?_, fun u hu => by simp [upd, hu, hq u], fun l => ⟨rfl, rfl, rfl⟩⟩
        simp only [Call.streamsAfter]
        split
        · rename_i hm; subst hm; simpa using hn
        · rfl

/-- Concrete: the premises hold initially for each kind of call. -/
example : Reach (fun _ => True) init ∧ (∀ t, init.pc t = .idle) ∧
    (Call.disable ['s', 'm']).streamsAfter init.streams ['s', 'm'] = false ∧
    (Call.enable ['n']).streamsAfter init.streams ['s', 'm'] = true := ⟨.init, fun _ => rfl, by decide, by decide⟩

end Verif.Logging.Config
