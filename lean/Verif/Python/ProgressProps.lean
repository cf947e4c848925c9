import Verif.Python.Progress
import Mathlib.Tactic.FieldSimp
import Mathlib.Tactic.Ring
import Mathlib.Data.List.Induction

/-!
# C134: the progress reporters in Python
-/

namespace Verif.Python

/-! ## histories -/

theorem samples_started (p : Prog) (hp : p.started = true) (hi : 0 ≤ p.iteration) : ∀ (ts : List ℚ) (t : ℚ),
    (p.samples (ts ++ [t])).1.getLast? =
      some (.printed ⟨p.iteration + ts.length + 1, p.numIterations, t - p.startTime,
        p.numIterations * ((t - p.startTime) / ((p.iteration + ts.length + 1 : ℤ) : ℚ)), (t - p.startTime) / ((p.iteration + ts.length + 1 : ℤ) : ℚ)⟩)
  | [], t => by
    have : p.iteration + 1 ≠ 0 := by omega
    simp [Prog.samples, Prog.sample, hp, this]
  | u :: ts, t => by
    have h1 : p.iteration + 1 ≠ 0 := by omega
    have hs : (p.sample u).2 = { p with iteration := p.iteration + 1, elapsed := u - p.startTime } := by
      simp [Prog.sample, hp, h1]
    have ih := samples_started (p.sample u).2 (by rw [hs]; exact hp) (by rw [hs]; simp; omega) ts t
    have hne : ((p.sample u).2.samples (ts ++ [t])).1 ≠ [] := by
      intro h; rw [h] at ih; simp at ih
    simp only [List.cons_append, Prog.samples]
    rw [List.getLast?_cons, List.getLast?_eq_some_getLast hne] at *
    simp only [Option.getD_some]
    rw [ih, hs]
    have e : p.iteration + 1 + (ts.length : ℤ) + 1 = p.iteration + ((ts.length + 1 : ℕ) : ℤ) + 1 := by push_cast; ring
    simp only [List.length_cons]
    rw [e]

/-- **C134** After the samples at `t₀`, …, `tₙ` (`n ≥ 1`) the reporter shows `n` of the iterations — the first call only starts the clock —, the time since the first call, the mean time of an iteration and
that times the number of iterations; whatever the history, it never divides by zero. -/
theorem C134_report (N : ℤ) (t0 : ℚ) (ts : List ℚ) (t : ℚ) :
    ((Prog.new N).samples (t0 :: (ts ++ [t]))).1.getLast? =
      some (.printed ⟨ts.length + 1, N, t - t0, N * ((t - t0) / ((ts.length + 1 : ℤ) : ℚ)), (t - t0) / ((ts.length + 1 : ℤ) : ℚ)⟩) := by
  have h := samples_started ((Prog.new N).sample t0).2 (by simp [Prog.new, Prog.sample]) (by simp [Prog.new, Prog.sample]) ts t
  have hs : ((Prog.new N).sample t0).2 = ⟨true, 0, t0, N, 0⟩ := by simp [Prog.new, Prog.sample]
  have hne : (((Prog.new N).sample t0).2.samples (ts ++ [t])).1 ≠ [] := by
    intro h'; rw [h'] at h; simp at h
  simp only [Prog.samples]
  rw [List.getLast?_cons, List.getLast?_eq_some_getLast hne] at *
  simp only [Option.getD_some]
  rw [h, hs]
  simp

/-- **C134, the claim**: a loop that calls `sample()` once in each of its `n` iterations, as the documentation shows, ends with the report `n / n`. -/
def C134_claim : Prop := ∀ (n : ℕ) (ts : List ℚ), 0 < n → ts.length = n →
  ∃ r, ((Prog.new n).samples ts).1.getLast? = some (.printed r) ∧ r.iteration = r.numIterations

/-- **C134** is false: such a loop never shows more than `n - 1` of `n`, and nothing at all in the first iteration. -/
theorem C134_negation : ¬ C134_claim := by
  intro h
  obtain ⟨r, hr, _⟩ := h 1 [0] (by norm_num) rfl
  simp [Prog.samples, Prog.sample, Prog.new] at hr

/-- for every loop with at least two iterations the last report shows one iteration too few -/
theorem C134_one_short (n : ℕ) (hn : 2 ≤ n) (ts : List ℚ) (hl : ts.length = n) :
    ∃ r, ((Prog.new n).samples ts).1.getLast? = some (.printed r) ∧ r.iteration = r.numIterations - 1 := by
  rcases ts with _ | ⟨t0, ts⟩
  · simp at hl; omega
  · rcases List.eq_nil_or_concat ts with rfl | ⟨us, t, rfl⟩
    · simp at hl; omega
    · refine ⟨_, by rw [List.concat_eq_append]; exact C134_report n t0 us t, ?_⟩
      simp at hl
      simp only
      omega

/-! ## `Progress2` -/

theorem samples2_state (p : Prog) (hp : p.started = true) : ∀ (ts : List (ℚ × ℤ)),
    (p.samples2 ts).2.started = true ∧ (p.samples2 ts).2.startTime = p.startTime ∧ (p.samples2 ts).2.numIterations = p.numIterations ∧
      (p.samples2 ts).2.iteration = p.iteration + (ts.map Prod.snd).sum
  | [] => by simp [Prog.samples2, hp]
  | (u, k) :: ts => by
    have hs : (p.sample2 u k).2 = { p with iteration := p.iteration + k, elapsed := u - p.startTime } := by
      unfold Prog.sample2
      rw [if_pos hp]
      simp only
      split <;> rfl
    obtain ⟨h1, h2, h3, h4⟩ := samples2_state (p.sample2 u k).2 (by rw [hs]; exact hp) ts
    simp only [Prog.samples2]
    refine ⟨h1, h2.trans (by rw [hs]), h3.trans (by rw [hs]), h4.trans ?_⟩
    rw [hs]
    simp; ring

/-- **C134** The counts of `Progress2`: after `sample(k₀)` at `t₀` and any further samples `(tᵢ, kᵢ)`, the sample `(t, k)` raises ZeroDivisionError iff `Σ kᵢ + k = 0` (`k₀` does not count); otherwise it shows `Σ kᵢ + k`,
and the time remaining is the mean time of a step times the steps that are left, split into hours, minutes and seconds. -/
theorem C134_steps (N k0 : ℤ) (t0 : ℚ) (ts : List (ℚ × ℤ)) (t : ℚ) (k : ℤ) :
    let i := (ts.map Prod.snd).sum + k
    let out := (((Prog.new N).samples2 ((t0, k0) :: ts)).2.sample2 t k).1
    (i = 0 → out = .raised) ∧
    (i ≠ 0 → ∃ r, out = .printed r ∧ r.iteration = i ∧ r.numIterations = N ∧
      ∃ (h m : ℤ) (s : ℚ), (N - i : ℤ) * ((t - t0) / i) = 3600 * h + 60 * m + s ∧ 0 ≤ m ∧ m < 60 ∧ 0 ≤ s ∧ s < 60 ∧
        r.hours = (if 0 < h then some h else none) ∧ r.minutes = (if 0 < m then some m else none) ∧ r.seconds = (if 0 < s then some ⌊s⌋ else none)) := by
  intro i out
  obtain ⟨a1, a2, a3, a4⟩ := samples2_state ((Prog.new N).sample2 t0 k0).2 (by simp [Prog.new, Prog.sample2]) ts
  have hs : ((Prog.new N).sample2 t0 k0).2 = ⟨true, 0, t0, N, 0⟩ := by simp [Prog.new, Prog.sample2]
  rw [hs] at a1 a2 a3 a4
  simp only at a2 a3 a4
  have hst : ((Prog.new N).samples2 ((t0, k0) :: ts)).2 = ((⟨true, 0, t0, N, 0⟩ : Prog).samples2 ts).2 := by
    simp only [Prog.samples2, hs]
  have hout : out = (((⟨true, 0, t0, N, 0⟩ : Prog).samples2 ts).2.sample2 t k).1 := by simp only [out, hst]
  clear_value out
  subst hout
  generalize ((⟨true, 0, t0, N, 0⟩ : Prog).samples2 ts).2 = q at *
  have hqi : q.iteration + k = i := by rw [a4]; simp [i]
  clear_value i
  unfold Prog.sample2
  rw [if_pos a1]
  simp only [hqi, a2, a3]
  constructor
  · intro h0
    rw [if_pos h0]
  · intro h0
    rw [if_neg h0]
    have hiq : (i : ℚ) ≠ 0 := by exact_mod_cast h0
    refine ⟨_, rfl, rfl, rfl, (divmod60 (divmod60 (N * ((t - t0) / i) - (t - t0))).1).1,
      (divmod60 (N * ((t - t0) / i) - (t - t0))).1 - 60 * (divmod60 (divmod60 (N * ((t - t0) / i) - (t - t0))).1).1, (divmod60 (N * ((t - t0) / i) - (t - t0))).2, ?_, ?_, ?_, ?_, ?_, rfl, rfl, rfl⟩
    · simp only [divmod60]
      push_cast
      field_simp
      ring
    · simp only [divmod60]
      have := Int.floor_le ((((⌊(N * ((t - t0) / i) - (t - t0)) / 60⌋ : ℤ)) : ℚ) / 60)
      have h2 : ((60 * ⌊(((⌊(N * ((t - t0) / i) - (t - t0)) / 60⌋ : ℤ)) : ℚ) / 60⌋ : ℤ) : ℚ) ≤ ((⌊(N * ((t - t0) / i) - (t - t0)) / 60⌋ : ℤ) : ℚ) := by push_cast; linarith
      have h3 : 60 * ⌊(((⌊(N * ((t - t0) / i) - (t - t0)) / 60⌋ : ℤ)) : ℚ) / 60⌋ ≤ ⌊(N * ((t - t0) / i) - (t - t0)) / 60⌋ := by exact_mod_cast h2
      omega
    · simp only [divmod60]
      have := Int.lt_floor_add_one ((((⌊(N * ((t - t0) / i) - (t - t0)) / 60⌋ : ℤ)) : ℚ) / 60)
      have h2 : ((⌊(N * ((t - t0) / i) - (t - t0)) / 60⌋ : ℤ) : ℚ) < ((60 * ⌊(((⌊(N * ((t - t0) / i) - (t - t0)) / 60⌋ : ℤ)) : ℚ) / 60⌋ + 60 : ℤ) : ℚ) := by push_cast; linarith
      have h3 : ⌊(N * ((t - t0) / i) - (t - t0)) / 60⌋ < 60 * ⌊(((⌊(N * ((t - t0) / i) - (t - t0)) / 60⌋ : ℤ)) : ℚ) / 60⌋ + 60 := by exact_mod_cast h2
      omega
    · simp only [divmod60]
      have := Int.floor_le ((N * ((t - t0) / i) - (t - t0)) / 60)
      linarith
    · simp only [divmod60]
      have := Int.lt_floor_add_one ((N * ((t - t0) / i) - (t - t0)) / 60)
      linarith

/-- the whole seconds shown: hours, minutes and seconds that are not shown count as zero -/
def Report2.remaining (r : Report2) : ℤ := 3600 * r.hours.getD 0 + 60 * r.minutes.getD 0 + r.seconds.getD 0

/-- **C134, refuted (remaining time)**: after more steps than announced the time shown is not zero. -/
def C134_overrun_claim : Prop := ∀ (N k0 : ℤ) (t0 : ℚ) (ts : List (ℚ × ℤ)) (t : ℚ) (k : ℤ) (r : Report2), t0 ≤ t → N ≤ (ts.map Prod.snd).sum + k →
  (((Prog.new N).samples2 ((t0, k0) :: ts)).2.sample2 t k).1 = .printed r → r.remaining = 0

theorem C134_overrun_negation : ¬ C134_overrun_claim := by
  intro h
  have h1 := h 1 1 0 [] 2 2 ⟨2, 1, none, some 59, some 59⟩ (by norm_num) (by norm_num) (by
    have e1 : ((2 : ℚ) / 2 - 2) / 60 = -1 / 60 := by norm_num
    have f1 : ⌊(-1 / 60 : ℚ)⌋ = -1 := by rw [Int.floor_eq_iff]; norm_num
    have f2 : ⌊((-1 : ℤ) : ℚ) / 60⌋ = -1 := by rw [Int.floor_eq_iff]; norm_num
    simp only [Prog.new, Prog.samples2, Prog.sample2, divmod60]
    norm_num)
  simp [Report2.remaining] at h1

/-- **C134, the part that holds**: while no more steps than announced are done and the clock has not gone back, the time shown is the remaining time cut off to whole seconds. -/
theorem C134_remaining_partial (N k0 : ℤ) (t0 : ℚ) (ts : List (ℚ × ℤ)) (t : ℚ) (k : ℤ) (ht : t0 ≤ t) (h0 : 0 < (ts.map Prod.snd).sum + k) (hN : (ts.map Prod.snd).sum + k ≤ N) :
    ∃ r, (((Prog.new N).samples2 ((t0, k0) :: ts)).2.sample2 t k).1 = .printed r ∧
      r.remaining = ⌊((N - ((ts.map Prod.snd).sum + k) : ℤ) : ℚ) * ((t - t0) / ((ts.map Prod.snd).sum + k : ℤ))⌋ := by
  obtain ⟨r, hr, _, _, h, m, s, he, m0, m1, s0, s1, hh, hm, hs⟩ := (C134_steps N k0 t0 ts t k).2 (by omega)
  refine ⟨r, hr, ?_⟩
  rw [he]
  have hpos : 0 ≤ ((N - ((ts.map Prod.snd).sum + k) : ℤ) : ℚ) * ((t - t0) / ((ts.map Prod.snd).sum + k : ℤ)) := by
    refine mul_nonneg (by exact_mod_cast (by omega : 0 ≤ N - ((ts.map Prod.snd).sum + k))) (div_nonneg (by linarith) (by exact_mod_cast h0.le))
  rw [he] at hpos
  have h0' : 0 ≤ h := by
    by_contra hc
    have : (h : ℚ) ≤ -1 := by exact_mod_cast (by omega : h ≤ -1)
    have : (m : ℚ) ≤ 59 := by exact_mod_cast (by omega : m ≤ 59)
    linarith
  have e1 : r.hours.getD 0 = h := by
    rw [hh]; split
    · rfl
    · simp; omega
  have e2 : r.minutes.getD 0 = m := by
    rw [hm]; split
    · rfl
    · simp; omega
  have e3 : r.seconds.getD 0 = ⌊s⌋ := by
    rw [hs]; split
    · rfl
    · have : s = 0 := le_antisymm (not_lt.mp ‹_›) s0
      simp [this]
  unfold Report2.remaining
  rw [e1, e2, e3]
  symm
  rw [Int.floor_eq_iff]
  push_cast
  have := Int.floor_le s
  have := Int.lt_floor_add_one s
  constructor <;> linarith

/-- **C134** After `reset(n)` (`n ≠ -1`) the reporter is as good as a new one for `n` iterations, and after `reset()` as a new one for as many as before: all later reports are the same. -/
theorem C134_reset (p : Prog) (n : ℤ) (ts : List (ℚ × ℤ)) :
    (n ≠ -1 → (p.reset n).samples2 ts = (Prog.new n).samples2 ts) ∧ ((p.reset (-1)).samples2 ts = (Prog.new p.numIterations).samples2 ts) := by
  constructor
  · intro h; simp [Prog.reset, h, Prog.new]
  · simp [Prog.reset, Prog.new]

/-- a history that meets the hypotheses: 3 of 10 steps done after 30 s; 70 s remain -/
example : ∃ r, (((Prog.new 10).samples2 [(0, 1), (10, 1)]).2.sample2 30 2).1 = .printed r ∧ r.remaining = 70 := by
  obtain ⟨r, hr, h⟩ := C134_remaining_partial 10 1 0 [(10, 1)] 30 2 (by norm_num) (by norm_num) (by norm_num)
  refine ⟨r, hr, h.trans ?_⟩
  norm_num

end Verif.Python
