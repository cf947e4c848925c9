import Verif.Common.Ptime

/-!
# C155: ptimeToTimeval
-/

namespace Verif.Common.Ptime

/-- a `timeval` stands for the time `n` ticks after the epoch, `res` ticks in a second: as POSIX wants it, with 0 to 999999 microseconds, to the microsecond -/
def StandsFor (tv : Timeval) (res n : ℤ) : Prop :=
  0 ≤ tv.usec ∧ tv.usec < 10 ^ 6 ∧ (tv.sec * 10 ^ 6 + tv.usec) * res ≤ n * 10 ^ 6 ∧ n * 10 ^ 6 < (tv.sec * 10 ^ 6 + tv.usec + 1) * res

/-- what users expect -/
def C155_claim : Prop := ∀ (bits : ℕ) (res ticks : ℤ), bits = 32 ∨ bits = 64 → res = 10 ^ 6 ∨ res = 10 ^ 9 → -2 ^ 63 ≤ ticks → ticks < 2 ^ 63 →
  ∃ tv, ptimeToTimeval bits res ticks = .returns tv ∧ StandsFor tv res ticks

/-- **C155** that is false, for every argument: the function has no `return`. -/
theorem C155_negation : ¬ C155_claim ∧ ∀ bits res ticks tv, ptimeToTimeval bits res ticks ≠ .returns tv := by
  have h : ∀ bits res ticks tv, ptimeToTimeval bits res ticks ≠ .returns tv := fun _ _ _ _ h => nomatch h
  refine ⟨fun hc => ?_, h⟩
  obtain ⟨tv, h1, -⟩ := hc 64 (10 ^ 6) 0 (.inr rfl) (.inl rfl) (by norm_num) (by norm_num)
  exact h _ _ _ _ h1

theorem wrap_id {bits : ℕ} {n : ℤ} (hb : 0 < bits) (h1 : -2 ^ (bits - 1) ≤ n) (h2 : n < 2 ^ (bits - 1)) : wrap bits n = n := by
  obtain ⟨b, rfl⟩ : ∃ b, bits = b + 1 := ⟨bits - 1, by omega⟩
  unfold wrap
  simp only [Nat.add_sub_cancel] at *
  have h3 : (2 : ℤ) ^ (b + 1) = 2 * 2 ^ b := by ring
  rw [Int.emod_eq_of_lt (by linarith) (by rw [h3]; linarith)]
  ring

theorem tdm (n r : ℤ) : (0 ≤ n → n.tdiv r = n / r ∧ n.tmod r = n % r) ∧ (n < 0 → n.tdiv r = -((-n) / r) ∧ n.tmod r = -((-n) % r)) := by
  constructor
  · intro h
    exact ⟨Int.tdiv_eq_ediv_of_nonneg h, Int.tmod_eq_emod_of_nonneg h⟩
  · intro h
    have h' : 0 ≤ -n := by linarith
    refine ⟨?_, ?_⟩
    · rw [← Int.tdiv_eq_ediv_of_nonneg h', Int.neg_tdiv, neg_neg]
    · rw [← Int.tmod_eq_emod_of_nonneg h', Int.neg_tmod, neg_neg]

/-- **C155, what holds** of the value that the function computes and forgets, with microsecond ticks and 64-bit seconds (Boost since 1.67): it adds up to
the time, for every time; and it is the `timeval` that stands for the time exactly if the time is not before the epoch, or a whole number of seconds. -/
theorem C155_locals_partial (ticks : ℤ) (h1 : -2 ^ 63 ≤ ticks) (h2 : ticks < 2 ^ 63) :
    (locals 64 (10 ^ 6) ticks).sec * 10 ^ 6 + (locals 64 (10 ^ 6) ticks).usec = ticks ∧
    -10 ^ 6 < (locals 64 (10 ^ 6) ticks).usec ∧ (locals 64 (10 ^ 6) ticks).usec < 10 ^ 6 ∧
    (StandsFor (locals 64 (10 ^ 6) ticks) (10 ^ 6) ticks ↔ 0 ≤ ticks ∨ (10 ^ 6 : ℤ) ∣ ticks) := by
  have hw : wrap 64 (ticks.tdiv (10 ^ 6)) = ticks.tdiv (10 ^ 6) := by
    rcases le_or_gt 0 ticks with h | h
    · rw [((tdm ticks (10 ^ 6)).1 h).1]
      apply wrap_id (by norm_num) <;> norm_num at * <;> omega
    · rw [((tdm ticks (10 ^ 6)).2 h).1]
      apply wrap_id (by norm_num) <;> norm_num at * <;> omega
  have hs : (locals 64 (10 ^ 6) ticks).sec = ticks.tdiv (10 ^ 6) := hw
  have hu : (locals 64 (10 ^ 6) ticks).usec = ticks.tmod (10 ^ 6) := rfl
  unfold StandsFor
  rw [hs, hu]
  clear hs hu hw
  rcases le_or_gt 0 ticks with h | h
  · rw [((tdm ticks (10 ^ 6)).1 h).1, ((tdm ticks (10 ^ 6)).1 h).2]
    norm_num at *
    omega
  · rw [((tdm ticks (10 ^ 6)).2 h).1, ((tdm ticks (10 ^ 6)).2 h).2]
    norm_num at *
    omega

/-- **C155, what holds**, with 32-bit seconds (Boost before 1.67): it adds up exactly between 1901-12-13 20:45:51.000001 and 2038-01-19 03:14:07.999999. -/
theorem C155_seconds32_partial (ticks : ℤ) (h1 : -2 ^ 63 ≤ ticks) (h2 : ticks < 2 ^ 63) :
    (locals 32 (10 ^ 6) ticks).sec * 10 ^ 6 + (locals 32 (10 ^ 6) ticks).usec = ticks ↔
      -(2 ^ 31 + 1) * 10 ^ 6 < ticks ∧ ticks < 2 ^ 31 * 10 ^ 6 := by
  have hs : (locals 32 (10 ^ 6) ticks).sec = wrap 32 (ticks.tdiv (10 ^ 6)) := rfl
  have hu : (locals 32 (10 ^ 6) ticks).usec = ticks.tmod (10 ^ 6) := rfl
  rw [hs, hu]
  clear hs hu
  unfold wrap
  rcases le_or_gt 0 ticks with h | h
  · rw [((tdm ticks (10 ^ 6)).1 h).1, ((tdm ticks (10 ^ 6)).1 h).2]
    norm_num at *
    omega
  · rw [((tdm ticks (10 ^ 6)).2 h).1, ((tdm ticks (10 ^ 6)).2 h).2]
    norm_num at *
    omega

/-- **C155, what holds**, with nanosecond ticks: the second is right, but the field for microseconds holds nanoseconds, which is right exactly for whole seconds. -/
theorem C155_nanoseconds_partial (ticks : ℤ) (h1 : 0 ≤ ticks) (h2 : ticks < 2 ^ 63) :
    (locals 64 (10 ^ 9) ticks).sec * 10 ^ 9 + (locals 64 (10 ^ 9) ticks).usec = ticks ∧
    (StandsFor (locals 64 (10 ^ 9) ticks) (10 ^ 9) ticks ↔ (10 ^ 9 : ℤ) ∣ ticks) := by
  have hw : wrap 64 (ticks.tdiv (10 ^ 9)) = ticks.tdiv (10 ^ 9) := by
    rcases le_or_gt 0 ticks with h | h
    · rw [((tdm ticks (10 ^ 9)).1 h).1]
      apply wrap_id (by norm_num) <;> norm_num at * <;> omega
    · rw [((tdm ticks (10 ^ 9)).2 h).1]
      apply wrap_id (by norm_num) <;> norm_num at * <;> omega
  have hs : (locals 64 (10 ^ 9) ticks).sec = ticks.tdiv (10 ^ 9) := hw
  have hu : (locals 64 (10 ^ 9) ticks).usec = ticks.tmod (10 ^ 9) := rfl
  unfold StandsFor
  rw [hs, hu]
  clear hs hu hw
  rcases le_or_gt 0 ticks with h | h
  · rw [((tdm ticks (10 ^ 9)).1 h).1, ((tdm ticks (10 ^ 9)).1 h).2]
    norm_num at *
    omega
  · rw [((tdm ticks (10 ^ 9)).2 h).1, ((tdm ticks (10 ^ 9)).2 h).2]
    norm_num at *
    omega

/-- Concrete: half a second before the epoch, the field for microseconds is negative; 2038 with 32-bit seconds. -/
example : locals 64 (10 ^ 6) (-500000) = ⟨0, -500000⟩ ∧ locals 64 (10 ^ 6) 1500000 = ⟨1, 500000⟩ ∧ locals 32 (10 ^ 6) (2 ^ 31 * 10 ^ 6) = ⟨-2 ^ 31, 0⟩ := by decide

end Verif.Common.Ptime
