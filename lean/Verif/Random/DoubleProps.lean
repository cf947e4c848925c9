import Verif.Random.Double
import Verif.Random.Props

/-!
# C84 on all doubles: bounds that are far apart
-/

namespace Verif.Random

open Verif.Common

variable {E D : Type}

/-- what a user expects of `randLU` on doubles: for finite bounds `lo < hi` the result is a number between them -/
def C84_double_claim : Prop :=
  ∀ (E D : Type) (L : Lib E D) (rnd : ℚ → ℚ), IsRnd rnd → ∀ (s : St E D) (lo hi : ℚ), IsDoubleVal (.fin lo) → IsDoubleVal (.fin hi) →
    lo < hi → ∃ x, (s.randLUDouble L rnd (.fin lo) (.fin hi)).1 = .fin x ∧ lo ≤ x ∧ x ≤ hi

/-- **C84, what holds** on doubles: if the difference of the (finite) bounds does not overflow, `randLU` is the double computed in
`C84_range_partial`: a finite number between the bounds. -/
theorem C84_double_partial (L : Lib E D) (rnd : ℚ → ℚ) (h : IsRnd rnd) (s : St E D) (lo hi : ℚ) (hlo : IsDoubleVal (.fin lo))
    (hhi : IsDoubleVal (.fin hi)) (hle : lo ≤ hi) (hd : rnd (hi - lo) < 2 ^ 1024) :
    ∃ x, (s.randLUDouble L rnd (.fin lo) (.fin hi)).1 = .fin x ∧ (step L rnd s (.randLU lo hi)).1 = .num x ∧ lo ≤ x ∧ x ≤ hi ∧
      IsDouble x ∧ (s.randLUDouble L rnd (.fin lo) (.fin hi)).2 = (step L rnd s (.randLU lo hi)).2 := by
  obtain ⟨x, hx, h1, h2, -⟩ := C84_range_partial L rnd h s lo hi hlo.1 hhi.1 hle
  have hxe : x = luValue rnd ((L.next s.eng).1 / 2 ^ 32) lo hi := by
    simp only [step, Out.num.injEq] at hx; exact hx.symm
  obtain ⟨hu0, hu1⟩ := sample_bounds (L.next_lt s.eng)
  refine ⟨x, ?_, hx, h1, h2, ?_, rfl⟩
  · have hr0 : 0 ≤ rnd (hi - lo) := h.nonneg (sub_nonneg.2 hle)
    have hr : rounded rnd (.fin (hi - lo)) = .fin (rnd (hi - lo)) := by
      simp only [rounded]; rw [if_pos (by rw [abs_of_nonneg hr0]; exact hd)]
    have hp0 : 0 ≤ rnd ((L.next s.eng).1 / 2 ^ 32 * rnd (hi - lo)) := h.nonneg (mul_nonneg hu0 hr0)
    have hp1 : rnd ((L.next s.eng).1 / 2 ^ 32 * rnd (hi - lo)) ≤ rnd (hi - lo) := by
      apply h.le_of_le (h.mem _)
      calc (L.next s.eng).1 / 2 ^ 32 * rnd (hi - lo) ≤ 1 * rnd (hi - lo) :=
            mul_le_mul_of_nonneg_right (hu1.trans (by norm_num)) hr0
        _ = _ := one_mul _
    have hp : rounded rnd (.fin ((L.next s.eng).1 / 2 ^ 32 * rnd (hi - lo))) = .fin (rnd ((L.next s.eng).1 / 2 ^ 32 * rnd (hi - lo))) := by
      simp only [rounded]; rw [if_pos (by rw [abs_of_nonneg hp0]; exact lt_of_le_of_lt hp1 hd)]
    have hs : |x| < tooBig := by
      have a := abs_lt.1 hlo.2
      have b := abs_lt.1 hhi.2
      exact abs_lt.2 ⟨by linarith, by linarith⟩
    simp only [St.randLUDouble, St.uniform, luDouble, fsub, fmul, fadd, Fp.sub, Fp.neg, Fp.add, Fp.mul]
    rw [← sub_eq_add_neg, hr]
    simp only [Fp.mul]
    rw [hp]
    simp only [Fp.add, rounded]
    unfold luValue at hxe
    rw [← hxe, if_pos hs]
  · rw [hxe]; exact h.mem _

/-- **C84** If the difference overflows, the result is never a number: NaN if the sample is zero, and infinite for every other
sample. -/
theorem C84_overflow (L : Lib E D) (rnd : ℚ → ℚ) (h : IsRnd rnd) (s : St E D) (lo hi : ℚ) (hle : lo ≤ hi)
    (hd : 2 ^ 1024 ≤ rnd (hi - lo)) :
    ((s.uniform L).1 = 0 → (s.randLUDouble L rnd (.fin lo) (.fin hi)).1 = .nan) ∧
    ((s.uniform L).1 ≠ 0 → (s.randLUDouble L rnd (.fin lo) (.fin hi)).1 = .inf false) := by
  obtain ⟨hu0, -⟩ := sample_bounds (L.next_lt s.eng)
  have hr0 : 0 ≤ rnd (hi - lo) := h.nonneg (sub_nonneg.2 hle)
  have hr : rounded rnd (.fin (hi - lo)) = .inf false := by
    simp only [rounded]
    rw [if_neg (by rw [abs_of_nonneg hr0]; exact not_lt.2 hd)]
    simp [hle]
  have hs : (fsub rnd (.fin hi) (.fin lo)) = .inf false := by
    simp only [fsub, Fp.sub, Fp.neg, Fp.add]
    rw [← sub_eq_add_neg, hr]
  constructor
  · intro h0
    simp only [St.randLUDouble, luDouble, hs, h0, fmul, Fp.mul, if_pos, rounded, fadd, Fp.add]
  · intro h0
    have hneg : ¬ ((s.uniform L).1 < 0) := not_lt.2 hu0
    simp only [St.randLUDouble, luDouble, hs, fmul, Fp.mul, if_neg h0, rounded, fadd, Fp.add]
    simp [hneg]

/-- the largest double, `DBL_MAX` -/
def dblMax : ℚ := (2 ^ 53 - 1) * 2 ^ 971

theorem dblMax_facts : IsDouble dblMax ∧ 2 * limit ≤ dblMax ∧ dblMax < tooBig := by
  refine ⟨⟨2 ^ 53 - 1, 971, by norm_num, by norm_num, ?_⟩, ?_, ?_⟩
  · unfold dblMax
    rw [show (971 : ℤ) = ((971 : ℕ) : ℤ) by rfl, zpow_natCast]; push_cast; ring
  · unfold limit dblMax
    rw [show 1022 = 51 + 971 from rfl, pow_add, ← mul_assoc]
    exact mul_le_mul_of_nonneg_right (by norm_num) (by positivity)
  · unfold tooBig dblMax
    rw [show 1024 = 53 + 971 from rfl, pow_add]
    exact mul_lt_mul_of_pos_right (by norm_num) (by positivity)

/-- **C84** The expectation is false on doubles: `randLU(-DBL_MAX, DBL_MAX)` is always infinite or NaN. -/
theorem C84_double_negation : ¬ C84_double_claim ∧
    ∀ (L : Lib E D) (rnd : ℚ → ℚ), IsRnd rnd → ∀ s : St E D,
      ((s.randLUDouble L rnd (.fin (-dblMax)) (.fin dblMax)).1).isFinite = false := by
  obtain ⟨hD, h1, h2⟩ := dblMax_facts
  have hl := limit_pos
  have h4 := four_limit
  have key : ∀ {E D : Type} (L : Lib E D) (rnd : ℚ → ℚ), IsRnd rnd → ∀ s : St E D,
      ((s.randLUDouble L rnd (.fin (-dblMax)) (.fin dblMax)).1).isFinite = false := by
    intro E D L rnd h s
    have hp : tooBig ≤ rnd (dblMax - -dblMax) := by
      apply h.ge_of_ge
      · rw [h4, show 4 * limit = 2 * (2 * limit) by ring]; exact two_mul_double double_two_limit
      · linarith
    obtain ⟨a, b⟩ := C84_overflow L rnd h s (-dblMax) dblMax (by linarith) hp
    by_cases h0 : (s.uniform L).1 = 0
    · rw [a h0]; rfl
    · rw [b h0]; rfl
  refine ⟨fun hc => ?_, key⟩
  have hb : |dblMax| < tooBig := by rw [abs_of_pos (by linarith)]; exact h2
  obtain ⟨x, hx, -⟩ := hc ℕ (Bool × ℚ) sampleLib rndNearest isRnd_rndNearest (St.start sampleLib) (-dblMax)
    dblMax ⟨hD.neg, by rw [abs_neg]; exact hb⟩ ⟨hD, hb⟩ (by linarith)
  have := key sampleLib rndNearest isRnd_rndNearest (St.start sampleLib)
  rw [hx] at this
  simp [Fp.isFinite] at this

/-- Concrete: the bounds 0 and 1 do not overflow, ±DBL_MAX do (above). -/
example : IsDoubleVal (.fin 0) ∧ IsDoubleVal (.fin 1) ∧ rndNearest (1 - 0) < 2 ^ 1024 := by
  have h1 : IsDouble (1 : ℚ) := by simpa using isDouble_int 1 (by norm_num)
  have ht : (1 : ℚ) < tooBig := one_lt_pow₀ (by norm_num) (by norm_num)
  refine ⟨⟨by simpa using isDouble_int 0 (by norm_num), by simpa [tooBig] using (by linarith : (0 : ℚ) < tooBig)⟩, ⟨h1, by rw [abs_one]; exact ht⟩, ?_⟩
  rw [sub_zero, isRnd_rndNearest.fix h1]; exact ht

end Verif.Random
