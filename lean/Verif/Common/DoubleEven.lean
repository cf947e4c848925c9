import Verif.Common.DoubleReal

/-!
# The default rounding of IEEE 754: to the nearest double, ties to the even one
-/

namespace Verif.Common

section

variable {α : Type*} [Field α] [LinearOrder α] [IsStrictOrderedRing α] [FloorRing α]

/-- the nearest integer, ties to the even one -/
def roundEven (y : α) : ℤ :=
  if y - ⌊y⌋ < 1 / 2 then ⌊y⌋
  else if 1 / 2 < y - ⌊y⌋ then ⌊y⌋ + 1
  else if ⌊y⌋ % 2 = 0 then ⌊y⌋ else ⌊y⌋ + 1

theorem roundEven_near (y : α) (n : ℤ) : |(roundEven y : α) - y| ≤ |(n : α) - y| := by
  have f1 := Int.floor_le y
  have f2 := Int.lt_floor_add_one y
  have hn : (n : α) ≤ ⌊y⌋ ∨ (⌊y⌋ : α) + 1 ≤ n := by
    rcases le_or_gt n ⌊y⌋ with h | h
    · left; exact_mod_cast h
    · right; exact_mod_cast h
  have lo : |((⌊y⌋ : ℤ) : α) - y| = y - ⌊y⌋ := by rw [abs_of_nonpos (by linarith)]; ring
  have hi : |((⌊y⌋ + 1 : ℤ) : α) - y| = ⌊y⌋ + 1 - y := by push_cast; rw [abs_of_nonneg (by linarith)]
  have hz : |(n : α) - y| ≥ y - ⌊y⌋ ∨ |(n : α) - y| ≥ ⌊y⌋ + 1 - y := by
    rcases hn with h | h
    · left; rw [abs_of_nonpos (by linarith)]; linarith
    · right; rw [abs_of_nonneg (by linarith)]; linarith
  unfold roundEven
  split_ifs with h1 h2 h3 <;> first | rw [lo] | rw [hi]
  all_goals rcases hz with h | h <;> linarith

theorem roundEven_neg (y : α) : roundEven (-y) = -roundEven y := by
  have f1 := Int.floor_le y
  have f2 := Int.lt_floor_add_one y
  rcases f1.eq_or_lt with h | h
  · have e : ⌊-y⌋ = -⌊y⌋ := by
      rw [Int.floor_eq_iff]
      push_cast
      constructor <;> linarith
    unfold roundEven
    rw [e, if_pos (by push_cast; linarith), if_pos (by linarith)]
  · have e : ⌊-y⌋ = -⌊y⌋ - 1 := by
      rw [Int.floor_eq_iff]
      push_cast
      constructor <;> linarith
    unfold roundEven
    rw [e]
    push_cast
    split_ifs <;> first | omega | (exfalso; linarith)

end

/-- round to nearest, ties to even -/
def rndEven (x : ℚ) : ℚ := roundEven (x / 2 ^ ulpExp x) * 2 ^ ulpExp x

/-- the same for reals -/
noncomputable def rndEvenReal (x : ℝ) : ℚ := roundEven (x / 2 ^ ulpExpR x) * 2 ^ ulpExpR x

theorem rndEven_neg (x : ℚ) : rndEven (-x) = -rndEven x := by
  have e : ulpExp (-x) = ulpExp x := by unfold ulpExp; rw [abs_neg]
  unfold rndEven
  rw [e, neg_div, roundEven_neg]
  push_cast
  ring

theorem rndEvenReal_rat (q : ℚ) : rndEvenReal q = rndEven q := by
  have he : ulpExpR q = ulpExp q := by
    unfold ulpExpR ulpExp
    rw [← log_cast |q|]
    push_cast
    rfl
  unfold rndEvenReal rndEven
  rw [he]
  congr 2
  have hc : (q : ℝ) / 2 ^ ulpExp q = ((q / 2 ^ ulpExp q : ℚ) : ℝ) := by push_cast; rfl
  rw [hc]
  generalize q / 2 ^ ulpExp q = y
  have hf : ⌊(y : ℝ)⌋ = ⌊y⌋ := Rat.floor_cast y
  have h1 : ((y : ℝ) - ⌊y⌋ < 1 / 2) ↔ (y - ⌊y⌋ < 1 / 2) := by
    have : (y : ℝ) - ⌊y⌋ < 1 / 2 ↔ ((y - ⌊y⌋ : ℚ) : ℝ) < ((1 / 2 : ℚ) : ℝ) := by push_cast; rfl
    rw [this]; exact Rat.cast_lt
  have h2 : ((1 / 2 : ℝ) < (y : ℝ) - ⌊y⌋) ↔ (1 / 2 < y - ⌊y⌋) := by
    have : (1 / 2 : ℝ) < (y : ℝ) - ⌊y⌋ ↔ ((1 / 2 : ℚ) : ℝ) < ((y - ⌊y⌋ : ℚ) : ℝ) := by push_cast; rfl
    rw [this]; exact Rat.cast_lt
  unfold roundEven
  rw [hf]
  simp only [h1, h2]

theorem isRndR_rndEvenReal : IsRndR rndEvenReal := by
  have hN := isRndR_rndReal
  constructor
  · intro x
    have p0 : (0 : ℝ) < 2 ^ ulpExpR x := by positivity
    have key : |x / 2 ^ ulpExpR x| ≤ 2 ^ 53 := by
      rw [abs_div, abs_of_pos p0, div_le_iff₀ p0]
      have l2 := Int.lt_zpow_succ_log_self (b := 2) (by norm_num) |x|
      push_cast at l2
      refine l2.le.trans ?_
      have : (2 : ℝ) ^ 53 = 2 ^ (53 : ℤ) := by norm_cast
      rw [this, ← zpow_add₀ (by norm_num)]
      apply zpow_le_zpow_right₀ (by norm_num)
      unfold ulpExpR; omega
    have hb : |roundEven (x / 2 ^ ulpExpR x)| ≤ 2 ^ 53 := by
      generalize x / 2 ^ ulpExpR x = y at key
      have h1 := roundEven_near y (2 ^ 53)
      have h2 := roundEven_near y (-2 ^ 53)
      push_cast at h1 h2
      have k1 := abs_le.1 key
      rw [abs_of_nonneg (a := 9007199254740992 - y) (by linarith [k1.2])] at h1
      rw [abs_of_nonpos (a := -9007199254740992 - y) (by linarith [k1.1])] at h2
      have a1 := (abs_le.1 h1).2
      have a2 := (abs_le.1 h2).1
      rw [abs_le]
      constructor
      · have : (-2 ^ 53 : ℝ) ≤ roundEven y := by linarith
        exact_mod_cast this
      · have : (roundEven y : ℝ) ≤ 2 ^ 53 := by linarith
        exact_mod_cast this
    have he : -1074 ≤ ulpExpR x := by unfold ulpExpR; omega
    unfold rndEvenReal
    rcases hb.lt_or_eq with hlt | heq
    · exact ⟨_, _, hlt, he, rfl⟩
    · rcases (abs_eq (by norm_num)).mp heq with h1 | h1
      · refine ⟨1, 53 + ulpExpR x, by norm_num, by omega, ?_⟩
        rw [h1, zpow_add₀ (by norm_num)]; norm_num
      · refine ⟨-1, 53 + ulpExpR x, by norm_num, by omega, ?_⟩
        rw [h1, zpow_add₀ (by norm_num)]; norm_num
  · intro x z hz
    refine le_trans ?_ (hN.near x z hz)
    have p0 : (0 : ℝ) < 2 ^ ulpExpR x := by positivity
    have h1 := roundEven_near (x / 2 ^ ulpExpR x) (round (x / 2 ^ ulpExpR x))
    have e : ∀ n : ℤ, ((n : ℝ) * 2 ^ ulpExpR x - x) = ((n : ℝ) - x / 2 ^ ulpExpR x) * 2 ^ ulpExpR x := by
      intro n; field_simp
    have e1 : ((rndEvenReal x : ℚ) : ℝ) = (roundEven (x / 2 ^ ulpExpR x) : ℝ) * 2 ^ ulpExpR x := by
      unfold rndEvenReal; push_cast; rfl
    have e2 : ((rndReal x : ℚ) : ℝ) = (round (x / 2 ^ ulpExpR x) : ℝ) * 2 ^ ulpExpR x := by
      unfold rndReal; push_cast; rfl
    rw [e1, e2, e, e, abs_mul, abs_mul]
    gcongr

theorem isRnd_rndEven : IsRnd rndEven := by
  have := isRndR_rndEvenReal.rat
  rwa [show (fun q : ℚ => rndEvenReal q) = rndEven from funext rndEvenReal_rat] at this

end Verif.Common
