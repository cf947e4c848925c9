import Verif.Common.Numeric
import Mathlib.Tactic.Ring
import Mathlib.Tactic.NormNum
import Mathlib.Tactic.FieldSimp
import Mathlib.Tactic.LinearCombination

/-!
# Properties C13, C14, C15
-/

namespace Verif.Numeric

/-! ## C13 -/

/-- C13: for a positive tolerance all three comparisons return, and exactly one of them is true. -/
theorem C13_trichotomy (a b eps : ℝ) (he : eps > 0) :
    ∃ E G L : Prop, approximatelyEqual a b eps = .ok E ∧ definitelyGreaterThan a b eps = .ok G ∧
      definitelyLessThan a b eps = .ok L ∧
      (E ∨ G ∨ L) ∧ ¬(E ∧ G) ∧ ¬(E ∧ L) ∧ ¬(G ∧ L) := by
  refine ⟨_, _, _, by simp only [approximatelyEqual, if_pos he]; rfl,
    by simp only [definitelyGreaterThan, if_pos he]; rfl,
    by simp only [definitelyLessThan, if_pos he]; rfl, ?_, ?_, ?_, ?_⟩
  all_goals
    have hm : 0 ≤ maxTimesEpsilon a b eps :=
      mul_nonneg (le_trans (abs_nonneg a) (le_max_left _ _)) he.le
  · rcases le_or_gt |a - b| (maxTimesEpsilon a b eps) with h | h
    · exact Or.inl h
    · rcases abs_cases (a - b) with ⟨h1, _⟩ | ⟨h1, _⟩
      · right; left; linarith
      · right; right; linarith
  · rintro ⟨h1, h2⟩
    have := le_abs_self (a - b)
    linarith
  · rintro ⟨h1, h2⟩
    have := neg_abs_le (a - b)
    linarith
  · rintro ⟨h1, h2⟩
    linarith

/-- C13: a non-positive tolerance is always refused, by all three functions. -/
theorem C13_refuses (a b eps : ℝ) (he : eps ≤ 0) :
    approximatelyEqual a b eps = .error .invalidArgument ∧
    definitelyGreaterThan a b eps = .error .invalidArgument ∧
    definitelyLessThan a b eps = .error .invalidArgument := by
  have : ¬ eps > 0 := not_lt.2 he
  simp [approximatelyEqual, definitelyGreaterThan, definitelyLessThan, this]

/-- C13: order laws. `approximatelyEqual` is reflexive and symmetric, `>` is the converse of `<`,
a definite comparison implies the exact one, and `definitelyLessThan` is transitive. -/
theorem C13_laws (eps : ℝ) (he : eps > 0) :
    (∀ a, ∃ E, approximatelyEqual a a eps = .ok E ∧ E) ∧
    (∀ a b, approximatelyEqual a b eps = approximatelyEqual b a eps) ∧
    (∀ a b, definitelyGreaterThan a b eps = definitelyLessThan b a eps) ∧
    (∀ a b L, definitelyLessThan a b eps = .ok L → L → a < b) ∧
    (∀ a b c L1 L2, definitelyLessThan a b eps = .ok L1 → definitelyLessThan b c eps = .ok L2 →
      L1 → L2 → ∃ L3, definitelyLessThan a c eps = .ok L3 ∧ L3) := by
  refine ⟨?_, ?_, ?_, ?_, ?_⟩
  · intro a
    refine ⟨_, by simp only [approximatelyEqual, if_pos he]; rfl, ?_⟩
    simp only [sub_self, abs_zero]
    exact mul_nonneg (le_trans (abs_nonneg a) (le_max_left _ _)) he.le
  · intro a b
    simp only [approximatelyEqual, if_pos he, maxTimesEpsilon, abs_sub_comm a b, max_comm |a| |b|]
  · intro a b
    simp only [definitelyGreaterThan, definitelyLessThan, if_pos he, maxTimesEpsilon, max_comm |a| |b|]
  · intro a b L h hL
    simp only [definitelyLessThan, if_pos he, Except.ok.injEq] at h
    rw [← h] at hL
    have hm : 0 ≤ maxTimesEpsilon a b eps :=
      mul_nonneg (le_trans (abs_nonneg a) (le_max_left _ _)) he.le
    linarith
  · intro a b c L1 L2 h1 h2 g1 g2
    simp only [definitelyLessThan, if_pos he, Except.ok.injEq] at h1 h2
    rw [← h1] at g1
    rw [← h2] at g2
    refine ⟨_, by simp only [definitelyLessThan, if_pos he]; rfl, ?_⟩
    have e1 : |a| * eps ≤ maxTimesEpsilon a b eps :=
      mul_le_mul_of_nonneg_right (le_max_left _ _) he.le
    have e2 : |c| * eps ≤ maxTimesEpsilon b c eps :=
      mul_le_mul_of_nonneg_right (le_max_right _ _) he.le
    have p1 : 0 ≤ |a| * eps := mul_nonneg (abs_nonneg _) he.le
    have p2 : 0 ≤ |c| * eps := mul_nonneg (abs_nonneg _) he.le
    show maxTimesEpsilon a c eps < c - a
    unfold maxTimesEpsilon
    rcases max_cases |a| |c| with ⟨h, _⟩ | ⟨h, _⟩ <;> rw [h] <;> linarith

example : ∃ L, definitelyLessThan 1 2 (1 / 4) = .ok L ∧ L := by
  refine ⟨_, by simp only [definitelyLessThan]; rw [if_pos (by norm_num)], ?_⟩
  simp only [maxTimesEpsilon]; norm_num

/-! ## C14 -/

/-- C14 (proper quadratics): it throws exactly when there is no real root; otherwise, unless
`b = c = 0`, both components are finite and are exactly the roots; for `b = c = 0` the first
component is the root `0` and the second is a `0/0`. -/
theorem C14_quadratic (a b c : ℝ) (ha : a ≠ 0) :
    (solveQuadratic a b c = .error .runtimeError ↔ ¬ ∃ x : ℝ, a * x ^ 2 + b * x + c = 0) ∧
    ((∃ x : ℝ, a * x ^ 2 + b * x + c = 0) → ¬ (b = 0 ∧ c = 0) →
      ∃ x1 x2, solveQuadratic a b c = .ok (some x1, some x2) ∧
        ∀ x, a * x ^ 2 + b * x + c = 0 ↔ (x = x1 ∨ x = x2)) ∧
    (b = 0 → c = 0 → solveQuadratic a b c = .ok (some 0, none)) := by
  have hroot : ∀ x : ℝ, a * x ^ 2 + b * x + c = 0 → 0 ≤ b * b - 4 * c * a := by
    intro x hx
    have : b * b - 4 * c * a = (2 * a * x + b) ^ 2 := by linear_combination (-4 * a) * hx
    rw [this]; positivity
  have key : 0 ≤ b * b - 4 * c * a → ∀ n : ℝ,
      (n = if b < 0 then Real.sqrt (b * b - 4 * c * a) - b else -Real.sqrt (b * b - 4 * c * a) - b) →
      n * n + 2 * b * n + 4 * a * c = 0 ∧ (n = 0 → b = 0 ∧ c = 0) := by
    intro hd n hn
    have hs := Real.mul_self_sqrt hd
    have hs0 := Real.sqrt_nonneg (b * b - 4 * c * a)
    set s := Real.sqrt (b * b - 4 * c * a)
    split_ifs at hn with hb
    · refine ⟨by rw [hn]; linear_combination hs, ?_⟩
      intro h0
      exfalso; linarith
    · refine ⟨by rw [hn]; linear_combination hs, ?_⟩
      intro h0
      have hb0 : b = 0 := by linarith [not_lt.1 hb]
      have hs1 : s = 0 := by linarith
      rw [hs1, hb0] at hs
      refine ⟨hb0, ?_⟩
      have : c * a = 0 := by linarith
      rcases mul_eq_zero.1 this with h | h
      · exact h
      · exact absurd h ha
  have h2a : 2 * a ≠ 0 := mul_ne_zero two_ne_zero ha
  refine ⟨?_, ?_, ?_⟩
  · constructor
    · intro h ⟨x, hx⟩
      unfold solveQuadratic at h
      simp only [ge_iff_le, if_pos (hroot x hx)] at h
      cases h
    · intro h
      unfold solveQuadratic
      simp only
      rw [if_neg]
      intro hd
      apply h
      refine ⟨(-b + Real.sqrt (b * b - 4 * c * a)) / (2 * a), ?_⟩
      have hs := Real.mul_self_sqrt hd
      generalize Real.sqrt (b * b - 4 * c * a) = s at hs
      field_simp
      linear_combination hs
  · rintro ⟨x0, hx0⟩ hbc
    have hd := hroot x0 hx0
    obtain ⟨hn, hn0⟩ := key hd _ rfl
    unfold solveQuadratic
    simp only [ge_iff_le, if_pos hd]
    set n := if b < 0 then Real.sqrt (b * b - 4 * c * a) - b else -Real.sqrt (b * b - 4 * c * a) - b
      with hndef
    have hne : n ≠ 0 := fun h => hbc (hn0 h)
    refine ⟨n / (2 * a), 2 * c / n, by simp [fdiv, ha, hne], ?_⟩
    intro x
    have fac : a * x ^ 2 + b * x + c = a * (x - n / (2 * a)) * (x - 2 * c / n) := by
      field_simp
      linear_combination x * hn
    rw [fac]
    constructor
    · intro h
      rcases mul_eq_zero.1 h with h | h
      · rcases mul_eq_zero.1 h with h | h
        · exact absurd h ha
        · left; linarith
      · right; linarith
    · rintro (h | h)
      · rw [h]; ring
      · rw [h]; ring
  · intro hb hc
    subst hb; subst hc
    unfold solveQuadratic
    simp [fdiv, ha]

/-- C14 (degenerate leading coefficient): for `a = 0`, `b ≠ 0` it does not throw, the first component
is a division by zero and the second is the root `-c/b` of the linear equation. -/
theorem C14_linear (b c : ℝ) (hb : b ≠ 0) :
    solveQuadratic 0 b c = .ok (none, some (-c / b)) := by
  unfold solveQuadratic
  have hd : b * b - 4 * c * 0 = b * b := by ring
  rw [hd]
  simp only [ge_iff_le, if_pos (mul_self_nonneg b), mul_zero]
  rw [Real.sqrt_mul_self_eq_abs]
  have : (if b < 0 then |b| - b else -|b| - b) = -(2 * b) := by
    split_ifs with h
    · rw [abs_of_neg h]; ring
    · rw [abs_of_nonneg (not_lt.1 h)]; ring
  rw [this]
  have hne : -(2 * b) ≠ 0 := by simpa using hb
  simp only [fdiv, if_pos, if_neg hne]
  congr 3
  field_simp

/-- C14: `sgn` is the sign function. -/
theorem C14_sgn (v : ℝ) : (sgn v = 1 ↔ 0 < v) ∧ (sgn v = -1 ↔ v < 0) ∧ (sgn v = 0 ↔ v = 0) := by
  unfold sgn
  rcases lt_trichotomy v 0 with h | h | h
  · simp [h, not_lt.2 h.le, h.ne]
  · simp [h]
  · simp [h, not_lt.2 h.le, h.ne']

example : (1 : ℝ) * 2 ^ 2 + (-3) * 2 + 2 = 0 ∧ ¬ ((-3 : ℝ) = 0 ∧ (2 : ℝ) = 0) := by norm_num

/-! ## C15 -/

/-- C15: `round` returns the nearest integer, with halves away from zero, and is odd. -/
theorem C15_round :
    (∀ x : ℝ, |(round x : ℝ) - x| ≤ 1 / 2) ∧
    (∀ (x : ℝ) (k : ℤ), |(k : ℝ) - x| < 1 / 2 → round x = k) ∧
    (∀ n : ℤ, 0 ≤ n → round (n + 1 / 2) = n + 1 ∧ round (-(n + 1 / 2)) = -(n + 1)) ∧
    (∀ x : ℝ, round (-x) = -round x) ∧
    (∀ n : ℤ, round n = n) := by
  have near : ∀ x : ℝ, |(round x : ℝ) - x| ≤ 1 / 2 := by
    intro x
    unfold round
    split_ifs with h
    · have h1 := Int.le_ceil (x - 1 / 2)
      have h2 := Int.ceil_lt_add_one (x - 1 / 2)
      rw [abs_le]; constructor <;> linarith
    · have h1 := Int.floor_le (x + 1 / 2)
      have h2 := Int.lt_floor_add_one (x + 1 / 2)
      rw [abs_le]; constructor <;> linarith
  have uniq : ∀ (x : ℝ) (k : ℤ), |(k : ℝ) - x| < 1 / 2 → round x = k := by
    intro x k hk
    have h1 := near x
    rw [abs_le] at h1
    rw [abs_lt] at hk
    have h2 : ((round x - k : ℤ) : ℝ) < 1 := by push_cast; linarith [h1.1, h1.2, hk.1, hk.2]
    have h3 : (-1 : ℝ) < ((round x - k : ℤ) : ℝ) := by push_cast; linarith [h1.1, h1.2, hk.1, hk.2]
    have h2' : round x - k < 1 := by exact_mod_cast h2
    have h3' : -1 < round x - k := by exact_mod_cast h3
    omega
  refine ⟨near, uniq, ?_, ?_, ?_⟩
  · intro n hn
    have hn' : (0 : ℝ) ≤ n := by exact_mod_cast hn
    constructor
    · unfold round
      rw [if_neg (by linarith)]
      rw [show (n : ℝ) + 1 / 2 + 1 / 2 = ((n + 1 : ℤ) : ℝ) by push_cast; ring, Int.floor_intCast]
    · unfold round
      rw [if_pos (by linarith)]
      rw [show -((n : ℝ) + 1 / 2) - 1 / 2 = ((-(n + 1) : ℤ) : ℝ) by push_cast; ring,
        Int.ceil_intCast]
  · intro x
    unfold round
    rcases lt_trichotomy x 0 with h | h | h
    · rw [if_neg (by linarith), if_pos h, show x - 1 / 2 = -(-x + 1 / 2) by ring, Int.ceil_neg, neg_neg]
    · subst h
      simp
      norm_num
    · rw [if_pos (by linarith), if_neg (by linarith), show -x - 1 / 2 = -(x + 1 / 2) by ring,
        Int.ceil_neg]
  · intro n
    apply uniq
    simp

/-- The claim of C15 about the integer-returning variants: each returns `round x` whenever that value
is representable in its return type (`int` for `rint`, 64-bit `long` for `lrint`). -/
def C15_int_claim : Prop :=
  (∀ x : ℝ, -2 ^ 31 ≤ round x ∧ round x < 2 ^ 31 →
    rintDouble x = some (round x) ∧ rintFloat x = some (round x)) ∧
  (∀ x : ℝ, -2 ^ 63 ≤ round x ∧ round x < 2 ^ 63 →
    lrintDouble x = some (round x) ∧ lrintFloat x = some (round x))

/-- C15 is false of `lrint(double)`: the cast to `int` is undefined from `2^31` on. -/
theorem C15_lrint_negation : lrintDouble (2 ^ 31) = none ∧ ¬ C15_int_claim := by
  have hr : round (2 ^ 31 : ℝ) = 2 ^ 31 := by
    have := C15_round.2.2.2.2 (2 ^ 31)
    norm_num at this ⊢
    exact this
  have hn : lrintDouble (2 ^ 31) = none := by
    unfold lrintDouble castInt
    rw [hr, if_neg (by norm_num)]
  refine ⟨hn, ?_⟩
  intro h
  have := (h.2 (2 ^ 31) (by rw [hr]; norm_num)).1
  rw [hn] at this
  cases this

/-- C15, integer variants: everything of the claim except `lrint(double)` outside the range of `int`. -/
theorem C15_int_partial :
    (∀ x : ℝ, -2 ^ 31 ≤ round x ∧ round x < 2 ^ 31 →
      rintDouble x = some (round x) ∧ rintFloat x = some (round x) ∧
      lrintDouble x = some (round x) ∧ lrintFloat x = some (round x)) ∧
    (∀ x : ℝ, -2 ^ 63 ≤ round x ∧ round x < 2 ^ 63 → lrintFloat x = some (round x)) := by
  constructor
  · intro x hx
    have h64 : -2 ^ 63 ≤ round x ∧ round x < 2 ^ 63 := by omega
    have hw : wrapInt (round x) = round x := by unfold wrapInt; omega
    refine ⟨?_, ?_, ?_, ?_⟩
    · unfold rintDouble castInt; rw [if_pos hx]
    · unfold rintFloat castLong; rw [if_pos h64]; simp [hw]
    · unfold lrintDouble castInt; rw [if_pos hx]
    · unfold lrintFloat castLong; rw [if_pos h64]
  · intro x hx
    unfold lrintFloat castLong; rw [if_pos hx]

example : round (-2.5) = -3 ∧ round 2.5 = 3 := by
  have h := C15_round.2.2.1 2 (by norm_num)
  have e1 : ((2 : ℤ) : ℝ) + 1 / 2 = 2.5 := by norm_num
  have e2 : -(((2 : ℤ) : ℝ) + 1 / 2) = -2.5 := by norm_num
  rw [e1] at h
  exact ⟨h.2, h.1⟩

end Verif.Numeric
