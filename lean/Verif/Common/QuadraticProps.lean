import Verif.Common.CompareProps
import Verif.Common.RelErr

/-!
# C117: `solveQuadratic` on doubles
-/

namespace Verif.NumericDouble

open Verif.Common
open Verif.Numeric (Err)

/-- **C117** (claim) `solveQuadratic` does not throw for an equation with real solutions. -/
def C117_accepts_claim : Prop := ∀ (R : ℝ → ℚ), IsRndR R → ∀ a b c : ℚ, IsDouble a → IsDouble b → IsDouble c → |a| < tooBig → |b| < tooBig → |c| < tooBig →
  (∃ x : ℝ, a * x ^ 2 + b * x + c = 0) → solveQuadratic R (.fin a) (.fin b) (.fin c) ≠ .error .runtimeError

/-- **C117** (claim) `solveQuadratic` throws for an equation without real solutions. -/
def C117_rejects_claim : Prop := ∀ (R : ℝ → ℚ), IsRndR R → ∀ a b c : ℚ, IsDouble a → IsDouble b → IsDouble c → |a| < tooBig → |b| < tooBig → |c| < tooBig →
  a ≠ 0 → (¬ ∃ x : ℝ, a * x ^ 2 + b * x + c = 0) → solveQuadratic R (.fin a) (.fin b) (.fin c) = .error .runtimeError

theorem rat_even : (fun q : ℚ => rndEvenReal q) = rndEven := funext rndEvenReal_rat

theorem small_lt_tooBig {x : ℚ} (h : |x| ≤ 2 ^ 64) : |x| < tooBig := h.trans_lt (pow_lt_pow_right₀ (by norm_num) (by norm_num))

/-- **C117** the second claim is false: for a = t²+t+1, b = 2t²+1, c = t²−t+1 with t = 2^14 the discriminant is −3, but is computed as 0. -/
theorem C117_rejects_negation : ¬ C117_rejects_claim := by
  intro hc
  have := hc rndEvenReal isRndR_rndEvenReal (2 ^ 28 + 2 ^ 14 + 1) (2 ^ 29 + 1) (2 ^ 28 - 2 ^ 14 + 1)
    ⟨2 ^ 28 + 2 ^ 14 + 1, 0, by norm_num, by norm_num, by norm_num⟩ ⟨2 ^ 29 + 1, 0, by norm_num, by norm_num, by norm_num⟩
    ⟨2 ^ 28 - 2 ^ 14 + 1, 0, by norm_num, by norm_num, by norm_num⟩
    (small_lt_tooBig (by norm_num [abs_of_pos])) (small_lt_tooBig (by norm_num [abs_of_pos])) (small_lt_tooBig (by norm_num [abs_of_pos])) (by norm_num) (by
      rintro ⟨x, hx⟩
      push_cast at hx
      nlinarith [sq_nonneg (2 * (2 ^ 28 + 2 ^ 14 + 1) * x + (2 ^ 29 + 1))])
  have hd : discriminant rndEven (.fin (2 ^ 28 + 2 ^ 14 + 1)) (.fin (2 ^ 29 + 1)) (.fin (2 ^ 28 - 2 ^ 14 + 1)) = .fin 0 := by decide +kernel
  unfold solveQuadratic at this
  simp only [rat_even, hd] at this
  rw [if_neg (by decide)] at this
  cases this

theorem solve_error_iff (R : ℝ → ℚ) (a b c : Fp) : solveQuadratic R a b c = .error .runtimeError ↔ (discriminant (fun q => R q) a b c).lt (.fin 0) = true := by
  unfold solveQuadratic
  simp only
  split <;> simp [*]

/-- **C117** the first claim is false: `4*c` overflows.  2^-1000 x² + 2^20 x + 2^1023 has two real solutions. -/
theorem C117_accepts_negation : ¬ C117_accepts_claim := by
  intro hc
  have hR := isRndR_rndEvenReal
  have l0 := limit_pos
  have ea : (2 : ℚ) ^ (-1000 : ℤ) * limit = 2 ^ 22 := by
    unfold limit
    rw [← zpow_natCast, ← zpow_natCast, ← zpow_add₀ (by norm_num)]
    norm_num
  have dl : IsDouble (2 * limit) := double_two_limit
  have d8 : IsDouble (4 * (2 * limit)) := by
    have := two_mul_double (two_mul_double dl)
    rwa [show 2 * (2 * (2 * limit)) = 4 * (2 * limit) by ring] at this
  refine hc rndEvenReal hR (2 ^ (-1000 : ℤ)) (2 ^ 20) (2 * limit) (isDouble_pow _ (by norm_num)) ⟨1, 20, by norm_num, by norm_num, by norm_num⟩ dl ?_ ?_ ?_ ?_ ?_
  · apply small_lt_tooBig
    rw [abs_of_pos (by positivity)]
    calc (2 : ℚ) ^ (-1000 : ℤ) ≤ 2 ^ (64 : ℤ) := zpow_le_zpow_right₀ (by norm_num) (by norm_num)
      _ = 2 ^ 64 := by norm_cast
  · exact small_lt_tooBig (by norm_num)
  · rw [abs_of_pos (by linarith), four_limit]; linarith
  · -- a root by the formula
    have eaR : ((2 : ℚ) ^ (-1000 : ℤ) : ℝ) * (limit : ℝ) = 2 ^ 22 := by exact_mod_cast ea
    obtain ⟨u, hu⟩ : ∃ u : ℝ, ((2 ^ (-1000 : ℤ) : ℚ) : ℝ) = u := ⟨_, rfl⟩
    have u0 : u ≠ 0 := by rw [← hu]; push_cast; positivity
    have hul : u * (limit : ℝ) = 2 ^ 22 := by rw [← hu]; exact_mod_cast ea
    have hs : Real.sqrt (2 ^ 40 - 2 ^ 25) ^ 2 = 2 ^ 40 - 2 ^ 25 := Real.sq_sqrt (by norm_num)
    generalize Real.sqrt (2 ^ 40 - 2 ^ 25) = s at hs
    refine ⟨(-2 ^ 20 + s) / (2 * u), ?_⟩
    rw [hu]
    have hl : (limit : ℝ) = 2 ^ 22 / u := by field_simp; linarith
    push_cast
    rw [hl]
    field_simp
    nlinarith
  · rw [solve_error_iff]
    have hfix := hR.rat.fix d8
    have e1 : fmul (fun q : ℚ => rndEvenReal q) (.fin 4) (.fin (2 * limit)) = .inf false := by
      simp only [fmul, Fp.mul, rounded]
      rw [hfix, if_neg]
      · have : ¬ 4 * (2 * limit) < 0 := by linarith
        simp only [this, decide_false]
      · rw [abs_of_pos (by linarith), four_limit]; linarith
    have e2 : fmul (fun q : ℚ => rndEvenReal q) (.inf false) (.fin (2 ^ (-1000 : ℤ))) = .inf false := by
      have : (0 : ℚ) < 2 ^ (-1000 : ℤ) := by positivity
      simp only [fmul, Fp.mul, this.ne', if_false, not_lt.2 this.le, decide_false, rounded]
      rfl
    have e3 : fmul (fun q : ℚ => rndEvenReal q) (.fin (2 ^ 20)) (.fin (2 ^ 20)) = .fin (2 ^ 40) := by
      have d40 : IsDouble (2 ^ 20 * 2 ^ 20) := ⟨1, 40, by norm_num, by norm_num, by norm_num⟩
      simp only [fmul, Fp.mul, rounded]
      rw [hR.rat.fix d40, if_pos (small_lt_tooBig (by norm_num))]
      norm_num
    unfold discriminant
    rw [e1, e2, e3]
    rfl

/-- **C117** if `4*c` does not overflow (|c| < 2^1022) an equation with a real solution is never refused, whatever else overflows or underflows. -/
theorem C117_accepts_partial {R : ℝ → ℚ} (h : IsRndR R) {a b c : ℚ} (hc : IsDouble c) (hc' : |c| < limit)
    (hx : ∃ x : ℝ, a * x ^ 2 + b * x + c = 0) : solveQuadratic R (.fin a) (.fin b) (.fin c) ≠ .error .runtimeError := by
  rw [Ne, solve_error_iff]
  have hr := h.rat
  obtain ⟨x, hx⟩ := hx
  have hdisc : 4 * c * a ≤ b * b := by
    have : (4 * c * a : ℝ) ≤ b * b := by
      have := sq_nonneg (2 * a * x + b)
      have e : (2 * (a : ℝ) * x + b) ^ 2 = 4 * a * (a * x ^ 2 + b * x + c) + (b * b - 4 * c * a) := by ring
      rw [e, hx] at this
      linarith
    exact_mod_cast this
  have d4 : IsDouble (4 * c) := by
    have := two_mul_double (two_mul_double hc)
    rwa [show 2 * (2 * c) = 4 * c by ring] at this
  have e4 : fmul (fun q : ℚ => R q) (.fin 4) (.fin c) = .fin (4 * c) := by
    simp only [fmul, Fp.mul, rounded]
    rw [hr.fix d4, if_pos]
    rw [abs_mul, four_limit, abs_of_pos (by norm_num : (0 : ℚ) < 4)]
    linarith
  have eP : fmul (fun q : ℚ => R q) (.fin b) (.fin b) = rounded (fun q : ℚ => R q) (.fin (b * b)) := rfl
  have eQ : fmul (fun q : ℚ => R q) (.fin (4 * c)) (.fin a) = rounded (fun q : ℚ => R q) (.fin (4 * c * a)) := rfl
  have hle := rE_mono hr hdisc
  have hb := rE_nonneg hr (mul_self_nonneg b)
  have hpd : ∀ p, rounded (fun q : ℚ => R q) (.fin (b * b)) = .fin p → IsDouble p := by
    intro p hp
    simp only [rounded] at hp
    split_ifs at hp
    cases hp; exact hr.mem _
  have nP := rounded_ne_nan (fun q : ℚ => R q) (b * b)
  have nQ := rounded_ne_nan (fun q : ℚ => R q) (4 * c * a)
  unfold discriminant
  rw [e4, eP, eQ]
  unfold rE at hle hb
  generalize rounded (fun q : ℚ => R q) (.fin (b * b)) = P at *
  generalize rounded (fun q : ℚ => R q) (.fin (4 * c * a)) = Q at *
  rcases P with p | sp | _
  · rcases Q with q | sq | _
    · have hpq : q ≤ p := by
        simp only [toE] at hle
        have := EReal.coe_le_coe_iff.1 hle
        exact_mod_cast this
      have : (Fp.fin p).sub (.fin q) = .fin (p - q) := by simp [Fp.sub, Fp.neg, Fp.add, sub_eq_add_neg]
      simp only [fsub, this, rounded]
      have h0 : 0 ≤ R ((p - q : ℚ) : ℝ) := hr.nonneg (x := p - q) (by linarith)
      split_ifs
      · simp only [Fp.lt, decide_eq_true_eq]; linarith
      · have : ¬ p - q < 0 := by linarith
        simp [Fp.lt, this]
    · cases sq
      · simp [toE] at hle
      · simp [fsub, Fp.sub, Fp.neg, Fp.add, rounded, Fp.lt]
    · exact absurd rfl nQ
  · cases sp
    · rcases Q with q | sq | _
      · simp [fsub, Fp.sub, Fp.neg, Fp.add, rounded, Fp.lt]
      · cases sq <;> simp [fsub, Fp.sub, Fp.neg, Fp.add, rounded, Fp.lt]
      · exact absurd rfl nQ
    · simp [toE] at hb
  · exact absurd rfl nP

/-- Concrete: x² − 3x + 2 = 0 has the root 1. -/
example : solveQuadratic rndEvenReal (.fin 1) (.fin (-3)) (.fin 2) ≠ .error .runtimeError :=
  C117_accepts_partial isRndR_rndEvenReal (by exact_mod_cast isDouble_int 2 (by norm_num)) (by
    rw [abs_of_pos (by norm_num)]
    calc (2 : ℚ) = 2 ^ 1 := by norm_num
      _ < limit := pow_lt_pow_right₀ (by norm_num) (by norm_num)) ⟨1, by norm_num⟩

/-- **C117** the double solution of a·x² = 0 is given as the pair (0, NaN). -/
theorem C117_double_zero {R : ℝ → ℚ} (h : IsRndR R) {a : ℚ} (ha : IsDouble a) (ha' : |a| ≤ limit) (h0 : a ≠ 0) : solveQuadratic R (.fin a) (.fin 0) (.fin 0) = .ok (.fin 0, .nan) := by
  have hr := h.rat
  have r0 : R ((0 : ℚ) : ℝ) = 0 := hr.fix (x := 0) (by simpa using isDouble_int 0 (by norm_num))
  have rz : rounded (fun q : ℚ => R q) (.fin 0) = .fin 0 := by
    simp only [rounded, r0, abs_zero, if_pos tooBig_pos]
  have e2a : fmul (fun q : ℚ => R q) (.fin 2) (.fin a) = .fin (2 * a) := by
    have hb : |2 * a| ≤ 2 * limit := by rw [abs_mul, abs_of_pos (by norm_num : (0 : ℚ) < 2)]; linarith
    show rounded _ (.fin (2 * a)) = _
    rw [(rounded_fin hr hb).1, hr.fix (two_mul_double ha)]
  have em : ∀ q : ℚ, fmul (fun q : ℚ => R q) (.fin q) (.fin 0) = .fin 0 := by
    intro q; simp only [fmul, Fp.mul, mul_zero, rz]
  have em' : fmul (fun q : ℚ => R q) (.fin 0) (.fin a) = .fin 0 := by simp only [fmul, Fp.mul, zero_mul, rz]
  have es : fsub (fun q : ℚ => R q) (.fin 0) (.fin 0) = .fin 0 := by simp only [fsub, Fp.sub, Fp.neg, Fp.add, neg_zero, add_zero, rz]
  unfold solveQuadratic discriminant
  simp only [em, em', es, e2a]
  have hlt : Fp.lt (.fin 0) (.fin 0) = false := by decide
  have hs : fsqrt R (.fin 0) = .fin 0 := by
    simp only [fsqrt, lt_irrefl, if_false]
    have : Real.sqrt ((0 : ℚ) : ℝ) = ((0 : ℚ) : ℝ) := by simp
    rw [this, r0]
  have hn : (Fp.fin 0).neg = .fin 0 := by simp [Fp.neg]
  rw [hlt]
  simp only [Bool.false_eq_true, if_false, hs, hn, es]
  have h2 : 2 * a ≠ 0 := by simpa using h0
  simp only [fdiv, Fp.div, h2, if_false, zero_div, if_true]
  rw [rz]
  rfl

/-- **C117** for x² + 2^600 x + 1 the square of b overflows and the solutions are given as (−∞, 0). -/
theorem C117_overflow_negation {R : ℝ → ℚ} (h : IsRndR R) : solveQuadratic R (.fin 1) (.fin (2 ^ (600 : ℤ))) (.fin 1) = .ok (.inf true, .fin 0) := by
  have hr := h.rat
  have dd : IsDouble (2 ^ (600 : ℤ) * 2 ^ (600 : ℤ)) := by
    rw [← zpow_add₀ (by norm_num)]; exact isDouble_pow _ (by norm_num)
  have ebb : fmul (fun q : ℚ => R q) (.fin (2 ^ (600 : ℤ))) (.fin (2 ^ (600 : ℤ))) = .inf false := by
    simp only [fmul, Fp.mul, rounded]
    rw [hr.fix dd, if_neg]
    · have : ¬ (2 : ℚ) ^ (600 : ℤ) * 2 ^ (600 : ℤ) < 0 := not_lt.2 (by positivity)
      simp only [this, decide_false]
    · rw [abs_of_pos (by positivity), ← zpow_add₀ (by norm_num), not_lt]
      have : tooBig = 2 ^ ((1024 : ℕ) : ℤ) := by unfold tooBig; rw [zpow_natCast]
      rw [this]
      exact zpow_le_zpow_right₀ (by norm_num) (by norm_num)
  have hint : ∀ n : ℤ, |n| ≤ 4 → rounded (fun q : ℚ => R q) (.fin (n : ℚ)) = .fin n := by
    intro n hn
    have : |(n : ℚ)| ≤ 2 * limit := by
      have h4 : |(n : ℚ)| ≤ 4 := by exact_mod_cast hn
      have : (4 : ℚ) ≤ limit := by
        calc (4 : ℚ) = 2 ^ 2 := by norm_num
          _ ≤ limit := pow_le_pow_right₀ (by norm_num) (by norm_num)
      linarith
    rw [(rounded_fin hr this).1, hr.fix (isDouble_int n (by linarith))]
  have e4 : fmul (fun q : ℚ => R q) (.fin 4) (.fin 1) = .fin 4 := by
    have := hint 4 (by norm_num); push_cast at this
    simp only [fmul, Fp.mul, mul_one, this]
  have e2 : fmul (fun q : ℚ => R q) (.fin 2) (.fin 1) = .fin 2 := by
    have := hint 2 (by norm_num); push_cast at this
    simp only [fmul, Fp.mul, mul_one, this]
  have hz : rounded (fun q : ℚ => R q) (.fin 0) = .fin 0 := by
    have := hint 0 (by norm_num); push_cast at this; exact this
  have hb : Fp.lt (.fin (2 ^ (600 : ℤ))) (.fin 0) = false := by
    simp only [Fp.lt, decide_eq_false_iff_not, not_lt]; positivity
  unfold solveQuadratic discriminant
  simp only [ebb, e4, e2, hb]
  have hd : fsub (fun q : ℚ => R q) (.inf false) (.fin 4) = .inf false := by simp [fsub, Fp.sub, Fp.neg, Fp.add, rounded]
  have hd' : fsub (fun q : ℚ => R q) (.inf true) (.fin (2 ^ (600 : ℤ))) = .inf true := by simp [fsub, Fp.sub, Fp.neg, Fp.add, rounded]
  have hl : Fp.lt (.inf false) (.fin 0) = false := by decide
  have hs : (fsqrt R (.inf false)).neg = .inf true := rfl
  have hq : fdiv (fun q : ℚ => R q) (.inf true) (.fin 2) = .inf true := by
    have : ¬ (2 : ℚ) < 0 := by norm_num
    simp [fdiv, Fp.div, rounded, this]
  have hq' : fdiv (fun q : ℚ => R q) (.fin 2) (.inf true) = .fin 0 := by simp only [fdiv, Fp.div, hz]
  rw [hd, hl]
  simp only [Bool.false_eq_true, if_false, hs, hd', hq, hq']

/-! ## Accuracy -/

/-- the coefficient is zero or of moderate size -/
def Moderate (x : ℚ) : Prop := IsDouble x ∧ (x = 0 ∨ Size 200 x)

theorem factor {a b c s n : ℝ} (ha : a ≠ 0) (hn : n ≠ 0) (hs : s ^ 2 = b ^ 2 - 4 * a * c) (h : n = s - b ∨ n = -s - b) (x : ℝ) :
    a * x ^ 2 + b * x + c = a * (x - n / (2 * a)) * (x - 2 * c / n) := by
  have key : n ^ 2 + 4 * a * c = -2 * b * n := by
    rcases h with rfl | rfl <;> nlinarith
  have h1 : a * (n / (2 * a)) = n / 2 := by field_simp
  have h2 : n / (2 * a) * (2 * c / n) * a = c := by field_simp
  have h3 : a * (2 * c / n) = -b - n / 2 := by
    have : (a * (2 * c / n)) * n = (-b - n / 2) * n := by
      rw [show a * (2 * c / n) * n = 2 * a * c * (n / n) by ring, div_self hn]
      nlinarith
    exact mul_right_cancel₀ hn this
  have h4 : a * (x - n / (2 * a)) * (x - 2 * c / n) = a * x ^ 2 - (a * (n / (2 * a)) + a * (2 * c / n)) * x + n / (2 * a) * (2 * c / n) * a := by ring
  rw [h4, h1, h2, h3]
  ring

theorem cast_rat (R : ℝ → ℚ) (q : ℚ) (x : ℝ) (h : (q : ℝ) = x) : R ((q : ℚ) : ℝ) = R x := by rw [h]

/-- **C117** for coefficients that are zero or between 2^-200 and 2^200 in magnitude, a ≠ 0 and not b = c = 0: either the computed discriminant is negative, and then b² < 4ac, or the results are finite and within a relative error of 2^-50
of the exact solutions of an equation with the same a and b and a c that differs by at most 2^-51 relatively. -/
theorem C117_accuracy_partial {R : ℝ → ℚ} (h : IsRndR R) {a b c : ℚ} (ha : Moderate a) (hb : Moderate b) (hc : Moderate c) (a0 : a ≠ 0) (hbc : b ≠ 0 ∨ c ≠ 0) :
    (solveQuadratic R (.fin a) (.fin b) (.fin c) = .error .runtimeError ∧ b ^ 2 < 4 * a * c) ∨
    ∃ x1 x2 : ℚ, solveQuadratic R (.fin a) (.fin b) (.fin c) = .ok (.fin x1, .fin x2) ∧
      ∃ c' y1 y2 : ℝ, |c' - c| ≤ |(c : ℝ)| / 2 ^ 51 ∧ (∀ x : ℝ, a * x ^ 2 + b * x + c' = a * (x - y1) * (x - y2)) ∧
        |(x1 : ℝ) - y1| ≤ |y1| / 2 ^ 50 ∧ |(x2 : ℝ) - y2| ≤ |y2| / 2 ^ 50 := by
  have hr := h.rat
  have sa : Size 200 (a : ℝ) := ha.2.resolve_left a0
  have aR : (a : ℝ) ≠ 0 := sa.ne_zero
  have sfour : Size 2 (4 : ℝ) := by unfold Size; norm_num
  have stwo : Size 1 (2 : ℝ) := by unfold Size; norm_num
  have R0 : R 0 = 0 := by
    have := hr.fix (x := 0) (by simpa using isDouble_int 0 (by norm_num))
    simpa using this
  have mulz : ∀ {x y : ℝ} {j k : ℕ}, (x = 0 ∨ Size j x) → (y = 0 ∨ Size k y) → (x * y = 0 ∨ Size (j + k) (x * y)) := by
    rintro x y j k (rfl | hx) (rfl | hy)
    · left; ring
    · left; ring
    · left; ring
    · right; exact hx.mul hy
  have castz : ∀ {x : ℚ} {k : ℕ}, (x = 0 ∨ Size k (x : ℝ)) → ((x : ℝ) = 0 ∨ Size k (x : ℝ)) := by
    rintro x k (rfl | hx)
    · left; simp
    · right; exact hx
  have errz : ∀ {x : ℝ} {k : ℕ}, k ≤ 1022 → (x = 0 ∨ Size k x) → Rel 1 (R x) x := by
    rintro x k hk (rfl | hx)
    · rw [R0]; simpa using Rel.refl 1 0
    · exact hx.err h hk
  have lez : ∀ {x : ℝ} {k : ℕ}, (x = 0 ∨ Size k x) → |x| ≤ 2 ^ (k : ℤ) := by
    rintro x k (rfl | hx)
    · rw [abs_zero]; positivity
    · exact hx.2
  have l0 := limit_pos
  have fin_of : ∀ (q : ℚ) (k : ℕ), k ≤ 1022 → |(q : ℝ)| ≤ 2 ^ (k : ℤ) → rounded (fun q : ℚ => R q) (.fin q) = .fin (R q) := by
    intro q k hk hq
    exact (rounded_fin hr ((Size.le_limit hk hq).trans (by linarith))).1
  have zb := castz hb.2
  have zc := castz hc.2
  -- the products
  have zbb := mulz zb zb
  have eP : fmul (fun q : ℚ => R q) (.fin b) (.fin b) = .fin (R (b * b)) := by
    show rounded _ (.fin (b * b)) = _
    rw [fin_of (b * b) 400 (by norm_num) (by push_cast; exact lez zbb)]; push_cast; rfl
  have d4 : IsDouble (4 * c) := by
    have := two_mul_double (two_mul_double hc.1)
    rwa [show 2 * (2 * c) = 4 * c by ring] at this
  have z4c : (4 * (c : ℝ) = 0 ∨ Size 202 (4 * (c : ℝ))) := by
    have := mulz (.inr sfour) zc
    exact this
  have e4 : fmul (fun q : ℚ => R q) (.fin 4) (.fin c) = .fin (4 * c) := by
    show rounded _ (.fin (4 * c)) = _
    rw [fin_of (4 * c) 202 (by norm_num) (by push_cast; exact lez z4c), hr.fix d4]
  have z4ca := mulz z4c (.inr sa)
  have eQ : fmul (fun q : ℚ => R q) (.fin (4 * c)) (.fin a) = .fin (R (4 * c * a)) := by
    show rounded _ (.fin (4 * c * a)) = _
    rw [fin_of (4 * c * a) 402 (by norm_num) (by push_cast; exact lez z4ca)]; push_cast; rfl
  -- the discriminant
  have rP : Rel 1 (R (b * b)) (b * b) := errz (by norm_num) zbb
  have rQ : Rel 1 (R (4 * c * a)) (4 * c * a) := errz (by norm_num) z4ca
  obtain ⟨p, hp⟩ : ∃ p, R ((b : ℝ) * b) = p := ⟨_, rfl⟩
  obtain ⟨q, hq⟩ : ∃ q, R (4 * (c : ℝ) * a) = q := ⟨_, rfl⟩
  have dp : IsDouble p := by rw [← hp]; exact h.mem _
  have dq : IsDouble q := by rw [← hq]; exact h.mem _
  rw [hp] at rP eP
  rw [hq] at rQ eQ
  have bsz : ∀ {x y : ℝ} {k : ℕ}, Rel 1 x y → |y| ≤ 2 ^ (k : ℤ) → |x| ≤ 2 ^ ((k + 1 : ℕ) : ℤ) := by
    intro x y k hrel hy
    obtain ⟨t, h1, h2, e⟩ := hrel
    have ht0 : 0 < t := (Rel.pow_pos' 1).trans_le h1
    have ht2 : t ≤ 2 := h2.trans (by unfold rho; norm_num)
    rw [e, abs_mul, abs_of_pos ht0]
    push_cast
    rw [zpow_add₀ (by norm_num), zpow_one]
    exact mul_le_mul hy ht2 ht0.le (by positivity)
  have bp := bsz rP (lez zbb)
  have bq := bsz rQ (lez z4ca)
  have bpq : |((p - q : ℚ) : ℝ)| ≤ 2 ^ ((404 : ℕ) : ℤ) := by
    rw [Rat.cast_sub]
    refine (abs_sub _ _).trans ?_
    have h1 : (2 : ℝ) ^ (((200 + 200 + 1 : ℕ)) : ℤ) ≤ 2 ^ ((403 : ℕ) : ℤ) := zpow_le_zpow_right₀ (by norm_num) (by norm_num)
    have h2 : (2 : ℝ) ^ (((202 + 200 + 1 : ℕ)) : ℤ) ≤ 2 ^ ((403 : ℕ) : ℤ) := zpow_le_zpow_right₀ (by norm_num) (by norm_num)
    have h3 : (2 : ℝ) ^ ((404 : ℕ) : ℤ) = 2 * 2 ^ ((403 : ℕ) : ℤ) := by
      rw [show ((404 : ℕ) : ℤ) = 1 + ((403 : ℕ) : ℤ) by norm_num, zpow_add₀ (by norm_num), zpow_one]
    rw [h3]
    linarith
  have eD : discriminant (fun q : ℚ => R q) (.fin a) (.fin b) (.fin c) = .fin (R ((p - q : ℚ) : ℝ)) := by
    unfold discriminant
    rw [e4, eP, eQ]
    have : (Fp.fin p).sub (.fin q) = .fin (p - q) := by simp [Fp.sub, Fp.neg, Fp.add, sub_eq_add_neg]
    rw [fsub, this, fin_of (p - q) 404 (by norm_num) bpq]
  obtain ⟨D, hD⟩ : ∃ D, R ((p - q : ℚ) : ℝ) = D := ⟨_, rfl⟩
  rw [hD] at eD
  have dD : IsDouble D := by rw [← hD]; exact h.mem _
  by_cases hneg : D < 0
  · left
    constructor
    · rw [solve_error_iff, eD]; simp [Fp.lt, hneg]
    · have hpq : p < q := by
        by_contra hcon
        have := hr.nonneg (x := p - q) (by linarith [not_lt.1 hcon])
        rw [hD] at this
        linarith
      by_contra hcon
      have hle : 4 * c * a ≤ b * b := by nlinarith [not_lt.1 hcon]
      have hm := hr.mono hle
      push_cast at hm
      rw [hp, hq] at hm
      linarith
  · right
    push Not at hneg
    -- the perturbed equation
    obtain ⟨t1, l1, u1, e1⟩ := id rP
    obtain ⟨t2, l2, u2, e2⟩ := id rQ
    have t1p : 0 < t1 := (Rel.pow_pos' 1).trans_le l1
    have t2p : 0 < t2 := (Rel.pow_pos' 1).trans_le l2
    obtain ⟨c', hc'⟩ : ∃ c', (c : ℝ) * (t2 / t1) = c' := ⟨_, rfl⟩
    have rc : Rel 2 c' c := by
      have : Rel (1 + 1) (((c : ℝ) * t2) / (1 * t1)) (c / 1) := Rel.div ⟨t2, l2, u2, rfl⟩ ⟨t1, l1, u1, rfl⟩
      rw [div_one] at this
      rw [← hc']
      rwa [show (c : ℝ) * (t2 / t1) = c * t2 / (1 * t1) by ring]
    have rc' : Rel 2 c c' := by
      have : Rel (1 + 1) ((c' * t1) / (1 * t2)) (c' / 1) := Rel.div ⟨t1, l1, u1, rfl⟩ ⟨t2, l2, u2, rfl⟩
      rw [div_one] at this
      have e : (c' * t1) / (1 * t2) = c := by rw [← hc']; field_simp
      rwa [e] at this
    obtain ⟨Δ, hΔ⟩ : ∃ Δ, (b : ℝ) ^ 2 - 4 * a * c' = Δ := ⟨_, rfl⟩
    have ediff : ((p - q : ℚ) : ℝ) = Δ * t1 := by
      push_cast
      rw [e1, e2, ← hΔ, ← hc']
      field_simp
    have rD : Rel 2 D Δ := by
      have h3 : Rel 1 (D : ℝ) ((p - q : ℚ) : ℝ) := by
        rw [← hD]
        apply Rel.of_err
        have := hr.err_sub dp dq
        exact_mod_cast this
      have h4 : Rel 1 ((p - q : ℚ) : ℝ) Δ := ⟨t1, l1, u1, ediff⟩
      exact h3.trans h4
    have Δ0 : 0 ≤ Δ := rD.nonneg (by exact_mod_cast hneg)
    -- the square root
    obtain ⟨S, hS⟩ : ∃ S, R (Real.sqrt D) = S := ⟨_, rfl⟩
    have dS : IsDouble S := by rw [← hS]; exact h.mem _
    have S0 : 0 ≤ S := by
      have := h.near (Real.sqrt D) 0 (by simpa using isDouble_int 0 (by norm_num))
      rw [hS] at this
      push_cast at this
      rw [zero_sub, abs_neg, abs_of_nonneg (Real.sqrt_nonneg _)] at this
      have := (abs_le.1 this).1
      have : (0 : ℝ) ≤ S := by linarith
      exact_mod_cast this
    have rS : Rel 2 S (Real.sqrt Δ) := by
      have h1 : Rel 1 (Real.sqrt D) (Real.sqrt Δ) := Rel.sqrt (k := 1) rD Δ0
      have h2 : Rel 1 (S : ℝ) (Real.sqrt D) := by
        rw [← hS]
        rcases hneg.eq_or_lt with h0 | h0
        · rw [← h0]; simp only [Rat.cast_zero, Real.sqrt_zero, R0]; exact Rel.refl 1 0
        · apply Rel.of_err
          apply h.err_rel
          rw [abs_of_nonneg (Real.sqrt_nonneg _)]
          apply Real.le_sqrt_of_sq_le
          obtain ⟨n, hn⟩ := double_mult dD
          have pu : (0 : ℚ) < 2 ^ (-1074 : ℤ) := by positivity
          have hn1 : 1 ≤ n := by
            by_contra hcon
            have : (n : ℚ) ≤ 0 := by exact_mod_cast (by omega : n ≤ 0)
            rw [hn] at h0
            nlinarith
          have hq1 : (2 : ℚ) ^ (-1074 : ℤ) ≤ D := by
            have : (1 : ℚ) ≤ n := by exact_mod_cast hn1
            rw [hn]
            nlinarith
          have hr1 : (2 : ℝ) ^ (-1074 : ℤ) ≤ D := by
            have := (Rat.cast_le (K := ℝ)).2 hq1
            push_cast at this
            exact this
          refine le_trans ?_ hr1
          rw [← zpow_natCast, ← zpow_mul]
          exact zpow_le_zpow_right₀ (by norm_num) (by norm_num)
      exact h2.trans h1
    -- bounds of the exact quantities
    have zc' : c' = 0 ∨ Size 201 c' := by
      rcases zc with h0 | h0
      · left; rw [← hc', h0]; ring
      · right; exact Size.of_rel rc (by norm_num) h0
    have bΔ : |Δ| ≤ 2 ^ ((404 : ℕ) : ℤ) := by
      rw [← hΔ]
      refine (abs_sub _ _).trans ?_
      have h1 : |(b : ℝ) ^ 2| ≤ 2 ^ ((403 : ℕ) : ℤ) := by
        rw [pow_two]
        exact (lez zbb).trans (zpow_le_zpow_right₀ (by norm_num) (by norm_num))
      have h2 : |4 * (a : ℝ) * c'| ≤ 2 ^ ((403 : ℕ) : ℤ) := by
        have := lez (mulz (.inr (sfour.mul sa)) zc')
        exact this.trans (zpow_le_zpow_right₀ (by norm_num) (by norm_num))
      have h3 : (2 : ℝ) ^ ((404 : ℕ) : ℤ) = 2 * 2 ^ ((403 : ℕ) : ℤ) := by
        rw [show ((404 : ℕ) : ℤ) = 1 + ((403 : ℕ) : ℤ) by norm_num, zpow_add₀ (by norm_num), zpow_one]
      rw [h3]
      linarith
    have bs : Real.sqrt Δ ≤ 2 ^ ((202 : ℕ) : ℤ) := by
      rw [Real.sqrt_le_left (by positivity)]
      refine (le_abs_self _).trans (bΔ.trans ?_)
      rw [← zpow_natCast, ← zpow_mul]
      exact zpow_le_zpow_right₀ (by norm_num) (by norm_num)
    have sΔ : 0 ≤ Real.sqrt Δ := Real.sqrt_nonneg _
    have sN : Size 203 (Real.sqrt Δ + |(b : ℝ)|) := by
      unfold Size
      rw [abs_of_nonneg (by positivity)]
      constructor
      · by_cases hb0 : b = 0
        · have hc0 : c ≠ 0 := hbc.resolve_left (not_not.2 hb0)
          have sc : Size 200 (c : ℝ) := hc.2.resolve_left hc0
          have sc' : Size 201 c' := Size.of_rel rc (by norm_num) sc
          have s4 := ((sfour.mul sa).mul sc').1
          have hle : (2 : ℝ) ^ (-((203 : ℕ) : ℤ)) ≤ Real.sqrt Δ := by
            apply Real.le_sqrt_of_sq_le
            have e : |4 * (a : ℝ) * c'| = Δ := by
              have : Δ = -(4 * (a : ℝ) * c') := by rw [← hΔ, hb0]; push_cast; ring
              rw [← abs_neg, ← this, abs_of_nonneg Δ0]
            rw [e] at s4
            refine le_trans ?_ s4
            rw [← zpow_natCast, ← zpow_mul]
            exact zpow_le_zpow_right₀ (by norm_num) (by norm_num)
          linarith [abs_nonneg (b : ℝ)]
        · have sb : Size 200 (b : ℝ) := hb.2.resolve_left hb0
          have : (2 : ℝ) ^ (-((203 : ℕ) : ℤ)) ≤ 2 ^ (-((200 : ℕ) : ℤ)) := zpow_le_zpow_right₀ (by norm_num) (by norm_num)
          linarith [sb.1]
      · have h2 : |(b : ℝ)| ≤ 2 ^ ((202 : ℕ) : ℤ) := (lez zb).trans (zpow_le_zpow_right₀ (by norm_num) (by norm_num))
        have h3 : (2 : ℝ) ^ ((203 : ℕ) : ℤ) = 2 * 2 ^ ((202 : ℕ) : ℤ) := by
          rw [show ((203 : ℕ) : ℤ) = 1 + ((202 : ℕ) : ℤ) by norm_num, zpow_add₀ (by norm_num), zpow_one]
        rw [h3]; linarith
    -- n
    have hn : ∃ (n : ℚ) (n' : ℝ), (if (Fp.fin b).lt (.fin 0) then fsub (fun q : ℚ => R q) (fsqrt R (.fin D)) (.fin b) else fsub (fun q : ℚ => R q) (fsqrt R (.fin D)).neg (.fin b)) = .fin n ∧
        Rel 3 n n' ∧ Size 203 n' ∧ (n' = Real.sqrt Δ - b ∨ n' = -Real.sqrt Δ - b) ∧ IsDouble n := by
      have esq : fsqrt R (.fin D) = .fin S := by simp only [fsqrt, not_lt.2 hneg, if_false, hS]
      rw [esq]
      have hsum : ∀ (u v : ℚ) (n' : ℝ), IsDouble u → IsDouble v → Rel 2 ((u - v : ℚ) : ℝ) n' → Size 203 n' →
          fsub (fun q : ℚ => R q) (.fin u) (.fin v) = .fin (R ((u - v : ℚ) : ℝ)) ∧ Rel 3 (R ((u - v : ℚ) : ℝ)) n' := by
        intro u v n' du dv hrel hsz
        have s1 := Size.of_rel hrel (by norm_num) hsz
        constructor
        · have : (Fp.fin u).sub (.fin v) = .fin (u - v) := by simp [Fp.sub, Fp.neg, Fp.add, sub_eq_add_neg]
          rw [fsub, this, fin_of (u - v) 204 (by norm_num) s1.2]
        · have h3 : Rel 1 (R ((u - v : ℚ) : ℝ) : ℝ) ((u - v : ℚ) : ℝ) := by
            apply Rel.of_err
            have := hr.err_sub du dv
            exact_mod_cast this
          exact h3.trans hrel
      by_cases hb0 : b < 0
      · have hbR : (b : ℝ) < 0 := by exact_mod_cast hb0
        have hrel : Rel 2 ((S - b : ℚ) : ℝ) (Real.sqrt Δ - b) := by
          have := rS.add (Rel.refl 2 (-(b : ℝ))) sΔ (by linarith)
          push_cast
          simpa [sub_eq_add_neg] using this
        have hsz : Size 203 (Real.sqrt Δ - b) := by rw [abs_of_neg hbR] at sN; simpa [sub_eq_add_neg] using sN
        obtain ⟨f1, f2⟩ := hsum S b _ dS hb.1 hrel hsz
        exact ⟨_, _, by rw [if_pos (by simp [Fp.lt, hb0]), f1], f2, hsz, .inl rfl, h.mem _⟩
      · have hbR : (0 : ℝ) ≤ b := by exact_mod_cast not_lt.1 hb0
        have hrel : Rel 2 ((-S - b : ℚ) : ℝ) (-Real.sqrt Δ - b) := by
          have := (rS.add (Rel.refl 2 (b : ℝ)) sΔ hbR).neg
          push_cast
          have e1 : -((S : ℝ) + b) = -S - b := by ring
          have e2 : -(Real.sqrt Δ + b) = -Real.sqrt Δ - b := by ring
          rwa [e1, e2] at this
        have hsz : Size 203 (-Real.sqrt Δ - b) := by
          rw [abs_of_nonneg hbR] at sN
          have := sN.neg
          rwa [show -(Real.sqrt Δ + (b : ℝ)) = -Real.sqrt Δ - b by ring] at this
        obtain ⟨f1, f2⟩ := hsum (-S) b _ dS.neg hb.1 hrel hsz
        exact ⟨_, _, by rw [if_neg (by simp [Fp.lt, hb0])]; exact f1, f2, hsz, .inr rfl, h.mem _⟩
    obtain ⟨n, n', en, rn, sn', hn', dn⟩ := hn
    have sn : Size 204 (n : ℝ) := Size.of_rel rn (by norm_num) sn'
    have n0 : n ≠ 0 := by
      have := sn.ne_zero
      exact_mod_cast this
    have z2c := mulz (.inr stwo) zc
    have s2a := stwo.mul sa
    have e2a : fmul (fun q : ℚ => R q) (.fin 2) (.fin a) = .fin (2 * a) := by
      show rounded _ (.fin (2 * a)) = _
      rw [fin_of (2 * a) 201 (by norm_num) (by push_cast; exact s2a.2), hr.fix (two_mul_double ha.1)]
    have e2c : fmul (fun q : ℚ => R q) (.fin 2) (.fin c) = .fin (2 * c) := by
      show rounded _ (.fin (2 * c)) = _
      rw [fin_of (2 * c) 201 (by norm_num) (by push_cast; exact lez z2c), hr.fix (two_mul_double hc.1)]
    have sx1 := sn.div s2a
    have zx2 : (2 * (c : ℝ) / n = 0 ∨ Size 405 (2 * (c : ℝ) / n)) := by
      rcases z2c with h0 | h0
      · left; rw [h0]; simp
      · right; exact h0.div sn
    have ex1 : fdiv (fun q : ℚ => R q) (.fin n) (.fin (2 * a)) = .fin (R (n / (2 * a))) := by
      have h2 : 2 * a ≠ 0 := by simpa using a0
      simp only [fdiv, Fp.div, h2, if_false]
      rw [fin_of (n / (2 * a)) 405 (by norm_num) (by push_cast; exact sx1.2)]
      push_cast; rfl
    have ex2 : fdiv (fun q : ℚ => R q) (.fin (2 * c)) (.fin n) = .fin (R (2 * c / n)) := by
      simp only [fdiv, Fp.div, n0, if_false]
      rw [fin_of (2 * c / n) 405 (by norm_num) (by push_cast; exact lez zx2)]
      push_cast; rfl
    refine ⟨R (n / (2 * a)), R (2 * c / n), ?_, c', n' / (2 * a), 2 * c' / n', rc.err2, ?_, ?_, ?_⟩
    · unfold solveQuadratic
      simp only [eD]
      rw [if_neg (by simp [Fp.lt, hneg])]
      simp only [en, e2a, e2c, ex1, ex2]
    · intro x
      exact factor aR sn'.ne_zero (by rw [Real.sq_sqrt Δ0, ← hΔ]) hn' x
    · have h1 : Rel 1 (R (n / (2 * a)) : ℝ) (n / (2 * a)) := sx1.err h (by norm_num)
      have h2 : Rel (3 + 0) ((n : ℝ) / (2 * a)) (n' / (2 * a)) := rn.div (Rel.refl 0 _)
      exact (Rel.mono (by norm_num) (h1.trans h2)).err6
    · have h1 : Rel 1 (R (2 * c / n) : ℝ) (2 * c / n) := errz (by norm_num) zx2
      have h2 : Rel (0 + 2 + 3) (2 * (c : ℝ) / n) (2 * c' / n') := ((Rel.refl 0 2).mul rc').div rn
      exact (Rel.mono (by norm_num) (h1.trans h2)).err6

/-- Concrete: the hypotheses hold for x² − 3x + 2. -/
example : Moderate 1 ∧ Moderate (-3) ∧ Moderate 2 := by
  refine ⟨⟨by exact_mod_cast isDouble_int 1 (by norm_num), .inr ?_⟩, ⟨by exact_mod_cast isDouble_int (-3) (by norm_num), .inr ?_⟩, ⟨by exact_mod_cast isDouble_int 2 (by norm_num), .inr ?_⟩⟩ <;>
    unfold Size <;> norm_num

end Verif.NumericDouble
