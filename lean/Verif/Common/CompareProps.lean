import Verif.Common.NumericDouble
import Mathlib.Data.EReal.Basic
import Mathlib.Data.EReal.Operations

/-!
# C116: the tolerant comparisons on doubles
-/

namespace Verif.NumericDouble

open Verif.Common
open Verif.Numeric (Err)

/-! ## Doubles in the extended reals -/

/-- the extended real a double stands for (NaN: 0) -/
noncomputable def toE : Fp → EReal
  | .fin q => ((q : ℝ) : EReal)
  | .inf false => ⊤
  | .inf true => ⊥
  | .nan => 0

theorem lt_iff {a b : Fp} (ha : a ≠ .nan) (hb : b ≠ .nan) : a.lt b = true ↔ toE a < toE b := by
  rcases a with a | a | _ <;> rcases b with b | b | _ <;> try contradiction
  · simp [Fp.lt, toE]
  · cases b <;> simp [Fp.lt, toE, EReal.coe_lt_top]
  · cases a <;> simp [Fp.lt, toE, EReal.bot_lt_coe]
  · cases a <;> cases b <;> simp [Fp.lt, toE]

theorem le_iff {a b : Fp} (ha : a ≠ .nan) (hb : b ≠ .nan) : a.le b = true ↔ toE a ≤ toE b := by
  rcases a with a | a | _ <;> rcases b with b | b | _ <;> try contradiction
  · simp [Fp.le, Fp.lt, Fp.eq, toE, le_iff_lt_or_eq]
  · cases b <;> simp [Fp.le, Fp.lt, Fp.eq, toE]
  · cases a <;> simp [Fp.le, Fp.lt, Fp.eq, toE]
  · cases a <;> cases b <;> simp [Fp.le, Fp.lt, Fp.eq, toE]

theorem toE_neg (a : Fp) : toE a.neg = -toE a := by
  rcases a with a | a | _
  · simp [Fp.neg, toE]
  · cases a <;> simp [Fp.neg, toE]
  · simp [Fp.neg, toE]

theorem toE_abs (a : Fp) : toE a.abs = max (toE a) (-toE a) := by
  rcases a with a | a | _
  · simp only [Fp.abs, toE]
    rcases le_total 0 a with ha | ha
    · rw [abs_of_nonneg ha, max_eq_left]
      have : (0 : ℝ) ≤ a := by exact_mod_cast ha
      rw [← EReal.coe_neg]
      exact EReal.coe_le_coe_iff.2 (by linarith)
    · rw [abs_of_nonpos ha, max_eq_right]
      · push_cast; rfl
      · have : (a : ℝ) ≤ 0 := by exact_mod_cast ha
        rw [← EReal.coe_neg]
        exact EReal.coe_le_coe_iff.2 (by linarith)
  · cases a <;> simp [Fp.abs, toE]
  · simp [Fp.abs, toE]

theorem rounded_ne_nan (rnd : ℚ → ℚ) (q : ℚ) : rounded rnd (.fin q) ≠ .nan := by
  simp only [rounded]; split_ifs <;> simp

/-- the value of a rounded finite result -/
noncomputable def rE (rnd : ℚ → ℚ) (q : ℚ) : EReal := toE (rounded rnd (.fin q))

theorem tooBig_pos : 0 < tooBig := by rw [four_limit]; linarith [limit_pos]

theorem rE_mono {rnd : ℚ → ℚ} (h : IsRnd rnd) {p q : ℚ} (hpq : p ≤ q) : rE rnd p ≤ rE rnd q := by
  have hm := h.mono hpq
  have h0 : ∀ x : ℚ, x < 0 → rnd x ≤ 0 := fun x hx => h.le_of_le (y := 0) (by simpa using isDouble_int 0 (by norm_num)) hx.le
  have h1 : ∀ x : ℚ, 0 ≤ x → 0 ≤ rnd x := fun x hx => h.nonneg hx
  simp only [rE, rounded]
  split_ifs with a b b
  · simp only [toE]; exact_mod_cast hm
  · by_cases hq : q < 0
    · exfalso
      have := h0 q hq
      rw [abs_of_nonpos this] at b
      rw [abs_of_nonpos (hm.trans this)] at a
      linarith
    · simp [hq, toE]
  · by_cases hp : p < 0
    · simp [hp, toE]
    · exfalso
      have := h1 p (not_lt.1 hp)
      rw [abs_of_nonneg this] at a
      rw [abs_of_nonneg (this.trans hm)] at b
      linarith
  · by_cases hp : p < 0
    · simp [hp, toE]
    · have hq : ¬ q < 0 := by linarith
      simp [hp, hq]

theorem rE_neg {rnd : ℚ → ℚ} (h : IsRnd rnd) (odd : ∀ x, rnd (-x) = -rnd x) (q : ℚ) : rE rnd (-q) = -rE rnd q := by
  unfold rE
  rw [← toE_neg]
  congr 1
  simp only [rounded, odd, abs_neg]
  split_ifs with a
  · rfl
  · have hq : q ≠ 0 := by
      rintro rfl
      rw [h.fix (by simpa using isDouble_int 0 (by norm_num))] at a
      simp at a
      linarith [tooBig_pos]
    simp only [Fp.neg, Fp.inf.injEq]
    rcases lt_or_gt_of_ne hq with h1 | h1
    · simp [h1, not_lt.2 h1.le]
    · simp [h1, not_lt.2 h1.le]

theorem rE_zero {rnd : ℚ → ℚ} (h : IsRnd rnd) : rE rnd 0 = 0 := by
  simp only [rE, rounded]
  rw [h.fix (by simpa using isDouble_int 0 (by norm_num)), if_pos (by simpa using tooBig_pos)]
  simp [toE]

theorem rE_nonneg {rnd : ℚ → ℚ} (h : IsRnd rnd) {q : ℚ} (hq : 0 ≤ q) : 0 ≤ rE rnd q := by
  rw [← rE_zero h]; exact rE_mono h hq

/-! ## The comparisons of finite numbers -/

theorem max_fin (a b : ℚ) : Fp.max (Fp.fin a).abs (Fp.fin b).abs = .fin (max |a| |b|) := by
  simp only [Fp.max, Fp.abs, Fp.lt, decide_eq_true_eq]
  split_ifs with h
  · rw [max_eq_right h.le]
  · rw [max_eq_left (not_lt.1 h)]

variable {rnd : ℚ → ℚ}

theorem approx_fin (a b : ℚ) {eps : ℚ} (he : 0 < eps) :
    ∃ r, approximatelyEqual rnd (.fin a) (.fin b) (.fin eps) = .ok r ∧
      (r = true ↔ max (rE rnd (a - b)) (-rE rnd (a - b)) ≤ rE rnd (max |a| |b| * eps)) := by
  have hg : Fp.le (.fin eps) (.fin 0) = false := by
    simp only [Fp.le, Fp.lt, Fp.eq, Bool.or_eq_false_iff, decide_eq_false_iff_not]
    exact ⟨not_lt.2 he.le, he.ne'⟩
  refine ⟨_, by rw [approximatelyEqual, hg]; rfl, ?_⟩
  have e1 : fsub rnd (.fin a) (.fin b) = rounded rnd (.fin (a - b)) := by simp [fsub, Fp.sub, Fp.neg, Fp.add, sub_eq_add_neg]
  have e2 : maxTimesEpsilon rnd (.fin a) (.fin b) (.fin eps) = rounded rnd (.fin (max |a| |b| * eps)) := by
    simp [maxTimesEpsilon, max_fin, fmul, Fp.mul]
  rw [e1, e2, le_iff, toE_abs]
  · rfl
  · have := rounded_ne_nan rnd (a - b)
    revert this
    cases rounded rnd (.fin (a - b)) <;> simp [Fp.abs]
  · exact rounded_ne_nan _ _

theorem greater_fin (a b : ℚ) {eps : ℚ} (he : 0 < eps) :
    ∃ r, definitelyGreaterThan rnd (.fin a) (.fin b) (.fin eps) = .ok r ∧
      (r = true ↔ rE rnd (max |a| |b| * eps) < rE rnd (a - b)) := by
  have hg : Fp.le (.fin eps) (.fin 0) = false := by
    simp only [Fp.le, Fp.lt, Fp.eq, Bool.or_eq_false_iff, decide_eq_false_iff_not]
    exact ⟨not_lt.2 he.le, he.ne'⟩
  refine ⟨_, by rw [definitelyGreaterThan, hg]; rfl, ?_⟩
  have e1 : fsub rnd (.fin a) (.fin b) = rounded rnd (.fin (a - b)) := by simp [fsub, Fp.sub, Fp.neg, Fp.add, sub_eq_add_neg]
  have e2 : maxTimesEpsilon rnd (.fin a) (.fin b) (.fin eps) = rounded rnd (.fin (max |a| |b| * eps)) := by
    simp [maxTimesEpsilon, max_fin, fmul, Fp.mul]
  rw [e1, e2, lt_iff (rounded_ne_nan _ _) (rounded_ne_nan _ _)]
  rfl

theorem less_fin (a b : ℚ) {eps : ℚ} (he : 0 < eps) :
    ∃ r, definitelyLessThan rnd (.fin a) (.fin b) (.fin eps) = .ok r ∧
      (r = true ↔ rE rnd (max |a| |b| * eps) < rE rnd (b - a)) := by
  have hg : Fp.le (.fin eps) (.fin 0) = false := by
    simp only [Fp.le, Fp.lt, Fp.eq, Bool.or_eq_false_iff, decide_eq_false_iff_not]
    exact ⟨not_lt.2 he.le, he.ne'⟩
  refine ⟨_, by rw [definitelyLessThan, hg]; rfl, ?_⟩
  have e1 : fsub rnd (.fin b) (.fin a) = rounded rnd (.fin (b - a)) := by simp [fsub, Fp.sub, Fp.neg, Fp.add, sub_eq_add_neg]
  have e2 : maxTimesEpsilon rnd (.fin a) (.fin b) (.fin eps) = rounded rnd (.fin (max |a| |b| * eps)) := by
    simp [maxTimesEpsilon, max_fin, fmul, Fp.mul]
  rw [e1, e2, lt_iff (rounded_ne_nan _ _) (rounded_ne_nan _ _)]
  rfl

/-! ## Theorems -/

/-- the three answers for two numbers: approximately equal, definitely greater, definitely less -/
def answers (rnd : ℚ → ℚ) (a b eps : Fp) : List (Except Err Bool) :=
  [approximatelyEqual rnd a b eps, definitelyGreaterThan rnd a b eps, definitelyLessThan rnd a b eps]

/-- exactly one of the answers is "true" and the others "false" -/
def ExactlyOne (l : List (Except Err Bool)) : Prop := l = [.ok true, .ok false, .ok false] ∨ l = [.ok false, .ok true, .ok false] ∨ l = [.ok false, .ok false, .ok true]

/-- **C116** (claim) for all numbers (finite or infinite) and every tolerance that is accepted, exactly one of the three answers is "true" -/
def C116_claim : Prop := ∀ (rnd : ℚ → ℚ), IsRnd rnd → (∀ x, rnd (-x) = -rnd x) → ∀ a b eps : Fp, a ≠ .nan → b ≠ .nan → eps.le (.fin 0) = false →
  ExactlyOne (answers rnd a b eps)

/-- **C116** (claim) every number is approximately equal to itself -/
def C116_refl_claim : Prop := ∀ (rnd : ℚ → ℚ), IsRnd rnd → ∀ a eps : Fp, a ≠ .nan → eps.le (.fin 0) = false → approximatelyEqual rnd a a eps = .ok true

/-- **C116** is false: two infinities of the same sign are neither approximately equal nor different, in any tolerance. -/
theorem C116_negation : ¬ C116_claim ∧ ¬ C116_refl_claim := by
  constructor
  · intro hc
    have := hc _ isRnd_rndEven rndEven_neg (.inf false) (.inf false) (.fin 1) (by simp) (by simp) (by decide)
    revert this
    unfold ExactlyOne answers
    decide
  · intro hc
    have := hc _ isRnd_rndEven (.inf false) (.fin 1) (by simp) (by decide)
    revert this
    decide

/-- **C116** an infinity is approximately equal to every finite number and to the other infinity, and definitely greater or less than none; a tolerance that is not a number is accepted and makes all
answers "false", and so does an infinite one if both numbers are zero. -/
theorem C116_special_negation (rnd : ℚ → ℚ) (eps : ℚ) (he : 0 < eps) :
    (∀ (s : Bool) (b : Fp), b ≠ .nan → b ≠ .inf s → answers rnd (.inf s) b (.fin eps) = [.ok true, .ok false, .ok false]) ∧
    (∀ s : Bool, answers rnd (.inf s) (.inf s) (.fin eps) = [.ok false, .ok false, .ok false]) ∧
    (∀ a b : Fp, answers rnd a b .nan = [.ok false, .ok false, .ok false]) ∧
    answers rnd (.fin 0) (.fin 0) (.inf false) = [.ok false, .ok false, .ok false] := by
  have hg : Fp.le (.fin eps) (.fin 0) = false := by
    simp only [Fp.le, Fp.lt, Fp.eq, Bool.or_eq_false_iff, decide_eq_false_iff_not]
    exact ⟨not_lt.2 he.le, he.ne'⟩
  have hm : fmul rnd (.inf false) (.fin eps) = .inf false := by
    simp [fmul, Fp.mul, rounded, he.ne', not_lt.2 he.le]
  refine ⟨?_, ?_, ?_, ?_⟩
  · intro s b h1 h2
    unfold answers approximatelyEqual definitelyGreaterThan definitelyLessThan
    simp only [hg]
    rcases b with q | t | _
    · cases s <;> simp [maxTimesEpsilon, Fp.abs, Fp.max, Fp.lt, hm, fsub, Fp.sub, Fp.neg, Fp.add, rounded, Fp.le, Fp.eq]
    · cases s <;> cases t <;> first | exact absurd rfl h2 | simp [maxTimesEpsilon, Fp.abs, Fp.max, Fp.lt, hm, fsub, Fp.sub, Fp.neg, Fp.add, rounded, Fp.le, Fp.eq]
    · exact absurd rfl h1
  · intro s
    unfold answers approximatelyEqual definitelyGreaterThan definitelyLessThan
    simp only [hg]
    cases s <;> simp [maxTimesEpsilon, Fp.abs, Fp.max, Fp.lt, hm, fsub, Fp.sub, Fp.neg, Fp.add, rounded, Fp.le, Fp.eq]
  · intro a b
    have : ∀ x : Fp, x.mul .nan = .nan := by intro x; cases x <;> rfl
    have h1 : ∀ x : Fp, x.lt .nan = false := by intro x; cases x <;> rfl
    have h2 : ∀ x : Fp, x.eq .nan = false := by intro x; cases x <;> rfl
    unfold answers approximatelyEqual definitelyGreaterThan definitelyLessThan
    have h3 : ∀ x : Fp, Fp.nan.lt x = false := by intro x; cases x <;> rfl
    have h4 : ∀ x : Fp, Fp.nan.eq x = false := by intro x; cases x <;> rfl
    simp [maxTimesEpsilon, fmul, this, rounded, Fp.le, h1, h2, h3, h4]
  · unfold answers approximatelyEqual definitelyGreaterThan definitelyLessThan
    have h0 : Fp.le (.inf false) (.fin 0) = false := by decide
    have h5 : maxTimesEpsilon rnd (.fin 0) (.fin 0) (.inf false) = .nan := by
      rw [maxTimesEpsilon, max_fin]; simp [fmul, Fp.mul, rounded]
    have h1 : ∀ x : Fp, x.lt .nan = false := by intro x; cases x <;> rfl
    have h2 : ∀ x : Fp, x.eq .nan = false := by intro x; cases x <;> rfl
    have h3 : ∀ x : Fp, Fp.nan.lt x = false := by intro x; cases x <;> rfl
    rw [h0, h5, h3, Fp.le, h1, h2]
    rfl

/-- **C116** a tolerance that is zero or negative is refused by all three. -/
theorem C116_refuses (rnd : ℚ → ℚ) (a b eps : Fp) : eps.le (.fin 0) = true ↔ answers rnd a b eps = List.replicate 3 (.error .invalidArgument) := by
  unfold answers approximatelyEqual definitelyGreaterThan definitelyLessThan
  constructor
  · intro h; simp [h, List.replicate]
  · intro h
    by_contra hc
    simp [hc, List.replicate] at h

/-- **C116** for finite numbers and tolerances: exactly one of the three is true, also where the difference or the tolerance overflows or underflows; equality is reflexive and symmetric; greater is less with the arguments exchanged;
definitely less is transitive and implies less. -/
theorem C116_order_partial (h : IsRnd rnd) (odd : ∀ x, rnd (-x) = -rnd x) {eps : ℚ} (he : 0 < eps) :
    (∀ a b : ℚ, ExactlyOne (answers rnd (.fin a) (.fin b) (.fin eps))) ∧
    (∀ a : ℚ, approximatelyEqual rnd (.fin a) (.fin a) (.fin eps) = .ok true) ∧
    (∀ a b : ℚ, approximatelyEqual rnd (.fin a) (.fin b) (.fin eps) = approximatelyEqual rnd (.fin b) (.fin a) (.fin eps)) ∧
    (∀ a b : ℚ, definitelyGreaterThan rnd (.fin a) (.fin b) (.fin eps) = definitelyLessThan rnd (.fin b) (.fin a) (.fin eps)) ∧
    (∀ a b c : ℚ, definitelyLessThan rnd (.fin a) (.fin b) (.fin eps) = .ok true → definitelyLessThan rnd (.fin b) (.fin c) (.fin eps) = .ok true →
      definitelyLessThan rnd (.fin a) (.fin c) (.fin eps) = .ok true) ∧
    (∀ a b : ℚ, definitelyLessThan rnd (.fin a) (.fin b) (.fin eps) = .ok true → a < b) := by
  have hM : ∀ a b : ℚ, 0 ≤ rE rnd (max |a| |b| * eps) := fun a b => rE_nonneg h (by positivity)
  have hflip : ∀ a b : ℚ, rE rnd (b - a) = -rE rnd (a - b) := by
    intro a b
    rw [← rE_neg h odd]; congr 1; ring
  have hless : ∀ a b : ℚ, definitelyLessThan rnd (.fin a) (.fin b) (.fin eps) = .ok true ↔ rE rnd (max |a| |b| * eps) < rE rnd (b - a) := by
    intro a b
    obtain ⟨r, e, hr⟩ := less_fin (rnd := rnd) a b he
    rw [e, ← hr]; simp
  have hlt : ∀ a b : ℚ, definitelyLessThan rnd (.fin a) (.fin b) (.fin eps) = .ok true → a < b := by
    intro a b hab
    rw [hless] at hab
    by_contra hc
    have h1 := rE_mono h (show b - a ≤ 0 by linarith [not_lt.1 hc])
    rw [rE_zero h] at h1
    exact absurd ((hM a b).trans_lt hab) (not_lt.2 h1)
  refine ⟨?_, ?_, ?_, ?_, ?_, hlt⟩
  · intro a b
    obtain ⟨r1, e1, h1⟩ := approx_fin (rnd := rnd) a b he
    obtain ⟨r2, e2, h2⟩ := greater_fin (rnd := rnd) a b he
    obtain ⟨r3, e3, h3⟩ := less_fin (rnd := rnd) a b he
    rw [hflip] at h3
    have hM := hM a b
    generalize rE rnd (max |a| |b| * eps) = M at *
    generalize rE rnd (a - b) = d at *
    have n2 : ∀ d : EReal, M < d → ¬ M < -d := by
      intro d hd hd'
      have a1 := EReal.neg_lt_neg_iff.2 (hM.trans_lt hd)
      have a2 := hM.trans_lt hd'
      rw [neg_zero] at a1
      exact absurd a1 (not_lt.2 a2.le)
    unfold ExactlyOne answers
    rw [e1, e2, e3]
    rcases lt_or_ge M d with c1 | c1
    · have hr1 : r1 = false := by
        rw [Bool.eq_false_iff, Ne, h1]; intro hc; exact absurd ((le_max_left _ _).trans hc) (not_le.2 c1)
      have hr2 : r2 = true := h2.2 c1
      have hr3 : r3 = false := by rw [Bool.eq_false_iff, Ne, h3]; exact n2 d c1
      simp [hr1, hr2, hr3]
    · have hr2 : r2 = false := by rw [Bool.eq_false_iff, Ne, h2]; exact not_lt.2 c1
      rcases lt_or_ge M (-d) with c2 | c2
      · have hr1 : r1 = false := by
          rw [Bool.eq_false_iff, Ne, h1]; intro hc; exact absurd ((le_max_right _ _).trans hc) (not_le.2 c2)
        have hr3 : r3 = true := h3.2 c2
        simp [hr1, hr2, hr3]
      · have hr1 : r1 = true := h1.2 (max_le c1 c2)
        have hr3 : r3 = false := by rw [Bool.eq_false_iff, Ne, h3]; exact not_lt.2 c2
        simp [hr1, hr2, hr3]
  · intro a
    obtain ⟨r1, e1, h1⟩ := approx_fin (rnd := rnd) a a he
    rw [e1, h1.2 (by rw [sub_self, rE_zero h]; simpa using hM a a)]
  · intro a b
    obtain ⟨r1, e1, h1⟩ := approx_fin (rnd := rnd) a b he
    obtain ⟨r2, e2, h2⟩ := approx_fin (rnd := rnd) b a he
    rw [hflip, neg_neg, max_comm, max_comm |b|] at h2
    rw [e1, e2]
    congr 1
    exact Bool.eq_iff_iff.2 (h1.trans h2.symm)
  · intro a b
    obtain ⟨r1, e1, h1⟩ := greater_fin (rnd := rnd) a b he
    obtain ⟨r2, e2, h2⟩ := less_fin (rnd := rnd) b a he
    rw [max_comm |b|] at h2
    rw [e1, e2]
    congr 1
    exact Bool.eq_iff_iff.2 (h1.trans h2.symm)
  · intro a b c hab hbc
    have l1 := hlt _ _ hab
    have l2 := hlt _ _ hbc
    rw [hless] at hab hbc ⊢
    rcases le_total |a| |c| with hac | hac
    · refine lt_of_le_of_lt ?_ (hbc.trans_le (rE_mono h (by linarith : c - b ≤ c - a)))
      refine rE_mono h (mul_le_mul_of_nonneg_right ?_ he.le)
      rw [max_eq_right hac]; exact le_max_right _ _
    · refine lt_of_le_of_lt ?_ (hab.trans_le (rE_mono h (by linarith : b - a ≤ c - a)))
      refine rE_mono h (mul_le_mul_of_nonneg_right ?_ he.le)
      rw [max_eq_left hac]; exact le_max_left _ _

/-- Concrete: 1 and 1 + 2^-52 are approximately equal with the default tolerance, 1 and 1 + 2^-51 not. -/
example : answers rndEven (.fin 1) (.fin (1 + 1 / 2 ^ 52)) (.fin defaultEps) = [.ok true, .ok false, .ok false] ∧
    answers rndEven (.fin 1) (.fin (1 + 1 / 2 ^ 51)) (.fin defaultEps) = [.ok false, .ok false, .ok true] := by
  unfold answers
  decide +kernel

/-! ## Accuracy -/

theorem rE_fin (h : IsRnd rnd) {q : ℚ} (hq : |q| ≤ 2 * limit) : rE rnd q = ((rnd q : ℝ) : EReal) := by
  unfold rE
  rw [(rounded_fin h hq).1]
  rfl

/-- the difference of doubles that is not larger than either of them is a double (Sterbenz) -/
theorem sterbenz {a b : ℚ} (ha : IsDouble a) (hb : IsDouble b) (h1 : |a - b| ≤ |a|) (h2 : |a - b| ≤ |b|) : IsDouble (a - b) := by
  obtain ⟨m, e, hm, he, rfl⟩ := ha
  obtain ⟨n, f, hn, hf, rfl⟩ := hb
  rcases le_total e f with hef | hef
  · have p : (0 : ℚ) < 2 ^ e := by positivity
    have ed : (m : ℚ) * 2 ^ e - n * 2 ^ f = ((m - n * 2 ^ (f - e).toNat : ℤ) : ℚ) * 2 ^ e := by
      push_cast
      rw [sub_mul, mul_assoc (n : ℚ), ← zpow_natCast, ← zpow_add₀ (by norm_num)]
      congr 3; omega
    rw [ed] at h1 ⊢
    refine ⟨_, e, ?_, he, rfl⟩
    rw [abs_mul, abs_mul, abs_of_pos p] at h1
    have := le_of_mul_le_mul_right h1 p
    have : |m - n * 2 ^ (f - e).toNat| ≤ |m| := by exact_mod_cast this
    omega
  · have p : (0 : ℚ) < 2 ^ f := by positivity
    have ed : (m : ℚ) * 2 ^ e - n * 2 ^ f = ((m * 2 ^ (e - f).toNat - n : ℤ) : ℚ) * 2 ^ f := by
      push_cast
      rw [sub_mul, mul_assoc (m : ℚ), ← zpow_natCast, ← zpow_add₀ (by norm_num)]
      congr 3; omega
    rw [ed] at h2 ⊢
    refine ⟨_, f, ?_, hf, rfl⟩
    rw [abs_mul, abs_mul, abs_of_pos p] at h2
    have := le_of_mul_le_mul_right h2 p
    have : |m * 2 ^ (e - f).toNat - n| ≤ |n| := by exact_mod_cast this
    omega

/-- a double that is not too small, scaled by a power of two, is a double -/
theorem double_scale {x : ℚ} (hx : IsDouble x) {k : ℕ} {f : ℤ} (hf : -1074 + k ≤ f) (hb : 2 ^ (f + 52) ≤ |x|) : IsDouble (x * 2 ^ (-(k : ℤ))) := by
  obtain ⟨m, e, hm, he, rfl⟩ := hx
  have p : (0 : ℚ) < 2 ^ e := by positivity
  have hlt : (2 : ℚ) ^ (f + 52) < 2 ^ (53 + e) := by
    refine hb.trans_lt ?_
    rw [abs_mul, abs_of_pos p, zpow_add₀ (by norm_num)]
    have : |(m : ℚ)| < 2 ^ 53 := by exact_mod_cast hm
    have e53 : (2 : ℚ) ^ (53 : ℤ) = 2 ^ 53 := by norm_cast
    rw [e53]
    exact mul_lt_mul_of_pos_right this p
  have hfe : f + 52 < 53 + e := (zpow_lt_zpow_iff_right₀ (by norm_num : (1 : ℚ) < 2)).1 hlt
  refine ⟨m, e - k, hm, by omega, ?_⟩
  rw [mul_assoc, ← zpow_add₀ (by norm_num)]
  rfl

/-- **C116** with the default tolerance the answers are those of exact arithmetic, for doubles the larger of which is between 2^-970 and 2^1022: the numbers are approximately equal iff they differ by
at most 2^-52 times the larger magnitude. -/
theorem C116_default_exact_partial (h : IsRnd rnd) {a b : ℚ} (ha : IsDouble a) (hb : IsDouble b) (hlo : 2 ^ (-970 : ℤ) ≤ max |a| |b|) (hhi : max |a| |b| ≤ limit) :
    (approximatelyEqual rnd (.fin a) (.fin b) (.fin defaultEps) = .ok true ↔ |a - b| ≤ max |a| |b| * 2 ^ (-52 : ℤ)) ∧
    (definitelyGreaterThan rnd (.fin a) (.fin b) (.fin defaultEps) = .ok true ↔ max |a| |b| * 2 ^ (-52 : ℤ) < a - b) ∧
    (definitelyLessThan rnd (.fin a) (.fin b) (.fin defaultEps) = .ok true ↔ max |a| |b| * 2 ^ (-52 : ℤ) < b - a) := by
  have he : (0 : ℚ) < defaultEps := by unfold defaultEps; positivity
  have hdM : IsDouble (max |a| |b|) := by
    have habs : ∀ x : ℚ, IsDouble x → IsDouble |x| := by
      intro x hx
      rcases abs_choice x with e | e <;> rw [e]
      · exact hx
      · exact hx.neg
    rcases max_choice |a| |b| with e | e <;> rw [e]
    · exact habs a ha
    · exact habs b hb
  have hM0 : 0 < max |a| |b| := lt_of_lt_of_le (by positivity) hlo
  -- the tolerance and half of the larger magnitude are doubles
  have hT : IsDouble (max |a| |b| * defaultEps) := by
    have := double_scale hdM (k := 52) (f := -1022) (by norm_num) (by rw [abs_of_pos hM0]; exact hlo)
    exact this
  have hH : IsDouble (max |a| |b| * 2 ^ (-1 : ℤ)) := by
    have := double_scale hdM (k := 1) (f := -1022) (by norm_num) (by rw [abs_of_pos hM0]; exact hlo)
    exact this
  have hsmall : max |a| |b| * defaultEps < max |a| |b| * 2 ^ (-1 : ℤ) := by
    apply mul_lt_mul_of_pos_left _ hM0
    unfold defaultEps; norm_num
  have ha' : |a| ≤ limit := (le_max_left _ _).trans hhi
  have hb' : |b| ≤ limit := (le_max_right _ _).trans hhi
  -- comparing rounded differences with the tolerance
  have key : ∀ x y : ℚ, IsDouble x → IsDouble y → max |x| |y| = max |a| |b| → (max |a| |b| * defaultEps < rnd (x - y) ↔ max |a| |b| * defaultEps < x - y) := by
    intro x y hx hy hxy
    rcases le_or_gt |x - y| (max |a| |b| * 2 ^ (-1 : ℤ)) with hc | hc
    · have hs : IsDouble (x - y) := by
        have e2 : max |a| |b| * 2 ^ (-1 : ℤ) = max |a| |b| / 2 := by norm_num [div_eq_mul_inv]
        rw [e2, ← hxy] at hc
        have t1 := abs_sub_abs_le_abs_sub x y
        have t2 := abs_sub_abs_le_abs_sub y x
        rw [abs_sub_comm y x] at t2
        rcases le_total |x| |y| with hl | hl
        · rw [max_eq_right hl] at hc
          exact sterbenz hx hy (by linarith) (by linarith [abs_nonneg y])
        · rw [max_eq_left hl] at hc
          exact sterbenz hx hy (by linarith [abs_nonneg x]) (by linarith)
      rw [h.fix hs]
    · rcases le_or_gt 0 (x - y) with hp | hn
      · rw [abs_of_nonneg hp] at hc
        have := h.ge_of_ge hH hc.le
        exact ⟨fun _ => hsmall.trans hc, fun _ => hsmall.trans_le this⟩
      · have h0 : (0 : ℚ) ≤ max |a| |b| * defaultEps := by positivity
        have := h.le_of_le (y := 0) (by simpa using isDouble_int 0 (by norm_num)) hn.le
        exact ⟨fun hc => by linarith, fun hc => by linarith⟩
  have hd : ∀ x y : ℚ, |x| ≤ limit → |y| ≤ limit → rE rnd (x - y) = ((rnd (x - y) : ℝ) : EReal) := by
    intro x y hx hy
    exact rE_fin h ((abs_sub _ _).trans (by linarith))
  have hTb : |max |a| |b| * defaultEps| ≤ 2 * limit := by
    rw [abs_of_nonneg (by positivity)]
    have : max |a| |b| * defaultEps ≤ max |a| |b| * 1 := by
      apply mul_le_mul_of_nonneg_left _ hM0.le
      unfold defaultEps; norm_num
    linarith
  have eT : rE rnd (max |a| |b| * defaultEps) = (((max |a| |b| * defaultEps : ℚ) : ℝ) : EReal) := by rw [rE_fin h hTb, h.fix hT]
  have hcast : ∀ p q : ℚ, (((p : ℝ) : EReal) < ((q : ℝ) : EReal)) ↔ p < q := by
    intro p q; rw [EReal.coe_lt_coe_iff]; exact Rat.cast_lt
  have hcast' : ∀ p q : ℚ, (((p : ℝ) : EReal) ≤ ((q : ℝ) : EReal)) ↔ p ≤ q := by
    intro p q; rw [EReal.coe_le_coe_iff]; exact Rat.cast_le
  obtain ⟨r1, e1, h1⟩ := approx_fin (rnd := rnd) a b he
  obtain ⟨r2, e2, h2⟩ := greater_fin (rnd := rnd) a b he
  obtain ⟨r3, e3, h3⟩ := less_fin (rnd := rnd) a b he
  have hk1 := key a b ha hb rfl
  have hk2 := key b a hb ha (max_comm _ _)
  rw [eT, hd a b ha' hb', hcast] at h2
  rw [eT, hd b a hb' ha', hcast] at h3
  have eneg : -((rnd (a - b) : ℝ) : EReal) = ((-rnd (a - b) : ℚ) : ℝ) := by push_cast; rfl
  rw [eT, hd a b ha' hb', max_le_iff, eneg, hcast', hcast'] at h1
  change _ ∧ (_ ↔ max |a| |b| * defaultEps < _) ∧ (_ ↔ max |a| |b| * defaultEps < _)
  rw [e1, e2, e3]
  simp only [Except.ok.injEq]
  refine ⟨?_, h2.trans hk1, h3.trans hk2⟩
  rw [h1, abs_le]
  -- the rounded difference the other way round
  have hk3 : max |a| |b| * defaultEps < -rnd (a - b) ↔ max |a| |b| * defaultEps < b - a := by
    have hr : IsRnd fun x => -rnd (-x) := by
      constructor
      · intro x; exact (h.mem _).neg
      · intro x y hy
        have := h.near (-x) (-y) hy.neg
        rw [show -rnd (-x) - x = -(rnd (-x) - -x) by ring, abs_neg]
        rwa [show -y - -x = -(y - x) by ring, abs_neg] at this
    rcases le_or_gt |a - b| (max |a| |b| * 2 ^ (-1 : ℤ)) with hc | hc
    · have hs : IsDouble (a - b) := by
        have e2 : max |a| |b| * 2 ^ (-1 : ℤ) = max |a| |b| / 2 := by norm_num [div_eq_mul_inv]
        rw [e2] at hc
        have t1 := abs_sub_abs_le_abs_sub a b
        have t2 := abs_sub_abs_le_abs_sub b a
        rw [abs_sub_comm b a] at t2
        rcases le_total |a| |b| with hl | hl
        · rw [max_eq_right hl] at hc
          exact sterbenz ha hb (by linarith) (by linarith [abs_nonneg b])
        · rw [max_eq_left hl] at hc
          exact sterbenz ha hb (by linarith [abs_nonneg a]) (by linarith)
      rw [h.fix hs, neg_sub]
    · rcases le_or_gt 0 (b - a) with hp | hn
      · rw [abs_sub_comm, abs_of_nonneg hp] at hc
        have := hr.ge_of_ge hH hc.le
        simp only [neg_sub] at this
        exact ⟨fun _ => hsmall.trans hc, fun _ => hsmall.trans_le this⟩
      · have h0 : (0 : ℚ) ≤ max |a| |b| * defaultEps := by positivity
        have := hr.le_of_le (y := 0) (by simpa using isDouble_int 0 (by norm_num)) hn.le
        simp only [neg_sub] at this
        exact ⟨fun hc => by linarith, fun hc => by linarith⟩
  constructor
  · rintro ⟨c1, c2⟩
    have d1 := mt hk1.2 (not_lt.2 c1)
    have d2 := mt hk3.2 (not_lt.2 c2)
    unfold defaultEps at d1 d2
    exact ⟨by linarith, by linarith⟩
  · rintro ⟨c1, c2⟩
    refine ⟨not_lt.1 (mt hk1.1 (not_lt.2 c2)), not_lt.1 (mt hk3.1 (not_lt.2 ?_))⟩
    unfold defaultEps
    linarith

/-- Concrete: the hypotheses hold for 3 and 3 + 2^-51, which are approximately equal. -/
example : approximatelyEqual rndEven (.fin 3) (.fin (3 + 1 / 2 ^ 51)) (.fin defaultEps) = .ok true ∧ |(3 : ℚ) - (3 + 1 / 2 ^ 51)| ≤ max |3| |3 + 1 / 2 ^ 51| * 2 ^ (-52 : ℤ) := by
  constructor
  · decide +kernel
  · rw [abs_of_neg (by norm_num), max_eq_right (by norm_num [abs_of_pos]), abs_of_pos (by norm_num)]
    norm_num

/-- **C116** for any tolerance and doubles of at most 2^1022 the answers differ from those of exact arithmetic only near the boundary: if the difference is clearly inside the tolerance the numbers are approximately equal, and if it is clearly outside they are not. -/
theorem C116_accuracy_partial (h : IsRnd rnd) {a b eps : ℚ} (ha : IsDouble a) (hb : IsDouble b) (ha' : |a| ≤ limit) (hb' : |b| ≤ limit) (he : 0 < eps) :
    (|a - b| * (1 + 1 / 2 ^ 53) + tiny ≤ max |a| |b| * eps * (1 - 1 / 2 ^ 53) → approximatelyEqual rnd (.fin a) (.fin b) (.fin eps) = .ok true) ∧
    (max |a| |b| * eps * (1 + 1 / 2 ^ 53) + tiny < (a - b) * (1 - 1 / 2 ^ 53) → definitelyGreaterThan rnd (.fin a) (.fin b) (.fin eps) = .ok true) ∧
    (max |a| |b| * eps * (1 + 1 / 2 ^ 53) + tiny < (b - a) * (1 - 1 / 2 ^ 53) → definitelyLessThan rnd (.fin a) (.fin b) (.fin eps) = .ok true) := by
  have hM0 : 0 ≤ max |a| |b| * eps := by positivity
  have ht := tiny_pos
  have hcast : ∀ p q : ℚ, (((p : ℝ) : EReal) < ((q : ℝ) : EReal)) ↔ p < q := by
    intro p q; rw [EReal.coe_lt_coe_iff]; exact Rat.cast_lt
  have hcast' : ∀ p q : ℚ, (((p : ℝ) : EReal) ≤ ((q : ℝ) : EReal)) ↔ p ≤ q := by
    intro p q; rw [EReal.coe_le_coe_iff]; exact Rat.cast_le
  have hd : ∀ x y : ℚ, |x| ≤ limit → |y| ≤ limit → rE rnd (x - y) = ((rnd (x - y) : ℝ) : EReal) := by
    intro x y hx hy
    exact rE_fin h ((abs_sub _ _).trans (by linarith))
  have hgt : ∀ x y : ℚ, IsDouble x → IsDouble y → |x| ≤ limit → |y| ≤ limit → max |a| |b| * eps * (1 + 1 / 2 ^ 53) + tiny < (x - y) * (1 - 1 / 2 ^ 53) →
      rE rnd (max |a| |b| * eps) < rE rnd (x - y) := by
    intro x y hx hy bx by' hc
    have hpos : 0 < x - y := by
      by_contra hn
      have : (x - y) * (1 - 1 / 2 ^ 53) ≤ 0 := mul_nonpos_of_nonpos_of_nonneg (not_lt.1 hn) (by norm_num)
      nlinarith
    have hle : max |a| |b| * eps ≤ 2 * limit := by
      have h1 := (abs_le.1 bx).2
      have h2 := (abs_le.1 by').1
      have h3 : x - y ≤ 2 * limit := by linarith
      nlinarith
    rw [rE_fin h (by rw [abs_of_nonneg hM0]; exact hle), hd x y bx by', hcast]
    have e1 := (abs_le.1 (h.err_any (max |a| |b| * eps))).2
    have e2 := (abs_le.1 (h.err_sub hx hy)).1
    rw [abs_of_nonneg hM0] at e1
    rw [abs_of_pos hpos] at e2
    have f1 : max |a| |b| * eps * (1 + 1 / 2 ^ 53) = max |a| |b| * eps + max |a| |b| * eps / 2 ^ 53 := by ring
    have f2 : (x - y) * (1 - 1 / 2 ^ 53) = (x - y) - (x - y) / 2 ^ 53 := by ring
    rw [f1, f2] at hc
    linarith
  refine ⟨?_, ?_, ?_⟩
  · intro hc
    obtain ⟨r1, e1, h1⟩ := approx_fin (rnd := rnd) a b he
    rw [e1, h1.2]
    have eneg : -((rnd (a - b) : ℝ) : EReal) = ((-rnd (a - b) : ℚ) : ℝ) := by push_cast; rfl
    have emax : max ((rnd (a - b) : ℝ) : EReal) (-((rnd (a - b) : ℝ) : EReal)) ≤ (((|a - b| * (1 + 1 / 2 ^ 53) : ℚ) : ℝ) : EReal) := by
      have e2 := abs_le.1 (h.err_sub ha hb)
      have f2 : |a - b| * (1 + 1 / 2 ^ 53) = |a - b| + |a - b| / 2 ^ 53 := by ring
      have := abs_le.1 (le_refl |a - b|)
      rw [eneg]
      refine max_le ((hcast' _ _).2 ?_) ((hcast' _ _).2 ?_)
      · linarith
      · linarith
    rw [hd a b ha' hb']
    refine emax.trans ?_
    by_cases hov : |rnd (max |a| |b| * eps)| < tooBig
    · have : rE rnd (max |a| |b| * eps) = ((rnd (max |a| |b| * eps) : ℝ) : EReal) := by
        simp only [rE, rounded, if_pos hov, toE]
      rw [this]
      refine (hcast' _ _).2 ?_
      have e3 := (abs_le.1 (h.err_any (max |a| |b| * eps))).1
      rw [abs_of_nonneg hM0] at e3
      have f1 : max |a| |b| * eps * (1 - 1 / 2 ^ 53) = max |a| |b| * eps - max |a| |b| * eps / 2 ^ 53 := by ring
      rw [f1] at hc
      linarith
    · have : rE rnd (max |a| |b| * eps) = ⊤ := by
        simp only [rE, rounded, if_neg hov, not_lt.2 hM0, decide_false, toE]
      rw [this]
      exact le_top
  · intro hc
    obtain ⟨r1, e1, h1⟩ := greater_fin (rnd := rnd) a b he
    rw [e1, h1.2 (hgt a b ha hb ha' hb' hc)]
  · intro hc
    obtain ⟨r1, e1, h1⟩ := less_fin (rnd := rnd) a b he
    rw [e1, h1.2 (hgt b a hb ha hb' ha' hc)]

/-- Concrete: with a tolerance of 1/1000 the numbers 1 and 2 are far apart and 1000 and 1000.5 are close. -/
example : answers rndEven (.fin 2) (.fin 1) (.fin (1 / 1024)) = [.ok false, .ok true, .ok false] ∧ answers rndEven (.fin 1000) (.fin (2001 / 2)) (.fin (1 / 1024)) = [.ok true, .ok false, .ok false] := by
  unfold answers
  decide +kernel

end Verif.NumericDouble
