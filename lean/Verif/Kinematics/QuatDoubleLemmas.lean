import Verif.Kinematics.DoubleNorm

/-!
# The error of a quaternion product in doubles
-/

namespace Verif.KinematicsDouble

open Verif.Common
open Verif.Kinematics (V3 V4 M3 sqNorm)

local notation "nrm" => Kinematics.norm

/-- the sums of the absolute values of the terms of a product -/
def absProd (a b : V4) : V4 :=
  ![b 0 * a 3 + b 1 * a 2 + b 2 * a 1 + b 3 * a 0,
    b 2 * a 0 + b 0 * a 2 + b 1 * a 3 + b 3 * a 1,
    b 0 * a 1 + b 1 * a 0 + b 2 * a 3 + b 3 * a 2,
    b 3 * a 3 + b 1 * a 1 + b 2 * a 2 + b 0 * a 0]

theorem cauchy4 (a0 a1 a2 a3 b0 b1 b2 b3 : ℝ) :
    (a0 * b0 + a1 * b1 + a2 * b2 + a3 * b3) ^ 2 ≤ (a0 * a0 + a1 * a1 + a2 * a2 + a3 * a3) * (b0 * b0 + b1 * b1 + b2 * b2 + b3 * b3) := by
  nlinarith [sq_nonneg (a0 * b1 - a1 * b0), sq_nonneg (a0 * b2 - a2 * b0), sq_nonneg (a0 * b3 - a3 * b0), sq_nonneg (a1 * b2 - a2 * b1), sq_nonneg (a1 * b3 - a3 * b1), sq_nonneg (a2 * b3 - a3 * b2)]

theorem absProd_nrm (a b : V4) : nrm (absProd a b) ≤ 2 * (nrm a * nrm b) := by
  have key : sqNorm (absProd a b) ≤ 4 * (sqNorm a * sqNorm b) := by
    rw [Kinematics.sq4, Kinematics.sq4, Kinematics.sq4]
    have h0 := cauchy4 (a 3) (a 2) (a 1) (a 0) (b 0) (b 1) (b 2) (b 3)
    have h1 := cauchy4 (a 0) (a 2) (a 3) (a 1) (b 2) (b 0) (b 1) (b 3)
    have h2 := cauchy4 (a 1) (a 0) (a 3) (a 2) (b 0) (b 1) (b 2) (b 3)
    have h3 := cauchy4 (a 3) (a 1) (a 2) (a 0) (b 3) (b 1) (b 2) (b 0)
    simp only [absProd, Matrix.cons_val_zero, Matrix.cons_val_one, Matrix.cons_val]
    nlinarith
  apply Real.sqrt_le_iff.2
  refine ⟨by have := nrm_nonneg a; have := nrm_nonneg b; positivity, ?_⟩
  refine key.trans (le_of_eq ?_)
  rw [← nrm_sq, ← nrm_sq]; ring

variable {rnd : ℚ → ℚ} (hr : IsRnd rnd)

include hr

/-- four terms, the first two added and the rest too (any signs) -/
theorem acc4 {x₀ y₀ x₁ y₁ x₂ y₂ x₃ y₃ : Fp} {u₀ v₀ u₁ v₁ u₂ v₂ u₃ v₃ a₀ b₀ a₁ b₁ a₂ b₂ a₃ b₃ : ℝ}
    (h₀ : Acc 0 x₀ u₀ a₀) (k₀ : Acc 0 y₀ v₀ b₀) (h₁ : Acc 0 x₁ u₁ a₁) (k₁ : Acc 0 y₁ v₁ b₁) (h₂ : Acc 0 x₂ u₂ a₂) (k₂ : Acc 0 y₂ v₂ b₂) (h₃ : Acc 0 x₃ u₃ a₃) (k₃ : Acc 0 y₃ v₃ b₃)
    (s₀ : InR (-600) 600 (a₀ * b₀)) (s₁ : InR (-600) 600 (a₁ * b₁)) (s₂ : InR (-600) 600 (a₂ * b₂)) (s₃ : InR (-600) 600 (a₃ * b₃))
    (g₁ g₂ g₃ : Bool) :
    let op : Bool → Fp → Fp → Fp := fun g => if g then fadd rnd else fsub rnd
    let op' : Bool → ℝ → ℝ → ℝ := fun g => if g then (· + ·) else (· - ·)
    Acc 4 (op g₃ (op g₂ (op g₁ (fmul rnd x₀ y₀) (fmul rnd x₁ y₁)) (fmul rnd x₂ y₂)) (fmul rnd x₃ y₃))
      (op' g₃ (op' g₂ (op' g₁ (u₀ * v₀) (u₁ * v₁)) (u₂ * v₂)) (u₃ * v₃)) (a₀ * b₀ + a₁ * b₁ + a₂ * b₂ + a₃ * b₃) := by
  have m₀ := Acc.mul hr (by norm_num) h₀ k₀ (s₀.scale (by norm_num) (by norm_num))
  have m₁ := Acc.mul hr (by norm_num) h₁ k₁ (s₁.scale (by norm_num) (by norm_num))
  have m₂ := Acc.mul hr (by norm_num) h₂ k₂ (s₂.scale (by norm_num) (by norm_num))
  have m₃ := Acc.mul hr (by norm_num) h₃ k₃ (s₃.scale (by norm_num) (by norm_num))
  have r₁ := s₀.add s₁ (by norm_num)
  have r₂ := r₁.add s₂ (by norm_num)
  have r₃ := r₂.add s₃ (by norm_num)
  intro op op'
  have step : ∀ (g : Bool) {i j k : ℕ} {f h : Fp} {x y S T : ℝ}, i ≤ k → j ≤ k → k ≤ 100 → Acc i f x S → Acc j h y T → Scale (S + T) → Acc (k + 1) (op g f h) (op' g x y) (S + T) := by
    intro g i j k f h x y S T hi hj hk hf hh hs
    cases g
    · exact Acc.sub hr hi hj hk hf hh hs
    · exact Acc.add hr hi hj hk hf hh hs
  have t₁ := step g₁ (k := 1) (by norm_num) (by norm_num) (by norm_num) m₀ m₁ (r₁.scale (by norm_num) (by norm_num))
  have t₂ := step g₂ (k := 2) (by norm_num) (by norm_num) (by norm_num) t₁ m₂ (r₂.scale (by norm_num) (by norm_num))
  exact step g₃ (k := 3) (by norm_num) (by norm_num) (by norm_num) t₂ m₃ (r₃.scale (by norm_num) (by norm_num))

/-- each entry of a product -/
theorem qplus_acc {q p : F4} (hq : Finite q) (hp : Finite p) {a b : V4} (ha : ∀ i, |vals q i| ≤ a i) (hb : ∀ i, |vals p i| ≤ b i) (ra : ∀ i, InR (-300) 300 (a i)) (rb : ∀ i, InR (-300) 300 (b i)) :
    (∀ i, Acc 4 (qplus rnd q p i) (Kinematics.qplus (vals q) (vals p) i) (absProd a b i)) ∧ ∀ i, Scale (absProd a b i) := by
  have A := hq.acc ha
  have B := hp.acc hb
  have s : ∀ i j, InR (-600) 600 (b i * a j) := fun i j => (rb i).mul (ra j)
  have s4 : ∀ i j i' j' i'' j'' i''' j''', Scale (b i * a j + b i' * a j' + b i'' * a j'' + b i''' * a j''') := fun i j i' j' i'' j'' i''' j''' =>
    ((((s i j).add (s i' j') (by norm_num)).add (s i'' j'') (by norm_num)).add (s i''' j''') (by norm_num)).scale (by norm_num) (by norm_num)
  constructor
  · intro i
    fin_cases i
    · exact acc4 hr (B 0) (A 3) (B 1) (A 2) (B 2) (A 1) (B 3) (A 0) (s _ _) (s _ _) (s _ _) (s _ _) true false true
    · exact acc4 hr (B 2) (A 0) (B 0) (A 2) (B 1) (A 3) (B 3) (A 1) (s _ _) (s _ _) (s _ _) (s _ _) false true true
    · exact acc4 hr (B 0) (A 1) (B 1) (A 0) (B 2) (A 3) (B 3) (A 2) (s _ _) (s _ _) (s _ _) (s _ _) false true true
    · exact acc4 hr (B 3) (A 3) (B 1) (A 1) (B 2) (A 2) (B 0) (A 0) (s _ _) (s _ _) (s _ _) (s _ _) false false false
  · intro i
    fin_cases i <;> exact s4 _ _ _ _ _ _ _ _

/-- each entry of a product in the other order -/
theorem qoplus_acc {q p : F4} (hq : Finite q) (hp : Finite p) {a b : V4} (ha : ∀ i, |vals q i| ≤ a i) (hb : ∀ i, |vals p i| ≤ b i) (ra : ∀ i, InR (-300) 300 (a i)) (rb : ∀ i, InR (-300) 300 (b i)) :
    ∀ i, Acc 4 (qoplus rnd q p i) (Kinematics.qoplus (vals q) (vals p) i) (absProd a b i) := by
  have A := hq.acc ha
  have B := hp.acc hb
  have s : ∀ i j, InR (-600) 600 (b i * a j) := fun i j => (rb i).mul (ra j)
  intro i
  fin_cases i
  · exact acc4 hr (B 0) (A 3) (B 1) (A 2) (B 2) (A 1) (B 3) (A 0) (s _ _) (s _ _) (s _ _) (s _ _) false true true
  · refine (acc4 hr (B 0) (A 2) (B 2) (A 0) (B 1) (A 3) (B 3) (A 1) (s _ _) (s _ _) (s _ _) (s _ _) false true true).mono le_rfl (le_of_eq ?_)
    show _ = b 2 * a 0 + b 0 * a 2 + b 1 * a 3 + b 3 * a 1
    ring
  · refine (acc4 hr (B 1) (A 0) (B 0) (A 1) (B 2) (A 3) (B 3) (A 2) (s _ _) (s _ _) (s _ _) (s _ _) false true true).mono le_rfl (le_of_eq ?_)
    show _ = b 0 * a 1 + b 1 * a 0 + b 2 * a 3 + b 3 * a 2
    ring
  · exact acc4 hr (B 3) (A 3) (B 1) (A 1) (B 2) (A 2) (B 0) (A 0) (s _ _) (s _ _) (s _ _) (s _ _) false false false

/-- the products of two vectors of moderate size -/
theorem prod_err {q p : F4} (hq : Finite q) (hp : Finite p) (nq : InR (-200) 200 (nrm (vals q))) (np : InR (-200) 200 (nrm (vals p))) :
    (Finite (qplus rnd q p) ∧
    nrm (vals (qplus rnd q p) - Kinematics.qplus (vals q) (vals p)) ≤ 9 / 2 ^ 53 * (nrm (vals q) * nrm (vals p))) ∧
    (Finite (qoplus rnd q p) ∧
    nrm (vals (qoplus rnd q p) - Kinematics.qoplus (vals q) (vals p)) ≤ 9 / 2 ^ 53 * (nrm (vals q) * nrm (vals p))) := by
  have key : ∀ (v : V4), InR (-200) 200 (nrm v) → (∀ i, InR (-300) 300 (wt (1 / 2 ^ 60 * nrm v) v i)) ∧ nrm (wt (1 / 2 ^ 60 * nrm v) v) ≤ (1 + 1 / 2 ^ 59) * nrm v := by
    intro v hv
    have hp := hv.pos
    refine ⟨fun i => ?_, ?_⟩
    · have h1 : InR (-60) (-60) (1 / 2 ^ 60 : ℝ) := by
        have : (1 / 2 ^ 60 : ℝ) = 2 ^ (-60 : ℤ) := by rw [zpow_neg, one_div]; norm_cast
        unfold InR; rw [this]; exact ⟨le_rfl, le_rfl⟩
      have h2 := h1.mul hv
      have h3 := abs_le_nrm v i
      have h4 := hv.2
      have h5 := h2.1
      have h6 := h2.2
      have h7 := abs_nonneg (v i)
      unfold wt
      constructor
      · have : (2 : ℝ) ^ (-300 : ℤ) ≤ 2 ^ (-60 + -200 : ℤ) := zpow_le_zpow_right₀ (by norm_num) (by norm_num)
        exact (this.trans h5).trans (le_add_of_nonneg_left h7)
      · have e : (2 : ℝ) ^ (-60 + 200 : ℤ) ≤ 2 ^ (200 : ℤ) := zpow_le_zpow_right₀ (by norm_num) (by norm_num)
        have e2 : (2 : ℝ) ^ (200 : ℤ) + 2 ^ (200 : ℤ) = 2 ^ (201 : ℤ) := by rw [show (201 : ℤ) = 200 + 1 from rfl, zpow_add₀ (by norm_num)]; ring
        have e3 : (2 : ℝ) ^ (201 : ℤ) ≤ 2 ^ (300 : ℤ) := zpow_le_zpow_right₀ (by norm_num) (by norm_num)
        exact (add_le_add (h3.trans h4) (h6.trans e)).trans (e2.le.trans e3)
    · refine (nrm_wt (by norm_num) (by positivity) v).trans (le_of_eq ?_)
      ring
  obtain ⟨ra, na⟩ := key _ nq
  obtain ⟨rb, nb⟩ := key _ np
  obtain ⟨h1, h2⟩ := qplus_acc hr hq hp (le_wt (by have := nq.pos; positivity) _) (le_wt (by have := np.pos; positivity) _) ra rb
  have h1' := qoplus_acc hr hq hp (le_wt (by have := nq.pos; positivity) _) (le_wt (by have := np.pos; positivity) _) ra rb
  suffices h0 : ((1 + eps) ^ 4 - 1) * nrm (absProd (wt (1 / 2 ^ 60 * nrm (vals q)) (vals q)) (wt (1 / 2 ^ 60 * nrm (vals p)) (vals p))) ≤ 9 / 2 ^ 53 * (nrm (vals q) * nrm (vals p)) from
    ⟨⟨acc_finite (by norm_num) h1 h2, (acc_nrm h1).trans h0⟩, ⟨acc_finite (by norm_num) h1' h2, (acc_nrm h1').trans h0⟩⟩
  have h3 := absProd_nrm (wt (1 / 2 ^ 60 * nrm (vals q)) (vals q)) (wt (1 / 2 ^ 60 * nrm (vals p)) (vals p))
  have h4 := mul_le_mul na nb (nrm_nonneg _) (by have := nq.pos; positivity)
  have h5 : nrm (absProd (wt (1 / 2 ^ 60 * nrm (vals q)) (vals q)) (wt (1 / 2 ^ 60 * nrm (vals p)) (vals p))) ≤ 2 * (1 + 1 / 2 ^ 59) ^ 2 * (nrm (vals q) * nrm (vals p)) := by
    refine h3.trans ?_
    nlinarith
  have h6 : ((1 + eps) ^ 4 - 1) * (2 * (1 + 1 / 2 ^ 59) ^ 2) ≤ 9 / 2 ^ 53 := by unfold eps; norm_num
  have h7 : 0 ≤ (1 + eps) ^ 4 - 1 := by linarith [one_le_pow_eps 4]
  have h8 : 0 ≤ nrm (vals q) * nrm (vals p) := mul_nonneg nq.pos.le np.pos.le
  calc _ ≤ ((1 + eps) ^ 4 - 1) * (2 * (1 + 1 / 2 ^ 59) ^ 2 * (nrm (vals q) * nrm (vals p))) := mul_le_mul_of_nonneg_left h5 h7
    _ = ((1 + eps) ^ 4 - 1) * (2 * (1 + 1 / 2 ^ 59) ^ 2) * (nrm (vals q) * nrm (vals p)) := by ring
    _ ≤ _ := mul_le_mul_of_nonneg_right h6 h8

theorem qplus_err {q p : F4} (hq : Finite q) (hp : Finite p) (nq : InR (-200) 200 (nrm (vals q))) (np : InR (-200) 200 (nrm (vals p))) :
    Finite (qplus rnd q p) ∧
    nrm (vals (qplus rnd q p) - Kinematics.qplus (vals q) (vals p)) ≤ 9 / 2 ^ 53 * (nrm (vals q) * nrm (vals p)) := (prod_err hr hq hp nq np).1

theorem qoplus_err {q p : F4} (hq : Finite q) (hp : Finite p) (nq : InR (-200) 200 (nrm (vals q))) (np : InR (-200) 200 (nrm (vals p))) :
    Finite (qoplus rnd q p) ∧
    nrm (vals (qoplus rnd q p) - Kinematics.qoplus (vals q) (vals p)) ≤ 9 / 2 ^ 53 * (nrm (vals q) * nrm (vals p)) := (prod_err hr hq hp nq np).2

end Verif.KinematicsDouble
