import Verif.SmEigen.Model
import Mathlib.Analysis.Calculus.Taylor
import Mathlib.Analysis.Calculus.Deriv.Slope
import Mathlib.Analysis.Calculus.Deriv.Comp
import Mathlib.Analysis.Calculus.FDeriv.Basic
import Mathlib.Analysis.Calculus.Deriv.Shift
import Mathlib.Analysis.Calculus.Deriv.Prod
import Mathlib.Analysis.Calculus.IteratedDeriv.Lemmas
import Mathlib.Algebra.Order.Star.Real

/-!
# C86–C88: sm_eigen
-/

namespace Verif.SmEigen

open Verif.Common

variable {n m : ℕ}

/-! ## C86: numerical differentiation -/

theorem stepSize_pos {eps : ℝ} (h : 0 < eps) (x0 : Fin n → ℝ) (c : Fin n) : 0 < stepSize eps x0 c :=
  h.trans_le (le_max_right _ _)

theorem update_line (x : Fin n → ℝ) (c : Fin n) (t : ℝ) : update x c t = x + t • Pi.single c 1 := by
  funext i
  simp only [update, Pi.add_apply, Pi.smul_apply, Pi.single_apply, smul_eq_mul]
  split <;> simp

/-- **C86** The function is evaluated at the operating point and, for each coordinate, at the two points that differ
from it in this coordinate only, by the step `eps * max(|x_c|, 1)` to either side. -/
theorem C86_points (eps : ℝ) (h : 0 < eps) (x0 p : Fin n → ℝ) :
    p ∈ evalPoints eps x0 ↔ p = x0 ∨ ∃ c : Fin n, (∀ i, i ≠ c → p i = x0 i) ∧ |p c - x0 c| = eps * max |x0 c| 1 := by
  have hs : ∀ c, stepSize eps x0 c = eps * max |x0 c| 1 := by
    intro c
    rw [stepSize, mul_max_of_nonneg _ _ h.le, mul_one, mul_comm]
  simp only [evalPoints, List.mem_cons, List.mem_flatMap, List.mem_finRange, true_and, List.not_mem_nil, or_false]
  constructor
  · rintro (rfl | ⟨c, rfl | rfl⟩)
    · exact Or.inl rfl
    · refine Or.inr ⟨c, fun i hi => by simp [update, hi], ?_⟩
      simp only [update, if_true, add_sub_cancel_left]
      rw [abs_of_pos (stepSize_pos h x0 c), hs]
    · refine Or.inr ⟨c, fun i hi => by simp [update, hi], ?_⟩
      simp only [update, if_true, add_sub_cancel_left]
      rw [abs_neg, abs_of_pos (stepSize_pos h x0 c), hs]
  · rintro (rfl | ⟨c, h1, h2⟩)
    · exact Or.inl rfl
    · refine Or.inr ⟨c, ?_⟩
      rw [← hs] at h2
      rcases (abs_eq (stepSize_pos h x0 c).le).mp h2 with h3 | h3
      · left
        funext i
        by_cases hi : i = c
        · subst hi; simp [update]; linarith
        · simp [update, hi, h1 i hi]
      · right
        funext i
        by_cases hi : i = c
        · subst hi; simp [update]; linarith
        · simp [update, hi, h1 i hi]

/-- **C86** For a function that is a polynomial of degree at most two in each coordinate separately (in particular a
linear one) the estimate is the exact partial derivative, whatever the step. -/
theorem C86_exact (f : (Fin n → ℝ) → Fin m → ℝ) (eps : ℝ) (h : 0 < eps) (x0 : Fin n → ℝ) (i : Fin m) (c : Fin n)
    (a b q : ℝ) (hf : ∀ t, f (x0 + t • Pi.single c 1) i = a + b * t + q * t ^ 2) :
    estimateJacobian f eps x0 i c = b ∧ HasDerivAt (fun t : ℝ => f (x0 + t • Pi.single c 1) i) b 0 := by
  constructor
  · have hp := stepSize_pos h x0 c
    unfold estimateJacobian
    rw [update_line, update_line, hf, hf]
    field_simp
    ring
  · have : (fun t : ℝ => f (x0 + t • Pi.single c 1) i) = fun t => a + b * t + q * t ^ 2 := funext hf
    rw [this]
    have h1 := ((hasDerivAt_id (0 : ℝ)).const_mul b).const_add a
    have h2 := ((hasDerivAt_id (0 : ℝ)).pow 2).const_mul q
    have := h1.add h2
    refine HasDerivAt.congr_deriv (this.congr_of_eventuallyEq (Filter.Eventually.of_forall fun t => ?_)) ?_
    · simp
    · simp

/-- third order Taylor with a bound, to the right of zero -/
theorem taylor3 (g : ℝ → ℝ) (hg : ContDiff ℝ 3 g) (M h : ℝ) (hh : 0 < h)
    (hM : ∀ t, |t| ≤ h → |iteratedDeriv 3 g t| ≤ M) :
    |g h - (g 0 + deriv g 0 * h + iteratedDeriv 2 g 0 / 2 * h ^ 2)| ≤ M * h ^ 3 / 6 := by
  obtain ⟨x, hx, he⟩ := taylor_mean_remainder_lagrange_iteratedDeriv (f := g) (x₀ := 0) (x := h) (n := 2) hh.ne hg.contDiffOn
  rw [Set.uIoo_of_lt hh] at hx
  rw [Set.uIcc_of_le hh.le] at he
  have e1 : taylorWithinEval g 2 (Set.Icc 0 h) 0 h = g 0 + deriv g 0 * h + iteratedDeriv 2 g 0 / 2 * h ^ 2 := by
    have hu : UniqueDiffOn ℝ (Set.Icc (0 : ℝ) h) := uniqueDiffOn_Icc hh
    have h0 : (0 : ℝ) ∈ Set.Icc (0 : ℝ) h := ⟨le_refl _, hh.le⟩
    have d1 : iteratedDerivWithin 1 g (Set.Icc 0 h) 0 = iteratedDeriv 1 g 0 :=
      iteratedDerivWithin_eq_iteratedDeriv hu (hg.contDiffAt.of_le (by norm_num)) h0
    have d2 : iteratedDerivWithin 2 g (Set.Icc 0 h) 0 = iteratedDeriv 2 g 0 :=
      iteratedDerivWithin_eq_iteratedDeriv hu (hg.contDiffAt.of_le (by norm_num)) h0
    rw [taylorWithinEval_succ, taylorWithinEval_succ, taylor_within_zero_eval]
    simp only [Nat.cast_zero, zero_add, Nat.factorial, Nat.cast_one, Nat.reduceAdd]
    rw [d1, d2, iteratedDeriv_one]
    simp only [smul_eq_mul]
    norm_num
    ring
  rw [e1] at he
  rw [he, abs_div, abs_mul]
  have hb := hM x (by rw [abs_of_pos hx.1]; exact hx.2.le)
  have hp : |(h - 0) ^ (2 + 1)| = h ^ 3 := by rw [sub_zero, abs_of_pos (by positivity)]
  rw [hp]
  have : |((Nat.factorial (2 + 1) : ℕ) : ℝ)| = 6 := by norm_num [Nat.factorial]
  rw [this]
  gcongr

/-- **C86** For a smooth function the error of an entry of the estimate is at most a sixth of the bound on the third
partial derivative times the square of the step. -/
theorem C86_error (f : (Fin n → ℝ) → Fin m → ℝ) (eps : ℝ) (h : 0 < eps) (x0 : Fin n → ℝ) (i : Fin m) (c : Fin n) (M : ℝ)
    (hf : ContDiff ℝ 3 fun t : ℝ => f (x0 + t • Pi.single c 1) i)
    (hM : ∀ t, |t| ≤ eps * max |x0 c| 1 → |iteratedDeriv 3 (fun t : ℝ => f (x0 + t • Pi.single c 1) i) t| ≤ M) :
    |estimateJacobian f eps x0 i c - deriv (fun t : ℝ => f (x0 + t • Pi.single c 1) i) 0| ≤
      M * (eps * max |x0 c| 1) ^ 2 / 6 := by
  set g := fun t : ℝ => f (x0 + t • Pi.single c 1) i with hg
  have hs : stepSize eps x0 c = eps * max |x0 c| 1 := by
    rw [stepSize, mul_max_of_nonneg _ _ h.le, mul_one, mul_comm]
  have hp := stepSize_pos h x0 c
  rw [← hs] at hM ⊢
  set s := stepSize eps x0 c with hsd
  have e : estimateJacobian f eps x0 i c = (g s - g (-s)) / (s * 2) := by
    unfold estimateJacobian
    rw [update_line, update_line]
  have t1 := taylor3 g hf M s hp hM
  have hf' : ContDiff ℝ 3 fun t => g (-t) := hf.comp contDiff_neg
  have di : ∀ (k : ℕ) (t : ℝ), iteratedDeriv k (fun t => g (-t)) t = (-1) ^ k * iteratedDeriv k g (-t) := by
    intro k t
    rw [iteratedDeriv_comp_neg]; simp
  have t2 := taylor3 (fun t => g (-t)) hf' M s hp (by
    intro t ht
    rw [di, abs_mul]
    have := hM (-t) (by rwa [abs_neg])
    simpa using this)
  have d1 : deriv (fun t => g (-t)) 0 = -deriv g 0 := by
    have := di 1 0
    rw [iteratedDeriv_one, iteratedDeriv_one] at this
    simpa using this
  rw [d1, di] at t2
  simp only [neg_zero] at t2
  rw [e]
  have key : (g s - g (-s)) / (s * 2) - deriv g 0 =
      ((g s - (g 0 + deriv g 0 * s + iteratedDeriv 2 g 0 / 2 * s ^ 2)) -
        (g (-s) - (g 0 + -deriv g 0 * s + (-1) ^ 2 * iteratedDeriv 2 g 0 / 2 * s ^ 2))) / (s * 2) := by
    field_simp
    ring
  rw [key, abs_div, abs_of_pos (by positivity : 0 < s * 2), div_le_iff₀ (by positivity)]
  calc _ ≤ _ := abs_sub _ _
    _ ≤ M * s ^ 3 / 6 + M * s ^ 3 / 6 := add_le_add t1 t2
    _ = M * s ^ 2 / 6 * (s * 2) := by ring

/-- **C86** Where the function is differentiable the estimate converges to the Jacobian as `eps` tends to zero. -/
theorem C86_limit (f : (Fin n → ℝ) → Fin m → ℝ) (x0 : Fin n → ℝ) (f' : (Fin n → ℝ) →L[ℝ] (Fin m → ℝ))
    (hf : HasFDerivAt f f' x0) (i : Fin m) (c : Fin n) :
    Filter.Tendsto (fun eps => estimateJacobian f eps x0 i c) (nhdsWithin 0 (Set.Ioi 0)) (nhds (f' (Pi.single c 1) i)) := by
  set g := fun t : ℝ => f (x0 + t • Pi.single c 1) i with hg
  have hd : HasDerivAt g (f' (Pi.single c 1) i) 0 := by
    have h1 : HasDerivAt (fun t : ℝ => x0 + t • (Pi.single c 1 : Fin n → ℝ)) (Pi.single c 1) 0 := by
      have := ((hasDerivAt_id (0 : ℝ)).smul_const (Pi.single c 1 : Fin n → ℝ)).const_add x0
      simpa using this
    have h2 : HasFDerivAt f f' (x0 + (0 : ℝ) • (Pi.single c 1 : Fin n → ℝ)) := by simpa using hf
    have h3 := h2.comp_hasDerivAt (0 : ℝ) h1
    exact (hasDerivAt_pi.mp h3) i
  have hs : ∀ eps : ℝ, 0 < eps → stepSize eps x0 c = eps * max |x0 c| 1 := by
    intro eps h
    rw [stepSize, mul_max_of_nonneg _ _ h.le, mul_one, mul_comm]
  have hm : (0 : ℝ) < max |x0 c| 1 := lt_of_lt_of_le one_pos (le_max_right _ _)
  have hslope := hasDerivAt_iff_tendsto_slope_zero.mp hd
  have ht1 : Filter.Tendsto (fun eps : ℝ => eps * max |x0 c| 1) (nhdsWithin 0 (Set.Ioi 0)) (nhdsWithin 0 {0}ᶜ) := by
    apply tendsto_nhdsWithin_of_tendsto_nhds_of_eventually_within
    · have : Filter.Tendsto (fun eps : ℝ => eps * max |x0 c| 1) (nhds 0) (nhds (0 * max |x0 c| 1)) :=
        (continuous_id.mul continuous_const).tendsto 0
      rw [zero_mul] at this
      exact this.mono_left nhdsWithin_le_nhds
    · filter_upwards [self_mem_nhdsWithin] with eps heps
      exact (mul_pos heps hm).ne'
  have ht2 : Filter.Tendsto (fun eps : ℝ => -(eps * max |x0 c| 1)) (nhdsWithin 0 (Set.Ioi 0)) (nhdsWithin 0 {0}ᶜ) := by
    apply tendsto_nhdsWithin_of_tendsto_nhds_of_eventually_within
    · have : Filter.Tendsto (fun eps : ℝ => -(eps * max |x0 c| 1)) (nhds 0) (nhds (-(0 * max |x0 c| 1))) :=
        ((continuous_id.mul continuous_const).neg).tendsto 0
      rw [zero_mul, neg_zero] at this
      exact this.mono_left nhdsWithin_le_nhds
    · filter_upwards [self_mem_nhdsWithin] with eps heps
      exact (neg_ne_zero.mpr (mul_pos heps hm).ne')
  have l1 := hslope.comp ht1
  have l2 := hslope.comp ht2
  have l3 := (l1.add l2).const_mul (1 / 2 : ℝ)
  have e : (1 / 2 : ℝ) * (f' (Pi.single c 1) i + f' (Pi.single c 1) i) = f' (Pi.single c 1) i := by ring
  rw [e] at l3
  refine l3.congr' ?_
  filter_upwards [self_mem_nhdsWithin] with eps heps
  have hp : 0 < eps * max |x0 c| 1 := mul_pos heps hm
  unfold estimateJacobian
  rw [hs eps heps, update_line, update_line]
  simp only [Function.comp, zero_add, smul_eq_mul, hg]
  field_simp
  ring

/-- a quadratic function of two variables -/
example : estimateJacobian (m := 1) (fun x : Fin 2 → ℝ => ![x 0 * x 1 + x 0 ^ 2]) (1 / 4) ![3, 5] 0 0 = 11 :=
  (C86_exact _ _ (by norm_num) _ 0 0 24 11 1 (by intro t; simp [Pi.single_apply]; ring)).1

/-! ## C87: matrix square root -/

/-- the contract of `Eigen::LDLT`: `A = Pᵀ L D Lᵀ P`, `L` lower triangular with ones on the diagonal -/
structure IsLdlt (f : Ldlt n) (A : Matrix (Fin n) (Fin n) ℝ) : Prop where
  unit : ∀ i, f.L i i = 1
  lower : ∀ i j, i < j → f.L i j = 0
  fact : A = (f.P.permMatrix ℝ).transpose * f.L * Matrix.diagonal f.D * f.L.transpose * f.P.permMatrix ℝ

/-- **C87** For every positive semidefinite matrix and whatever factors the decomposition returns, the result `S` satisfies
`S Sᵀ = A`. -/
theorem C87_sqrt (ldlt : Matrix (Fin n) (Fin n) ℝ → Ldlt n) (A : Matrix (Fin n) (Fin n) ℝ) (hA : A.PosSemidef)
    (h : IsLdlt (ldlt A) A) :
    matrixSqrt ldlt A * (matrixSqrt ldlt A).transpose = A ∧ ∀ i, 0 ≤ (ldlt A).D i := by
  set f := ldlt A with hf
  -- `Pᵀ L` is invertible, so `D` is congruent to `A`
  set G := (f.P.permMatrix ℝ).transpose * f.L with hG
  have hdetL : f.L.det = 1 := by
    rw [Matrix.det_of_isLowerTriangular f.L (by intro i j hij; exact h.lower i j (by simpa using hij))]
    simp [h.unit]
  have hdetP : (f.P.permMatrix ℝ).det ≠ 0 := by
    rw [Matrix.det_permutation]
    simp
  have hdet : IsUnit G.det := by
    rw [hG, Matrix.det_mul, Matrix.det_transpose, hdetL, mul_one]
    exact isUnit_iff_ne_zero.mpr hdetP
  have hfact : A = G * Matrix.diagonal f.D * G.transpose := by
    rw [hG, Matrix.transpose_mul, Matrix.transpose_transpose, ← Matrix.mul_assoc, h.fact]
  have hD : (Matrix.diagonal f.D).PosSemidef := by
    have e : Matrix.diagonal f.D = G⁻¹ * A * (G⁻¹).transpose := by
      rw [hfact, Matrix.transpose_nonsing_inv]
      have h1 := Matrix.nonsing_inv_mul G hdet
      have h2 : G.transpose * G.transpose⁻¹ = 1 := Matrix.mul_nonsing_inv _ (by rwa [Matrix.det_transpose])
      calc Matrix.diagonal f.D = 1 * Matrix.diagonal f.D * 1 := by rw [Matrix.one_mul, Matrix.mul_one]
        _ = (G⁻¹ * G) * Matrix.diagonal f.D * (G.transpose * G.transpose⁻¹) := by rw [h1, h2]
        _ = _ := by simp only [Matrix.mul_assoc]
    rw [e]
    have := hA.mul_mul_conjTranspose_same G⁻¹
    rwa [Matrix.conjTranspose_eq_transpose_of_trivial] at this
  have hD0 : ∀ i, 0 ≤ f.D i := by
    intro i
    have := Matrix.posSemidef_diagonal_iff.mp hD i
    exact this
  refine ⟨?_, hD0⟩
  have hs : matrixSqrt ldlt A = G * Matrix.diagonal fun i => √(f.D i) := rfl
  rw [hs, Matrix.transpose_mul, Matrix.diagonal_transpose]
  have e : (Matrix.diagonal fun i => √(f.D i)) * (Matrix.diagonal fun i => √(f.D i)) = Matrix.diagonal f.D := by
    rw [Matrix.diagonal_mul_diagonal]
    congr 1
    funext i
    exact Real.mul_self_sqrt (hD0 i)
  calc _ = G * ((Matrix.diagonal fun i => √(f.D i)) * (Matrix.diagonal fun i => √(f.D i))) * G.transpose := by
        simp only [Matrix.mul_assoc]
    _ = A := by rw [e, ← hfact]

/-- **C87** Only positive semidefinite matrices have such a square root at all. -/
theorem C87_only (A S : Matrix (Fin n) (Fin n) ℝ) (h : S * S.transpose = A) : A.PosSemidef := by
  rw [← h]
  have := Matrix.posSemidef_self_mul_conjTranspose S
  rwa [Matrix.conjTranspose_eq_transpose_of_trivial] at this

/-- a singular matrix -/
example : IsLdlt (n := 2) ⟨!![1, 0; 2, 1], Equiv.refl _, ![1, 0]⟩ !![1, 2; 2, 4] where
  unit := by intro i; fin_cases i <;> rfl
  lower := by intro i j hij; fin_cases i <;> fin_cases j <;> simp_all
  fact := by
    ext i j
    fin_cases i <;> fin_cases j <;>
      simp [Matrix.mul_apply, Fin.sum_univ_two, Equiv.Perm.permMatrix, PEquiv.toMatrix, Matrix.diagonal] <;> norm_num

/-! ## C88: test helpers -/

/-- **C88** `randomCovariance` is a symmetric positive definite matrix, with all eigenvalues at least 5. -/
theorem C88_randomCovariance (U : Matrix (Fin n) (Fin n) ℝ) :
    (randomCovariance U).transpose = randomCovariance U ∧ (randomCovariance U).PosDef ∧
    ∀ v : Fin n → ℝ, 5 * (v ⬝ᵥ v) ≤ v ⬝ᵥ (randomCovariance U).mulVec v := by
  have hq : ∀ v : Fin n → ℝ, v ⬝ᵥ (randomCovariance U).mulVec v = (U.mulVec v) ⬝ᵥ (U.mulVec v) + 5 * (v ⬝ᵥ v) := by
    intro v
    unfold randomCovariance
    rw [Matrix.add_mulVec, dotProduct_add, ← Matrix.mulVec_mulVec, Matrix.dotProduct_mulVec, Matrix.vecMul_transpose,
      Matrix.smul_mulVec, Matrix.one_mulVec, dotProduct_smul, smul_eq_mul]
  have hn : ∀ w : Fin n → ℝ, 0 ≤ w ⬝ᵥ w := fun w => Finset.sum_nonneg fun i _ => mul_self_nonneg _
  have hsym : (randomCovariance U).transpose = randomCovariance U := by
    unfold randomCovariance
    simp [Matrix.transpose_mul]
  refine ⟨hsym, ?_, fun v => by rw [hq]; linarith [hn (U.mulVec v)]⟩
  have h1 : (U.transpose * U).PosSemidef := by
    have := Matrix.posSemidef_conjTranspose_mul_self U
    rwa [Matrix.conjTranspose_eq_transpose_of_trivial] at this
  have h2 : ((5 : ℝ) • (1 : Matrix (Fin n) (Fin n) ℝ)).PosDef := Matrix.PosDef.one.smul (by norm_num)
  exact Matrix.PosDef.posSemidef_add h1 h2

/-- what `compareRelative` should decide: both values are tiny, or one is zero and the other small, or their
difference is within the percentage of the larger -/
def Close (a b tol : ℚ) : Prop :=
  (|a| < 1 / 10 ^ 15 ∧ |b| < 1 / 10 ^ 15) ∨ (a = 0 ∧ |b| < 1 / 10 ^ 6) ∨ (b = 0 ∧ |a| < 1 / 10 ^ 6) ∨
    |a - b| ≤ tol / 100 * max |a| |b|

theorem max_fin (a b : ℚ) : Fp.max (.fin a) (.fin b) = .fin (max a b) := by
  unfold Fp.max Fp.lt
  rcases lt_or_ge a b with h | h
  · simp [h, max_eq_right h.le]
  · simp [not_lt.mpr h, max_eq_left h]

/-- **C88** For finite values `compareRelative` decides exactly this, it is symmetric, and on failure it reports the relative
difference in percent. -/
theorem C88_compareRelative_partial (a b tol : ℚ) :
    ((compareRelative (.fin a) (.fin b) (.fin tol)).1 = true ↔ Close a b tol) ∧
    compareRelative (.fin a) (.fin b) (.fin tol) = compareRelative (.fin b) (.fin a) (.fin tol) ∧
    ((compareRelative (.fin a) (.fin b) (.fin tol)).1 = false →
      (compareRelative (.fin a) (.fin b) (.fin tol)).2 = some (.fin (|a - b| / max |a| |b| * 100)) ∧
        tol < |a - b| / max |a| |b| * 100) := by
  have hd : ∀ a b : ℚ, ((Fp.fin a).sub (.fin b)).abs = .fin |a - b| := by
    intro a b; simp [Fp.sub, Fp.neg, Fp.add, Fp.abs, sub_eq_add_neg]
  have unf : ∀ a b : ℚ, compareRelative (.fin a) (.fin b) (.fin tol) =
      if (|a| < 1 / 10 ^ 15 ∧ |b| < 1 / 10 ^ 15) ∨ (a = 0 ∧ |b| < 1 / 10 ^ 6) ∨ (b = 0 ∧ |a| < 1 / 10 ^ 6) then (true, none)
      else if tol * (1 / 100) < |a - b| / max |a| |b| then (false, some (.fin (|a - b| / max |a| |b| * 100))) else (true, none) := by
    intro a b
    by_cases hc : (|a| < 1 / 10 ^ 15 ∧ |b| < 1 / 10 ^ 15) ∨ (a = 0 ∧ |b| < 1 / 10 ^ 6) ∨ (b = 0 ∧ |a| < 1 / 10 ^ 6)
    · rw [if_pos hc]
      simp only [compareRelative, Fp.abs, Fp.lt, Fp.eq, abs_eq_zero]
      rw [if_pos]
      simp only [Bool.or_eq_true, Bool.and_eq_true, decide_eq_true_eq]
      tauto
    · rw [if_neg hc]
      have hm : max |a| |b| ≠ 0 := by
        intro h0
        apply hc
        left
        have h1 : |a| ≤ 0 := h0 ▸ le_max_left _ _
        have h2 : |b| ≤ 0 := h0 ▸ le_max_right _ _
        constructor
        · exact lt_of_le_of_lt h1 (by norm_num)
        · exact lt_of_le_of_lt h2 (by norm_num)
      unfold compareRelative
      simp only [hd]
      simp only [Fp.abs, max_fin, Fp.div, if_neg hm, Fp.mul, Fp.lt, Fp.eq, abs_eq_zero, decide_eq_true_eq]
      rw [if_neg]
      simp only [Bool.or_eq_true, Bool.and_eq_true, decide_eq_true_eq]
      tauto
  have hsym : compareRelative (.fin a) (.fin b) (.fin tol) = compareRelative (.fin b) (.fin a) (.fin tol) := by
    rw [unf, unf, abs_sub_comm a b, max_comm |a| |b|]
    congr 1
    apply propext
    tauto
  refine ⟨?_, hsym, ?_⟩
  · rw [unf]
    unfold Close
    by_cases hc : (|a| < 1 / 10 ^ 15 ∧ |b| < 1 / 10 ^ 15) ∨ (a = 0 ∧ |b| < 1 / 10 ^ 6) ∨ (b = 0 ∧ |a| < 1 / 10 ^ 6)
    · rw [if_pos hc]
      simp only [true_iff]
      rcases hc with h | h | h
      · exact Or.inl h
      · exact Or.inr (Or.inl h)
      · exact Or.inr (Or.inr (Or.inl h))
    · rw [if_neg hc]
      have hm : 0 < max |a| |b| := by
        rcases (le_max_left |a| |b|).trans' (abs_nonneg a) |>.eq_or_lt with h0 | h0
        · exfalso; apply hc; left
          have h1 : |a| ≤ 0 := h0 ▸ le_max_left _ _
          have h2 : |b| ≤ 0 := h0 ▸ le_max_right _ _
          exact ⟨lt_of_le_of_lt h1 (by norm_num), lt_of_le_of_lt h2 (by norm_num)⟩
        · exact h0
      have e : (tol * (1 / 100) < |a - b| / max |a| |b|) ↔ ¬ |a - b| ≤ tol / 100 * max |a| |b| := by
        rw [lt_div_iff₀ hm, not_le]
        rw [show tol * (1 / 100) = tol / 100 by ring]
      split
      · rename_i h
        simp only [Bool.false_eq_true, false_iff]
        have h' := e.mp h
        rintro (h2 | h2 | h2 | h2)
        · exact hc (Or.inl h2)
        · exact hc (Or.inr (Or.inl h2))
        · exact hc (Or.inr (Or.inr h2))
        · exact h' h2
      · rename_i h
        simp only [true_iff]
        have : |a - b| ≤ tol / 100 * max |a| |b| := by
          by_contra hcc
          exact h (e.mpr hcc)
        exact Or.inr (Or.inr (Or.inr this))
  · rw [unf]
    split
    · intro h; cases h
    · split
      · rename_i h
        intro _
        exact ⟨rfl, by linarith⟩
      · intro h; cases h

/-- the full claim: whatever the values, `compareRelative` succeeds only for finite values that are close -/
def C88_claim : Prop :=
  ∀ (a b : Fp) (tol : ℚ), (compareRelative a b (.fin tol)).1 = true → ∃ x y, a = .fin x ∧ b = .fin y ∧ Close x y tol

/-- **C88** The full claim is false: a NaN is accepted, and infinity is as good as 5. -/
theorem C88_negation : (∀ b tol, (compareRelative .nan b (.fin tol)).1 = true) ∧
    (∀ tol, (compareRelative (.inf false) (.fin 5) (.fin tol)).1 = true) ∧ ¬ C88_claim := by
  have h1 : ∀ b tol, (compareRelative .nan b (.fin tol)).1 = true := by
    intro b tol
    have e : Fp.div .nan (Fp.max .nan b.abs) = .nan := rfl
    have e2 : (Fp.nan.sub b).abs = .nan := rfl
    unfold compareRelative
    simp only [Fp.abs] at *
    simp [Fp.lt, Fp.eq, e, Fp.sub, Fp.add, Fp.mul]
  refine ⟨h1, fun tol => ?_, fun hc => ?_⟩
  · simp [compareRelative, Fp.abs, Fp.lt, Fp.eq, Fp.sub, Fp.neg, Fp.add, Fp.max, Fp.div, Fp.mul]
  · obtain ⟨x, y, hx, _⟩ := hc .nan (.fin 0) 1 (h1 _ _)
    cases hx

theorem mem_positions {α : Type} (A : Mat α) (r c : ℕ) : (r, c) ∈ positions A ↔ r < A.rows ∧ c < A.cols := by
  simp [positions]

/-- **C88** The matrix tests with `ASSERT` (`assertEqual`, `assertNear`, `ASSERT_DOUBLE_MX_EQ`) report nothing exactly if
the matrices have the same size and all pairs of elements pass; they report at most one failure, and never read an
element that does not exist. -/
theorem C88_assertMat {α : Type} (test : α → α → Bool) (A B : Mat α) :
    ∃ l, assertMat test A B = .reports l ∧ l.length ≤ 1 ∧
      (l = [] ↔ A.rows = B.rows ∧ A.cols = B.cols ∧ ∀ r c, r < A.rows → c < A.cols → test (A.at' r c) (B.at' r c) = true) := by
  unfold assertMat
  by_cases h1 : A.rows = B.rows
  · by_cases h2 : A.cols = B.cols
    · rw [if_neg (by simpa using h1), if_neg (by simpa using h2)]
      have key : ∀ ps : List (ℕ × ℕ), (∀ p ∈ ps, p.1 < A.rows ∧ p.2 < A.cols) →
          ∃ l, assertLoop test A B ps = .reports l ∧ l.length ≤ 1 ∧
            (l = [] ↔ ∀ p ∈ ps, test (A.at' p.1 p.2) (B.at' p.1 p.2) = true) := by
        intro ps
        induction ps with
        | nil => intro _; exact ⟨[], rfl, by simp, by simp⟩
        | cons p ps ih =>
          intro hp
          obtain ⟨r, c⟩ := p
          have hrc := hp (r, c) (by simp)
          obtain ⟨l, e, hl, hi⟩ := ih fun p hp' => hp p (by simp [hp'])
          simp only [assertLoop, Mat.get?]
          rw [if_pos hrc, if_pos (by rw [← h1, ← h2]; exact hrc)]
          simp only
          by_cases ht : test (A.at' r c) (B.at' r c) = true
          · rw [if_pos ht]
            exact ⟨l, e, hl, by rw [hi]; simp [ht]⟩
          · rw [if_neg ht]
            exact ⟨_, rfl, by simp, by simp [ht]⟩
      obtain ⟨l, e, hl, hi⟩ := key (positions A) (by rintro ⟨r, c⟩ hp; exact (mem_positions A r c).mp hp)
      refine ⟨l, e, hl, ?_⟩
      rw [hi]
      constructor
      · intro h; exact ⟨h1, h2, fun r c hr hc => h (r, c) ((mem_positions A r c).mpr ⟨hr, hc⟩)⟩
      · rintro ⟨_, _, h⟩ ⟨r, c⟩ hp
        obtain ⟨hr, hc⟩ := (mem_positions A r c).mp hp
        exact h r c hr hc
    · rw [if_neg (by simpa using h1), if_pos h2]
      exact ⟨_, rfl, by simp, by simp [h2]⟩
  · rw [if_pos h1]
    exact ⟨_, rfl, by simp, by simp [h1]⟩

/-- the full claim for `expectNear`: matrices of different sizes are reported, not read out of bounds -/
def C88_expect_claim : Prop :=
  ∀ (test : ℚ → ℚ → Bool) (A B : Mat ℚ), expectMat test A B ≠ .ub

/-- **C88** The claim for `expectNear` is false: it goes on after reporting different sizes and reads elements that the
second matrix does not have. -/
theorem C88_expect_negation : ¬ C88_expect_claim := by
  intro h
  exact h (fun _ _ => true) ⟨1, 1, fun _ _ => 0⟩ ⟨0, 1, fun _ _ => 0⟩ rfl

/-- **C88** `expectNear` on matrices of the same size reports exactly the positions of the pairs that fail, in
row-major order. -/
theorem C88_expect_partial {α : Type} (test : α → α → Bool) (A B : Mat α) (h1 : A.rows = B.rows) (h2 : A.cols = B.cols) :
    expectMat test A B =
      .reports (((positions A).filter fun p => !test (A.at' p.1 p.2) (B.at' p.1 p.2)).map some) := by
  have key : ∀ (ps : List (ℕ × ℕ)) (acc : List (Option (ℕ × ℕ))), (∀ p ∈ ps, p.1 < A.rows ∧ p.2 < A.cols) →
      expectLoop test A B ps acc =
        .reports (acc ++ (ps.filter fun p => !test (A.at' p.1 p.2) (B.at' p.1 p.2)).map some) := by
    intro ps
    induction ps with
    | nil => intro acc _; simp [expectLoop]
    | cons p ps ih =>
      intro acc hp
      obtain ⟨r, c⟩ := p
      have hrc := hp (r, c) (by simp)
      simp only [expectLoop, Mat.get?]
      rw [if_pos hrc, if_pos (by rw [← h1, ← h2]; exact hrc)]
      simp only
      rw [ih _ fun p hp' => hp p (by simp [hp'])]
      by_cases ht : test (A.at' r c) (B.at' r c) = true
      · simp [ht]
      · simp [ht]
  unfold expectMat
  rw [key _ _ (by rintro ⟨r, c⟩ hp; exact (mem_positions A r c).mp hp)]
  simp [h1, h2]

/-- **C88** `SM_ASSERT_MAT_IS_FINITE` throws iff an element is infinite or NaN. -/
theorem C88_finite (A : Mat Fp) :
    matIsFinite A = none ↔ ∀ r c, r < A.rows → c < A.cols → ∃ q, A.at' r c = .fin q := by
  unfold matIsFinite
  rw [List.find?_eq_none]
  constructor
  · intro h r c hr hc
    have := h (r, c) ((mem_positions A r c).mpr ⟨hr, hc⟩)
    cases hx : A.at' r c with
    | fin q => exact ⟨q, rfl⟩
    | inf b => simp [hx, Fp.isFinite] at this
    | nan => simp [hx, Fp.isFinite] at this
  · rintro h ⟨r, c⟩ hp
    obtain ⟨hr, hc⟩ := (mem_positions A r c).mp hp
    obtain ⟨q, hq⟩ := h r c hr hc
    simp [hq, Fp.isFinite]

/-- values 2% apart, and a matrix with an infinite element -/
example : (compareRelative (.fin 100) (.fin 98) (.fin 3)).1 = true ∧ (compareRelative (.fin 100) (.fin 98) (.fin 1)).1 = false ∧
    matIsFinite ⟨2, 2, fun r c => if r = 1 ∧ c = 0 then .inf true else .fin 0⟩ = some (1, 0) := by
  refine ⟨by decide +kernel, by decide +kernel, by decide⟩

end Verif.SmEigen
