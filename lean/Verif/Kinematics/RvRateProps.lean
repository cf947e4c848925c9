import Verif.Kinematics.RvRate
import Verif.Kinematics.RotVecProps
import Verif.Kinematics.ErRateProps

/-!
# C184: the S-matrix and the angular velocity of rotation vectors in doubles
-/

namespace Verif.RvRate

open Verif.Common Verif.KinematicsDouble Verif.ErDouble Verif.RateDouble Verif.RotVecDouble Verif.EulerDouble
open Verif.Kinematics (V3 M3 IsUnit3 IsSMatrix TurnsBy mv3 IsGenerator)

local notation "nrm" => Kinematics.norm

/-! ## The exact matrix -/

/-- the matrix over the real numbers, without a threshold -/
noncomputable def exactS (p : V3) : M3 :=
  let A := Kinematics.crossMx fun i => p i / nrm p
  1 + (-2 * Real.sin (nrm p * (1 / 2)) * Real.sin (nrm p * (1 / 2)) * (1 / nrm p)) • A + ((nrm p - Real.sin (nrm p)) * (1 / nrm p)) • (A * A)

theorem exactS_mulVec {p : V3} (h : nrm p ≠ 0) (v : V3) :
    (exactS p).mulVec v = v + ((Real.cos (nrm p) - 1) * (1 / nrm p)) • Kinematics.cross (fun i => p i * (1 / nrm p)) v +
      (1 - Real.sin (nrm p) * (1 / nrm p)) • Kinematics.cross (fun i => p i * (1 / nrm p)) (Kinematics.cross (fun i => p i * (1 / nrm p)) v) := by
  have hc : Real.cos (nrm p) - 1 = -2 * Real.sin (nrm p * (1 / 2)) * Real.sin (nrm p * (1 / 2)) := by
    have h1 : Real.cos (nrm p) = Real.cos (nrm p * (1 / 2) + nrm p * (1 / 2)) := by congr 1; ring
    rw [h1, Real.cos_add]
    linear_combination Kinematics.trig (nrm p * (1 / 2))
  have h2 : 1 - Real.sin (nrm p) * (1 / nrm p) = (nrm p - Real.sin (nrm p)) * (1 / nrm p) := by field_simp
  have h3 : (fun i => p i / nrm p) = fun i => p i * (1 / nrm p) := by funext i; ring
  unfold exactS
  simp only
  rw [h3, hc, h2, Matrix.add_mulVec, Matrix.add_mulVec, Matrix.one_mulVec, Matrix.smul_mulVec, Matrix.smul_mulVec,
    ← Matrix.mulVec_mulVec, Kinematics.crossMx_mulVec, Kinematics.crossMx_mulVec]

theorem near_ne {c : ℝ → V3} {v : V3} (hc : ∀ i, HasDerivAt (fun s => c s i) (v i) 0) (h : nrm (c 0) ≠ 0) : ∀ᶠ s in nhds 0, nrm (c s) ≠ 0 := by
  have : ContinuousAt (fun s => nrm (c s)) 0 := Real.continuous_sqrt.continuousAt.comp (Kinematics.deriv_sqNorm hc).continuousAt
  exact this.eventually_ne h

/-- the matrix exponential of a rotation vector turns with the velocity given by the matrix -/
theorem exact_smatrix {p : V3} (h : nrm p ≠ 0) : IsSMatrix (fun q => NormedSpace.exp (-Kinematics.crossMx q)) (exactS p) p := by
  rintro c v rfl hc
  rw [exactS_mulVec h]
  refine (Kinematics.rv_exact_turns hc h).congr ?_
  filter_upwards [near_ne hc h] with s hs
  rw [← Kinematics.rodrigues_vec_exp hs]
  congr 1
  funext i
  ring

/-- the entries of the square of a cross product matrix of a unit vector -/
theorem axis_le {p : V3} (h : nrm p ≠ 0) (i j : Fin 3) : |Kinematics.crossMx (fun i => p i / nrm p) i j| ≤ 1 ∧
    |(Kinematics.crossMx (fun i => p i / nrm p) * Kinematics.crossMx (fun i => p i / nrm p)) i j| ≤ 1 := by
  have hu : IsUnit3 (fun i => p i / nrm p) := Kinematics.unit_of_norm h
  have s1 : Kinematics.sqNorm (fun i => p i / nrm p) = 1 := by
    rw [Kinematics.sq3]
    unfold IsUnit3 at hu
    linarith
  constructor
  · have := (cross_le (fun i => p i / nrm p) i j).1
    rw [s1] at this
    linarith
  · have := (square_le (fun i => p i / nrm p) i j).1
    rw [s1] at this
    rw [Matrix.mul_apply, Fin.sum_univ_three]
    exact (abs_add_three _ _ _).trans this

/-- near zero the matrix is the identity -/
theorem exact_small {p : V3} (h : nrm p ≠ 0) (h1 : nrm p ≤ 1 / 10) (i j : Fin 3) : |exactS p i j - (1 : M3) i j| ≤ nrm p := by
  have n0 : 0 < nrm p := lt_of_le_of_ne (nrm_nonneg p) (Ne.symm h)
  obtain ⟨a1, a2⟩ := axis_le h i j
  obtain ⟨N, hN⟩ : ∃ N, N = nrm p := ⟨_, rfl⟩
  have e : exactS p i j - (1 : M3) i j = (-2 * Real.sin (N * (1 / 2)) * Real.sin (N * (1 / 2)) * (1 / N)) * Kinematics.crossMx (fun i => p i / nrm p) i j +
      ((N - Real.sin N) * (1 / N)) * (Kinematics.crossMx (fun i => p i / nrm p) * Kinematics.crossMx (fun i => p i / nrm p)) i j := by
    unfold exactS
    simp only [Matrix.add_apply, Matrix.smul_apply, smul_eq_mul]
    rw [hN]
    ring
  rw [e, ← hN]
  rw [← hN] at n0 h1
  have c1 : |-2 * Real.sin (N * (1 / 2)) * Real.sin (N * (1 / 2)) * (1 / N)| ≤ N / 2 := by
    have s0 := Real.sin_nonneg_of_nonneg_of_le_pi (x := N * (1 / 2)) (by linarith) (by linarith [Real.pi_gt_three])
    have s1 := Real.sin_le (x := N * (1 / 2)) (by linarith)
    rw [abs_mul, abs_mul, abs_mul, abs_of_pos (by positivity : 0 < 1 / N), abs_of_nonneg s0, show |(-2 : ℝ)| = 2 by norm_num, mul_one_div, div_le_iff₀ n0]
    nlinarith
  have c2 : |(N - Real.sin N) * (1 / N)| ≤ N / 2 := by
    have s1 := Real.sin_le n0.le
    have s2 := Real.sin_gt_sub_cube n0
    rw [abs_mul, abs_of_pos (by positivity : 0 < 1 / N), abs_of_nonneg (by linarith), mul_one_div, div_le_iff₀ n0]
    have : N ^ 3 / 6 ≤ N / 2 * N := by nlinarith [mul_pos n0 n0]
    linarith
  refine (abs_add_le _ _).trans ?_
  rw [abs_mul (-2 * Real.sin (N * (1 / 2)) * Real.sin (N * (1 / 2)) * (1 / N)), abs_mul ((N - Real.sin N) * (1 / N))]
  rw [hN] at c1 c2 ⊢
  have m1 := mul_le_mul c1 a1 (abs_nonneg _) ((abs_nonneg _).trans c1)
  have m2 := mul_le_mul c2 a2 (abs_nonneg _) ((abs_nonneg _).trans c2)
  linarith

/-! ## The computed matrix -/

section
variable {R : ℝ → ℚ} (hR : IsRndR R) (L : SinLib fun q => R q)

theorem sc {x : ℝ} (h1 : 1 / 2 ^ 120 ≤ x) (h2 : x ≤ 2 ^ 120) : Scale x := by
  refine ErRate.scale_mk (a := -120) (b := 120) ?_ ?_ (by norm_num) (by norm_num)
  · rw [zpow_neg, ← one_div]; exact_mod_cast h1
  · exact_mod_cast h2

/-- the sine of a computed angle, relative to the angle -/
theorem sin_acc {k m : ℕ} {f : Fp} {x S : ℝ} (hf : Acc k f x S) (hS : 1 / 2 ^ 60 ≤ S) (hk : (1 + eps) ^ k ≤ 101 / 100) (hm : (1 + eps) ^ k - 1 + 21 / 10 / 2 ^ 53 ≤ (1 + eps) ^ m - 1) : Acc m (libm L.sin f) (Real.sin x) S := by
  obtain ⟨q, rfl, -, hx, hq⟩ := hf
  have S0 : 0 < S := lt_of_lt_of_le (by norm_num) hS
  refine ⟨L.sin q, rfl, L.sin_double q, (Real.abs_sin_le_abs).trans hx, ?_⟩
  have h1 := L.sin_rel q
  have h2 := Real.abs_sin_sub_sin_le (q : ℝ) x
  have h3 := abs_sub_le (L.sin q : ℝ) (Real.sin q) (Real.sin x)
  have h4 : |Real.sin (q : ℝ)| ≤ 101 / 100 * S := by
    refine (Real.abs_sin_le_abs).trans ?_
    have := abs_sub_abs_le_abs_sub (q : ℝ) x
    have := mul_le_mul_of_nonneg_right hk S0.le
    linarith
  have h5 : (2 * tiny : ℝ) ≤ 1 / 1000 / 2 ^ 53 * S := by
    have := tiny_small
    have t : (2 * tiny : ℝ) ≤ 1 / 2 ^ 199 := by norm_num at this ⊢; linarith
    refine t.trans ?_
    norm_num at hS ⊢
    linarith
  have h6 := mul_le_mul_of_nonneg_right hm S0.le
  have h7 : |Real.sin (q : ℝ)| / 2 ^ 52 ≤ 202 / 100 / 2 ^ 53 * S := by
    rw [div_le_iff₀ (by norm_num)]
    norm_num at h4 ⊢
    linarith
  norm_num at h5 h6 h7 ⊢
  linarith

include hR

/-- a product of three terms -/
theorem sum3_acc {k : ℕ} (hk : k ≤ 90) {T : ℝ} (h1 : 1 / 2 ^ 120 ≤ T) (h2 : T ≤ 2 ^ 120) {f : Fin 3 → Fp} {x : Fin 3 → ℝ} (h : ∀ i, Acc k (f i) (x i) T) : Acc (k + 2) (L.sum3 (f 0) (f 1) (f 2)) (x 0 + x 1 + x 2) (3 * T) := by
  have s := (L.sum3_sum (f 0) (f 1) (f 2)).acc hR.rat (.cons (h 0) (.cons (h 1) (.cons (h 2) .nil))) (by simp only [List.length_cons, List.length_nil]; omega) (S := T) ⟨(sc h1 h2).1, by
    refine h2.trans ?_
    rw [show (2 : ℝ) ^ 120 = 2 ^ (120 : ℤ) by norm_cast]
    exact zpow_le_zpow_right₀ (by norm_num) (by norm_num)⟩
  have e : [x 0, x 1, x 2].sum = x 0 + x 1 + x 2 := by simp only [List.sum_cons, List.sum_nil]; ring
  rw [e] at s
  exact_mod_cast s

/-- the scaled square of a matrix -/
theorem square_acc {c2 : Fp} {A : FM3} {γ : ℝ} {B : M3} (hc : Acc 20 c2 γ 2) (hA : ∀ i j, Acc 13 (A i j) (B i j) 1) (i j : Fin 3) : Acc 50 (scaledSquare L c2 A i j) (γ * (B * B) i j) 6 := by
  have s1 : Scale (1 * 1) := sc (by norm_num) (by norm_num)
  have s2 : Scale (2 * 1) := sc (by norm_num) (by norm_num)
  have s4 : Scale (2 * 1 * 1) := sc (by norm_num) (by norm_num)
  have s6 : Scale (2 * (3 * (1 * 1))) := sc (by norm_num) (by norm_num)
  unfold scaledSquare
  rw [Matrix.mul_apply, Fin.sum_univ_three]
  split
  · have t := fun k : Fin 3 => Acc.mul hR.rat (by norm_num) (hA i k) (hA k j) s1
    have := Acc.mul hR.rat (by norm_num) hc (sum3_acc hR L (by norm_num) (by norm_num) (by norm_num) t) s6
    exact this.mono (by norm_num) (by norm_num)
  · have t := fun k : Fin 3 => Acc.mul hR.rat (by norm_num) (Acc.mul hR.rat (by norm_num) hc (hA i k) s2) (hA k j) s4
    have := sum3_acc hR L (by norm_num) (by norm_num) (by norm_num) t
    rw [show γ * (B i 0 * B 0 j + B i 1 * B 1 j + B i 2 * B 2 j) = γ * B i 0 * B 0 j + γ * B i 1 * B 1 j + γ * B i 2 * B 2 j by ring]
    exact this.mono (by norm_num) (by norm_num)

/-- the entries of the matrix of an angle that is not tiny -/
theorem large_acc {p : F3} (hp : Finite p) (hb : nrm (vals p) ≤ 8) (hl : 1 / 2 ^ 47 ≤ nrm (vals p)) (i j : Fin 3) : Acc 51 (largeS L p (norm3 L.toLib p) i j) (exactS (vals p) i j) 11 := by
  have Np : nrm (vals p) ≠ 0 := (lt_of_lt_of_le (by norm_num) hl).ne'
  obtain ⟨t, ht, td, -, te⟩ := norm3_rel hR L.toLib hp hb hl
  have ax := fun i => axis_err hR (hp.fin i).1 rfl (abs_le_nrm (vals p) i) hl hb te
  have hu := Kinematics.unit_of_norm Np
  have al := unit_le hu
  obtain ⟨al2, -⟩ := axis_le Np i j
  -- the axis
  have aa : ∀ i, Acc 13 (fmul (fun q => R q) (p i) (fdiv (fun q => R q) (.fin 1) (.fin t))) (vals p i / nrm (vals p)) 1 := by
    intro i
    obtain ⟨q, e, d, b⟩ := ax i
    refine ⟨q, e, d, al i, b.trans ?_⟩
    unfold u51 eps
    norm_num
  have z : Acc 13 (.fin 0) 0 1 := (CovDouble.acc_zero (by norm_num)).mono (by norm_num) le_rfl
  have hA : ∀ i j, Acc 13 (crossMx (fun i => fmul (fun q => R q) (p i) (fdiv (fun q => R q) (.fin 1) (.fin t))) i j) (Kinematics.crossMx (fun i => vals p i / nrm (vals p)) i j) 1 := by
    intro i j
    fin_cases i <;> fin_cases j <;> first | exact z | exact aa _ | exact (aa _).neg
  unfold largeS exactS
  simp only [Matrix.add_apply, Matrix.smul_apply, smul_eq_mul]
  rw [ht]
  generalize Kinematics.crossMx (fun i => vals p i / nrm (vals p)) = B at hA al2 ⊢
  obtain ⟨N, hN⟩ : ∃ N, N = nrm (vals p) := ⟨_, rfl⟩
  rw [← hN] at te hl hb ⊢
  have N0 : 0 < N := lt_of_lt_of_le (by norm_num) hl
  have te' : |(t : ℝ) - N| ≤ 68 / 10 / 2 ^ 53 * N := te.trans (le_of_eq (by unfold u51; norm_num))
  have tA : Acc 7 (.fin t) N N := ⟨t, rfl, td, (abs_of_pos N0).le, te'.trans (mul_le_mul_of_nonneg_right (by unfold eps; norm_num) N0.le)⟩
  have tl : N * (99 / 100) ≤ t := by
    have := (abs_le.1 te').1
    norm_num at this ⊢
    linarith
  have tp : (0 : ℝ) < t := lt_of_lt_of_le (by positivity) tl
  have t0 : t ≠ 0 := by rintro rfl; simp at tp
  have i1 : 1 / N ≤ 2 ^ 47 := by
    rw [div_le_iff₀ N0]
    norm_num at hl ⊢
    linarith
  have i2 : 1 / 8 ≤ 1 / N := one_div_le_one_div_of_le N0 hb
  have rA : Acc 8 (fdiv (fun q => R q) (.fin 1) (.fin t)) (1 / N) (1 / N) := by
    have r := Acc.round hR.rat (m := 7) (z := 1 / t) (x := 1 / N) (S := 1 / N) (by norm_num) (sc (le_trans (by norm_num) i2) (i1.trans (by norm_num))) (abs_of_pos (by positivity)).le (by
      have e7 : 69 / 10 / 2 ^ 53 ≤ (1 + eps) ^ 7 - 1 := by unfold eps; norm_num
      refine le_trans ?_ (mul_le_mul_of_nonneg_right e7 (by positivity))
      push_cast
      rw [show (1 : ℝ) / t - 1 / N = (N - t) / t * (1 / N) by field_simp, abs_mul, abs_of_pos (by positivity : 0 < 1 / N)]
      refine mul_le_mul_of_nonneg_right ?_ (by positivity)
      rw [abs_div, abs_of_pos tp, div_le_iff₀ tp, abs_sub_comm]
      have tl' : N * (999 / 1000) ≤ t := by
        have := (abs_le.1 te').1
        norm_num at this ⊢
        linarith
      norm_num at te' ⊢
      linarith)
    show Acc 8 (rounded _ (if t = 0 then _ else Fp.fin (1 / t))) _ _
    rw [if_neg t0]
    exact r
  have half : Acc 0 (.fin (1 / 2)) (1 / 2) (1 / 2) := by
    have := Acc.fin (q := 1 / 2) ⟨1, -1, by norm_num, by norm_num, by norm_num⟩ (S := 1 / 2) (by push_cast; norm_num)
    simpa using this
  have h2 : 1 / 2 ^ 48 ≤ N * (1 / 2) := by norm_num at hl ⊢; linarith
  have hA2 := Acc.mul hR.rat (by norm_num) tA half (sc (le_trans (by norm_num) h2) (by norm_num; linarith))
  have s2 := sin_acc L (m := 11) hA2 (le_trans (by norm_num) h2) (by unfold eps; norm_num) (by unfold eps; norm_num)
  have s1 := sin_acc L (m := 10) tA (le_trans (by norm_num) hl) (by unfold eps; norm_num) (by unfold eps; norm_num)
  have m2 := acc_num (q := -2) (-2) (by norm_num) (by norm_num) (S := 2) (by norm_num)
  rw [show ((-2 : ℚ) : ℝ) = -2 by norm_num] at m2
  have q1 : 1 / 2 ^ 96 ≤ N * (1 / 2) * (N * (1 / 2)) := by
    have := mul_le_mul h2 h2 (by norm_num) (by positivity)
    norm_num at this ⊢
    linarith
  have q2 : N * (1 / 2) * (N * (1 / 2)) ≤ 16 := by nlinarith
  have k1 := Acc.mul hR.rat (by norm_num) m2 s2 (sc (by norm_num at h2 ⊢; linarith) (by norm_num; linarith))
  have k2 := Acc.mul hR.rat (by norm_num) k1 s2 (sc (by rw [mul_assoc]; norm_num at q1 ⊢; linarith) (by rw [mul_assoc]; norm_num; linarith))
  have e1 : 2 * (N * (1 / 2)) * (N * (1 / 2)) * (1 / N) = N / 2 := by field_simp
  have c1 := Acc.mul hR.rat (by norm_num) k2 rA (by rw [e1]; exact sc (by norm_num at h2 ⊢; linarith) (by norm_num; linarith))
  rw [e1] at c1
  have d := Acc.sub hR.rat (k := 10) (by norm_num) le_rfl (by norm_num) tA s1 (sc (by norm_num at hl ⊢; linarith) (by norm_num; linarith))
  have e2 : (N + N) * (1 / N) = 2 := by field_simp; ring
  have c2 := Acc.mul hR.rat (by norm_num) d rA (by rw [e2]; exact sc (by norm_num) (by norm_num))
  rw [e2] at c2
  have one : Acc 48 (ErDouble.oneD i j) ((1 : M3) i j) 1 := by
    unfold ErDouble.oneD
    by_cases hij : i = j
    · rw [if_pos hij, hij, Matrix.one_apply_eq]
      exact (CovDouble.acc_one le_rfl).mono (by norm_num) le_rfl
    · rw [if_neg hij, Matrix.one_apply_ne hij]
      exact (CovDouble.acc_zero (by norm_num)).mono (by norm_num) le_rfl
  have p1 := Acc.mul hR.rat (by norm_num) c1 (hA i j) (sc (by norm_num at h2 ⊢; linarith) (by norm_num; linarith))
  have p2 := Acc.add hR.rat (k := 48) le_rfl (by norm_num) (by norm_num) one p1 (sc (by norm_num; linarith) (by norm_num; linarith))
  have p3 := Acc.add hR.rat (k := 50) (by norm_num) le_rfl (by norm_num) p2 (square_acc hR L c2 hA i j) (sc (by norm_num; linarith) (by norm_num; linarith))
  exact p3.mono le_rfl (by linarith)

omit hR in
/-- `M` is, up to 2^-43, a matrix that maps the rates of the parametrisation `f` to angular velocities at `p` -/
def GoodS (f : V3 → M3) (p : V3) (M : FM3) : Prop := ∃ S : M3, IsSMatrix f S p ∧ ∀ i j, Near (1 / 2 ^ 43) (M i j) (S i j)

omit hR in
theorem one_entry (i j : Fin 3) : (ErDouble.oneD i j).isFinite ∧ IsDoubleVal (ErDouble.oneD i j) ∧ (fval (ErDouble.oneD i j) : ℝ) = (1 : M3) i j := by
  unfold ErDouble.oneD
  by_cases hij : i = j
  · rw [if_pos hij, hij, Matrix.one_apply_eq]
    obtain ⟨h1, h2⟩ := fin_ok (r := 1) (by simpa using isDouble_int 1 (by norm_num)) (by norm_num)
    exact ⟨h1, h2, by simp [fval]⟩
  · rw [if_neg hij, Matrix.one_apply_ne hij]
    obtain ⟨h1, h2⟩ := fin_ok (r := 0) (by simpa using isDouble_int 0 (by norm_num)) (by norm_num)
    exact ⟨h1, h2, by simp [fval]⟩

/-- the entries in both branches -/
theorem rvS_near {p : F3} (hp : Finite p) (h0 : nrm (vals p) ≠ 0) (hb : nrm (vals p) ≤ 8) :
    (rvS L p = ErDouble.oneD ∧ ∀ i j, |exactS (vals p) i j - (1 : M3) i j| ≤ 102 / 100 / 10 ^ 14) ∨ ∀ i j, Acc 51 (rvS L p i j) (exactS (vals p) i j) 11 := by
  obtain ⟨h1, h2⟩ := threshold hR L.toLib hp hb (c := 1 / 10 ^ 14) le_rfl (by norm_num)
  unfold rvS
  simp only
  split
  · rename_i h
    left
    have n := h1 h
    refine ⟨rfl, fun i j => (exact_small h0 (n.trans (by norm_num)) i j).trans (n.trans (by norm_num))⟩
  · rename_i h
    right
    have n := h2 h
    exact large_acc hR L hp hb ((by norm_num : (1 : ℝ) / 2 ^ 47 ≤ _).trans n)

theorem rvS_entries {p : F3} (hp : Finite p) (h0 : nrm (vals p) ≠ 0) (hb : nrm (vals p) ≤ 8) (i j : Fin 3) : Near (1 / 2 ^ 43) (rvS L p i j) (exactS (vals p) i j) := by
  rcases rvS_near hR L hp h0 hb with ⟨e, h⟩ | h
  · rw [e]
    obtain ⟨h1, h2, h3⟩ := one_entry i j
    refine ⟨h1, h2, ?_⟩
    rw [h3, abs_sub_comm]
    exact (h i j).trans (by norm_num)
  · refine near_of (h i j) (by norm_num) (sc (by norm_num) (by norm_num)) ?_
    have e : (1 + eps) ^ 51 - 1 ≤ 52 / 2 ^ 53 := by unfold eps; norm_num
    refine (mul_le_mul_of_nonneg_right e (by norm_num)).trans ?_
    norm_num

/-- **C184** For every finite rotation vector that is not zero and not longer than 8, the computed S-matrix is, up to 2^-43 in each entry, a matrix that takes the rates of the parameters to the angular velocity of the frame, along every
curve of rotation vectors; the frame is the matrix exponential of the rotation vector. -/
theorem C184_smatrix (p : F3) (hp : Finite p) (h0 : vals p ≠ 0) (hb : nrm (vals p) ≤ 8) : GoodS (fun q => NormedSpace.exp (-Kinematics.crossMx q)) (vals p) (rvS L p) := by
  have n0 : nrm (vals p) ≠ 0 := fun h => h0 (Kinematics.eq_zero_of_norm h)
  exact ⟨_, exact_smatrix n0, rvS_entries hR L hp n0 hb⟩

/-- **C184** For every three rates up to `W`, between 2^-100 and 2^100, the computed angular velocity is finite and within 2^-42 of `W` of the true one. -/
theorem C184_velocity (p pdot : F3) (hp : Finite p) (h0 : vals p ≠ 0) (hb : nrm (vals p) ≤ 8) (hd : Finite pdot) (W : ℝ) (h1 : 1 / 2 ^ 100 ≤ W) (h2 : W ≤ 2 ^ 100) (hW : ∀ i, |vals pdot i| ≤ W) :
    ∃ ω : V3, (∀ c : ℝ → V3, c 0 = vals p → (∀ i, HasDerivAt (fun s => c s i) (vals pdot i) 0) → TurnsBy (fun s => NormedSpace.exp (-Kinematics.crossMx (c s))) ω) ∧ ∀ i, Near (1 / 2 ^ 42 * W) (rvVelocity L p pdot i) (ω i) := by
  have n0 : nrm (vals p) ≠ 0 := fun h => h0 (Kinematics.eq_zero_of_norm h)
  have W0 : 0 < W := lt_of_lt_of_le (by norm_num) h1
  have v := hd.acc (a := fun _ => W) hW
  refine ⟨(exactS (vals p)).mulVec (vals pdot), fun c hc hd => exact_smatrix n0 c _ hc hd, fun i => ?_⟩
  have z1 : ∀ {x : ℝ}, 1 / 2 ^ 100 ≤ x → (2 : ℝ) ^ (-900 : ℤ) ≤ x := fun h => by
    refine le_trans ?_ h
    rw [show (1 : ℝ) / 2 ^ 100 = 2 ^ (-100 : ℤ) by rw [zpow_neg, one_div]; norm_cast]
    exact zpow_le_zpow_right₀ (by norm_num) (by norm_num)
  have z2 : ∀ {x : ℝ}, x ≤ 2 ^ 110 → x ≤ (2 : ℝ) ^ (800 : ℤ) := fun h => by
    refine h.trans ?_
    rw [show (2 : ℝ) ^ 110 = 2 ^ (110 : ℤ) by norm_cast]
    exact zpow_le_zpow_right₀ (by norm_num) (by norm_num)
  unfold rvVelocity
  rcases rvS_near hR L hp n0 hb with ⟨e, h⟩ | h
  · rw [e]
    have o : ∀ i j, Acc 0 (ErDouble.oneD i j) ((1 : M3) i j) 1 := by
      intro i j
      unfold ErDouble.oneD
      by_cases hij : i = j
      · rw [if_pos hij, hij, Matrix.one_apply_eq]
        exact CovDouble.acc_one le_rfl
      · rw [if_neg hij, Matrix.one_apply_ne hij]
        exact CovDouble.acc_zero (by norm_num)
    have a := ErRate.mulVec_acc hR L.toLib (by norm_num) (B := 1) (W := W) (z1 (by linarith)) (z2 (by norm_num at h2 ⊢; linarith)) o v i
    rw [one_mul] at a
    have b := near_of (e := 10 / 2 ^ 53 * W) a (by norm_num) (sc (by norm_num at h1 ⊢; linarith) (by norm_num at h2 ⊢; linarith)) (by
      have e : (1 + eps) ^ (0 + 3) - 1 ≤ 31 / 10 / 2 ^ 53 := by unfold eps; norm_num
      refine (mul_le_mul_of_nonneg_right e (by positivity)).trans ?_
      norm_num
      linarith)
    refine ⟨b.1, b.2.1, ?_⟩
    have d : |(exactS (vals p)).mulVec (vals pdot) i - (1 : M3).mulVec (vals pdot) i| ≤ 3 * (102 / 100 / 10 ^ 14 * W) := by
      rw [mv3, mv3]
      have m := fun j => mul_le_mul (h i j) (hW j) (abs_nonneg _) (by norm_num)
      have k := abs_add_three ((exactS (vals p) i 0 - (1 : M3) i 0) * vals pdot 0) ((exactS (vals p) i 1 - (1 : M3) i 1) * vals pdot 1) ((exactS (vals p) i 2 - (1 : M3) i 2) * vals pdot 2)
      rw [abs_mul, abs_mul, abs_mul] at k
      have m0 := m 0
      have m1 := m 1
      have m2 := m 2
      refine le_trans (le_of_eq ?_) (k.trans (by linarith))
      congr 1
      ring
    have b' := b.2.2
    have t := abs_sub_le (fval (mulVec L.toLib ErDouble.oneD pdot i) : ℝ) ((1 : M3).mulVec (vals pdot) i) ((exactS (vals p)).mulVec (vals pdot) i)
    rw [abs_sub_comm ((1 : M3).mulVec (vals pdot) i)] at t
    norm_num at d b' t ⊢
    linarith
  · have a := ErRate.mulVec_acc hR L.toLib (by norm_num) (B := 11) (W := W) (z1 (by linarith)) (z2 (by norm_num at h2 ⊢; linarith)) h v i
    refine near_of a (by norm_num) (sc (by norm_num at h1 ⊢; linarith) (by norm_num at h2 ⊢; linarith)) ?_
    have e : (1 + eps) ^ (51 + 3) - 1 ≤ 55 / 2 ^ 53 := by unfold eps; norm_num
    refine (mul_le_mul_of_nonneg_right e (by positivity)).trans ?_
    norm_num
    linarith

end

/-- the library with correctly rounded functions -/
noncomputable def SinLib.rounded (b : Bool) : SinLib fun q => rndEvenReal q where
  toLib := Lib.rounded
  sin_rel x := by
    have t0 : (0 : ℝ) ≤ tiny := by
      have : (0 : ℚ) ≤ tiny := by unfold tiny; positivity
      exact_mod_cast this
    show |(rndEvenReal (Real.sin x) : ℝ) - Real.sin x| ≤ _
    rcases le_or_gt ((2 : ℝ) ^ (-1022 : ℤ)) |Real.sin x| with h | h
    · refine (isRndR_rndEvenReal.err_rel h).trans ?_
      have := abs_nonneg (Real.sin x)
      have : |Real.sin x| / 2 ^ 53 ≤ |Real.sin x| / 2 ^ 52 := div_le_div_of_nonneg_left this (by norm_num) (by norm_num)
      linarith
    · have hx : |Real.sin x| ≤ 2 ^ 53 * 2 ^ (-1074 : ℤ) := by
        refine h.le.trans ?_
        rw [show (2 : ℝ) ^ 53 = 2 ^ (53 : ℤ) by norm_cast, ← zpow_add₀ (by norm_num)]
        exact zpow_le_zpow_right₀ (by norm_num) (by norm_num)
      refine (isRndR_rndEvenReal.err_abs (e := -1074) (by norm_num) hx).trans ?_
      have e : (tiny : ℝ) = 2 ^ (-1074 : ℤ) / 2 := by unfold tiny; push_cast; rfl
      rw [← e]
      have : 0 ≤ |Real.sin x| / 2 ^ 52 := by positivity
      linarith
  factorOut := b

/-- the hypotheses are met, with the rounding of the machine: a turn by three radians about a skew axis -/
example (b : Bool) : GoodS (fun q => NormedSpace.exp (-Kinematics.crossMx q)) (vals turnU.2) (rvS (SinLib.rounded b) turnU.2) :=
  C184_smatrix isRndR_rndEvenReal _ turnU.2 turnU_finite.1 (fun h => by
    have := turnU_norm
    rw [h] at this
    simp [Kinematics.norm, Kinematics.sqNorm, Kinematics.inner] at this) (by rw [turnU_norm]; norm_num)

/-- and so are those for the velocity, with three rates up to 2 -/
example : Finite rates ∧ (1 : ℝ) / 2 ^ 100 ≤ 2 ∧ (2 : ℝ) ≤ 2 ^ 100 ∧ ∀ i, |vals rates i| ≤ 2 := ⟨rates_ok.1, by norm_num, by norm_num, rates_ok.2⟩

end Verif.RvRate
