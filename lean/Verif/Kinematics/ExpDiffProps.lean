import Verif.Kinematics.RvInvProps
import Verif.Kinematics.ExpDiff
import Verif.Kinematics.RvRateProps
import Verif.Kinematics.CovDoubleProps
import Verif.Kinematics.ExpLogProps

/-!
# C187: the derivative of the exponential map in doubles
-/

namespace Verif.ExpDiff

open Verif.Common Verif.KinematicsDouble Verif.ErDouble Verif.RateDouble Verif.RotVecDouble Verif.EulerDouble Verif.RvRate
open Verif.Kinematics (V3 V4 M3 M4 M43 IsSMatrix IsJacobian)

local notation "nrm" => Kinematics.norm

/-! ## The exact matrix -/

/-- the matrix of the header of C184 in terms of the vector itself -/
theorem exactS_entry {p : V3} (h : nrm p ≠ 0) (i j : Fin 3) : exactS p i j = (1 : M3) i j -
    2 * Real.sin (nrm p / 2) * Real.sin (nrm p / 2) / (nrm p * nrm p) * Kinematics.crossMx p i j +
    (1 - Real.sin (nrm p) / nrm p) / (nrm p * nrm p) * (Kinematics.crossMx p * Kinematics.crossMx p) i j := by
  have e : Kinematics.crossMx p = nrm p • Kinematics.crossMx fun i => p i / nrm p := by
    ext i j
    fin_cases i <;> fin_cases j <;> simp [Kinematics.crossMx] <;> field_simp
  unfold exactS
  simp only [Matrix.add_apply, Matrix.smul_apply, smul_eq_mul]
  rw [e, Matrix.smul_mul, Matrix.mul_smul]
  simp only [Matrix.smul_apply, smul_eq_mul]
  rw [show nrm p * (1 / 2) = nrm p / 2 by ring]
  field_simp
  ring

/-- the entries of the cross product matrix and of its square -/
theorem cross_entries (p : V3) (i j : Fin 3) : |Kinematics.crossMx p i j| ≤ nrm p ∧ |(Kinematics.crossMx p * Kinematics.crossMx p) i j| ≤ nrm p * nrm p := by
  rcases eq_or_ne (nrm p) 0 with h | h
  · have z := Kinematics.eq_zero_of_norm h
    subst z
    have : Kinematics.crossMx 0 = 0 := by
      ext i j
      fin_cases i <;> fin_cases j <;> simp [Kinematics.crossMx]
    rw [this]
    simp [h]
  · obtain ⟨a1, a2⟩ := axis_le h i j
    have n0 := nrm_nonneg p
    have e : Kinematics.crossMx p = nrm p • Kinematics.crossMx fun i => p i / nrm p := by
      ext i j
      fin_cases i <;> fin_cases j <;> simp [Kinematics.crossMx] <;> field_simp
    rw [e, Matrix.smul_mul, Matrix.mul_smul]
    simp only [Matrix.smul_apply, smul_eq_mul]
    rw [abs_mul, abs_mul, abs_mul, abs_of_nonneg n0]
    exact ⟨mul_le_of_le_one_right n0 a1, by rw [← mul_assoc]; exact mul_le_of_le_one_right (mul_nonneg n0 n0) a2⟩

/-- the coefficients of the series -/
theorem coef_series {N : ℝ} (h0 : 0 < N) (h1 : N ≤ 1) :
    (1 / 2 - N * N / 24 ≤ 2 * Real.sin (N / 2) * Real.sin (N / 2) / (N * N) ∧ 2 * Real.sin (N / 2) * Real.sin (N / 2) / (N * N) ≤ 1 / 2) ∧ |(1 - Real.sin N / N) / (N * N) - 1 / 6| ≤ N * N / 100 := by
  constructor
  · obtain ⟨s1, s2⟩ := sin_bounds h0.le h1
    have s0 : 0 ≤ N / 2 - N ^ 3 / 48 := by nlinarith [mul_pos h0 h0]
    have u : 2 * Real.sin (N / 2) * Real.sin (N / 2) / (N * N) ≤ 1 / 2 := by
      rw [div_le_iff₀ (by positivity)]
      nlinarith [mul_le_mul s2 s2 (s0.trans s1) (by linarith)]
    have l : 1 / 2 - N * N / 24 ≤ 2 * Real.sin (N / 2) * Real.sin (N / 2) / (N * N) := by
      rw [le_div_iff₀ (by positivity)]
      have := mul_le_mul s1 s1 s0 (s0.trans s1)
      nlinarith [mul_pos h0 h0, sq_nonneg (N ^ 3)]
    exact ⟨l, u⟩
  · have s := Real.sin_bound (x := N) (by rwa [abs_of_pos h0])
    rw [abs_of_pos h0] at s
    have e : (1 - Real.sin N / N) / (N * N) - 1 / 6 = -(Real.sin N - (N - N ^ 3 / 6)) / (N * N * N) := by field_simp; ring
    rw [e, abs_div, abs_neg, abs_of_pos (by positivity : 0 < N * N * N), div_le_iff₀ (by positivity)]
    refine s.trans (le_of_eq ?_)
    ring

/-- the exact Jacobian of the quaternion of a rotation vector -/
theorem exact_jacobian {p : V3} (h : nrm p ≠ 0) : IsJacobian expQuat (Kinematics.quatOPlus (expQuat p) * Kinematics.quatV * exactS p) p := by
  rintro c w rfl hc k
  have hpos : 0 < nrm (c 0) := lt_of_le_of_ne (nrm_nonneg _) (Ne.symm h)
  have hne := hpos.ne'
  have hn := Kinematics.deriv_norm hc hne
  have hr := Kinematics.deriv_recipNorm hc hne
  have hsin := (hn.mul_const (1 / 2)).sin
  have hcos := (hn.mul_const (1 / 2)).cos
  have hq : expQuat (c 0) = ![c 0 0 * (Real.sin (nrm (c 0) * (1 / 2)) / nrm (c 0)),
      c 0 1 * (Real.sin (nrm (c 0) * (1 / 2)) / nrm (c 0)), c 0 2 * (Real.sin (nrm (c 0) * (1 / 2)) / nrm (c 0)),
      Real.cos (nrm (c 0) * (1 / 2))] := by
    unfold expQuat
    rw [show nrm (c 0) / 2 = nrm (c 0) * (1 / 2) by ring]
  have hnn : nrm (c 0) * nrm (c 0) = c 0 0 * c 0 0 + c 0 1 * c 0 1 + c 0 2 * c 0 2 := by rw [nrm_sq, Kinematics.sq3]
  have hin : Kinematics.inner (c 0) w = c 0 0 * w 0 + c 0 1 * w 1 + c 0 2 * w 2 := by
    simp [Kinematics.inner, Fin.sum_univ_succ]; ring
  have htr := Kinematics.trig (nrm (c 0) * (1 / 2))
  have hss : Real.sin (nrm (c 0)) = 2 * Real.sin (nrm (c 0) * (1 / 2)) * Real.cos (nrm (c 0) * (1 / 2)) := by
    rw [← Real.sin_two_mul]; congr 1; ring
  have hE : exactS (c 0) = 1 - (2 * Real.sin (nrm (c 0) / 2) * Real.sin (nrm (c 0) / 2) / (nrm (c 0) * nrm (c 0))) • Kinematics.crossMx (c 0) +
      ((1 - Real.sin (nrm (c 0)) / nrm (c 0)) / (nrm (c 0) * nrm (c 0))) • (Kinematics.crossMx (c 0) * Kinematics.crossMx (c 0)) := by
    ext i j
    rw [exactS_entry h]
    simp only [Matrix.add_apply, Matrix.sub_apply, Matrix.smul_apply, smul_eq_mul]
  rw [Kinematics.expJac_apply, hE, Kinematics.diffMat_apply, show nrm (c 0) / 2 = nrm (c 0) * (1 / 2) by ring, hss, hq]
  rw [hin] at hn hr hsin hcos
  have hvec : ∀ i : Fin 3, HasDerivAt (fun s => expQuat (c s) i.castSucc)
      (w i * (Real.sin (nrm (c 0) * (1 / 2)) * (1 / nrm (c 0))) + c 0 i *
        (Real.cos (nrm (c 0) * (1 / 2)) * ((c 0 0 * w 0 + c 0 1 * w 1 + c 0 2 * w 2) / nrm (c 0) * (1 / 2)) * (1 / nrm (c 0)) +
          Real.sin (nrm (c 0) * (1 / 2)) *
            (-((c 0 0 * w 0 + c 0 1 * w 1 + c 0 2 * w 2) / nrm (c 0)) * (1 / nrm (c 0)) * (1 / nrm (c 0))))) 0 := by
    intro i
    have hd := (hc i).fun_mul (hsin.fun_mul hr)
    refine hd.congr_of_eventuallyEq ?_
    filter_upwards with s
    unfold expQuat
    rw [show nrm (c s) / 2 = nrm (c s) * (1 / 2) by ring]
    obtain rfl | rfl | rfl : i = 0 ∨ i = 1 ∨ i = 2 := by fin_cases i <;> simp
    · change c s 0 * (Real.sin (nrm (c s) * (1 / 2)) / nrm (c s)) = _
      ring
    · change c s 1 * (Real.sin (nrm (c s) * (1 / 2)) / nrm (c s)) = _
      ring
    · change c s 2 * (Real.sin (nrm (c s) * (1 / 2)) / nrm (c s)) = _
      ring
  have hsc : HasDerivAt (fun s => expQuat (c s) 3)
      (-Real.sin (nrm (c 0) * (1 / 2)) * ((c 0 0 * w 0 + c 0 1 * w 1 + c 0 2 * w 2) / nrm (c 0) * (1 / 2))) 0 := by
    refine hcos.congr_of_eventuallyEq ?_
    filter_upwards with s
    show Real.cos (nrm (c s) / 2) = _
    rw [show nrm (c s) / 2 = nrm (c s) * (1 / 2) by ring]
  clear hn hr hsin hcos hq hin hss h hE
  generalize Real.sin (nrm (c 0) * (1 / 2)) = S at *
  generalize Real.cos (nrm (c 0) * (1 / 2)) = C at *
  generalize nrm (c 0) = n at *
  generalize c 0 = x at *
  have hrn : n * (1 / n) = 1 := by field_simp
  obtain rfl | rfl | rfl | rfl : k = 0 ∨ k = 1 ∨ k = 2 ∨ k = 3 := by fin_cases k <;> simp
  · refine (hvec 0).congr_deriv ?_
    simp only [Matrix.cons_val, Pi.add_apply, Pi.sub_apply, Pi.smul_apply, smul_eq_mul, Kinematics.cross0, Kinematics.cross1, Kinematics.cross2]
    clear hvec hsc hc c
    field_simp
    grind
  · refine (hvec 1).congr_deriv ?_
    simp only [Matrix.cons_val, Pi.add_apply, Pi.sub_apply, Pi.smul_apply, smul_eq_mul, Kinematics.cross0, Kinematics.cross1, Kinematics.cross2]
    clear hvec hsc hc c
    field_simp
    grind
  · refine (hvec 2).congr_deriv ?_
    simp only [Matrix.cons_val, Pi.add_apply, Pi.sub_apply, Pi.smul_apply, smul_eq_mul, Kinematics.cross0, Kinematics.cross1, Kinematics.cross2]
    clear hvec hsc hc c
    field_simp
    grind
  · refine hsc.congr_deriv ?_
    simp only [Matrix.cons_val, Pi.add_apply, Pi.sub_apply, Pi.smul_apply, smul_eq_mul, Kinematics.cross0, Kinematics.cross1, Kinematics.cross2]
    clear hvec hsc hc c
    field_simp
    grind

/-- the entries of the exact matrix -/
theorem exact_le {p : V3} (h : nrm p ≠ 0) (i j : Fin 3) : |exactS p i j| ≤ 8 := by
  have N0 : 0 < nrm p := lt_of_le_of_ne (nrm_nonneg p) (Ne.symm h)
  obtain ⟨a1, a2⟩ := axis_le h i j
  unfold exactS
  simp only [Matrix.add_apply, Matrix.smul_apply, smul_eq_mul]
  generalize Kinematics.crossMx (fun i => p i / nrm p) i j = x at *
  generalize (Kinematics.crossMx (fun i => p i / nrm p) * Kinematics.crossMx fun i => p i / nrm p) i j = y at *
  generalize nrm p = N at *
  have o : |(1 : M3) i j| ≤ 1 := by
    by_cases hij : i = j
    · rw [hij, Matrix.one_apply_eq, abs_one]
    · rw [Matrix.one_apply_ne hij, abs_zero]; norm_num
  have s1 : |Real.sin (N * (1 / 2))| ≤ N / 2 := by
    refine Real.abs_sin_le_abs.trans ?_
    rw [abs_of_pos (by positivity)]
    linarith
  have s2 := Real.abs_sin_le_one (N * (1 / 2))
  have c1 : |-2 * Real.sin (N * (1 / 2)) * Real.sin (N * (1 / 2)) * (1 / N)| ≤ 1 := by
    rw [abs_mul, abs_mul, abs_mul, abs_of_pos (by positivity : 0 < 1 / N), show |(-2 : ℝ)| = 2 by norm_num, mul_one_div, div_le_iff₀ N0]
    nlinarith [abs_nonneg (Real.sin (N * (1 / 2)))]
  have c2 : |(N - Real.sin N) * (1 / N)| ≤ 2 := by
    have s3 : |Real.sin N| ≤ N := Real.abs_sin_le_abs.trans (le_of_eq (abs_of_pos N0))
    rw [abs_mul, abs_of_pos (by positivity : 0 < 1 / N), mul_one_div, div_le_iff₀ N0, abs_le]
    rw [abs_le] at s3
    constructor <;> linarith [s3.1, s3.2]
  have m1 := mul_le_mul c1 a1 (abs_nonneg _) (by norm_num)
  have m2 := mul_le_mul c2 a2 (abs_nonneg _) (by norm_num)
  rw [← abs_mul] at m1 m2
  exact (abs_add_three _ _ _).trans (by linarith)

/-! ## The computed matrix -/

section
variable {R : ℝ → ℚ} (hR : IsRndR R) (L : SinLib fun q => R q)

theorem cross_acc {p : F3} (hp : Finite p) {U : ℝ} (h : nrm (vals p) ≤ U) (i j : Fin 3) : Acc 0 (crossMx p i j) (Kinematics.crossMx (vals p) i j) U := by
  have v := hp.acc (a := fun _ => U) fun i => (abs_le_nrm (vals p) i).trans h
  have z : Acc 0 (.fin 0) 0 U := CovDouble.acc_zero ((nrm_nonneg _).trans h)
  fin_cases i <;> fin_cases j <;> first | exact z | exact v _ | exact (v _).neg

theorem one_acc (i j : Fin 3) : Acc 0 (ErDouble.oneD i j) ((1 : M3) i j) 1 := by
  unfold ErDouble.oneD
  by_cases hij : i = j
  · rw [if_pos hij, hij, Matrix.one_apply_eq]
    exact CovDouble.acc_one le_rfl
  · rw [if_neg hij, Matrix.one_apply_ne hij]
    exact CovDouble.acc_zero (by norm_num)

include hR

/-- a quotient of computed numbers -/
theorem acc_div {j k m : ℕ} {f g : Fp} {x y S : ℝ} (hf : Acc j f x S) (hg : Acc k g y y) (hy : 0 < y) (hm : (1 + eps) ^ j ≤ (1 + eps) ^ m * (2 - (1 + eps) ^ k)) (hm' : m ≤ 100) (hs : Scale (S / y)) :
    Acc (m + 1) (fdiv (fun q => R q) f g) (x / y) (S / y) := by
  obtain ⟨q, rfl, -, hx, hq⟩ := hf
  obtain ⟨t, rfl, -, -, ht⟩ := hg
  have j1 := one_le_pow_eps j
  have m1 := one_le_pow_eps m
  have d0 : 0 < 2 - (1 + eps) ^ k := by
    by_contra h
    have := mul_nonpos_of_nonneg_of_nonpos (by linarith : 0 ≤ (1 + eps) ^ m) (not_lt.1 h)
    linarith
  have S0 : 0 ≤ S := (abs_nonneg x).trans hx
  have tl : (2 - (1 + eps) ^ k) * y ≤ t := by linarith [(abs_le.1 ht).1]
  have tp : (0 : ℝ) < t := lt_of_lt_of_le (mul_pos d0 hy) tl
  have t0 : t ≠ 0 := by rintro rfl; simp at tp
  have r := Acc.round hR.rat (m := m) (z := q / t) (x := x / y) (S := S / y) hm' hs (by rw [abs_div, abs_of_pos hy]; exact div_le_div_of_nonneg_right hx hy.le) (by
    push_cast
    have e : (q : ℝ) / t - x / y = ((q - x) + x * ((y - t) / y)) / t := by field_simp; ring
    rw [e, abs_div, abs_of_pos tp, div_le_iff₀ tp]
    have b1 : |x * ((y - t) / y)| ≤ S * ((1 + eps) ^ k - 1) := by
      rw [abs_mul, abs_div, abs_of_pos hy, abs_sub_comm]
      refine mul_le_mul hx ?_ (by positivity) S0
      rw [div_le_iff₀ hy]
      exact ht
    have b2 := abs_add_le ((q : ℝ) - x) (x * ((y - t) / y))
    have b3 : ((1 + eps) ^ m - 1) * (S / y) * ((2 - (1 + eps) ^ k) * y) ≤ ((1 + eps) ^ m - 1) * (S / y) * t := mul_le_mul_of_nonneg_left tl (by positivity)
    have b4 : ((1 + eps) ^ m - 1) * (S / y) * ((2 - (1 + eps) ^ k) * y) = ((1 + eps) ^ m - 1) * (2 - (1 + eps) ^ k) * S := by field_simp
    have b5 : ((1 + eps) ^ j - 1 + ((1 + eps) ^ k - 1)) * S ≤ ((1 + eps) ^ m - 1) * (2 - (1 + eps) ^ k) * S := mul_le_mul_of_nonneg_right (by nlinarith) S0
    linarith)
  show Acc _ (rounded _ (if t = 0 then _ else Fp.fin (q / t))) _ _
  rw [if_neg t0]
  exact r

/-- a literal -/
theorem acc_lit {x : ℝ} (h0 : 1 / 2 ^ 120 ≤ x) : Acc 1 (.fin (R x)) x x := by
  have x0 : 0 < x := lt_of_lt_of_le (by norm_num) h0
  refine ⟨R x, rfl, hR.mem x, (abs_of_pos x0).le, (hR.err_rel (x := x) ?_).trans ?_⟩
  · rw [abs_of_pos x0]
    refine le_trans ?_ h0
    rw [show (1 : ℝ) / 2 ^ 120 = 2 ^ (-120 : ℤ) by rw [zpow_neg, one_div]; norm_cast]
    exact zpow_le_zpow_right₀ (by norm_num) (by norm_num)
  · rw [abs_of_pos x0, div_eq_mul_one_div, mul_comm]
    exact mul_le_mul_of_nonneg_right (by unfold eps; norm_num) x0.le

/-- the sum of the three parts -/
theorem parts_acc {a b : Fp} {α β A B U : ℝ} {k : ℕ} (hk : k ≤ 50) {p : F3} (hp : Finite p) (hU : nrm (vals p) ≤ U) (u1 : 1 / 2 ^ 14 ≤ U) (u2 : U ≤ 8) (ha : Acc k a α A) (hb : Acc k b β B) (A1 : 1 / 8 ≤ A) (A2 : A ≤ 1)
    (B1 : 1 / 8 ≤ B * (U * U)) (B2 : B * (U * U) ≤ 2) (i j : Fin 3) :
    Acc (k + 6) (fadd (fun q => R q) (fsub (fun q => R q) (ErDouble.oneD i j) (fmul (fun q => R q) a (crossMx p i j))) (scaledSquare L b (crossMx p) i j))
      ((1 : M3) i j - α * Kinematics.crossMx (vals p) i j + β * (Kinematics.crossMx (vals p) * Kinematics.crossMx (vals p)) i j) (1 + A * U + 3 * (B * (U * U))) := by
  have X := cross_acc hp hU
  have U0 : 0 < U := lt_of_lt_of_le (by norm_num) u1
  have AU1 : 1 / 2 ^ 17 ≤ A * U := by
    have := mul_le_mul A1 u1 (by norm_num) (by linarith)
    norm_num at this ⊢
    linarith
  have AU2 : A * U ≤ 8 := by nlinarith
  have m := Acc.mul hR.rat (by omega) ha (X i j) (sc (le_trans (by norm_num) AU1) (AU2.trans (by norm_num)))
  have d := Acc.sub hR.rat (k := k + 1) (by omega) (by omega) (by omega) (one_acc i j) m (sc (by norm_num; linarith) (by norm_num; linarith))
  have q : Acc (k + 5) (scaledSquare L b (crossMx p) i j) (β * (Kinematics.crossMx (vals p) * Kinematics.crossMx (vals p)) i j) (3 * (B * (U * U))) := by
    have UU1 : 1 / 2 ^ 28 ≤ U * U := by
      have := mul_le_mul u1 u1 (by norm_num) (by linarith)
      norm_num at this ⊢
      linarith
    have UU2 : U * U ≤ 64 := by nlinarith
    unfold scaledSquare
    rw [Matrix.mul_apply, Fin.sum_univ_three]
    split
    · have t := fun l : Fin 3 => Acc.mul hR.rat (by norm_num) (X i l) (X l j) (sc (le_trans (by norm_num) UU1) (UU2.trans (by norm_num)))
      have s := sum3_acc hR L (by norm_num) (le_trans (by norm_num) UU1) (UU2.trans (by norm_num)) t
      have e : B * (3 * (U * U)) = 3 * (B * (U * U)) := by ring
      have := Acc.mul hR.rat (by omega) hb s (by rw [e]; exact sc (by norm_num; linarith) (by norm_num; linarith))
      rw [e] at this
      exact this.mono (by omega) le_rfl
    · have e : B * U * U = B * (U * U) := by ring
      have BU : B * U = B * (U * U) / U := by field_simp
      have t := fun l : Fin 3 => Acc.mul hR.rat (by omega) (Acc.mul hR.rat (by omega) hb (X i l) (by
        rw [BU]
        refine sc ?_ ?_
        · rw [le_div_iff₀ U0]; norm_num; linarith
        · rw [div_le_iff₀ U0]; norm_num at u1 ⊢; linarith)) (X l j) (by rw [e]; exact sc (by norm_num; linarith) (by norm_num; linarith))
      simp only [e] at t
      have s := sum3_acc hR L (by omega) (by norm_num; linarith) (by norm_num; linarith) t
      rw [show β * (Kinematics.crossMx (vals p) i 0 * Kinematics.crossMx (vals p) 0 j + Kinematics.crossMx (vals p) i 1 * Kinematics.crossMx (vals p) 1 j + Kinematics.crossMx (vals p) i 2 * Kinematics.crossMx (vals p) 2 j) =
        β * Kinematics.crossMx (vals p) i 0 * Kinematics.crossMx (vals p) 0 j + β * Kinematics.crossMx (vals p) i 1 * Kinematics.crossMx (vals p) 1 j + β * Kinematics.crossMx (vals p) i 2 * Kinematics.crossMx (vals p) 2 j by ring]
      exact s.mono (by omega) le_rfl
  exact (Acc.add hR.rat (k := k + 5) (by omega) le_rfl (by omega) d q (sc (by norm_num; linarith) (by norm_num; linarith))).mono (by omega) le_rfl

/-- the coefficients of the series -/
theorem series_acc {t : ℚ} (td : IsDouble t) (t0 : 0 ≤ t) (tl : (t : ℝ) ≤ 1 / 2 ^ 13) (hs : isSmallD (Fp.fin t).abs = true) :
    Acc 6 (coefA L (.fin t)) (1 / 2 * (1 - 1 / 12 * ((t : ℝ) * t))) 1 ∧ Acc 6 (coefB L (.fin t)) (1 / 6 * (1 - 1 / 20 * ((t : ℝ) * t))) 1 := by
  have t0' : (0 : ℝ) ≤ t := by exact_mod_cast t0
  have tA : Acc 0 (.fin t) t (1 / 2 ^ 13) := Acc.fin td (by rwa [abs_of_nonneg t0'])
  have tt := Acc.mul hR.rat (by norm_num) tA tA (sc (by norm_num) (by norm_num))
  have one : Acc 0 (.fin 1) 1 1 := CovDouble.acc_one le_rfl
  have part : ∀ c d : ℝ, 1 / 20 ≤ c → c ≤ 1 / 2 → 1 / 20 ≤ d → d ≤ 1 / 2 → ∀ f, Acc 1 f d d → Acc 6 (fmul (fun q => R q) f (fsub (fun q => R q) (.fin 1) (fmul (fun q => R q) (.fin (R c)) (fmul (fun q => R q) (.fin t) (.fin t))))) (d * (1 - c * (t * t))) 1 := by
    intro c d c1 c2 d1 d2 f hf
    have a1 := Acc.mul hR.rat (by norm_num) (acc_lit hR (x := c) (by norm_num; linarith)) tt (sc (by norm_num; linarith) (by norm_num; linarith))
    have a2 := Acc.sub hR.rat (k := 3) (by norm_num) le_rfl (by norm_num) one a1 (sc (by norm_num; linarith) (by norm_num; linarith))
    have a3 := Acc.mul hR.rat (by norm_num) hf a2 (sc (by
      have := mul_le_mul d1 (show (1 : ℝ) ≤ 1 + c * (1 / 2 ^ 13 * (1 / 2 ^ 13)) by norm_num; linarith) (by norm_num) (by linarith)
      refine le_trans (by norm_num) this) (by
      have := mul_le_mul d2 (show 1 + c * (1 / 2 ^ 13 * (1 / 2 ^ 13)) ≤ (2 : ℝ) by norm_num; linarith) (by norm_num; linarith) (by norm_num)
      refine this.trans (by norm_num)))
    refine a3.mono le_rfl ?_
    have := mul_le_mul d2 (show 1 + c * (1 / 2 ^ 13 * (1 / 2 ^ 13)) ≤ (2 : ℝ) by norm_num; linarith) (by norm_num; linarith) (by norm_num)
    exact this.trans (by norm_num)
  have half : Acc 1 (.fin (1 / 2)) (1 / 2) (1 / 2) := by
    have := Acc.fin (q := 1 / 2) ⟨1, -1, by norm_num, by norm_num, by norm_num⟩ (S := 1 / 2) (by push_cast; norm_num)
    exact (by simpa using this : Acc 0 (.fin (1 / 2)) (1 / 2) (1 / 2)).mono (by norm_num) le_rfl
  unfold coefA coefB
  rw [if_pos hs, if_pos hs]
  exact ⟨part (1 / 12) (1 / 2) (by norm_num) (by norm_num) (by norm_num) (by norm_num) _ half, part (1 / 20) (1 / 6) (by norm_num) (by norm_num) (by norm_num) (by norm_num) _ (acc_lit hR (by norm_num))⟩

/-- the coefficients of the closed form -/
theorem closed_acc {t : ℚ} {N : ℝ} (tA : Acc 7 (.fin t) N N) (n1 : 1 / 2 ^ 14 ≤ N) (n2 : N ≤ 8) (hs : isSmallD (Fp.fin t).abs = false) :
    Acc 41 (coefA L (.fin t)) (2 * Real.sin (N / 2) * Real.sin (N / 2) / (N * N)) (1 / 2) ∧ Acc 41 (coefB L (.fin t)) ((1 - Real.sin N / N) / (N * N)) (2 / (N * N)) := by
  have N0 : 0 < N := lt_of_lt_of_le (by norm_num) n1
  have NN1 : 1 / 2 ^ 28 ≤ N * N := by
    have := mul_le_mul n1 n1 (by norm_num) N0.le
    norm_num at this ⊢
    linarith
  have NN2 : N * N ≤ 64 := by nlinarith
  have NN0 : 0 < N * N := by positivity
  have tt := Acc.mul hR.rat (by norm_num) tA tA (sc (le_trans (by norm_num) NN1) (NN2.trans (by norm_num)))
  have one : Acc 0 (.fin 1) 1 1 := CovDouble.acc_one le_rfl
  have two : Acc 0 (.fin 2) 2 2 := by simpa using acc_num (q := 2) 2 (by norm_num) (by norm_num) (S := 2) (by norm_num)
  have h1 : 1 / 2 ^ 15 ≤ N / 2 := by norm_num at n1 ⊢; linarith
  have half := acc_div hR (m := 7) tA two (by norm_num) (le_of_eq (by rw [pow_zero]; ring)) (by norm_num) (sc (le_trans (by norm_num) h1) (by norm_num; linarith))
  have s2 := sin_acc L (m := 11) half (le_trans (by norm_num) h1) (by unfold eps; norm_num) (by unfold eps; norm_num)
  have s1 := sin_acc L (m := 10) tA (le_trans (by norm_num) n1) (by unfold eps; norm_num) (by unfold eps; norm_num)
  have k1 := Acc.mul hR.rat (by norm_num) two s2 (sc (by norm_num at h1 ⊢; linarith) (by norm_num; linarith))
  have k2 := Acc.mul hR.rat (by norm_num) k1 s2 (sc (by rw [show 2 * (N / 2) * (N / 2) = N * N / 2 by ring]; norm_num at NN1 ⊢; linarith) (by rw [show 2 * (N / 2) * (N / 2) = N * N / 2 by ring]; norm_num; linarith))
  have e1 : 2 * (N / 2) * (N / 2) / (N * N) = 1 / 2 := by field_simp
  have A := acc_div hR (m := 40) k2 tt NN0 (by unfold eps; norm_num) (by norm_num) (by rw [e1]; exact sc (by norm_num) (by norm_num))
  rw [e1] at A
  have d1 := acc_div hR (m := 18) s1 tA N0 (by unfold eps; norm_num) (by norm_num) (by rw [div_self N0.ne']; exact sc (by norm_num) (by norm_num))
  rw [div_self N0.ne'] at d1
  have d2 := Acc.sub hR.rat (k := 19) (by norm_num) le_rfl (by norm_num) one d1 (sc (by norm_num) (by norm_num))
  have q1 : 1 / 64 ≤ (1 + 1) / (N * N) := by
    rw [le_div_iff₀ NN0]
    linarith
  have q2 : (1 + 1) / (N * N) ≤ 2 ^ 40 := by
    rw [div_le_iff₀ NN0]
    norm_num at NN1 ⊢
    linarith
  have B := acc_div hR (m := 36) d2 tt NN0 (by unfold eps; norm_num) (by norm_num) (sc (le_trans (by norm_num) q1) (q2.trans (by norm_num)))
  unfold coefA coefB
  rw [if_neg (by rw [hs]; simp), if_neg (by rw [hs]; simp)]
  exact ⟨A, B.mono (by norm_num) (by norm_num)⟩

theorem expDiff_entries {p : F3} (hp : Finite p) (h0 : nrm (vals p) ≠ 0) (hb : nrm (vals p) ≤ 8) (i j : Fin 3) : Near (1 / 2 ^ 43) (expDiffMat L p i j) (exactS (vals p) i j) := by
  obtain ⟨t, ht, td, t0, te⟩ := norm3_err hR L.toLib hp hb
  have N0 : 0 < nrm (vals p) := lt_of_le_of_ne (nrm_nonneg _) (Ne.symm h0)
  have t0' : (0 : ℝ) ≤ t := by exact_mod_cast t0
  have ab : (Fp.fin t).abs = .fin t := by
    show Fp.fin |t| = _
    rw [abs_of_nonneg t0]
  have E : expDiffMat L p = if Fp.eq (.fin t) (.fin 0) = true then ErDouble.oneD else fun i j =>
      fadd (fun q => R q) (fsub (fun q => R q) (ErDouble.oneD i j) (fmul (fun q => R q) (coefA L (.fin t)) (crossMx p i j))) (scaledSquare L (coefB L (.fin t)) (crossMx p) i j) := by
    unfold expDiffMat
    rw [ht]
  by_cases tz : t = 0
  · rw [E.trans (if_pos (by rw [tz]; rfl))]
    rw [tz] at te
    have n1 : nrm (vals p) ≤ 1 / 2 ^ 60 := by
      rw [Rat.cast_zero, zero_sub, abs_neg, abs_of_pos N0] at te
      norm_num at te ⊢
      linarith
    obtain ⟨h1, h2, h3⟩ := one_entry i j
    refine ⟨h1, h2, ?_⟩
    rw [h3, abs_sub_comm]
    exact (exact_small h0 (n1.trans (by norm_num)) i j).trans (n1.trans (by norm_num))
  rw [E.trans (if_neg (show ¬ Fp.eq (.fin t) (.fin 0) = true by
    show ¬ decide (t = 0) = true
    rwa [decide_eq_true_eq]))]
  cases hs : isSmallD (Fp.fin t).abs
  · -- the closed form
    have tl : (1 / 2 ^ 13 : ℝ) ≤ t := by
      rw [ab] at hs
      have h1 : ¬ t < 1 / 2 ^ 13 := of_decide_eq_false hs
      have h3 : ((1 / 2 ^ 13 : ℚ) : ℝ) ≤ (t : ℝ) := Rat.cast_le.2 (not_lt.1 h1)
      push_cast at h3
      exact h3
    have n1 : 1 / 2 ^ 14 ≤ nrm (vals p) := by
      have := (abs_le.1 te).2
      norm_num at this tl ⊢
      linarith
    obtain ⟨t', ht', -, -, te'⟩ := norm3_rel hR L.toLib hp hb (le_trans (by norm_num) n1)
    have tt : t' = t := by
      rw [ht'] at ht
      injection ht
    subst tt
    have tA : Acc 7 (.fin t') (nrm (vals p)) (nrm (vals p)) := ⟨t', rfl, td, (abs_of_pos N0).le, te'.trans (mul_le_mul_of_nonneg_right (by unfold eps u51; norm_num) N0.le)⟩
    obtain ⟨A, B⟩ := closed_acc hR L tA n1 hb hs
    have NN : 0 < nrm (vals p) * nrm (vals p) := by positivity
    have e : 2 / (nrm (vals p) * nrm (vals p)) * (nrm (vals p) * nrm (vals p)) = 2 := by field_simp
    have P := parts_acc hR L (by norm_num) hp le_rfl n1 hb A B (by norm_num) (by norm_num) (by rw [e]; norm_num) (by rw [e]) i j
    rw [e] at P
    rw [exactS_entry h0]
    refine near_of (P.mono (k := 51) (T := 11) (by norm_num) (by linarith)) (by norm_num) (sc (by norm_num) (by norm_num)) ?_
    have e : (1 + eps) ^ 51 - 1 ≤ 52 / 2 ^ 53 := by unfold eps; norm_num
    refine (mul_le_mul_of_nonneg_right e (by norm_num)).trans ?_
    norm_num
  · -- the series
    have hs' : isSmallD (norm3 L.toLib p) = true := by rw [ht, ← ab]; exact hs
    obtain ⟨⟨t', ht', -, te'⟩, n1⟩ := small_bound hR L.toLib hp hb hs'
    have tt : t' = t := by
      rw [ht'] at ht
      injection ht
    subst tt
    have tl : (t' : ℝ) ≤ 1 / 2 ^ 13 := by
      rw [ab] at hs
      have h1 : t' < 1 / 2 ^ 13 := of_decide_eq_true hs
      have h3 : (t' : ℝ) < ((1 / 2 ^ 13 : ℚ) : ℝ) := Rat.cast_lt.2 h1
      push_cast at h3
      exact h3.le
    obtain ⟨A, B⟩ := series_acc hR L td t0 tl hs
    have P := parts_acc hR L (by norm_num) hp (U := 1 / 2) (n1.trans (by norm_num)) (by norm_num) (by norm_num) A B (by norm_num) (by norm_num) (by norm_num) (by norm_num) i j
    have Q := near_of (e := 40 / 2 ^ 53) (P.mono (k := 12) (T := 3) (by norm_num) (by norm_num)) (by norm_num) (sc (by norm_num) (by norm_num)) (by unfold eps; norm_num)
    refine ⟨Q.1, Q.2.1, ?_⟩
    obtain ⟨c1, c2⟩ := coef_series N0 (n1.trans (by norm_num))
    obtain ⟨x1, x2⟩ := cross_entries (vals p) i j
    rw [exactS_entry h0]
    generalize Kinematics.crossMx (vals p) i j = x at *
    generalize (Kinematics.crossMx (vals p) * Kinematics.crossMx (vals p)) i j = y at *
    generalize nrm (vals p) = N at *
    have q3 := Q.2.2
    generalize (fval _ : ℝ) = f at q3 ⊢
    generalize 2 * Real.sin (N / 2) * Real.sin (N / 2) / (N * N) = α at *
    generalize (1 - Real.sin N / N) / (N * N) = β at *
    have tsq : (t' : ℝ) * t' ≤ 1 / 2 ^ 26 := by
      have := mul_le_mul tl tl t0' (by norm_num)
      norm_num at this ⊢
      linarith
    have tsq0 : 0 ≤ (t' : ℝ) * t' := mul_nonneg t0' t0'
    have nsq : N * N ≤ 1 / 8191 * (1 / 8191) := mul_le_mul n1 n1 N0.le (by norm_num)
    have d1 : |1 / 2 * (1 - 1 / 12 * ((t' : ℝ) * t')) - α| ≤ 1 / (24 * 8191 * 8191) := by
      rw [abs_le]
      norm_num at tsq nsq c1 ⊢
      constructor <;> linarith [c1.1, c1.2]
    have d2 : |1 / 6 * (1 - 1 / 20 * ((t' : ℝ) * t')) - β| ≤ 1 / 2 ^ 28 := by
      rw [abs_le] at c2 ⊢
      norm_num at tsq nsq c2 ⊢
      constructor <;> linarith [c2.1, c2.2]
    have m1 := mul_le_mul d1 x1 (abs_nonneg _) (by norm_num)
    have m2 := mul_le_mul d2 x2 (abs_nonneg _) (by norm_num)
    rw [← abs_mul] at m1 m2
    rw [abs_le] at m1 m2 q3 ⊢
    norm_num at n1 nsq m1 m2 q3 ⊢
    constructor <;> nlinarith [m1.1, m1.2, m2.1, m2.2, q3.1, q3.2]

omit hR in
/-- `M` is, up to 2^-43 in each entry, the matrix that maps the rates of a rotation vector to the angular velocity of the frame, which is the matrix exponential of the rotation vector -/
def GoodDiff (p : V3) (M : FM3) : Prop := ∃ S : M3, IsSMatrix (fun q => NormedSpace.exp (-Kinematics.crossMx q)) S p ∧ ∀ i j, Near (1 / 2 ^ 43) (M i j) (S i j)

/-- **C187** For every finite rotation vector that is not zero and not longer than 8, the derivative matrix of the exponential map that the library returns is, up to 2^-43 in each entry, the true one: it takes the velocity of every curve
of rotation vectors to the angular velocity of the frame. -/
theorem C187_expDiffMat (p : F3) (hp : Finite p) (h0 : vals p ≠ 0) (hb : nrm (vals p) ≤ 8) : GoodDiff (vals p) (expDiffMat L p) := by
  have n0 : nrm (vals p) ≠ 0 := fun h => h0 (Kinematics.eq_zero_of_norm h)
  exact ⟨_, exact_smatrix n0, expDiff_entries hR L hp n0 hb⟩

include hR in
/-- **C187** For the zero vector it is exactly the identity. -/
theorem C187_zero (p : F3) (hp : ∀ i, p i = .fin 0) : expDiffMat L p = ErDouble.oneD := by
  have m : ∀ i, fmul (fun q => R q) (p i) (p i) = .fin 0 := by
    intro i
    rw [hp i]
    show rounded (fun q => R q) (.fin (0 * 0)) = _
    rw [mul_zero]
    exact RvInv.round_zero hR
  have n : norm3 L.toLib p = .fin 0 := by
    unfold norm3
    rw [RvInv.sum_zero hR (L.sum3_sum _ _ _) (by simp [m])]
    unfold Verif.NumericDouble.fsqrt
    simp only
    rw [if_neg (lt_irrefl _), Rat.cast_zero, Real.sqrt_zero]
    have : R ((0 : ℚ) : ℝ) = 0 := hR.rat.fix (x := 0) (by simpa using isDouble_int 0 (by norm_num))
    rw [Rat.cast_zero] at this
    rw [this]
  show (if Fp.eq (norm3 L.toLib p) (.fin 0) = true then ErDouble.oneD else _) = ErDouble.oneD
  exact if_pos (by rw [n]; rfl)

/-- the numbers that a matrix of doubles denotes -/
def realsOf {n m : ℕ} (M : Matrix (Fin n) (Fin m) Fp) : Matrix (Fin n) (Fin m) ℝ := fun i j => (fval (M i j) : ℝ)

omit hR in
theorem vals_acc {n m : ℕ} {M : Matrix (Fin n) (Fin m) Fp} {X : Matrix (Fin n) (Fin m) ℝ} {e B : ℝ} (h : ∀ i j, Near e (M i j) (X i j)) (hX : ∀ i j, |X i j| + e ≤ B) : CovDouble.AccM 0 M (realsOf M) B := by
  intro i j
  obtain ⟨h1, h2, h3⟩ := h i j
  have f : Finite (fun _ : Fin 1 => M i j) := fun _ => ⟨h1, h2⟩
  refine f.acc (a := fun _ => B) (fun _ => ?_) 0
  have := abs_sub_abs_le_abs_sub (fval (M i j) : ℝ) (X i j)
  show |(fval (M i j) : ℝ)| ≤ B
  linarith [hX i j]

/-- **C187** For every finite rotation vector that is not zero and not longer than 8, the Jacobian of the quaternion exponential that the library returns is finite and within 2^-38 of that of the true map from rotation vectors to unit quaternions. -/
theorem C187_jacobian (p : F3) (hp : Finite p) (h0 : vals p ≠ 0) (hb : nrm (vals p) ≤ 8) (J : Matrix (Fin 4) (Fin 3) Fp) (hJ : IsExpJacobian L p J) :
    ∃ D : M43, IsJacobian expQuat D (vals p) ∧ ∀ i j, Near (1 / 2 ^ 38) (J i j) (D i j) := by
  have n0 : nrm (vals p) ≠ 0 := fun h => h0 (Kinematics.eq_zero_of_norm h)
  refine ⟨_, exact_jacobian n0, ?_⟩
  obtain ⟨P, h1, h2⟩ := hJ
  obtain ⟨f, f1, f2, -⟩ := aa_near hR L.toLib hp hb
  have E := expDiff_entries hR L hp n0 hb
  have e8 := exact_le n0
  generalize exactS (vals p) = S at *
  generalize expDiffMat L p = M at *
  generalize axisAngle2quat L.toLib p = d at *
  have q1 : ∀ i, |expQuat (vals p) i| ≤ 1 := fun i => (abs_le_nrm _ i).trans (by rw [nrm_expQuat])
  generalize expQuat (vals p) = q at *
  have dq : ∀ i, |vals d i - q i| ≤ 1 / 2 ^ 43 := fun i => (abs_le_nrm (vals d - q) i).trans f2
  have dA := f.acc (a := fun _ => 2) fun i => by
    have := abs_sub_abs_le_abs_sub (vals d i) (q i)
    have := dq i
    have := q1 i
    norm_num at *
    linarith
  have O : CovDouble.AccM 0 (quatOPlus d) (Kinematics.quatOPlus (vals d)) 2 := by
    intro i j
    fin_cases i <;> fin_cases j <;> first | exact dA _ | exact (dA _).neg
  have half : Acc 0 (.fin (1 / 2)) (1 / 2) 1 := by
    have := Acc.fin (q := 1 / 2) ⟨1, -1, by norm_num, by norm_num, by norm_num⟩ (S := 1) (by push_cast; norm_num)
    simpa using this
  have half' : Acc 0 (.fin 2⁻¹) (2⁻¹ : ℝ) 1 := by rw [one_div] at half; exact_mod_cast (by simpa using half)
  have z : Acc 0 (.fin 0) 0 1 := CovDouble.acc_zero (by norm_num)
  have V : CovDouble.AccM 0 quatV Kinematics.quatV 1 := by
    intro i j
    fin_cases i <;> fin_cases j <;> simp [quatV, Kinematics.quatV] <;> first | exact z | exact half'

  have PA := CovDouble.prod_acc hR.rat CovDouble.sum_ks4 O V h1 (by simp [CovDouble.ks4]) (InR.mono (a := 0) (b := 10) ⟨by norm_num, by norm_num⟩ (by norm_num) (by norm_num))
  have MA := vals_acc (B := 9) E (fun i j => by have := e8 i j; norm_num; linarith)
  have JA := CovDouble.prod_acc hR.rat CovDouble.sum_ks3 PA MA h2 (by simp [CovDouble.ks3, CovDouble.ks4]) (InR.mono (a := 0) (b := 10) ⟨by simp [CovDouble.ks4]; norm_num, by simp [CovDouble.ks4]; norm_num⟩ (by norm_num) (by norm_num))
  intro i j
  have Q := near_of (e := 3000 / 2 ^ 53) ((JA i j).mono (k := 10) (T := 216) (by simp [CovDouble.ks3, CovDouble.ks4]) (by simp [CovDouble.ks3, CovDouble.ks4]; norm_num)) (by norm_num) (sc (by norm_num) (by norm_num)) (by unfold eps; norm_num)
  refine ⟨Q.1, Q.2.1, ?_⟩
  have W : ∀ l : Fin 3, |(Kinematics.quatOPlus (vals d) * Kinematics.quatV) i l - (Kinematics.quatOPlus q * Kinematics.quatV) i l| ≤ 1 / 2 ^ 44 ∧ |(Kinematics.quatOPlus q * Kinematics.quatV) i l| ≤ 1 / 2 := by
    intro l
    have b : ∀ k : Fin 4, |vals d k * (1 / 2) - q k * (1 / 2)| ≤ 1 / 2 ^ 44 ∧ |q k * (1 / 2)| ≤ 1 / 2 := fun k => by
      rw [show vals d k * (1 / 2) - q k * (1 / 2) = (vals d k - q k) * (1 / 2) by ring, abs_mul, abs_mul, show |(1 / 2 : ℝ)| = 1 / 2 by norm_num]
      have := dq k
      have := q1 k
      norm_num at *
      constructor <;> linarith
    have b' : ∀ k : Fin 4, |-vals d k * (1 / 2) - -q k * (1 / 2)| ≤ 1 / 2 ^ 44 ∧ |-q k * (1 / 2)| ≤ 1 / 2 := fun k => by
      rw [show -vals d k * (1 / 2) - -q k * (1 / 2) = -(vals d k * (1 / 2) - q k * (1 / 2)) by ring, neg_mul, abs_neg, abs_neg]
      exact b k
    have e : ∀ r : V4, (Kinematics.quatOPlus r * Kinematics.quatV) i l = Kinematics.quatOPlus r i l.castSucc * (1 / 2) := by
      intro r
      rw [Matrix.mul_apply, Fin.sum_univ_four]
      fin_cases l <;> simp [Kinematics.quatV]
    rw [e, e]
    fin_cases i <;> fin_cases l <;> first | exact b 0 | exact b 1 | exact b 2 | exact b 3 | exact b' 0 | exact b' 1 | exact b' 2
  have T : |((Kinematics.quatOPlus (vals d) * Kinematics.quatV) * realsOf M) i j - ((Kinematics.quatOPlus q * Kinematics.quatV) * S) i j| ≤ 3 * (13 / 2 ^ 44) := by
    rw [Matrix.mul_apply, Matrix.mul_apply, ← Finset.sum_sub_distrib]
    refine (Finset.abs_sum_le_sum_abs _ _).trans ((Finset.sum_le_card_nsmul _ _ (13 / 2 ^ 44) fun l _ => ?_).trans (by simp))
    obtain ⟨w1, w2⟩ := W l
    have m := (E l j).2.2
    have s8 := e8 l j
    generalize (Kinematics.quatOPlus (vals d) * Kinematics.quatV) i l = x at *
    generalize (Kinematics.quatOPlus q * Kinematics.quatV) i l = y at *
    show |x * (fval (M l j) : ℝ) - y * S l j| ≤ _
    generalize (fval (M l j) : ℝ) = u at *
    generalize S l j = v at *
    have ub : |u| ≤ 9 := by
      have := abs_sub_abs_le_abs_sub u v
      norm_num at m
      linarith
    have k1 := mul_le_mul w1 ub (abs_nonneg _) (by norm_num)
    have k2 := mul_le_mul w2 m (abs_nonneg _) (by norm_num)
    rw [← abs_mul] at k1 k2
    rw [show x * u - y * v = (x - y) * u + y * (u - v) by ring]
    refine (abs_add_le _ _).trans ((add_le_add k1 k2).trans ?_)
    norm_num
  have t := abs_sub_le (fval (J i j) : ℝ) (((Kinematics.quatOPlus (vals d) * Kinematics.quatV) * realsOf M) i j) (((Kinematics.quatOPlus q * Kinematics.quatV) * S) i j)
  refine t.trans ((add_le_add Q.2.2 T).trans ?_)
  norm_num

end

theorem turn_vec : vals turnU.2 ≠ 0 ∧ nrm (vals turnU.2) ≤ 8 := by
  refine ⟨fun h => ?_, by rw [turnU_norm]; norm_num⟩
  have := turnU_norm
  rw [h] at this
  simp [Kinematics.norm, Kinematics.sqNorm, Kinematics.inner] at this

/-- the hypotheses are met, with the rounding of the machine: a turn by three radians about a skew axis -/
example (b : Bool) : GoodDiff (vals turnU.2) (expDiffMat (SinLib.rounded b) turnU.2) :=
  C187_expDiffMat isRndR_rndEvenReal _ turnU.2 turnU_finite.1 turn_vec.1 turn_vec.2

/-- and there is a Jacobian, whatever the vector -/
theorem jacobian_exists {R : ℝ → ℚ} (L : SinLib fun q => R q) (p : F3) : ∃ J, IsExpJacobian L p J := by
  obtain ⟨P, hP⟩ := CovDouble.prod_exists (fun q => R q) (ks := CovDouble.ks4) (by simp [CovDouble.ks4]) (quatOPlus (axisAngle2quat L.toLib p)) quatV
  obtain ⟨J, hJ⟩ := CovDouble.prod_exists (fun q => R q) (ks := CovDouble.ks3) (by simp [CovDouble.ks3]) P (expDiffMat L p)
  exact ⟨J, P, hP, hJ⟩

example (b : Bool) : ∃ J, IsExpJacobian (SinLib.rounded b) turnU.2 J ∧ ∃ D : M43, IsJacobian expQuat D (vals turnU.2) ∧ ∀ i j, Near (1 / 2 ^ 38) (J i j) (D i j) := by
  obtain ⟨J, hJ⟩ := jacobian_exists (SinLib.rounded b) turnU.2
  exact ⟨J, hJ, C187_jacobian isRndR_rndEvenReal _ turnU.2 turnU_finite.1 turn_vec.1 turn_vec.2 J hJ⟩

end Verif.ExpDiff
