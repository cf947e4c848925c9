import Verif.Kinematics.LogDiff
import Verif.Kinematics.ExpDiffProps
import Mathlib.Analysis.Real.Pi.Irrational

/-!
# C188: the derivative of the logarithm in doubles
-/

namespace Verif.LogDiff

open Verif.Common Verif.KinematicsDouble Verif.ErDouble Verif.RateDouble Verif.RotVecDouble Verif.EulerDouble Verif.RvRate Verif.ExpDiff
open Verif.Kinematics (V3 V4 M3 M4 M43 IsSMatrix IsJacobian)

local notation "nrm" => Kinematics.norm

/-! ## The exact matrix -/

/-- the coefficient of the square -/
noncomputable def coefE (N : ℝ) : ℝ := (1 - N / 2 * Real.cos (N / 2) / Real.sin (N / 2)) / N / N

/-- the exact matrix of the logarithm -/
noncomputable def exactT (p : V3) : M3 := 1 + (1 / 2 : ℝ) • Kinematics.crossMx p + coefE (nrm p) • Kinematics.crossMx p * Kinematics.crossMx p

theorem exactT_entry (p : V3) (i j : Fin 3) : exactT p i j = (1 : M3) i j + 1 / 2 * Kinematics.crossMx p i j + coefE (nrm p) * (Kinematics.crossMx p * Kinematics.crossMx p) i j := by
  unfold exactT
  rw [Matrix.smul_mul]
  simp only [Matrix.add_apply, Matrix.smul_apply, smul_eq_mul]

theorem exact_inverse {p : V3} (h : nrm p ≠ 0) (hs : Real.sin (nrm p / 2) ≠ 0) : exactS p * exactT p = 1 ∧ exactT p * exactS p = 1 := by
  have hnn : nrm p * nrm p = p 0 * p 0 + p 1 * p 1 + p 2 * p 2 := by rw [nrm_sq, Kinematics.sq3]
  have hsin : Real.sin (nrm p) = 2 * Real.sin (nrm p / 2) * Real.cos (nrm p / 2) := by
    rw [← Real.sin_two_mul]; congr 1; ring
  have htr := Kinematics.trig (nrm p / 2)
  have hE : exactS p = 1 + (-(2 * Real.sin (nrm p / 2) * Real.sin (nrm p / 2) / (nrm p * nrm p))) • Kinematics.crossMx p +
      ((1 - Real.sin (nrm p) / nrm p) / (nrm p * nrm p)) • Kinematics.crossMx p * Kinematics.crossMx p := by
    ext i j
    rw [exactS_entry h, Matrix.smul_mul]
    simp only [Matrix.add_apply, Matrix.smul_apply, smul_eq_mul]
    ring
  rw [hE]
  unfold exactT coefE
  rw [hsin]
  generalize Real.sin (nrm p / 2) = S at *
  generalize Real.cos (nrm p / 2) = C at *
  generalize nrm p = n at *
  constructor
  · refine Kinematics.crossMx_poly p n _ _ _ _ hnn ?_ ?_
    · field_simp; ring
    · field_simp; linear_combination (-2 * n * S) * htr
  · refine Kinematics.crossMx_poly p n _ _ _ _ hnn ?_ ?_
    · field_simp; ring
    · field_simp; linear_combination (-2 * n * S) * htr

/-- the numerator of the coefficient -/
theorem num_bounds {x : ℝ} (hx : 0 ≤ x) : x ^ 3 / 3 - x ^ 5 / 30 ≤ Real.sin x - x * Real.cos x ∧ Real.sin x - x * Real.cos x ≤ x ^ 3 / 3 := by
  have d : ∀ y : ℝ, HasDerivAt (fun y => Real.sin y - y * Real.cos y) (y * Real.sin y) y := fun y => by
    refine ((Real.hasDerivAt_sin y).sub ((hasDerivAt_id y).mul (Real.hasDerivAt_cos y))).congr_deriv ?_
    simp
  have c : ∀ y : ℝ, HasDerivAt (fun y : ℝ => y ^ 3 / 3) (y ^ 2) y := fun y => ((hasDerivAt_pow 3 y).div_const 3).congr_deriv (by push_cast; ring)
  have c5 : ∀ y : ℝ, HasDerivAt (fun y : ℝ => y ^ 5 / 30) (y ^ 4 / 6) y := fun y => ((hasDerivAt_pow 5 y).div_const 30).congr_deriv (by push_cast; ring)
  constructor
  · have m := monotoneOn_of_hasDerivWithinAt_nonneg (convex_Ici (0 : ℝ)) (f := (fun y => Real.sin y - y * Real.cos y) - ((fun y : ℝ => y ^ 3 / 3) - fun y : ℝ => y ^ 5 / 30))
      (fun y _ => ((d y).sub ((c y).sub (c5 y))).continuousAt.continuousWithinAt) (fun y _ => ((d y).sub ((c y).sub (c5 y))).hasDerivWithinAt) (fun y hy => by
        rw [interior_Ici] at hy
        have y0 : 0 < y := hy
        have s := Real.sin_ge_sub_cube y0.le
        have := mul_le_mul_of_nonneg_left s y0.le
        nlinarith)
    have := m (Set.self_mem_Ici) (Set.mem_Ici.2 hx) hx
    simp at this
    linarith
  · have m := monotoneOn_of_hasDerivWithinAt_nonneg (convex_Ici (0 : ℝ)) (f := (fun y : ℝ => y ^ 3 / 3) - fun y => Real.sin y - y * Real.cos y)
      (fun y _ => ((c y).sub (d y)).continuousAt.continuousWithinAt) (fun y _ => ((c y).sub (d y)).hasDerivWithinAt) (fun y hy => by
        rw [interior_Ici] at hy
        have y0 : 0 < y := hy
        have s := Real.sin_le y0.le
        have := mul_le_mul_of_nonneg_left s y0.le
        nlinarith)
    have := m (Set.self_mem_Ici) (Set.mem_Ici.2 hx) hx
    simp at this
    linarith

/-- the coefficient near zero -/
theorem coefE_series {N : ℝ} (h0 : 0 < N) (h1 : N ≤ 1) : |coefE N - 1 / 12| ≤ N * N / 100 := by
  obtain ⟨x, hx⟩ : ∃ x, x = N / 2 := ⟨_, rfl⟩
  have x0 : 0 < x := by rw [hx]; positivity
  have x1 : x ≤ 1 / 2 := by rw [hx]; linarith
  have hN : N = 2 * x := by rw [hx]; ring
  obtain ⟨l, u⟩ := num_bounds x0.le
  have s1 := Real.sin_ge_sub_cube x0.le
  have s2 := Real.sin_le x0.le
  have xx : x ^ 3 ≤ x / 4 := by nlinarith [mul_pos x0 x0]
  have sp : 0 < Real.sin x := by linarith
  have e : coefE N = (Real.sin x - x * Real.cos x) / (4 * x ^ 2 * Real.sin x) := by
    unfold coefE
    rw [← hx, hN]
    field_simp
    ring
  rw [e]
  generalize Real.sin x - x * Real.cos x = f at *
  generalize Real.sin x = s at *
  have e2 : f / (4 * x ^ 2 * s) - 1 / 12 = (f - x ^ 2 * s / 3) / (4 * x ^ 2 * s) := by field_simp; ring
  have d0 : 0 < 4 * x ^ 2 * s := by positivity
  have k1 : 9 / 10 * x ≤ s := by linarith
  have k2 : x ^ 5 * (9 / 10) ≤ x ^ 4 * s := by nlinarith [pow_pos x0 4]
  have k3 : x ^ 2 * s ≤ x ^ 3 := by nlinarith [pow_pos x0 2]
  have k4 : x ^ 3 - x ^ 5 / 6 ≤ x ^ 2 * s := by nlinarith [pow_pos x0 2]
  have k5 := pow_pos x0 5
  rw [e2, abs_div, abs_of_pos d0, div_le_iff₀ d0, hN, show 2 * x * (2 * x) / 100 * (4 * x ^ 2 * s) = 16 / 100 * (x ^ 4 * s) by ring, abs_le]
  constructor <;> linarith

/-! ## The quotient of half the angle and its tangent -/

theorem sin_big {x : ℝ} (h0 : 0 ≤ x) (h1 : x ≤ 201 / 100) : 2 / 5 * x ≤ Real.sin x := by
  have p1 := Real.pi_gt_d2
  have p2 := Real.pi_lt_d2
  rcases le_total x (Real.pi / 2) with h | h
  · refine le_trans (mul_le_mul_of_nonneg_right ?_ h0) (Real.mul_le_sin h0 h)
    rw [le_div_iff₀ Real.pi_pos]
    linarith
  · have := Real.one_sub_sq_div_two_le_cos (x := Real.pi / 2 - x)
    rw [Real.cos_pi_div_two_sub] at this
    have : (Real.pi / 2 - x) ^ 2 ≤ (45 / 100) ^ 2 := by
      rw [sq_le_sq, abs_of_nonpos (by linarith), abs_of_nonneg (by norm_num)]
      linarith
    norm_num at this
    linarith

theorem quot_core {τ h T : ℝ} (h0 : 1 / 2 ^ 16 ≤ h) (h2 : h ≤ 2) (hτ : |τ - h| ≤ 9 / 2 ^ 53 * h) (ct : Real.cos τ ≠ 0) (hT : |T - Real.tan τ| ≤ |Real.tan τ| / 2 ^ 52 + 1 / 2 ^ 199) :
    T ≠ 0 ∧ |τ / T - h * Real.cos h / Real.sin h| ≤ 87 / 2 ^ 53 ∧ |h * Real.cos h / Real.sin h| ≤ 4 := by
  have hp : 0 < h := lt_of_lt_of_le (by norm_num) h0
  have t1 : 99 / 100 * h ≤ τ := by
    have := (abs_le.1 hτ).1
    norm_num at this
    linarith
  have t2 : τ ≤ 1001 / 1000 * h := by
    have := (abs_le.1 hτ).2
    norm_num at this
    linarith
  have tp : 0 < τ := by linarith
  have sτ := sin_big tp.le (by linarith)
  have sh := sin_big hp.le (by linarith)
  have sτ0 : 0 < Real.sin τ := by linarith
  have sh0 : 0 < Real.sin h := by linarith
  have cτ := Real.abs_cos_le_one τ
  have ch := Real.abs_cos_le_one h
  have tan0 : 1 / 2 ^ 18 ≤ |Real.tan τ| := by
    rw [Real.tan_eq_sin_div_cos, abs_div, abs_of_pos sτ0, le_div_iff₀ (abs_pos.2 ct)]
    have : 1 / 2 ^ 18 * |Real.cos τ| ≤ 1 / 2 ^ 18 * 1 := mul_le_mul_of_nonneg_left cτ (by norm_num)
    norm_num at this h0 ⊢
    linarith
  have hT' : |T - Real.tan τ| ≤ 101 / 50 / 2 ^ 53 * |Real.tan τ| := by
    refine hT.trans ?_
    norm_num at tan0 ⊢
    linarith
  have tz : 0 < |Real.tan τ| := lt_of_lt_of_le (by norm_num) tan0
  have Tb : 99 / 100 * |Real.tan τ| ≤ |T| := by
    have := abs_sub_abs_le_abs_sub (Real.tan τ) T
    rw [abs_sub_comm] at this
    norm_num at hT'
    linarith
  have T0 : T ≠ 0 := by
    rintro rfl
    rw [abs_zero] at Tb
    linarith
  have tz' : Real.tan τ ≠ 0 := abs_pos.1 tz
  have e1 : τ * Real.cos τ / Real.sin τ = τ / Real.tan τ := by rw [Real.tan_eq_sin_div_cos]; field_simp
  have b1 : |τ * Real.cos τ / Real.sin τ| ≤ 5 / 2 := by
    rw [abs_div, abs_mul, abs_of_pos sτ0, abs_of_pos tp, div_le_iff₀ sτ0]
    have := mul_le_mul_of_nonneg_left cτ tp.le
    linarith
  have b2 : |h * Real.cos h / Real.sin h| ≤ 5 / 2 := by
    rw [abs_div, abs_mul, abs_of_pos sh0, abs_of_pos hp, div_le_iff₀ sh0]
    have := mul_le_mul_of_nonneg_left ch hp.le
    linarith
  refine ⟨T0, ?_, b2.trans (by norm_num)⟩
  have d1 : |τ / T - τ * Real.cos τ / Real.sin τ| ≤ 6 / 2 ^ 53 := by
    have e : τ / T - τ / Real.tan τ = τ / Real.tan τ * ((Real.tan τ - T) / T) := by field_simp
    rw [e1] at b1 ⊢
    rw [e, abs_mul, abs_div (Real.tan τ - T), abs_sub_comm]
    have q : |T - Real.tan τ| / |T| ≤ 21 / 10 / 2 ^ 53 := by
      rw [div_le_iff₀ (by linarith)]
      refine hT'.trans ?_
      norm_num
      linarith
    refine (mul_le_mul b1 q (by positivity) (by norm_num)).trans ?_
    norm_num
  have d2 : |τ * Real.cos τ / Real.sin τ - h * Real.cos h / Real.sin h| ≤ 81 / 2 ^ 53 := by
    have e : τ * Real.cos τ / Real.sin τ - h * Real.cos h / Real.sin h = (τ - h) * (Real.cos τ / Real.sin τ) + h * (Real.sin (h - τ) / (Real.sin τ * Real.sin h)) := by
      rw [Real.sin_sub]
      field_simp
      ring
    rw [e]
    have k1 : |(τ - h) * (Real.cos τ / Real.sin τ)| ≤ 9 / 2 ^ 53 * (51 / 20) := by
      rw [abs_mul, abs_div, abs_of_pos sτ0]
      have q : |Real.cos τ| / Real.sin τ ≤ 51 / 20 / h := by
        rw [div_le_div_iff₀ sτ0 hp]
        nlinarith [abs_nonneg (Real.cos τ)]
      refine (mul_le_mul hτ q (by positivity) (by positivity)).trans (le_of_eq ?_)
      field_simp
    have k2 : |h * (Real.sin (h - τ) / (Real.sin τ * Real.sin h))| ≤ 9 / 2 ^ 53 * (51 / 20 * (5 / 2)) := by
      rw [abs_mul, abs_div, abs_of_pos hp, abs_of_pos (mul_pos sτ0 sh0)]
      have s1 : |Real.sin (h - τ)| ≤ 9 / 2 ^ 53 * h := (Real.abs_sin_le_abs).trans (by rwa [abs_sub_comm])
      rw [← mul_div_assoc h, div_le_iff₀ (mul_pos sτ0 sh0)]
      have m1 : h * |Real.sin (h - τ)| ≤ h * (9 / 2 ^ 53 * h) := mul_le_mul_of_nonneg_left s1 hp.le
      have m2 : (20 / 51 * h) * (2 / 5 * h) ≤ Real.sin τ * Real.sin h := mul_le_mul (by linarith) sh (by positivity) sτ0.le
      refine m1.trans (le_trans (le_of_eq (by ring)) (mul_le_mul_of_nonneg_left m2 (show (0 : ℝ) ≤ 9 / 2 ^ 53 * (51 / 20 * (5 / 2)) by norm_num)))
    refine (abs_add_le _ _).trans ((add_le_add k1 k2).trans ?_)
    norm_num
  have t := abs_sub_le (τ / T) (τ * Real.cos τ / Real.sin τ) (h * Real.cos h / Real.sin h)
  norm_num at d1 d2 t ⊢
  linarith

/-! ## The computed matrix -/

section
variable {R : ℝ → ℚ} (hR : IsRndR R) (L : TanSinLib fun q => R q)

include hR

/-- the scaled square of the cross matrix -/
theorem square_acc (L : SinLib fun q => R q) {b : Fp} {β B U : ℝ} {k : ℕ} (hk : k ≤ 50) {p : F3} (hp : Finite p) (hU : nrm (vals p) ≤ U) (u1 : 1 / 2 ^ 14 ≤ U) (u2 : U ≤ 8) (hb : Acc k b β B)
    (B1 : 1 / 8 ≤ B * (U * U)) (B2 : B * (U * U) ≤ 5) (i j : Fin 3) : Acc (k + 5) (scaledSquare L b (crossMx p) i j) (β * (Kinematics.crossMx (vals p) * Kinematics.crossMx (vals p)) i j) (3 * (B * (U * U))) := by
  have X := cross_acc hp hU
  have U0 : 0 < U := lt_of_lt_of_le (by norm_num) u1
  have UU1 : 1 / 2 ^ 28 ≤ U * U := by
    have := mul_le_mul u1 u1 (by norm_num) (by linarith)
    norm_num at this ⊢
    linarith
  have UU2 : U * U ≤ 64 := by nlinarith
  unfold scaledSquare
  rw [Matrix.mul_apply, Fin.sum_univ_three]
  split
  · have t := fun l : Fin 3 => Acc.mul hR.rat (by norm_num) (X i l) (X l j) (sc (le_trans (by norm_num) UU1) (UU2.trans (by norm_num)))
    have s := sum3_acc hR L (by norm_num) (le_trans (by norm_num) UU1) (UU2.trans (by norm_num)) t
    have e : B * (3 * (U * U)) = 3 * (B * (U * U)) := by ring
    have := Acc.mul hR.rat (by omega) hb s (by rw [e]; exact sc (by norm_num; linarith) (by norm_num; linarith))
    rw [e] at this
    exact this.mono (by omega) le_rfl
  · have e : B * U * U = B * (U * U) := by ring
    have BU : B * U = B * (U * U) / U := by field_simp
    have t := fun l : Fin 3 => Acc.mul hR.rat (by omega) (Acc.mul hR.rat (by omega) hb (X i l) (by
      rw [BU]
      refine sc ?_ ?_
      · rw [le_div_iff₀ U0]; norm_num; linarith
      · rw [div_le_iff₀ U0]; norm_num at u1 ⊢; linarith)) (X l j) (by rw [e]; exact sc (by norm_num; linarith) (by norm_num; linarith))
    simp only [e] at t
    have s := sum3_acc hR L (by omega) (by norm_num; linarith) (by norm_num; linarith) t
    rw [show β * (Kinematics.crossMx (vals p) i 0 * Kinematics.crossMx (vals p) 0 j + Kinematics.crossMx (vals p) i 1 * Kinematics.crossMx (vals p) 1 j + Kinematics.crossMx (vals p) i 2 * Kinematics.crossMx (vals p) 2 j) =
      β * Kinematics.crossMx (vals p) i 0 * Kinematics.crossMx (vals p) 0 j + β * Kinematics.crossMx (vals p) i 1 * Kinematics.crossMx (vals p) 1 j + β * Kinematics.crossMx (vals p) i 2 * Kinematics.crossMx (vals p) 2 j by ring]
    exact s.mono (by omega) le_rfl

omit hR in
theorem acc_half : Acc 0 (.fin (1 / 2)) (1 / 2) (1 / 2) := by
  have := Acc.fin (q := 1 / 2) ⟨1, -1, by norm_num, by norm_num, by norm_num⟩ (S := 1 / 2) (by push_cast; norm_num)
  simpa using this

/-- the sum of the three parts -/
theorem log_parts {b : Fp} {β B U : ℝ} {k : ℕ} (hk : k ≤ 50) {p : F3} (hp : Finite p) (hU : nrm (vals p) ≤ U) (u1 : 1 / 2 ^ 14 ≤ U) (u2 : U ≤ 8) (hb : Acc k b β B)
    (B1 : 1 / 8 ≤ B * (U * U)) (B2 : B * (U * U) ≤ 5) (i j : Fin 3) :
    Acc (k + 6) (fadd (fun q => R q) (fadd (fun q => R q) (ErDouble.oneD i j) (fmul (fun q => R q) (.fin (1 / 2)) (crossMx p i j))) (scaledSquare L.toSinLib b (crossMx p) i j))
      ((1 : M3) i j + 1 / 2 * Kinematics.crossMx (vals p) i j + β * (Kinematics.crossMx (vals p) * Kinematics.crossMx (vals p)) i j) (1 + 1 / 2 * U + 3 * (B * (U * U))) := by
  have m := Acc.mul hR.rat (by norm_num) acc_half (cross_acc hp hU i j) (sc (by norm_num at u1 ⊢; linarith) (by norm_num; linarith))
  have d := Acc.add hR.rat (k := 1) (by omega) (by omega) (by omega) (one_acc i j) m (sc (by norm_num at u1 ⊢; linarith) (by norm_num; linarith))
  have q := square_acc hR L.toSinLib hk hp hU u1 u2 hb B1 B2 i j
  exact (Acc.add hR.rat (k := k + 5) (by omega) le_rfl (by omega) d q (sc (by norm_num at u1 ⊢; linarith) (by norm_num; linarith))).mono (by omega) le_rfl

/-- the coefficient of the series -/
theorem coefL_small {t : ℚ} (td : IsDouble t) (t0 : 0 ≤ t) (tl : (t : ℝ) ≤ 1 / 2 ^ 13) (hs : isSmallD (Fp.fin t).abs = true) :
    Acc 6 (coefL L (.fin t)) (1 / 12 * (1 + 1 / 60 * t * t)) 1 := by
  have t0' : (0 : ℝ) ≤ t := by exact_mod_cast t0
  have tA : Acc 0 (.fin t) t (1 / 2 ^ 13) := Acc.fin td (by rwa [abs_of_nonneg t0'])
  have one : Acc 0 (.fin 1) 1 1 := CovDouble.acc_one le_rfl
  have a1 := Acc.mul hR.rat (by norm_num) (acc_lit hR (x := 1 / 60) (by norm_num)) tA (sc (by norm_num) (by norm_num))
  have a2 := Acc.mul hR.rat (by norm_num) a1 tA (sc (by norm_num) (by norm_num))
  have a3 := Acc.add hR.rat (k := 3) (by norm_num) (by norm_num) (by norm_num) one a2 (sc (by norm_num) (by norm_num))
  have a4 := Acc.mul hR.rat (by norm_num) (acc_lit hR (x := 1 / 12) (by norm_num)) a3 (sc (by norm_num) (by norm_num))
  unfold coefL
  rw [if_pos hs]
  exact a4.mono (by norm_num) (by norm_num)

/-- the coefficient of the closed form -/
theorem coefL_large {t : ℚ} {N : ℝ} (tA : Acc 7 (.fin t) N N) (n1 : 1 / 2 ^ 14 ≤ N) (n2 : N ≤ 4) (hs : isSmallD (Fp.fin t).abs = false) : Acc 45 (coefL L (.fin t)) (coefE N) (5 / N / N) := by
  have N0 : 0 < N := lt_of_lt_of_le (by norm_num) n1
  have one : Acc 0 (.fin 1) 1 1 := CovDouble.acc_one le_rfl
  have hA := Acc.mul hR.rat (by norm_num) acc_half tA (sc (by norm_num at n1 ⊢; linarith) (by norm_num; linarith))
  unfold coefL
  rw [if_neg (by rw [hs]; simp)]
  simp only
  generalize fmul (fun q => R q) (.fin (1 / 2)) (.fin t) = g at *
  obtain ⟨τ, rfl, -, -, hτ⟩ := hA
  rw [show 1 / 2 * N = N / 2 by ring] at hτ
  have ct : Real.cos τ ≠ 0 := by
    intro h
    obtain ⟨k, hk⟩ := Real.cos_eq_zero_iff.1 h
    have k0 : (2 * k + 1 : ℝ) ≠ 0 := by
      have : (2 * k + 1 : ℤ) ≠ 0 := by omega
      exact_mod_cast this
    have e : Real.pi = ((2 * τ / (2 * k + 1) : ℚ) : ℝ) := by
      push_cast
      rw [hk]
      field_simp
    exact irrational_pi ⟨_, e.symm⟩
  have te := L.tan_err τ
  have te : |(L.tan τ : ℝ) - Real.tan τ| ≤ |Real.tan τ| / 2 ^ 52 + 1 / 2 ^ 199 := by
    refine te.trans (add_le_add le_rfl ?_)
    refine (mul_le_mul_of_nonneg_left tiny_small (by norm_num)).trans (le_of_eq (by norm_num))
  obtain ⟨T0, q1, q2⟩ := quot_core (τ := τ) (h := N / 2) (T := L.tan τ) (by norm_num at n1 ⊢; linarith) (by linarith) (hτ.trans (mul_le_mul_of_nonneg_right (by unfold eps; norm_num) (by linarith))) ct te
  have T0' : L.tan τ ≠ 0 := by exact_mod_cast T0
  have Q : Acc 24 (fdiv (fun q => R q) (.fin τ) (libm L.tan (.fin τ))) (N / 2 * Real.cos (N / 2) / Real.sin (N / 2)) 4 := by
    have r := Acc.round hR.rat (m := 23) (z := τ / L.tan τ) (S := 4) (by norm_num) (sc (by norm_num) (by norm_num)) q2 (by
      push_cast
      refine q1.trans ?_
      unfold eps
      norm_num)
    show Acc _ (rounded _ (if L.tan τ = 0 then _ else Fp.fin (τ / L.tan τ))) _ _
    rw [if_neg T0']
    exact r
  have d := Acc.sub hR.rat (k := 24) (by norm_num) (by norm_num) (by norm_num) one Q (sc (by norm_num) (by norm_num))
  have i1 : 1 / 8 ≤ 5 / N := by rw [le_div_iff₀ N0]; linarith
  have i2 : 5 / N ≤ 2 ^ 20 := by rw [div_le_iff₀ N0]; norm_num at n1 ⊢; linarith
  have j1 : 1 / 64 ≤ 5 / N / N := by rw [le_div_iff₀ N0]; linarith
  have j2 : 5 / N / N ≤ 2 ^ 40 := by rw [div_le_iff₀ N0]; norm_num at n1 i2 ⊢; linarith
  norm_num at d
  have r1 := acc_div hR (m := 33) d tA N0 (by unfold eps; norm_num) (by norm_num) (sc (le_trans (by norm_num) i1) (i2.trans (by norm_num)))
  have r2 := acc_div hR (m := 42) r1 tA N0 (by unfold eps; norm_num) (by norm_num) (sc (le_trans (by norm_num) j1) (j2.trans (by norm_num)))
  exact r2.mono (by norm_num) le_rfl

theorem log_entries {p : F3} (hp : Finite p) (h0 : nrm (vals p) ≠ 0) (hb : nrm (vals p) ≤ 4) (i j : Fin 3) : Near (1 / 2 ^ 43) (logDiffMat L p i j) (exactT (vals p) i j) := by
  obtain ⟨t, ht, td, t0, te⟩ := norm3_err hR L.toLib hp (hb.trans (by norm_num))
  have N0 : 0 < nrm (vals p) := lt_of_le_of_ne (nrm_nonneg _) (Ne.symm h0)
  have t0' : (0 : ℝ) ≤ t := by exact_mod_cast t0
  have ab : (Fp.fin t).abs = .fin t := by
    show Fp.fin |t| = _
    rw [abs_of_nonneg t0]
  have E : logDiffMat L p = if Fp.eq (.fin t) (.fin 0) = true then ErDouble.oneD else fun i j =>
      fadd (fun q => R q) (fadd (fun q => R q) (ErDouble.oneD i j) (fmul (fun q => R q) (.fin (1 / 2)) (crossMx p i j))) (scaledSquare L.toSinLib (coefL L (.fin t)) (crossMx p) i j) := by
    unfold logDiffMat
    rw [ht]
  by_cases tz : t = 0
  · rw [E.trans (if_pos (by rw [tz]; rfl))]
    rw [tz] at te
    have n1 : nrm (vals p) ≤ 1 / 2 ^ 60 := by
      rw [Rat.cast_zero, zero_sub, abs_neg, abs_of_pos N0] at te
      norm_num at te ⊢
      linarith
    obtain ⟨h1, h2, h3⟩ := one_entry i j
    refine ⟨h1, h2, ?_⟩
    rw [h3, exactT_entry]
    obtain ⟨x1, x2⟩ := cross_entries (vals p) i j
    have c := coefE_series N0 (n1.trans (by norm_num))
    generalize Kinematics.crossMx (vals p) i j = x at *
    generalize (Kinematics.crossMx (vals p) * Kinematics.crossMx (vals p)) i j = y at *
    generalize nrm (vals p) = N at *
    have NN : N * N ≤ N * 1 := mul_le_mul_of_nonneg_left (n1.trans (by norm_num)) N0.le
    have c1 : |coefE N| ≤ 1 := by
      rw [abs_le] at c ⊢
      norm_num at n1
      constructor <;> linarith [c.1, c.2]
    have m := mul_le_mul c1 x2 (abs_nonneg _) (by norm_num)
    rw [← abs_mul] at m
    rw [abs_le] at m x1 ⊢
    norm_num at n1 ⊢
    constructor <;> linarith [m.1, m.2, x1.1, x1.2]
  rw [E.trans (if_neg (show ¬ Fp.eq (.fin t) (.fin 0) = true by
    show ¬ decide (t = 0) = true
    rwa [decide_eq_true_eq]))]
  cases hs : isSmallD (Fp.fin t).abs
  · -- the closed form
    have tl : (1 / 2 ^ 13 : ℝ) ≤ t := by
      rw [ab] at hs
      have h1 : ¬ t < 1 / 2 ^ 13 := of_decide_eq_false hs
      have h3 : ((1 / 2 ^ 13 : ℚ) : ℝ) ≤ (t : ℝ) := Rat.cast_le.2 (not_lt.1 h1)
      push_cast at h3
      exact h3
    have n1 : 1 / 2 ^ 14 ≤ nrm (vals p) := by
      have := (abs_le.1 te).2
      norm_num at this tl ⊢
      linarith
    obtain ⟨t', ht', -, -, te'⟩ := norm3_rel hR L.toLib hp (hb.trans (by norm_num)) (le_trans (by norm_num) n1)
    have tt : t' = t := by
      rw [ht'] at ht
      injection ht
    subst tt
    have tA : Acc 7 (.fin t') (nrm (vals p)) (nrm (vals p)) := ⟨t', rfl, td, (abs_of_pos N0).le, te'.trans (mul_le_mul_of_nonneg_right (by unfold eps u51; norm_num) N0.le)⟩
    have B := coefL_large hR L tA n1 hb hs
    have e : 5 / nrm (vals p) / nrm (vals p) * (nrm (vals p) * nrm (vals p)) = 5 := by field_simp
    have P := log_parts hR L (by norm_num) hp le_rfl n1 (hb.trans (by norm_num)) B (by rw [e]; norm_num) (by rw [e]) i j
    rw [e] at P
    rw [exactT_entry]
    refine near_of (P.mono (k := 51) (T := 18) (by norm_num) (by linarith)) (by norm_num) (sc (by norm_num) (by norm_num)) ?_
    have e : (1 + eps) ^ 51 - 1 ≤ 52 / 2 ^ 53 := by unfold eps; norm_num
    refine (mul_le_mul_of_nonneg_right e (by norm_num)).trans ?_
    norm_num
  · -- the series
    have hs' : isSmallD (norm3 L.toLib p) = true := by rw [ht, ← ab]; exact hs
    obtain ⟨⟨t', ht', -, te'⟩, n1⟩ := small_bound hR L.toLib hp (hb.trans (by norm_num)) hs'
    have tt : t' = t := by
      rw [ht'] at ht
      injection ht
    subst tt
    have tl : (t' : ℝ) ≤ 1 / 2 ^ 13 := by
      rw [ab] at hs
      have h1 : t' < 1 / 2 ^ 13 := of_decide_eq_true hs
      have h3 : (t' : ℝ) < ((1 / 2 ^ 13 : ℚ) : ℝ) := Rat.cast_lt.2 h1
      push_cast at h3
      exact h3.le
    have A := coefL_small hR L td t0 tl hs
    have P := log_parts hR L (by norm_num) hp (U := 1 / 2) (n1.trans (by norm_num)) (by norm_num) (by norm_num) A (by norm_num) (by norm_num) i j
    have Q := near_of (e := 40 / 2 ^ 53) (P.mono (k := 12) (T := 3) (by norm_num) (by norm_num)) (by norm_num) (sc (by norm_num) (by norm_num)) (by unfold eps; norm_num)
    refine ⟨Q.1, Q.2.1, ?_⟩
    have c := coefE_series N0 (n1.trans (by norm_num))
    obtain ⟨x1, x2⟩ := cross_entries (vals p) i j
    rw [exactT_entry]
    generalize Kinematics.crossMx (vals p) i j = x at *
    generalize (Kinematics.crossMx (vals p) * Kinematics.crossMx (vals p)) i j = y at *
    generalize nrm (vals p) = N at *
    have q3 := Q.2.2
    generalize (fval _ : ℝ) = f at q3 ⊢
    generalize coefE N = β at *
    have tsq : (t' : ℝ) * t' ≤ 1 / 2 ^ 26 := by
      have := mul_le_mul tl tl t0' (by norm_num)
      norm_num at this ⊢
      linarith
    have tsq0 : 0 ≤ (t' : ℝ) * t' := mul_nonneg t0' t0'
    have nsq : N * N ≤ 1 / 8191 * (1 / 8191) := mul_le_mul n1 n1 N0.le (by norm_num)
    rw [show 1 / 12 * (1 + 1 / 60 * (t' : ℝ) * t') = 1 / 12 * (1 + 1 / 60 * ((t' : ℝ) * t')) by ring] at q3
    have d2 : |1 / 12 * (1 + 1 / 60 * ((t' : ℝ) * t')) - β| ≤ 1 / 2 ^ 28 := by
      rw [abs_le] at c ⊢
      norm_num at tsq nsq c ⊢
      constructor <;> linarith [c.1, c.2]
    have m2 := mul_le_mul d2 x2 (abs_nonneg _) (by norm_num)
    rw [← abs_mul] at m2
    rw [abs_le] at m2 q3 ⊢
    norm_num at n1 nsq m2 q3 ⊢
    constructor <;> nlinarith [m2.1, m2.2, q3.1, q3.2]

omit hR in
/-- `M` is, up to 2^-43 in each entry, the inverse of the matrix that maps the rates of a rotation vector to the angular velocity of the frame: it takes the angular velocity to the rates -/
def GoodLog (p : V3) (M : FM3) : Prop := ∃ S T : M3, IsSMatrix (fun q => NormedSpace.exp (-Kinematics.crossMx q)) S p ∧ S * T = 1 ∧ T * S = 1 ∧ ∀ i j, Near (1 / 2 ^ 43) (M i j) (T i j)

/-- **C188** For every finite rotation vector that is not zero and not longer than 4, the derivative matrix of the logarithm that the library returns is, up to 2^-43 in each entry, the true one: the inverse of the derivative of the exponential map. -/
theorem C188_logDiffMat (p : F3) (hp : Finite p) (h0 : vals p ≠ 0) (hb : nrm (vals p) ≤ 4) : GoodLog (vals p) (logDiffMat L p) := by
  have n0 : nrm (vals p) ≠ 0 := fun h => h0 (Kinematics.eq_zero_of_norm h)
  have np : 0 < nrm (vals p) := lt_of_le_of_ne (nrm_nonneg _) (Ne.symm n0)
  obtain ⟨e1, e2⟩ := exact_inverse n0 (Real.sin_pos_of_pos_of_lt_pi (by linarith) (by linarith [Real.pi_gt_three])).ne'
  exact ⟨_, _, exact_smatrix n0, e1, e2, log_entries hR L hp n0 hb⟩

omit hR in
theorem exactT_le {p : V3} (h0 : nrm p ≠ 0) (hb : nrm p ≤ 4) (i j : Fin 3) : |exactT p i j| ≤ 8 := by
  have N0 : 0 < nrm p := lt_of_le_of_ne (nrm_nonneg _) (Ne.symm h0)
  obtain ⟨x1, x2⟩ := cross_entries p i j
  rw [exactT_entry]
  have o : |(1 : M3) i j| ≤ 1 := by
    by_cases hij : i = j
    · rw [hij, Matrix.one_apply_eq, abs_one]
    · rw [Matrix.one_apply_ne hij, abs_zero]; norm_num
  generalize Kinematics.crossMx p i j = x at *
  generalize (Kinematics.crossMx p * Kinematics.crossMx p) i j = y at *
  generalize nrm p = N at *
  have s := sin_big (x := N / 2) (by linarith) (by linarith)
  have sp : 0 < Real.sin (N / 2) := by linarith
  have q : |N / 2 * Real.cos (N / 2) / Real.sin (N / 2)| ≤ 5 / 2 := by
    rw [abs_div, abs_mul, abs_of_pos sp, abs_of_pos (by positivity : 0 < N / 2), div_le_iff₀ sp]
    have := mul_le_mul_of_nonneg_left (Real.abs_cos_le_one (N / 2)) (by positivity : 0 ≤ N / 2)
    linarith
  have c : |coefE N| ≤ 7 / 2 / (N * N) := by
    unfold coefE
    rw [div_div, abs_div, abs_of_pos (mul_pos N0 N0)]
    refine div_le_div_of_nonneg_right ?_ (mul_pos N0 N0).le
    rw [abs_le] at q ⊢
    constructor <;> linarith [q.1, q.2]
  have m := mul_le_mul c x2 (abs_nonneg _) (by positivity)
  rw [← abs_mul, div_mul_cancel₀ _ (mul_pos N0 N0).ne'] at m
  rw [abs_le] at o m x1 ⊢
  constructor <;> linarith [o.1, o.2, m.1, m.2, x1.1, x1.2]

/-- a computed product of two computed matrices that are nearly inverse -/
theorem prod_near {A B P : FM3} {S T : M3} (hA : ∀ i j, Near (1 / 2 ^ 43) (A i j) (S i j)) (hB : ∀ i j, Near (1 / 2 ^ 43) (B i j) (T i j)) (hS : ∀ i j, |S i j| ≤ 8) (hT : ∀ i j, |T i j| ≤ 8)
    (h : CovDouble.IsProd (fun q => R q) CovDouble.ks3 A B P) (i j : Fin 3) : Near (1 / 2 ^ 36) (P i j) ((S * T) i j) := by
  have a := vals_acc (B := 9) hA fun i j => by have := hS i j; norm_num; linarith
  have b := vals_acc (B := 9) hB fun i j => by have := hT i j; norm_num; linarith
  have PA := CovDouble.prod_acc hR.rat CovDouble.sum_ks3 a b h (by simp [CovDouble.ks3]) (InR.mono (a := 0) (b := 10) ⟨by norm_num, by norm_num⟩ (by norm_num) (by norm_num))
  have Q := near_of (e := 3000 / 2 ^ 53) ((PA i j).mono (k := 10) (T := 243) (by simp [CovDouble.ks3]) (by simp [CovDouble.ks3]; norm_num)) (by norm_num) (sc (by norm_num) (by norm_num)) (by unfold eps; norm_num)
  refine ⟨Q.1, Q.2.1, ?_⟩
  have W : |(realsOf A * realsOf B) i j - (S * T) i j| ≤ 3 * (17 / 2 ^ 43) := by
    rw [Matrix.mul_apply, Matrix.mul_apply, ← Finset.sum_sub_distrib]
    refine (Finset.abs_sum_le_sum_abs _ _).trans ((Finset.sum_le_card_nsmul _ _ (17 / 2 ^ 43) fun l _ => ?_).trans (by simp))
    have m := (hB l j).2.2
    have w := (hA i l).2.2
    have s8 := hS i l
    have t8 := hT l j
    show |(fval (A i l) : ℝ) * (fval (B l j) : ℝ) - S i l * T l j| ≤ _
    generalize (fval (A i l) : ℝ) = x at *
    generalize (fval (B l j) : ℝ) = u at *
    generalize S i l = y at *
    generalize T l j = v at *
    have ub : |u| ≤ 9 := by
      have := abs_sub_abs_le_abs_sub u v
      norm_num at m
      linarith
    have k1 := mul_le_mul w ub (abs_nonneg _) (by norm_num)
    have k2 := mul_le_mul s8 m (abs_nonneg _) (by norm_num)
    rw [← abs_mul] at k1 k2
    rw [show x * u - y * v = (x - y) * u + y * (u - v) by ring]
    refine (abs_add_le _ _).trans ((add_le_add k1 k2).trans ?_)
    norm_num
  have t := abs_sub_le (fval (P i j) : ℝ) ((realsOf A * realsOf B) i j) ((S * T) i j)
  refine t.trans ((add_le_add Q.2.2 W).trans ?_)
  norm_num

/-- **C188** The computed derivative matrices of the exponential map and of the logarithm are inverse to each other: whichever way round they are multiplied, and in whichever order the products are added up,
the result is finite and within 2^-36 of the identity in each entry. -/
theorem C188_inverse (p : F3) (hp : Finite p) (h0 : vals p ≠ 0) (hb : nrm (vals p) ≤ 4) (P Q : FM3)
    (hP : CovDouble.IsProd (fun q => R q) CovDouble.ks3 (expDiffMat L.toSinLib p) (logDiffMat L p) P)
    (hQ : CovDouble.IsProd (fun q => R q) CovDouble.ks3 (logDiffMat L p) (expDiffMat L.toSinLib p) Q) (i j : Fin 3) :
    Near (1 / 2 ^ 36) (P i j) (if i = j then 1 else 0) ∧ Near (1 / 2 ^ 36) (Q i j) (if i = j then 1 else 0) := by
  have n0 : nrm (vals p) ≠ 0 := fun h => h0 (Kinematics.eq_zero_of_norm h)
  have np : 0 < nrm (vals p) := lt_of_le_of_ne (nrm_nonneg _) (Ne.symm n0)
  obtain ⟨e1, e2⟩ := exact_inverse n0 (Real.sin_pos_of_pos_of_lt_pi (by linarith) (by linarith [Real.pi_gt_three])).ne'
  have E := expDiff_entries hR L.toSinLib hp n0 (hb.trans (by norm_num))
  have F := log_entries hR L hp n0 hb
  have a := prod_near hR E F (exact_le n0) (exactT_le n0 hb) hP i j
  have b := prod_near hR F E (exactT_le n0 hb) (exact_le n0) hQ i j
  rw [e1, Matrix.one_apply] at a
  rw [e2, Matrix.one_apply] at b
  exact ⟨a, b⟩

/-- **C188** For the zero vector it is exactly the identity. -/
theorem C188_zero (p : F3) (hp : ∀ i, p i = .fin 0) : logDiffMat L p = ErDouble.oneD := by
  have m : ∀ i, fmul (fun q => R q) (p i) (p i) = .fin 0 := by
    intro i
    rw [hp i]
    show rounded (fun q => R q) (.fin (0 * 0)) = _
    rw [mul_zero]
    exact RvInv.round_zero hR
  have n : norm3 L.toLib p = .fin 0 := by
    unfold norm3
    rw [RvInv.sum_zero hR (L.sum3_sum _ _ _) (by simp [m])]
    unfold Verif.NumericDouble.fsqrt
    simp only
    rw [if_neg (lt_irrefl _), Rat.cast_zero, Real.sqrt_zero]
    have : R ((0 : ℚ) : ℝ) = 0 := hR.rat.fix (x := 0) (by simpa using isDouble_int 0 (by norm_num))
    rw [Rat.cast_zero] at this
    rw [this]
  show (if Fp.eq (norm3 L.toLib p) (.fin 0) = true then ErDouble.oneD else _) = ErDouble.oneD
  exact if_pos (by rw [n]; rfl)

end

/-- the library with correctly rounded functions -/
noncomputable def TanSinLib.rounded (b : Bool) : TanSinLib fun q => rndEvenReal q where
  toSinLib := SinLib.rounded b
  tan := TanLib.rounded.tan
  tan_double := TanLib.rounded.tan_double
  tan_err := TanLib.rounded.tan_err

/-- the hypotheses are met, with the rounding of the machine: a turn by three radians about a skew axis -/
example (b : Bool) : GoodLog (vals turnU.2) (logDiffMat (TanSinLib.rounded b) turnU.2) :=
  C188_logDiffMat isRndR_rndEvenReal _ turnU.2 turnU_finite.1 turn_vec.1 (by rw [turnU_norm]; norm_num)

/-- the two products exist, and are near the identity -/
example (b : Bool) : ∃ P Q : FM3, ∀ i j, Near (1 / 2 ^ 36) (P i j) (if i = j then 1 else 0) ∧ Near (1 / 2 ^ 36) (Q i j) (if i = j then 1 else 0) := by
  obtain ⟨P, hP⟩ := CovDouble.prod_exists (fun q => rndEvenReal q) (ks := CovDouble.ks3) (by simp [CovDouble.ks3]) (expDiffMat (TanSinLib.rounded b).toSinLib turnU.2) (logDiffMat (TanSinLib.rounded b) turnU.2)
  obtain ⟨Q, hQ⟩ := CovDouble.prod_exists (fun q => rndEvenReal q) (ks := CovDouble.ks3) (by simp [CovDouble.ks3]) (logDiffMat (TanSinLib.rounded b) turnU.2) (expDiffMat (TanSinLib.rounded b).toSinLib turnU.2)
  exact ⟨P, Q, C188_inverse isRndR_rndEvenReal _ turnU.2 turnU_finite.1 turn_vec.1 (by rw [turnU_norm]; norm_num) P Q hP hQ⟩

end Verif.LogDiff
