import Verif.Kinematics.ErRate
import Verif.Kinematics.ErDoubleProps
import Verif.Kinematics.RateDoubleProps

/-!
# C183: angular velocities of Euler-Rodriguez parameters in doubles
-/

namespace Verif.ErRate

open Verif.Common Verif.KinematicsDouble Verif.ErDouble Verif.RateDouble Verif.EulerDouble Verif.RotVecDouble
open Verif.Kinematics (V3 V6 M3 M36 IsSMatrix IsJacobian TurnsBy head3 tail3 v6 mv3)

local notation "nrm" => Kinematics.norm

section
variable {R : ℝ → ℚ} (hR : IsRndR R) (L : Lib fun q => R q)

theorem scale_mk {a b : ℤ} {S : ℝ} (h1 : (2 : ℝ) ^ a ≤ S) (h2 : S ≤ 2 ^ b) (ha : -900 ≤ a) (hb : b ≤ 900) : Scale S :=
  ⟨(zpow_le_zpow_right₀ (by norm_num) ha).trans h1, h2.trans (zpow_le_zpow_right₀ (by norm_num) hb)⟩

theorem two_mul_le {n : ℤ} : (2 : ℝ) * 2 ^ n = 2 ^ (n + 1) := by rw [zpow_add₀ (by norm_num), zpow_one, mul_comm]

/-- the denominator is not too large -/
theorem den_big {p : F3} (hb : nrm (vals p) ≤ 2 ^ (100 : ℤ)) : 1 ≤ 1 + Kinematics.sqNorm (vals p) ∧ 1 + Kinematics.sqNorm (vals p) ≤ 2 ^ (201 : ℤ) := by
  have Q := big_sq hb
  have q0 := Kinematics.sqNorm_nonneg (vals p)
  refine ⟨by linarith, ?_⟩
  have e := two_mul_le (n := 200)
  norm_num at Q e ⊢
  linarith

include hR

/-- the reciprocal of the denominator -/
theorem recip_acc {p : F3} (hp : Finite p) (hb : nrm (vals p) ≤ 2 ^ (100 : ℤ)) :
    Acc 9 (recip L p) (1 / (1 + Kinematics.sqNorm (vals p))) (1 / (1 + Kinematics.sqNorm (vals p))) := by
  have Q := big_sq hb
  have q0 := Kinematics.sqNorm_nonneg (vals p)
  obtain ⟨N1, N2⟩ := den_big hb
  have qk : ∀ k, |vals p k * vals p k| ≤ Kinematics.sqNorm (vals p) := by
    intro k
    rw [abs_of_nonneg (mul_self_nonneg _), Kinematics.sq3]
    have := mul_self_nonneg (vals p 0)
    have := mul_self_nonneg (vals p 1)
    have := mul_self_nonneg (vals p 2)
    fin_cases k <;> simp <;> linarith
  obtain ⟨s, hs, se⟩ := dot3_err hR L hp hp (fun k => (qk k).trans (Q.trans (zpow_le_zpow_right₀ (by norm_num) (by norm_num))))
  rw [abs_of_nonneg (mul_self_nonneg (vals p 0)), abs_of_nonneg (mul_self_nonneg (vals p 1)), abs_of_nonneg (mul_self_nonneg (vals p 2)), ← Kinematics.sq3] at se
  obtain ⟨q, hq⟩ : ∃ q, q = Kinematics.sqNorm (vals p) := ⟨_, rfl⟩
  rw [← hq] at Q q0 se N1 N2 ⊢
  obtain ⟨N, hN⟩ : ∃ N, N = 1 + q := ⟨_, rfl⟩
  rw [← hN] at N1 N2 ⊢
  have N0 : 0 < N := by linarith
  have scN : Scale N := scale_mk (a := 0) (b := 201) (by simpa using N1) N2 (by norm_num) (by norm_num)
  have e6 : 6 / 2 ^ 53 ≤ (1 + eps) ^ 6 - 1 := by unfold eps; norm_num
  have w := Acc.round hR.rat (m := 6) (z := 1 + s) (by norm_num) scN (abs_of_pos N0).le (by
    refine le_trans ?_ (mul_le_mul_of_nonneg_right e6 N0.le)
    rw [hN]
    push_cast
    rw [show (1 : ℝ) + s - (1 + q) = s - q by ring]
    refine se.trans ?_
    norm_num
    linarith)
  obtain ⟨w, ew, wd, -, we⟩ := w
  have e7 : (1 + eps) ^ (6 + 1) - 1 ≤ 71 / 10 / 2 ^ 53 := by unfold eps; norm_num
  have we' := we.trans (mul_le_mul_of_nonneg_right e7 N0.le)
  have wl : N * (99 / 100) ≤ w := by
    have := (abs_le.1 we').1
    norm_num at this ⊢
    linarith
  have wp : (0 : ℝ) < w := by linarith
  have w0 : w ≠ 0 := by rintro rfl; simp at wp
  have scr : Scale (1 / N) := by
    refine scale_mk (a := -201) (b := 0) ?_ ?_ (by norm_num) (by norm_num)
    · rw [zpow_neg, ← one_div]
      exact one_div_le_one_div_of_le N0 N2
    · rw [zpow_zero, div_le_one N0]; exact N1
  have e8 : 72 / 10 / 2 ^ 53 ≤ (1 + eps) ^ 8 - 1 := by unfold eps; norm_num
  have r := Acc.round hR.rat (m := 8) (z := 1 / w) (x := 1 / N) (by norm_num) scr (abs_of_pos (by positivity)).le (by
    refine le_trans ?_ (mul_le_mul_of_nonneg_right e8 (by positivity))
    push_cast
    rw [show (1 : ℝ) / w - 1 / N = (N - w) / w * (1 / N) by field_simp, abs_mul, abs_of_pos (by positivity : 0 < 1 / N)]
    refine mul_le_mul_of_nonneg_right ?_ (by positivity)
    rw [abs_div, abs_of_pos wp, div_le_iff₀ wp, abs_sub_comm]
    norm_num at we' ⊢
    linarith)
  unfold recip
  rw [hs]
  show Acc 9 (fdiv _ _ (rounded _ (Fp.fin (1 + s)))) _ _
  rw [ew]
  show Acc 9 (rounded _ (if w = 0 then _ else Fp.fin (1 / w))) _ _
  rw [if_neg w0]
  exact r

theorem twice_acc {p : F3} (hp : Finite p) (hb : nrm (vals p) ≤ 2 ^ (100 : ℤ)) :
    Acc 10 (twice L p) (2 * (1 / (1 + Kinematics.sqNorm (vals p)))) (2 * (1 / (1 + Kinematics.sqNorm (vals p)))) := by
  obtain ⟨N1, N2⟩ := den_big hb
  have r := recip_acc hR L hp hb
  obtain ⟨N, hN⟩ : ∃ N, N = 1 + Kinematics.sqNorm (vals p) := ⟨_, rfl⟩
  rw [← hN] at N1 N2 r ⊢
  have N0 : 0 < N := by linarith
  have two := acc_num (q := 2) 2 (by norm_num) (by norm_num) (S := 2) (by norm_num)
  norm_num only [Rat.cast_ofNat] at two
  refine Acc.mul hR.rat (by norm_num) two r (scale_mk (a := -201) (b := 1) ?_ ?_ (by norm_num) (by norm_num))
  · rw [zpow_neg, ← one_div]
    have := one_div_le_one_div_of_le N0 N2
    have : 0 < 1 / N := by positivity
    linarith
  · have : 1 / N ≤ 1 := by rw [div_le_one N0]; exact N1
    rw [zpow_one]; linarith

omit hR in
theorem cross_acc {p : F3} (hp : Finite p) (i j : Fin 3) : Acc 0 (crossMx p i j) (Kinematics.crossMx (vals p) i j) ((1 + Kinematics.sqNorm (vals p)) / 2) := by
  obtain ⟨h1, h2⟩ := cross_fin hp i j
  have := (show Finite (fun _ : Fin 3 => crossMx p i j) from fun _ => h1).acc (a := fun _ => (1 + Kinematics.sqNorm (vals p)) / 2) (fun _ => by
    show |(fval (crossMx p i j) : ℝ)| ≤ _
    rw [h2]; exact (cross_le (vals p) i j).1) 0
  have e : vals (fun _ : Fin 3 => crossMx p i j) 0 = Kinematics.crossMx (vals p) i j := h2
  rw [e] at this
  exact this

/-- the entries of `I - [p]×` -/
theorem diff_acc {p : F3} (hp : Finite p) (hb : nrm (vals p) ≤ 2 ^ (100 : ℤ)) (i j : Fin 3) :
    Acc 1 (fsub (fun q => R q) (ErDouble.oneD i j) (crossMx p i j)) ((1 - Kinematics.crossMx (vals p)) i j) (1 + Kinematics.sqNorm (vals p)) := by
  obtain ⟨N1, N2⟩ := den_big hb
  have c := cross_acc hp i j
  obtain ⟨f1, f2⟩ := cross_fin hp i j
  obtain ⟨-, -, cd⟩ := cross_le (vals p) i j
  obtain ⟨N, hN⟩ : ∃ N, N = 1 + Kinematics.sqNorm (vals p) := ⟨_, rfl⟩
  rw [← hN] at N1 N2 c ⊢
  have sc : ∀ x, x = N → Scale x := fun x h => h ▸ scale_mk (a := 0) (b := 201) (by simpa using N1) N2 (by norm_num) (by norm_num)
  rw [Matrix.sub_apply]
  by_cases hij : i = j
  · have c' : Acc 0 (crossMx p i j) (Kinematics.crossMx (vals p) i j) 0 := by
      obtain ⟨q, e, d, -, b⟩ := c
      refine ⟨q, e, d, by rw [cd hij, abs_zero], ?_⟩
      simpa using b
    have := Acc.sub hR.rat le_rfl le_rfl (by norm_num) (CovDouble.acc_one N1) c' (sc (N + 0) (add_zero N))
    rw [add_zero] at this
    rw [hij] at this ⊢
    rw [Matrix.one_apply_eq]
    simpa [ErDouble.oneD] using this
  · have := Acc.sub hR.rat le_rfl le_rfl (by norm_num) (CovDouble.acc_zero (S := N / 2) (by linarith)) c (sc (N / 2 + N / 2) (by ring))
    rw [Matrix.one_apply_ne hij]
    simpa [ErDouble.oneD, hij] using this

/-- the entries of the matrix that takes the rates to the velocity -/
theorem velS_acc {p : F3} (hp : Finite p) (hb : nrm (vals p) ≤ 2 ^ (100 : ℤ)) (i j : Fin 3) : Acc 12 (velS L p i j) (Kinematics.erS (vals p) i j) 2 := by
  obtain ⟨N1, -⟩ := den_big hb
  have N0 : 0 < 1 + Kinematics.sqNorm (vals p) := by linarith
  have e : 2 * (1 / (1 + Kinematics.sqNorm (vals p))) * (1 + Kinematics.sqNorm (vals p)) = 2 := by field_simp
  have := Acc.mul hR.rat (by norm_num) (twice_acc hR L hp hb) (diff_acc hR hp hb i j) (by
    rw [e]
    exact scale_mk (a := 0) (b := 1) (by norm_num) (by norm_num) (by norm_num) (by norm_num))
  rw [e] at this
  unfold Kinematics.erS
  rw [Matrix.smul_apply, smul_eq_mul, show (2 : ℝ) / (1 + Kinematics.sqNorm (vals p)) = 2 * (1 / (1 + Kinematics.sqNorm (vals p))) by ring]
  exact this

/-- a matrix with entries up to `B` times a vector with entries up to `W` -/
theorem mulVec_acc {k : ℕ} (hk : k ≤ 90) {B W : ℝ} (h1 : 2 ^ (-900 : ℤ) ≤ B * W) (h2 : B * W ≤ 2 ^ (800 : ℤ)) {M : FM3} {S : M3} (hM : ∀ i j, Acc k (M i j) (S i j) B) {v : F3} {v' : V3} (hv : ∀ i, Acc 0 (v i) (v' i) W) (i : Fin 3) :
    Acc (k + 3) (mulVec L M v i) (S.mulVec v' i) (3 * (B * W)) := by
  have sc : Scale (B * W) := ⟨h1, h2.trans (zpow_le_zpow_right₀ (by norm_num) (by norm_num))⟩
  have t := fun j => Acc.mul hR.rat (by omega) (hM i j) (hv j) sc
  have s := (L.sum3_sum (fmul (fun q => R q) (M i 0) (v 0)) (fmul (fun q => R q) (M i 1) (v 1)) (fmul (fun q => R q) (M i 2) (v 2))).acc hR.rat
    (.cons (t 0) (.cons (t 1) (.cons (t 2) .nil))) (by simp only [List.length_cons, List.length_nil]; omega) ⟨h1, h2⟩
  rw [mv3]
  have e : [S i 0 * v' 0, S i 1 * v' 1, S i 2 * v' 2].sum = S i 0 * v' 0 + S i 1 * v' 1 + S i 2 * v' 2 := by simp only [List.sum_cons, List.sum_nil]; ring
  rw [e] at s
  exact_mod_cast s

/-- `-4 p/(1 + |p|²)²` -/
theorem row_acc {p : F3} (hp : Finite p) (hb : nrm (vals p) ≤ 2 ^ (100 : ℤ)) (j : Fin 3) :
    Acc 21 (row L p j) (-4 * (1 / (1 + Kinematics.sqNorm (vals p))) * (1 / (1 + Kinematics.sqNorm (vals p))) * vals p j) (2 * (1 / (1 + Kinematics.sqNorm (vals p)))) := by
  obtain ⟨N1, N2⟩ := den_big hb
  have r := recip_acc hR L hp hb
  have P : Acc 0 (p j) (vals p j) ((1 + Kinematics.sqNorm (vals p)) / 2) := by
    refine hp.acc (a := fun _ => (1 + Kinematics.sqNorm (vals p)) / 2) (fun k => ?_) j
    have h1 : vals p k * vals p k ≤ Kinematics.sqNorm (vals p) := by
      have := mul_self_nonneg (vals p 0)
      have := mul_self_nonneg (vals p 1)
      have := mul_self_nonneg (vals p 2)
      rw [Kinematics.sq3]
      fin_cases k <;> simp <;> linarith
    have h2 := abs_mul_abs_self (vals p k)
    nlinarith [mul_self_nonneg (|vals p k| - 1)]
  obtain ⟨N, hN⟩ : ∃ N, N = 1 + Kinematics.sqNorm (vals p) := ⟨_, rfl⟩
  rw [← hN] at N1 N2 r P ⊢
  have N0 : 0 < N := by linarith
  have i1 : 1 / N ≤ 1 := by rw [div_le_one N0]; exact N1
  have i2 : (2 : ℝ) ^ (-201 : ℤ) ≤ 1 / N := by
    rw [zpow_neg, ← one_div]
    exact one_div_le_one_div_of_le N0 N2
  obtain ⟨ρ, hρ⟩ : ∃ ρ, ρ = 1 / N := ⟨_, rfl⟩
  have ρN : ρ * N = 1 := by rw [hρ]; field_simp
  rw [← hρ] at r i1 i2 ⊢
  have ρ0 : 0 < ρ := lt_of_lt_of_le (by positivity) i2
  have i3 : (2 : ℝ) ^ (-402 : ℤ) ≤ ρ * ρ := by
    have := mul_le_mul i2 i2 (by positivity) ρ0.le
    rwa [← zpow_add₀ (by norm_num)] at this
  have i4 : ρ * ρ ≤ 1 := by nlinarith
  have f4 := acc_num (q := -4) (-4) (by norm_num) (by norm_num) (S := 4) (by norm_num)
  rw [show ((-4 : ℚ) : ℝ) = -4 by norm_num] at f4
  have a1 := Acc.mul hR.rat (by norm_num) f4 r (scale_mk (a := -201) (b := 2) (by linarith) (by norm_num; linarith) (by norm_num) (by norm_num))
  have a2 := Acc.mul hR.rat (by norm_num) a1 r (scale_mk (a := -402) (b := 2) (by
    rw [mul_assoc]
    have : 0 < ρ * ρ := by positivity
    linarith) (by rw [mul_assoc]; norm_num; linarith) (by norm_num) (by norm_num))
  have e : 4 * ρ * ρ * (N / 2) = 2 * ρ := by
    have : 4 * ρ * ρ * (N / 2) = 2 * ρ * (ρ * N) := by ring
    rw [this, ρN, mul_one]
  have a3 := Acc.mul hR.rat (by norm_num) a2 P (by
    rw [e]
    exact scale_mk (a := -201) (b := 1) (by linarith) (by norm_num; linarith) (by norm_num) (by norm_num))
  rw [e] at a3
  exact a3

omit hR in
/-- the computed velocity and Jacobian `r` are, up to 91/2^53 and 190/2^53 of `W`, those of the parametrisation `f` with parameters `p` and rates `pdot`: `ω x` is the angular velocity for the parameters `head3 x` and the rates
`tail3 x` -/
def GoodVelocity (f : V3 → M3) (p pdot : V3) (W : ℝ) (r : F3 × FM36) : Prop :=
  ∃ ω : V6 → V3, ∃ J : M36,
    (∀ (c : ℝ → V3) (v : V3), (∀ i, HasDerivAt (fun s => c s i) (v i) 0) → TurnsBy (fun s => f (c s)) (ω (v6 (c 0) v))) ∧ IsJacobian ω J (v6 p pdot) ∧
      (∀ i, Near (91 / 2 ^ 53 * W) (r.1 i) (ω (v6 p pdot) i)) ∧ (∀ i j, Near (190 / 2 ^ 53 * W) (r.2 i (.inl j)) (J i (.inl j))) ∧ ∀ i j, Near (25 / 2 ^ 53) (r.2 i (.inr j)) (J i (.inr j))

/-- **C183** For every finite Euler-Rodriguez vector up to 2^100 and every three rates up to `W`, between 2^-600 and 2^500, the computed angular velocity is finite and within 91/2^53 of `W` of the true one; the computed
Jacobian's derivative by the parameters is within 190/2^53 of `W`, the derivative by the rates within 25/2^53. -/
theorem C183_velocity (p pdot : F3) (hp : Finite p) (hb : nrm (vals p) ≤ 2 ^ (100 : ℤ)) (hd : Finite pdot) (W : ℝ) (h1 : 2 ^ (-600 : ℤ) ≤ W) (h2 : W ≤ 2 ^ (500 : ℤ)) (hW : ∀ i, |vals pdot i| ≤ W) :
    GoodVelocity Kinematics.erMatrix (vals p) (vals pdot) W (erVelocity L p pdot) := by
  have W0 : 0 < W := lt_of_lt_of_le (by positivity) h1
  have v := hd.acc (a := fun _ => W) hW
  have mk : ∀ {x : ℝ}, 2 ^ (-850 : ℤ) ≤ x → x ≤ 2 ^ (750 : ℤ) → Scale x := fun a b => scale_mk a b (by norm_num) (by norm_num)
  have big : ∀ {c : ℝ} {x : ℝ}, 0 ≤ c → c ≤ 16 → x ≤ c * W → x ≤ 2 ^ (750 : ℤ) := by
    intro c x c0 c1 h
    have e : (2 : ℝ) ^ (504 : ℤ) = 16 * 2 ^ (500 : ℤ) := by rw [show (504 : ℤ) = 4 + 500 from rfl, zpow_add₀ (by norm_num)]; norm_num
    have l : (2 : ℝ) ^ (504 : ℤ) ≤ 2 ^ (750 : ℤ) := zpow_le_zpow_right₀ (by norm_num) (by norm_num)
    have : c * W ≤ 16 * 2 ^ (500 : ℤ) := mul_le_mul c1 h2 W0.le (by norm_num)
    exact h.trans (this.trans (e ▸ l))
  have small : ∀ {c : ℝ} {x : ℝ}, 1 ≤ c → c * W ≤ x → 2 ^ (-850 : ℤ) ≤ x := by
    intro c x c1 h
    have l : (2 : ℝ) ^ (-850 : ℤ) ≤ 2 ^ (-600 : ℤ) := zpow_le_zpow_right₀ (by norm_num) (by norm_num)
    exact l.trans (h1.trans ((le_mul_of_one_le_left W0.le c1).trans h))
  have scW : ∀ {c : ℝ}, 1 ≤ c → c ≤ 16 → Scale (c * W) := fun a b => mk (small a le_rfl) (big (by linarith) b le_rfl)
  obtain ⟨-, -, -, -, hJ⟩ := Kinematics.C61_rodriguez (vals p) (vals pdot)
  refine ⟨_, _, turns fun p => (Kinematics.C61_rodriguez p 0).2.1, hJ, fun i => ?_, fun i j => ?_, fun i j => ?_⟩
  · have a := mulVec_acc hR L (by norm_num) (B := 2) (W := W) ((zpow_le_zpow_right₀ (by norm_num) (by norm_num)).trans (small (by norm_num : (1 : ℝ) ≤ 2) le_rfl))
      ((big (by norm_num : (0 : ℝ) ≤ 2) (by norm_num) le_rfl).trans (zpow_le_zpow_right₀ (by norm_num) (by norm_num))) (velS_acc hR L hp hb) v i
    rw [← mul_assoc] at a
    refine near_of a (by norm_num) (scW (by norm_num) (by norm_num)) ?_
    have e15 : (1 + eps) ^ (12 + 3) - 1 ≤ 151 / 10 / 2 ^ 53 := by unfold eps; norm_num
    refine (mul_le_mul_of_nonneg_right e15 (by positivity)).trans ?_
    norm_num
    linarith
  · obtain ⟨N1, N2⟩ := den_big hb
    have f := twice_acc hR L hp hb
    have rw' := row_acc hR L hp hb j
    have cr := fun a b => cross_acc hp a b
    have cw : Acc 0 (crossMx pdot i j) (Kinematics.crossMx (vals pdot) i j) W := by
      have n := hd.acc (a := fun _ => W) hW
      have z := CovDouble.acc_zero W0.le
      fin_cases i <;> fin_cases j <;> first | exact z | exact n _ | exact (n _).neg
    obtain ⟨N, hN⟩ : ∃ N, N = 1 + Kinematics.sqNorm (vals p) := ⟨_, rfl⟩
    have J : (Kinematics.erVelocity (vals p) (vals pdot)).2 i (.inl j) = vals pdot i * (-4 * (1 / N) * (1 / N) * vals p j) -
        (Kinematics.crossMx (vals p)).mulVec (vals pdot) i * (-4 * (1 / N) * (1 / N) * vals p j) + 2 * (1 / N) * Kinematics.crossMx (vals pdot) i j := by
      rw [hN]
      simp [Kinematics.erVelocity, Kinematics.halves, Matrix.vecMulVec_apply]
      ring
    rw [J]
    rw [← hN] at N1 N2 f rw' cr
    have N0 : 0 < N := by linarith
    have i1 : 1 / N ≤ 1 := by rw [div_le_one N0]; exact N1
    have i2 : (2 : ℝ) ^ (-201 : ℤ) ≤ 1 / N := by
      rw [zpow_neg, ← one_div]
      exact one_div_le_one_div_of_le N0 N2
    have ρN : 1 / N * N = 1 := by field_simp
    obtain ⟨ρ, hρ⟩ : ∃ ρ, ρ = 1 / N := ⟨_, rfl⟩
    rw [← hρ] at i1 i2 f rw' ρN ⊢
    have ρ0 : 0 < ρ := lt_of_lt_of_le (by positivity) i2
    have lo : (2 : ℝ) ^ (-850 : ℤ) ≤ ρ * W := by
      have := mul_le_mul i2 h1 (by positivity) ρ0.le
      rw [← zpow_add₀ (by norm_num)] at this
      exact (zpow_le_zpow_right₀ (by norm_num) (by norm_num)).trans this
    have ρW : ρ * W ≤ W := by nlinarith
    have ρW0 : 0 < ρ * W := by positivity
    have t1 := (Acc.mul hR.rat (by norm_num) (v i) rw' (mk (by linarith [mul_comm ρ W]) (big (c := 2) (by norm_num) (by norm_num) (by linarith [mul_comm ρ W])))).mono (k := 25) (T := 2 * W) (by norm_num) (by linarith [mul_comm ρ W])
    have NW : N * W ≤ 2 ^ (701 : ℤ) := by
      have := mul_le_mul N2 h2 W0.le (by positivity)
      rwa [← zpow_add₀ (by norm_num)] at this
    have NW1 : W ≤ N * W := by nlinarith
    have NW2 : N / 2 * W = N * W / 2 := by ring
    have NW3 : (2 : ℝ) ^ (-850 : ℤ) ≤ N / 2 * W := by
      have h : (2 : ℝ) ^ (-600 : ℤ) = 2 * 2 ^ (-601 : ℤ) := by rw [two_mul_le]; norm_num
      have l : (2 : ℝ) ^ (-850 : ℤ) ≤ 2 ^ (-601 : ℤ) := zpow_le_zpow_right₀ (by norm_num) (by norm_num)
      rw [NW2]
      refine l.trans ?_
      have h3 := h1.trans NW1
      rw [h] at h3
      generalize (2 : ℝ) ^ (-601 : ℤ) = K at h3 ⊢
      linarith
    have NW4 : N / 2 * W ≤ 2 ^ (750 : ℤ) := by
      have l : (2 : ℝ) ^ (701 : ℤ) ≤ 2 ^ (750 : ℤ) := zpow_le_zpow_right₀ (by norm_num) (by norm_num)
      have h0 : 0 < N * W := by positivity
      rw [NW2]
      exact (half_le_self h0.le).trans (NW.trans l)
    have cp := mulVec_acc hR L (by norm_num) (B := N / 2) (W := W) ((zpow_le_zpow_right₀ (by norm_num) (by norm_num)).trans NW3) (NW4.trans (zpow_le_zpow_right₀ (by norm_num) (by norm_num))) cr v i
    have e3 : 3 * (N / 2 * W) * (2 * ρ) = 3 * W := by
      have : 3 * (N / 2 * W) * (2 * ρ) = 3 * W * (ρ * N) := by ring
      rw [this, ρN, mul_one]
    have t2 := Acc.mul hR.rat (by norm_num) cp rw' (by rw [e3]; exact scW (by norm_num) (by norm_num))
    rw [e3] at t2
    have d := Acc.sub hR.rat (k := 25) le_rfl le_rfl (by norm_num) t1 t2 (by rw [← add_mul]; exact scW (by norm_num) (by norm_num))
    have t3 := (Acc.mul hR.rat (by norm_num) f cw (mk (by linarith) (big (c := 2) (by norm_num) (by norm_num) (by linarith)))).mono (k := 26) (T := 2 * W) (by norm_num) (by linarith)
    have s := Acc.add hR.rat (k := 26) le_rfl le_rfl (by norm_num) d t3 (by rw [← add_mul, ← add_mul]; exact scW (by norm_num) (by norm_num))
    rw [← add_mul, ← add_mul] at s
    refine near_of s (by norm_num) (scW (by norm_num) (by norm_num)) ?_
    have e27 : (1 + eps) ^ (26 + 1) - 1 ≤ 271 / 10 / 2 ^ 53 := by unfold eps; norm_num
    refine (mul_le_mul_of_nonneg_right e27 (by positivity)).trans ?_
    norm_num
    linarith
  · have J : (Kinematics.erVelocity (vals p) (vals pdot)).2 i (.inr j) = Kinematics.erS (vals p) i j := by
      simp [Kinematics.erVelocity, Kinematics.halves, Kinematics.erS]
      left
      ring
    rw [J]
    refine near_of (velS_acc hR L hp hb i j) (by norm_num) (scale_mk (a := 0) (b := 1) (by norm_num) (by norm_num) (by norm_num) (by norm_num)) ?_
    have e12 : (1 + eps) ^ 12 - 1 ≤ 121 / 10 / 2 ^ 53 := by unfold eps; norm_num
    refine (mul_le_mul_of_nonneg_right e12 (by norm_num)).trans ?_
    norm_num

/-- **C183** The matrix that multiplies the rates is, up to 44/2^53, the one of `parametersToSMatrix`, although the factor is computed in another way. -/
theorem C183_agree (p : F3) (hp : Finite p) (hb : nrm (vals p) ≤ 2 ^ (100 : ℤ)) (pdot : F3) (i j : Fin 3) :
    |(fval ((erVelocity L p pdot).2 i (.inr j)) : ℝ) - fval (ErDouble.erS L p i j)| ≤ 44 / 2 ^ 53 := by
  have a : Near (25 / 2 ^ 53) ((erVelocity L p pdot).2 i (.inr j)) (Kinematics.erS (vals p) i j) := by
    refine near_of (velS_acc hR L hp hb i j) (by norm_num) (scale_mk (a := 0) (b := 1) (by norm_num) (by norm_num) (by norm_num) (by norm_num)) ?_
    have e12 : (1 + eps) ^ 12 - 1 ≤ 121 / 10 / 2 ^ 53 := by unfold eps; norm_num
    refine (mul_le_mul_of_nonneg_right e12 (by norm_num)).trans ?_
    norm_num
  obtain ⟨-, -, b⟩ := erS_err hR L hp hb i j
  obtain ⟨q, -, -, c, -⟩ := velS_acc hR L hp hb i j
  have d := abs_sub_le (fval ((erVelocity L p pdot).2 i (.inr j)) : ℝ) (Kinematics.erS (vals p) i j) (fval (ErDouble.erS L p i j))
  rw [abs_sub_comm (Kinematics.erS (vals p) i j)] at d
  have a' := a.2.2
  have b' : |(fval (ErDouble.erS L p i j) : ℝ) - Kinematics.erS (vals p) i j| ≤ 9 / 2 ^ 53 * |Kinematics.erS (vals p) i j| + 1 / 2 ^ 200 := b
  norm_num at a' b' d c ⊢
  linarith

end

theorem two_ok : (2 : ℝ) ^ (-600 : ℤ) ≤ 2 ∧ (2 : ℝ) ≤ 2 ^ (500 : ℤ) := by
  refine ⟨(zpow_le_one_of_nonpos₀ (by norm_num) (by norm_num)).trans (by norm_num), ?_⟩
  calc (2 : ℝ) = 2 ^ (1 : ℤ) := by norm_num
    _ ≤ _ := zpow_le_zpow_right₀ (by norm_num) (by norm_num)

/-- the hypotheses are met, with the rounding of the machine: a turn about a skew axis and three rates up to 2 -/
example : GoodVelocity Kinematics.erMatrix (vals turnU.2) (vals rates) 2 (erVelocity TanLib.rounded.toLib turnU.2 rates) :=
  C183_velocity isRndR_rndEvenReal _ turnU.2 rates turnU_finite.1 turnU_big rates_ok.1 2 two_ok.1 two_ok.2 rates_ok.2

example (i j : Fin 3) : |(fval ((erVelocity TanLib.rounded.toLib turnU.2 rates).2 i (.inr j)) : ℝ) - fval (ErDouble.erS TanLib.rounded.toLib turnU.2 i j)| ≤ 44 / 2 ^ 53 :=
  C183_agree isRndR_rndEvenReal _ turnU.2 turnU_finite.1 turnU_big rates i j

end Verif.ErRate
