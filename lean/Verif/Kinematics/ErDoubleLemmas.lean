import Verif.Kinematics.ErDouble
import Verif.Kinematics.RotVecDoubleProps

/-!
# Lemmas for C178: the errors of the factor, the square and the entries
-/

namespace Verif.ErDouble

open Verif.Common Verif.KinematicsDouble Verif.EulerDouble Verif.RotVecDouble
open Verif.Kinematics (V3 V4 M3)

local notation "nrm" => Kinematics.norm

section
variable {R : ℝ → ℚ} (hR : IsRndR R) (L : Lib fun q => R q)
include hR

/-- the scalar product of two vectors -/
theorem dot3_err {a b : F3} (ha : Finite a) (hb : Finite b) (h : ∀ i, |vals a i * vals b i| ≤ 2 ^ (220 : ℤ)) :
    ∃ s : ℚ, L.sum3 (fmul (fun q => R q) (a 0) (b 0)) (fmul (fun q => R q) (a 1) (b 1)) (fmul (fun q => R q) (a 2) (b 2)) = .fin s ∧
      |(s : ℝ) - (vals a 0 * vals b 0 + vals a 1 * vals b 1 + vals a 2 * vals b 2)| ≤
        5 / 2 ^ 53 * (|vals a 0 * vals b 0| + |vals a 1 * vals b 1| + |vals a 2 * vals b 2|) + 1 / 2 ^ 160 := by
  obtain ⟨x, hx⟩ : ∃ x : V3, x = fun i => vals a i * vals b i := ⟨_, rfl⟩
  have hxi : ∀ i, vals a i * vals b i = x i := fun i => by rw [hx]
  simp only [hxi] at h ⊢
  have htiny := tiny_small
  have P : ∀ i, ∃ p : ℚ, fmul (fun q => R q) (a i) (b i) = .fin p ∧ IsDouble p ∧ |(p : ℝ) - x i| ≤ |x i| / 2 ^ 53 + 1 / 2 ^ 200 := by
    intro i
    obtain ⟨e, -⟩ := ha.fin i
    obtain ⟨e', -⟩ := hb.fin i
    have hvv : ((fval (a i) * fval (b i) : ℚ) : ℝ) = x i := by push_cast; rw [← hxi i]; rfl
    have hz : |((fval (a i) * fval (b i) : ℚ) : ℝ)| ≤ 2 ^ (300 : ℤ) := by
      rw [hvv]
      exact (h i).trans (zpow_le_zpow_right₀ (by norm_num) (by norm_num))
    obtain ⟨h1, h2, h3⟩ := round_mid hR hz
    refine ⟨R ((fval (a i) * fval (b i) : ℚ) : ℝ), ?_, h2, ?_⟩
    · conv_lhs => rw [e, e']
      exact h1
    · rw [hvv] at h3 ⊢
      exact h3.trans (add_le_add le_rfl htiny)
  choose p hp hpd hpe using P
  have l0 : (0 : ℝ) ≤ 1 / 2 ^ 170 := by norm_num
  have r170 : (1 : ℝ) / 2 ^ 170 = 2 ^ (-170 : ℤ) := by rw [zpow_neg, one_div]; norm_cast
  have sc : ∀ i, InR (-600) 600 (|(p i : ℝ)| + 1 / 2 ^ 170) := by
    intro i
    constructor
    · rw [r170]
      have : (2 : ℝ) ^ (-600 : ℤ) ≤ 2 ^ (-170 : ℤ) := zpow_le_zpow_right₀ (by norm_num) (by norm_num)
      exact this.trans (le_add_of_nonneg_left (abs_nonneg _))
    · have h1 := abs_sub_abs_le_abs_sub (p i : ℝ) (x i)
      have h2 : |(p i : ℝ)| ≤ |x i| * 2 + 1 := by
        have h3 := hpe i
        have h4 := abs_nonneg (x i)
        norm_num at h3
        linarith
      have h3 := h i
      have h5 : (2 : ℝ) ^ (220 : ℤ) * 4 ≤ 2 ^ (600 : ℤ) := by
        have e : (2 : ℝ) ^ (222 : ℤ) = 2 ^ (220 : ℤ) * 4 := by
          rw [show (222 : ℤ) = 220 + 2 from rfl, zpow_add₀ (by norm_num)]; norm_num
        exact e ▸ zpow_le_zpow_right₀ (by norm_num) (by norm_num)
      have h6 : (1 : ℝ) ≤ 2 ^ (220 : ℤ) := one_le_zpow₀ (by norm_num) (by norm_num)
      generalize (2 : ℝ) ^ (220 : ℤ) = K at *
      generalize (2 : ℝ) ^ (600 : ℤ) = K' at *
      have h7 : (1 : ℝ) / 2 ^ 170 ≤ 1 := by norm_num
      generalize (1 : ℝ) / 2 ^ 170 = k at *
      linarith
  have S := L.sum3_sum (.fin (p 0)) (.fin (p 1)) (.fin (p 2))
  have hmem : ∀ f ∈ [Fp.fin (p 0), .fin (p 1), .fin (p 2)], ∃ i, f = .fin (p i) := by
    intro f hf
    simp only [List.mem_cons, List.not_mem_nil, or_false] at hf
    rcases hf with rfl | rfl | rfl <;> exact ⟨_, rfl⟩
  have A := (sumOf_acc hR.rat l0 S (by
      intro f hf
      obtain ⟨i, rfl⟩ := hmem f hf
      exact ⟨rfl, hpd i⟩) (by
      intro f hf
      obtain ⟨i, rfl⟩ := hmem f hf
      exact sc i) (by simp)).1
  obtain ⟨s, hs, -, -, he⟩ := A
  refine ⟨s, by rw [hp 0, hp 1, hp 2]; exact hs, ?_⟩
  simp only [List.length_cons, List.length_nil, List.map_cons, List.map_nil, List.sum_cons, List.sum_nil, add_zero, fval] at he
  have e3 : (1 + eps) ^ (0 + 1 + 1 + 1) - 1 ≤ 31 / 10 / 2 ^ 53 := by unfold eps; norm_num
  have b0 := abs_nonneg (p 0 : ℝ)
  have b1 := abs_nonneg (p 1 : ℝ)
  have b2 := abs_nonneg (p 2 : ℝ)
  have hk : 0 ≤ |(p 0 : ℝ)| + 1 / 2 ^ 170 + (|(p 1 : ℝ)| + 1 / 2 ^ 170 + (|(p 2 : ℝ)| + 1 / 2 ^ 170)) := by linarith
  have he' := abs_le.1 (he.trans (mul_le_mul_of_nonneg_right e3 hk))
  have d0 := abs_le.1 (hpe 0)
  have d1 := abs_le.1 (hpe 1)
  have d2 := abs_le.1 (hpe 2)
  have c0 := (abs_sub_abs_le_abs_sub (p 0 : ℝ) (x 0)).trans (hpe 0)
  have c1 := (abs_sub_abs_le_abs_sub (p 1 : ℝ) (x 1)).trans (hpe 1)
  have c2 := (abs_sub_abs_le_abs_sub (p 2 : ℝ) (x 2)).trans (hpe 2)
  have m0 := abs_nonneg (x 0)
  have m1 := abs_nonneg (x 1)
  have m2 := abs_nonneg (x 2)
  rw [abs_le]
  norm_num at he' d0 d1 d2 c0 c1 c2 ⊢
  constructor <;> linarith

omit hR in
/-- the factor, over the reals -/
theorem factor_core {u τ q s w f : ℝ} (u0 : 0 < u) (us : u ≤ 1 / 1000000) (τ0 : 0 ≤ τ) (τu : τ ≤ u / 100) (q0 : 0 ≤ q) (hs : |s - q| ≤ 5 * u * q + τ) (hw : |w - (1 + s)| ≤ u * |1 + s| + τ) (hf : |f - 2 / w| ≤ u * |2 / w|) :
    (1 + q) * (99 / 100) ≤ w ∧ w ≤ (1 + q) * (101 / 100) ∧ |f - 2 / (1 + q)| ≤ 73 / 10 * u * (2 / (1 + q)) := by
  have hs' := abs_le.1 hs
  have uq : 0 ≤ u * q := by positivity
  have s0 : 0 ≤ 1 + s := by nlinarith
  rw [abs_of_nonneg s0] at hw
  have hw' := abs_le.1 hw
  have w1 : |w - (1 + q)| ≤ 61 / 10 * u * (1 + q) := by
    rw [abs_le]
    constructor <;> nlinarith
  have w1' := abs_le.1 w1
  have wl : (1 + q) * (99 / 100) ≤ w := by nlinarith
  have wu : w ≤ (1 + q) * (101 / 100) := by nlinarith
  have Wp : 0 < 1 + q := by linarith
  have wp : 0 < w := lt_of_lt_of_le (by positivity) wl
  refine ⟨wl, wu, ?_⟩
  rw [abs_of_pos (by positivity : 0 < 2 / w)] at hf
  have e1 : 2 / w - 2 / (1 + q) = 2 / (1 + q) * ((1 + q - w) / w) := by field_simp
  have e2 : |(1 + q - w) / w| ≤ 62 / 10 * u := by
    rw [abs_div, abs_of_pos wp, abs_sub_comm, div_le_iff₀ wp]
    have : 62 / 10 * u * ((1 + q) * (99 / 100)) ≤ 62 / 10 * u * w := mul_le_mul_of_nonneg_left wl (by positivity)
    have h : 0 ≤ u * (1 + q) := by positivity
    have e2' : |w - (1 + q)| ≤ (61 / 10 + 1 / 1000) * u * (1 + q) := by linarith
    by_cases hc : (61 / 10 : ℝ) ≤ 62 / 10 * (99 / 100)
    · linarith
    · exact absurd (by norm_num) hc
  have F : 0 < 2 / (1 + q) := by positivity
  have a1 : |2 / w - 2 / (1 + q)| ≤ 62 / 10 * u * (2 / (1 + q)) := by
    rw [e1, abs_mul, abs_of_pos F, mul_comm]
    exact mul_le_mul_of_nonneg_right e2 F.le
  have a2 : 2 / w ≤ 2 / (1 + q) * (102 / 100) := by
    rw [div_le_iff₀ wp]
    have : 2 / (1 + q) * (102 / 100) * ((1 + q) * (99 / 100)) ≤ 2 / (1 + q) * (102 / 100) * w := mul_le_mul_of_nonneg_left wl (by positivity)
    have e : 2 / (1 + q) * (102 / 100) * ((1 + q) * (99 / 100)) = 2 * (102 / 100) * (99 / 100) := by field_simp
    norm_num at e
    linarith
  have a3 := mul_le_mul_of_nonneg_left a2 u0.le
  have a4 := abs_sub_le f (2 / w) (2 / (1 + q))
  have : 0 < u * (2 / (1 + q)) := by positivity
  linarith

omit hR in
/-- an entry of the matrix, over the reals -/
theorem entry_core {u W f d D F : ℝ} (u0 : 0 < u) (us : u ≤ 1 / 1000000) (W1 : 1 ≤ W) (hF : F = 2 / W) (hf : |f - F| ≤ 73 / 10 * u * F) (hD : |D| ≤ W) (hd : |d - D| ≤ 62 / 10 * u * W) :
    |f * d - F * D| ≤ 28 * u ∧ |f * d| ≤ 3 := by
  have Wp : 0 < W := by linarith
  have Fp : 0 < F := by rw [hF]; positivity
  have FW : F * W = 2 := by rw [hF]; field_simp
  have hd' := abs_sub_abs_le_abs_sub d D
  have dW : |d| ≤ W * (1001 / 1000) := by nlinarith
  have e : f * d - F * D = (f - F) * d + F * (d - D) := by ring
  have h1 : |f * d - F * D| ≤ 28 * u := by
    rw [e]
    refine (abs_add_le _ _).trans ?_
    rw [abs_mul, abs_mul, abs_of_pos Fp]
    have a1 : |f - F| * |d| ≤ 73 / 10 * u * F * (W * (1001 / 1000)) := mul_le_mul hf dW (abs_nonneg _) (by positivity)
    have a2 := mul_le_mul_of_nonneg_left hd Fp.le
    have e1 : 73 / 10 * u * F * (W * (1001 / 1000)) = 73 / 10 * (1001 / 1000) * u * (F * W) := by ring
    have e2 : F * (62 / 10 * u * W) = 62 / 10 * u * (F * W) := by ring
    rw [e1, FW] at a1
    rw [e2, FW] at a2
    linarith
  refine ⟨h1, ?_⟩
  have h2 := abs_sub_abs_le_abs_sub (f * d) (F * D)
  have h3 : |F * D| ≤ 2 := by
    rw [abs_mul, abs_of_pos Fp, ← FW]
    exact mul_le_mul_of_nonneg_left hD Fp.le
  linarith

/-! ## The matrices -/

omit hR in
theorem fval_neg (f : Fp) : fval f.neg = -fval f := by cases f <;> simp [Fp.neg, fval]

omit hR in
/-- the entries of the cross product matrix -/
theorem cross_fin {p : F3} (hp : Finite p) (i j : Fin 3) : ((crossMx p i j).isFinite ∧ IsDoubleVal (crossMx p i j)) ∧ (fval (crossMx p i j) : ℝ) = Kinematics.crossMx (vals p) i j := by
  have z : (Fp.fin 0).isFinite ∧ IsDoubleVal (.fin 0) := fin_ok (by simpa using isDouble_int 0 (by norm_num)) (by norm_num)
  have n : ∀ i, ((p i).neg).isFinite ∧ IsDoubleVal (p i).neg := by
    intro i
    obtain ⟨h1, h2⟩ := hp i
    cases hq : p i with
    | fin x =>
      rw [hq] at h2
      refine ⟨rfl, ?_⟩
      have h2 : IsDouble x ∧ |x| < tooBig := h2
      exact ⟨h2.1.neg, by rw [abs_neg]; exact h2.2⟩
    | inf b => rw [hq] at h1; simp [Fp.isFinite] at h1
    | nan => rw [hq] at h1; simp [Fp.isFinite] at h1
  fin_cases i <;> fin_cases j <;> simp only [crossMx, Kinematics.crossMx] <;>
    first
    | exact ⟨z, by simp [fval]⟩
    | exact ⟨hp _, rfl⟩
    | exact ⟨n _, by simp [fval_neg, vals]⟩

omit hR in
theorem cross_le (v : V3) (i j : Fin 3) : |Kinematics.crossMx v i j| ≤ (1 + Kinematics.sqNorm v) / 2 ∧ |Kinematics.crossMx v i j| ≤ nrm v ∧ (i = j → Kinematics.crossMx v i j = 0) := by
  have h : ∀ k, |v k| ≤ (1 + Kinematics.sqNorm v) / 2 := by
    intro k
    have h1 : v k * v k ≤ Kinematics.sqNorm v := by
      have := mul_self_nonneg (v 0)
      have := mul_self_nonneg (v 1)
      have := mul_self_nonneg (v 2)
      rw [Kinematics.sq3]
      fin_cases k <;> simp <;> linarith
    have h2 := abs_mul_abs_self (v k)
    nlinarith [mul_self_nonneg (|v k| - 1)]
  have q0 := Kinematics.sqNorm_nonneg v
  have n0 := nrm_nonneg v
  have hh := abs_le_nrm v
  fin_cases i <;> fin_cases j <;> simp [Kinematics.crossMx, h, q0, n0, hh] <;> linarith

omit hR in
/-- the three products of an entry of the square -/
theorem square_le (v : V3) (i j : Fin 3) : |Kinematics.crossMx v i 0 * Kinematics.crossMx v 0 j| + |Kinematics.crossMx v i 1 * Kinematics.crossMx v 1 j| + |Kinematics.crossMx v i 2 * Kinematics.crossMx v 2 j| ≤ Kinematics.sqNorm v ∧
    (i ≠ j → |Kinematics.crossMx v i 0 * Kinematics.crossMx v 0 j| + |Kinematics.crossMx v i 1 * Kinematics.crossMx v 1 j| + |Kinematics.crossMx v i 2 * Kinematics.crossMx v 2 j| ≤ Kinematics.sqNorm v / 2) := by
  have m : ∀ k, |v k| * |v k| = v k * v k := fun k => abs_mul_abs_self (v k)
  have p0 := m 0
  have p1 := m 1
  have p2 := m 2
  have a01 := mul_self_nonneg (|v 0| - |v 1|)
  have a02 := mul_self_nonneg (|v 0| - |v 2|)
  have a12 := mul_self_nonneg (|v 1| - |v 2|)
  have n0 := mul_self_nonneg (v 0)
  have n1 := mul_self_nonneg (v 1)
  have n2 := mul_self_nonneg (v 2)
  rw [Kinematics.sq3]
  constructor
  · fin_cases i <;> fin_cases j <;> simp [Kinematics.crossMx, abs_mul] <;> nlinarith
  · intro hij
    fin_cases i <;> fin_cases j <;> first | exact absurd rfl hij | (simp [Kinematics.crossMx, abs_mul]; nlinarith)

omit hR in
theorem big_sq {v : V3} (hb : nrm v ≤ 2 ^ (100 : ℤ)) : Kinematics.sqNorm v ≤ 2 ^ (200 : ℤ) := by
  rw [← nrm_sq]
  refine (mul_self_le_mul_self (nrm_nonneg v) hb).trans (le_of_eq ?_)
  rw [← zpow_add₀ (by norm_num)]; norm_num

omit hR in
theorem four_le {n : ℤ} (h : 2 ≤ n) : (4 : ℝ) ≤ 2 ^ n := by
  have : (2 : ℝ) ^ (2 : ℤ) ≤ 2 ^ n := zpow_le_zpow_right₀ (by norm_num) h
  exact le_trans (by norm_num) this

omit hR in
theorem le_300 {x q : ℝ} (hq : q ≤ 2 ^ (200 : ℤ)) (hx : x ≤ (1 + q) * (101 / 100)) : x ≤ 2 ^ (300 : ℤ) := by
  have h2 : (2 : ℝ) ^ (202 : ℤ) = 2 ^ (200 : ℤ) * 4 := by rw [show (202 : ℤ) = 200 + 2 from rfl, zpow_add₀ (by norm_num)]; norm_num
  have h3 : (2 : ℝ) ^ (202 : ℤ) ≤ 2 ^ (300 : ℤ) := zpow_le_zpow_right₀ (by norm_num) (by norm_num)
  have h4 := four_le (n := 200) (by norm_num)
  rw [h2] at h3
  refine le_trans ?_ h3
  generalize (2 : ℝ) ^ (200 : ℤ) = K at hq h4 ⊢
  linarith

/-- the factor -/
theorem factor_err {p : F3} (hp : Finite p) (hb : nrm (vals p) ≤ 2 ^ (100 : ℤ)) :
    ∃ f : ℚ, factor L p = .fin f ∧ IsDouble f ∧ |(f : ℝ) - 2 / (1 + Kinematics.sqNorm (vals p))| ≤ 73 / 10 * (1 / 2 ^ 53) * (2 / (1 + Kinematics.sqNorm (vals p))) := by
  have Q := big_sq hb
  have q0 := Kinematics.sqNorm_nonneg (vals p)
  have qk : ∀ k, |vals p k * vals p k| ≤ Kinematics.sqNorm (vals p) := by
    intro k
    rw [abs_of_nonneg (mul_self_nonneg _), Kinematics.sq3]
    have := mul_self_nonneg (vals p 0)
    have := mul_self_nonneg (vals p 1)
    have := mul_self_nonneg (vals p 2)
    fin_cases k <;> simp <;> linarith
  obtain ⟨s, hs, se⟩ := dot3_err hR L hp hp (fun k => (qk k).trans (Q.trans (zpow_le_zpow_right₀ (by norm_num) (by norm_num))))
  rw [abs_of_nonneg (mul_self_nonneg (vals p 0)), abs_of_nonneg (mul_self_nonneg (vals p 1)), abs_of_nonneg (mul_self_nonneg (vals p 2)), ← Kinematics.sq3] at se
  obtain ⟨q, hq⟩ : ∃ q, q = Kinematics.sqNorm (vals p) := ⟨_, rfl⟩
  rw [← hq] at Q q0 se ⊢
  have se' : |(s : ℝ) - q| ≤ 5 * (1 / 2 ^ 53) * q + 1 / 2 ^ 160 := se.trans (le_of_eq (by ring))
  have s1 : |1 + (s : ℝ)| ≤ 2 ^ (201 : ℤ) := by
    have h1 := abs_sub_abs_le_abs_sub (s : ℝ) q
    rw [abs_of_nonneg q0] at h1
    have h2 := abs_add_le 1 (s : ℝ)
    rw [abs_one] at h2
    have h3 : (2 : ℝ) ^ (201 : ℤ) = 2 ^ (200 : ℤ) * 2 := by rw [show (201 : ℤ) = 200 + 1 from rfl, zpow_add₀ (by norm_num)]; norm_num
    have h4 := four_le (n := 200) (by norm_num)
    rw [h3]
    generalize (2 : ℝ) ^ (200 : ℤ) = K at *
    norm_num at se'
    linarith
  have hz : |((1 + s : ℚ) : ℝ)| ≤ 2 ^ (300 : ℤ) := by
    push_cast
    exact s1.trans (zpow_le_zpow_right₀ (by norm_num) (by norm_num))
  obtain ⟨r1, -, r3⟩ := round_mid hR hz
  have ew : fadd (fun q => R q) (.fin 1) (.fin s) = .fin (R ((1 + s : ℚ) : ℝ)) := r1
  obtain ⟨w, hw⟩ : ∃ w, w = R ((1 + s : ℚ) : ℝ) := ⟨_, rfl⟩
  rw [← hw] at ew r3
  have we : |(w : ℝ) - (1 + s)| ≤ 1 / 2 ^ 53 * |1 + (s : ℝ)| + 1 / 2 ^ 160 := by
    push_cast at r3
    refine r3.trans (add_le_add (le_of_eq (by ring)) (tiny_small.trans (by norm_num)))
  -- the size of the denominator, before the quotient is taken
  obtain ⟨wl, wu, -⟩ := factor_core (u := 1 / 2 ^ 53) (τ := 1 / 2 ^ 160) (f := 2 / w) (by norm_num) (by norm_num) (by norm_num) (by norm_num) q0 se' we (by rw [sub_self, abs_zero]; positivity)
  have wp : (0 : ℝ) < w := lt_of_lt_of_le (by positivity) wl
  have w0 : w ≠ 0 := by rintro rfl; simp at wp
  have big : (w : ℝ) ≤ 2 ^ (300 : ℤ) := le_300 Q wu
  have ez : ((2 / w : ℚ) : ℝ) = 2 / w := by push_cast; rfl
  have small : |((2 / w : ℚ) : ℝ)| ≤ 2 ^ (300 : ℤ) := by
    rw [ez, abs_of_pos (by positivity), div_le_iff₀ wp]
    have h1 : (1 : ℝ) * (99 / 100) ≤ w := le_trans (mul_le_mul_of_nonneg_right (le_add_of_nonneg_right q0) (by norm_num)) wl
    refine le_trans ?_ (mul_le_mul (four_le (by norm_num : (2 : ℤ) ≤ 300)) h1 (by norm_num) (by positivity))
    norm_num
  obtain ⟨d1, d2, -⟩ := round_mid hR small
  have fe : |(R ((2 / w : ℚ) : ℝ) : ℝ) - 2 / w| ≤ 1 / 2 ^ 53 * |2 / (w : ℝ)| := by
    have h : (2 : ℝ) ^ (-1022 : ℤ) ≤ |((2 / w : ℚ) : ℝ)| := by
      rw [ez, abs_of_pos (by positivity), le_div_iff₀ wp]
      have h1 : (2 : ℝ) ^ (-1022 : ℤ) * w ≤ 2 ^ (-1022 : ℤ) * 2 ^ (300 : ℤ) := mul_le_mul_of_nonneg_left big (by positivity)
      refine h1.trans ?_
      rw [← zpow_add₀ (by norm_num)]
      have : (2 : ℝ) ^ (-1022 + 300 : ℤ) ≤ 2 ^ (0 : ℤ) := zpow_le_zpow_right₀ (by norm_num) (by norm_num)
      refine this.trans ?_
      norm_num
    have := hR.err_rel h
    rw [ez] at this ⊢
    exact this.trans (le_of_eq (by ring))
  refine ⟨R ((2 / w : ℚ) : ℝ), ?_, d2, ?_⟩
  · unfold factor
    rw [hs, ew]
    show rounded _ (if w = 0 then _ else Fp.fin (2 / w)) = _
    rw [if_neg w0]; exact d1
  · exact (factor_core (u := 1 / 2 ^ 53) (τ := 1 / 2 ^ 160) (by norm_num) (by norm_num) (by norm_num) (by norm_num) q0 se' we fe).2.2

/-- the difference in front of the factor -/
theorem diff_err {p : F3} (hp : Finite p) (hb : nrm (vals p) ≤ 2 ^ (100 : ℤ)) (i j : Fin 3) :
    ∃ d : ℚ, fsub (fun q => R q) (square L p i j) (crossMx p i j) = .fin d ∧
      |(d : ℝ) - ((Kinematics.crossMx (vals p) * Kinematics.crossMx (vals p)) i j - Kinematics.crossMx (vals p) i j)| ≤ 62 / 10 * (1 / 2 ^ 53) * (1 + Kinematics.sqNorm (vals p)) ∧
      |(Kinematics.crossMx (vals p) * Kinematics.crossMx (vals p)) i j - Kinematics.crossMx (vals p) i j| ≤ 1 + Kinematics.sqNorm (vals p) := by
  have Q := big_sq hb
  have q0 := Kinematics.sqNorm_nonneg (vals p)
  have F := cross_fin hp
  have ha : Finite (fun k => crossMx p i k) := fun k => (F i k).1
  have hb' : Finite (fun k => crossMx p k j) := fun k => (F k j).1
  have va : ∀ k, vals (fun k => crossMx p i k) k = Kinematics.crossMx (vals p) i k := fun k => (F i k).2
  have vb : ∀ k, vals (fun k => crossMx p k j) k = Kinematics.crossMx (vals p) k j := fun k => (F k j).2
  obtain ⟨sl, so⟩ := square_le (vals p) i j
  obtain ⟨cl, cn, cd⟩ := cross_le (vals p) i j
  obtain ⟨s, hs, se⟩ := dot3_err hR L ha hb' (by
    intro k
    rw [va, vb]
    have h1 : |Kinematics.crossMx (vals p) i k * Kinematics.crossMx (vals p) k j| ≤ Kinematics.sqNorm (vals p) := by
      have := abs_nonneg (Kinematics.crossMx (vals p) i 0 * Kinematics.crossMx (vals p) 0 j)
      have := abs_nonneg (Kinematics.crossMx (vals p) i 1 * Kinematics.crossMx (vals p) 1 j)
      have := abs_nonneg (Kinematics.crossMx (vals p) i 2 * Kinematics.crossMx (vals p) 2 j)
      fin_cases k <;> simp only [Fin.zero_eta, Fin.mk_one, Fin.reduceFinMk] <;> linarith
    exact h1.trans (Q.trans (zpow_le_zpow_right₀ (by norm_num) (by norm_num))))
  simp only [va, vb] at se
  have em : (Kinematics.crossMx (vals p) * Kinematics.crossMx (vals p)) i j = Kinematics.crossMx (vals p) i 0 * Kinematics.crossMx (vals p) 0 j + Kinematics.crossMx (vals p) i 1 * Kinematics.crossMx (vals p) 1 j + Kinematics.crossMx (vals p) i 2 * Kinematics.crossMx (vals p) 2 j := by
    rw [Matrix.mul_apply, Fin.sum_univ_three]
  have eP : |Kinematics.crossMx (vals p) i 0 * Kinematics.crossMx (vals p) 0 j + Kinematics.crossMx (vals p) i 1 * Kinematics.crossMx (vals p) 1 j + Kinematics.crossMx (vals p) i 2 * Kinematics.crossMx (vals p) 2 j| ≤
      |Kinematics.crossMx (vals p) i 0 * Kinematics.crossMx (vals p) 0 j| + |Kinematics.crossMx (vals p) i 1 * Kinematics.crossMx (vals p) 1 j| + |Kinematics.crossMx (vals p) i 2 * Kinematics.crossMx (vals p) 2 j| :=
    (abs_add_le _ _).trans (add_le_add (abs_add_le _ _) le_rfl)
  rw [← em] at se eP
  have ec := (F i j).2
  have fc : crossMx p i j = .fin (fval (crossMx p i j)) := (ha.fin j).1
  obtain ⟨c, hc⟩ : ∃ c, c = fval (crossMx p i j) := ⟨_, rfl⟩
  rw [← hc] at ec fc
  obtain ⟨P, hP⟩ : ∃ P, P = (Kinematics.crossMx (vals p) * Kinematics.crossMx (vals p)) i j := ⟨_, rfl⟩
  obtain ⟨x, hx⟩ : ∃ x, x = Kinematics.crossMx (vals p) i j := ⟨_, rfl⟩
  obtain ⟨S, hS⟩ : ∃ S, S = |Kinematics.crossMx (vals p) i 0 * Kinematics.crossMx (vals p) 0 j| + |Kinematics.crossMx (vals p) i 1 * Kinematics.crossMx (vals p) 1 j| + |Kinematics.crossMx (vals p) i 2 * Kinematics.crossMx (vals p) 2 j| := ⟨_, rfl⟩
  obtain ⟨q, hq⟩ : ∃ q, q = Kinematics.sqNorm (vals p) := ⟨_, rfl⟩
  rw [← hP, ← hS] at se eP
  rw [← hS, ← hq] at sl so
  rw [← hx, ← hq] at cl
  rw [← hx] at cd ec
  rw [← hq] at Q q0
  rw [← hP, ← hx, ← hq]
  have Q' : ∀ x : ℝ, x ≤ (1 + q) * (101 / 100) → x ≤ 2 ^ (300 : ℤ) := fun x => le_300 Q
  clear Q hb
  have D : |P - x| ≤ 1 + q := by
    by_cases hij : i = j
    · rw [cd hij, sub_zero]; linarith
    · have := so hij
      have := abs_sub P x
      linarith
  have se' : |(s : ℝ) - P| ≤ 51 / 10 * (1 / 2 ^ 53) * (1 + q) := by
    have : (5 : ℝ) / 2 ^ 53 * S ≤ 5 / 2 ^ 53 * q := mul_le_mul_of_nonneg_left sl (by norm_num)
    refine se.trans ?_
    norm_num at this ⊢
    linarith
  have d1 : |(s : ℝ) - x - (P - x)| ≤ 51 / 10 * (1 / 2 ^ 53) * (1 + q) := by
    have : (s : ℝ) - x - (P - x) = s - P := by ring
    rw [this]; exact se'
  have d2 : |(s : ℝ) - x| ≤ (1 + q) * (1001 / 1000) := by
    have := abs_sub_abs_le_abs_sub ((s : ℝ) - x) (P - x)
    have d1' := d1.trans (mul_le_mul_of_nonneg_right (by norm_num : (51 : ℝ) / 10 * (1 / 2 ^ 53) ≤ 1 / 1000) (by linarith))
    linarith
  have ez : ((s + -c : ℚ) : ℝ) = s - x := by push_cast; rw [ec]; ring
  have hz : |((s + -c : ℚ) : ℝ)| ≤ 2 ^ (300 : ℤ) := by
    rw [ez]
    exact Q' _ (d2.trans (mul_le_mul_of_nonneg_left (by norm_num) (by linarith)))
  obtain ⟨r1, -, r3⟩ := round_mid hR hz
  refine ⟨R ((s + -c : ℚ) : ℝ), ?_, ?_, D⟩
  · have : square L p i j = .fin s := hs
    rw [this, fc]
    exact r1
  · rw [ez] at r3 ⊢
    have h1 := abs_sub_le (R ((s : ℝ) - x) : ℝ) (s - x) (P - x)
    have h2 := r3.trans (add_le_add le_rfl tiny_small)
    have d3 : |(s : ℝ) - x| / 2 ^ 53 ≤ 1001 / 1000 * (1 / 2 ^ 53) * (1 + q) := (div_le_div_of_nonneg_right d2 (by norm_num)).trans (le_of_eq (by ring))
    have d4 : (1 : ℝ) / 2 ^ 200 ≤ 1 / 1000 * (1 / 2 ^ 53) * (1 + q) := le_trans (by norm_num) (mul_le_mul_of_nonneg_left (by linarith : 1 ≤ 1 + q) (by norm_num : (0 : ℝ) ≤ 1 / 1000 * (1 / 2 ^ 53)))
    have d5 : (51 : ℝ) / 10 * (1 / 2 ^ 53) * (1 + q) + 1001 / 1000 * (1 / 2 ^ 53) * (1 + q) + 1 / 1000 * (1 / 2 ^ 53) * (1 + q) ≤ 62 / 10 * (1 / 2 ^ 53) * (1 + q) := by
      rw [← add_mul, ← add_mul]
      exact mul_le_mul_of_nonneg_right (by norm_num) (by linarith)
    linarith

/-- the matrix -/
theorem matrix_err {p : F3} (hp : Finite p) (hb : nrm (vals p) ≤ 2 ^ (100 : ℤ)) (h2 : ∀ i j, |Kinematics.erMatrix (vals p) i j| ≤ 2) :
    EntriesNear (erMatrix L p) (Kinematics.erMatrix (vals p)) (1 / 2 ^ 47) := by
  have q0 := Kinematics.sqNorm_nonneg (vals p)
  have us : u51 ≤ 1 / 1000000 := by unfold u51; norm_num
  have u0 := u51_pos
  obtain ⟨f, hf, -, fe⟩ := factor_err hR L hp hb
  have all : ∀ i j, Ab (16 * u51) (erMatrix L p i j) (Kinematics.erMatrix (vals p) i j) := by
    intro i j
    obtain ⟨d, hd, de, D⟩ := diff_err hR L hp hb i j
    obtain ⟨e1, e2⟩ := entry_core (u := 1 / 2 ^ 53) (by norm_num) (by norm_num) (by linarith : 1 ≤ 1 + Kinematics.sqNorm (vals p)) rfl fe D de
    rw [← Rat.cast_mul] at e1 e2
    have m := Ab.op hR (z := f * d) (by linarith) e1
    have e28 : (28 : ℝ) * (1 / 2 ^ 53) = 7 * u51 := by unfold u51; norm_num
    rw [e28] at m
    have em : Kinematics.erMatrix (vals p) i j = (1 : M3) i j + 2 / (1 + Kinematics.sqNorm (vals p)) * ((Kinematics.crossMx (vals p) * Kinematics.crossMx (vals p)) i j - Kinematics.crossMx (vals p) i j) := by
      simp [Kinematics.erMatrix]
    have one : Ab 0 (oneD i j) ((1 : M3) i j) := by
      have o1 : Ab 0 (Fp.fin 1) 1 := by simpa using Ab.exact (q := 1) (by simpa using isDouble_int 1 (by norm_num))
      have o0 : Ab 0 (Fp.fin 0) 0 := by simpa using Ab.exact (q := 0) (by simpa using isDouble_int 0 (by norm_num))
      unfold oneD
      rw [Matrix.one_apply]
      split_ifs
      · exact o1
      · exact o0
    have hh := h2 i j
    rw [em] at hh ⊢
    have a := Ab.add hR one m (by linarith)
    have ee : erMatrix L p i j = fadd (fun q => R q) (oneD i j) (rounded (fun q => R q) (.fin (f * d))) := by
      unfold erMatrix
      rw [hd, hf]
      rfl
    rw [ee]
    exact a.mono (by linarith)
  have e16 : (1 : ℝ) / 2 ^ 47 = 16 * u51 := by unfold u51; norm_num
  rw [e16]
  intro i j
  obtain ⟨f1, f2⟩ := (all i j).isFinite (by linarith [h2 i j])
  exact ⟨f1, (all i j).val.2.1, (all i j).val.2.2⟩

end

end Verif.ErDouble
