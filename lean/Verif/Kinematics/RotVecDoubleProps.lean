import Verif.Kinematics.RotVecDoubleLemmas
import Verif.Kinematics.MatrixConvProps

/-!
# C177: rotation vectors in doubles
-/

namespace Verif.RotVecDouble

open Verif.Common Verif.KinematicsDouble Verif.EulerDouble
open Verif.Kinematics (V3 V4 M3 IsGenerator IsRotationAbout IsUnit3)

local notation "nrm" => Kinematics.norm

theorem unit_le {e : V3} (he : IsUnit3 e) (i : Fin 3) : |e i| ≤ 1 := by
  unfold IsUnit3 at he
  have h0 := mul_self_nonneg (e 0)
  have h1 := mul_self_nonneg (e 1)
  have h2 := mul_self_nonneg (e 2)
  have : e i * e i ≤ 1 := by fin_cases i <;> simp <;> linarith
  rw [abs_le]; constructor <;> nlinarith

theorem rodrigues_le {a : ℝ} {e : V3} (he : IsUnit3 e) (i j : Fin 3) : |Kinematics.rodrigues a e i j| ≤ 2 := by
  have c1 := Real.abs_cos_le_one a
  have s1 := Real.abs_sin_le_one a
  have sc := Real.sin_sq_add_cos_sq a
  have hr := Kinematics.rodrigues_rotation a e he
  obtain ⟨h, -⟩ := hr
  have := congrFun (congrFun h i) i
  rw [Matrix.mul_apply, Fin.sum_univ_three] at this
  simp only [Matrix.transpose_apply, Matrix.one_apply_eq] at this
  have h0 := mul_self_nonneg (Kinematics.rodrigues a e i 0)
  have h1 := mul_self_nonneg (Kinematics.rodrigues a e i 1)
  have h2 := mul_self_nonneg (Kinematics.rodrigues a e i 2)
  have : Kinematics.rodrigues a e i j * Kinematics.rodrigues a e i j ≤ 1 := by fin_cases j <;> simp <;> linarith
  rw [abs_le]; constructor <;> nlinarith

section
variable {R : ℝ → ℚ} (hR : IsRndR R) (L : LogLib fun q => R q)
include hR

/-- the matrix of an angle that is not tiny -/
theorem large_err (L : Lib fun q => R q) {p : F3} (hp : Finite p) (hb : nrm (vals p) ≤ 8) (hl : 1 / 2 ^ 47 ≤ nrm (vals p)) :
    EntriesNear (rodriguesD R (fmul (fun q => R q) (p 0) (fdiv (fun q => R q) (.fin 1) (norm3 L p))) (fmul (fun q => R q) (p 1) (fdiv (fun q => R q) (.fin 1) (norm3 L p)))
      (fmul (fun q => R q) (p 2) (fdiv (fun q => R q) (.fin 1) (norm3 L p))) (libm L.sin (norm3 L p)) (libm L.cos (norm3 L p))) (NormedSpace.exp (-Kinematics.crossMx (vals p))) (64 * u51) := by
  have Np : nrm (vals p) ≠ 0 := (lt_of_lt_of_le (by norm_num) hl).ne'
  obtain ⟨t, ht, -, -, te⟩ := norm3_rel hR L hp hb hl
  rw [← Kinematics.rodrigues_vec_exp Np, ht]
  have hu := Kinematics.unit_of_norm Np
  obtain ⟨hs, hc⟩ := trig_err L hb te
  have ax := fun i => axis_err hR (hp.fin i).1 rfl (abs_le_nrm (vals p) i) hl hb te
  exact rodrigues_err hR (unit_le hu) (ax 0) (ax 1) (ax 2) hs hc (rodrigues_le hu)

omit hR in
theorem one_near {p : V3} {e : ℝ} (h1 : nrm p ≤ 1) (h2 : 2 * nrm p ≤ e) : EntriesNear oneD (NormedSpace.exp (-Kinematics.crossMx p)) e := by
  intro i j
  have h := Kinematics.exp_near_one h1 i j
  have e1 : valsM oneD i j = (1 : M3) i j := by
    unfold valsM oneD
    by_cases hij : i = j
    · subst hij; simp [fval]
    · simp [hij, fval]
  refine ⟨?_, ?_, ?_⟩
  · unfold oneD; split_ifs <;> rfl
  · unfold oneD; split_ifs
    · simpa [fval] using isDouble_int 1 (by norm_num)
    · simpa [fval] using isDouble_int 0 (by norm_num)
  · rw [e1, abs_sub_comm]; linarith

/-- below and above a threshold -/
theorem threshold (L : Lib fun q => R q) {p : F3} (hp : Finite p) (hb : nrm (vals p) ≤ 8) {c : ℝ} (c0 : 1 / 10 ^ 14 ≤ c) (c1 : c ≤ 1) :
    (Fp.lt (norm3 L p) (.fin (R c)) = true → nrm (vals p) ≤ 101 / 100 * c) ∧ (¬ Fp.lt (norm3 L p) (.fin (R c)) = true → 99 / 100 * c ≤ nrm (vals p)) := by
  obtain ⟨t, ht, -, t0, te⟩ := norm3_err hR L hp hb
  have hl := abs_le.1 (literal hR (x := c) (le_trans (by norm_num) c0) c1)
  have te' := abs_le.1 te
  have N0 : 0 ≤ nrm (vals p) := nrm_nonneg _
  rw [ht]
  constructor
  · intro h
    have h : t < R c := by simpa [Fp.lt] using h
    have h : (t : ℝ) < R c := by exact_mod_cast h
    norm_num at te' hl c0 ⊢
    linarith
  · intro h
    have h : R c ≤ t := by simpa [Fp.lt] using h
    have h : (R c : ℝ) ≤ t := by exact_mod_cast h
    norm_num at te' hl c0 ⊢
    linarith

omit hR in
theorem EntriesNear.mono {M : FM3} {C : M3} {e e' : ℝ} (h : EntriesNear M C e) (he : e ≤ e') : EntriesNear M C e' := fun i j => ⟨(h i j).1, (h i j).2.1, (h i j).2.2.trans he⟩

/-- **C177** The matrix that `RotationVector` computes of every finite rotation vector of length at most 8 is finite, and each of its entries is that of the matrix exponential of the rotation vector up to 2^-45. -/
theorem C177_matrix (p : F3) (hp : Finite p) (hb : nrm (vals p) ≤ 8) (X : M3) (hX : IsGenerator X (vals p)) : EntriesNear (rvMatrix L p) (NormedSpace.exp X) (1 / 2 ^ 45) := by
  have e64 : (1 : ℝ) / 2 ^ 45 = 64 * u51 := by unfold u51; norm_num
  obtain ⟨h1, h2⟩ := threshold hR L.toLib hp hb (c := 1 / 10 ^ 14) le_rfl (by norm_num)
  rw [hX.eq]
  unfold rvMatrix
  simp only
  split_ifs with h
  · refine one_near ((h1 h).trans (by norm_num)) ?_
    refine (mul_le_mul_of_nonneg_left (h1 h) (by norm_num)).trans (by norm_num)
  · rw [e64]
    exact large_err hR L.toLib hp hb (le_trans (by norm_num) (h2 h))

omit hR in
/-- the environment in which the three squares are added from left to right -/
def leftLib (L : Lib fun q => R q) : Lib fun q => R q where
  sum3 a b c := fadd (fun q => R q) (fadd (fun q => R q) a b) c
  sum3_sum a b c := .add (.add (.one a) (.one b) (.refl _)) (.one c) (.refl _)
  sin := L.sin
  cos := L.cos
  sin_double := L.sin_double
  cos_double := L.cos_double
  sin_err := L.sin_err
  cos_err := L.cos_err

/-- **C177** The same for `axisAngle2R`: the entries are those of the matrix exponential up to 2^-38, and up to 2^-45 if the vector is not shorter than 2e-12 (below 1e-12 the result is the identity). -/
theorem C177_axis_angle (p : F3) (hp : Finite p) (hb : nrm (vals p) ≤ 8) (X : M3) (hX : IsGenerator X (vals p)) :
    EntriesNear (axisAngle2RV L p) (NormedSpace.exp X) (1 / 2 ^ 38) ∧ (2 / 10 ^ 12 ≤ nrm (vals p) → EntriesNear (axisAngle2RV L p) (NormedSpace.exp X) (1 / 2 ^ 45)) := by
  have e64 : (1 : ℝ) / 2 ^ 45 = 64 * u51 := by unfold u51; norm_num
  obtain ⟨h1, h2⟩ := threshold hR (leftLib L.toLib) hp hb (c := 1 / 10 ^ 12) (by norm_num) (by norm_num)
  rw [hX.eq]
  have e1 : Verif.NumericDouble.fsqrt R (fadd (fun q => R q) (fadd (fun q => R q) (fmul (fun q => R q) (p 0) (p 0)) (fmul (fun q => R q) (p 1) (p 1))) (fmul (fun q => R q) (p 2) (p 2))) =
      norm3 (leftLib L.toLib) p := rfl
  unfold axisAngle2RV
  rw [e1]
  simp only
  by_cases h : Fp.lt (norm3 (leftLib L.toLib) p) (.fin (R (1 / 10 ^ 12))) = true
  · rw [if_pos h]
    constructor
    · refine one_near ((h1 h).trans (by norm_num)) ?_
      refine (mul_le_mul_of_nonneg_left (h1 h) (by norm_num)).trans (by norm_num)
    · intro hn
      have := h1 h
      norm_num at this hn
      linarith
  · rw [if_neg h]
    unfold axisAngle2R
    rw [if_neg h]
    have main := large_err hR (leftLib L.toLib) hp hb (le_trans (by norm_num) (h2 h))
    refine ⟨EntriesNear.mono main ?_, fun _ => e64 ▸ main⟩
    rw [← e64]; norm_num

end

/-! ## From matrices to rotation vectors -/

theorem spec_eq {C : M3} {n : V3} {a : ℝ} (hn : IsUnit3 n) (h : IsRotationAbout C n a) : C = Kinematics.rodrigues a n := h.unique hn (Kinematics.rodrigues_about a n hn)

theorem clamp_id {m : ℚ} (h : |m| ≤ 1) : Fp.max (.fin (-1)) (fmin (.fin m) (.fin 1)) = .fin m := by
  obtain ⟨h1, h2⟩ := abs_le.1 h
  have e1 : fmin (.fin m) (.fin 1) = .fin m := by
    unfold fmin Fp.lt
    rw [if_neg]
    simpa using h2
  rw [e1]
  unfold Fp.max Fp.lt
  by_cases h3 : -1 < m
  · rw [if_pos (by simpa using h3)]
  · rw [if_neg (by simpa using h3)]
    congr 1
    linarith

/-- the scaled component -/
theorem scale_err {e δ s a α N σ p x : ℝ} (e0 : 0 < e) (δ0 : 0 < δ) (he : 1 / 2 ^ 51 ≤ e) (s0 : 0 < s) (s1 : s ≤ 1) (n1 : |x| ≤ 1) (σp : 0 < α / N) (Np : 0 < N) (σb : α / N ≤ 4 / (13 / 10 * δ))
    (αe : |α - a| ≤ 138 / 10 * (e / δ)) (Ne2 : |N - 2 * s| ≤ 10 * e) (r4 : |σ + α / N| ≤ α / N * (1 / 2 ^ 52)) (P3 : |p - -(2 * s) * x| ≤ 3 * e) (es : e ≤ 1 / 16) :
    |σ * p - a * x| ≤ 60 * (e / δ) := by
  have f0 : 0 ≤ e / δ := by positivity
  obtain ⟨d, hd⟩ : ∃ d : ℝ, d = p - -(2 * s) * x := ⟨_, rfl⟩
  rw [← hd] at P3
  have eP : p = d - 2 * s * x := by rw [hd]; ring
  obtain ⟨η, hη⟩ : ∃ η : ℝ, η = σ + α / N := ⟨_, rfl⟩
  rw [← hη] at r4
  have eσ : σ = η - α / N := by rw [hη]; ring
  have split : σ * p - a * x = η * (d - 2 * s * x) - α / N * d + (α / N * (2 * s - N) + (α - a)) * x := by
    rw [eσ, eP]; field_simp; ring
  rw [split]
  have δe : (4 : ℝ) / (13 / 10 * δ) * e ≤ 308 / 100 * (e / δ) := by
    have : (4 : ℝ) / (13 / 10 * δ) * e = 40 / 13 * (e / δ) := by field_simp; ring
    rw [this]; linarith
  have σe : α / N * e ≤ 308 / 100 * (e / δ) := le_trans (mul_le_mul_of_nonneg_right σb e0.le) δe
  have k1 : |d - 2 * s * x| ≤ 3 := by
    refine (abs_sub _ _).trans ?_
    have : |2 * s * x| ≤ 2 * 1 := by rw [abs_mul, abs_of_pos (by linarith : 0 < 2 * s)]; exact mul_le_mul (by linarith) n1 (abs_nonneg _) (by norm_num)
    linarith
  have e52 : (1 : ℝ) / 2 ^ 52 ≤ 1 / 2 * e := by norm_num at he ⊢; linarith
  have k2 : |η * (d - 2 * s * x)| ≤ 5 * (e / δ) := by
    rw [abs_mul]
    have h1 : |η| ≤ α / N * (1 / 2 * e) := r4.trans (mul_le_mul_of_nonneg_left e52 σp.le)
    have h2 : |η| ≤ 154 / 100 * (e / δ) := by linarith
    calc |η| * |d - 2 * s * x| ≤ 154 / 100 * (e / δ) * 3 := mul_le_mul h2 k1 (abs_nonneg _) (by positivity)
      _ ≤ 5 * (e / δ) := by linarith
  have k3 : |α / N * d| ≤ 10 * (e / δ) := by
    rw [abs_mul, abs_of_pos σp]
    have := mul_le_mul_of_nonneg_left P3 σp.le
    linarith
  have k4 : |α / N * (2 * s - N)| ≤ 308 / 10 * (e / δ) := by
    rw [abs_mul, abs_of_pos σp, abs_sub_comm]
    have := mul_le_mul_of_nonneg_left Ne2 σp.le
    linarith
  have k5 : |(α / N * (2 * s - N) + (α - a)) * x| ≤ 446 / 10 * (e / δ) := by
    rw [abs_mul]
    have := abs_add_le (α / N * (2 * s - N)) (α - a)
    refine le_trans (mul_le_mul_of_nonneg_left n1 (abs_nonneg _)) ?_
    linarith
  have j1 := abs_add_le (η * (d - 2 * s * x) - α / N * d) ((α / N * (2 * s - N) + (α - a)) * x)
  have j2 := abs_sub (η * (d - 2 * s * x)) (α / N * d)
  linarith

/-- **C177** The rotation vector that is computed of a finite matrix whose entries are, up to `e`, those of the rotation by the angle `a` about the axis `n` is finite and is `a n` up to `64 e / δ`, where `δ` is the sine of the angle
(or less): the nearer the rotation is to the identity or to a half turn, the less accurate the result. -/
theorem C177_params_partial {R : ℝ → ℚ} (hR : IsRndR R) (L : LogLib fun q => R q) (M : FM3) (C : M3) (n : V3) (a e δ : ℝ) (hn : IsUnit3 n) (a0 : 0 ≤ a) (aπ : a ≤ Real.pi) (hC : IsRotationAbout C n a) (hM : EntriesNear M C e)
    (he : 1 / 2 ^ 51 ≤ e) (δ0 : 0 < δ) (hδ : δ ≤ Real.sin a) (h16 : 16 * e ≤ δ * δ) : Finite (rvParams L M) ∧ ∀ i, |vals (rvParams L M) i - a * n i| ≤ 64 * (e / δ) := by
  have hpi := Real.pi_lt_d2
  have ue : u51 ≤ e := he
  have u0 := u51_pos
  have e0 : 0 < e := lt_of_lt_of_le u0 ue
  have s1 := Real.sin_le_one a
  have δ1 : δ ≤ 1 := hδ.trans s1
  have e16 : 16 * e ≤ δ := h16.trans (by nlinarith)
  have es : e ≤ 1 / 16 := by linarith
  have δl : 1 / 2 ^ 24 ≤ δ := by
    by_contra h
    have h := not_le.1 h
    have : δ * δ ≤ 1 / 2 ^ 24 * (1 / 2 ^ 24) := mul_le_mul h.le h.le δ0.le (by norm_num)
    norm_num at this he
    linarith
  have Ce := spec_eq hn hC
  have B := fun i j => hM.ab i j
  have bC : ∀ i j, |C i j| ≤ 2 := fun i j => by rw [Ce]; exact rodrigues_le hn i j
  have bD : ∀ i j, -2 ≤ C i j ∧ C i j ≤ 2 := fun i j => abs_le.1 (bC i j)
  -- the trace
  have htr := Kinematics.rodrigues_trace a n hn
  rw [← Ce] at htr
  have one : Ab 0 (Fp.fin 1) 1 := by simpa using Ab.exact (q := 1) (by simpa using isDouble_int 1 (by norm_num))
  have half : Ab 0 (Fp.fin (1 / 2)) (1 / 2) := by
    have := Ab.exact (q := 1 / 2) ⟨1, -1, by norm_num, by norm_num, by norm_num⟩
    simpa using this
  have c1 := abs_le.1 (Real.abs_cos_le_one a)
  have t1 := Ab.add hR (B 0 0) (B 1 1) (by have := abs_add_le (C 0 0) (C 1 1); linarith [bC 0 0, bC 1 1])
  have t2 := Ab.add hR t1 (B 2 2) (by
    have := abs_add_le (C 0 0 + C 1 1) (C 2 2)
    have := abs_add_le (C 0 0) (C 1 1)
    linarith [bC 0 0, bC 1 1, bC 2 2])
  have t3 := Ab.sub hR t2 one (by
    have : |C 0 0 + C 1 1 + C 2 2 - 1| ≤ 2 := by rw [abs_le]; constructor <;> linarith
    linarith)
  have t4 := Ab.mul hR (X := 4) (Y := 1 / 2) t3 half (by
    have : |C 0 0 + C 1 1 + C 2 2 - 1| ≤ 2 := by rw [abs_le]; constructor <;> linarith
    linarith) (by norm_num) (by norm_num)
  rw [htr] at t4
  obtain ⟨m, hm, md, me⟩ := t4.mono (show _ ≤ 4 * e by linarith)
  -- the angle
  have cosφ : Real.sin (Real.pi / 2 - a) = Real.cos a := Real.sin_pi_div_two_sub a
  have hφ : |Real.pi / 2 - a| ≤ Real.pi / 2 := by rw [abs_le]; constructor <;> linarith
  obtain ⟨m1, mφ⟩ := asin_near (φ := Real.pi / 2 - a) (δ := δ) (e := 4 * e) hφ (by rw [Real.cos_pi_div_two_sub]; exact hδ) δ0 (by rw [cosφ]; exact me) (by linarith)
  have m1' : |m| ≤ 1 := by exact_mod_cast m1
  have ae := L.acos_err m m1'
  set α := L.acos m with hα
  have f0 : 0 ≤ e / δ := by positivity
  have fe : e ≤ e / δ := by rw [le_div_iff₀ δ0]; nlinarith
  have αe : |(α : ℝ) - a| ≤ 138 / 10 * (e / δ) := by
    rw [Real.arccos] at ae
    have h1 := abs_le.1 ae
    have h2 := abs_le.1 mφ
    have e1 : 4 * e / δ = 4 * (e / δ) := by ring
    rw [e1] at h2
    have : (1 : ℝ) / 2 ^ 51 ≤ e / δ := he.trans fe
    rw [abs_le]; constructor <;> linarith
  have as : δ ≤ a := hδ.trans (Real.sin_le a0)
  have f16 : e / δ ≤ δ / 16 := by rw [div_le_iff₀ δ0]; linarith
  have αl : δ / 8 ≤ α := by have := abs_le.1 αe; linarith
  have α4 : (α : ℝ) ≤ 4 := by
    have h1 := (abs_le.1 ae).2
    have h2 := Real.arccos_le_pi (m : ℝ)
    norm_num at h1
    linarith
  obtain ⟨κ, hκ⟩ : ∃ κ, κ = R (1 / 10 ^ 14) := ⟨_, rfl⟩
  have lit : (κ : ℝ) ≤ 1 / 2 ^ 40 := by
    have := (abs_le.1 (literal hR (x := 1 / 10 ^ 14) (by norm_num) (by norm_num))).2
    rw [← hκ] at this
    norm_num at this ⊢
    linarith
  have lδ : (1 : ℝ) / 2 ^ 40 ≤ δ / 8 := by norm_num at δl ⊢; linarith
  -- the skew part
  have hsk := Kinematics.rodrigues_skew a n
  rw [← Ce] at hsk
  have sk0 : C 2 1 - C 1 2 = -(2 * Real.sin a) * n 0 := by simpa [Kinematics.skewPart] using congrFun hsk 0
  have sk1 : C 0 2 - C 2 0 = -(2 * Real.sin a) * n 1 := by simpa [Kinematics.skewPart] using congrFun hsk 1
  have sk2 : C 1 0 - C 0 1 = -(2 * Real.sin a) * n 2 := by simpa [Kinematics.skewPart] using congrFun hsk 2
  have s0 : 0 < Real.sin a := lt_of_lt_of_le δ0 hδ
  obtain ⟨P, hP⟩ : ∃ P : F3, P = ![fsub (fun q => R q) (M 2 1) (M 1 2), fsub (fun q => R q) (M 0 2) (M 2 0), fsub (fun q => R q) (M 1 0) (M 0 1)] := ⟨_, rfl⟩
  have sb : ∀ i j k l, Ab (3 * e) (fsub (fun q => R q) (M i j) (M k l)) (C i j - C k l) := fun i j k l =>
    (Ab.sub hR (B i j) (B k l) (by have := abs_sub (C i j) (C k l); linarith [bC i j, bC k l])).mono (by linarith)
  have hsn := Kinematics.norm_skew hn s0.le
  have Pe : ∀ i, Ab (3 * e) (P i) (-(2 * Real.sin a) * n i) := by
    intro i
    rw [hP]
    fin_cases i
    · exact sk0 ▸ sb 2 1 1 2
    · exact sk1 ▸ sb 0 2 2 0
    · exact sk2 ▸ sb 1 0 0 1
  obtain ⟨Pf, Pn⟩ := near_of_ab3 Pe (by linarith) (by rw [hsn]; linarith)
  have Pd : |nrm (vals P) - 2 * Real.sin a| ≤ 6 * e := by
    have h1 := nrm_sub_le (vals P) (fun i => -(2 * Real.sin a) * n i) 0
    have h2 := nrm_sub_le (fun i => -(2 * Real.sin a) * n i) (vals P) 0
    rw [nrm_sub_rev _ (vals P)] at h2
    rw [sub_zero, sub_zero, hsn] at h1 h2
    rw [abs_le]; constructor <;> linarith
  have Pd' := abs_le.1 Pd
  obtain ⟨N, hN, Nd, N0, Ne⟩ := norm3_err hR L.toLib Pf (by linarith)
  have Ne2 : |(N : ℝ) - 2 * Real.sin a| ≤ 10 * e := by
    have h1 := abs_le.1 Ne
    have h2 : (5 : ℝ) / 2 ^ 53 * nrm (vals P) + 1 / 2 ^ 70 ≤ 4 * u51 := by
      have : nrm (vals P) ≤ 3 := by linarith
      unfold u51
      norm_num
      linarith
    rw [abs_le]; constructor <;> linarith
  have Nl : 13 / 10 * δ ≤ N := by have := abs_le.1 Ne2; linarith
  have Np : (0 : ℝ) < N := by linarith
  have N0' : N ≠ 0 := by rintro rfl; simp at Np
  -- the result
  have hres : rvParams L M = fun i => fmul (fun q => R q) (fdiv (fun q => R q) (Fp.fin (-α)) (.fin N)) (P i) := by
    unfold rvParams
    simp only
    rw [← hκ, hm, clamp_id m1']
    have ha : libmUnit L.acos (.fin m) = .fin α := by simp [libmUnit, m1', hα]
    rw [ha, ← hP, hN]
    rw [if_neg, if_neg]
    · rfl
    · have h1 : (κ : ℝ) ≤ |(N : ℝ)| := by
        rw [abs_of_pos Np]
        linarith
      have h2 : κ ≤ |N| := by exact_mod_cast h1
      simpa [Fp.lt, Fp.abs] using h2
    · have h1 : (κ : ℝ) ≤ |(α : ℝ)| := by
        rw [abs_of_nonneg (by linarith : (0 : ℝ) ≤ α)]
        linarith
      have h2 : κ ≤ |α| := by exact_mod_cast h1
      simpa [Fp.lt, Fp.abs] using h2
  -- the scale
  have αp : (0 : ℝ) < α := by linarith
  have σb : (α : ℝ) / N ≤ 4 / (13 / 10 * δ) := div_le_div₀ (by norm_num) α4 (by positivity) Nl
  have σp : 0 < (α : ℝ) / N := by positivity
  have σ30 : (α : ℝ) / N ≤ 2 ^ (30 : ℤ) := by
    refine σb.trans ?_
    rw [div_le_iff₀ (by positivity)]
    norm_num at δl ⊢
    linarith
  have ez : ((-α / N : ℚ) : ℝ) = -((α : ℝ) / N) := by push_cast; ring
  obtain ⟨r1, -, r3⟩ := round_mid hR (z := -α / N) (by
    rw [ez, abs_neg, abs_of_pos σp]
    exact σ30.trans (zpow_le_zpow_right₀ (by norm_num) (by norm_num)))
  obtain ⟨σ, hσ⟩ : ∃ σ, σ = R ((-α / N : ℚ) : ℝ) := ⟨_, rfl⟩
  have d1 : fdiv (fun q => R q) (Fp.fin (-α)) (.fin N) = .fin σ := by
    show rounded _ (if N = 0 then _ else Fp.fin (-α / N)) = _
    rw [if_neg N0', hσ]; exact r1
  rw [← hσ, ez, abs_neg, abs_of_pos σp] at r3
  have r4 : |(σ : ℝ) + (α : ℝ) / N| ≤ (α : ℝ) / N * (1 / 2 ^ 52) := by
    have h1 := tiny_small
    have h2 : (1 : ℝ) / 2 ^ 30 ≤ (α : ℝ) / N := by
      rw [le_div_iff₀ Np]
      have := abs_le.1 Ne2
      norm_num at δl ⊢
      linarith
    have h3 : (tiny : ℝ) ≤ (α : ℝ) / N * (1 / 2 ^ 53) := by
      refine h1.trans (le_trans ?_ (mul_le_mul_of_nonneg_right h2 (by norm_num)))
      norm_num
    rw [sub_neg_eq_add] at r3
    refine r3.trans ?_
    calc (α : ℝ) / N / 2 ^ 53 + tiny ≤ (α : ℝ) / N / 2 ^ 53 + (α : ℝ) / N * (1 / 2 ^ 53) := add_le_add le_rfl h3
      _ = _ := by ring
  have res : ∀ i, Ab (64 * (e / δ)) (rvParams L M i) (a * n i) := by
    intro i
    obtain ⟨P1, -, P3⟩ := (Pe i).val
    have n1 := unit_le hn i
    have key := scale_err e0 δ0 he (s := Real.sin a) s0 s1 (x := n i) n1 σp Np σb αe Ne2 r4 P3 es
    rw [← Rat.cast_mul] at key
    have an : |a * n i| ≤ 16 / 5 := by
      rw [abs_mul, abs_of_nonneg a0]
      exact (mul_le_mul (by linarith : a ≤ 16 / 5) n1 (abs_nonneg _) (by norm_num)).trans (by norm_num)
    have fs : e / δ ≤ 1 / 16 := by linarith
    have := Ab.op hR (z := σ * fval (P i)) (x := a * n i) (e := 60 * (e / δ)) (by
      have := abs_sub_abs_le_abs_sub ((σ * fval (P i) : ℚ) : ℝ) (a * n i)
      linarith) key
    have er : rvParams L M i = rounded (fun q => R q) (.fin (σ * fval (P i))) := by
      rw [hres]
      simp only
      rw [d1, P1]
      rfl
    rw [er]
    exact this.mono (by linarith)
  constructor
  · intro i
    refine (res i).isFinite ?_
    have an : |a * n i| ≤ 16 / 5 := by
      rw [abs_mul, abs_of_nonneg a0]
      exact (mul_le_mul (by linarith : a ≤ 16 / 5) (unit_le hn i) (abs_nonneg _) (by norm_num)).trans (by norm_num)
    have fs : e / δ ≤ 1 / 16 := by linarith
    linarith
  · intro i
    exact (res i).val.2.2

/-- **C177** A rotation vector of length at most π comes back from the matrix that is computed of it to within `2^-39 / δ`, where `δ` is the sine of its length (or less). -/
theorem C177_round_trip {R : ℝ → ℚ} (hR : IsRndR R) (L : LogLib fun q => R q) (p : F3) (hp : Finite p) (hb : nrm (vals p) ≤ Real.pi) (δ : ℝ) (δ0 : 1 / 2 ^ 20 ≤ δ) (hδ : δ ≤ Real.sin (nrm (vals p))) :
    Finite (rvParams L (rvMatrix L p)) ∧ ∀ i, |vals (rvParams L (rvMatrix L p)) i - vals p i| ≤ 1 / 2 ^ 39 / δ := by
  have hpi := Real.pi_lt_d2
  have δp : 0 < δ := lt_of_lt_of_le (by norm_num) δ0
  have Np : nrm (vals p) ≠ 0 := by
    intro h
    rw [h, Real.sin_zero] at hδ
    linarith
  have hM := C177_matrix hR L p hp (by linarith) _ (Kinematics.generator_crossMx (vals p))
  rw [← Kinematics.rodrigues_vec_exp Np] at hM
  have hu := Kinematics.unit_of_norm Np
  have h16 : 16 * ((1 : ℝ) / 2 ^ 45) ≤ δ * δ := le_trans (by norm_num) (mul_le_mul δ0 δ0 (by norm_num) δp.le)
  obtain ⟨h1, h2⟩ := C177_params_partial hR L (rvMatrix L p) _ _ (nrm (vals p)) (1 / 2 ^ 45) δ hu (nrm_nonneg _) hb (Kinematics.rodrigues_about _ _ hu) hM (by norm_num) δp hδ h16
  refine ⟨h1, fun i => ?_⟩
  have := h2 i
  have e1 : nrm (vals p) * (vals p i / nrm (vals p)) = vals p i := by field_simp
  rw [e1] at this
  refine this.trans (le_of_eq ?_)
  rw [← mul_div_assoc]
  norm_num

/-- **C177** The rotation vector of a transformation that was built in `n` steps is that of the exact rotation, away from the identity and from half turns. -/
theorem C177_pose_partial {R : ℝ → ℚ} (hR : IsRndR R) (L : LogLib fun q => R q) (E : Eigen fun q => R q) (b : Build) (h : b.RotationsOk) (hs : b.steps ≤ 2 ^ 40) (n : V3) (a δ : ℝ) (hn : IsUnit3 n) (a0 : 0 ≤ a) (aπ : a ≤ Real.pi)
    (hC : IsRotationAbout (Kinematics.Transformation.C b.exact) n a) (δ0 : 0 < δ) (hδ : δ ≤ Real.sin a) (h16 : 16 * (b.steps / 2 ^ 43) ≤ δ * δ) :
    Finite (rvParams L (TransformationD.C R (b.run E))) ∧ ∀ i, |vals (rvParams L (TransformationD.C R (b.run E))) i - a * n i| ≤ 64 * (b.steps / 2 ^ 43 / δ) := by
  have near : EntriesNear (TransformationD.C R (b.run E)) (Kinematics.Transformation.C b.exact) (b.steps / 2 ^ 43) := fun i j =>
    ⟨((C122_matrix hR E b h).1 i j).1, ((C122_matrix hR E b h).1 i j).2, C122_entries hR E b h hs i j⟩
  refine C177_params_partial hR L _ _ n a _ δ hn a0 aπ hC near ?_ δ0 hδ h16
  have s1 : (1 : ℝ) ≤ b.steps := by
    have : 1 ≤ b.steps := by cases b <;> simp [Build.steps]
    exact_mod_cast this
  refine le_trans ?_ (div_le_div_of_nonneg_right s1 (by norm_num))
  norm_num

theorem clamp_unit (m : ℚ) : ∃ m' : ℚ, Fp.max (.fin (-1)) (fmin (.fin m) (.fin 1)) = .fin m' ∧ |m'| ≤ 1 := by
  unfold Fp.max fmin Fp.lt
  by_cases h1 : (1 : ℚ) < m
  · exact ⟨1, by simp [h1], by simp⟩
  · by_cases h2 : -1 < m
    · exact ⟨m, by simp [h1, h2], abs_le.2 ⟨h2.le, not_lt.1 h1⟩⟩
    · exact ⟨-1, by simp [h1, h2], by simp⟩

/-- **C177** For every finite matrix with entries between -2 and 2, a rotation or not, the rotation vector is finite, and none of its components is larger than 4: the trace is cut off before its arc cosine is taken. -/
theorem C177_finite {R : ℝ → ℚ} (hR : IsRndR R) (L : LogLib fun q => R q) (M : FM3) (hM : FiniteM M) (hb : ∀ i j, |valsM M i j| ≤ 2) : Finite (rvParams L M) ∧ ∀ i, |vals (rvParams L M) i| ≤ 4 := by
  have us : u51 ≤ 1 / 1000000 := by unfold u51; norm_num
  have u0 := u51_pos
  have hpi := Real.pi_lt_d2
  have B := fun i j => hM.ab i j
  have one : Ab 0 (Fp.fin 1) 1 := by simpa using Ab.exact (q := 1) (by simpa using isDouble_int 1 (by norm_num))
  have half : Ab 0 (Fp.fin (1 / 2)) (1 / 2) := by
    have := Ab.exact (q := 1 / 2) ⟨1, -1, by norm_num, by norm_num, by norm_num⟩
    simpa using this
  have zero : Finite (fun _ => Fp.fin 0 : F3) ∧ ∀ i, |vals (fun _ => Fp.fin 0 : F3) i| ≤ 4 := by
    have z : Ab 0 (Fp.fin 0) 0 := by simpa using Ab.exact (q := 0) (by simpa using isDouble_int 0 (by norm_num))
    exact ⟨fun i => z.isFinite (by norm_num), fun i => by simp [vals, fval]⟩
  have t1 := Ab.add hR (B 0 0) (B 1 1) (by have := abs_add_le (valsM M 0 0) (valsM M 1 1); linarith [hb 0 0, hb 1 1])
  have b2 : |valsM M 0 0 + valsM M 1 1 + valsM M 2 2| ≤ 6 := by
    have := abs_add_le (valsM M 0 0 + valsM M 1 1) (valsM M 2 2)
    have := abs_add_le (valsM M 0 0) (valsM M 1 1)
    linarith [hb 0 0, hb 1 1, hb 2 2]
  have t2 := Ab.add hR t1 (B 2 2) (by linarith)
  have b3 : |valsM M 0 0 + valsM M 1 1 + valsM M 2 2 - 1| ≤ 7 := (abs_sub _ _).trans (by rw [abs_one]; linarith)
  have t3 := Ab.sub hR t2 one (by linarith)
  have t4 := Ab.mul hR (X := 8) (Y := 1 / 2) t3 half (by linarith) (by norm_num) (by norm_num)
  obtain ⟨m, hm, -, -⟩ := t4
  obtain ⟨m', hm', m1⟩ := clamp_unit m
  have ae := abs_le.1 (L.acos_err m' m1)
  set α := L.acos m' with hα
  have a1 := Real.arccos_le_pi (m' : ℝ)
  have a2 := Real.arccos_nonneg (m' : ℝ)
  have αb : |(α : ℝ)| ≤ 316 / 100 := by norm_num at ae; rw [abs_le]; constructor <;> linarith
  obtain ⟨P, hP⟩ : ∃ P : F3, P = ![fsub (fun q => R q) (M 2 1) (M 1 2), fsub (fun q => R q) (M 0 2) (M 2 0), fsub (fun q => R q) (M 1 0) (M 0 1)] := ⟨_, rfl⟩
  have sb : ∀ i j k l, Ab (401 / 100) (fsub (fun q => R q) (M i j) (M k l)) 0 := fun i j k l => by
    have h4 : |valsM M i j - valsM M k l| ≤ 4 := (abs_sub _ _).trans (by linarith [hb i j, hb k l])
    obtain ⟨r, r1, r2, r3⟩ := Ab.sub hR (B i j) (B k l) (by linarith)
    refine ⟨r, r1, r2, ?_⟩
    have := abs_sub_abs_le_abs_sub (r : ℝ) (valsM M i j - valsM M k l)
    rw [sub_zero]; linarith
  have Pe : ∀ i, Ab (401 / 100) (P i) 0 := by
    intro i
    rw [hP]
    fin_cases i
    · exact sb 2 1 1 2
    · exact sb 0 2 2 0
    · exact sb 1 0 0 1
  have Pf : Finite P := fun i => (Pe i).isFinite (by norm_num)
  have Pn : nrm (vals P) ≤ 8 := by
    have h : nrm (vals P) ≤ nrm (fun _ : Fin 3 => (401 / 100 : ℝ)) := nrm_mono fun i => by
      have := (Pe i).val.2.2
      rw [sub_zero] at this
      exact this
    refine h.trans ?_
    have e1 := nrm_sq (fun _ : Fin 3 => (401 / 100 : ℝ))
    rw [Kinematics.sq3] at e1
    have := nrm_nonneg (fun _ : Fin 3 => (401 / 100 : ℝ))
    nlinarith
  obtain ⟨κ, hκ⟩ : ∃ κ, κ = R (1 / 10 ^ 14) := ⟨_, rfl⟩
  have lit : (99 : ℝ) / 100 / 10 ^ 14 ≤ κ := by
    have := (abs_le.1 (literal hR (x := 1 / 10 ^ 14) (by norm_num) (by norm_num))).1
    rw [← hκ] at this
    norm_num at this ⊢
    linarith
  obtain ⟨N, hN, -, N0, Ne⟩ := norm3_err hR L.toLib Pf Pn
  have N0' : (0 : ℝ) ≤ N := by exact_mod_cast N0
  unfold rvParams
  simp only
  have ha : libmUnit L.acos (.fin m') = .fin α := by simp [libmUnit, m1, hα]
  rw [← hκ, hm, hm', ha, ← hP, hN]
  split_ifs with h1 h2
  · exact zero
  · exact zero
  · have h2 : κ ≤ |N| := by simpa [Fp.lt, Fp.abs] using h2
    rw [abs_of_nonneg N0] at h2
    have h2 : (κ : ℝ) ≤ N := by exact_mod_cast h2
    have Nl : (99 : ℝ) / 100 / 10 ^ 14 ≤ N := lit.trans h2
    have Np : (0 : ℝ) < N := lt_of_lt_of_le (by norm_num) Nl
    have Nne : N ≠ 0 := by rintro rfl; simp at Np
    have Pl : nrm (vals P) ≤ 101 / 100 * N := by
      have := abs_le.1 Ne
      have := nrm_nonneg (vals P)
      norm_num at *
      linarith
    have ez : |((-α / N : ℚ) : ℝ)| = |(α : ℝ)| / N := by push_cast; rw [abs_div, abs_neg, abs_of_pos Np]
    have σ50 : |(α : ℝ)| / N ≤ 2 ^ (50 : ℤ) := by
      rw [div_le_iff₀ Np]
      refine αb.trans ?_
      refine le_trans ?_ (mul_le_mul_of_nonneg_left Nl (by norm_num))
      norm_num
    obtain ⟨r1, -, r3⟩ := round_mid hR (z := -α / N) (by rw [ez]; exact σ50.trans (zpow_le_zpow_right₀ (by norm_num) (by norm_num)))
    obtain ⟨σ, hσ⟩ : ∃ σ, σ = R ((-α / N : ℚ) : ℝ) := ⟨_, rfl⟩
    have d1 : fdiv (fun q => R q) (Fp.neg (Fp.fin α)) (.fin N) = .fin σ := by
      show rounded _ (if N = 0 then _ else Fp.fin (-α / N)) = _
      rw [if_neg Nne, hσ]; exact r1
    rw [← hσ, ez] at r3
    have σb : |(σ : ℝ)| ≤ 101 / 100 * (|(α : ℝ)| / N) + 1 / 1000000 := by
      have h3 := abs_sub_abs_le_abs_sub (σ : ℝ) ((-α / N : ℚ) : ℝ)
      rw [ez] at h3
      have h4 := tiny_small
      have h5 : 0 ≤ |(α : ℝ)| / N := by positivity
      have h6 : (tiny : ℝ) ≤ 1 / 1000000 := h4.trans (by norm_num)
      have h7 : |(α : ℝ)| / N / 2 ^ 53 ≤ 1 / 100 * (|(α : ℝ)| / N) := by norm_num; linarith
      linarith
    rw [d1]
    have res : ∀ i, Ab 4 (fmul (fun q => R q) (.fin σ) (P i)) 0 := by
      intro i
      obtain ⟨P1, -, P3⟩ := (Pe i).val
      have p1 : |(fval (P i) : ℝ)| ≤ 101 / 100 * N := (abs_le_nrm (vals P) i).trans Pl
      rw [sub_zero] at P3
      have zb : |((σ * fval (P i) : ℚ) : ℝ)| ≤ 33 / 10 := by
        push_cast
        rw [abs_mul]
        have h5 : 0 ≤ |(α : ℝ)| / N := by positivity
        have k1 : |(σ : ℝ)| * |(fval (P i) : ℝ)| ≤ (101 / 100 * (|(α : ℝ)| / N) + 1 / 1000000) * |(fval (P i) : ℝ)| := mul_le_mul_of_nonneg_right σb (abs_nonneg _)
        have k2 : |(α : ℝ)| / N * |(fval (P i) : ℝ)| ≤ |(α : ℝ)| / N * (101 / 100 * N) := mul_le_mul_of_nonneg_left p1 h5
        have k3 : |(α : ℝ)| / N * (101 / 100 * N) = 101 / 100 * |(α : ℝ)| := by field_simp
        linarith
      obtain ⟨r, q1, q2, q3⟩ := Ab.op hR (z := σ * fval (P i)) (x := ((σ * fval (P i) : ℚ) : ℝ)) (e := 0) (by linarith) (by simp)
      refine ⟨r, ?_, q2, ?_⟩
      · rw [P1]; exact q1
      · have := abs_sub_abs_le_abs_sub (r : ℝ) ((σ * fval (P i) : ℚ) : ℝ)
        rw [sub_zero]; linarith
    refine ⟨fun i => (res i).isFinite (by norm_num), fun i => ?_⟩
    have := (res i).val.2.2
    rw [sub_zero] at this
    exact this

/-! ## The claim that fails -/

/-- the claim: a rotation vector shorter than a half turn comes back from the matrix that is computed of it up to 2^-31 -/
def C177_claim {R : ℝ → ℚ} (L : LogLib fun q => R q) : Prop := ∀ p : F3, Finite p → nrm (vals p) ≤ 3 → ∀ i, |vals (rvParams L (rvMatrix L p)) i - vals p i| ≤ 1 / 2 ^ 31

/-- a turn by 2^-30 -/
def small : F3 := ![.fin (1 / 2 ^ 30), .fin 0, .fin 0]

theorem small_double : IsDouble (1 / 2 ^ 30) := ⟨1, -30, by norm_num, by norm_num, by norm_num⟩

theorem small_finite : Finite small := by
  have z : Ab 0 (Fp.fin 0) 0 := by simpa using Ab.exact (q := 0) (by simpa using isDouble_int 0 (by norm_num))
  have s : Ab 0 (Fp.fin (1 / 2 ^ 30)) ((1 / 2 ^ 30 : ℚ) : ℝ) := Ab.exact small_double
  intro i
  fin_cases i
  · exact s.isFinite (by norm_num)
  · exact z.isFinite (by norm_num)
  · exact z.isFinite (by norm_num)

theorem small_nrm : nrm (vals small) = 1 / 2 ^ 30 := by
  have : Kinematics.sqNorm (vals small) = 1 / 2 ^ 30 * (1 / 2 ^ 30) := by norm_num [small, Kinematics.sqNorm, Fin.sum_univ_succ, vals, fval]
  rw [Kinematics.norm, this, Real.sqrt_mul_self (by norm_num)]

theorem rnd_mono {R : ℝ → ℚ} (hR : IsRndR R) {x y : ℝ} (h : x < y) : R x ≤ R y := by
  by_contra hc
  have hc : R y < R x := not_le.1 hc
  have hc' : (R y : ℝ) < R x := by exact_mod_cast hc
  have h1 := sq_le_sq.2 (hR.near x (R y) (hR.mem y))
  have h2 := sq_le_sq.2 (hR.near y (R x) (hR.mem x))
  nlinarith

theorem even_eq : (fun q : ℚ => rndEvenReal q) = rndEven := funext rndEvenReal_rat

theorem cos_small : rndEvenReal (Real.cos ((1 / 2 ^ 30 : ℚ) : ℝ)) = 1 := by
  have hR := isRndR_rndEvenReal
  have h1 := Real.one_sub_sq_div_two_le_cos (x := ((1 / 2 ^ 30 : ℚ) : ℝ))
  have h2 := Real.cos_le_one ((1 / 2 ^ 30 : ℚ) : ℝ)
  have lo : ((1 - 1 / 2 ^ 60 : ℚ) : ℝ) < Real.cos ((1 / 2 ^ 30 : ℚ) : ℝ) := by
    refine lt_of_lt_of_le ?_ h1
    push_cast; norm_num
  have hi : Real.cos ((1 / 2 ^ 30 : ℚ) : ℝ) < ((1 + 1 / 2 ^ 60 : ℚ) : ℝ) := by
    refine lt_of_le_of_lt h2 ?_
    push_cast; norm_num
  have a := rnd_mono hR lo
  have b := rnd_mono hR hi
  rw [rndEvenReal_rat] at a b
  have ea : rndEven (1 - 1 / 2 ^ 60) = 1 := by decide +kernel
  have eb : rndEven (1 + 1 / 2 ^ 60) = 1 := by decide +kernel
  rw [ea] at a
  rw [eb] at b
  exact le_antisymm b a

theorem small_norm3 : norm3 Lib.rounded small = .fin (1 / 2 ^ 30) := by
  unfold norm3
  have e1 : Lib.rounded.sum3 (fmul (fun q => rndEvenReal q) (small 0) (small 0)) (fmul (fun q => rndEvenReal q) (small 1) (small 1)) (fmul (fun q => rndEvenReal q) (small 2) (small 2)) = .fin (1 / 2 ^ 60) := by
    show fadd (fun q => rndEvenReal q) (fadd (fun q => rndEvenReal q) (fmul (fun q => rndEvenReal q) (.fin (1 / 2 ^ 30)) (.fin (1 / 2 ^ 30))) (fmul (fun q => rndEvenReal q) (.fin 0) (.fin 0))) (fmul (fun q => rndEvenReal q) (.fin 0) (.fin 0)) = _
    rw [even_eq]
    decide +kernel
  rw [e1]
  show (if (1 / 2 ^ 60 : ℚ) < 0 then Fp.nan else Fp.fin (rndEvenReal (Real.sqrt ((1 / 2 ^ 60 : ℚ) : ℝ)))) = _
  rw [if_neg (by norm_num)]
  have e2 : Real.sqrt ((1 / 2 ^ 60 : ℚ) : ℝ) = ((1 / 2 ^ 30 : ℚ) : ℝ) := by
    have : ((1 / 2 ^ 60 : ℚ) : ℝ) = ((1 / 2 ^ 30 : ℚ) : ℝ) * ((1 / 2 ^ 30 : ℚ) : ℝ) := by push_cast; norm_num
    rw [this, Real.sqrt_mul_self (by norm_num)]
  rw [e2, rndEvenReal_rat]
  have : rndEven (1 / 2 ^ 30) = 1 / 2 ^ 30 := by decide +kernel
  rw [this]

/-- **C177** A rotation vector of length 2^-30 comes back as zero: the cosine of its length is 1 in doubles. -/
theorem C177_negation : ¬ C177_claim LogLib.rounded := by
  intro h
  have key : rvParams LogLib.rounded (rvMatrix LogLib.rounded small) = fun _ => .fin 0 := by
    have lit : rndEvenReal (1 / 10 ^ 14) = rndEven (1 / 10 ^ 14) := by
      have : (1 / 10 ^ 14 : ℝ) = ((1 / 10 ^ 14 : ℚ) : ℝ) := by push_cast; rfl
      rw [this, rndEvenReal_rat]
    have m : rvMatrix LogLib.rounded small = rodriguesD rndEvenReal (.fin 1) (.fin 0) (.fin 0) (libm Lib.rounded.sin (.fin (1 / 2 ^ 30))) (.fin 1) := by
      unfold rvMatrix
      have hn : norm3 LogLib.rounded.toLib small = .fin (1 / 2 ^ 30) := small_norm3
      simp only [hn]
      rw [if_neg]
      · have c1 : libm LogLib.rounded.cos (.fin (1 / 2 ^ 30)) = .fin 1 := by
          show Fp.fin (rndEvenReal (Real.cos ((1 / 2 ^ 30 : ℚ) : ℝ))) = _
          rw [cos_small]
        rw [c1]
        have e0 : fmul (fun q => rndEvenReal q) (small 0) (fdiv (fun q => rndEvenReal q) (.fin 1) (.fin (1 / 2 ^ 30))) = .fin 1 := by
          show fmul (fun q => rndEvenReal q) (.fin (1 / 2 ^ 30)) _ = _
          rw [even_eq]; decide +kernel
        have e1 : fmul (fun q => rndEvenReal q) (small 1) (fdiv (fun q => rndEvenReal q) (.fin 1) (.fin (1 / 2 ^ 30))) = .fin 0 := by
          show fmul (fun q => rndEvenReal q) (.fin 0) _ = _
          rw [even_eq]; decide +kernel
        have e2 : fmul (fun q => rndEvenReal q) (small 2) (fdiv (fun q => rndEvenReal q) (.fin 1) (.fin (1 / 2 ^ 30))) = .fin 0 := by
          show fmul (fun q => rndEvenReal q) (.fin 0) _ = _
          rw [even_eq]; decide +kernel
        rw [e0, e1, e2]
        rfl
      · rw [lit]; decide +kernel
    rw [m]
    unfold rvParams
    have tr : fmul (fun q => rndEvenReal q) (fsub (fun q => rndEvenReal q) (fadd (fun q => rndEvenReal q) (fadd (fun q => rndEvenReal q)
        (rodriguesD rndEvenReal (.fin 1) (.fin 0) (.fin 0) (libm Lib.rounded.sin (.fin (1 / 2 ^ 30))) (.fin 1) 0 0)
        (rodriguesD rndEvenReal (.fin 1) (.fin 0) (.fin 0) (libm Lib.rounded.sin (.fin (1 / 2 ^ 30))) (.fin 1) 1 1))
        (rodriguesD rndEvenReal (.fin 1) (.fin 0) (.fin 0) (libm Lib.rounded.sin (.fin (1 / 2 ^ 30))) (.fin 1) 2 2)) (.fin 1)) (.fin (1 / 2)) = .fin 1 := by
      have d0 : rodriguesD rndEvenReal (.fin 1) (.fin 0) (.fin 0) (libm Lib.rounded.sin (.fin (1 / 2 ^ 30))) (.fin 1) 0 0 = .fin 1 := by
        show fadd (fun q => rndEvenReal q) (fmul (fun q => rndEvenReal q) (.fin 1) (.fin 1)) (fmul (fun q => rndEvenReal q) (.fin 1) (fsub (fun q => rndEvenReal q) (.fin 1) (fmul (fun q => rndEvenReal q) (.fin 1) (.fin 1)))) = _
        rw [even_eq]; decide +kernel
      have d1 : rodriguesD rndEvenReal (.fin 1) (.fin 0) (.fin 0) (libm Lib.rounded.sin (.fin (1 / 2 ^ 30))) (.fin 1) 1 1 = .fin 1 := by
        show fadd (fun q => rndEvenReal q) (fmul (fun q => rndEvenReal q) (.fin 0) (.fin 0)) (fmul (fun q => rndEvenReal q) (.fin 1) (fsub (fun q => rndEvenReal q) (.fin 1) (fmul (fun q => rndEvenReal q) (.fin 0) (.fin 0)))) = _
        rw [even_eq]; decide +kernel
      have d2 : rodriguesD rndEvenReal (.fin 1) (.fin 0) (.fin 0) (libm Lib.rounded.sin (.fin (1 / 2 ^ 30))) (.fin 1) 2 2 = .fin 1 := d1
      rw [d0, d1, d2, even_eq]
      decide +kernel
    simp only [tr]
    rw [if_pos]
    have e1 : Fp.max (.fin (-1)) (fmin (.fin 1) (.fin 1)) = .fin 1 := clamp_id (by simp)
    rw [e1]
    have e2 : libmUnit LogLib.rounded.acos (.fin 1) = .fin 0 := by
      show (if |(1 : ℚ)| ≤ 1 then Fp.fin (rndEvenReal (Real.arccos ((1 : ℚ) : ℝ))) else Fp.nan) = _
      rw [if_pos (by simp), Rat.cast_one, Real.arccos_one]
      have : rndEvenReal (0 : ℝ) = rndEven 0 := by
        have := rndEvenReal_rat 0
        rwa [Rat.cast_zero] at this
      rw [this]
      have : rndEven 0 = 0 := by decide +kernel
      rw [this]
    rw [e2, lit]
    decide +kernel
  have := h small small_finite (by rw [small_nrm]; norm_num) 0
  rw [key] at this
  norm_num [vals, fval, small] at this

/-! ## The hypotheses hold -/

theorem sin_three : 1 / 8 ≤ Real.sin 3 := by
  have h1 := Real.pi_gt_d2
  have h2 := Real.pi_lt_d2
  have h3 : Real.sin 3 = Real.sin (Real.pi - 3) := (Real.sin_pi_sub 3).symm
  rw [h3]
  have h4 := Real.sin_gt_sub_cube (x := Real.pi - 3) (by norm_num at h1 ⊢; linarith)
  obtain ⟨y, hy⟩ : ∃ y, y = Real.pi - 3 := ⟨_, rfl⟩
  rw [← hy] at h4 ⊢
  have y1 : 14 / 100 ≤ y := by norm_num at h1 ⊢; linarith
  have y2 : y ≤ 15 / 100 := by norm_num at h2 ⊢; linarith
  have y3 : y ^ 3 ≤ (15 / 100) ^ 3 := pow_le_pow_left₀ (by linarith) y2 3
  norm_num at y3
  linarith

/-- a turn by three radians about the axis (2, 2, 1) -/
example : EntriesNear (rvMatrix LogLib.rounded turnU.2) (NormedSpace.exp (-Kinematics.crossMx (vals turnU.2))) (1 / 2 ^ 45) :=
  C177_matrix isRndR_rndEvenReal LogLib.rounded turnU.2 turnU_finite.1 (by rw [turnU_norm]; norm_num) _ (Kinematics.generator_crossMx _)

example : EntriesNear (axisAngle2RV LogLib.rounded turnU.2) (NormedSpace.exp (-Kinematics.crossMx (vals turnU.2))) (1 / 2 ^ 45) :=
  (C177_axis_angle isRndR_rndEvenReal LogLib.rounded turnU.2 turnU_finite.1 (by rw [turnU_norm]; norm_num) _ (Kinematics.generator_crossMx _)).2 (by rw [turnU_norm]; norm_num)

example (i : Fin 3) : |vals (rvParams LogLib.rounded (rvMatrix LogLib.rounded turnU.2)) i - vals turnU.2 i| ≤ 1 / 2 ^ 39 / (1 / 8) :=
  (C177_round_trip isRndR_rndEvenReal LogLib.rounded turnU.2 turnU_finite.1 (by rw [turnU_norm]; exact Real.pi_gt_three.le) (1 / 8) (by norm_num) (by rw [turnU_norm]; exact sin_three)).2 i

/-- a matrix that is no rotation -/
example : Finite (rvParams LogLib.rounded !![.fin 2, .fin 1, .fin 0; .fin (-1), .fin 2, .fin 0; .fin 0, .fin 0, .fin 2]) := by
  refine (C177_finite isRndR_rndEvenReal LogLib.rounded _ ?_ ?_).1
  · have ok : ∀ n : ℤ, |n| ≤ 2 → (Fp.fin n).isFinite ∧ IsDoubleVal (.fin n) := by
      intro n hn
      have hn' : |(n : ℝ)| ≤ 2 := by exact_mod_cast hn
      exact fin_ok (isDouble_int n (lt_of_le_of_lt hn (by norm_num))) (by push_cast; linarith)
    have o0 := ok 0 (by norm_num)
    have o1 := ok 1 (by norm_num)
    have o2 := ok 2 (by norm_num)
    have o3 := ok (-1) (by norm_num)
    simp only [Int.cast_zero, Int.cast_one, Int.cast_ofNat, Int.cast_neg] at o0 o1 o2 o3
    intro i j
    fin_cases i <;> fin_cases j <;> first | exact o0 | exact o1 | exact o2 | exact o3
  · intro i j
    fin_cases i <;> fin_cases j <;> simp [valsM, fval]

/-- the turn about the z axis with the quaternion (0, 0, 3, 4) / 5 -/
example (i : Fin 3) : |vals (rvParams LogLib.rounded (TransformationD.C rndEvenReal (turn.run (Eigen.plain fun q => rndEvenReal q)))) i - Real.arccos (7 / 25) * (![0, 0, 1] : V3) i| ≤ 64 * (turn.steps / 2 ^ 43 / (1 / 2)) := by
  have hs : Real.sin (Real.arccos (7 / 25)) = 24 / 25 := by
    rw [Real.sin_arccos, show (1 : ℝ) - (7 / 25) ^ 2 = (24 / 25) ^ 2 by norm_num, Real.sqrt_sq (by norm_num)]
  have hc : Real.cos (Real.arccos (7 / 25)) = 7 / 25 := Real.cos_arccos (by norm_num) (by norm_num)
  refine (C177_pose_partial isRndR_rndEvenReal LogLib.rounded (Eigen.plain fun q => rndEvenReal q) turn turn_rotations (by norm_num [turn, Build.steps]) ![0, 0, 1] (Real.arccos (7 / 25)) (1 / 2) (by simp [IsUnit3])
    (Real.arccos_nonneg _) (Real.arccos_le_pi _) ?_ (by norm_num) (by rw [hs]; norm_num) (by norm_num [turn, Build.steps])).2 i
  have hv : vals (![.fin 0, .fin 0, .fin 3, .fin 4] : F4) = ![0, 0, 3, 4] := by
    funext i; fin_cases i <;> simp [vals, fval]
  have hq : turn.exact.q = ![0, 0, 3 / 5, 4 / 5] := by
    show (fun i => vals _ i / Kinematics.norm (vals _)) = _
    rw [turn_norm, hv]
    funext i
    fin_cases i <;> simp
  have e1 : Kinematics.Transformation.C turn.exact = Kinematics.quat2r ![0, 0, 3 / 5, 4 / 5] := by unfold Kinematics.Transformation.C; rw [hq]
  have e2 : Kinematics.rodrigues (Real.arccos (7 / 25)) ![0, 0, 1] = Kinematics.quat2r ![0, 0, 3 / 5, 4 / 5] := by
    unfold Kinematics.rodrigues
    simp only [hs, hc]
    ext i j
    fin_cases i <;> fin_cases j <;> simp [Kinematics.quat2r] <;> norm_num
  rw [e1, ← e2]
  exact Kinematics.rodrigues_about _ _ (by simp [IsUnit3])

end Verif.RotVecDouble
