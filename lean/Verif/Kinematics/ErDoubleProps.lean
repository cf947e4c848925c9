import Verif.Kinematics.ErDoubleLemmas
import Verif.Kinematics.ParamProps

/-!
# C178: the Euler-Rodriguez parameters in doubles

A vector `p` of Euler-Rodriguez parameters stands for the rotation by `a` about the unit axis `n`, where `p = tan(a/2) n`.
-/

namespace Verif.ErDouble

open Verif.Common Verif.KinematicsDouble Verif.EulerDouble Verif.RotVecDouble
open Verif.Kinematics (V3 V4 M3 IsRotationAbout IsUnit3)

local notation "nrm" => Kinematics.norm

theorem abs_div_two {a : ℝ} (ha : |a| < Real.pi) : 0 < Real.cos (a / 2) := by
  have h := abs_lt.1 ha
  exact Real.cos_pos_of_mem_Ioo ⟨by linarith, by linarith⟩

/-- the exact matrix of the class is the rotation that `p` stands for -/
theorem exact_matrix {p n : V3} {a : ℝ} (hn : IsUnit3 n) (ha : |a| < Real.pi) (hp : ∀ i, p i = Real.tan (a / 2) * n i) : Kinematics.erMatrix p = Kinematics.rodrigues a n := by
  have c0 := abs_div_two ha
  have hq : 1 + Kinematics.sqNorm p = 1 / Real.cos (a / 2) ^ 2 := by
    unfold IsUnit3 at hn
    rw [Kinematics.sq3, hp, hp, hp, Real.tan_eq_sin_div_cos]
    field_simp
    have := Real.sin_sq_add_cos_sq (a / 2)
    linear_combination this + Real.sin (a / 2) ^ 2 * hn
  rw [Kinematics.er_quat, Kinematics.rodrigues_quat _ _ hn]
  congr 1
  unfold Kinematics.erQuat Kinematics.aaQuat
  have hr : 1 / Real.sqrt (1 + Kinematics.sqNorm p) = Real.cos (a / 2) := by
    rw [hq, Real.sqrt_div (by norm_num), Real.sqrt_one, Real.sqrt_sq c0.le, one_div_one_div]
  simp only [hr, hp, Real.tan_eq_sin_div_cos]
  apply Kinematics.ext4 <;> simp
  all_goals field_simp

section
variable {R : ℝ → ℚ} (hR : IsRndR R) (L : Lib fun q => R q)
include hR

/-- **C178** The matrix that `EulerRodriguez` computes of every finite vector of length at most 2^100 is finite, and each of its entries is that of the rotation by `a` about `n`, where the vector is `tan(a/2) n`, up to 2^-47. -/
theorem C178_matrix (p : F3) (hp : Finite p) (hb : nrm (vals p) ≤ 2 ^ (100 : ℤ)) (C : M3) (n : V3) (a : ℝ) (hn : IsUnit3 n) (ha : |a| < Real.pi) (hpn : ∀ i, vals p i = Real.tan (a / 2) * n i)
    (hC : IsRotationAbout C n a) : EntriesNear (erMatrix L p) C (1 / 2 ^ 47) := by
  have e := exact_matrix hn ha hpn
  rw [spec_eq hn hC, ← e]
  exact matrix_err hR L hp hb fun i j => by rw [e]; exact rodrigues_le hn i j

/-- the entries of the `S` matrix -/
theorem erS_err {p : F3} (hp : Finite p) (hb : nrm (vals p) ≤ 2 ^ (100 : ℤ)) (i j : Fin 3) :
    (erS L p i j).isFinite ∧ IsDoubleVal (erS L p i j) ∧ |valsM (erS L p) i j - Kinematics.erS (vals p) i j| ≤ 9 / 2 ^ 53 * |Kinematics.erS (vals p) i j| + 1 / 2 ^ 200 := by
  obtain ⟨f, hf, -, fe⟩ := factor_err hR L hp hb
  have q0 := Kinematics.sqNorm_nonneg (vals p)
  obtain ⟨q, hq⟩ : ∃ q, q = Kinematics.sqNorm (vals p) := ⟨_, rfl⟩
  obtain ⟨⟨c1, c2⟩, c3⟩ := cross_fin hp i j
  obtain ⟨cl, -, cd⟩ := cross_le (vals p) i j
  have ES : Kinematics.erS (vals p) i j = 2 / (1 + q) * ((1 : M3) i j - Kinematics.crossMx (vals p) i j) := by
    rw [hq]; simp [Kinematics.erS]
  rw [ES]
  rw [← hq] at q0 cl fe
  -- the difference is exact
  obtain ⟨d, hd, dd, dv⟩ : ∃ d : ℚ, fsub (fun q => R q) (oneD i j) (crossMx p i j) = .fin d ∧ IsDouble d ∧ (d : ℝ) = (1 : M3) i j - Kinematics.crossMx (vals p) i j := by
    have exact : ∀ {z : ℚ}, IsDouble z → |z| < tooBig → rounded (fun q => R q) (.fin z) = .fin z := fun {z} h h' => by
      have e : R (z : ℝ) = z := by
        have := hR.near z z h
        rw [sub_self, abs_zero] at this
        have := abs_nonpos_iff.1 this
        exact_mod_cast sub_eq_zero.1 this
      show (if |R (z : ℝ)| < tooBig then Fp.fin (R z) else _) = _
      rw [e, if_pos h']
    by_cases hij : i = j
    · subst hij
      refine ⟨1, ?_, by simpa using isDouble_int 1 (by norm_num), by rw [cd rfl]; simp⟩
      have : crossMx p i i = .fin 0 := by fin_cases i <;> rfl
      rw [this]
      show fsub _ (oneD i i) _ = _
      have e : oneD i i = .fin 1 := by simp [oneD]
      rw [e]
      show rounded _ (.fin (1 + -0)) = _
      rw [show (1 : ℚ) + -0 = 1 by norm_num]
      refine exact (by simpa using isDouble_int 1 (by norm_num)) ?_
      unfold tooBig
      rw [abs_one]
      exact one_lt_pow₀ (by norm_num) (by norm_num)
    · have e : oneD i j = .fin 0 := by simp [oneD, hij]
      have hc : crossMx p i j = .fin (fval (crossMx p i j)) := by
        have h : Finite (fun k => crossMx p i k) := fun k => (cross_fin hp i k).1
        exact (h.fin j).1
      obtain ⟨c, hcc⟩ : ∃ c, c = fval (crossMx p i j) := ⟨_, rfl⟩
      rw [← hcc] at hc c3
      rw [hc] at c2
      have c2 : IsDouble c ∧ |c| < tooBig := c2
      refine ⟨-c, ?_, c2.1.neg, by push_cast; rw [c3]; simp [hij]⟩
      rw [e, hc]
      show rounded _ (.fin (0 + -c)) = _
      rw [zero_add]
      exact exact c2.1.neg (by rw [abs_neg]; exact c2.2)
  have eS : erS L p i j = rounded (fun q => R q) (.fin (f * d)) := by
    unfold erS
    rw [hf, hd]; rfl
  rw [← dv]
  have Fp : 0 < 2 / (1 + q) := by positivity
  obtain ⟨F, hF⟩ : ∃ F, F = 2 / (1 + q) := ⟨_, rfl⟩
  rw [← hF] at fe Fp
  -- the size
  have size : F * |(d : ℝ)| ≤ 2 := by
    have d1 : |(d : ℝ)| ≤ 1 + q := by
      rw [dv]
      by_cases hij : i = j
      · rw [cd hij, sub_zero, hij, Matrix.one_apply_eq, abs_one]; linarith
      · rw [Matrix.one_apply_ne hij, zero_sub, abs_neg]; linarith
    have h : 0 < 1 + q := by linarith
    rw [hF, div_mul_eq_mul_div, div_le_iff₀ h]
    linarith
  have e1 : |((f * d : ℚ) : ℝ) - F * d| ≤ 73 / 10 * (1 / 2 ^ 53) * (F * |(d : ℝ)|) := by
    have : ((f * d : ℚ) : ℝ) - F * d = (f - F) * d := by push_cast; ring
    rw [this, abs_mul]
    exact (mul_le_mul_of_nonneg_right fe (abs_nonneg _)).trans (le_of_eq (by ring))
  have Fd : |F * (d : ℝ)| = F * |(d : ℝ)| := by rw [abs_mul, abs_of_pos Fp]
  have e0 : |((f * d : ℚ) : ℝ)| ≤ (1 + 1 / 1000) * (F * |(d : ℝ)|) := by
    have h1 := abs_sub_abs_le_abs_sub ((f * d : ℚ) : ℝ) (F * d)
    have h2 : (73 : ℝ) / 10 * (1 / 2 ^ 53) * (F * |(d : ℝ)|) ≤ 1 / 1000 * (F * |(d : ℝ)|) := mul_le_mul_of_nonneg_right (by norm_num) (by positivity)
    linarith
  have hz : |((f * d : ℚ) : ℝ)| ≤ 4 := by linarith
  obtain ⟨r1, r2, r3⟩ := round_mid hR (z := f * d) (hz.trans (four_le (by norm_num)))
  have A : Ab 12 (erS L p i j) 0 := by
    refine ⟨_, eS.trans r1, r2, ?_⟩
    rw [sub_zero]
    have h1 := abs_sub_abs_le_abs_sub (R ((f * d : ℚ) : ℝ) : ℝ) ((f * d : ℚ) : ℝ)
    have h2 := r3.trans (add_le_add le_rfl tiny_small)
    have h3 : |((f * d : ℚ) : ℝ)| / 2 ^ 53 ≤ 1 := (div_le_div_of_nonneg_right hz (by norm_num)).trans (by norm_num)
    have h4 : (1 : ℝ) / 2 ^ 200 ≤ 1 := by norm_num
    linarith
  obtain ⟨f1, f2⟩ := A.isFinite (by norm_num)
  refine ⟨f1, f2, ?_⟩
  have ev : valsM (erS L p) i j = R ((f * d : ℚ) : ℝ) := by
    show (fval (erS L p i j) : ℝ) = _
    rw [eS, r1]; rfl
  rw [ev, ← hF, Fd]
  have h1 := abs_sub_le (R ((f * d : ℚ) : ℝ) : ℝ) ((f * d : ℚ) : ℝ) (F * d)
  have h2 := r3.trans (add_le_add (div_le_div_of_nonneg_right e0 (by norm_num : (0 : ℝ) ≤ 2 ^ 53)) tiny_small)
  have h3 : (1 + 1 / 1000) * (F * |(d : ℝ)|) / 2 ^ 53 + 73 / 10 * (1 / 2 ^ 53) * (F * |(d : ℝ)|) ≤ 9 / 2 ^ 53 * (F * |(d : ℝ)|) := by
    have : (1 + 1 / 1000) * (F * |(d : ℝ)|) / 2 ^ 53 + 73 / 10 * (1 / 2 ^ 53) * (F * |(d : ℝ)|) = ((1 + 1 / 1000) / 2 ^ 53 + 73 / 10 * (1 / 2 ^ 53)) * (F * |(d : ℝ)|) := by ring
    rw [this]
    exact mul_le_mul_of_nonneg_right (by norm_num) (by positivity)
  linarith

/-- **C178** The `S` matrix, which takes the rates of the parameters to the angular velocity: each entry has a small relative error. -/
theorem C178_smatrix (p : F3) (hp : Finite p) (hb : nrm (vals p) ≤ 2 ^ (100 : ℤ)) : ∃ S : M3, Kinematics.IsSMatrix Kinematics.erMatrix S (vals p) ∧
    ∀ i j, (erS L p i j).isFinite ∧ IsDoubleVal (erS L p i j) ∧ |valsM (erS L p) i j - S i j| ≤ 9 / 2 ^ 53 * |S i j| + 1 / 2 ^ 200 :=
  ⟨_, (Kinematics.C61_rodriguez (vals p) 0).2.1, fun i j => erS_err hR L hp hb i j⟩

end

/-! ## From matrices to parameters -/

/-- the tangent of half the angle; `g` is `e/δ³` -/
theorem tan_core {g δ a α h t : ℝ} (g0 : 0 < g) (δ0 : 0 < δ) (δ1 : δ ≤ 1) (a0 : 0 ≤ a) (aπ : a ≤ Real.pi) (hδ : δ ≤ Real.sin a) (he : 1 / 2 ^ 51 ≤ g * δ ^ 3) (h64 : 64 * (g * δ ^ 3) ≤ δ * δ)
    (αe : |α - a| ≤ 138 / 10 * (g * δ ^ 2)) (hh : |h - α / 2| ≤ 1 / 2 ^ 51) (ht : |t - Real.tan h| ≤ |Real.tan h| / 2 ^ 52 + 1 / 2 ^ 199) :
    δ / 3 ≤ t ∧ t ≤ 267 / 100 / δ ∧ |t - Real.tan (a / 2)| ≤ 434 / 10 * g ∧ |Real.tan (a / 2)| ≤ 2 / δ := by
  have pi0 := Real.pi_pos
  obtain ⟨e, hE⟩ : ∃ e, e = g * δ ^ 3 := ⟨_, rfl⟩
  obtain ⟨k, hk⟩ : ∃ k, k = g * δ ^ 2 := ⟨_, rfl⟩
  have k0 : 0 < k := by rw [hk]; positivity
  have ek : e = k * δ := by rw [hE, hk]; ring
  have ek' : e ≤ k := by rw [ek]; nlinarith
  have kg : k ≤ g := by
    rw [hk]
    have : δ ^ 2 ≤ 1 := by nlinarith
    nlinarith
  have k64 : 64 * k ≤ δ := by
    rw [← hE, ek] at h64
    have : 64 * k * δ ≤ δ * δ := by linarith
    exact le_of_mul_le_mul_right this δ0
  rw [← hE] at he
  rw [← hk] at αe
  have α' := abs_le.1 αe
  have h' := abs_le.1 hh
  have hd : |h - a / 2| ≤ 79 / 10 * k := by
    rw [abs_le]; constructor <;> linarith
  have hd' := abs_le.1 hd
  -- the cosines
  have s2 : Real.sin a = 2 * Real.sin (a / 2) * Real.cos (a / 2) := by rw [← Real.sin_two_mul]; congr 1; ring
  have c0 : 0 ≤ Real.cos (a / 2) := Real.cos_nonneg_of_mem_Icc ⟨by linarith, by linarith⟩
  have sl := Real.sin_le_one (a / 2)
  have C1 : δ / 2 ≤ Real.cos (a / 2) := by nlinarith
  have cc := (abs_le.1 (Real.abs_cos_sub_cos_le h (a / 2))).1
  have C2 : 376 / 1000 * δ ≤ Real.cos h := by linarith
  have C1p : 0 < Real.cos (a / 2) := by linarith
  have C2p : 0 < Real.cos h := lt_of_lt_of_le (by positivity) C2
  have sa : δ ≤ a := hδ.trans (Real.sin_le a0)
  have hl : 376 / 1000 * δ ≤ h := by linarith
  have hpi : h < Real.pi / 2 := by
    by_contra hn
    have hn := not_lt.1 hn
    have : Real.cos h ≤ 0 := Real.cos_nonpos_of_pi_div_two_le_of_le hn (by linarith [Real.pi_gt_three])
    linarith
  have tl : h ≤ Real.tan h := Real.le_tan (by linarith) hpi
  have tp : 0 < Real.tan h := by linarith
  have bound : ∀ {x C : ℝ}, 0 < C → C ≤ Real.cos x → |Real.tan x| ≤ 1 / C := by
    intro x C hC h
    rw [Real.tan_eq_sin_div_cos, abs_div, abs_of_pos (lt_of_lt_of_le hC h)]
    exact div_le_div₀ (by norm_num) (Real.abs_sin_le_one x) hC h
  have tu := bound (x := h) (by positivity) C2
  have Tu := bound (x := a / 2) (by positivity) C1
  have t1 : (1 : ℝ) / (376 / 1000 * δ) ≤ 266 / 100 / δ := by
    rw [div_le_div_iff₀ (by positivity) δ0]; linarith
  have t2 : (1 : ℝ) / (δ / 2) = 2 / δ := by field_simp
  rw [t2] at Tu
  have tu' := tu.trans t1
  have kδ : k ≤ 1 / δ / 64 := by
    rw [div_div, le_div_iff₀ (by positivity)]
    nlinarith
  have e199 : (1 : ℝ) / 2 ^ 199 ≤ 1 / 1000 * (1 / 2 ^ 51) := by norm_num
  have i1 : 1 ≤ 1 / δ := by rw [le_div_iff₀ δ0]; linarith
  have ku : (1 : ℝ) / 2 ^ 51 * (1 / δ) ≤ k := by
    rw [mul_one_div, div_le_iff₀ δ0, ← ek]; exact he
  rw [abs_of_pos tp] at ht tu'
  have tu3 : Real.tan h ≤ 266 / 100 * (1 / δ) := by rw [mul_one_div]; exact tu'
  have err : |t - Real.tan h| ≤ 134 / 100 * k := by
    refine ht.trans ?_
    have : Real.tan h / 2 ^ 52 ≤ 133 / 100 * (1 / 2 ^ 51 * (1 / δ)) := by
      rw [div_le_iff₀ (by norm_num)]
      refine tu3.trans (le_of_eq ?_)
      norm_num
      ring
    linarith
  have err' := abs_le.1 err
  have diff : |Real.tan h - Real.tan (a / 2)| ≤ 4205 / 100 * g := by
    have e1 : Real.tan h - Real.tan (a / 2) = Real.sin (h - a / 2) / (Real.cos h * Real.cos (a / 2)) := by
      rw [Real.tan_eq_sin_div_cos, Real.tan_eq_sin_div_cos, Real.sin_sub]
      field_simp
    rw [e1, abs_div, abs_of_pos (mul_pos C2p C1p), div_le_iff₀ (mul_pos C2p C1p)]
    have h1 : |Real.sin (h - a / 2)| ≤ |h - a / 2| := Real.abs_sin_le_abs
    have h2 : 376 / 1000 * δ * (δ / 2) ≤ Real.cos h * Real.cos (a / 2) := mul_le_mul C2 C1 (by positivity) C2p.le
    have h3 := mul_le_mul_of_nonneg_left h2 (by positivity : 0 ≤ 4205 / 100 * g)
    have h4 : 4205 / 100 * g * (376 / 1000 * δ * (δ / 2)) = 4205 / 100 * (376 / 2000) * k := by rw [hk]; ring
    rw [h4] at h3
    linarith
  refine ⟨by linarith, ?_, ?_, Tu⟩
  · rw [div_eq_mul_one_div]
    have h5 := (abs_le.1 ht).2
    have h6 : Real.tan h / 2 ^ 52 ≤ 1 / 1000 * (1 / δ) := by
      refine (div_le_div_of_nonneg_right tu3 (by norm_num)).trans ?_
      rw [mul_div_right_comm]
      exact mul_le_mul_of_nonneg_right (by norm_num) (by positivity)
    have h7 : (1 : ℝ) / 2 ^ 199 ≤ 1 / 1000 * (1 / δ) := le_trans (by norm_num) (mul_le_mul_of_nonneg_left i1 (by norm_num : (0 : ℝ) ≤ 1 / 1000))
    linarith
  · have := abs_sub_le t (Real.tan h) (Real.tan (a / 2))
    linarith

/-- the scaled component -/
theorem scale_core {g δ s T t N σ p x : ℝ} (g0 : 0 < g) (δ0 : 0 < δ) (δ1 : δ ≤ 1) (hδ : δ ≤ s) (s1 : s ≤ 1) (n1 : |x| ≤ 1) (he : 1 / 2 ^ 51 ≤ g * δ ^ 3) (h64 : 64 * (g * δ ^ 3) ≤ δ * δ)
    (tl : 0 < t) (tu : t ≤ 267 / 100 / δ) (te : |t - T| ≤ 434 / 10 * g) (Ne : |N - 2 * s| ≤ 10 * (g * δ ^ 3)) (r4 : |σ + t / N| ≤ t / N * (1 / 2 ^ 52)) (P3 : |p - -(2 * s) * x| ≤ 3 * (g * δ ^ 3)) :
    |σ * p - T * x| ≤ 65 * g := by
  obtain ⟨e, hE⟩ : ∃ e, e = g * δ ^ 3 := ⟨_, rfl⟩
  rw [← hE] at Ne P3 he h64
  have e0 : 0 < e := by rw [hE]; positivity
  have eδ : 64 * e ≤ δ := by nlinarith
  have N' := abs_le.1 Ne
  have Nl : 184 / 100 * δ ≤ N := by linarith
  have Np : 0 < N := lt_of_lt_of_le (by positivity) Nl
  obtain ⟨ρ, hρ⟩ : ∃ ρ, ρ = t / N := ⟨_, rfl⟩
  rw [← hρ] at r4
  have ρp : 0 < ρ := by rw [hρ]; positivity
  have ρN : ρ * N = t := by rw [hρ]; field_simp
  have ρb : ρ * (δ * δ) ≤ 146 / 100 := by
    have h1 : ρ * (184 / 100 * δ) ≤ t := by rw [← ρN]; exact mul_le_mul_of_nonneg_left Nl ρp.le
    have h2 : t * δ ≤ 267 / 100 := by rwa [le_div_iff₀ δ0] at tu
    nlinarith
  have ρe : ρ * e ≤ 146 / 100 * g := by
    have e1 : ρ * e = ρ * (δ * δ) * (g * δ) := by rw [hE]; ring
    rw [e1]
    have : g * δ ≤ g := by nlinarith
    exact mul_le_mul ρb this (by positivity) (by norm_num)
  obtain ⟨d, hd⟩ : ∃ d, d = p - -(2 * s) * x := ⟨_, rfl⟩
  obtain ⟨η, hη⟩ : ∃ η, η = σ + ρ := ⟨_, rfl⟩
  rw [← hd] at P3
  rw [← hη] at r4
  have ep : p = d - 2 * s * x := by rw [hd]; ring
  have eσ : σ = η - ρ := by rw [hη]; ring
  have key : σ * p - T * x = η * p - ρ * d + (ρ * (2 * s - N) + (t - T)) * x := by
    rw [eσ, ← ρN, ep]
    ring
  have s0 : 0 < s := lt_of_lt_of_le δ0 hδ
  have pb : |p| ≤ 21 / 10 := by
    rw [ep]
    have h1 := abs_sub d (2 * s * x)
    have h2 : |2 * s * x| ≤ 2 := by
      rw [abs_mul, abs_mul, abs_two, abs_of_pos s0]
      nlinarith [abs_nonneg x]
    linarith
  have k1 : |η * p| ≤ 21 / 20 * (ρ * e) := by
    rw [abs_mul]
    have h1 : |η| ≤ ρ * (e / 2) := r4.trans (mul_le_mul_of_nonneg_left (by norm_num at he ⊢; linarith) ρp.le)
    have := mul_le_mul h1 pb (abs_nonneg _) (by positivity)
    linarith
  have k2 : |ρ * d| ≤ 3 * (ρ * e) := by
    rw [abs_mul, abs_of_pos ρp]
    have := mul_le_mul_of_nonneg_left P3 ρp.le
    linarith
  have k3 : |ρ * (2 * s - N)| ≤ 10 * (ρ * e) := by
    rw [abs_mul, abs_of_pos ρp, abs_sub_comm]
    have := mul_le_mul_of_nonneg_left Ne ρp.le
    linarith
  have k4 : |(ρ * (2 * s - N) + (t - T)) * x| ≤ 10 * (ρ * e) + 434 / 10 * g := by
    rw [abs_mul]
    have h1 := abs_add_le (ρ * (2 * s - N)) (t - T)
    refine (mul_le_mul_of_nonneg_left n1 (abs_nonneg _)).trans ?_
    linarith
  rw [key]
  have j1 := abs_add_le (η * p - ρ * d) ((ρ * (2 * s - N) + (t - T)) * x)
  have j2 := abs_sub (η * p) (ρ * d)
  linarith

/-- the last rounding -/
theorem final_err {R : ℝ → ℚ} (hR : IsRndR R) {z : ℚ} {x g d : ℝ} (d1 : 1 ≤ d) (ib : d ≤ 2 ^ 23) (gu : 1 / 2 ^ 51 * d ≤ g) (gb : 64 * g ≤ d) (key : |(z : ℝ) - x| ≤ 65 * g) (an : |x| ≤ 2 * d) :
    (rounded (fun q => R q) (.fin z)).isFinite ∧ IsDoubleVal (rounded (fun q => R q) (.fin z)) ∧ |(fval (rounded (fun q => R q) (.fin z)) : ℝ) - x| ≤ 80 * g := by
  have zb : |(z : ℝ)| ≤ 4 * d := by
    have := abs_sub_abs_le_abs_sub (z : ℝ) x
    linarith
  have z30 : |(z : ℝ)| ≤ 2 ^ (30 : ℤ) := by
    refine zb.trans ((mul_le_mul_of_nonneg_left ib (by norm_num)).trans ?_)
    norm_num
  obtain ⟨q1, q2, q3⟩ := round_mid hR (z := z) (z30.trans (zpow_le_zpow_right₀ (by norm_num) (by norm_num)))
  obtain ⟨r, hr⟩ : ∃ r, r = R (z : ℝ) := ⟨_, rfl⟩
  rw [← hr] at q1 q2 q3
  have A : |(r : ℝ)| ≤ 2 ^ (31 : ℤ) := by
    have h1 := abs_sub_abs_le_abs_sub (r : ℝ) z
    have h2 := q3.trans (add_le_add (div_le_div_of_nonneg_right z30 (by norm_num : (0 : ℝ) ≤ 2 ^ 53)) tiny_small)
    norm_num at h1 h2 z30 ⊢
    linarith
  rw [q1]
  refine ⟨rfl, ⟨q2, ?_⟩, ?_⟩
  · have A' : |r| ≤ 2 ^ (31 : ℤ) := by exact_mod_cast A
    refine lt_of_le_of_lt A' ?_
    unfold tooBig
    rw [show (31 : ℤ) = ((31 : ℕ) : ℤ) from rfl, zpow_natCast]
    exact pow_lt_pow_right₀ (by norm_num) (by norm_num)
  · show |(r : ℝ) - x| ≤ _
    have h0 := abs_sub_le (r : ℝ) z x
    have h1 := q3.trans (add_le_add (div_le_div_of_nonneg_right zb (by norm_num : (0 : ℝ) ≤ 2 ^ 53)) tiny_small)
    have h3 : (4 : ℝ) * d / 2 ^ 53 = 1 / 2 ^ 51 * d := by ring
    have h4 : (1 : ℝ) / 2 ^ 200 ≤ 1 / 2 ^ 51 * d := le_trans (by norm_num) (mul_le_mul_of_nonneg_left d1 (by norm_num : (0 : ℝ) ≤ 1 / 2 ^ 51))
    linarith

/-- **C178** The parameters that are computed of a finite matrix whose entries are, up to `e`, those of the rotation by the angle `a` about the axis `n` are finite and are `tan(a/2) n` up to `80 e / δ³`, where `δ` is the sine of the
angle (or less): the nearer the rotation is to the identity or to a half turn, the less accurate the result. -/
theorem C178_params_partial {R : ℝ → ℚ} (hR : IsRndR R) (L : TanLib fun q => R q) (M : FM3) (C : M3) (n : V3) (a e δ : ℝ) (hn : IsUnit3 n) (a0 : 0 ≤ a) (aπ : a ≤ Real.pi) (hC : IsRotationAbout C n a) (hM : EntriesNear M C e)
    (he : 1 / 2 ^ 51 ≤ e) (δ0 : 0 < δ) (hδ : δ ≤ Real.sin a) (h64 : 64 * e ≤ δ * δ) : Finite (erParams L M) ∧ ∀ i, |vals (erParams L M) i - Real.tan (a / 2) * n i| ≤ 80 * (e / δ ^ 3) := by
  have hpi := Real.pi_lt_d2
  have ue : u51 ≤ e := he
  have u0 := u51_pos
  have e0 : 0 < e := lt_of_lt_of_le u0 ue
  have s1 := Real.sin_le_one a
  have δ1 : δ ≤ 1 := hδ.trans s1
  have e64 : 64 * e ≤ δ := h64.trans (by nlinarith)
  have es : e ≤ 1 / 64 := by linarith
  have δl : 1 / 2 ^ 23 ≤ δ := by
    by_contra h
    have h := not_le.1 h
    have : δ * δ ≤ 1 / 2 ^ 23 * (1 / 2 ^ 23) := mul_le_mul h.le h.le δ0.le (by norm_num)
    norm_num at this he
    linarith
  have Ce := spec_eq hn hC
  have B := fun i j => hM.ab i j
  have bC : ∀ i j, |C i j| ≤ 2 := fun i j => by rw [Ce]; exact rodrigues_le hn i j
  have bD : ∀ i j, -2 ≤ C i j ∧ C i j ≤ 2 := fun i j => abs_le.1 (bC i j)
  -- the trace
  have htr := Kinematics.rodrigues_trace a n hn
  rw [← Ce] at htr
  have one : Ab 0 (Fp.fin 1) 1 := by simpa using Ab.exact (q := 1) (by simpa using isDouble_int 1 (by norm_num))
  have half : Ab 0 (Fp.fin (1 / 2)) (1 / 2) := by
    have := Ab.exact (q := 1 / 2) ⟨1, -1, by norm_num, by norm_num, by norm_num⟩
    simpa using this
  have c1 := abs_le.1 (Real.abs_cos_le_one a)
  have t1 := Ab.add hR (B 0 0) (B 1 1) (by have := abs_add_le (C 0 0) (C 1 1); linarith [bC 0 0, bC 1 1])
  have t2 := Ab.add hR t1 (B 2 2) (by
    have := abs_add_le (C 0 0 + C 1 1) (C 2 2)
    have := abs_add_le (C 0 0) (C 1 1)
    linarith [bC 0 0, bC 1 1, bC 2 2])
  have t3 := Ab.sub hR t2 one (by
    have : |C 0 0 + C 1 1 + C 2 2 - 1| ≤ 2 := by rw [abs_le]; constructor <;> linarith
    linarith)
  have t4 := Ab.mul hR (X := 4) (Y := 1 / 2) t3 half (by
    have : |C 0 0 + C 1 1 + C 2 2 - 1| ≤ 2 := by rw [abs_le]; constructor <;> linarith
    linarith) (by norm_num) (by norm_num)
  rw [htr] at t4
  obtain ⟨m, hm, md, me⟩ := t4.mono (show _ ≤ 4 * e by linarith)
  -- the angle
  have cosφ : Real.sin (Real.pi / 2 - a) = Real.cos a := Real.sin_pi_div_two_sub a
  have hφ : |Real.pi / 2 - a| ≤ Real.pi / 2 := by rw [abs_le]; constructor <;> linarith
  obtain ⟨m1, mφ⟩ := asin_near (φ := Real.pi / 2 - a) (δ := δ) (e := 4 * e) hφ (by rw [Real.cos_pi_div_two_sub]; exact hδ) δ0 (by rw [cosφ]; exact me) (by linarith)
  have m1' : |m| ≤ 1 := by exact_mod_cast m1
  have ae := L.acos_err m m1'
  obtain ⟨α, hα⟩ : ∃ α, α = L.acos m := ⟨_, rfl⟩
  rw [← hα] at ae
  have f0 : 0 ≤ e / δ := by positivity
  have fe : e ≤ e / δ := by rw [le_div_iff₀ δ0]; nlinarith
  have αe : |(α : ℝ) - a| ≤ 138 / 10 * (e / δ) := by
    rw [Real.arccos] at ae
    have h1 := abs_le.1 ae
    have h2 := abs_le.1 mφ
    have e1 : 4 * e / δ = 4 * (e / δ) := by ring
    rw [e1] at h2
    have : (1 : ℝ) / 2 ^ 51 ≤ e / δ := he.trans fe
    rw [abs_le]; constructor <;> linarith
  have as : δ ≤ a := hδ.trans (Real.sin_le a0)
  have f64 : e / δ ≤ δ / 64 := by rw [div_le_iff₀ δ0]; linarith
  have αl : δ / 8 ≤ α := by have := abs_le.1 αe; linarith
  have α4 : (α : ℝ) ≤ 4 := by
    have h1 := (abs_le.1 ae).2
    have h2 := Real.arccos_le_pi (m : ℝ)
    norm_num at h1
    linarith
  obtain ⟨κ, hκ⟩ : ∃ κ, κ = R (1 / 10 ^ 14) := ⟨_, rfl⟩
  have lit : (κ : ℝ) ≤ 1 / 2 ^ 40 := by
    have := (abs_le.1 (literal hR (x := 1 / 10 ^ 14) (by norm_num) (by norm_num))).2
    rw [← hκ] at this
    norm_num at this ⊢
    linarith
  have lδ : (1 : ℝ) / 2 ^ 40 ≤ δ / 8 := by norm_num at δl ⊢; linarith
  -- half of it
  have hz : |((1 / 2 * α : ℚ) : ℝ)| ≤ 8 := by
    push_cast
    rw [abs_le]; constructor <;> linarith
  have hh := round8 hR hz
  obtain ⟨h, hh'⟩ : ∃ h, h = R ((1 / 2 * α : ℚ) : ℝ) := ⟨_, rfl⟩
  have eh : fmul (fun q => R q) (.fin (1 / 2)) (.fin α) = .fin h := by rw [hh']; exact rounded8 hR hz
  rw [← hh'] at hh
  have hh : |(h : ℝ) - α / 2| ≤ 1 / 2 ^ 51 := by
    have e1 : ((1 / 2 * α : ℚ) : ℝ) = α / 2 := by push_cast; ring
    rw [e1] at hh; exact hh
  -- the tangent
  obtain ⟨t, ht⟩ : ∃ t, t = L.tan h := ⟨_, rfl⟩
  have te := L.tan_err h
  rw [← ht] at te
  have te : |(t : ℝ) - Real.tan h| ≤ |Real.tan h| / 2 ^ 52 + 1 / 2 ^ 199 := by
    refine te.trans (add_le_add le_rfl ?_)
    refine (mul_le_mul_of_nonneg_left tiny_small (by norm_num)).trans (le_of_eq (by norm_num))
  obtain ⟨g, hg⟩ : ∃ g, g = e / δ ^ 3 := ⟨_, rfl⟩
  have g0 : 0 < g := by rw [hg]; positivity
  have gδ : e = g * δ ^ 3 := by rw [hg]; field_simp
  have gδ2 : e / δ = g * δ ^ 2 := by rw [hg]; field_simp
  have he' := he
  have h64' := h64
  rw [gδ2] at αe
  rw [gδ] at he' h64'
  obtain ⟨tl, tu, tT, Tb⟩ := tan_core g0 δ0 δ1 a0 aπ hδ he' h64' αe hh te
  -- the skew part
  have hsk := Kinematics.rodrigues_skew a n
  rw [← Ce] at hsk
  have sk0 : C 2 1 - C 1 2 = -(2 * Real.sin a) * n 0 := by simpa [Kinematics.skewPart] using congrFun hsk 0
  have sk1 : C 0 2 - C 2 0 = -(2 * Real.sin a) * n 1 := by simpa [Kinematics.skewPart] using congrFun hsk 1
  have sk2 : C 1 0 - C 0 1 = -(2 * Real.sin a) * n 2 := by simpa [Kinematics.skewPart] using congrFun hsk 2
  have s0 : 0 < Real.sin a := lt_of_lt_of_le δ0 hδ
  obtain ⟨P, hP⟩ : ∃ P : F3, P = ![fsub (fun q => R q) (M 2 1) (M 1 2), fsub (fun q => R q) (M 0 2) (M 2 0), fsub (fun q => R q) (M 1 0) (M 0 1)] := ⟨_, rfl⟩
  have sb : ∀ i j k l, Ab (3 * e) (fsub (fun q => R q) (M i j) (M k l)) (C i j - C k l) := fun i j k l =>
    (Ab.sub hR (B i j) (B k l) (by have := abs_sub (C i j) (C k l); linarith [bC i j, bC k l])).mono (by linarith)
  have hsn := Kinematics.norm_skew hn s0.le
  have Pe : ∀ i, Ab (3 * e) (P i) (-(2 * Real.sin a) * n i) := by
    intro i
    rw [hP]
    fin_cases i
    · exact sk0 ▸ sb 2 1 1 2
    · exact sk1 ▸ sb 0 2 2 0
    · exact sk2 ▸ sb 1 0 0 1
  obtain ⟨Pf, Pn⟩ := near_of_ab3 Pe (by linarith) (by rw [hsn]; linarith)
  have Pd : |nrm (vals P) - 2 * Real.sin a| ≤ 6 * e := by
    have h1 := nrm_sub_le (vals P) (fun i => -(2 * Real.sin a) * n i) 0
    have h2 := nrm_sub_le (fun i => -(2 * Real.sin a) * n i) (vals P) 0
    rw [nrm_sub_rev _ (vals P)] at h2
    rw [sub_zero, sub_zero, hsn] at h1 h2
    rw [abs_le]; constructor <;> linarith
  have Pd' := abs_le.1 Pd
  obtain ⟨N, hN, Nd, N0, Ne⟩ := norm3_err hR L.toLib Pf (by linarith)
  have Ne2 : |(N : ℝ) - 2 * Real.sin a| ≤ 10 * e := by
    have h1 := abs_le.1 Ne
    have h2 : (5 : ℝ) / 2 ^ 53 * nrm (vals P) + 1 / 2 ^ 70 ≤ 4 * u51 := by
      have : nrm (vals P) ≤ 3 := by linarith
      unfold u51
      norm_num
      linarith
    rw [abs_le]; constructor <;> linarith
  have Nl : 13 / 10 * δ ≤ N := by have := abs_le.1 Ne2; linarith
  have N3 : (N : ℝ) ≤ 3 := by have := abs_le.1 Ne2; linarith
  have Np : (0 : ℝ) < N := by linarith
  have N0' : N ≠ 0 := by rintro rfl; simp at Np
  -- the result
  have hres : erParams L M = fun i => fmul (fun q => R q) (fdiv (fun q => R q) (Fp.fin (-t)) (.fin N)) (P i) := by
    unfold erParams
    simp only
    rw [← hκ, hm]
    have ha : libmUnit L.acos (.fin m) = .fin α := by simp [libmUnit, m1', hα]
    rw [ha, ← hP, hN, eh]
    rw [if_neg, if_neg]
    · rw [show libm L.tan (.fin h) = .fin t by rw [ht]; rfl]
      rfl
    · have h1 : (κ : ℝ) ≤ N := by linarith
      have h2 : κ ≤ N := by exact_mod_cast h1
      simpa [Fp.lt] using h2
    · have h1 : (κ : ℝ) ≤ |(α : ℝ)| := by
        rw [abs_of_nonneg (by linarith : (0 : ℝ) ≤ α)]
        linarith
      have h2 : κ ≤ |α| := by exact_mod_cast h1
      simpa [Fp.lt, Fp.abs] using h2
  -- the scale
  have tp : (0 : ℝ) < t := lt_of_lt_of_le (by positivity) tl
  have ib : 1 / δ ≤ 2 ^ 23 := by
    rw [div_le_iff₀ δ0]
    norm_num at δl ⊢
    linarith
  have t25 : (t : ℝ) ≤ 2 ^ 25 := by
    rw [div_eq_mul_one_div] at tu
    exact tu.trans ((mul_le_mul_of_nonneg_left ib (by norm_num)).trans (by norm_num))
  have σp : 0 < (t : ℝ) / N := by positivity
  have σ49 : (t : ℝ) / N ≤ 2 ^ (49 : ℤ) := by
    rw [div_le_iff₀ Np]
    norm_num at t25 δl ⊢
    linarith
  have ez : ((-t / N : ℚ) : ℝ) = -((t : ℝ) / N) := by push_cast; ring
  obtain ⟨r1, -, r3⟩ := round_mid hR (z := -t / N) (by
    rw [ez, abs_neg, abs_of_pos σp]
    exact σ49.trans (zpow_le_zpow_right₀ (by norm_num) (by norm_num)))
  obtain ⟨σ, hσ⟩ : ∃ σ, σ = R ((-t / N : ℚ) : ℝ) := ⟨_, rfl⟩
  have d1 : fdiv (fun q => R q) (Fp.fin (-t)) (.fin N) = .fin σ := by
    show rounded _ (if N = 0 then _ else Fp.fin (-t / N)) = _
    rw [if_neg N0', hσ]; exact r1
  rw [← hσ, ez, abs_neg, abs_of_pos σp] at r3
  have r4 : |(σ : ℝ) + (t : ℝ) / N| ≤ (t : ℝ) / N * (1 / 2 ^ 52) := by
    have h1 := tiny_small
    have h2 : (1 : ℝ) / 2 ^ 30 ≤ (t : ℝ) / N := by
      rw [le_div_iff₀ Np]
      norm_num at δl ⊢
      linarith
    have h3 : (tiny : ℝ) ≤ (t : ℝ) / N * (1 / 2 ^ 53) := by
      refine h1.trans (le_trans ?_ (mul_le_mul_of_nonneg_right h2 (by norm_num)))
      norm_num
    rw [sub_neg_eq_add] at r3
    refine r3.trans ?_
    calc (t : ℝ) / N / 2 ^ 53 + tiny ≤ (t : ℝ) / N / 2 ^ 53 + (t : ℝ) / N * (1 / 2 ^ 53) := add_le_add le_rfl h3
      _ = _ := by ring
  have gu : 1 / 2 ^ 51 * (1 / δ) ≤ g := by
    rw [mul_one_div, div_le_iff₀ δ0]
    refine he'.trans (mul_le_mul_of_nonneg_left (pow_le_of_le_one δ0.le δ1 (by norm_num)) g0.le)
  have gb : 64 * g ≤ 1 / δ := by
    rw [le_div_iff₀ δ0]
    have h1 : 64 * (g * δ) * (δ * δ) ≤ 1 * (δ * δ) := le_trans (le_of_eq (by ring)) (h64'.trans (le_of_eq (one_mul _).symm))
    have h2 := le_of_mul_le_mul_right h1 (by positivity)
    linarith
  have res : ∀ i, (erParams L M i).isFinite ∧ IsDoubleVal (erParams L M i) ∧ |(fval (erParams L M i) : ℝ) - Real.tan (a / 2) * n i| ≤ 80 * g := by
    intro i
    obtain ⟨P1, -, P3⟩ := (Pe i).val
    have n1 := unit_le hn i
    have key := scale_core g0 δ0 δ1 hδ s1 n1 he' h64' tp tu tT (by rw [← gδ]; exact Ne2) r4 (by rw [← gδ]; exact P3)
    rw [← Rat.cast_mul] at key
    have an : |Real.tan (a / 2) * n i| ≤ 2 * (1 / δ) := by
      rw [abs_mul, mul_one_div]
      exact (mul_le_mul Tb n1 (abs_nonneg _) (by positivity)).trans (le_of_eq (mul_one _))
    have er : erParams L M i = rounded (fun q => R q) (.fin (σ * fval (P i))) := by
      rw [hres]
      simp only
      rw [d1, P1]
      rfl
    rw [er]
    exact final_err hR (by rw [le_div_iff₀ δ0]; linarith) ib gu gb key an
  rw [← hg]
  exact ⟨fun i => ⟨(res i).1, (res i).2.1⟩, fun i => (res i).2.2⟩

/-- **C178** A vector of Euler-Rodriguez parameters comes back from the matrix that is computed of it to within `2^-40 / δ³`, where `δ` is the sine of the angle, `2 |p| / (1 + |p|²)` (or less). -/
theorem C178_round_trip {R : ℝ → ℚ} (hR : IsRndR R) (L : TanLib fun q => R q) (p : F3) (hp : Finite p) (δ : ℝ) (δ0 : 1 / 2 ^ 20 ≤ δ) (hδ : δ ≤ 2 * nrm (vals p) / (1 + nrm (vals p) * nrm (vals p))) :
    Finite (erParams L (erMatrix L.toLib p)) ∧ ∀ i, |vals (erParams L (erMatrix L.toLib p)) i - vals p i| ≤ 1 / 2 ^ 40 / δ ^ 3 := by
  have δp : 0 < δ := lt_of_lt_of_le (by norm_num) δ0
  have N0 := nrm_nonneg (vals p)
  obtain ⟨N, hN⟩ : ∃ N, N = nrm (vals p) := ⟨_, rfl⟩
  rw [← hN] at hδ N0
  have W : 0 < 1 + N * N := by positivity
  have Np : N ≠ 0 := by
    rintro h
    rw [h, mul_zero, zero_div] at hδ
    linarith
  have hu : IsUnit3 (fun i => vals p i / N) := by
    rw [hN]; exact Kinematics.unit_of_norm (by rw [← hN]; exact Np)
  have arc := Real.arctan_lt_pi_div_two N
  have arc0 : 0 ≤ Real.arctan N := by rw [← Real.arctan_zero]; exact Real.arctan_mono N0
  have ha : 2 * Real.arctan N / 2 = Real.arctan N := by ring
  have hsin : Real.sin (2 * Real.arctan N) = 2 * N / (1 + N * N) := by
    have h := Real.mul_self_sqrt (by positivity : 0 ≤ 1 + N ^ 2)
    have h0 : Real.sqrt (1 + N ^ 2) ≠ 0 := (Real.sqrt_pos.2 (by positivity)).ne'
    rw [Real.sin_two_mul, Real.sin_arctan, Real.cos_arctan, mul_assoc, div_mul_div_comm, mul_one, h, mul_div_assoc, pow_two]
  have pn : ∀ i, vals p i = Real.tan (2 * Real.arctan N / 2) * (vals p i / N) := by
    intro i
    rw [ha, Real.tan_arctan]
    field_simp
  have hb : nrm (vals p) ≤ 2 ^ (100 : ℤ) := by
    rw [← hN]
    have h1 : (1 : ℝ) / 2 ^ 20 ≤ 2 * N / (1 + N * N) := δ0.trans hδ
    rw [le_div_iff₀ W] at h1
    have h2 : N ≤ 2 ^ 21 := by
      by_contra h
      have h := not_le.1 h
      have : 2 ^ 21 * N ≤ N * N := mul_le_mul_of_nonneg_right h.le N0
      norm_num at h1 this
      linarith
    refine h2.trans ?_
    rw [show (2 : ℝ) ^ 21 = 2 ^ (21 : ℤ) by norm_cast]
    exact zpow_le_zpow_right₀ (by norm_num) (by norm_num)
  have hM := C178_matrix hR L.toLib p hp hb _ _ (2 * Real.arctan N) hu (by rw [abs_of_nonneg (by linarith)]; linarith) pn (Kinematics.rodrigues_about _ _ hu)
  have h64 : 64 * ((1 : ℝ) / 2 ^ 47) ≤ δ * δ := le_trans (by norm_num) (mul_le_mul δ0 δ0 (by norm_num) δp.le)
  obtain ⟨h1, h2⟩ := C178_params_partial hR L (erMatrix L.toLib p) _ _ (2 * Real.arctan N) (1 / 2 ^ 47) δ hu (by linarith) (by linarith) (Kinematics.rodrigues_about _ _ hu) hM (by norm_num) δp (by rw [hsin]; exact hδ) h64
  refine ⟨h1, fun i => ?_⟩
  have := h2 i
  rw [← pn i] at this
  refine this.trans ?_
  rw [← mul_div_assoc]
  exact div_le_div_of_nonneg_right (by norm_num) (by positivity)

/-- **C178** The parameters of a transformation that was built in `n` steps are those of the exact rotation, away from the identity and from half turns. -/
theorem C178_pose_partial {R : ℝ → ℚ} (hR : IsRndR R) (L : TanLib fun q => R q) (E : Eigen fun q => R q) (b : Build) (h : b.RotationsOk) (hs : b.steps ≤ 2 ^ 40) (n : V3) (a δ : ℝ) (hn : IsUnit3 n) (a0 : 0 ≤ a) (aπ : a ≤ Real.pi)
    (hC : IsRotationAbout (Kinematics.Transformation.C b.exact) n a) (δ0 : 0 < δ) (hδ : δ ≤ Real.sin a) (h64 : 64 * (b.steps / 2 ^ 43) ≤ δ * δ) :
    Finite (erParams L (TransformationD.C R (b.run E))) ∧ ∀ i, |vals (erParams L (TransformationD.C R (b.run E))) i - Real.tan (a / 2) * n i| ≤ 80 * (b.steps / 2 ^ 43 / δ ^ 3) := by
  have near : EntriesNear (TransformationD.C R (b.run E)) (Kinematics.Transformation.C b.exact) (b.steps / 2 ^ 43) := fun i j =>
    ⟨((C122_matrix hR E b h).1 i j).1, ((C122_matrix hR E b h).1 i j).2, C122_entries hR E b h hs i j⟩
  refine C178_params_partial hR L _ _ n a _ δ hn a0 aπ hC near ?_ δ0 hδ h64
  have s1 : (1 : ℝ) ≤ b.steps := by
    have : 1 ≤ b.steps := by cases b <;> simp [Build.steps]
    exact_mod_cast this
  refine le_trans ?_ (div_le_div_of_nonneg_right s1 (by norm_num))
  norm_num

/-! ## What does not hold -/

/-- correctly rounded functions -/
noncomputable def TanLib.rounded : TanLib fun q => rndEvenReal q where
  toLogLib := LogLib.rounded
  tan x := rndEvenReal (Real.tan x)
  tan_double _ := isRndR_rndEvenReal.mem _
  tan_err x := by
    have t0 : (0 : ℝ) ≤ tiny := by
      have : (0 : ℚ) ≤ tiny := by unfold tiny; positivity
      exact_mod_cast this
    rcases le_or_gt ((2 : ℝ) ^ (-1022 : ℤ)) |Real.tan x| with h | h
    · refine (isRndR_rndEvenReal.err_rel h).trans ?_
      have := abs_nonneg (Real.tan x)
      have : |Real.tan x| / 2 ^ 53 ≤ |Real.tan x| / 2 ^ 52 := div_le_div_of_nonneg_left this (by norm_num) (by norm_num)
      linarith
    · have hx : |Real.tan x| ≤ 2 ^ 53 * 2 ^ (-1074 : ℤ) := by
        refine h.le.trans ?_
        rw [show (2 : ℝ) ^ 53 = 2 ^ (53 : ℤ) by norm_cast, ← zpow_add₀ (by norm_num)]
        exact zpow_le_zpow_right₀ (by norm_num) (by norm_num)
      refine (isRndR_rndEvenReal.err_abs (e := -1074) (by norm_num) hx).trans ?_
      have e : (tiny : ℝ) = 2 ^ (-1074 : ℤ) / 2 := by unfold tiny; push_cast; rfl
      rw [← e]
      have : 0 ≤ |Real.tan x| / 2 ^ 52 := by positivity
      linarith

/-- the full claim: the parameters of every matrix that agrees with a rotation up to 2^-50 are finite -/
def C178_params_claim (L : TanLib fun q => rndEvenReal q) : Prop := ∀ (M : FM3) (C : M3) (n : V3) (a : ℝ), IsUnit3 n → 0 ≤ a → a ≤ Real.pi → IsRotationAbout C n a → EntriesNear M C (1 / 2 ^ 50) → Finite (erParams L M)

/-- the skew part, in rational arithmetic -/
def skewD (M : FM3) : F3 := ![fsub rndEven (M 2 1) (M 1 2), fsub rndEven (M 0 2) (M 2 0), fsub rndEven (M 1 0) (M 0 1)]

/-- the argument of the arc cosine -/
def traceD (M : FM3) : Fp := fmul rndEven (fsub rndEven (fadd rndEven (fadd rndEven (M 0 0) (M 1 1)) (M 2 2)) (.fin 1)) (.fin (1 / 2))

/-- a matrix whose trace is out of range and whose skew part is not tiny has no parameters -/
theorem params_nan {M : FM3} {m s : ℚ} (hm : traceD M = .fin m) (m1 : 1 < |m|)
    (hs : fadd rndEven (fadd rndEven (fmul rndEven (skewD M 0) (skewD M 0)) (fmul rndEven (skewD M 1) (skewD M 1))) (fmul rndEven (skewD M 2) (skewD M 2)) = .fin s) (s1 : 1 / 2 ^ 90 ≤ s) (i : Fin 3) :
    erParams TanLib.rounded M i = .nan := by
  have s0 : 0 ≤ s := le_trans (by norm_num) s1
  have hn : norm3 TanLib.rounded.toLib (skewD M) = .fin (rndEvenReal (Real.sqrt s)) := by
    unfold norm3
    have e1 : TanLib.rounded.toLib.sum3 (fmul (fun q => rndEvenReal q) (skewD M 0) (skewD M 0)) (fmul (fun q => rndEvenReal q) (skewD M 1) (skewD M 1)) (fmul (fun q => rndEvenReal q) (skewD M 2) (skewD M 2)) = .fin s := by
      show fadd (fun q => rndEvenReal q) (fadd (fun q => rndEvenReal q) (fmul (fun q => rndEvenReal q) (skewD M 0) (skewD M 0)) (fmul (fun q => rndEvenReal q) (skewD M 1) (skewD M 1))) (fmul (fun q => rndEvenReal q) (skewD M 2) (skewD M 2)) = _
      rw [even_eq]
      exact hs
    rw [e1]
    show (if s < 0 then Fp.nan else Fp.fin (rndEvenReal (Real.sqrt s))) = _
    rw [if_neg (not_lt.2 s0)]
  have lit : rndEvenReal (1 / 10 ^ 14) = rndEven (1 / 10 ^ 14) := by
    have : (1 / 10 ^ 14 : ℝ) = ((1 / 10 ^ 14 : ℚ) : ℝ) := by push_cast; rfl
    rw [this, rndEvenReal_rat]
  have big : rndEven (1 / 10 ^ 14) ≤ rndEvenReal (Real.sqrt s) := by
    have h1 : ((1 / 2 ^ 46 : ℚ) : ℝ) < Real.sqrt s := by
      apply Real.lt_sqrt_of_sq_lt
      have : (((1 / 2 ^ 46) ^ 2 : ℚ) : ℝ) < (s : ℝ) := by exact_mod_cast lt_of_lt_of_le (by norm_num) s1
      push_cast at this ⊢
      exact this
    have h2 := rnd_mono isRndR_rndEvenReal h1
    rw [rndEvenReal_rat] at h2
    refine le_trans ?_ h2
    decide +kernel
  have ha : libmUnit TanLib.rounded.acos (traceD M) = .nan := by
    rw [hm]
    show (if |m| ≤ 1 then _ else Fp.nan) = _
    rw [if_neg (not_le.2 m1)]
  have key : erParams TanLib.rounded M = fun i => fmul rndEven (fdiv rndEven .nan (norm3 TanLib.rounded.toLib (skewD M))) (skewD M i) := by
    unfold erParams
    simp only [even_eq]
    have e1 : fmul rndEven (fsub rndEven (fadd rndEven (fadd rndEven (M 0 0) (M 1 1)) (M 2 2)) (.fin 1)) (.fin (1 / 2)) = traceD M := rfl
    have e2 : (![fsub rndEven (M 2 1) (M 1 2), fsub rndEven (M 0 2) (M 2 0), fsub rndEven (M 1 0) (M 0 1)] : F3) = skewD M := rfl
    rw [e1, e2, ha, lit, if_neg (by simp [Fp.abs, Fp.lt]), if_neg]
    · rfl
    · rw [hn]
      simpa [Fp.lt] using big
  rw [key]
  rfl

/-- the turn by 2^-46 about the z axis, with one entry rounded up -/
def bumped : FM3 := !![.fin (1 + 1 / 2 ^ 51), .fin (1 / 2 ^ 46), .fin 0; .fin (-(1 / 2 ^ 46)), .fin 1, .fin 0; .fin 0, .fin 0, .fin 1]

theorem bumped_near : EntriesNear bumped (Kinematics.rodrigues (1 / 2 ^ 46) ![0, 0, 1]) (1 / 2 ^ 50) := by
  have ok : ∀ {r : ℚ}, IsDouble r → (Fp.fin r).isFinite ∧ IsDouble (fval (.fin r)) := fun h => ⟨rfl, h⟩
  have o0 : IsDouble 0 := by simpa using isDouble_int 0 (by norm_num)
  have o1 : IsDouble 1 := by simpa using isDouble_int 1 (by norm_num)
  have os : IsDouble (1 / 2 ^ 46) := ⟨1, -46, by norm_num, by norm_num, by norm_num⟩
  have ob : IsDouble (1 + 1 / 2 ^ 51) := ⟨2 ^ 51 + 1, -51, by norm_num, by norm_num, by norm_num⟩
  have c1 := Real.one_sub_sq_div_two_le_cos (x := (1 : ℝ) / 2 ^ 46)
  have c2 := Real.cos_le_one ((1 : ℝ) / 2 ^ 46)
  have s1 := Real.sin_gt_sub_cube (x := (1 : ℝ) / 2 ^ 46) (by norm_num)
  have s2 := Real.sin_lt (x := (1 : ℝ) / 2 ^ 46) (by norm_num)
  have fin : ∀ i j, (bumped i j).isFinite ∧ IsDouble (fval (bumped i j)) := by
    intro i j
    fin_cases i <;> fin_cases j <;> first | exact ok ob | exact ok os | exact ok os.neg | exact ok o0 | exact ok o1
  intro i j
  refine ⟨(fin i j).1, (fin i j).2, ?_⟩
  norm_num at c1 c2 s1 s2
  have z2 : (![0, 0, 1] : V3) 2 = 1 := rfl
  rw [abs_le]
  fin_cases i <;> fin_cases j <;> norm_num [valsM, bumped, fval, Kinematics.rodrigues, z2] <;> constructor <;> linarith

/-- **C178** It does not hold: the trace of a computed rotation matrix may be larger than 3 by a rounding error, and its arc cosine is not a number, since (unlike in `RotationVector`) the argument is not cut off. -/
theorem C178_params_negation : ¬ C178_params_claim TanLib.rounded := by
  intro h
  have hu : IsUnit3 ![0, 0, 1] := by simp [IsUnit3]
  have h1 := (h bumped _ ![0, 0, 1] (1 / 2 ^ 46) hu (by norm_num) (le_trans (by norm_num) Real.pi_gt_three.le) (Kinematics.rodrigues_about _ _ hu) bumped_near 0).1
  rw [params_nan (m := 1 + 1 / 2 ^ 52) (s := 1 / 2 ^ 90) (by decide +kernel) (by rw [abs_of_pos (by norm_num)]; norm_num) (by decide +kernel) le_rfl] at h1
  simp [Fp.isFinite] at h1

/-- the full claim: the parameters come back finite from the matrix that the class itself computes of them -/
def C178_round_trip_claim (L : TanLib fun q => rndEvenReal q) : Prop := ∀ p : F3, Finite p → nrm (vals p) ≤ 2 ^ (100 : ℤ) → Finite (erParams L (erMatrix L.toLib p))

/-- a vector that stands for nearly a half turn -/
def far : F3 := ![.fin (2 ^ 21), .fin (125 * 2 ^ 20), .fin 0]

/-- the matrix of `far`, in rational arithmetic -/
def farMatrix : FM3 :=
  let L3 := fun a b c => fadd rndEven (fadd rndEven a b) c
  let f := fdiv rndEven (.fin 2) (fadd rndEven (.fin 1) (L3 (fmul rndEven (far 0) (far 0)) (fmul rndEven (far 1) (far 1)) (fmul rndEven (far 2) (far 2))))
  let c := crossMx far
  fun i j => fadd rndEven (oneD i j) (fmul rndEven f (fsub rndEven (L3 (fmul rndEven (c i 0) (c 0 j)) (fmul rndEven (c i 1) (c 1 j)) (fmul rndEven (c i 2) (c 2 j))) (crossMx far i j)))

theorem far_matrix : erMatrix TanLib.rounded.toLib far = farMatrix := by
  unfold erMatrix farMatrix factor square
  simp only [even_eq]
  have e : TanLib.rounded.toLib.sum3 = fun a b c => fadd rndEven (fadd rndEven a b) c := by
    show (fun a b c => fadd (fun q => rndEvenReal q) (fadd (fun q => rndEvenReal q) a b) c) = _
    rw [even_eq]
  rw [e]

theorem far_finite : Finite far ∧ nrm (vals far) ≤ 2 ^ (100 : ℤ) := by
  constructor
  · have ok : ∀ n : ℤ, |n| < 2 ^ 40 → (Fp.fin n).isFinite ∧ IsDoubleVal (.fin n) := by
      intro n hn
      refine ⟨rfl, isDouble_int n (lt_trans hn (by norm_num)), ?_⟩
      have hn' : |(n : ℚ)| < 2 ^ 40 := by exact_mod_cast hn
      exact hn'.trans (pow_lt_pow_right₀ (by norm_num) (by norm_num))
    have o0 := ok 0 (by norm_num)
    have o1 := ok (2 ^ 21) (by norm_num)
    have o2 := ok (125 * 2 ^ 20) (by norm_num)
    push_cast at o0 o1 o2
    intro i
    fin_cases i
    · exact o1
    · show (Fp.fin (125 * 2 ^ 20)).isFinite ∧ IsDoubleVal (.fin (125 * 2 ^ 20))
      rw [show (125 * 2 ^ 20 : ℚ) = 131072000 by norm_num]
      exact o2
    · exact o0
  · have h : nrm (vals far) ≤ 2 ^ 40 := by
      unfold Kinematics.norm
      rw [Real.sqrt_le_left (by norm_num), Kinematics.sq3]
      have e2 : vals far 2 = 0 := by show ((0 : ℚ) : ℝ) = 0; norm_num
      rw [e2]
      norm_num [vals, far, fval]
    refine h.trans ?_
    rw [show (2 : ℝ) ^ 40 = 2 ^ (40 : ℤ) by norm_cast]
    exact zpow_le_zpow_right₀ (by norm_num) (by norm_num)

/-- **C178** It does not hold: the vector (2^21, 125 * 2^20, 0), which stands for nearly a half turn, has a matrix whose trace is below -1. -/
theorem C178_round_trip_negation : ¬ C178_round_trip_claim TanLib.rounded := by
  intro h
  have h1 := (h far far_finite.1 far_finite.2 0).1
  rw [far_matrix] at h1
  obtain ⟨s, hs, s1⟩ : ∃ s, fadd rndEven (fadd rndEven (fmul rndEven (skewD farMatrix 0) (skewD farMatrix 0)) (fmul rndEven (skewD farMatrix 1) (skewD farMatrix 1))) (fmul rndEven (skewD farMatrix 2) (skewD farMatrix 2)) = .fin s ∧ 1 / 2 ^ 90 ≤ s := by
    have : (match fadd rndEven (fadd rndEven (fmul rndEven (skewD farMatrix 0) (skewD farMatrix 0)) (fmul rndEven (skewD farMatrix 1) (skewD farMatrix 1))) (fmul rndEven (skewD farMatrix 2) (skewD farMatrix 2)) with
      | .fin s => decide (1 / 2 ^ 90 ≤ s)
      | _ => false) = true := by decide +kernel
    split at this
    · rename_i s hs
      exact ⟨s, hs, of_decide_eq_true this⟩
    · cases this
  rw [params_nan (m := -1 - 1 / 2 ^ 52) (by decide +kernel) (by rw [abs_of_neg (by norm_num)]; norm_num) hs s1] at h1
  simp [Fp.isFinite] at h1

/-- the full claim: the matrix of every finite vector is finite -/
def C178_matrix_claim (L : Lib fun q => rndEvenReal q) : Prop := ∀ p : F3, Finite p → FiniteM (erMatrix L p)

/-- **C178** It does not hold: the square of the length of (2^600, 0, 0) overflows, the factor is zero, and zero times infinity is not a number. -/
theorem C178_matrix_negation : ¬ C178_matrix_claim TanLib.rounded.toLib := by
  intro h
  have fin : Finite (![.fin (2 ^ 600), .fin 0, .fin 0] : F3) := by
    have o0 : (Fp.fin 0).isFinite ∧ IsDoubleVal (.fin 0) := fin_ok (by simpa using isDouble_int 0 (by norm_num)) (by norm_num)
    have o1 : (Fp.fin (2 ^ 600)).isFinite ∧ IsDoubleVal (.fin (2 ^ 600)) := by
      refine ⟨rfl, ⟨1, 600, by norm_num, by norm_num, by rw [Int.cast_one, one_mul, show (600 : ℤ) = ((600 : ℕ) : ℤ) from rfl, zpow_natCast]⟩, ?_⟩
      rw [abs_of_pos (by positivity)]
      exact pow_lt_pow_right₀ (by norm_num) (by norm_num)
    intro i
    fin_cases i
    · exact o1
    · exact o0
    · exact o0
  have h1 := (h _ fin 1 1).1
  have key : erMatrix TanLib.rounded.toLib ![.fin (2 ^ 600), .fin 0, .fin 0] 1 1 = .nan := by
    unfold erMatrix factor square
    have e : TanLib.rounded.toLib.sum3 = fun a b c => fadd rndEven (fadd rndEven a b) c := by
      show (fun a b c => fadd (fun q => rndEvenReal q) (fadd (fun q => rndEvenReal q) a b) c) = _
      rw [even_eq]
    simp only [even_eq]
    rw [e]
    decide +kernel
  rw [key] at h1
  simp [Fp.isFinite] at h1

/-! ## The hypotheses hold -/

theorem turnU_rodriguez : ∀ i, vals turnU.2 i = Real.tan (2 * Real.arctan 3 / 2) * (vals turnU.2 i / 3) := by
  intro i
  rw [mul_div_cancel_left₀ _ (two_ne_zero), Real.tan_arctan]
  ring

theorem turnU_unit : IsUnit3 (fun i => vals turnU.2 i / 3) := by
  have h := Kinematics.unit_of_norm (x := vals turnU.2) (by rw [turnU_norm]; norm_num)
  rwa [turnU_norm] at h

theorem turnU_big : nrm (vals turnU.2) ≤ 2 ^ (100 : ℤ) := by
  rw [turnU_norm]
  exact le_trans (by norm_num) (four_le (by norm_num : (2 : ℤ) ≤ 100))

/-- the vector (2, 2, 1) -/
example : EntriesNear (erMatrix TanLib.rounded.toLib turnU.2) (Kinematics.rodrigues (2 * Real.arctan 3) fun i => vals turnU.2 i / 3) (1 / 2 ^ 47) := by
  have arc := Real.arctan_lt_pi_div_two 3
  have arc0 : 0 ≤ Real.arctan 3 := by rw [← Real.arctan_zero]; exact Real.arctan_mono (by norm_num)
  exact C178_matrix isRndR_rndEvenReal _ turnU.2 turnU_finite.1 turnU_big _ _ (2 * Real.arctan 3) turnU_unit (by rw [abs_of_nonneg (by linarith)]; linarith) turnU_rodriguez (Kinematics.rodrigues_about _ _ turnU_unit)

example : ∃ S : M3, Kinematics.IsSMatrix Kinematics.erMatrix S (vals turnU.2) ∧ ∀ i j, (erS TanLib.rounded.toLib turnU.2 i j).isFinite ∧ IsDoubleVal (erS TanLib.rounded.toLib turnU.2 i j) ∧
    |valsM (erS TanLib.rounded.toLib turnU.2) i j - S i j| ≤ 9 / 2 ^ 53 * |S i j| + 1 / 2 ^ 200 :=
  C178_smatrix isRndR_rndEvenReal _ turnU.2 turnU_finite.1 turnU_big

/-- it comes back up to 5e-12 -/
example (i : Fin 3) : |vals (erParams TanLib.rounded (erMatrix TanLib.rounded.toLib turnU.2)) i - vals turnU.2 i| ≤ 1 / 2 ^ 40 / (6 / 10) ^ 3 :=
  (C178_round_trip isRndR_rndEvenReal TanLib.rounded turnU.2 turnU_finite.1 (6 / 10) (by norm_num) (by rw [turnU_norm]; norm_num)).2 i

/-- the turn about the z axis with the quaternion (0, 0, 3, 4) / 5 -/
example (i : Fin 3) : |vals (erParams TanLib.rounded (TransformationD.C rndEvenReal (turn.run (Eigen.plain fun q => rndEvenReal q)))) i - Real.tan (Real.arccos (7 / 25) / 2) * (![0, 0, 1] : V3) i| ≤ 80 * (turn.steps / 2 ^ 43 / (1 / 2) ^ 3) := by
  have hs : Real.sin (Real.arccos (7 / 25)) = 24 / 25 := by
    rw [Real.sin_arccos, show (1 : ℝ) - (7 / 25) ^ 2 = (24 / 25) ^ 2 by norm_num, Real.sqrt_sq (by norm_num)]
  have hc : Real.cos (Real.arccos (7 / 25)) = 7 / 25 := Real.cos_arccos (by norm_num) (by norm_num)
  refine (C178_pose_partial isRndR_rndEvenReal TanLib.rounded (Eigen.plain fun q => rndEvenReal q) turn turn_rotations (by norm_num [turn, Build.steps]) ![0, 0, 1] (Real.arccos (7 / 25)) (1 / 2) (by simp [IsUnit3])
    (Real.arccos_nonneg _) (Real.arccos_le_pi _) ?_ (by norm_num) (by rw [hs]; norm_num) (by norm_num [turn, Build.steps])).2 i
  have hv : vals (![.fin 0, .fin 0, .fin 3, .fin 4] : F4) = ![0, 0, 3, 4] := by
    funext i; fin_cases i <;> simp [vals, fval]
  have hq : turn.exact.q = ![0, 0, 3 / 5, 4 / 5] := by
    show (fun i => vals _ i / Kinematics.norm (vals _)) = _
    rw [turn_norm, hv]
    funext i
    fin_cases i <;> simp
  have e1 : Kinematics.Transformation.C turn.exact = Kinematics.quat2r ![0, 0, 3 / 5, 4 / 5] := by unfold Kinematics.Transformation.C; rw [hq]
  have e2 : Kinematics.rodrigues (Real.arccos (7 / 25)) ![0, 0, 1] = Kinematics.quat2r ![0, 0, 3 / 5, 4 / 5] := by
    unfold Kinematics.rodrigues
    simp only [hs, hc]
    ext i j
    fin_cases i <;> fin_cases j <;> simp [Kinematics.quat2r] <;> norm_num
  rw [e1, ← e2]
  exact Kinematics.rodrigues_about _ _ (by simp [IsUnit3])

end Verif.ErDouble
