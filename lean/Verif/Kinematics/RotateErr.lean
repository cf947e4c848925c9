import Verif.Kinematics.RotateLemmas

/-!
# The errors of `quatRotate`, of a point mapped by a transformation, and of the product of transformations
-/

namespace Verif.KinematicsDouble

open Verif.Common
open Verif.Kinematics (V3 V4 M3 sqNorm qeps)

local notation "nrm" => Kinematics.norm

theorem pow_half_60 : InR (-60) (-60) (1 / 2 ^ 60 : ℝ) := by
  have : (1 / 2 ^ 60 : ℝ) = 2 ^ (-60 : ℤ) := by rw [zpow_neg, one_div]; norm_cast
  unfold InR; rw [this]; exact ⟨le_rfl, le_rfl⟩

/-- something smaller than every length that matters -/
noncomputable def eta : ℝ := 2 ^ (-250 : ℤ)

theorem eta_pos : 0 < eta := by unfold eta; positivity

theorem finite_of_abs {n : ℕ} {f : Fin n → Fp} (h : ∀ i, ∃ r : ℚ, f i = .fin r ∧ IsDouble r ∧ |(r : ℝ)| ≤ 2 ^ (900 : ℤ)) : Finite f := by
  intro i
  obtain ⟨r, e, hd, hb⟩ := h i
  rw [e]
  refine ⟨rfl, hd, ?_⟩
  have h3 : (2 : ℝ) ^ (900 : ℤ) < ((tooBig : ℚ) : ℝ) := by
    unfold tooBig
    push_cast
    rw [show (900 : ℤ) = ((900 : ℕ) : ℤ) from rfl, zpow_natCast]
    exact pow_lt_pow_right₀ (by norm_num) (by norm_num)
  have h4 : ((|r| : ℚ) : ℝ) < ((tooBig : ℚ) : ℝ) := by rw [Rat.cast_abs]; exact hb.trans_lt h3
  exact_mod_cast h4

section
variable {rnd : ℚ → ℚ} (hr : IsRnd rnd)
include hr

/-- a rotated vector -/
theorem quatRotate_err {q : F4} {v : F3} (hq : Finite q) (hv : Finite v) (nq : |nrm (vals q) - 1| ≤ 1 / 2 ^ 20) (nv : nrm (vals v) ≤ 2 ^ (200 : ℤ)) :
    Finite (quatRotate rnd q v) ∧ nrm (vals (quatRotate rnd q v) - Kinematics.quatRotate (vals q) (vals v)) ≤ 64 / 2 ^ 53 * (nrm (vals v) + eta) := by
  have qb := abs_le.1 nq
  set Q := nrm (vals q) with hQ
  set V := nrm (vals v) with hV
  have V0 : 0 ≤ V := nrm_nonneg _
  set δ : ℝ := 1 / 2 ^ 60 * V + 2 ^ (-280 : ℤ) with hδ
  have t0 : (0 : ℝ) < 2 ^ (-280 : ℤ) := by positivity
  have hδ0 : 0 ≤ δ := by positivity
  have ra : ∀ i, InR (-60) 2 (wt (1 / 2 ^ 60) (vals q) i) := by
    intro i
    have h1 := abs_le_nrm (vals q) i
    refine ⟨pow_half_60.1.trans (le_add_of_nonneg_left (abs_nonneg _)), ?_⟩
    unfold wt
    have : |vals q i| + 1 / 2 ^ 60 ≤ 4 := by
      have : |vals q i| ≤ 1 + 1 / 2 ^ 20 := by linarith
      norm_num at this ⊢; linarith
    exact this.trans (by norm_num)
  have rb : ∀ i, InR (-300) 300 (wt δ (vals v) i) := by
    intro i
    have h1 := abs_le_nrm (vals v) i
    constructor
    · have e1 : (2 : ℝ) ^ (-300 : ℤ) ≤ 2 ^ (-280 : ℤ) := zpow_le_zpow_right₀ (by norm_num) (by norm_num)
      have e2 : (2 : ℝ) ^ (-280 : ℤ) ≤ δ := le_add_of_nonneg_left (by positivity)
      exact (e1.trans e2).trans (le_add_of_nonneg_left (abs_nonneg _))
    · have e1 : (2 : ℝ) ^ (-280 : ℤ) ≤ 2 ^ (200 : ℤ) := zpow_le_zpow_right₀ (by norm_num) (by norm_num)
      have e2 : 1 / 2 ^ 60 * V ≤ 2 ^ (200 : ℤ) := by
        calc 1 / 2 ^ 60 * V ≤ 1 * V := mul_le_mul_of_nonneg_right (by norm_num) V0
          _ ≤ _ := by rw [one_mul]; exact nv
      have e3 : (4 : ℝ) * 2 ^ (200 : ℤ) = 2 ^ (202 : ℤ) := by rw [show (202 : ℤ) = 2 + 200 from rfl, zpow_add₀ (by norm_num)]; norm_num
      have e4 : (2 : ℝ) ^ (202 : ℤ) ≤ 2 ^ (300 : ℤ) := zpow_le_zpow_right₀ (by norm_num) (by norm_num)
      have e5 : |vals v i| + (1 / 2 ^ 60 * V + 2 ^ (-280 : ℤ)) ≤ 2 ^ (200 : ℤ) + (2 ^ (200 : ℤ) + 2 ^ (200 : ℤ)) := add_le_add (h1.trans nv) (add_le_add e2 e1)
      have e6 : (2 : ℝ) ^ (200 : ℤ) + (2 ^ (200 : ℤ) + 2 ^ (200 : ℤ)) ≤ 4 * 2 ^ (200 : ℤ) := by
        have : (0 : ℝ) < 2 ^ (200 : ℤ) := by positivity
        generalize (2 : ℝ) ^ (200 : ℤ) = y at *
        linarith
      exact e5.trans (e6.trans (e3.le.trans e4))
  obtain ⟨h1, h2⟩ := quatRotate_acc hr hq hv (le_wt (by norm_num) _) (le_wt hδ0 _) ra rb
  refine ⟨acc_finite (by norm_num) h1 fun i => (h2 i).scale (by norm_num) (by norm_num), (acc_nrm h1).trans ?_⟩
  have na : nrm (wt (1 / 2 ^ 60) (vals q)) ≤ 1 + 1 / 2 ^ 10 := by
    have := nrm_wt (n := 4) le_rfl (δ := 1 / 2 ^ 60) (by norm_num) (vals q)
    refine this.trans ?_
    rw [← hQ]
    have : Q ≤ 1 + 1 / 2 ^ 20 := by linarith
    norm_num at this ⊢; linarith
  have nb : nrm (wt δ (vals v)) ≤ V + 2 * δ := nrm_wt (n := 3) (by norm_num) hδ0 (vals v)
  have n1 := nrm_absRot (wt δ (vals v)) na
  have hη : 2 * 2 ^ (-280 : ℤ) ≤ 1 / 2 ^ 20 * eta := by
    have e : (2 : ℝ) * 2 ^ (-280 : ℤ) = 2 ^ (-279 : ℤ) := by rw [show (-279 : ℤ) = 1 + -280 by norm_num, zpow_add₀ (by norm_num), zpow_one]
    have e2 : (1 : ℝ) / 2 ^ 20 * eta = 2 ^ (-270 : ℤ) := by
      unfold eta
      rw [show (1 : ℝ) / 2 ^ 20 = 2 ^ (-20 : ℤ) by rw [zpow_neg, one_div]; norm_cast, ← zpow_add₀ (by norm_num)]
      norm_num
    rw [e, e2]
    exact zpow_le_zpow_right₀ (by norm_num) (by norm_num)
  have n2 : nrm (wt δ (vals v)) ≤ (1 + 1 / 2 ^ 59) * (V + eta) := by
    refine nb.trans ?_
    rw [hδ]
    have : V + 2 * (1 / 2 ^ 60 * V + 2 ^ (-280 : ℤ)) = (1 + 1 / 2 ^ 59) * V + 2 * 2 ^ (-280 : ℤ) := by ring
    rw [this, mul_add]
    have : 1 / 2 ^ 20 * eta ≤ (1 + 1 / 2 ^ 59) * eta := mul_le_mul_of_nonneg_right (by norm_num) eta_pos.le
    linarith
  have h7 : 0 ≤ (1 + eps) ^ 7 - 1 := by linarith [one_le_pow_eps 7]
  have hk : ((1 + eps) ^ 7 - 1) * (9 * (1 + 1 / 2 ^ 59)) ≤ 64 / 2 ^ 53 := by unfold eps; norm_num
  have hVe : 0 ≤ V + eta := by linarith [eta_pos]
  calc _ ≤ ((1 + eps) ^ 7 - 1) * (9 * ((1 + 1 / 2 ^ 59) * (V + eta))) := mul_le_mul_of_nonneg_left (n1.trans (mul_le_mul_of_nonneg_left n2 (by norm_num))) h7
    _ = ((1 + eps) ^ 7 - 1) * (9 * (1 + 1 / 2 ^ 59)) * (V + eta) := by ring
    _ ≤ _ := mul_le_mul_of_nonneg_right hk hVe

/-- a sum of vectors -/
theorem vadd_err {n : ℕ} {f g : Fin n → Fp} (hf : Finite f) (hg : Finite g) (nf : nrm (vals f) ≤ 2 ^ (300 : ℤ)) (ng : nrm (vals g) ≤ 2 ^ (300 : ℤ)) :
    Finite (fun i => fadd rnd (f i) (g i)) ∧ nrm (vals (fun i => fadd rnd (f i) (g i)) - (vals f + vals g)) ≤ 1 / 2 ^ 53 * nrm (vals f + vals g) := by
  have each : ∀ i, ∃ r : ℚ, fadd rnd (f i) (g i) = .fin r ∧ IsDouble r ∧ |(r : ℝ)| ≤ 2 ^ (900 : ℤ) ∧ |(r : ℝ) - (vals f i + vals g i)| ≤ 1 / 2 ^ 53 * |vals f i + vals g i| := by
    intro i
    obtain ⟨e1, d1⟩ := hf.fin i
    obtain ⟨e2, d2⟩ := hg.fin i
    have b1 : |(fval (f i) : ℝ)| ≤ 2 ^ (300 : ℤ) := (abs_le_nrm (vals f) i).trans nf
    have b2 : |(fval (g i) : ℝ)| ≤ 2 ^ (300 : ℤ) := (abs_le_nrm (vals g) i).trans ng
    have e : vals f i + vals g i = ((fval (f i) + fval (g i) : ℚ) : ℝ) := by push_cast; rfl
    rw [e, e1, e2]
    simp only [fval]
    set x := fval (f i)
    set y := fval (g i)
    have bs : |((x + y : ℚ) : ℝ)| ≤ 2 ^ (301 : ℤ) := by
      push_cast
      have : (2 : ℝ) ^ (300 : ℤ) + 2 ^ (300 : ℤ) = 2 ^ (301 : ℤ) := by rw [show (301 : ℤ) = 300 + 1 from rfl, zpow_add₀ (by norm_num), zpow_one]; ring
      exact (abs_add_le _ _).trans ((add_le_add b1 b2).trans this.le)
    have hlim : |x + y| ≤ 2 * limit := by
      have h3 : (2 : ℝ) ^ (301 : ℤ) ≤ ((2 * limit : ℚ) : ℝ) := by
        unfold limit
        push_cast
        rw [show (301 : ℤ) = ((301 : ℕ) : ℤ) from rfl, zpow_natCast, ← pow_succ']
        exact pow_le_pow_right₀ (by norm_num) (by norm_num)
      have h4 : ((|x + y| : ℚ) : ℝ) ≤ ((2 * limit : ℚ) : ℝ) := by rw [Rat.cast_abs]; exact bs.trans h3
      exact_mod_cast h4
    have he : |((rnd (x + y) : ℚ) : ℝ) - ((x + y : ℚ) : ℝ)| ≤ 1 / 2 ^ 53 * |((x + y : ℚ) : ℝ)| := by
      have h1 := hr.err_add d1 d2
      have h2 : ((|rnd (x + y) - (x + y)| : ℚ) : ℝ) ≤ ((|x + y| / 2 ^ 53 : ℚ) : ℝ) := by exact_mod_cast h1
      push_cast at h2 ⊢
      refine h2.trans (le_of_eq ?_)
      ring
    refine ⟨rnd (x + y), (rounded_fin hr hlim).1, hr.mem _, ?_, he⟩
    have h1 : |((rnd (x + y) : ℚ) : ℝ)| ≤ |((rnd (x + y) : ℚ) : ℝ) - ((x + y : ℚ) : ℝ)| + |((x + y : ℚ) : ℝ)| := by
      simpa using abs_add_le (((rnd (x + y) : ℚ) : ℝ) - ((x + y : ℚ) : ℝ)) ((x + y : ℚ) : ℝ)
    have h2 : |((rnd (x + y) : ℚ) : ℝ)| ≤ 2 * |((x + y : ℚ) : ℝ)| := by
      have : 1 / 2 ^ 53 * |((x + y : ℚ) : ℝ)| ≤ 1 * |((x + y : ℚ) : ℝ)| := mul_le_mul_of_nonneg_right (by norm_num) (abs_nonneg _)
      linarith
    refine h2.trans ((mul_le_mul_of_nonneg_left bs (by norm_num)).trans ?_)
    rw [show (2 : ℝ) * 2 ^ (301 : ℤ) = 2 ^ (302 : ℤ) by rw [show (302 : ℤ) = 1 + 301 from rfl, zpow_add₀ (by norm_num), zpow_one]]
    exact zpow_le_zpow_right₀ (by norm_num) (by norm_num)
  constructor
  · exact finite_of_abs fun i => by
      obtain ⟨r, h1, h2, h3, -⟩ := each i
      exact ⟨r, h1, h2, h3⟩
  · rw [← nrm_abs (vals f + vals g)]
    apply nrm_le_of (by norm_num)
    intro i
    obtain ⟨r, h1, -, -, h4⟩ := each i
    have : (vals (fun i => fadd rnd (f i) (g i)) - (vals f + vals g)) i = r - (vals f i + vals g i) := by
      simp only [Pi.sub_apply, Pi.add_apply, vals, h1, fval]
    rw [this]
    exact h4

end

theorem nrm_quatRotate_le (q : V4) (v : V3) (hq : nrm q ≤ 1 + 1 / 2 ^ 10) : nrm (Kinematics.quatRotate q v) ≤ 6 * nrm v := by
  have V := nrm_nonneg v
  have Q := nrm_nonneg q
  have t1 : nrm (Kinematics.cross (qeps q) v - q 3 • v) ≤ 2 * (nrm q * nrm v) := by
    have := nrm_add (Kinematics.cross (qeps q) v) (-(q 3 • v))
    rw [← sub_eq_add_neg, nrm_neg, nrm_smul] at this
    have h1 := (nrm_cross (qeps q) v).trans (mul_le_mul_of_nonneg_right (nrm_qeps q) V)
    have h2 := mul_le_mul_of_nonneg_right (abs_le_nrm q 3) V
    linarith
  have t2 : nrm (Kinematics.cross (qeps q) (Kinematics.cross (qeps q) v - q 3 • v)) ≤ nrm q * (2 * (nrm q * nrm v)) :=
    (nrm_cross _ _).trans (mul_le_mul (nrm_qeps q) t1 (nrm_nonneg _) Q)
  have t3 := nrm_add v ((2 : ℝ) • Kinematics.cross (qeps q) (Kinematics.cross (qeps q) v - q 3 • v))
  rw [nrm_smul, abs_of_pos (by norm_num : (0 : ℝ) < 2)] at t3
  have t4 : nrm q * nrm q ≤ (1 + 1 / 2 ^ 10) * (1 + 1 / 2 ^ 10) := mul_self_le_mul_self Q hq
  have t5 := mul_le_mul_of_nonneg_right t4 V
  have n1 : (1 : ℝ) + 4 * ((1 + 1 / 2 ^ 10) * (1 + 1 / 2 ^ 10)) ≤ 6 := by norm_num
  have n2 := mul_le_mul_of_nonneg_right n1 V
  unfold Kinematics.quatRotate
  nlinarith

section
variable {R : ℝ → ℚ} (hR : IsRndR R)
include hR

/-- a point mapped by a transformation -/
theorem mulV3_err {X : TransformationD} {p : F3} (hq : Finite X.q) (ht : Finite X.t) (hp : Finite p) (nq : |nrm (vals X.q) - 1| ≤ 1 / 2 ^ 20)
    (np : nrm (vals p) ≤ 2 ^ (200 : ℤ)) (nt : nrm (vals X.t) ≤ 2 ^ (200 : ℤ)) :
    Finite (TransformationD.mulV3 R X p) ∧
    nrm (vals (TransformationD.mulV3 R X p) - (Kinematics.quatRotate (vals X.q) (vals p) + vals X.t)) ≤ 128 / 2 ^ 53 * (nrm (vals p) + nrm (vals X.t) + eta) := by
  obtain ⟨r1, r2⟩ := quatRotate_err hR.rat hq hp nq np
  have P0 := nrm_nonneg (vals p)
  have T0 := nrm_nonneg (vals X.t)
  have hη := eta_pos
  have hη1 : eta ≤ 2 ^ (200 : ℤ) := zpow_le_zpow_right₀ (by norm_num) (by norm_num)
  have qb := abs_le.1 nq
  have hrot := nrm_quatRotate_le (vals X.q) (vals p) (by norm_num at qb ⊢; linarith)
  set r := quatRotate (fun x => R x) X.q p with hr
  have nr : nrm (vals r) ≤ 7 * (nrm (vals p) + eta) := by
    have := nrm_le_add_sub (vals r) (Kinematics.quatRotate (vals X.q) (vals p))
    have h1 : 64 / 2 ^ 53 * (nrm (vals p) + eta) ≤ 1 * (nrm (vals p) + eta) := mul_le_mul_of_nonneg_right (by norm_num) (by linarith)
    linarith
  have b14 : (14 : ℝ) * 2 ^ (200 : ℤ) ≤ 2 ^ (300 : ℤ) := by
    have e : (16 : ℝ) * 2 ^ (200 : ℤ) = 2 ^ (204 : ℤ) := by rw [show (204 : ℤ) = 4 + 200 from rfl, zpow_add₀ (by norm_num)]; norm_num
    have e2 : (14 : ℝ) * 2 ^ (200 : ℤ) ≤ 16 * 2 ^ (200 : ℤ) := mul_le_mul_of_nonneg_right (by norm_num) (by positivity)
    exact e2.trans (e.le.trans (zpow_le_zpow_right₀ (by norm_num) (by norm_num)))
  have nr' : nrm (vals r) ≤ 2 ^ (300 : ℤ) := by
    refine nr.trans (le_trans ?_ b14)
    have := add_le_add np hη1
    calc 7 * (nrm (vals p) + eta) ≤ 7 * (2 ^ (200 : ℤ) + 2 ^ (200 : ℤ)) := mul_le_mul_of_nonneg_left this (by norm_num)
      _ = _ := by ring
  obtain ⟨s1, s2⟩ := vadd_err hR.rat r1 ht nr' (nt.trans (zpow_le_zpow_right₀ (by norm_num) (by norm_num)))
  refine ⟨s1, ?_⟩
  have t := nrm_sub_le (vals (TransformationD.mulV3 R X p)) (vals r + vals X.t) (Kinematics.quatRotate (vals X.q) (vals p) + vals X.t)
  rw [add_sub_add_right_eq_sub] at t
  have s3 := nrm_add (vals r) (vals X.t)
  have s4 : 1 / 2 ^ 53 * nrm (vals r + vals X.t) ≤ 1 / 2 ^ 53 * (7 * (nrm (vals p) + eta) + nrm (vals X.t)) := mul_le_mul_of_nonneg_left (by linarith) (by norm_num)
  have s2' : nrm (vals (TransformationD.mulV3 R X p) - (vals r + vals X.t)) ≤ 1 / 2 ^ 53 * nrm (vals r + vals X.t) := s2
  have e : 128 / 2 ^ 53 * (nrm (vals p) + nrm (vals X.t) + eta) = 64 / 2 ^ 53 * (nrm (vals p) + eta) + (64 / 2 ^ 53 * (nrm (vals p) + eta) + 128 / 2 ^ 53 * nrm (vals X.t)) := by ring
  rw [e]
  have u1 : 7 / 2 ^ 53 * (nrm (vals p) + eta) ≤ 64 / 2 ^ 53 * (nrm (vals p) + eta) := mul_le_mul_of_nonneg_right (by norm_num) (by linarith)
  have u2 : 1 / 2 ^ 53 * nrm (vals X.t) ≤ 128 / 2 ^ 53 * nrm (vals X.t) := mul_le_mul_of_nonneg_right (by norm_num) T0
  have u3 : 1 / 2 ^ 53 * (7 * (nrm (vals p) + eta) + nrm (vals X.t)) = 7 / 2 ^ 53 * (nrm (vals p) + eta) + 1 / 2 ^ 53 * nrm (vals X.t) := by ring
  linarith

end

end Verif.KinematicsDouble
