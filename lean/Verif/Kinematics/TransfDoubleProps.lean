import Verif.Kinematics.RotateErr
import Verif.Kinematics.Transf

/-!
# C120, C121: products and inverses of transformations in doubles
-/

namespace Verif.KinematicsDouble

open Verif.Common
open Verif.Kinematics (V3 V4 M3 sqNorm qeps)

local notation "nrm" => Kinematics.norm

/-! ## specification -/

/-- a program that builds a transformation: constructor calls, `operator*` and `inverse()` -/
inductive Build
  | make (q : F4) (t : F3)
  | mul (X Y : Build)
  | inverse (X : Build)

namespace Build

/-- what the program computes in doubles -/
noncomputable def run {R : ℝ → ℚ} (E : Eigen fun q => R q) : Build → TransformationD
  | make q t => TransformationD.mkQT E q t
  | mul X Y => TransformationD.mul E (X.run E) (Y.run E)
  | inverse X => TransformationD.inverse E (X.run E)

/-- the same program with exact real arithmetic -/
noncomputable def exact : Build → Kinematics.Transformation
  | make q t => Kinematics.Transformation.mkQT (vals q) (vals t)
  | mul X Y => Kinematics.Transformation.mul X.exact Y.exact
  | inverse X => Kinematics.Transformation.inverse X.exact

/-- the number of constructor calls, products and inverses -/
def steps : Build → ℕ
  | make _ _ => 1
  | mul X Y => X.steps + Y.steps + 1
  | inverse X => X.steps + 1

/-- the sum of the lengths of the translations the program starts with -/
noncomputable def reach : Build → ℝ
  | make _ t => nrm (vals t)
  | mul X Y => X.reach + Y.reach
  | inverse X => X.reach

/-- the quaternions passed to the constructor are finite, not zero and not huge -/
def RotationsOk : Build → Prop
  | make q _ => Finite q ∧ InR (-200) 200 (nrm (vals q))
  | mul X Y => X.RotationsOk ∧ Y.RotationsOk
  | inverse X => X.RotationsOk

/-- and the translations are finite -/
def TranslationsOk : Build → Prop
  | make _ t => Finite t
  | mul X Y => X.TranslationsOk ∧ Y.TranslationsOk
  | inverse X => X.TranslationsOk

end Build

/-! ## the exact program -/

theorem mkQT_unit {q : V4} (hq : nrm q ≠ 0) (t : V3) : nrm (Kinematics.Transformation.mkQT q t).q = 1 := by
  have : (Kinematics.Transformation.mkQT q t).q = (nrm q)⁻¹ • q := by
    funext i; simp only [Kinematics.Transformation.mkQT, Pi.smul_apply, smul_eq_mul]; ring
  rw [this, nrm_smul, abs_of_nonneg (inv_nonneg.2 (nrm_nonneg q)), inv_mul_cancel₀ hq]

theorem mkQT_of_unit {q : V4} (hq : nrm q = 1) (t : V3) : (Kinematics.Transformation.mkQT q t).q = q := by
  funext i; simp only [Kinematics.Transformation.mkQT, hq, div_one]

theorem nrm_quatInv (q : V4) : nrm (Kinematics.quatInv q) = nrm q := by
  unfold Kinematics.norm
  congr 1
  rw [Kinematics.sq4, Kinematics.sq4]
  simp only [Kinematics.quatInv, Matrix.cons_val_zero, Matrix.cons_val_one, Matrix.cons_val]
  ring

theorem exact_inv (b : Build) (h : b.RotationsOk) : nrm b.exact.q = 1 ∧ nrm b.exact.t ≤ b.reach := by
  induction b with
  | make q t => exact ⟨mkQT_unit h.2.pos.ne' _, le_rfl⟩
  | mul X Y ihX ihY =>
    obtain ⟨x1, x2⟩ := ihX h.1
    obtain ⟨y1, y2⟩ := ihY h.2
    have hu : nrm (Kinematics.qplus X.exact.q Y.exact.q) = 1 := by rw [nrm_qplus, x1, y1, one_mul]
    refine ⟨mkQT_unit (by rw [hu]; norm_num) _, ?_⟩
    have := nrm_add (Kinematics.quatRotate X.exact.q Y.exact.t) X.exact.t
    rw [nrm_quatRotate x1] at this
    show nrm (Kinematics.quatRotate X.exact.q Y.exact.t + X.exact.t) ≤ X.reach + Y.reach
    linarith
  | inverse X ih =>
    obtain ⟨x1, x2⟩ := ih h
    have hu : nrm (Kinematics.quatInv X.exact.q) = 1 := by rw [nrm_quatInv, x1]
    refine ⟨mkQT_unit (by rw [hu]; norm_num) _, ?_⟩
    show nrm (Kinematics.quatRotate (Kinematics.quatInv X.exact.q) (-X.exact.t)) ≤ X.reach
    rw [nrm_quatRotate hu, nrm_neg]; exact x2

/-! ## C120 -/

theorem finite_quatInv {q : F4} (h : Finite q) : Finite (quatInv q) := by
  have neg : ∀ i, (Fp.neg (q i)).isFinite ∧ IsDoubleVal (Fp.neg (q i)) := by
    intro i
    obtain ⟨h1, h2⟩ := h i
    cases hq : q i with
    | fin x => rw [hq] at h2; exact ⟨rfl, h2.1.neg, by rw [abs_neg]; exact h2.2⟩
    | inf b => rw [hq] at h1; simp [Fp.isFinite] at h1
    | nan => rw [hq] at h1; simp [Fp.isFinite] at h1
  intro i
  fin_cases i
  · exact neg 0
  · exact neg 1
  · exact neg 2
  · exact h 3

theorem finite_neg {n : ℕ} {q : Fin n → Fp} (h : Finite q) : Finite (fun i => (q i).neg) := by
  intro i
  obtain ⟨h1, h2⟩ := h i
  show (Fp.neg (q i)).isFinite ∧ IsDoubleVal (Fp.neg (q i))
  cases hq : q i with
  | fin x => rw [hq] at h2; exact ⟨rfl, h2.1.neg, by rw [abs_neg]; exact h2.2⟩
  | inf b => rw [hq] at h1; simp [Fp.isFinite] at h1
  | nan => rw [hq] at h1; simp [Fp.isFinite] at h1

theorem fval_neg (x : Fp) : fval x.neg = -fval x := by cases x <;> simp [Fp.neg, fval]

theorem vals_neg {n : ℕ} (q : Fin n → Fp) : vals (fun i => (q i).neg) = -vals q := by
  funext i; simp [vals, fval_neg]

theorem vals_quatInv (q : F4) : vals (quatInv q) = Kinematics.quatInv (vals q) := by
  apply Kinematics.ext4 <;> simp [vals, quatInv, Kinematics.quatInv, fval_neg]

section
variable {R : ℝ → ℚ} (hR : IsRndR R) (E : Eigen fun q => R q)
include hR

/-- normalizing a quaternion that is nearly a unit quaternion moves it only a little -/
theorem normalize_near {q : F4} (hq : Finite q) (nq : |nrm (vals q) - 1| ≤ 36 / 2 ^ 53) :
    Finite (normalize E q) ∧ |nrm (vals (normalize E q)) - 1| ≤ 12 / 2 ^ 53 ∧ nrm (vals (normalize E q) - vals q) ≤ 48 / 2 ^ 53 := by
  have b := abs_le.1 nq
  have hin : InR (-200) 200 (nrm (vals q)) := inR_near_one (by norm_num at b ⊢; linarith) (by norm_num at b ⊢; linarith)
  obtain ⟨h1, h2⟩ := normalize_err hR E hq hin
  have hN := hin.pos
  have hu : nrm ((nrm (vals q))⁻¹ • vals q) = 1 := by rw [nrm_smul, abs_of_pos (inv_pos.2 hN), inv_mul_cancel₀ hN.ne']
  refine ⟨h1, ?_, ?_⟩
  · have := nrm_diff (vals (normalize E q)) ((nrm (vals q))⁻¹ • vals q)
    rw [hu] at this
    exact this.trans h2
  · have t := nrm_sub_le (vals (normalize E q)) ((nrm (vals q))⁻¹ • vals q) (vals q)
    have e : (nrm (vals q))⁻¹ • vals q - vals q = ((nrm (vals q))⁻¹ - 1) • vals q := by rw [sub_smul, one_smul]
    rw [e, nrm_smul] at t
    have e2 : |(nrm (vals q))⁻¹ - 1| * nrm (vals q) = |nrm (vals q) - 1| := by
      have : |(nrm (vals q))⁻¹ - 1| * nrm (vals q) = |((nrm (vals q))⁻¹ - 1) * nrm (vals q)| := by rw [abs_mul, abs_of_pos hN]
      rw [this, sub_mul, inv_mul_cancel₀ hN.ne', one_mul, abs_sub_comm]
    rw [e2] at t
    linarith

/-- a product of two nearly unit quaternions, normalized -/
theorem mul_near {q p : F4} (hq : Finite q) (hp : Finite p) (nq : |nrm (vals q) - 1| ≤ 12 / 2 ^ 53) (np : |nrm (vals p) - 1| ≤ 12 / 2 ^ 53) :
    Finite (normalize E (qplus (fun x => R x) q p)) ∧ |nrm (vals (normalize E (qplus (fun x => R x) q p))) - 1| ≤ 12 / 2 ^ 53 ∧
      nrm (vals (normalize E (qplus (fun x => R x) q p)) - Kinematics.qplus (vals q) (vals p)) ≤ 60 / 2 ^ 53 := by
  have b1 := abs_le.1 nq
  have b2 := abs_le.1 np
  obtain ⟨h1, h2⟩ := qplus_err hR.rat hq hp (inR_near_one (by norm_num at b1 ⊢; linarith) (by norm_num at b1 ⊢; linarith)) (inR_near_one (by norm_num at b2 ⊢; linarith) (by norm_num at b2 ⊢; linarith))
  have h3 : nrm (vals q) * nrm (vals p) ≤ (1 + 12 / 2 ^ 53) * (1 + 12 / 2 ^ 53) := mul_le_mul (by linarith) (by linarith) (nrm_nonneg _) (by norm_num)
  have h4 : 9 / 2 ^ 53 * (nrm (vals q) * nrm (vals p)) ≤ 10 / 2 ^ 53 := by
    calc _ ≤ 9 / 2 ^ 53 * ((1 + 12 / 2 ^ 53) * (1 + 12 / 2 ^ 53)) := mul_le_mul_of_nonneg_left h3 (by norm_num)
      _ ≤ _ := by norm_num
  have h5 : |nrm (Kinematics.qplus (vals q) (vals p)) - 1| ≤ 25 / 2 ^ 53 := by
    rw [nrm_qplus, show nrm (vals q) * nrm (vals p) - 1 = (nrm (vals q) - 1) + (nrm (vals p) - 1) + (nrm (vals q) - 1) * (nrm (vals p) - 1) by ring]
    have t := (abs_add_le ((nrm (vals q) - 1) + (nrm (vals p) - 1)) ((nrm (vals q) - 1) * (nrm (vals p) - 1))).trans (add_le_add_left (abs_add_le _ _) _)
    have t2 : |(nrm (vals q) - 1) * (nrm (vals p) - 1)| ≤ 12 / 2 ^ 53 * (12 / 2 ^ 53) := by rw [abs_mul]; exact mul_le_mul nq np (abs_nonneg _) (by norm_num)
    have n1 : (12 : ℝ) / 2 ^ 53 + 12 / 2 ^ 53 + 12 / 2 ^ 53 * (12 / 2 ^ 53) ≤ 25 / 2 ^ 53 := by norm_num
    linarith
  have h6 : |nrm (vals (qplus (fun x => R x) q p)) - 1| ≤ 36 / 2 ^ 53 := by
    have t := nrm_diff (vals (qplus (fun x => R x) q p)) (Kinematics.qplus (vals q) (vals p))
    have t2 := abs_sub_le (nrm (vals (qplus (fun x => R x) q p))) (nrm (Kinematics.qplus (vals q) (vals p))) 1
    have n1 : (10 : ℝ) / 2 ^ 53 + 25 / 2 ^ 53 ≤ 36 / 2 ^ 53 := by norm_num
    linarith
  obtain ⟨g1, g2, g3⟩ := normalize_near hR E h1 h6
  refine ⟨g1, g2, ?_⟩
  have t := nrm_sub_le (vals (normalize E (qplus (fun x => R x) q p))) (vals (qplus (fun x => R x) q p)) (Kinematics.qplus (vals q) (vals p))
  have n1 : (48 : ℝ) / 2 ^ 53 + 10 / 2 ^ 53 ≤ 60 / 2 ^ 53 := by norm_num
  linarith

/-- **C120** However a transformation was built, by any number of products and inverses in any order, its quaternion is a unit quaternion to within 12 units of the last place: every constructor call renormalizes. (The
translations do not matter: they may even overflow.) -/
theorem C120_unit (b : Build) (h : b.RotationsOk) : Finite (b.run E).q ∧ |nrm (vals (b.run E).q) - 1| ≤ 12 / 2 ^ 53 := by
  induction b with
  | make q t =>
    obtain ⟨h1, h2⟩ := normalize_err hR E h.1 h.2
    have hN := h.2.pos
    have hu : nrm ((nrm (vals q))⁻¹ • vals q) = 1 := by rw [nrm_smul, abs_of_pos (inv_pos.2 hN), inv_mul_cancel₀ hN.ne']
    refine ⟨h1, ?_⟩
    have := nrm_diff (vals (normalize E q)) ((nrm (vals q))⁻¹ • vals q)
    rw [hu] at this
    exact this.trans h2
  | mul X Y ihX ihY =>
    obtain ⟨x1, x2⟩ := ihX h.1
    obtain ⟨y1, y2⟩ := ihY h.2
    obtain ⟨g1, g2, -⟩ := mul_near hR E x1 y1 x2 y2
    exact ⟨g1, g2⟩
  | inverse X ih =>
    obtain ⟨x1, x2⟩ := ih h
    have e : nrm (vals (quatInv (X.run E).q)) = nrm (vals (X.run E).q) := by rw [vals_quatInv, nrm_quatInv]
    obtain ⟨g1, g2, -⟩ := normalize_near hR E (finite_quatInv x1) (by rw [e]; exact x2.trans (by norm_num))
    exact ⟨g1, g2⟩

/-- **C120** The debug assertion of `quat2r` (called by `C()` and `T()`) can never fire on such a transformation. -/
theorem C120_assertion (b : Build) (h : b.RotationsOk) : ∃ m : ℚ, norm E (b.run E).q = .fin m ∧ |m - 1| < 1 / 10000 := by
  obtain ⟨h1, h2⟩ := C120_unit hR E b h
  have bb := abs_le.1 h2
  norm_num at bb
  obtain ⟨m, e1, -, e3⟩ := norm_err hR E h1 (inR_near_one (by linarith) (by linarith))
  refine ⟨m, e1, ?_⟩
  have e4 : 8 / 2 ^ 53 * nrm (vals (b.run E).q) ≤ 8 / 2 ^ 53 * 2 := mul_le_mul_of_nonneg_left (by linarith) (by norm_num)
  have t := abs_sub_le (m : ℝ) (nrm (vals (b.run E).q)) 1
  have n1 : (8 : ℝ) / 2 ^ 53 * 2 + 12 / 2 ^ 53 < 1 / 10000 := by norm_num
  have h5 : |(m : ℝ) - 1| < 1 / 10000 := by linarith
  have h6 : ((|m - 1| : ℚ) : ℝ) < ((1 / 10000 : ℚ) : ℝ) := by push_cast; exact h5
  exact_mod_cast h6

/-! ## C121 -/

omit hR in
theorem quatInv_sub (a b : V4) : Kinematics.quatInv (a - b) = Kinematics.quatInv a - Kinematics.quatInv b := by
  apply Kinematics.ext4 <;> simp [Kinematics.quatInv] <;> ring

/-- **C121** The rotation of a transformation built in `n` steps is within `n·2^-47` of the exact one. -/
theorem C121_rotation (b : Build) (h : b.RotationsOk) (hn : b.steps ≤ 2 ^ 40) : nrm (vals (b.run E).q - b.exact.q) ≤ b.steps / 2 ^ 47 := by
  induction b with
  | make q t =>
    have h2 := (normalize_err hR E h.1 h.2).2
    have e : (Build.make q t).exact.q = (nrm (vals q))⁻¹ • vals q := by
      funext i; simp only [Build.exact, Kinematics.Transformation.mkQT, Pi.smul_apply, smul_eq_mul]; ring
    rw [e]
    refine h2.trans ?_
    simp only [Build.steps]
    norm_num
  | mul X Y ihX ihY =>
    simp only [Build.steps] at hn ⊢
    have ex := ihX h.1 (by omega)
    have ey := ihY h.2 (by omega)
    obtain ⟨x1, x2⟩ := C120_unit hR E X h.1
    obtain ⟨y1, y2⟩ := C120_unit hR E Y h.2
    obtain ⟨-, -, g3⟩ := mul_near hR E x1 y1 x2 y2
    have ux := (exact_inv X h.1).1
    have uy := (exact_inv Y h.2).1
    have hu : nrm (Kinematics.qplus X.exact.q Y.exact.q) = 1 := by rw [nrm_qplus, ux, uy, one_mul]
    have e : (Build.mul X Y).exact.q = Kinematics.qplus X.exact.q Y.exact.q := mkQT_of_unit hu _
    rw [e]
    show nrm (vals (normalize E (qplus (fun x => R x) (X.run E).q (Y.run E).q)) - _) ≤ _
    have t := nrm_sub_le (vals (normalize E (qplus (fun x => R x) (X.run E).q (Y.run E).q))) (Kinematics.qplus (vals (X.run E).q) (vals (Y.run E).q)) (Kinematics.qplus X.exact.q Y.exact.q)
    have t2 := nrm_sub_le (Kinematics.qplus (vals (X.run E).q) (vals (Y.run E).q)) (Kinematics.qplus X.exact.q (vals (Y.run E).q)) (Kinematics.qplus X.exact.q Y.exact.q)
    rw [← qplus_sub_left, ← qplus_sub_right, nrm_qplus, nrm_qplus, ux, one_mul] at t2
    have hX : (X.steps : ℝ) ≤ 2 ^ 40 := by
      have : X.steps ≤ 2 ^ 40 := by omega
      exact_mod_cast this
    have s1 : (X.steps : ℝ) / 2 ^ 47 ≤ 1 / 2 ^ 7 := by
      calc (X.steps : ℝ) / 2 ^ 47 ≤ 2 ^ 40 / 2 ^ 47 := div_le_div_of_nonneg_right hX (by norm_num)
        _ = _ := by norm_num
    have yb := (abs_le.1 y2).2
    have s2 : nrm (vals (X.run E).q - X.exact.q) * nrm (vals (Y.run E).q) ≤ X.steps / 2 ^ 47 + 1 / 2 ^ 7 * (12 / 2 ^ 53) := by
      have : nrm (vals (X.run E).q - X.exact.q) * nrm (vals (Y.run E).q) ≤ X.steps / 2 ^ 47 * (1 + 12 / 2 ^ 53) := mul_le_mul ex (by linarith) (nrm_nonneg _) (by positivity)
      have u : (X.steps : ℝ) / 2 ^ 47 * (12 / 2 ^ 53) ≤ 1 / 2 ^ 7 * (12 / 2 ^ 53) := mul_le_mul_of_nonneg_right s1 (by norm_num)
      have e3 : (X.steps : ℝ) / 2 ^ 47 * (1 + 12 / 2 ^ 53) = X.steps / 2 ^ 47 + X.steps / 2 ^ 47 * (12 / 2 ^ 53) := by ring
      linarith
    have e4 : ((X.steps + Y.steps + 1 : ℕ) : ℝ) / 2 ^ 47 = X.steps / 2 ^ 47 + Y.steps / 2 ^ 47 + 1 / 2 ^ 47 := by push_cast; ring
    rw [e4]
    have n1 : (60 : ℝ) / 2 ^ 53 + 1 / 2 ^ 7 * (12 / 2 ^ 53) ≤ 1 / 2 ^ 47 := by norm_num
    linarith
  | inverse X ih =>
    simp only [Build.steps] at hn ⊢
    have ex := ih h (by omega)
    obtain ⟨x1, x2⟩ := C120_unit hR E X h
    have e : nrm (vals (quatInv (X.run E).q)) = nrm (vals (X.run E).q) := by rw [vals_quatInv, nrm_quatInv]
    obtain ⟨-, -, g3⟩ := normalize_near hR E (finite_quatInv x1) (by rw [e]; exact x2.trans (by norm_num))
    have ux := (exact_inv X h).1
    have hu : nrm (Kinematics.quatInv X.exact.q) = 1 := by rw [nrm_quatInv, ux]
    have e2 : (Build.inverse X).exact.q = Kinematics.quatInv X.exact.q := mkQT_of_unit hu _
    rw [e2]
    show nrm (vals (normalize E (quatInv (X.run E).q)) - _) ≤ _
    have t := nrm_sub_le (vals (normalize E (quatInv (X.run E).q))) (vals (quatInv (X.run E).q)) (Kinematics.quatInv X.exact.q)
    rw [vals_quatInv (X.run E).q, ← quatInv_sub, nrm_quatInv] at t
    rw [vals_quatInv] at g3
    have e4 : ((X.steps + 1 : ℕ) : ℝ) / 2 ^ 47 = X.steps / 2 ^ 47 + 1 / 2 ^ 47 := by push_cast; ring
    rw [e4]
    have n1 : (48 : ℝ) / 2 ^ 53 ≤ 1 / 2 ^ 47 := by norm_num
    linarith

/-- a vector mapped by the computed rotation instead of the exact one -/
theorem rotate_near {q : F4} {x : V4} {v : F3} {y : V3} {N : ℕ} {τ : ℝ} (hx : nrm x = 1) (nq : |nrm (vals q) - 1| ≤ 12 / 2 ^ 53) (hq : nrm (vals q - x) ≤ N / 2 ^ 47) (hv : nrm (vals v - y) ≤ τ) :
    nrm (Kinematics.quatRotate (vals q) (vals v) - Kinematics.quatRotate x y) ≤ 9 * (N / 2 ^ 47) * nrm (vals v) + τ := by
  have b := abs_le.1 nq
  have t := nrm_sub_le (Kinematics.quatRotate (vals q) (vals v)) (Kinematics.quatRotate x (vals v)) (Kinematics.quatRotate x y)
  rw [← quatRotate_sub, nrm_quatRotate hx] at t
  have l := quatRotate_lip (vals q) x (vals v)
  rw [hx] at l
  have V := nrm_nonneg (vals v)
  have l2 : 4 * (nrm (vals q) + 1) * nrm (vals q - x) * nrm (vals v) ≤ 9 * (N / 2 ^ 47) * nrm (vals v) := by
    refine mul_le_mul_of_nonneg_right (mul_le_mul ?_ hq (nrm_nonneg _) (by norm_num)) V
    norm_num at b; linarith
  linarith

omit hR in
/-- the constants of one step -/
theorem step_const {W W1 W2 η T1 T2 : ℝ} {n m : ℕ} (hη : 0 < η) (h1 : 0 ≤ W1) (h2 : 0 ≤ W2) (hW : W = W1 + W2) (hT1 : 0 ≤ T1) (hT2 : 0 ≤ T2)
    (hT1' : T1 ≤ 2 * (W1 + η)) (hT2' : T2 ≤ 2 * (W2 + η)) :
    128 / 2 ^ 53 * (T2 + T1 + η) + (9 * (n / 2 ^ 47) * T2 + m ^ 2 / 2 ^ 42 * (W2 + η)) + n ^ 2 / 2 ^ 42 * (W1 + η) ≤ ((n + m + 1 : ℕ) : ℝ) ^ 2 / 2 ^ 42 * (W + η) := by
  subst hW
  have hn : (0 : ℝ) ≤ n := Nat.cast_nonneg n
  have hm : (0 : ℝ) ≤ m := Nat.cast_nonneg m
  set A := W1 + W2 + η with hA
  have a0 : 0 ≤ A := by positivity
  have t1 : 128 / 2 ^ 53 * (T2 + T1 + η) ≤ 1 / 2 ^ 42 * A := by
    have : T2 + T1 + η ≤ 5 * A := by rw [hA]; linarith
    calc _ ≤ 128 / 2 ^ 53 * (5 * A) := mul_le_mul_of_nonneg_left this (by norm_num)
      _ = 128 / 2 ^ 53 * 5 * A := by ring
      _ ≤ _ := mul_le_mul_of_nonneg_right (by norm_num) a0
  have t2 : 9 * (n / 2 ^ 47) * T2 ≤ n / 2 ^ 42 * A := by
    have : T2 ≤ 2 * A := by rw [hA]; linarith
    calc 9 * (n / 2 ^ 47) * T2 ≤ 9 * (n / 2 ^ 47) * (2 * A) := mul_le_mul_of_nonneg_left this (by positivity)
      _ = (9 * 2 / 2 ^ 47) * (n * A) := by ring
      _ ≤ (1 / 2 ^ 42) * (n * A) := mul_le_mul_of_nonneg_right (by norm_num) (by positivity)
      _ = _ := by ring
  have t3 : (m : ℝ) ^ 2 / 2 ^ 42 * (W2 + η) ≤ m ^ 2 / 2 ^ 42 * A := mul_le_mul_of_nonneg_left (by rw [hA]; linarith) (by positivity)
  have t4 : (n : ℝ) ^ 2 / 2 ^ 42 * (W1 + η) ≤ n ^ 2 / 2 ^ 42 * A := mul_le_mul_of_nonneg_left (by rw [hA]; linarith) (by positivity)
  have t5 : (1 / 2 ^ 42 * A) + (n / 2 ^ 42 * A) + (m ^ 2 / 2 ^ 42 * A) + (n ^ 2 / 2 ^ 42 * A) ≤ ((n + m + 1 : ℕ) : ℝ) ^ 2 / 2 ^ 42 * A := by
    have : (1 + n + m ^ 2 + n ^ 2 : ℝ) ≤ ((n + m + 1 : ℕ) : ℝ) ^ 2 := by push_cast; nlinarith
    calc _ = (1 + n + m ^ 2 + n ^ 2 : ℝ) * (1 / 2 ^ 42 * A) := by ring
      _ ≤ ((n + m + 1 : ℕ) : ℝ) ^ 2 * (1 / 2 ^ 42 * A) := mul_le_mul_of_nonneg_right this (by positivity)
      _ = _ := by ring
  linarith

omit hR in
theorem reach_nonneg (b : Build) : 0 ≤ b.reach := by
  induction b with
  | make q t => exact nrm_nonneg _
  | mul X Y h1 h2 => exact add_nonneg h1 h2
  | inverse X h => exact h

omit hR in
/-- the computed translation is not longer than twice the reach -/
theorem trans_le {t : F3} {x : V3} {W : ℝ} {n : ℕ} (hn : n ≤ 2 ^ 20) (hW : 0 ≤ W) (hx : nrm x ≤ W) (h : nrm (vals t - x) ≤ n ^ 2 / 2 ^ 42 * (W + eta)) : nrm (vals t) ≤ 2 * (W + eta) := by
  have h1 := nrm_le_add_sub (vals t) x
  have hn' : (n : ℝ) ≤ 2 ^ 20 := by exact_mod_cast hn
  have h2 : (n : ℝ) ^ 2 / 2 ^ 42 ≤ 1 := by
    have : (n : ℝ) ^ 2 ≤ (2 ^ 20) ^ 2 := pow_le_pow_left₀ (Nat.cast_nonneg n) hn' 2
    rw [div_le_one (by norm_num)]
    exact this.trans (by norm_num)
  have h3 := mul_le_mul_of_nonneg_right h2 (show 0 ≤ W + eta by linarith [eta_pos])
  linarith [eta_pos]

omit hR in
theorem small_enough {W : ℝ} (hW : W ≤ 2 ^ (100 : ℤ)) : 2 * (W + eta) ≤ 2 ^ (200 : ℤ) := by
  have h1 : eta ≤ 2 ^ (100 : ℤ) := zpow_le_zpow_right₀ (by norm_num) (by norm_num)
  have h2 := add_le_add hW h1
  have e : 2 * ((2 : ℝ) ^ (100 : ℤ) + 2 ^ (100 : ℤ)) = 2 ^ (102 : ℤ) := by rw [show (102 : ℤ) = 2 + 100 from rfl, zpow_add₀ (by norm_num)]; ring
  exact (mul_le_mul_of_nonneg_left h2 (by norm_num)).trans (e.le.trans (zpow_le_zpow_right₀ (by norm_num) (by norm_num)))

/-- **C121** The translation of a transformation built in `n` steps (`n` up to 2^20) is finite and within `n²·2^-42` of the exact one, relative to the sum of the lengths of the given translations. -/
theorem C121_translation (b : Build) (h : b.RotationsOk) (ht : b.TranslationsOk) (hn : b.steps ≤ 2 ^ 20) (hW : b.reach ≤ 2 ^ (100 : ℤ)) :
    Finite (b.run E).t ∧ nrm (vals (b.run E).t - b.exact.t) ≤ (b.steps : ℝ) ^ 2 / 2 ^ 42 * (b.reach + eta) := by
  induction b with
  | make q t =>
    refine ⟨ht, ?_⟩
    show nrm (vals t - vals t) ≤ _
    rw [sub_self, nrm_zero]
    have := nrm_nonneg (vals t)
    have := eta_pos
    simp only [Build.steps, Build.reach]
    positivity
  | mul X Y ihX ihY =>
    simp only [Build.steps] at hn
    simp only [Build.reach] at hW
    have wx := reach_nonneg X
    have wy := reach_nonneg Y
    obtain ⟨fx, ex⟩ := ihX h.1 ht.1 (by omega) (by linarith)
    obtain ⟨fy, ey⟩ := ihY h.2 ht.2 (by omega) (by linarith)
    obtain ⟨x1, x2⟩ := C120_unit hR E X h.1
    have ux := exact_inv X h.1
    have uy := exact_inv Y h.2
    have Tx := trans_le (by omega) wx ux.2 ex
    have Ty := trans_le (by omega) wy uy.2 ey
    have qx := C121_rotation hR E X h.1 (by omega)
    obtain ⟨m1, m2⟩ := mulV3_err hR x1 fx fy (x2.trans (by norm_num)) (Ty.trans (small_enough (by linarith))) (Tx.trans (small_enough (by linarith)))
    refine ⟨m1, ?_⟩
    show nrm (vals (TransformationD.mulV3 R (X.run E) (Y.run E).t) - (Kinematics.quatRotate X.exact.q Y.exact.t + X.exact.t)) ≤ _
    have t := nrm_sub_le (vals (TransformationD.mulV3 R (X.run E) (Y.run E).t)) (Kinematics.quatRotate (vals (X.run E).q) (vals (Y.run E).t) + vals (X.run E).t) (Kinematics.quatRotate X.exact.q Y.exact.t + X.exact.t)
    rw [add_sub_add_comm] at t
    have t2 := nrm_add (Kinematics.quatRotate (vals (X.run E).q) (vals (Y.run E).t) - Kinematics.quatRotate X.exact.q Y.exact.t) (vals (X.run E).t - X.exact.t)
    have t3 := rotate_near hR ux.1 x2 qx ey
    have s := step_const (n := X.steps) (m := Y.steps) eta_pos wx wy rfl (nrm_nonneg (vals (X.run E).t)) (nrm_nonneg (vals (Y.run E).t)) Tx Ty
    simp only [Build.steps, Build.reach]
    linarith
  | inverse X ih =>
    simp only [Build.steps] at hn
    simp only [Build.reach] at hW
    have wx := reach_nonneg X
    obtain ⟨fx, ex⟩ := ih h ht (by omega) hW
    obtain ⟨x1, x2⟩ := C120_unit hR E X h
    have ux := exact_inv X h
    have Tx := trans_le (by omega) wx ux.2 ex
    have qx := C121_rotation hR E X h (by omega)
    have nn : nrm (vals fun i => ((X.run E).t i).neg) = nrm (vals (X.run E).t) := by rw [vals_neg, nrm_neg]
    have nq : nrm (vals (quatInv (X.run E).q)) = nrm (vals (X.run E).q) := by rw [vals_quatInv, nrm_quatInv]
    obtain ⟨m1, m2⟩ := quatRotate_err hR.rat (finite_quatInv x1) (finite_neg fx) (by rw [nq]; exact x2.trans (by norm_num)) (by rw [nn]; exact Tx.trans (small_enough hW))
    refine ⟨m1, ?_⟩
    show nrm (vals (quatRotate (fun x => R x) (quatInv (X.run E).q) fun i => ((X.run E).t i).neg) - Kinematics.quatRotate (Kinematics.quatInv X.exact.q) (-X.exact.t)) ≤ _
    have t := nrm_sub_le (vals (quatRotate (fun x => R x) (quatInv (X.run E).q) fun i => ((X.run E).t i).neg)) (Kinematics.quatRotate (vals (quatInv (X.run E).q)) (vals fun i => ((X.run E).t i).neg)) (Kinematics.quatRotate (Kinematics.quatInv X.exact.q) (-X.exact.t))
    have t3 := rotate_near hR (q := quatInv (X.run E).q) (x := Kinematics.quatInv X.exact.q) (v := fun i => ((X.run E).t i).neg) (y := -X.exact.t) (N := X.steps) (by rw [nrm_quatInv, ux.1]) (by rw [nq]; exact x2)
      (by rw [vals_quatInv, ← quatInv_sub, nrm_quatInv]; exact qx) (τ := (X.steps : ℝ) ^ 2 / 2 ^ 42 * (X.reach + eta)) (by rw [vals_neg, neg_sub_neg, nrm_sub_rev]; exact ex)
    rw [nn] at m2 t3
    have hst : (0 : ℝ) ≤ X.steps := Nat.cast_nonneg _
    simp only [Build.steps, Build.reach]
    -- one step: the rotation error acts on the translation itself
    set A := X.reach + eta with hA
    have a0 : 0 ≤ A := by linarith [eta_pos]
    have T0 := nrm_nonneg (vals (X.run E).t)
    have u1 : 64 / 2 ^ 53 * (nrm (vals (X.run E).t) + eta) ≤ 1 / 2 ^ 42 * A := by
      have : nrm (vals (X.run E).t) + eta ≤ 3 * A := by rw [hA] at Tx ⊢; linarith
      calc _ ≤ 64 / 2 ^ 53 * (3 * A) := mul_le_mul_of_nonneg_left this (by norm_num)
        _ = 64 / 2 ^ 53 * 3 * A := by ring
        _ ≤ _ := mul_le_mul_of_nonneg_right (by norm_num) a0
    have u2 : 9 * ((X.steps : ℝ) / 2 ^ 47) * nrm (vals (X.run E).t) ≤ X.steps / 2 ^ 42 * A := by
      calc 9 * ((X.steps : ℝ) / 2 ^ 47) * nrm (vals (X.run E).t) ≤ 9 * (X.steps / 2 ^ 47) * (2 * A) := mul_le_mul_of_nonneg_left Tx (by positivity)
        _ = (9 * 2 / 2 ^ 47) * (X.steps * A) := by ring
        _ ≤ (1 / 2 ^ 42) * (X.steps * A) := mul_le_mul_of_nonneg_right (by norm_num) (by positivity)
        _ = _ := by ring
    have u3 : (1 / 2 ^ 42 * A) + (X.steps / 2 ^ 42 * A) + ((X.steps : ℝ) ^ 2 / 2 ^ 42 * A) ≤ ((X.steps + 1 : ℕ) : ℝ) ^ 2 / 2 ^ 42 * A := by
      have : (1 + X.steps + (X.steps : ℝ) ^ 2 : ℝ) ≤ ((X.steps + 1 : ℕ) : ℝ) ^ 2 := by push_cast; nlinarith
      calc _ = (1 + X.steps + (X.steps : ℝ) ^ 2 : ℝ) * (1 / 2 ^ 42 * A) := by ring
        _ ≤ ((X.steps + 1 : ℕ) : ℝ) ^ 2 * (1 / 2 ^ 42 * A) := mul_le_mul_of_nonneg_right this (by positivity)
        _ = _ := by ring
    linarith

/-- **C121** A point mapped by such a transformation. -/
theorem C121_point (b : Build) (h : b.RotationsOk) (ht : b.TranslationsOk) (hn : b.steps < 2 ^ 20) (p : F3) (hp : Finite p) (hW : b.reach + nrm (vals p) ≤ 2 ^ (100 : ℤ)) :
    Finite (TransformationD.mulV3 R (b.run E) p) ∧
    nrm (vals (TransformationD.mulV3 R (b.run E) p) - Kinematics.Transformation.mulV3 b.exact (vals p)) ≤ ((b.steps + 1 : ℕ) : ℝ) ^ 2 / 2 ^ 42 * (b.reach + nrm (vals p) + eta) := by
  have P := nrm_nonneg (vals p)
  have wx := reach_nonneg b
  obtain ⟨fx, ex⟩ := C121_translation hR E b h ht hn.le (by linarith)
  obtain ⟨x1, x2⟩ := C120_unit hR E b h
  have ux := exact_inv b h
  have Tx := trans_le hn.le wx ux.2 ex
  have qx := C121_rotation hR E b h (hn.le.trans (by norm_num))
  have Ty : nrm (vals p) ≤ 2 * (nrm (vals p) + eta) := by linarith [eta_pos]
  obtain ⟨m1, m2⟩ := mulV3_err hR x1 fx hp (x2.trans (by norm_num)) (Ty.trans (small_enough (by linarith))) (Tx.trans (small_enough (by linarith)))
  refine ⟨m1, ?_⟩
  unfold Kinematics.Transformation.mulV3
  have t := nrm_sub_le (vals (TransformationD.mulV3 R (b.run E) p)) (Kinematics.quatRotate (vals (b.run E).q) (vals p) + vals (b.run E).t) (Kinematics.quatRotate b.exact.q (vals p) + b.exact.t)
  rw [add_sub_add_comm] at t
  have t2 := nrm_add (Kinematics.quatRotate (vals (b.run E).q) (vals p) - Kinematics.quatRotate b.exact.q (vals p)) (vals (b.run E).t - b.exact.t)
  have t3 := rotate_near hR (τ := 0) ux.1 x2 qx (v := p) (y := vals p) (by rw [sub_self, nrm_zero])
  have s := step_const (n := b.steps) (m := 0) eta_pos wx P rfl (nrm_nonneg (vals (b.run E).t)) P Tx Ty
  simp only [add_zero] at s
  norm_num at s t3 ⊢
  linarith

end

/-- two transformations, a product and an inverse, that meet the hypotheses -/
def trip : Build := .mul (.make third ![.fin 1, .fin 2, .fin 2]) (.inverse (.make third ![.fin 3, .fin 4, .fin 0]))

theorem finite_small {a b c : ℤ} (ha : |a| < 2 ^ 53) (hb : |b| < 2 ^ 53) (hc : |c| < 2 ^ 53) : Finite ![.fin (a : ℚ), .fin (b : ℚ), .fin (c : ℚ)] := by
  have big : (2 : ℚ) ^ 53 < tooBig := by
    unfold tooBig
    exact pow_lt_pow_right₀ (by norm_num) (by norm_num)
  have lt : ∀ n : ℤ, |n| < 2 ^ 53 → |(n : ℚ)| < tooBig := fun n hn => by
    have : ((|n| : ℤ) : ℚ) < 2 ^ 53 := by exact_mod_cast hn
    rw [Int.cast_abs] at this
    exact this.trans big
  intro i
  fin_cases i
  · exact ⟨rfl, isDouble_int a ha, lt a ha⟩
  · exact ⟨rfl, isDouble_int b hb, lt b hb⟩
  · exact ⟨rfl, isDouble_int c hc, lt c hc⟩

theorem trip_rotations : trip.RotationsOk := by
  have : Finite third ∧ InR (-200) 200 (nrm (vals third)) := ⟨third_finite, by rw [third_norm]; exact inR_near_one (by norm_num) (by norm_num)⟩
  exact ⟨this, this⟩

theorem trip_translations : trip.TranslationsOk := by
  constructor
  · have := finite_small (a := 1) (b := 2) (c := 2) (by norm_num) (by norm_num) (by norm_num)
    rw [Int.cast_one, Int.cast_ofNat] at this
    exact this
  · have := finite_small (a := 3) (b := 4) (c := 0) (by norm_num) (by norm_num) (by norm_num)
    rw [Int.cast_zero, Int.cast_ofNat, Int.cast_ofNat] at this
    exact this

theorem trip_reach : trip.reach = 8 := by
  show nrm _ + nrm _ = 8
  have h1 : nrm (vals ![.fin 1, .fin 2, .fin 2]) = 3 := by
    have : sqNorm (vals ![.fin 1, .fin 2, .fin 2]) = 3 * 3 := by norm_num [sqNorm, Fin.sum_univ_succ, vals, fval]
    rw [Kinematics.norm, this, Real.sqrt_mul_self (by norm_num)]
  have h2 : nrm (vals ![.fin 3, .fin 4, .fin 0]) = 5 := by
    have : sqNorm (vals ![.fin 3, .fin 4, .fin 0]) = 5 * 5 := by norm_num [sqNorm, Fin.sum_univ_succ, vals, fval]
    rw [Kinematics.norm, this, Real.sqrt_mul_self (by norm_num)]
  rw [h1, h2]; norm_num

example : |nrm (vals (trip.run (Eigen.plain fun q => rndEvenReal q)).q) - 1| ≤ 12 / 2 ^ 53 := (C120_unit isRndR_rndEvenReal _ trip trip_rotations).2

example : nrm (vals (trip.run (Eigen.lanes fun q => rndEvenReal q)).t - trip.exact.t) ≤ 4 ^ 2 / 2 ^ 42 * (8 + eta) := by
  have := (C121_translation isRndR_rndEvenReal (Eigen.lanes fun q => rndEvenReal q) trip trip_rotations trip_translations (by norm_num [trip, Build.steps]) (by rw [trip_reach]; norm_num)).2
  rw [trip_reach] at this
  simpa [trip, Build.steps] using this

end Verif.KinematicsDouble
