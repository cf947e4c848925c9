import Verif.Kinematics.MatDouble
import Verif.Kinematics.CovDoubleProps
import Verif.Kinematics.BoxProps
import Verif.Kinematics.RateDoubleProps
import Mathlib.LinearAlgebra.Matrix.NonsingularInverse

/-!
# C186: transformation matrices in doubles
-/

namespace Verif.MatDouble

open Verif.Common Verif.KinematicsDouble Verif.CovDouble Verif.RateDouble
open Verif.Kinematics (V3 V4 V6 M3 M4 M46 IsRigid IsRotation PerturbsBy)

/-! ## Specification -/

/-- `T` is a matrix of doubles whose upper left block is within 2^-50 of a rotation, entry by entry, whose last column is within `e` of its bound `W`, and whose last row is exact -/
structure NearRigid (e : ℝ) (T : CovDouble.FM4) (X : M4) (W : ℝ) : Prop where
  rigid : IsRigid X
  rot : ∀ i j : Fin 3, Near (1 / 2 ^ 50) (T i.castSucc j.castSucc) (X i.castSucc j.castSucc)
  col : ∀ i : Fin 3, |X i.castSucc 3| ≤ W ∧ Near (e * W) (T i.castSucc 3) (X i.castSucc 3)
  row : T 3 0 = .fin 0 ∧ T 3 1 = .fin 0 ∧ T 3 2 = .fin 0 ∧ T 3 3 = .fin 1

/-! ## Lemmas -/

theorem entry_le {C : M3} (h : IsRotation C) (i j : Fin 3) : |C i j| ≤ 1 := by
  have := congrFun (congrFun h.1 i) i
  rw [Matrix.mul_apply, Fin.sum_univ_three, Matrix.one_apply_eq] at this
  simp only [Matrix.transpose_apply] at this
  rw [← sq_le_one_iff_abs_le_one]
  fin_cases j <;> simp only [Fin.zero_eta, Fin.mk_one, Fin.reduceFinMk] <;> nlinarith [sq_nonneg (C i 0), sq_nonneg (C i 1), sq_nonneg (C i 2)]

theorem near_acc {e : ℝ} {f : Fp} {x S : ℝ} {k : ℕ} (h : Near e f x) (hx : |x| ≤ S) (he : e ≤ ((1 + eps) ^ k - 1) * S) : Acc k f x S := by
  obtain ⟨h1, h2, h3⟩ := h
  cases f with
  | fin q => exact ⟨q, rfl, h2.1, hx, h3.trans he⟩
  | inf b => simp [Fp.isFinite] at h1
  | nan => simp [Fp.isFinite] at h1

theorem eps8 : (1 : ℝ) / 2 ^ 50 ≤ (1 + eps) ^ 8 - 1 := by unfold eps; norm_num

section
variable {T : CovDouble.FM4} {X : M4} {W : ℝ}

theorem NearRigid.rotAcc {e : ℝ} (h : NearRigid e T X W) (i j : Fin 3) : Acc 8 (T i.castSucc j.castSucc) (X i.castSucc j.castSucc) 1 :=
  near_acc (h.rot i j) (entry_le h.rigid.1 i j) (by simpa using eps8)

theorem NearRigid.colAcc (h : NearRigid (1 / 2 ^ 50) T X W) (i : Fin 3) : Acc 8 (T i.castSucc 3) (X i.castSucc 3) W :=
  near_acc (h.col i).2 (h.col i).1 (mul_le_mul_of_nonneg_right eps8 ((abs_nonneg _).trans (h.col 0).1))

theorem rows_acc {k : ℕ} (hW : 1 ≤ W) (hr : IsRigid X) (h1 : ∀ i j : Fin 3, Acc k (T i.castSucc j.castSucc) (X i.castSucc j.castSucc) W) (h2 : ∀ i : Fin 3, Acc k (T i.castSucc 3) (X i.castSucc 3) W)
    (h3 : T 3 0 = .fin 0 ∧ T 3 1 = .fin 0 ∧ T 3 2 = .fin 0 ∧ T 3 3 = .fin 1) : AccM k T X W := by
  obtain ⟨r0, r1, r2, r3⟩ := h3
  obtain ⟨-, x0, x1, x2, x3⟩ := hr
  have z : Acc k (.fin 0) 0 W := (acc_zero (by linarith)).mono (by omega) le_rfl
  have o : Acc k (.fin 1) 1 W := (acc_one hW).mono (by omega) le_rfl
  intro i j
  fin_cases i <;> fin_cases j
  · exact h1 0 0
  · exact h1 0 1
  · exact h1 0 2
  · exact h2 0
  · exact h1 1 0
  · exact h1 1 1
  · exact h1 1 2
  · exact h2 1
  · exact h1 2 0
  · exact h1 2 1
  · exact h1 2 2
  · exact h2 2
  · show Acc k (T 3 0) (X 3 0) W; rw [r0, x0]; exact z
  · show Acc k (T 3 1) (X 3 1) W; rw [r1, x1]; exact z
  · show Acc k (T 3 2) (X 3 2) W; rw [r2, x2]; exact z
  · show Acc k (T 3 3) (X 3 3) W; rw [r3, x3]; exact o

theorem rigid_facts (h : IsRigid X) : X * Kinematics.inverseTransform X = 1 ∧ Kinematics.inverseTransform X * X = 1 ∧ IsRigid (Kinematics.inverseTransform X) := by
  have := Kinematics.C57_functions (Kinematics.transform2C X) (Kinematics.transform2rho X) X h.1 h .identity .identity
  exact ⟨this.2.2.2.2.2.1, this.2.2.2.2.2.2.1, this.2.2.2.2.2.2.2.1⟩

variable {rnd : ℚ → ℚ} (hr : IsRnd rnd)
include hr

theorem inv_col {Ti : CovDouble.FM4} (h : NearRigid (1 / 2 ^ 50) T X W) (w1 : 1 ≤ W) (w2 : W ≤ 2 ^ (100 : ℤ)) (hT : IsInverse rnd T Ti) (i : Fin 3) :
    Acc 19 (Ti i.castSucc 3) (Kinematics.inverseTransform X i.castSucc 3) (3 * W) := by
  obtain ⟨r, hp, rfl⟩ := hT
  have A : AccM 8 (fun i j => ((transform2C T).transpose i j).neg) (-(Kinematics.transform2C X).transpose) 1 := fun i j => (h.rotAcc j i).neg
  have B : AccM 8 (col (transform2rho T)) (fun i _ => Kinematics.transform2rho X i) W := fun i _ => h.colAcc i
  have p := prod_acc hr sum_ks3 A B hp (by simp [ks3]) (by rw [one_mul]; exact InR.mono (a := 0) (b := 100) ⟨by simpa using w1, w2⟩ (by norm_num) (by norm_num)) i 0
  have p' : Acc 19 (r i) ((-(Kinematics.transform2C X).transpose).mulVec (Kinematics.transform2rho X) i) (3 * W) := by
    have := p.mono (k := 19) (T := 3 * W) (by simp [ks3]) (by simp [ks3])
    exact this
  fin_cases i <;> exact p'

/-- **C186** The inverse of a matrix of doubles that is within 2^-50 of a rigid transformation: the rotation is exactly the transposed one, and the translation is within 2^-48 of three times the bound of the coordinates of that of the true inverse. -/
theorem C186_inverse {Ti : CovDouble.FM4} (h : NearRigid (1 / 2 ^ 50) T X W) (w1 : 1 ≤ W) (w2 : W ≤ 2 ^ (100 : ℤ)) (hT : IsInverse rnd T Ti) :
    (∀ i j : Fin 3, Ti i.castSucc j.castSucc = T j.castSucc i.castSucc) ∧ ∃ Y : M4, X * Y = 1 ∧ Y * X = 1 ∧ NearRigid (1 / 2 ^ 48) Ti Y (3 * W) := by
  have c := inv_col hr h w1 w2 hT
  obtain ⟨f1, f2, f3⟩ := rigid_facts h.rigid
  obtain ⟨r, hp, rfl⟩ := hT
  have e : ∀ i j : Fin 3, rt2Transform (transform2C T).transpose r i.castSucc j.castSucc = T j.castSucc i.castSucc := by
    intro i j
    fin_cases i <;> fin_cases j <;> rfl
  have e' : ∀ i j : Fin 3, Kinematics.inverseTransform X i.castSucc j.castSucc = X j.castSucc i.castSucc := by
    intro i j
    fin_cases i <;> fin_cases j <;> rfl
  refine ⟨e, _, f1, f2, f3, ?_, ?_, rfl, rfl, rfl, rfl⟩
  · intro i j
    rw [e, e']
    exact h.rot j i
  · intro i
    refine ⟨(c i).choose_spec.2.2.1, near_of (c i) (by norm_num) (InR.scale (a := 0) (b := 102) ⟨by simp; linarith, ?_⟩ (by norm_num) (by norm_num)) ?_⟩
    · have : (2 : ℝ) ^ (102 : ℤ) = 4 * 2 ^ (100 : ℤ) := by norm_num
      rw [this]
      linarith
    · exact mul_le_mul_of_nonneg_right (by unfold eps; norm_num) (by linarith)

section
variable {v a : F4} {B : FM46} {V : ℝ} (hv : Finite v) (hV : ∀ i, |vals v i| ≤ V) (v1 : 2 ^ (-100 : ℤ) ≤ V) (v2 : V ≤ 2 ^ (100 : ℤ))
include hv hV v1 v2

/-- the image of a point -/
theorem image_acc {k : ℕ} (hk : k ≤ 90) {U : ℝ} (hT : AccM k T X U) (u1 : 1 ≤ U) (u2 : U ≤ 2 ^ (102 : ℤ)) (ha : IsImage rnd T v a) (i : Fin 4) : Acc (k + 4) (a i) (X.mulVec (vals v) i) (4 * (U * V)) := by
  have c : AccM 0 (col v) (fun i _ => vals v i) V := fun i _ => hv.acc (a := fun _ => V) hV i
  have p := prod_acc hr sum_ks4 hT c ha (by simp [ks4]; omega) (InR.mono (InR.mul (a := 0) (b := 102) (c := -100) (d := 100) ⟨by simpa using u1, u2⟩ ⟨v1, v2⟩) (by norm_num) (by norm_num)) i 0
  exact p.mono (by simp [ks4]) (by simp [ks4])

omit hr hv hV in
theorem near_scale {k : ℕ} {m : ℕ} {f : Fp} {x S e : ℝ} (h : Acc k f x (m * S)) (hk : k ≤ 100) (m1 : 1 ≤ m) (m2 : m ≤ 100) (hS : InR (-900) 800 S) (he : ((1 + eps) ^ k - 1) * m ≤ e) : Near (e * S) f x :=
  near_of h hk (scale_mul hS m1 m2) (by rw [← mul_assoc]; exact mul_le_mul_of_nonneg_right he hS.pos.le)

/-- **C186** The image of a finite point under such a matrix is finite and within 2^-47 of the product of the bounds, and the returned Jacobian is as close to the derivative of the image along every curve of matrices that sets out with a perturbation. -/
theorem C186_point (h : NearRigid (1 / 2 ^ 50) T X W) (w1 : 1 ≤ W) (w2 : W ≤ 2 ^ (100 : ℤ)) (ht : IsTransformation rnd T v a B) :
    (∀ i, Near (1 / 2 ^ 47 * (W * V)) (a i) (X.mulVec (vals v) i)) ∧
    ∃ D : M46, (∀ (c : ℝ → M4) (ξ : V6), c 0 = X → PerturbsBy c ξ → ∀ i, HasDerivAt (fun s => (c s).mulVec (vals v) i) (D.mulVec ξ i) 0) ∧
      ∀ i j, Near (1 / 2 ^ 47 * (W * V)) (B i j) (D i j) := by
  obtain ⟨ha, rfl⟩ := ht
  have hT : AccM 8 T X W := rows_acc w1 h.rigid (fun i j => (h.rotAcc i j).mono le_rfl w1) h.colAcc h.row
  have A := image_acc hr hv hV v1 v2 (by norm_num) hT w1 (w2.trans (by norm_num)) ha
  have S : InR (-900) 800 (W * V) := InR.mono (InR.mul (a := 0) (b := 100) (c := -100) (d := 100) ⟨by simpa using w1, w2⟩ ⟨v1, v2⟩) (by norm_num) (by norm_num)
  have he : ((1 + eps) ^ 12 - 1) * ((4 : ℕ) : ℝ) ≤ 1 / 2 ^ 47 := by unfold eps; norm_num
  refine ⟨fun i => near_scale v1 v2 (m := 4) (by exact_mod_cast A i) (by norm_num) (by norm_num) (by norm_num) S he, Kinematics.boxMinus (X.mulVec (vals v)), ?_, ?_⟩
  · intro c ξ h0 hc i
    exact (Kinematics.C62_jacobians X h.rigid (vals v) c ξ h0 hc).2.1 i
  · intro i j
    have b := boxMinus_acc (p := a) (x := X.mulVec (vals v)) (k := 12) A (mul_nonneg (by norm_num) S.pos.le) i j
    exact near_scale v1 v2 (m := 4) (by exact_mod_cast b) (by norm_num) (by norm_num) (by norm_num) S he

/-- **C186** The same for the inverse of such a matrix: the returned point is within 2^-44 of the true preimage, and the Jacobian within 2^-47 of the bound of the point of the derivative of the preimage along every curve of rigid transformations. -/
theorem C186_inverse_point (h : NearRigid (1 / 2 ^ 50) T X W) (w1 : 1 ≤ W) (w2 : W ≤ 2 ^ (100 : ℤ)) (ht : IsInverseTransformation rnd T v a B) :
    (∃ y : V4, X.mulVec y = vals v ∧ ∀ i, Near (1 / 2 ^ 44 * (W * V)) (a i) (y i)) ∧
    ∃ D : M46, (∀ (c : ℝ → M4) (ξ : V6), c 0 = X → (∀ s, IsRigid (c s)) → PerturbsBy c ξ → ∀ i, HasDerivAt (fun s => ((c s)⁻¹).mulVec (vals v) i) (D.mulVec ξ i) 0) ∧
      ∀ i j, Near (1 / 2 ^ 47 * V) (B i j) (D i j) := by
  obtain ⟨Ti, K, hi, ha, hK, rfl⟩ := ht
  obtain ⟨f1, f2, f3⟩ := rigid_facts h.rigid
  have c := inv_col hr h w1 w2 hi
  obtain ⟨e, Y, y1, y2, hY⟩ := C186_inverse hr h w1 w2 hi
  have eY : Y = Kinematics.inverseTransform X := by
    calc Y = Y * (X * Kinematics.inverseTransform X) := by rw [f1, Matrix.mul_one]
      _ = _ := by rw [← Matrix.mul_assoc, y2, Matrix.one_mul]
  subst eY
  have hT : AccM 19 Ti (Kinematics.inverseTransform X) (3 * W) := rows_acc (by linarith) f3 (fun i j => (hY.rotAcc i j).mono (by norm_num) (by linarith)) c hY.row
  have A := image_acc hr hv hV v1 v2 (by norm_num) hT (by linarith) (by
    have : (2 : ℝ) ^ (102 : ℤ) = 4 * 2 ^ (100 : ℤ) := by norm_num
    rw [this]
    linarith) ha
  have S : InR (-900) 800 (W * V) := InR.mono (InR.mul (a := 0) (b := 100) (c := -100) (d := 100) ⟨by simpa using w1, w2⟩ ⟨v1, v2⟩) (by norm_num) (by norm_num)
  have S1 : InR (-900) 800 V := InR.mono (a := -100) (b := 100) ⟨v1, v2⟩ (by norm_num) (by norm_num)
  have V0 := S1.pos
  refine ⟨⟨_, (Kinematics.C62_jacobians X h.rigid (vals v) (fun s => X + s • (Kinematics.twist 0 * X)) 0 (by simp) (by
      intro i j
      have : Kinematics.twist 0 = 0 := by ext a b; fin_cases a <;> fin_cases b <;> simp [Kinematics.twist, Kinematics.head3, Kinematics.tail3]
      simp only [this, Matrix.zero_mul, smul_zero, add_zero]
      exact hasDerivAt_const _ _)).2.2.1, fun i => ?_⟩, (Kinematics.inverseTransformationAndJacobian X (vals v)).2, ?_, ?_⟩
  · have e4 : 4 * (3 * W * V) = ((12 : ℕ) : ℝ) * (W * V) := by push_cast; ring
    have := A i
    rw [e4] at this
    exact near_scale v1 v2 this (by norm_num) (by norm_num) (by norm_num) S (by unfold eps; norm_num)
  · intro c ξ h0 hs hc i
    have d := (Kinematics.C62_jacobians X h.rigid (vals v) c ξ h0 hc).2.2.2 i
    refine d.congr_of_eventuallyEq (Filter.Eventually.of_forall fun s => ?_)
    show ((c s)⁻¹).mulVec (vals v) i = _
    rw [Matrix.inv_eq_right_inv (rigid_facts (hs s)).1]
  · have rotA : ∀ i j : Fin 3, Acc 8 (transform2C Ti i j) (Kinematics.transform2C (Kinematics.inverseTransform X) i j) 1 := fun i j => hY.rotAcc i j
    have v0 := hv.acc (a := fun _ => V) hV
    have L : ∀ i j : Fin 3, Acc 11 (fmul rnd (v 3).neg (transform2C Ti i j)) ((-vals v 3) * Kinematics.transform2C (Kinematics.inverseTransform X) i j) (3 * V) := fun i j =>
      (Acc.mul hr (by norm_num) (v0 3).neg (rotA i j) (by rw [mul_one]; exact S1.scale (by norm_num) (by norm_num))).mono (by norm_num) (by linarith)
    have z : Acc 0 (.fin 0) 0 V := acc_zero V0.le
    have X3 : AccM 0 (crossMx ![v 0, v 1, v 2]) (Kinematics.crossMx (Kinematics.headV (vals v))) V := by
      intro i j
      fin_cases i <;> fin_cases j <;> first | exact z | exact v0 0 | exact v0 1 | exact v0 2 | exact (v0 0).neg | exact (v0 1).neg | exact (v0 2).neg
    have A8 : AccM 8 (fun i j => (transform2C Ti i j).neg) (-Kinematics.transform2C (Kinematics.inverseTransform X)) 1 := fun i j => (rotA i j).neg
    have P := prod_acc hr sum_ks3 A8 X3 hK (by simp [ks3]) (by rw [one_mul]; exact S1)
    have P' : ∀ i j : Fin 3, Acc 11 (K i j) ((-Kinematics.transform2C (Kinematics.inverseTransform X) * Kinematics.crossMx (Kinematics.headV (vals v))) i j) (3 * V) := fun i j =>
      (P i j).mono (by simp [ks3]) (by simp [ks3])
    intro i j
    have b : Acc 11 (rows3 (fun i j => fmul rnd (v 3).neg (transform2C Ti i j)) K i j) ((Kinematics.inverseTransformationAndJacobian X (vals v)).2 i j) (3 * V) := by
      refine Fin.lastCases ?_ (fun i => ?_) i
      · unfold rows3 Kinematics.inverseTransformationAndJacobian Kinematics.rows3
        simp only [Fin.lastCases_last]
        exact (acc_zero (by linarith)).mono (by norm_num) le_rfl
      · unfold rows3 Kinematics.inverseTransformationAndJacobian Kinematics.rows3
        simp only [Fin.lastCases_castSucc]
        rcases j with j | j
        · exact L i j
        · exact P' i j
    exact near_scale v1 v2 (m := 3) (by exact_mod_cast b) (by norm_num) (by norm_num) (by norm_num) S1 (by unfold eps; norm_num)

end

end

/-! ## The hypotheses can be met -/

theorem near_int {e : ℝ} (he : 0 ≤ e) (n : ℤ) (hn : |n| < 2 ^ 53) : Near e (.fin n) (n : ℝ) := by
  refine ⟨rfl, ⟨isDouble_int n hn, ?_⟩, by simpa [fval] using he⟩
  have h1 : |(n : ℚ)| < 2 ^ 53 := by exact_mod_cast hn
  exact h1.trans_le (by unfold tooBig; exact pow_le_pow_right₀ (by norm_num) (by norm_num))

/-- a quarter turn with a shift by (1, 2, 3) -/
def turn (i j : Fin 4) : ℤ := !![0, -1, 0, 1; 1, 0, 0, 2; 0, 0, 1, 3; 0, 0, 0, 1] i j
def turnD : CovDouble.FM4 := fun i j => .fin (turn i j)
def turnX : M4 := fun i j => turn i j
def ones : F4 := fun _ => .fin 1

theorem turn_near : NearRigid (1 / 2 ^ 50) turnD turnX 3 := by
  have b : ∀ i j, |turn i j| ≤ 3 := by decide
  have b' : ∀ i j, |turn i j| < 2 ^ 53 := fun i j => (b i j).trans_lt (by norm_num)
  refine ⟨⟨?_, ?_⟩, fun i j => near_int (by norm_num) _ (b' _ _), fun i => ⟨?_, near_int (by norm_num) _ (b' _ _)⟩, ?_⟩
  · have e : (fun i j : Fin 3 => turnX i.castSucc j.castSucc) = !![0, -1, 0; 1, 0, 0; 0, 0, 1] := by
      funext i j
      fin_cases i <;> fin_cases j <;> norm_num [turnX, turn, Fin.ext_iff] <;> rfl
    rw [e]
    refine ⟨?_, ?_, ?_⟩
    · ext i j
      fin_cases i <;> fin_cases j <;> simp [Matrix.mul_apply, Fin.sum_univ_three]
    · ext i j
      fin_cases i <;> fin_cases j <;> simp [Matrix.mul_apply, Fin.sum_univ_three]
    · simp [Matrix.det_fin_three]
  · simp [turnX, turn]
  · have : ((|turn i.castSucc 3| : ℤ) : ℝ) ≤ 3 := by exact_mod_cast b _ _
    simpa [turnX] using this
  · simp [turnD, turn]

theorem inverse_exists (rnd : ℚ → ℚ) (T : CovDouble.FM4) : ∃ Ti, IsInverse rnd T Ti := by
  obtain ⟨P, hP⟩ := prod_exists rnd (ks := ks3) (by simp [ks3]) (fun i j => ((transform2C T).transpose i j).neg) (col (transform2rho T))
  exact ⟨_, fun i => P i 0, fun i j => by rw [Subsingleton.elim j 0]; exact hP i 0, rfl⟩

theorem image_exists (rnd : ℚ → ℚ) (T : CovDouble.FM4) (v : F4) : ∃ a, IsImage rnd T v a := by
  obtain ⟨P, hP⟩ := prod_exists rnd (ks := ks4) (by simp [ks4]) T (col v)
  exact ⟨fun i => P i 0, fun i j => by rw [Subsingleton.elim j 0]; exact hP i 0⟩

theorem preimage_exists (rnd : ℚ → ℚ) (T : CovDouble.FM4) (v : F4) : ∃ a B, IsInverseTransformation rnd T v a B := by
  obtain ⟨Ti, h1⟩ := inverse_exists rnd T
  obtain ⟨a, h2⟩ := image_exists rnd Ti v
  obtain ⟨K, h3⟩ := prod_exists rnd (ks := ks3) (by simp [ks3]) (fun i j => (transform2C Ti i j).neg) (crossMx ![v 0, v 1, v 2])
  exact ⟨a, _, Ti, K, h1, h2, h3, rfl⟩

example : (∃ Ti, IsInverse rndEven turnD Ti ∧ ∃ Y : M4, turnX * Y = 1 ∧ NearRigid (1 / 2 ^ 48) Ti Y (3 * 3)) ∧
    (∃ a B, IsTransformation rndEven turnD ones a B ∧ ∀ i, Near (1 / 2 ^ 47 * (3 * 1)) (a i) (turnX.mulVec (vals ones) i)) ∧
    ∃ a B, IsInverseTransformation rndEven turnD ones a B ∧ ∃ y : V4, turnX.mulVec y = vals ones ∧ ∀ i, Near (1 / 2 ^ 44 * (3 * 1)) (a i) (y i) := by
  have w : (3 : ℝ) ≤ 2 ^ (100 : ℤ) := by norm_num
  have v1 : (2 : ℝ) ^ (-100 : ℤ) ≤ 1 := zpow_le_one_of_nonpos₀ (by norm_num) (by norm_num)
  have v2 : (1 : ℝ) ≤ 2 ^ (100 : ℤ) := by norm_num
  have hv : Finite ones := fun i => by
    obtain ⟨h1, h2, -⟩ := near_int (e := 0) le_rfl 1 (by norm_num)
    simpa [ones] using And.intro h1 h2
  have hV : ∀ i, |vals ones i| ≤ 1 := fun i => by simp [vals, ones, fval]
  obtain ⟨Ti, hT⟩ := inverse_exists rndEven turnD
  obtain ⟨a, ha⟩ := image_exists rndEven turnD ones
  obtain ⟨b, B, hb⟩ := preimage_exists rndEven turnD ones
  obtain ⟨-, Y, h1, -, h2⟩ := C186_inverse isRnd_rndEven turn_near (by norm_num) w hT
  exact ⟨⟨Ti, hT, Y, h1, h2⟩, ⟨a, _, ⟨ha, rfl⟩, (C186_point isRnd_rndEven hv hV v1 v2 turn_near (by norm_num) w ⟨ha, rfl⟩).1⟩,
    b, B, hb, (C186_inverse_point isRnd_rndEven hv hV v1 v2 turn_near (by norm_num) w hb).1⟩

/-- the curve of rigid transformations of the Jacobians: one that shifts at the rate (1, 0, 0) -/
def shifting (s : ℝ) : M4 := fun i j => turn i j + if i = 0 ∧ j = 3 then s else 0

example : shifting 0 = turnX ∧ (∀ s, IsRigid (shifting s)) ∧ PerturbsBy shifting (Sum.elim ![1, 0, 0] 0) := by
  refine ⟨by ext i j; simp [shifting, turnX], fun s => ?_, fun i j => ?_⟩
  · have e : ∀ i j : Fin 3, shifting s i.castSucc j.castSucc = turnX i.castSucc j.castSucc := fun i j => by
      have : j.castSucc ≠ 3 := (Fin.castSucc_lt_last j).ne
      simp [shifting, turnX, this]
    have r := turn_near.rigid
    refine ⟨?_, by simp [shifting, turn], by simp [shifting, turn], by simp [shifting, turn], by simp [shifting, turn]⟩
    simp only [e]
    exact r.1
  · have d : HasDerivAt (fun s : ℝ => (turn i j : ℝ) + if i = 0 ∧ j = 3 then s else 0) (if i = 0 ∧ j = 3 then 1 else 0) 0 := by
      by_cases h : i = 0 ∧ j = 3
      · simpa [h] using (hasDerivAt_id (0 : ℝ)).const_add _
      · simpa [h] using hasDerivAt_const (0 : ℝ) _
    refine d.congr_deriv ?_
    fin_cases i <;> fin_cases j <;> simp [Kinematics.twist, Kinematics.head3, Kinematics.tail3, shifting, turn, Matrix.mul_apply, Fin.sum_univ_four]

end Verif.MatDouble
