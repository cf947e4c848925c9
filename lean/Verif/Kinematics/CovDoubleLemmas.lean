import Verif.Kinematics.CovDouble
import Verif.Kinematics.MatrixDoubleProps
import Verif.Kinematics.UncertainTransfProps

/-!
# The error of matrix products in doubles, added up in any order
-/

namespace Verif.CovDouble

open Verif.KinematicsDouble

open Verif.Common
open Verif.Kinematics (V3 V4 M3 sqNorm)

local notation "nrm" => Kinematics.norm

/-- all entries are `k` roundings away from the exact ones -/
def AccM {ι κ : Type} (k : ℕ) (A : Matrix ι κ Fp) (A' : Matrix ι κ ℝ) (S : ℝ) : Prop := ∀ i j, Acc k (A i j) (A' i j) S

theorem scale_mul {m : ℕ} {S : ℝ} (h : InR (-900) 800 S) (h1 : 1 ≤ m) (h2 : m ≤ 100) : Scale (m * S) := by
  have h0 := h.pos
  have m1 : (1 : ℝ) ≤ m := by exact_mod_cast h1
  have m2 : (m : ℝ) ≤ 100 := by exact_mod_cast h2
  refine ⟨h.1.trans (le_mul_of_one_le_left h0.le m1), ?_⟩
  have : (m : ℝ) * S ≤ 2 ^ (100 : ℤ) * 2 ^ (800 : ℤ) := mul_le_mul (m2.trans (by norm_num)) h.2 h0.le (by positivity)
  rwa [← zpow_add₀ (by norm_num)] at this

section
variable {rnd : ℚ → ℚ} (hr : IsRnd rnd)

theorem _root_.Verif.KinematicsDouble.SumOf.length_pos {l : List Fp} {s : Fp} (h : SumOf rnd l s) : 1 ≤ l.length := by
  induction h with
  | one x => simp
  | add hl hm hn ih₁ ih₂ => rw [hn.length_eq, List.length_append]; omega

include hr in
/-- a sum in any order -/
theorem _root_.Verif.KinematicsDouble.SumOf.acc {l : List Fp} {s : Fp} (h : SumOf rnd l s) : ∀ {xs : List ℝ} {k : ℕ} {S : ℝ}, List.Forall₂ (fun f x => Acc k f x S) l xs → k + l.length ≤ 100 → InR (-900) 800 S →
    Acc (k + l.length - 1) s xs.sum (l.length * S) := by
  induction h with
  | one x =>
    intro xs k S hf _ _
    cases hf with
    | cons h t => cases t; simpa using h
  | add hl hm hn ih₁ ih₂ =>
    rename_i l m n x y
    intro xs k S hf hk hS
    obtain ⟨ys, hys, hp⟩ : ∃ ys, List.Forall₂ (fun f x => Acc k f x S) (l ++ m) ys ∧ ys.Perm xs := by
      have := List.perm_comp_forall₂ hn.symm hf
      obtain ⟨ys, h1, h2⟩ := this
      exact ⟨ys, h1, h2⟩
    rw [← hp.sum_eq]
    have e := hn.length_eq
    rw [List.length_append] at e
    have l1 := hl.length_pos
    have m1 := hm.length_pos
    have ha := List.forall₂_take l.length hys
    have hb := List.forall₂_drop l.length hys
    rw [List.take_left'] at ha
    rw [List.drop_left'] at hb
    rotate_left
    · rfl
    · rfl
    have A := ih₁ ha (by omega) hS
    have B := ih₂ hb (by omega) hS
    have es : ys.sum = (ys.take l.length).sum + (ys.drop l.length).sum := by rw [← List.sum_append, List.take_append_drop]
    have eS : (n.length : ℝ) * S = l.length * S + m.length * S := by rw [e]; push_cast; ring
    have := Acc.add hr (k := k + n.length - 2) (by omega) (by omega) (by omega) A B (by rw [← eS]; exact scale_mul hS (by omega) (by omega))
    rw [es, eS, show k + n.length - 1 = k + n.length - 2 + 1 by omega]
    exact this

/-- the sum over the positions of a row -/
theorem sum_ks3 (f : Fin 3 → ℝ) : (ks3.map f).sum = ∑ k, f k := by simp [ks3, Fin.sum_univ_three]; ring
theorem sum_ks4 (f : Fin 4 → ℝ) : (ks4.map f).sum = ∑ k, f k := by simp [ks4, Fin.sum_univ_four]; ring
theorem sum_ks6 (f : Fin 3 ⊕ Fin 3 → ℝ) : (ks6.map f).sum = ∑ k, f k := by simp [ks6, Fin.sum_univ_three]; ring

include hr in
theorem terms_acc {ι κ μ : Type} (ks : List κ) {A : Matrix ι κ Fp} {B : Matrix κ μ Fp} {A' : Matrix ι κ ℝ} {B' : Matrix κ μ ℝ} {j k : ℕ} {S T : ℝ} (hA : AccM j A A' S) (hB : AccM k B B' T)
    (hjk : j + k ≤ 100) (hs : InR (-900) 800 (S * T)) (a : ι) (b : μ) :
    List.Forall₂ (fun f x => Acc (j + k + 1) f x (S * T)) (terms rnd ks A B a b) (ks.map fun c => A' a c * B' c b) := by
  unfold terms
  rw [List.forall₂_map_left_iff, List.forall₂_map_right_iff]
  exact List.forall₂_same.2 fun c _ => Acc.mul hr hjk (hA a c) (hB c b) (hs.scale (by norm_num) (by norm_num))

include hr in
/-- a matrix product -/
theorem prod_acc {ι κ μ : Type} [Fintype κ] {ks : List κ} (hks : ∀ f : κ → ℝ, (ks.map f).sum = ∑ k, f k) {A : Matrix ι κ Fp} {B : Matrix κ μ Fp} {P : Matrix ι μ Fp} {A' : Matrix ι κ ℝ} {B' : Matrix κ μ ℝ} {j k : ℕ} {S T : ℝ}
    (hA : AccM j A A' S) (hB : AccM k B B' T) (hP : IsProd rnd ks A B P) (hjk : j + k + 1 + ks.length ≤ 100) (hs : InR (-900) 800 (S * T)) :
    AccM (j + k + ks.length) P (A' * B') (ks.length * (S * T)) := by
  intro a b
  have := (hP a b).acc hr (terms_acc hr ks hA hB (by omega) hs a b) (by simpa [terms] using hjk) hs
  rw [hks] at this
  rw [Matrix.mul_apply]
  have l1 := (hP a b).length_pos
  simp only [terms, List.length_map] at this l1
  convert this using 1
  omega

include hr in
/-- a product of the form `A U Aᵀ` -/
theorem conj_acc {ι κ : Type} [Fintype κ] {ks : List κ} (hks : ∀ f : κ → ℝ, (ks.map f).sum = ∑ k, f k) {A : Matrix ι κ Fp} {U : Matrix κ κ Fp} {W : Matrix ι ι Fp} {A' : Matrix ι κ ℝ} {U' : Matrix κ κ ℝ} {j k : ℕ} {S T : ℝ}
    (hA : AccM j A A' S) (hU : AccM k U U' T) (hW : IsConj rnd ks A U W) (hjk : 2 * j + k + 1 + 2 * ks.length ≤ 100) (hs : InR (-900) 800 (S * T)) (hs' : InR (-900) 800 (ks.length * (S * T) * S)) :
    AccM (2 * j + k + 2 * ks.length) W (A' * U' * A'.transpose) (ks.length * (ks.length * (S * T) * S)) := by
  obtain ⟨P, hP, hW⟩ := hW
  have p := prod_acc hr hks hA hU hP (by omega) hs
  have := prod_acc hr hks p (B := A.transpose) (B' := A'.transpose) (fun i j => hA j i) hW (by omega) hs'
  convert this using 1
  omega


/-- the numbers in a matrix of doubles -/
def valsG {ι κ : Type} (A : Matrix ι κ Fp) : Matrix ι κ ℝ := fun i j => fval (A i j)

/-- all entries are finite doubles -/
def FiniteM {ι κ : Type} (A : Matrix ι κ Fp) : Prop := ∀ i j, (A i j).isFinite ∧ IsDoubleVal (A i j)

theorem FiniteM.acc {ι κ : Type} {A : Matrix ι κ Fp} (h : FiniteM A) {u : ℝ} (hu : ∀ i j, |valsG A i j| ≤ u) : AccM 0 A (valsG A) u := by
  intro i j
  have f : Finite (fun _ : Fin 1 => A i j) := fun _ => h i j
  exact f.acc (a := fun _ => u) (fun _ => hu i j) 0

theorem AccM.finite {ι κ : Type} {A : Matrix ι κ Fp} {A' : Matrix ι κ ℝ} {k : ℕ} {S : ℝ} (h : AccM k A A' S) (hk : k ≤ 100) (hS : Scale S) : FiniteM A := by
  intro i j
  exact acc_finite (n := 1) (f := fun _ => A i j) (x := fun _ => A' i j) (S := fun _ => S) hk (fun _ => h i j) (fun _ => hS) 0

theorem AccM.mono {ι κ : Type} {A : Matrix ι κ Fp} {A' : Matrix ι κ ℝ} {j k : ℕ} {S T : ℝ} (h : AccM j A A' S) (hjk : j ≤ k) (hST : S ≤ T) : AccM k A A' T :=
  fun a b => (h a b).mono hjk hST

theorem acc_zero {S : ℝ} (hS : 0 ≤ S) : Acc 0 (.fin 0) 0 S := by
  have := Acc.fin (q := 0) (isDouble_int 0 (by norm_num)) (S := S) (by simpa using hS)
  simpa using this

theorem acc_one {S : ℝ} (hS : 1 ≤ S) : Acc 0 (.fin 1) 1 S := by
  have := Acc.fin (q := 1) (isDouble_int 1 (by norm_num)) (S := S) (by simpa using hS)
  simpa using this

include hr in
/-- the rotation matrix -/
theorem quat2r_acc {q : F4} (hq : Finite q) (nq : |nrm (vals q) - 1| ≤ 12 / 2 ^ 53) : AccM 3 (quat2r rnd q) (Kinematics.quat2r (vals q)) 2 := by
  intro i j
  obtain ⟨e, d, b⟩ := quat2r_err hr hq nq i j
  refine ⟨_, e, d, ?_, b.trans ?_⟩
  · have h1 := quat2r_entry (vals q) i j
    rw [← nrm_sq] at h1
    have qb := abs_le.1 nq
    have h2 : nrm (vals q) * nrm (vals q) ≤ (1 + 12 / 2 ^ 53) * (1 + 12 / 2 ^ 53) := mul_self_le_mul_self (nrm_nonneg _) (by linarith)
    norm_num at h2 ⊢
    linarith
  · unfold eps; norm_num

/-- the cross product matrix -/
theorem crossMx_acc {t : F3} {x : V3} {k : ℕ} {τ : ℝ} (h : ∀ i, Acc k (t i) (x i) τ) (hτ : 0 ≤ τ) : AccM k (fun i j => (crossMx t i j).neg) (-Kinematics.crossMx x) τ := by
  have z : Acc k (.fin 0) 0 τ := (acc_zero hτ).mono (by omega) le_rfl
  have zn : Acc k (Fp.neg (.fin 0)) (-0) τ := z.neg
  have nn : ∀ i, Acc k (Fp.neg (Fp.neg (t i))) (-(-x i)) τ := fun i => (h i).neg.neg
  intro i j
  fin_cases i <;> fin_cases j
  · exact zn
  · exact nn 2
  · exact (h 1).neg
  · exact (h 2).neg
  · exact zn
  · exact nn 0
  · exact nn 1
  · exact (h 0).neg
  · exact zn

include hr in
/-- the matrix of `boxTimes` -/
theorem boxTimes_acc {q : F4} {t : F3} {B : FM6} {τ : ℝ} (hq : Finite q) (nq : |nrm (vals q) - 1| ≤ 12 / 2 ^ 53) (ht : Finite t) (hτ : ∀ i, |vals t i| ≤ τ) (h1 : 1 ≤ τ) (h2 : τ ≤ 2 ^ (300 : ℤ)) (hB : IsBoxTimes rnd q t B) :
    AccM 6 B (Kinematics.boxTimes (Kinematics.Transformation.mk (vals q) (vals t)).T) (6 * τ) := by
  obtain ⟨K, hK, rfl⟩ := hB
  have C := quat2r_acc hr hq nq
  have t0 := ht.acc (a := fun _ => τ) hτ
  have X := crossMx_acc t0 (by linarith)
  have r : InR 0 301 (τ * 2) := (InR.mul (a := 0) (b := 300) (c := 0) (d := 1) ⟨by simpa using h1, h2⟩ ⟨by norm_num, by norm_num⟩)
  have k := prod_acc hr sum_ks3 X C hK (by simp [ks3]) (r.mono (by norm_num) (by norm_num))
  intro i j
  rcases i with i | i <;> rcases j with j | j
  · have := (C i j).mono (k := 6) (T := 6 * τ) (by norm_num) (by linarith)
    fin_cases i <;> fin_cases j <;> exact this
  · have := (k i j).mono (k := 6) (T := 6 * τ) (by simp [ks3]) (by simp [ks3]; linarith)
    have e : Kinematics.boxTimes (Kinematics.Transformation.mk (vals q) (vals t)).T (Sum.inl i) (Sum.inr j) = (-Kinematics.crossMx (vals t) * Kinematics.quat2r (vals q)) i j := by
      have e1 : Kinematics.transform2C (Kinematics.Transformation.mk (vals q) (vals t)).T = Kinematics.quat2r (vals q) := by
        ext a b; fin_cases a <;> fin_cases b <;> rfl
      have e2 : Kinematics.transform2rho (Kinematics.Transformation.mk (vals q) (vals t)).T = vals t := by
        ext a; fin_cases a <;> rfl
      unfold Kinematics.boxTimes
      rw [e1, e2]; rfl
    rw [e]; exact this
  · exact (acc_zero (by linarith)).mono (by norm_num) le_rfl
  · have := (C i j).mono (k := 6) (T := 6 * τ) (by norm_num) (by linarith)
    fin_cases i <;> fin_cases j <;> exact this

include hr in
/-- the 4×4 matrix -/
theorem matT_acc {q : F4} {t : F3} {τ : ℝ} (hq : Finite q) (nq : |nrm (vals q) - 1| ≤ 12 / 2 ^ 53) (ht : Finite t) (hτ : ∀ i, |vals t i| ≤ τ) (h1 : 1 ≤ τ) :
    AccM 3 (matT rnd q t) (Kinematics.Transformation.mk (vals q) (vals t)).T (2 * τ) := by
  have C : ∀ i j, Acc 3 (quat2r rnd q i j) (Kinematics.quat2r (vals q) i j) (2 * τ) := fun i j => (quat2r_acc hr hq nq i j).mono le_rfl (by linarith)
  have t0 : ∀ i, Acc 3 (t i) (vals t i) (2 * τ) := fun i => (ht.acc (a := fun _ => τ) hτ i).mono (by norm_num) (by linarith)
  have z : Acc 3 (.fin 0) 0 (2 * τ) := (acc_zero (by linarith)).mono (by norm_num) le_rfl
  have o : Acc 3 (.fin 1) 1 (2 * τ) := (acc_one (by linarith)).mono (by norm_num) le_rfl
  intro i j
  fin_cases i <;> fin_cases j
  · exact C 0 0
  · exact C 0 1
  · exact C 0 2
  · exact t0 0
  · exact C 1 0
  · exact C 1 1
  · exact C 1 2
  · exact t0 1
  · exact C 2 0
  · exact C 2 1
  · exact C 2 2
  · exact t0 2
  · exact z
  · exact z
  · exact z
  · exact o

/-- the matrix of `boxMinus` -/
theorem boxMinus_acc {p : F4} {x : V4} {k : ℕ} {ρ : ℝ} (h : ∀ i, Acc k (p i) (x i) ρ) (hρ : 0 ≤ ρ) : AccM k (boxMinus p) (Kinematics.boxMinus x) ρ := by
  have z : Acc k (.fin 0) 0 ρ := (acc_zero hρ).mono (by omega) le_rfl
  have n : ∀ i, Acc k (Fp.neg (p i)) (-x i) ρ := fun i => (h i).neg
  intro i j
  rcases j with j | j <;> fin_cases i <;> fin_cases j <;> first | exact z | exact h 3 | exact h 0 | exact h 1 | exact h 2 | exact n 0 | exact n 1 | exact n 2

include hr in
/-- the image of a homogeneous point -/
theorem mulV4_acc {q : F4} {t : F3} {p : F4} {τ ρ : ℝ} (hq : Finite q) (nq : |nrm (vals q) - 1| ≤ 12 / 2 ^ 53) (ht : Finite t) (hτ : ∀ i, |vals t i| ≤ τ) (h1 : 1 ≤ τ) (h2 : τ ≤ 2 ^ (100 : ℤ))
    (hp : Finite p) (hρ : ∀ i, |vals p i| ≤ ρ) (r1 : 2 ^ (-100 : ℤ) ≤ ρ) (r2 : ρ ≤ 2 ^ (100 : ℤ)) (i : Fin 4) :
    Acc 12 (mulV4 rnd q t p i) ((Kinematics.Transformation.mk (vals q) (vals t)).mulV4 (vals p) i) (14 * (ρ * τ)) := by
  have qb := abs_le.1 nq
  have ρ0 : 0 < ρ := lt_of_lt_of_le (by positivity) r1
  set v : F3 := ![p 0, p 1, p 2] with hv
  have fv : Finite v := by intro i; fin_cases i <;> exact hp _
  have ev : vals v = Kinematics.headV (vals p) := by funext i; fin_cases i <;> rfl
  have nv : nrm (vals v) ≤ 2 * ρ := by
    refine (nrm_mono (w := fun _ => ρ) ?_).trans (nrm_const ρ ρ0.le (by norm_num))
    intro i; fin_cases i <;> exact hρ _
  have heta : eta ≤ ρ / 100 := by
    have e1 : eta * 2 ^ (7 : ℤ) ≤ ρ := by
      refine le_trans ?_ r1
      unfold eta
      rw [← zpow_add₀ (by norm_num)]
      exact zpow_le_zpow_right₀ (by norm_num) (by norm_num)
    norm_num at e1
    have := eta_pos
    linarith
  obtain ⟨f, e⟩ := quatRotate_err hr hq fv (nq.trans (by norm_num)) (nv.trans (by linarith [show (2 : ℝ) * 2 ^ (100 : ℤ) ≤ 2 ^ (200 : ℤ) by norm_num]))
  have N := nrm_nonneg (vals v)
  have A : ∀ i, Acc 11 (quatRotate rnd q v i) (Kinematics.quatRotate (vals q) (vals v) i) (13 * ρ) := by
    intro i
    obtain ⟨a, b⟩ := f.fin i
    refine ⟨_, a, b, ?_, ?_⟩
    · have h3 := nrm_quatRotate_le (vals q) (vals v) (by norm_num at qb ⊢; linarith)
      have h4 := abs_le_nrm (Kinematics.quatRotate (vals q) (vals v)) i
      linarith
    · have h4 := abs_le_nrm (vals (quatRotate rnd q v) - Kinematics.quatRotate (vals q) (vals v)) i
      have h5 : (64 / 2 ^ 53 : ℝ) * (nrm (vals v) + eta) ≤ 64 / 2 ^ 53 * (2.01 * ρ) := mul_le_mul_of_nonneg_left (by linarith) (by positivity)
      have h6 : (64 / 2 ^ 53 : ℝ) * (2.01 * ρ) ≤ ((1 + eps) ^ 11 - 1) * (13 * ρ) := by
        have : (64 / 2 ^ 53 : ℝ) * 2.01 ≤ ((1 + eps) ^ 11 - 1) * 13 := by unfold eps; norm_num
        nlinarith
      exact h4.trans (e.trans (h5.trans h6))
  have p0 : ∀ i, Acc 0 (p i) (vals p i) ρ := hp.acc (a := fun _ => ρ) hρ
  have t0 : ∀ i, Acc 0 (t i) (vals t i) τ := ht.acc (a := fun _ => τ) hτ
  have rr : InR (-100) 200 (ρ * τ) := (InR.mul (a := -100) (b := 100) (c := 0) (d := 100) ⟨r1, r2⟩ ⟨by simpa using h1, h2⟩).mono (by norm_num) (by norm_num)
  have rt : ρ ≤ ρ * τ := le_mul_of_one_le_right ρ0.le h1
  have M : ∀ i, Acc 1 (fmul rnd (p 3) (t i)) (vals p 3 * vals t i) (ρ * τ) := fun i =>
    Acc.mul hr (j := 0) (k := 0) (by norm_num) (p0 3) (t0 i) (rr.scale (by norm_num) (by norm_num))
  have sc : Scale (13 * ρ + ρ * τ) := by
    constructor
    · have := rr.mono (c := -900) (d := 200) (by norm_num) le_rfl
      linarith [this.1]
    · have h9 : (14 : ℝ) * 2 ^ (200 : ℤ) ≤ 2 ^ (900 : ℤ) := by
        have : (14 : ℝ) ≤ 2 ^ (4 : ℤ) := by norm_num
        refine (mul_le_mul_of_nonneg_right this (by positivity)).trans ?_
        rw [← zpow_add₀ (by norm_num)]
        exact zpow_le_zpow_right₀ (by norm_num) (by norm_num)
      exact (show 13 * ρ + ρ * τ ≤ 14 * (ρ * τ) by linarith).trans ((mul_le_mul_of_nonneg_left rr.2 (by norm_num)).trans h9)
  have S : ∀ i, Acc 12 (fadd rnd (quatRotate rnd q v i) (fmul rnd (p 3) (t i))) (Kinematics.quatRotate (vals q) (Kinematics.headV (vals p)) i + vals p 3 * vals t i) (14 * (ρ * τ)) := fun i => by
    have := Acc.add hr (k := 11) le_rfl (by norm_num) (by norm_num) (A i) (M i) sc
    rw [ev] at this
    exact this.mono le_rfl (by linarith)
  fin_cases i
  · exact S 0
  · exact S 1
  · exact S 2
  · exact (p0 3).mono (by norm_num) (by linarith)

end

end Verif.CovDouble
