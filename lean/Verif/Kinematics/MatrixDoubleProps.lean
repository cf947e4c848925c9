import Verif.Kinematics.TransfDoubleProps

/-!
# C122: the rotation matrix in doubles
-/

namespace Verif.KinematicsDouble

open Verif.Common
open Verif.Kinematics (V3 V4 M3 sqNorm qeps)

local notation "nrm" => Kinematics.norm

/-- the numbers in a matrix of doubles -/
def valsM (C : FM3) : M3 := fun i j => fval (C i j)

section
variable {rnd : ℚ → ℚ} (hr : IsRnd rnd)
include hr

/-- each entry of `quat2r`, for a quaternion of about unit length -/
theorem quat2r_err {q : F4} (hq : Finite q) (nq : |nrm (vals q) - 1| ≤ 12 / 2 ^ 53) (i j : Fin 3) :
    quat2r rnd q i j = .fin (fval (quat2r rnd q i j)) ∧ IsDouble (fval (quat2r rnd q i j)) ∧ |valsM (quat2r rnd q) i j - Kinematics.quat2r (vals q) i j| ≤ 5 / 2 ^ 53 := by
  have qb := abs_le.1 nq
  set a : V4 := wt (1 / 2 ^ 60) (vals q) with ha
  have A := hq.acc (le_wt (δ := 1 / 2 ^ 60) (by norm_num) (vals q))
  rw [← ha] at A
  have ra : ∀ i, InR (-60) 2 (a i) := by
    intro i
    have h1 := abs_le_nrm (vals q) i
    refine ⟨pow_half_60.1.trans (le_add_of_nonneg_left (abs_nonneg _)), ?_⟩
    have : |vals q i| + 1 / 2 ^ 60 ≤ 4 := by norm_num at qb ⊢; linarith
    exact this.trans (by norm_num)
  have s : ∀ i j, InR (-600) 600 (a i * a j) := fun i j => ((ra i).mul (ra j)).mono (by norm_num) (by norm_num)
  have na : nrm a ≤ 1 + 13 / 2 ^ 53 := by
    have := nrm_wt (n := 4) le_rfl (δ := 1 / 2 ^ 60) (by norm_num) (vals q)
    refine this.trans ?_
    norm_num at qb ⊢; linarith
  have nn : a 0 * a 0 + a 1 * a 1 + a 2 * a 2 + a 3 * a 3 ≤ (1 + 13 / 2 ^ 53) ^ 2 := by
    rw [← Kinematics.sq4, ← nrm_sq, sq]
    exact mul_self_le_mul_self (nrm_nonneg _) na
  have final : ∀ {f : Fp} {x S : ℝ}, Acc 4 f x S → S ≤ (1 + 13 / 2 ^ 53) ^ 2 → f = .fin (fval f) ∧ IsDouble (fval f) ∧ |(fval f : ℝ) - x| ≤ 5 / 2 ^ 53 := by
    intro f x S h hS
    obtain ⟨h1, h2, h3⟩ := h.err
    refine ⟨h1, h2, h3.trans ?_⟩
    have h7 : 0 ≤ (1 + eps) ^ 4 - 1 := by linarith [one_le_pow_eps 4]
    refine (mul_le_mul_of_nonneg_left hS h7).trans ?_
    unfold eps; norm_num
  have two : Acc 0 (.fin 2) 2 2 := by
    have := Acc.fin (q := 2) (isDouble_int 2 (by norm_num)) (S := 2) (by norm_num)
    simpa using this
  have mtwo : Acc 0 (.fin (-2)) (-2) 2 := two.neg
  have h2 : InR 0 1 (2 : ℝ) := by constructor <;> norm_num
  have s' : ∀ i j, InR (-120) 6 (a i * a j * 2) := fun i j => (((ra i).mul (ra j)).mul h2).mono (by norm_num) (by norm_num)
  have mm : ∀ i j, Acc 2 (fmul rnd (fmul rnd (q i) (q j)) (.fin 2)) (vals q i * vals q j * 2) (a i * a j * 2) := fun i j =>
    Acc.mul hr (j := 1) (k := 0) (by norm_num) (Acc.mul hr (by norm_num) (A i) (A j) ((s i j).scale (by norm_num) (by norm_num))) two ((s' i j).scale (by norm_num) (by norm_num))
  have mm' : ∀ i j, Acc 2 (fmul rnd (fmul rnd (q i) (q j)) (.fin (-2))) (vals q i * vals q j * (-2)) (a i * a j * 2) := fun i j =>
    Acc.mul hr (j := 1) (k := 0) (by norm_num) (Acc.mul hr (by norm_num) (A i) (A j) ((s i j).scale (by norm_num) (by norm_num))) mtwo ((s' i j).scale (by norm_num) (by norm_num))
  have ss : ∀ i j k l, Scale (a i * a j * 2 + a k * a l * 2) := fun i j k l => ((s' i j).add (s' k l) le_rfl).scale (by norm_num) (by norm_num)
  have amgm : ∀ x y : ℝ, x * y * 2 ≤ x * x + y * y := fun x y => by nlinarith [sq_nonneg (x - y)]
  have oa : ∀ i j k l, Acc 4 (fadd rnd (fmul rnd (fmul rnd (q i) (q j)) (.fin 2)) (fmul rnd (fmul rnd (q k) (q l)) (.fin 2))) (vals q i * vals q j * 2 + vals q k * vals q l * 2) (a i * a j * 2 + a k * a l * 2) := fun i j k l =>
    (Acc.add hr (k := 2) le_rfl le_rfl (by norm_num) (mm i j) (mm k l) (ss i j k l)).mono (by norm_num) le_rfl
  have oa' : ∀ i j k l, Acc 4 (fadd rnd (fmul rnd (fmul rnd (q i) (q j)) (.fin (-2))) (fmul rnd (fmul rnd (q k) (q l)) (.fin 2))) (vals q i * vals q j * (-2) + vals q k * vals q l * 2) (a i * a j * 2 + a k * a l * 2) := fun i j k l =>
    (Acc.add hr (k := 2) le_rfl le_rfl (by norm_num) (mm' i j) (mm k l) (ss i j k l)).mono (by norm_num) le_rfl
  have os : ∀ i j k l, Acc 4 (fsub rnd (fmul rnd (fmul rnd (q i) (q j)) (.fin 2)) (fmul rnd (fmul rnd (q k) (q l)) (.fin 2))) (vals q i * vals q j * 2 - vals q k * vals q l * 2) (a i * a j * 2 + a k * a l * 2) := fun i j k l =>
    (Acc.sub hr (k := 2) le_rfl le_rfl (by norm_num) (mm i j) (mm k l) (ss i j k l)).mono (by norm_num) le_rfl
  have i1 := amgm (a 0) (a 1); have i2 := amgm (a 2) (a 3); have i3 := amgm (a 0) (a 2); have i4 := amgm (a 1) (a 3); have i5 := amgm (a 0) (a 3); have i6 := amgm (a 1) (a 2)
  fin_cases i <;> fin_cases j
  · exact final (acc4 hr (A 0) (A 0) (A 1) (A 1) (A 2) (A 2) (A 3) (A 3) (s _ _) (s _ _) (s _ _) (s _ _) false false true) nn
  · exact final (oa 0 1 2 3) (by linarith)
  · exact final (os 0 2 1 3) (by linarith)
  · exact final (os 0 1 2 3) (by linarith)
  · exact final (acc4 hr (A 0).neg (A 0) (A 1) (A 1) (A 2) (A 2) (A 3) (A 3) (s _ _) (s _ _) (s _ _) (s _ _) true false true) nn
  · exact final (oa 0 3 1 2) (by linarith)
  · exact final (oa 0 2 1 3) (by linarith)
  · exact final (oa' 0 3 1 2) (by linarith)
  · exact final (acc4 hr (A 0).neg (A 0) (A 1) (A 1) (A 2) (A 2) (A 3) (A 3) (s _ _) (s _ _) (s _ _) (s _ _) false true true) nn

end

/-! ## a matrix that is nearly a rotation -/

theorem entry_off (x y z w : ℝ) : |x * y * 2 + z * w * 2| ≤ x * x + y * y + z * z + w * w ∧ |x * y * 2 - z * w * 2| ≤ x * x + y * y + z * z + w * w := by
  constructor <;> rw [abs_le] <;> constructor <;> linarith [sq_nonneg (x - y), sq_nonneg (z - w), sq_nonneg (x + y), sq_nonneg (z + w), sub_sq x y, sub_sq z w, add_sq x y, add_sq z w, sq x, sq y, sq z, sq w, mul_assoc 2 x y, mul_assoc 2 z w]

theorem entry_diag (x y z w : ℝ) : |x * x - y * y - z * z + w * w| ≤ x * x + y * y + z * z + w * w ∧ |-(x * x) + y * y - z * z + w * w| ≤ x * x + y * y + z * z + w * w ∧ |-(x * x) - y * y + z * z + w * w| ≤ x * x + y * y + z * z + w * w := by
  refine ⟨?_, ?_, ?_⟩ <;> rw [abs_le] <;> constructor <;> linarith [mul_self_nonneg x, mul_self_nonneg y, mul_self_nonneg z, mul_self_nonneg w]

theorem quat2r_entry (q : V4) (i j : Fin 3) : |Kinematics.quat2r q i j| ≤ sqNorm q := by
  rw [Kinematics.sq4]
  fin_cases i <;> fin_cases j <;> simp only [Kinematics.quat2r, Matrix.of_apply, Matrix.cons_val_zero, Matrix.cons_val_one, Matrix.cons_val, Fin.zero_eta, Fin.mk_one, Fin.reduceFinMk]
  · exact (entry_diag _ _ _ _).1
  · exact (entry_off _ _ _ _).1
  · exact (entry_off _ _ _ _).2.trans (by linarith)
  · exact (entry_off _ _ _ _).2
  · have := (entry_diag (q 0) (q 1) (q 2) (q 3)).2.1; rwa [← neg_mul] at this
  · exact (entry_off _ _ _ _).1.trans (by linarith)
  · exact (entry_off _ _ _ _).1.trans (by linarith)
  · have := (entry_off (q 1) (q 2) (q 0) (q 3)).2
    rw [show q 0 * q 3 * -2 + q 1 * q 2 * 2 = q 1 * q 2 * 2 - q 0 * q 3 * 2 by ring]; linarith
  · have := (entry_diag (q 0) (q 1) (q 2) (q 3)).2.2; rwa [← neg_mul] at this

theorem quat2r_gram (q : V4) : Kinematics.quat2r q * (Kinematics.quat2r q).transpose = (sqNorm q ^ 2) • (1 : M3) ∧ (Kinematics.quat2r q).transpose * Kinematics.quat2r q = (sqNorm q ^ 2) • (1 : M3) := by
  rw [Kinematics.sq4]
  constructor <;>
  · ext i j
    fin_cases i <;> fin_cases j <;> simp [Kinematics.quat2r, Matrix.mul_apply, Fin.sum_univ_succ] <;> ring

theorem quat2r_det (q : V4) : (Kinematics.quat2r q).det = sqNorm q ^ 3 := by
  rw [Kinematics.sq4, Matrix.det_fin_three]
  simp [Kinematics.quat2r]
  ring

theorem pair_err {a b a' b' M ε : ℝ} (ha : |a| ≤ M) (hb' : |b'| ≤ M) (ea : |a' - a| ≤ ε) (eb : |b' - b| ≤ ε) : |a' * b' - a * b| ≤ 2 * ε * M := by
  have hM : 0 ≤ M := (abs_nonneg a).trans ha
  have hε : 0 ≤ ε := (abs_nonneg _).trans ea
  have e : a' * b' - a * b = (a' - a) * b' + a * (b' - b) := by ring
  rw [e]
  have t1 : |(a' - a) * b'| ≤ ε * M := by rw [abs_mul]; exact mul_le_mul ea hb' (abs_nonneg _) hε
  have t2 : |a * (b' - b)| ≤ M * ε := by rw [abs_mul]; exact mul_le_mul ha eb (abs_nonneg _) hM
  have := abs_add_le ((a' - a) * b') (a * (b' - b))
  linarith

theorem triple_err {a b c a' b' c' M ε : ℝ} (ha : |a| ≤ M) (hb : |b| ≤ M) (hb' : |b'| ≤ M) (hc' : |c'| ≤ M) (ea : |a' - a| ≤ ε) (eb : |b' - b| ≤ ε) (ec : |c' - c| ≤ ε) :
    |a' * b' * c' - a * b * c| ≤ 3 * ε * M ^ 2 := by
  have hM : 0 ≤ M := (abs_nonneg a).trans ha
  have hε : 0 ≤ ε := (abs_nonneg _).trans ea
  have e : a' * b' * c' - a * b * c = (a' * b' - a * b) * c' + a * b * (c' - c) := by ring
  rw [e]
  have t1 : |(a' * b' - a * b) * c'| ≤ 2 * ε * M * M := by rw [abs_mul]; exact mul_le_mul (pair_err ha hb' ea eb) hc' (abs_nonneg _) (by positivity)
  have t2 : |a * b * (c' - c)| ≤ M * M * ε := by rw [abs_mul, abs_mul]; exact mul_le_mul (mul_le_mul ha hb (abs_nonneg _) hM) ec (abs_nonneg _) (by positivity)
  have := abs_add_le ((a' * b' - a * b) * c') (a * b * (c' - c))
  nlinarith

theorem quat2r_lip (q x : V4) (i j : Fin 3) : |Kinematics.quat2r q i j - Kinematics.quat2r x i j| ≤ 4 * (nrm (q - x) * nrm (q + x)) := by
  have P : ∀ i j, |(q - x) i * (q + x) j| ≤ nrm (q - x) * nrm (q + x) := fun i j => by
    rw [abs_mul]; exact mul_le_mul (abs_le_nrm _ i) (abs_le_nrm _ j) (abs_nonneg _) (nrm_nonneg _)
  have B : ∀ i j, -(nrm (q - x) * nrm (q + x)) ≤ (q i - x i) * (q j + x j) ∧ (q i - x i) * (q j + x j) ≤ nrm (q - x) * nrm (q + x) := fun i j => abs_le.1 (P i j)
  set D := nrm (q - x) * nrm (q + x)
  have b00 := B 0 0; have b11 := B 1 1; have b22 := B 2 2; have b33 := B 3 3
  have b01 := B 0 1; have b10 := B 1 0; have b02 := B 0 2; have b20 := B 2 0; have b03 := B 0 3; have b30 := B 3 0
  have b12 := B 1 2; have b21 := B 2 1; have b13 := B 1 3; have b31 := B 3 1; have b23 := B 2 3; have b32 := B 3 2
  clear_value D
  fin_cases i <;> fin_cases j <;> simp only [Kinematics.quat2r, Matrix.of_apply, Matrix.cons_val_zero, Matrix.cons_val_one, Matrix.cons_val, Fin.zero_eta, Fin.mk_one, Fin.reduceFinMk] <;> rw [abs_le] <;> constructor <;> linarith

section
variable {R : ℝ → ℚ} (hR : IsRndR R) (E : Eigen fun q => R q)
include hR

/-- **C122** The matrix `C()` of a transformation, however it was built by products and inverses, has finite entries, its rows are orthonormal to within 2^-46, so are its columns, and its determinant is 1 to within 2^-45. -/
theorem C122_matrix (b : Build) (h : b.RotationsOk) :
    let C := valsM (TransformationD.C R (b.run E))
    (∀ i j, (TransformationD.C R (b.run E) i j).isFinite ∧ IsDouble (fval (TransformationD.C R (b.run E) i j))) ∧
    (∀ i j, |(C * C.transpose) i j - (1 : M3) i j| ≤ 1 / 2 ^ 46) ∧ (∀ i j, |(C.transpose * C) i j - (1 : M3) i j| ≤ 1 / 2 ^ 46) ∧ |C.det - 1| ≤ 1 / 2 ^ 45 := by
  obtain ⟨hf, hn⟩ := C120_unit hR E b h
  intro C
  set v := vals (b.run E).q with hv
  have qb := abs_le.1 hn
  have ent := quat2r_err hR.rat hf hn
  set A := Kinematics.quat2r v with hA
  have eC : ∀ i j, |C i j - A i j| ≤ 5 / 2 ^ 53 := fun i j => (ent i j).2.2
  -- the squared norm
  have hs : |sqNorm v - 1| ≤ 25 / 2 ^ 53 := by
    rw [← nrm_sq, show nrm v * nrm v - 1 = (nrm v - 1) + (nrm v - 1) + (nrm v - 1) * (nrm v - 1) by ring]
    have t := (abs_add_le ((nrm v - 1) + (nrm v - 1)) ((nrm v - 1) * (nrm v - 1))).trans (add_le_add_left (abs_add_le _ _) _)
    have t2 : |(nrm v - 1) * (nrm v - 1)| ≤ 12 / 2 ^ 53 * (12 / 2 ^ 53) := by rw [abs_mul]; exact mul_le_mul hn hn (abs_nonneg _) (by norm_num)
    have n1 : (12 : ℝ) / 2 ^ 53 + 12 / 2 ^ 53 + 12 / 2 ^ 53 * (12 / 2 ^ 53) ≤ 25 / 2 ^ 53 := by norm_num
    linarith
  have sb := abs_le.1 hs
  set s := sqNorm v with hsd
  set M : ℝ := 1 + 30 / 2 ^ 53 with hM
  have mA : ∀ i j, |A i j| ≤ M := fun i j => by
    have := quat2r_entry v i j
    rw [hM]
    have n1 : (25 : ℝ) / 2 ^ 53 ≤ 30 / 2 ^ 53 := by norm_num
    linarith
  have mC : ∀ i j, |C i j| ≤ M := fun i j => by
    have h1 := quat2r_entry v i j
    have h2 : |C i j| ≤ |C i j - A i j| + |A i j| := by simpa using abs_add_le (C i j - A i j) (A i j)
    have h3 := eC i j
    rw [hM]
    have n1 : (25 : ℝ) / 2 ^ 53 + 5 / 2 ^ 53 = 30 / 2 ^ 53 := by norm_num
    linarith
  have s2 : |s ^ 2 - 1| ≤ 51 / 2 ^ 53 := by
    have : s ^ 2 - 1 = (s - 1) * (s + 1) := by ring
    rw [this, abs_mul]
    have h1 : |s + 1| ≤ 2 + 25 / 2 ^ 53 := by rw [abs_le]; constructor <;> [(norm_num at sb ⊢; linarith); linarith]
    calc _ ≤ 25 / 2 ^ 53 * (2 + 25 / 2 ^ 53) := mul_le_mul hs h1 (abs_nonneg _) (by norm_num)
      _ ≤ _ := by norm_num
  have s3 : |s ^ 3 - 1| ≤ 77 / 2 ^ 53 := by
    have : s ^ 3 - 1 = (s ^ 2 - 1) * s + (s - 1) := by ring
    rw [this]
    have h1 : |s| ≤ 1 + 25 / 2 ^ 53 := by rw [abs_le]; constructor <;> [(norm_num at sb ⊢; linarith); linarith]
    have h2 : |(s ^ 2 - 1) * s| ≤ 51 / 2 ^ 53 * (1 + 25 / 2 ^ 53) := by rw [abs_mul]; exact mul_le_mul s2 h1 (abs_nonneg _) (by norm_num)
    have := abs_add_le ((s ^ 2 - 1) * s) (s - 1)
    have n1 : (51 : ℝ) / 2 ^ 53 * (1 + 25 / 2 ^ 53) + 25 / 2 ^ 53 ≤ 77 / 2 ^ 53 := by norm_num
    linarith
  have one_entry : ∀ i j : Fin 3, |(1 : M3) i j| ≤ 1 := fun i j => by
    rw [Matrix.one_apply]; split_ifs <;> norm_num
  -- a sum of three products
  have gram : ∀ {a1 a2 a3 b1 b2 b3 a1' a2' a3' b1' b2' b3' d : ℝ}, |a1| ≤ M → |a2| ≤ M → |a3| ≤ M → |b1'| ≤ M → |b2'| ≤ M → |b3'| ≤ M →
      |a1' - a1| ≤ 5 / 2 ^ 53 → |a2' - a2| ≤ 5 / 2 ^ 53 → |a3' - a3| ≤ 5 / 2 ^ 53 → |b1' - b1| ≤ 5 / 2 ^ 53 → |b2' - b2| ≤ 5 / 2 ^ 53 → |b3' - b3| ≤ 5 / 2 ^ 53 →
      |d| ≤ 1 → a1 * b1 + a2 * b2 + a3 * b3 = s ^ 2 * d → |a1' * b1' + a2' * b2' + a3' * b3' - d| ≤ 1 / 2 ^ 46 := by
    intro a1 a2 a3 b1 b2 b3 a1' a2' a3' b1' b2' b3' d p1 p2 p3 q1 q2 q3 e1 e2 e3 f1 f2 f3 hd heq
    have t1 := pair_err p1 q1 e1 f1
    have t2 := pair_err p2 q2 e2 f2
    have t3 := pair_err p3 q3 e3 f3
    have t4 : |s ^ 2 * d - d| ≤ 51 / 2 ^ 53 := by
      rw [show s ^ 2 * d - d = (s ^ 2 - 1) * d by ring, abs_mul]
      calc _ ≤ 51 / 2 ^ 53 * 1 := mul_le_mul s2 hd (abs_nonneg _) (by norm_num)
        _ = _ := by ring
    have e : a1' * b1' + a2' * b2' + a3' * b3' - d = (a1' * b1' - a1 * b1) + (a2' * b2' - a2 * b2) + (a3' * b3' - a3 * b3) + (s ^ 2 * d - d) := by rw [← heq]; ring
    rw [e]
    have u1 := abs_add_le ((a1' * b1' - a1 * b1) + (a2' * b2' - a2 * b2) + (a3' * b3' - a3 * b3)) (s ^ 2 * d - d)
    have u2 := abs_add_le ((a1' * b1' - a1 * b1) + (a2' * b2' - a2 * b2)) (a3' * b3' - a3 * b3)
    have u3 := abs_add_le (a1' * b1' - a1 * b1) (a2' * b2' - a2 * b2)
    have n1 : 3 * (2 * (5 / 2 ^ 53) * M) + 51 / 2 ^ 53 ≤ 1 / 2 ^ 46 := by rw [hM]; norm_num
    linarith
  refine ⟨fun i j => ?_, fun i j => ?_, fun i j => ?_, ?_⟩
  · obtain ⟨h1, h2, -⟩ := ent i j
    refine ⟨?_, h2⟩
    show (quat2r (fun x => R x) (b.run E).q i j).isFinite
    rw [h1]; rfl
  · have g := congrFun (congrFun (quat2r_gram v).1 i) j
    rw [Kinematics.mm3, Matrix.smul_apply, smul_eq_mul] at g
    rw [Kinematics.mm3]
    exact gram (mA i 0) (mA i 1) (mA i 2) (mC j 0) (mC j 1) (mC j 2) (eC i 0) (eC i 1) (eC i 2) (eC j 0) (eC j 1) (eC j 2) (one_entry i j) g
  · have g := congrFun (congrFun (quat2r_gram v).2 i) j
    rw [Kinematics.mm3, Matrix.smul_apply, smul_eq_mul] at g
    rw [Kinematics.mm3]
    exact gram (mA 0 i) (mA 1 i) (mA 2 i) (mC 0 j) (mC 1 j) (mC 2 j) (eC 0 i) (eC 1 i) (eC 2 i) (eC 0 j) (eC 1 j) (eC 2 j) (one_entry i j) g
  · have hd := quat2r_det v
    rw [Matrix.det_fin_three] at hd ⊢
    have T : ∀ i j k l m n, |C i j * C k l * C m n - A i j * A k l * A m n| ≤ 3 * (5 / 2 ^ 53) * M ^ 2 := fun i j k l m n =>
      triple_err (mA i j) (mA k l) (mC k l) (mC m n) (eC i j) (eC k l) (eC m n)
    have n1 : 6 * (3 * (5 / 2 ^ 53) * M ^ 2) + 77 / 2 ^ 53 ≤ 1 / 2 ^ 45 := by rw [hM]; norm_num
    have b1 := abs_le.1 (T 0 0 1 1 2 2)
    have b2 := abs_le.1 (T 0 0 1 2 2 1)
    have b3 := abs_le.1 (T 0 1 1 0 2 2)
    have b4 := abs_le.1 (T 0 1 1 2 2 0)
    have b5 := abs_le.1 (T 0 2 1 0 2 1)
    have b6 := abs_le.1 (T 0 2 1 1 2 0)
    have b7 := abs_le.1 s3
    rw [abs_le]
    constructor <;> linarith

end

/-- **C122** And it is the matrix of the exact transformation, up to an error that grows with the number of steps. -/
theorem C122_entries {R : ℝ → ℚ} (hR : IsRndR R) (E : Eigen fun q => R q) (b : Build) (h : b.RotationsOk) (hn : b.steps ≤ 2 ^ 40) (i j : Fin 3) :
    |valsM (TransformationD.C R (b.run E)) i j - Kinematics.Transformation.C b.exact i j| ≤ b.steps / 2 ^ 43 := by
  obtain ⟨hf, hq⟩ := C120_unit hR E b h
  have e1 := (quat2r_err hR.rat hf hq i j).2.2
  have e2 := quat2r_lip (vals (b.run E).q) b.exact.q i j
  have e3 := C121_rotation hR E b h hn
  have u := (exact_inv b h).1
  have e4 := nrm_add (vals (b.run E).q) b.exact.q
  have qb := abs_le.1 hq
  have e5 : nrm (vals (b.run E).q + b.exact.q) ≤ 2 + 12 / 2 ^ 53 := by linarith
  have hs : (1 : ℝ) ≤ b.steps := by
    have : 1 ≤ b.steps := by cases b <;> simp [Build.steps]
    exact_mod_cast this
  have e6 : nrm (vals (b.run E).q - b.exact.q) * nrm (vals (b.run E).q + b.exact.q) ≤ b.steps / 2 ^ 47 * (2 + 12 / 2 ^ 53) := mul_le_mul e3 e5 (nrm_nonneg _) (by positivity)
  have t := abs_sub_le (valsM (TransformationD.C R (b.run E)) i j) (Kinematics.quat2r (vals (b.run E).q) i j) (Kinematics.quat2r b.exact.q i j)
  show |_ - Kinematics.quat2r b.exact.q i j| ≤ _
  have e7 : |valsM (TransformationD.C R (b.run E)) i j - Kinematics.quat2r (vals (b.run E).q) i j| ≤ 5 / 2 ^ 53 := e1
  have n1 : 4 * ((b.steps : ℝ) / 2 ^ 47 * (2 + 12 / 2 ^ 53)) + 5 / 2 ^ 53 * b.steps ≤ b.steps / 2 ^ 43 := by
    have : (4 * (1 / 2 ^ 47 * (2 + 12 / 2 ^ 53)) + 5 / 2 ^ 53 : ℝ) ≤ 1 / 2 ^ 43 := by norm_num
    calc _ = (4 * (1 / 2 ^ 47 * (2 + 12 / 2 ^ 53)) + 5 / 2 ^ 53 : ℝ) * b.steps := by ring
      _ ≤ 1 / 2 ^ 43 * b.steps := mul_le_mul_of_nonneg_right this (by linarith)
      _ = _ := by ring
  have n2 : (5 : ℝ) / 2 ^ 53 ≤ 5 / 2 ^ 53 * b.steps := le_mul_of_one_le_right (by norm_num) hs
  linarith

example : |valsM (TransformationD.C rndEvenReal (trip.run (Eigen.plain fun q => rndEvenReal q))) 0 1 - Kinematics.Transformation.C trip.exact 0 1| ≤ 4 / 2 ^ 43 := by
  have := C122_entries isRndR_rndEvenReal (Eigen.plain fun q => rndEvenReal q) trip trip_rotations (by norm_num [trip, Build.steps]) 0 1
  simpa [trip, Build.steps] using this

example : |(valsM (TransformationD.C rndEvenReal (trip.run (Eigen.plain fun q => rndEvenReal q)))).det - 1| ≤ 1 / 2 ^ 45 :=
  (C122_matrix isRndR_rndEvenReal _ trip trip_rotations).2.2.2

end Verif.KinematicsDouble
