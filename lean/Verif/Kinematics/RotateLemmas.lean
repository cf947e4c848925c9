import Verif.Kinematics.QuatDoubleProps

/-!
# `quatRotate` in doubles
-/

namespace Verif.KinematicsDouble

open Verif.Common
open Verif.Kinematics (V3 V4 M3 sqNorm qeps)

local notation "nrm" => Kinematics.norm

/-! ## exact cross products -/

theorem nrm_cross (a b : V3) : nrm (Kinematics.cross a b) ≤ nrm a * nrm b := by
  apply Real.sqrt_le_iff.2
  refine ⟨mul_nonneg (nrm_nonneg _) (nrm_nonneg _), ?_⟩
  rw [mul_pow, sq, sq, nrm_sq, nrm_sq, Kinematics.sq3, Kinematics.sq3, Kinematics.sq3]
  simp only [Kinematics.cross, Matrix.cons_val_zero, Matrix.cons_val_one, Matrix.cons_val]
  nlinarith [sq_nonneg (a 0 * b 0 + a 1 * b 1 + a 2 * b 2)]

theorem nrm_qeps (q : V4) : nrm (qeps q) ≤ nrm q := by
  apply Real.sqrt_le_sqrt
  rw [Kinematics.sq3, Kinematics.sq4]
  simp only [qeps, Matrix.cons_val_zero, Matrix.cons_val_one, Matrix.cons_val]
  nlinarith [mul_self_nonneg (q 3)]

/-- a rotation is linear in the vector -/
theorem quatRotate_sub (q : V4) (v w : V3) : Kinematics.quatRotate q (v - w) = Kinematics.quatRotate q v - Kinematics.quatRotate q w := by
  apply Kinematics.ext3 <;> simp only [Kinematics.quatRotate, Kinematics.cross, qeps, Matrix.cons_val_zero, Matrix.cons_val_one, Matrix.cons_val, Pi.add_apply, Pi.smul_apply, Pi.sub_apply, smul_eq_mul] <;> ring

/-- a unit quaternion keeps lengths -/
theorem nrm_quatRotate {q : V4} (hq : nrm q = 1) (v : V3) : nrm (Kinematics.quatRotate q v) = nrm v := by
  have hu : q 0 * q 0 + q 1 * q 1 + q 2 * q 2 + q 3 * q 3 = 1 := by
    rw [← Kinematics.sq4, ← nrm_sq, hq]; norm_num
  unfold Kinematics.norm
  congr 1
  rw [Kinematics.sq3, Kinematics.sq3]
  simp only [Kinematics.quatRotate, Kinematics.cross, qeps, Matrix.cons_val_zero, Matrix.cons_val_one, Matrix.cons_val, Pi.add_apply, Pi.smul_apply, Pi.sub_apply, smul_eq_mul]
  have h3 : q 3 * q 3 = 1 - q 0 * q 0 - q 1 * q 1 - q 2 * q 2 := by linarith
  ring_nf
  have h3' : q 3 ^ 2 = 1 - q 0 ^ 2 - q 1 ^ 2 - q 2 ^ 2 := by rw [sq, h3]; ring
  rw [h3']
  ring

/-- how a rotation depends on the quaternion -/
theorem quatRotate_lip (q p : V4) (v : V3) : nrm (Kinematics.quatRotate q v - Kinematics.quatRotate p v) ≤ 4 * (nrm q + nrm p) * nrm (q - p) * nrm v := by
  have e : Kinematics.quatRotate q v - Kinematics.quatRotate p v =
      (2 : ℝ) • (Kinematics.cross (qeps (q - p)) (Kinematics.cross (qeps q) v) + Kinematics.cross (qeps p) (Kinematics.cross (qeps (q - p)) v)
        + (-(q - p) 3) • Kinematics.cross (qeps q) v + (-p 3) • Kinematics.cross (qeps (q - p)) v) := by
    apply Kinematics.ext3 <;> simp only [Kinematics.quatRotate, Kinematics.cross, qeps, Matrix.cons_val_zero, Matrix.cons_val_one, Matrix.cons_val, Pi.add_apply, Pi.smul_apply, Pi.sub_apply, smul_eq_mul] <;> ring
  rw [e, nrm_smul, abs_of_pos (by norm_num : (0 : ℝ) < 2)]
  have V := nrm_nonneg v
  have Q := nrm_nonneg q
  have P := nrm_nonneg p
  have D := nrm_nonneg (q - p)
  have t1 : nrm (Kinematics.cross (qeps (q - p)) (Kinematics.cross (qeps q) v)) ≤ nrm (q - p) * (nrm q * nrm v) :=
    (nrm_cross _ _).trans (mul_le_mul (nrm_qeps _) ((nrm_cross _ _).trans (mul_le_mul_of_nonneg_right (nrm_qeps _) V)) (nrm_nonneg _) D)
  have t2 : nrm (Kinematics.cross (qeps p) (Kinematics.cross (qeps (q - p)) v)) ≤ nrm p * (nrm (q - p) * nrm v) :=
    (nrm_cross _ _).trans (mul_le_mul (nrm_qeps _) ((nrm_cross _ _).trans (mul_le_mul_of_nonneg_right (nrm_qeps _) V)) (nrm_nonneg _) P)
  have t3 : nrm ((-(q - p) 3) • Kinematics.cross (qeps q) v) ≤ nrm (q - p) * (nrm q * nrm v) := by
    rw [nrm_smul, abs_neg]
    exact mul_le_mul (abs_le_nrm _ _) ((nrm_cross _ _).trans (mul_le_mul_of_nonneg_right (nrm_qeps _) V)) (nrm_nonneg _) D
  have t4 : nrm ((-p 3) • Kinematics.cross (qeps (q - p)) v) ≤ nrm p * (nrm (q - p) * nrm v) := by
    rw [nrm_smul, abs_neg]
    exact mul_le_mul (abs_le_nrm _ _) ((nrm_cross _ _).trans (mul_le_mul_of_nonneg_right (nrm_qeps _) V)) (nrm_nonneg _) P
  have s1 := nrm_add (Kinematics.cross (qeps (q - p)) (Kinematics.cross (qeps q) v) + Kinematics.cross (qeps p) (Kinematics.cross (qeps (q - p)) v) + (-(q - p) 3) • Kinematics.cross (qeps q) v) ((-p 3) • Kinematics.cross (qeps (q - p)) v)
  have s2 := nrm_add (Kinematics.cross (qeps (q - p)) (Kinematics.cross (qeps q) v) + Kinematics.cross (qeps p) (Kinematics.cross (qeps (q - p)) v)) ((-(q - p) 3) • Kinematics.cross (qeps q) v)
  have s3 := nrm_add (Kinematics.cross (qeps (q - p)) (Kinematics.cross (qeps q) v)) (Kinematics.cross (qeps p) (Kinematics.cross (qeps (q - p)) v))
  nlinarith

/-! ## the sums of absolute values -/

/-- a cross product with plus signs -/
def absCross (a b : V3) : V3 := ![a 1 * b 2 + a 2 * b 1, a 2 * b 0 + a 0 * b 2, a 0 * b 1 + a 1 * b 0]

theorem nrm_absCross (a b : V3) : nrm (absCross a b) ≤ 3 / 2 * (nrm a * nrm b) := by
  apply Real.sqrt_le_iff.2
  refine ⟨by have := nrm_nonneg a; have := nrm_nonneg b; positivity, ?_⟩
  rw [mul_pow, mul_pow, sq (nrm a), sq (nrm b), nrm_sq, nrm_sq, Kinematics.sq3, Kinematics.sq3, Kinematics.sq3]
  simp only [absCross, Matrix.cons_val_zero, Matrix.cons_val_one, Matrix.cons_val]
  nlinarith [sq_nonneg (a 0 * b 0), sq_nonneg (a 1 * b 1), sq_nonneg (a 2 * b 2), sq_nonneg (a 1 * b 2 - a 2 * b 1), sq_nonneg (a 2 * b 0 - a 0 * b 2), sq_nonneg (a 0 * b 1 - a 1 * b 0),
    sq_nonneg (a 1 * b 2), sq_nonneg (a 2 * b 1), sq_nonneg (a 2 * b 0), sq_nonneg (a 0 * b 2), sq_nonneg (a 0 * b 1), sq_nonneg (a 1 * b 0)]

/-- the inner vector -/
def absInner (a : V4) (b : V3) : V3 := absCross (qeps a) b + a 3 • b

/-- the terms of a rotation with plus signs -/
def absRot (a : V4) (b : V3) : V3 := b + (2 : ℝ) • absCross (qeps a) (absInner a b)

theorem nrm_absRot {a : V4} (b : V3) (hA : nrm a ≤ 1 + 1 / 2 ^ 10) : nrm (absRot a b) ≤ 9 * nrm b := by
  have A := nrm_nonneg a
  have B := nrm_nonneg b
  have i1 : nrm (absInner a b) ≤ 5 / 2 * (nrm a * nrm b) := by
    have t := nrm_add (absCross (qeps a) b) (a 3 • b)
    have t1 := (nrm_absCross (qeps a) b).trans (mul_le_mul_of_nonneg_left (mul_le_mul_of_nonneg_right (nrm_qeps a) B) (by norm_num))
    have t2 : nrm (a 3 • b) ≤ nrm a * nrm b := by rw [nrm_smul]; exact mul_le_mul_of_nonneg_right (abs_le_nrm _ _) B
    unfold absInner
    linarith
  have i2 : nrm (absCross (qeps a) (absInner a b)) ≤ 3 / 2 * (nrm a * (5 / 2 * (nrm a * nrm b))) :=
    (nrm_absCross _ _).trans (mul_le_mul_of_nonneg_left (mul_le_mul (nrm_qeps a) i1 (nrm_nonneg _) A) (by norm_num))
  have i3 : nrm (absRot a b) ≤ nrm b + 2 * nrm (absCross (qeps a) (absInner a b)) := by
    have := nrm_add b ((2 : ℝ) • absCross (qeps a) (absInner a b))
    rwa [nrm_smul, abs_of_pos (by norm_num : (0 : ℝ) < 2)] at this
  have i4 : nrm a * nrm a ≤ (1 + 1 / 2 ^ 10) * (1 + 1 / 2 ^ 10) := mul_self_le_mul_self A hA
  have i5 : nrm a * nrm a * nrm b ≤ (1 + 1 / 2 ^ 10) * (1 + 1 / 2 ^ 10) * nrm b := mul_le_mul_of_nonneg_right i4 B
  have e : 3 / 2 * (nrm a * (5 / 2 * (nrm a * nrm b))) = 15 / 4 * (nrm a * nrm a * nrm b) := by ring
  rw [e] at i2
  have n1 : (1 : ℝ) + 2 * (15 / 4 * ((1 + 1 / 2 ^ 10) * (1 + 1 / 2 ^ 10))) ≤ 9 := by norm_num
  have n2 := mul_le_mul_of_nonneg_right n1 B
  nlinarith

/-! ## the computed cross product and rotation -/

variable {rnd : ℚ → ℚ} (hr : IsRnd rnd)

include hr

theorem cross_acc {k : ℕ} (hk : k ≤ 50) {f g : F3} {x y a b : V3} {u v : ℤ} (hf : ∀ i, Acc 0 (f i) (x i) (a i)) (hg : ∀ i, Acc k (g i) (y i) (b i))
    (ra : ∀ i, InR (-60) 2 (a i)) (rb : ∀ i, InR u v (b i)) (hu : -800 ≤ u) (hv : v ≤ 800) :
    (∀ i, Acc (k + 2) (cross rnd f g i) (Kinematics.cross x y i) (absCross a b i)) ∧ ∀ i, InR (u - 60) (v + 3) (absCross a b i) := by
  have s : ∀ i j, InR (u - 60) (v + 2) (a i * b j) := fun i j => ((ra i).mul (rb j)).mono (by omega) (by omega)
  have m : ∀ i j, Acc (k + 1) (fmul rnd (f i) (g j)) (x i * y j) (a i * b j) := fun i j => by
    have := Acc.mul hr (by omega) (hf i) (hg j) ((s i j).scale (by omega) (by omega))
    rwa [zero_add] at this
  have s2 : ∀ i j i' j', InR (u - 60) (v + 3) (a i * b j + a i' * b j') := fun i j i' j' => ((s i j).add (s i' j') le_rfl).mono le_rfl (by omega)
  have m2 : ∀ i j i' j', Acc (k + 2) (fsub rnd (fmul rnd (f i) (g j)) (fmul rnd (f i') (g j'))) (x i * y j - x i' * y j') (a i * b j + a i' * b j') := fun i j i' j' =>
    Acc.sub hr le_rfl le_rfl (by omega) (m i j) (m i' j') ((s2 i j i' j').scale (by omega) (by omega))
  constructor
  · intro i
    fin_cases i
    · exact m2 1 2 2 1
    · exact m2 2 0 0 2
    · exact m2 0 1 1 0
  · intro i
    fin_cases i <;> exact s2 _ _ _ _

theorem quatRotate_acc {q : F4} {v : F3} (hq : Finite q) (hv : Finite v) {a : V4} {b : V3} (ha : ∀ i, |vals q i| ≤ a i) (hb : ∀ i, |vals v i| ≤ b i)
    (ra : ∀ i, InR (-60) 2 (a i)) (rb : ∀ i, InR (-300) 300 (b i)) :
    (∀ i, Acc 7 (quatRotate rnd q v i) (Kinematics.quatRotate (vals q) (vals v) i) (absRot a b i)) ∧ ∀ i, InR (-500) 500 (absRot a b i) := by
  have A := hq.acc ha
  have B := hv.acc hb
  set e : F3 := ![q 0, q 1, q 2] with he
  have Ae : ∀ i, Acc 0 (e i) (qeps (vals q) i) (qeps a i) := by
    intro i; fin_cases i
    · exact A 0
    · exact A 1
    · exact A 2
  have re : ∀ i, InR (-60) 2 (qeps a i) := by
    intro i; fin_cases i
    · exact ra 0
    · exact ra 1
    · exact ra 2
  obtain ⟨c1, c2⟩ := cross_acc hr (by norm_num) Ae B re rb (by norm_num) (by norm_num)
  -- the inner vector
  have w1 : ∀ i, InR (-360) 302 (a 3 * b i) := fun i => ((ra 3).mul (rb i)).mono (by norm_num) (by norm_num)
  have w2 : ∀ i, Acc 1 (fmul rnd (q 3) (v i)) (vals q 3 * vals v i) (a 3 * b i) := fun i =>
    Acc.mul hr (by norm_num) (A 3) (B i) ((w1 i).scale (by norm_num) (by norm_num))
  have d2 : ∀ i, InR (-360) 304 (absInner a b i) := fun i => (c2 i).add (w1 i) (by norm_num)
  have d1 : ∀ i, Acc 3 (fsub rnd (cross rnd e v i) (fmul rnd (q 3) (v i))) ((Kinematics.cross (qeps (vals q)) (vals v) - vals q 3 • vals v) i) (absInner a b i) := fun i =>
    Acc.sub hr le_rfl (by norm_num) (by norm_num) (c1 i) (w2 i) ((d2 i).scale (by norm_num) (by norm_num))
  obtain ⟨x1, x2⟩ := cross_acc hr (k := 3) (by norm_num) Ae d1 re d2 (by norm_num) (by norm_num)
  have two : Acc 0 (.fin 2) 2 2 := by
    have := Acc.fin (q := 2) (isDouble_int 2 (by norm_num)) (S := 2) (by norm_num)
    simpa using this
  have y2 : ∀ i, InR (-420) 308 (2 * absCross (qeps a) (absInner a b) i) := fun i => by
    have h2 : InR 0 1 (2 : ℝ) := by constructor <;> norm_num
    exact (h2.mul (x2 i)).mono (by norm_num) (by norm_num)
  have y1 : ∀ i, Acc 6 (fmul rnd (.fin 2) (cross rnd e (fun i => fsub rnd (cross rnd e v i) (fmul rnd (q 3) (v i))) i))
      (2 * Kinematics.cross (qeps (vals q)) (Kinematics.cross (qeps (vals q)) (vals v) - vals q 3 • vals v) i) (2 * absCross (qeps a) (absInner a b) i) := fun i =>
    Acc.mul hr (j := 0) (k := 5) (by norm_num) two (x1 i) ((y2 i).scale (by norm_num) (by norm_num))
  have z2 : ∀ i, InR (-500) 500 (absRot a b i) := fun i => (((rb i).mono le_rfl (show (300 : ℤ) ≤ 308 by norm_num)).add (y2 i) le_rfl).mono (by norm_num) (by norm_num)
  exact ⟨fun i => Acc.add hr (k := 6) (by norm_num) le_rfl (by norm_num) (B i) (y1 i) ((z2 i).scale (by norm_num) (by norm_num)), z2⟩

end Verif.KinematicsDouble
