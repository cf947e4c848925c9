import Verif.Kinematics.ThreePointSpec
import Verif.Kinematics.QuatProps
import Verif.Kinematics.RotProps
import Mathlib.LinearAlgebra.Matrix.Trace
import Mathlib.Analysis.Matrix.Spectrum
import Mathlib.LinearAlgebra.Matrix.NonsingularInverse

/-!
# C72, C73: the point alignment methods return the best fit

`threePointSvd` is the least squares rigid motion (Arun/Kabsch with Umeyama's determinant test), `qMethod` the
weighted least squares rotation (Davenport), for any number of points in any position, given that Eigen's
decompositions keep their contract on the one matrix they are called with.
-/

namespace Verif.Kinematics

/-! ## Orthogonal matrices -/

theorem orth_comm {n : Nat} {M : Matrix (Fin n) (Fin n) ℝ} (h : M.transpose * M = 1) : M * M.transpose = 1 :=
  mul_eq_one_comm.1 h

theorem orth_det {M : M3} (h : M.transpose * M = 1) : M.det = 1 ∨ M.det = -1 := by
  have : M.det * M.det = 1 := by
    have h1 := congrArg Matrix.det h
    rwa [Matrix.det_mul, Matrix.det_transpose, Matrix.det_one] at h1
  have h2 : (M.det - 1) * (M.det + 1) = 0 := by linarith
  rcases mul_eq_zero.1 h2 with h | h
  · left; linarith
  · right; linarith

theorem orth_diag_le {M : M3} (h : M.transpose * M = 1) (i : Fin 3) : M i i ≤ 1 := by
  have h1 := congrFun (congrFun h i) i
  rw [mm3] at h1
  simp only [Matrix.transpose_apply, Matrix.one_apply_eq] at h1
  obtain rfl | rfl | rfl : i = 0 ∨ i = 1 ∨ i = 2 := by fin_cases i <;> simp
  all_goals nlinarith [sq_nonneg (M 0 0), sq_nonneg (M 1 0), sq_nonneg (M 2 0), sq_nonneg (M 0 1), sq_nonneg (M 1 1),
    sq_nonneg (M 2 1), sq_nonneg (M 0 2), sq_nonneg (M 1 2), sq_nonneg (M 2 2)]

/-- the trace of a rotation is at least -1 -/
theorem rotation_trace {C : M3} (h : IsRotation C) : -1 ≤ C 0 0 + C 1 1 + C 2 2 := by
  have h0 : 0 ≤ 1 + C 0 0 + C 1 1 + C 2 2 := outer_diag_nonneg h 3
  linarith

theorem improper_trace {M : M3} (h : M.transpose * M = 1) (hd : M.det = -1) : M 0 0 + M 1 1 + M 2 2 ≤ 1 := by
  have hr : IsRotation (-M) := by
    refine ⟨?_, ?_, ?_⟩
    · rw [Matrix.transpose_neg, neg_mul_neg]; exact orth_comm h
    · rw [Matrix.transpose_neg, neg_mul_neg]; exact h
    · rw [Matrix.det_neg, hd]; simp
      norm_num
  have := rotation_trace hr
  simp only [Matrix.neg_apply] at this
  linarith

/-- the bound behind the determinant test -/
theorem diag_bound {M : M3} (h : M.transpose * M = 1) {s : V3} (h0 : s 1 ≤ s 0) (h1 : s 2 ≤ s 1) (h2 : 0 ≤ s 2) :
    s 0 * M 0 0 + s 1 * M 1 1 + s 2 * M 2 2 ≤ s 0 + s 1 + s 2 * M.det := by
  have a := orth_diag_le h 0
  have b := orth_diag_le h 1
  have c := orth_diag_le h 2
  rcases orth_det h with hd | hd
  · rw [hd]
    nlinarith
  · rw [hd]
    have t := improper_trace h hd
    nlinarith [mul_nonneg h2 (sub_nonneg.2 t), mul_nonneg (sub_nonneg.2 (h1.trans h0)) (sub_nonneg.2 a),
      mul_nonneg (sub_nonneg.2 h1) (sub_nonneg.2 b)]

/-! ## The sum of squares -/

theorem sqNorm_sub_rot {C : M3} (h : C.transpose * C = 1) (a b : V3) :
    sqNorm (a - C.mulVec b) = sqNorm a + sqNorm b - 2 * inner a (C.mulVec b) := by
  have e : ∀ j k, (C.transpose * C) j k = (1 : M3) j k := fun j k => by rw [h]
  have e00 := e 0 0
  have e01 := e 0 1
  have e02 := e 0 2
  have e11 := e 1 1
  have e12 := e 1 2
  have e22 := e 2 2
  rw [mm3] at e00 e01 e02 e11 e12 e22
  simp only [Matrix.transpose_apply, Matrix.one_apply_eq] at e00 e11 e22
  rw [Matrix.one_apply_ne (by decide)] at e01 e02 e12
  simp only [Matrix.transpose_apply] at e01 e02 e12
  simp only [sq3, inner, Fin.sum_univ_three, mv3, Pi.sub_apply]
  clear e h
  linear_combination b 0 * b 0 * e00 + b 1 * b 1 * e11 + b 2 * b 2 * e22 + 2 * b 0 * b 1 * e01 + 2 * b 0 * b 2 * e02 + 2 * b 1 * b 2 * e12

/-- the gain of a rotation on a cross covariance: the sum of `H(j,k) C(j,k)` -/
def gain (H C : M3) : ℝ := (C.transpose * H).trace

theorem gain_eq (H C : M3) : gain H C = ∑ j, ∑ k, C k j * H k j := by
  simp [gain, Matrix.trace, Matrix.mul_apply]

/-- the weighted cross covariance -/
def wcov {n : Nat} (w : Fin n → ℝ) (a b : Fin n → V3) : M3 := Matrix.of fun j k => ∑ i, w i * (a i j * b i k)

theorem gain_sum {n : Nat} (w : Fin n → ℝ) (a b : Fin n → V3) (C : M3) :
    gain (wcov w a b) C = ∑ i, w i * inner (a i) (C.mulVec (b i)) := by
  rw [gain_eq]
  simp only [wcov, Matrix.of_apply, inner, Matrix.mulVec, dotProduct, Fin.sum_univ_three, Finset.mul_sum]
  simp only [← Finset.sum_add_distrib]
  apply Finset.sum_congr rfl
  intro i _
  ring

/-- the total error in terms of the gain -/
theorem error_gain {n : Nat} (w : Fin n → ℝ) (a b : Fin n → V3) {C : M3} (h : C.transpose * C = 1) :
    ∑ i, w i * sqNorm (a i - C.mulVec (b i)) =
      ∑ i, w i * (sqNorm (a i) + sqNorm (b i)) - 2 * gain (wcov w a b) C := by
  rw [gain_sum, Finset.mul_sum, ← Finset.sum_sub_distrib]
  apply Finset.sum_congr rfl
  intro i _
  rw [sqNorm_sub_rot h]
  ring

/-! ## threePointSvd -/

theorem gain_svd {H : M3} {d : Svd} (h : IsSvd H d) (C : M3) :
    gain H C = d.s 0 * (d.V.transpose * C.transpose * d.U) 0 0 + d.s 1 * (d.V.transpose * C.transpose * d.U) 1 1 +
      d.s 2 * (d.V.transpose * C.transpose * d.U) 2 2 := by
  have : gain H C = (d.V.transpose * C.transpose * d.U * Matrix.diagonal d.s).trace := by
    unfold gain
    rw [h.eq, ← Matrix.mul_assoc, Matrix.trace_mul_comm, ← Matrix.mul_assoc, ← Matrix.mul_assoc]
  rw [this]
  simp [Matrix.trace, Matrix.mul_diagonal, Fin.sum_univ_three]
  ring

/-- the diagonal sign matrix `diag(1,1,-1)` -/
theorem flipLast_eq (V : M3) : flipLast V = V * Matrix.diagonal ![1, 1, -1] := by
  ext i j
  rw [Matrix.mul_diagonal]
  fin_cases j <;> simp [flipLast]

theorem flip_orth {V : M3} (h : V.transpose * V = 1) : (flipLast V).transpose * flipLast V = 1 := by
  rw [flipLast_eq, Matrix.transpose_mul, Matrix.diagonal_transpose, Matrix.mul_assoc, ← Matrix.mul_assoc V.transpose, h,
    Matrix.one_mul, Matrix.diagonal_mul_diagonal]
  ext i j
  fin_cases i <;> fin_cases j <;> simp [Matrix.diagonal]

theorem svdRot_spec {H : M3} {d : Svd} (h : IsSvd H d) :
    IsRotation (svdRot d) ∧ gain H (svdRot d).transpose = d.s 0 + d.s 1 + d.s 2 * (d.V.det * d.U.det) := by
  have hU := h.orthU
  have hV := h.orthV
  have hU' := orth_comm hU
  have hdU := orth_det hU
  have hdV := orth_det hV
  have hdet : (d.V * d.U.transpose).det = d.V.det * d.U.det := by rw [Matrix.det_mul, Matrix.det_transpose]
  have orthMul : ∀ A : M3, A.transpose * A = 1 → (A * d.U.transpose).transpose * (A * d.U.transpose) = 1 := by
    intro A hA
    rw [Matrix.transpose_mul, Matrix.transpose_transpose, Matrix.mul_assoc, ← Matrix.mul_assoc A.transpose, hA, Matrix.one_mul, hU']
  unfold svdRot
  simp only []
  split
  · rename_i hneg
    have hd : d.V.det * d.U.det = -1 := by
      rw [hdet] at hneg
      rcases hdU with hu | hu <;> rcases hdV with hv | hv <;> rw [hu, hv] at hneg ⊢ <;> norm_num at hneg <;> norm_num
    have ho := orthMul _ (flip_orth hV)
    refine ⟨⟨orth_comm ho, ho, ?_⟩, ?_⟩
    · rw [Matrix.det_mul, Matrix.det_transpose, flipLast_eq, Matrix.det_mul, Matrix.det_diagonal]
      simp [Fin.prod_univ_three]
      linarith
    · rw [gain_svd h, Matrix.transpose_transpose, ← Matrix.mul_assoc, Matrix.mul_assoc (d.V.transpose * flipLast d.V), hU,
        Matrix.mul_one, flipLast_eq, ← Matrix.mul_assoc, hV, Matrix.one_mul, hd]
      simp
  · rename_i hneg
    have hd : d.V.det * d.U.det = 1 := by
      rw [hdet] at hneg
      rcases hdU with hu | hu <;> rcases hdV with hv | hv <;> rw [hu, hv] at hneg ⊢ <;> norm_num at hneg <;> norm_num
    have ho := orthMul _ hV
    refine ⟨⟨orth_comm ho, ho, by rw [hdet, hd]⟩, ?_⟩
    rw [gain_svd h, Matrix.transpose_transpose, ← Matrix.mul_assoc, Matrix.mul_assoc (d.V.transpose * d.V), hU,
        Matrix.mul_one, hV, hd]
    simp

theorem svd_gain_le {H : M3} {d : Svd} (h : IsSvd H d) {C : M3} (hC : IsRotation C) :
    gain H C ≤ gain H (svdRot d).transpose := by
  rw [(svdRot_spec h).2, gain_svd h]
  set M := d.V.transpose * C.transpose * d.U with hM
  have hMo : M.transpose * M = 1 := by
    rw [hM]
    simp only [Matrix.transpose_mul, Matrix.transpose_transpose]
    have e1 : d.U.transpose * (C * d.V) * (d.V.transpose * C.transpose * d.U) =
        d.U.transpose * (C * (d.V * d.V.transpose) * C.transpose) * d.U := by
      simp only [Matrix.mul_assoc]
    rw [e1, orth_comm h.orthV, Matrix.mul_one, hC.1, Matrix.mul_one, h.orthU]
  have hdet : M.det = d.V.det * d.U.det := by
    rw [hM, Matrix.det_mul, Matrix.det_mul, Matrix.det_transpose, Matrix.det_transpose, hC.2.2, mul_one]
  rw [← hdet]
  exact diag_bound hMo h.sorted.1 h.sorted.2.1 h.sorted.2.2

theorem sqNorm_add (a b : V3) : sqNorm (a + b) = sqNorm a + sqNorm b + 2 * inner a b := by
  simp only [sq3, inner, Fin.sum_univ_three, Pi.add_apply]; ring

theorem mean_sum {n : Nat} (hn : 0 < n) (p : Fin n → V3) (j : Fin 3) : ∑ i, (p i - meanCol p) j = 0 := by
  have : (n : ℝ) ≠ 0 := by exact_mod_cast hn.ne'
  simp [meanCol, Finset.sum_sub_distrib]
  field_simp
  ring

/-- centring: the error of `p ↦ C p + t` is that of the centred points plus that of the means -/
theorem error_split {n : Nat} (hn : 0 < n) (p0 p1 : Fin n → V3) (C : M3) (t : V3) :
    fitError (fun _ => 1) p0 p1 (fun p => C.mulVec p + t) =
      ∑ i, 1 * sqNorm ((p0 i - meanCol p0) - C.mulVec (p1 i - meanCol p1)) +
        n * sqNorm (meanCol p0 - C.mulVec (meanCol p1) - t) := by
  unfold fitError
  set e := meanCol p0 - C.mulVec (meanCol p1) - t with he
  have h1 : ∀ i, 1 * sqNorm (p0 i - (C.mulVec (p1 i) + t)) =
      1 * sqNorm ((p0 i - meanCol p0) - C.mulVec (p1 i - meanCol p1)) + (sqNorm e +
        2 * inner ((p0 i - meanCol p0) - C.mulVec (p1 i - meanCol p1)) e) := by
    intro i
    have : p0 i - (C.mulVec (p1 i) + t) = ((p0 i - meanCol p0) - C.mulVec (p1 i - meanCol p1)) + e := by
      rw [he, Matrix.mulVec_sub]; abel
    rw [this, sqNorm_add]; ring
  rw [Finset.sum_congr rfl (fun i _ => h1 i), Finset.sum_add_distrib, Finset.sum_add_distrib, ← Finset.mul_sum, ← Finset.mul_sum]
  have hz : ∑ i, inner ((p0 i - meanCol p0) - C.mulVec (p1 i - meanCol p1)) e = 0 := by
    have z0 := mean_sum hn p0
    have z1 := mean_sum hn p1
    have : ∀ i, inner ((p0 i - meanCol p0) - C.mulVec (p1 i - meanCol p1)) e =
        ((p0 i - meanCol p0) 0 * e 0 + (p0 i - meanCol p0) 1 * e 1 + (p0 i - meanCol p0) 2 * e 2) -
        ((p1 i - meanCol p1) 0 * (C 0 0 * e 0 + C 1 0 * e 1 + C 2 0 * e 2) +
         (p1 i - meanCol p1) 1 * (C 0 1 * e 0 + C 1 1 * e 1 + C 2 1 * e 2) +
         (p1 i - meanCol p1) 2 * (C 0 2 * e 0 + C 1 2 * e 1 + C 2 2 * e 2)) := by
      intro i
      simp only [inner, Fin.sum_univ_three, mv3, Pi.sub_apply]
      ring
    rw [Finset.sum_congr rfl (fun i _ => this i)]
    rw [Finset.sum_sub_distrib]
    simp only [Finset.sum_add_distrib, ← Finset.sum_mul, z0, z1]
    ring
  rw [hz]
  simp

/-- the rotation and the translation of the returned matrix -/
theorem threePoint_rigid (svd : M3 → Svd) {n : Nat} (p0 p1 : Fin n → V3) (h : IsSvd (crossCov p0 p1) (svd (crossCov p0 p1))) :
    IsRigidOf (threePointSvd svd p0 p1) (svdRot (svd (crossCov p0 p1))).transpose
      (meanCol p0 - (svdRot (svd (crossCov p0 p1))).transpose.mulVec (meanCol p1)) := by
  constructor
  · obtain ⟨a, b, c⟩ := (svdRot_spec h).1
    exact ⟨by rw [Matrix.transpose_transpose]; exact b, by rw [Matrix.transpose_transpose]; exact a,
      by rw [Matrix.det_transpose]; exact c⟩
  · intro p
    apply ext4 <;> simp [mv4, mv3, hom1, threePointSvd]

/-- **C72** `threePointSvd(p0, p1)` is (the 4×4 matrix of) a rigid motion, and no rigid motion fits the points
better in the least squares sense: for any number of points, in any position (collinear, coincident, mirrored). -/
theorem C72_optimal (svd : M3 → Svd) {n : Nat} (hn : 0 < n) (p0 p1 : Fin n → V3)
    (h : IsSvd (crossCov p0 p1) (svd (crossCov p0 p1))) :
    ∃ C t, IsRigidOf (threePointSvd svd p0 p1) C t ∧
      ∀ C' t', IsRotation C' → fitError (fun _ => 1) p0 p1 (fun p => C.mulVec p + t) ≤
        fitError (fun _ => 1) p0 p1 (fun p => C'.mulVec p + t') := by
  refine ⟨_, _, threePoint_rigid svd p0 p1 h, ?_⟩
  intro C' t' hC'
  have hR := (threePoint_rigid svd p0 p1 h).1
  rw [error_split hn, error_split hn, error_gain _ _ _ hR.2.1, error_gain _ _ _ hC'.2.1]
  have hH : wcov (fun _ => (1 : ℝ)) (fun i => p0 i - meanCol p0) (fun i => p1 i - meanCol p1) = crossCov p0 p1 := by
    ext j k; simp [wcov, crossCov]
  rw [hH]
  have := svd_gain_le h hC'
  have h0 : 0 ≤ (n : ℝ) * sqNorm (meanCol p0 - C'.mulVec (meanCol p1) - t') :=
    mul_nonneg (Nat.cast_nonneg _) (by unfold sqNorm; exact Finset.sum_nonneg (fun i _ => mul_self_nonneg _))
  have h1 : sqNorm (meanCol p0 - (svdRot (svd (crossCov p0 p1))).transpose.mulVec (meanCol p1) -
      (meanCol p0 - (svdRot (svd (crossCov p0 p1))).transpose.mulVec (meanCol p1))) = 0 := by
    rw [sub_self]; simp [sqNorm]
  rw [h1]
  linarith

theorem sqNorm_eq_zero {v : V3} (h : sqNorm v = 0) : v = 0 := by
  rw [sq3] at h
  apply ext3 <;> simp only [Pi.zero_apply] <;> nlinarith [mul_self_nonneg (v 0), mul_self_nonneg (v 1), mul_self_nonneg (v 2)]

/-- **C72** if the points are related by a rigid motion exactly, the returned matrix maps every point of the
second set to its partner in the first. -/
theorem C72_exact (svd : M3 → Svd) {n : Nat} (hn : 0 < n) (p0 p1 : Fin n → V3)
    (h : IsSvd (crossCov p0 p1) (svd (crossCov p0 p1))) (C : M3) (t : V3) (hC : IsRotation C)
    (hp : ∀ i, p0 i = C.mulVec (p1 i) + t) (i : Fin n) :
    (threePointSvd svd p0 p1).mulVec (hom1 (p1 i)) = hom1 (p0 i) := by
  obtain ⟨D, s, hr, hopt⟩ := C72_optimal svd hn p0 p1 h
  have hz : fitError (fun _ => 1) p0 p1 (fun p => C.mulVec p + t) = 0 := by
    unfold fitError
    apply Finset.sum_eq_zero
    intro i _
    rw [hp i, sub_self]; simp [sqNorm]
  have hle := hopt C t hC
  rw [hz] at hle
  have hnn : ∀ i ∈ Finset.univ, 0 ≤ (fun _ => (1 : ℝ)) i * sqNorm (p0 i - (D.mulVec (p1 i) + s)) := by
    intro i _
    simp only [one_mul, sqNorm]
    exact Finset.sum_nonneg (fun i _ => mul_self_nonneg _)
  have h0 := (Finset.sum_eq_zero_iff_of_nonneg hnn).1 (le_antisymm hle (Finset.sum_nonneg hnn)) i (Finset.mem_univ _)
  rw [one_mul] at h0
  rw [hr.2, ← sub_eq_zero.1 (sqNorm_eq_zero h0)]

/-! ## qMethod -/

theorem qMethodRot_eq (q : V4) : qMethodRot q = quat2r q := by
  ext i j
  fin_cases i <;> fin_cases j <;> simp [qMethodRot, quat2r, crossMx] <;> ring

/-- the quadratic form of Davenport's matrix is the gain of the quaternion's rotation -/
theorem davenport_form (B : M3) (q : V4) : inner q ((davenport B).mulVec q) = gain B (quat2r q) := by
  rw [gain_eq]
  simp only [inner, Fin.sum_univ_four, Fin.sum_univ_three, mv4]
  simp [davenport, quat2r]
  ring

theorem sqNorm_mulVec_orth {E : M4} (h : E.transpose * E = 1) (y : V4) : sqNorm (E.mulVec y) = sqNorm y := by
  have : sqNorm (E.mulVec y) = dotProduct (E.mulVec y) (E.mulVec y) := rfl
  rw [this, Matrix.dotProduct_mulVec, Matrix.vecMul_mulVec, h, Matrix.vecMul_one]
  rfl

theorem eigen_form {K : M4} {e : Eig} (h : IsEigen K e) (y : V4) :
    inner (e.E.mulVec y) (K.mulVec (e.E.mulVec y)) = ∑ i, e.lam i * (y i * y i) := by
  have h1 : K.mulVec (e.E.mulVec y) = e.E.mulVec ((Matrix.diagonal e.lam).mulVec y) := by
    rw [Matrix.mulVec_mulVec, h.eq, Matrix.mulVec_mulVec]
  have h2 : ∀ a b : V4, inner (e.E.mulVec a) (e.E.mulVec b) = inner a b := by
    intro a b
    have : inner (e.E.mulVec a) (e.E.mulVec b) = dotProduct (e.E.mulVec a) (e.E.mulVec b) := rfl
    rw [this, Matrix.dotProduct_mulVec, Matrix.vecMul_mulVec, h.orth, Matrix.vecMul_one]
    rfl
  rw [h1, h2]
  simp only [inner, Matrix.mulVec_diagonal]
  apply Finset.sum_congr rfl
  intro i _
  ring

theorem col_eq (E : M4) (k : Fin 4) : (fun i => E i k) = E.mulVec (fun j => if j = k then 1 else 0) := by
  funext i
  simp [Matrix.mulVec, dotProduct]

theorem qMethodQuat_spec {K : M4} {e : Eig} (h : IsEigen K e) :
    IsUnit4 (qMethodQuat e) ∧ ∀ x, IsUnit4 x → inner x (K.mulVec x) ≤ inner (qMethodQuat e) (K.mulVec (qMethodQuat e)) := by
  set k := maxq e.lam with hk
  set y : V4 := fun j => if j = k then 1 else 0 with hy
  have hcol : (fun i => e.E i k) = e.E.mulVec y := col_eq e.E k
  have hy1 : sqNorm y = 1 := by simp [sqNorm, hy]
  have hn1 : norm (fun i => e.E i k) = 1 := by
    unfold norm
    rw [hcol, sqNorm_mulVec_orth h.orth, hy1, Real.sqrt_one]
  have hq : qMethodQuat e = e.E.mulVec y := by
    rw [← hcol]
    funext i
    simp only [qMethodQuat]
    rw [← hk, hn1, div_one]
  have hval : inner (qMethodQuat e) (K.mulVec (qMethodQuat e)) = e.lam k := by
    rw [hq, eigen_form h]
    simp [hy]
  refine ⟨?_, ?_⟩
  · rw [unit_iff, hq, sqNorm_mulVec_orth h.orth, hy1]
  · intro x hx
    rw [hval]
    have hxe : x = e.E.mulVec (e.E.transpose.mulVec x) := by
      rw [Matrix.mulVec_mulVec, orth_comm h.orth, Matrix.one_mulVec]
    set z := e.E.transpose.mulVec x with hz
    have hz1 : sqNorm z = 1 := by
      rw [← sqNorm_mulVec_orth h.orth, ← hxe]
      exact (unit_iff x).1 hx
    rw [hxe, eigen_form h]
    calc ∑ i, e.lam i * (z i * z i) ≤ ∑ i, e.lam k * (z i * z i) := by
          apply Finset.sum_le_sum
          intro i _
          exact mul_le_mul_of_nonneg_right (maxq_max e.lam i) (mul_self_nonneg _)
      _ = e.lam k * sqNorm z := by rw [← Finset.mul_sum]; rfl
      _ = e.lam k := by rw [hz1, mul_one]

/-- **C73** `qMethod(p0, p1, w)` is a rotation matrix, and no rotation fits the directions better in the
weighted least squares sense: for any number of directions, in any position, and any weights that are not
negative. -/
theorem C73_optimal (eig : M4 → Eig) {n : Nat} (p0 p1 : Fin n → V3) (w : Fin n → ℝ) (hw : ∀ i, 0 ≤ w i)
    (h : IsEigen (davenport (qMethodB p0 p1 w)) (eig (davenport (qMethodB p0 p1 w)))) :
    IsRotation (qMethod eig p0 p1 w) ∧
      ∀ C, IsRotation C → fitError w p0 p1 (qMethod eig p0 p1 w).mulVec ≤ fitError w p0 p1 C.mulVec := by
  obtain ⟨hu, hopt⟩ := qMethodQuat_spec h
  have hrot : IsRotation (qMethod eig p0 p1 w) := by
    unfold qMethod
    rw [qMethodRot_eq]
    exact C52_rotation _ hu
  refine ⟨hrot, ?_⟩
  intro C hC
  have hB : qMethodB p0 p1 w = wcov w p0 p1 := by
    ext j k
    unfold qMethodB wcov
    rw [Matrix.of_apply]
    apply Finset.sum_congr rfl
    intro i _
    calc (√(w i) * p0 i j) * (√(w i) * p1 i k) = (√(w i) * √(w i)) * (p0 i j * p1 i k) := by ring
      _ = _ := by rw [Real.mul_self_sqrt (hw i)]
  unfold fitError
  rw [error_gain _ _ _ hrot.2.1, error_gain _ _ _ hC.2.1, ← hB]
  obtain ⟨hc, hcu, -⟩ := C53_right_inverse C hC
  have := hopt _ hcu
  rw [davenport_form, davenport_form, hc] at this
  unfold qMethod
  rw [qMethodRot_eq]
  linarith

/-- **C73** without weights all pairs count the same; and if some rotation relates the directions exactly, the
returned rotation maps each direction to its partner. -/
theorem C73_exact (eig : M4 → Eig) {n : Nat} (p0 p1 : Fin n → V3)
    (h : IsEigen (davenport (qMethodB p0 p1 fun _ => 1)) (eig (davenport (qMethodB p0 p1 fun _ => 1))))
    (C : M3) (hC : IsRotation C) (hp : ∀ i, p0 i = C.mulVec (p1 i)) (i : Fin n) :
    (qMethod1 eig p0 p1).mulVec (p1 i) = p0 i := by
  have hle := (C73_optimal eig p0 p1 (fun _ => 1) (fun _ => zero_le_one) h).2 C hC
  have hz : fitError (fun _ => 1) p0 p1 C.mulVec = 0 := by
    unfold fitError
    apply Finset.sum_eq_zero
    intro i _
    rw [hp i, sub_self]; simp [sqNorm]
  rw [hz] at hle
  have hnn : ∀ i ∈ Finset.univ, 0 ≤ (fun _ => (1 : ℝ)) i * sqNorm (p0 i - (qMethod eig p0 p1 (fun _ => 1)).mulVec (p1 i)) := by
    intro i _
    simp only [one_mul, sqNorm]
    exact Finset.sum_nonneg (fun i _ => mul_self_nonneg _)
  have h0 := (Finset.sum_eq_zero_iff_of_nonneg hnn).1 (le_antisymm hle (Finset.sum_nonneg hnn)) i (Finset.mem_univ _)
  rw [one_mul] at h0
  exact (sub_eq_zero.1 (sqNorm_eq_zero h0)).symm

/-! ## Uniqueness -/

theorem rot_cross {C : M3} (h : IsRotation C) (u v : V3) : cross (C.mulVec u) (C.mulVec v) = C.mulVec (cross u v) := by
  obtain ⟨-, -, ⟨a0, a1, a2⟩, ⟨b0, b1, b2⟩, c0, c1, c2⟩ := rotation_entries h
  clear h
  apply ext3 <;> simp [cross, mv3]
  · rw [← a0, ← a1, ← a2]; ring
  · rw [← b0, ← b1, ← b2]; ring
  · rw [← c0, ← c1, ← c2]; ring

/-- two rotations that agree on two vectors which are not parallel are equal -/
theorem rotation_unique {C D : M3} (hC : IsRotation C) (hD : IsRotation D) {u v : V3} (hu : C.mulVec u = D.mulVec u)
    (hv : C.mulVec v = D.mulVec v) (hn : cross u v ≠ 0) : C = D := by
  set W : M3 := Matrix.of fun i j => (![u, v, cross u v] : Fin 3 → V3) j i with hW
  have hcol : ∀ (M : M3) (i j : Fin 3), (M * W) i j = M.mulVec ((![u, v, cross u v] : Fin 3 → V3) j) i := by
    intro M i j
    rw [mm3, mv3]; rfl
  have hw : cross u v 0 ^ 2 + cross u v 1 ^ 2 + cross u v 2 ^ 2 ≠ 0 := by
    intro h0
    apply hn
    apply ext3 <;> simp only [Pi.zero_apply] <;>
      nlinarith [sq_nonneg (cross u v 0), sq_nonneg (cross u v 1), sq_nonneg (cross u v 2)]
  have hdet : W.det = cross u v 0 ^ 2 + cross u v 1 ^ 2 + cross u v 2 ^ 2 := by
    rw [Matrix.det_fin_three]
    simp [hW, cross]
    ring
  have hCD : C * W = D * W := by
    ext i j
    rw [hcol, hcol]
    obtain rfl | rfl | rfl : j = 0 ∨ j = 1 ∨ j = 2 := by fin_cases j <;> simp
    · exact congrFun hu i
    · exact congrFun hv i
    · have : C.mulVec (cross u v) = D.mulVec (cross u v) := by rw [← rot_cross hC, ← rot_cross hD, hu, hv]
      exact congrFun this i
  have hunit : IsUnit W.det := by rw [hdet]; exact isUnit_iff_ne_zero.2 hw
  have h1 : W * W⁻¹ = 1 := Matrix.mul_nonsing_inv W hunit
  calc C = C * (W * W⁻¹) := by rw [h1, Matrix.mul_one]
    _ = D * (W * W⁻¹) := by rw [← Matrix.mul_assoc, hCD, Matrix.mul_assoc]
    _ = D := by rw [h1, Matrix.mul_one]

/-- **C72** and if the points of the second set are not all on one line, the returned matrix *is* that rigid
motion: rotation and translation are recovered exactly. -/
theorem C72_recovers (svd : M3 → Svd) {n : Nat} (p0 p1 : Fin n → V3)
    (h : IsSvd (crossCov p0 p1) (svd (crossCov p0 p1))) (C : M3) (t : V3) (hC : IsRotation C)
    (hp : ∀ i, p0 i = C.mulVec (p1 i) + t) (i j k : Fin n) (hl : cross (p1 j - p1 i) (p1 k - p1 i) ≠ 0) :
    threePointSvd svd p0 p1 = !![C 0 0, C 0 1, C 0 2, t 0; C 1 0, C 1 1, C 1 2, t 1; C 2 0, C 2 1, C 2 2, t 2; 0, 0, 0, 1] := by
  have hn : 0 < n := i.pos
  have hex := C72_exact svd hn p0 p1 h C t hC hp
  have hr := threePoint_rigid svd p0 p1 h
  obtain ⟨D, s, hDs, hr⟩ : ∃ D s, threePointSvd svd p0 p1 =
      !![D 0 0, D 0 1, D 0 2, s 0; D 1 0, D 1 1, D 1 2, s 1; D 2 0, D 2 1, D 2 2, s 2; 0, 0, 0, 1] ∧
      IsRigidOf (threePointSvd svd p0 p1) D s := ⟨_, _, rfl, hr⟩
  have hpt : ∀ l, D.mulVec (p1 l) + s = C.mulVec (p1 l) + t := by
    intro l
    have h1 := hex l
    rw [hr.2, hp l] at h1
    apply ext3
    · exact congrFun h1 0
    · exact congrFun h1 1
    · exact congrFun h1 2
  have hdiff : ∀ a b, D.mulVec (p1 a - p1 b) = C.mulVec (p1 a - p1 b) := by
    intro a b
    rw [Matrix.mulVec_sub, Matrix.mulVec_sub]
    have := hpt a
    have h2 := hpt b
    calc D.mulVec (p1 a) - D.mulVec (p1 b) = (D.mulVec (p1 a) + s) - (D.mulVec (p1 b) + s) := by abel
      _ = _ := by rw [this, h2]; abel
  have hDC : D = C := rotation_unique hr.1 hC (hdiff j i) (hdiff k i) hl
  have hst : s = t := by
    have := hpt i
    rw [hDC] at this
    exact add_left_cancel this
  rw [hDs, hDC, hst]

/-- **C73** likewise for directions: two of them that are not parallel determine the rotation. -/
theorem C73_recovers (eig : M4 → Eig) {n : Nat} (p0 p1 : Fin n → V3)
    (h : IsEigen (davenport (qMethodB p0 p1 fun _ => 1)) (eig (davenport (qMethodB p0 p1 fun _ => 1))))
    (C : M3) (hC : IsRotation C) (hp : ∀ i, p0 i = C.mulVec (p1 i)) (i j : Fin n) (hl : cross (p1 i) (p1 j) ≠ 0) :
    qMethod1 eig p0 p1 = C := by
  have hex := C73_exact eig p0 p1 h C hC hp
  have hr := (C73_optimal eig p0 p1 (fun _ => 1) (fun _ => zero_le_one) h).1
  exact rotation_unique hr hC ((hex i).trans (hp i)) ((hex j).trans (hp j)) hl

/-- the contract of the eigenvalue solver can be met for every symmetric matrix -/
theorem eigen_exists (K : M4) (h : K.transpose = K) : ∃ e, IsEigen K e := by
  have hA : K.IsHermitian := by
    rw [Matrix.IsHermitian, Matrix.conjTranspose_eq_transpose_of_trivial, h]
  refine ⟨⟨hA.eigenvalues, (hA.eigenvectorUnitary : M4)⟩, ?_, ?_⟩
  · have := Matrix.mem_unitaryGroup_iff'.1 hA.eigenvectorUnitary.2
    rwa [Matrix.star_eq_conjTranspose, Matrix.conjTranspose_eq_transpose_of_trivial] at this
  · ext i j
    have := congrFun (hA.mulVec_eigenvectorBasis j) i
    rw [Matrix.mul_diagonal, Matrix.mul_apply]
    simp only [Matrix.IsHermitian.eigenvectorUnitary_apply]
    simpa [Matrix.mulVec, dotProduct, mul_comm] using this

theorem davenport_symm (B : M3) : (davenport B).transpose = davenport B := by
  ext i j
  fin_cases i <;> fin_cases j <;> simp [davenport] <;> ring

/-- **C73** the assumption about Eigen's solver is one that some solver meets on all inputs at once. -/
theorem C73_contract : ∃ eig : M4 → Eig, ∀ {n : Nat} (p0 p1 : Fin n → V3) (w : Fin n → ℝ),
    IsEigen (davenport (qMethodB p0 p1 w)) (eig (davenport (qMethodB p0 p1 w))) := by
  classical
  refine ⟨fun K => if h : K.transpose = K then Classical.choose (eigen_exists K h) else ⟨0, 0⟩, ?_⟩
  intro n p0 p1 w
  beta_reduce
  rw [dif_pos (davenport_symm _)]
  exact Classical.choose_spec (eigen_exists _ (davenport_symm _))

/-! ## Concrete cases -/

/-- six points on the axes and their mirror images: the determinant test of `threePointSvd` takes effect -/
def exP : Fin 6 → V3 := ![![3, 0, 0], ![-3, 0, 0], ![0, 2, 0], ![0, -2, 0], ![0, 0, 1], ![0, 0, -1]]

def exM : Fin 6 → V3 := ![![3, 0, 0], ![-3, 0, 0], ![0, 2, 0], ![0, -2, 0], ![0, 0, -1], ![0, 0, 1]]

def exSvd : Svd := ⟨1, ![18, 8, 2], Matrix.diagonal ![1, 1, -1]⟩

theorem ex_mean : meanCol exP = 0 ∧ meanCol exM = 0 := by
  constructor <;> apply ext3 <;> simp [meanCol, exP, exM, Fin.sum_univ_six]

theorem ex_cov : crossCov exP exM = Matrix.diagonal ![18, 8, -2] := by
  ext j k
  unfold crossCov
  rw [ex_mean.1, ex_mean.2]
  fin_cases j <;> fin_cases k <;> simp [exP, exM, Fin.sum_univ_six, Matrix.diagonal] <;> norm_num

/-- The hypothesis of C72 in a case where the fit is not exact and the last column of `V` is turned round. -/
example : IsSvd (crossCov exP exM) ((fun _ => exSvd) (crossCov exP exM)) ∧ (exSvd.V * exSvd.U.transpose).det < 0 := by
  constructor
  · refine ⟨by simp [exSvd], ?_, by simp [exSvd]; norm_num, ?_⟩
    · simp only [exSvd, Matrix.diagonal_transpose, Matrix.diagonal_mul_diagonal]
      ext i j
      fin_cases i <;> fin_cases j <;> simp [Matrix.diagonal]
    · rw [ex_cov]
      simp only [exSvd, Matrix.diagonal_transpose, Matrix.one_mul, Matrix.diagonal_mul_diagonal]
      ext i j
      fin_cases i <;> fin_cases j <;> simp [Matrix.diagonal]
  · simp [exSvd, Matrix.det_diagonal, Fin.prod_univ_three]

/-- The hypotheses of `C72_exact` and `C72_recovers`: the same points shifted. -/
example : ∃ svd : M3 → Svd, IsSvd (crossCov (fun i => exP i + ![1, 2, 3]) exP) (svd (crossCov (fun i => exP i + ![1, 2, 3]) exP)) ∧
    (∀ i, exP i + ![1, 2, 3] = (1 : M3).mulVec (exP i) + ![1, 2, 3]) ∧ cross (exP 2 - exP 0) (exP 4 - exP 0) ≠ 0 := by
  have hm : meanCol (fun i => exP i + ![1, 2, 3]) = ![1, 2, 3] := by
    apply ext3 <;> simp [meanCol, exP, Fin.sum_univ_six] <;> norm_num
  have hc : crossCov (fun i => exP i + ![1, 2, 3]) exP = Matrix.diagonal ![18, 8, 2] := by
    ext j k
    unfold crossCov
    rw [ex_mean.1, hm]
    fin_cases j <;> fin_cases k <;> simp [exP, Fin.sum_univ_six, Matrix.diagonal] <;> norm_num
  refine ⟨fun _ => ⟨1, ![18, 8, 2], 1⟩, ?_, fun i => by rw [Matrix.one_mulVec], ?_⟩
  · rw [hc]
    exact ⟨by simp, by simp, by simp; norm_num, by simp⟩
  · intro h
    have := congrFun h 0
    simp [cross, exP] at this

/-- The hypotheses of C73: two perpendicular directions, seen in the same frame. -/
example : ∃ eig : M4 → Eig, IsEigen (davenport (qMethodB ![![1, 0, 0], ![0, 1, 0]] ![![1, 0, 0], ![0, 1, 0]] fun _ => 1))
    (eig (davenport (qMethodB ![![1, 0, 0], ![0, 1, 0]] ![![1, 0, 0], ![0, 1, 0]] fun _ => 1))) ∧
    cross (![![1, 0, 0], ![0, 1, 0]] 0) (![![1, 0, 0], ![0, 1, 0]] 1) ≠ 0 := by
  refine ⟨fun _ => ⟨![0, 0, -2, 2], 1⟩, ⟨by simp, ?_⟩, ?_⟩
  · rw [Matrix.mul_one, Matrix.one_mul]
    have hB : qMethodB ![![1, 0, 0], ![0, 1, 0]] ![![1, 0, 0], ![0, 1, 0]] (fun _ => 1) = Matrix.diagonal ![1, 1, 0] := by
      ext j k
      fin_cases j <;> fin_cases k <;> simp [qMethodB, Fin.sum_univ_two, Matrix.diagonal]
    rw [hB]
    ext i j
    fin_cases i <;> fin_cases j <;> simp [davenport, Matrix.diagonal] <;> norm_num
  · intro h
    have := congrFun h 2
    simp [cross] at this

end Verif.Kinematics
