import Verif.Kinematics.Spec
import Mathlib.LinearAlgebra.Matrix.Adjugate
import Mathlib.Tactic.Ring
import Mathlib.Tactic.LinearCombination
import Mathlib.Tactic.FieldSimp
import Mathlib.Tactic.FinCases
import Mathlib.Tactic.NormNum
import Mathlib.Tactic.Linarith

/-!
# Quaternion algebra: C51, C52, C53
-/

namespace Verif.Kinematics

open Matrix

/-- unfold entries of products of explicit matrices and vectors -/
macro "entries" : tactic =>
  `(tactic| simp [Matrix.mul_apply, Matrix.mulVec, dotProduct, Fin.sum_univ_succ, Matrix.vecHead, Matrix.vecTail])

theorem sq4 (q : V4) : sqNorm q = q 0 * q 0 + q 1 * q 1 + q 2 * q 2 + q 3 * q 3 := by
  simp [sqNorm, Fin.sum_univ_succ]; ring

theorem sq3 (q : V3) : sqNorm q = q 0 * q 0 + q 1 * q 1 + q 2 * q 2 := by
  simp [sqNorm, Fin.sum_univ_succ]; ring

theorem unit_iff (q : V4) : IsUnit4 q ↔ sqNorm q = 1 := by rw [sq4]; rfl

theorem ext4 {q p : V4} (h0 : q 0 = p 0) (h1 : q 1 = p 1) (h2 : q 2 = p 2) (h3 : q 3 = p 3) : q = p := by
  funext i; fin_cases i <;> assumption

theorem ext3 {q p : V3} (h0 : q 0 = p 0) (h1 : q 1 = p 1) (h2 : q 2 = p 2) : q = p := by
  funext i; fin_cases i <;> assumption

theorem mv3 {m : Nat} (M : Matrix (Fin m) (Fin 3) ℝ) (v : V3) (i : Fin m) :
    M.mulVec v i = M i 0 * v 0 + M i 1 * v 1 + M i 2 * v 2 := by
  simp only [Matrix.mulVec, dotProduct, Fin.sum_univ_succ, Fin.sum_univ_zero]; ring_nf; rfl

theorem mv4 {m : Nat} (M : Matrix (Fin m) (Fin 4) ℝ) (v : V4) (i : Fin m) :
    M.mulVec v i = M i 0 * v 0 + M i 1 * v 1 + M i 2 * v 2 + M i 3 * v 3 := by
  simp only [Matrix.mulVec, dotProduct, Fin.sum_univ_succ, Fin.sum_univ_zero]; ring_nf; rfl

theorem mm3 {m n : Nat} (M : Matrix (Fin m) (Fin 3) ℝ) (N : Matrix (Fin 3) (Fin n) ℝ) (i : Fin m) (j : Fin n) :
    (M * N) i j = M i 0 * N 0 j + M i 1 * N 1 j + M i 2 * N 2 j := by
  simp only [Matrix.mul_apply, Fin.sum_univ_succ, Fin.sum_univ_zero]; ring_nf; rfl

theorem mm4 {m n : Nat} (M : Matrix (Fin m) (Fin 4) ℝ) (N : Matrix (Fin 4) (Fin n) ℝ) (i : Fin m) (j : Fin n) :
    (M * N) i j = M i 0 * N 0 j + M i 1 * N 1 j + M i 2 * N 2 j + M i 3 * N 3 j := by
  simp only [Matrix.mul_apply, Fin.sum_univ_succ, Fin.sum_univ_zero]; ring_nf; rfl

/-! ## C51 -/

/-- **C51** The product is associative; the two functions are the two orders of it; it is bilinear. -/
theorem C51_product (a b c : V4) (s : ℝ) :
    qplus (qplus a b) c = qplus a (qplus b c) ∧ qoplus a b = qplus b a ∧
    qplus (a + b) c = qplus a c + qplus b c ∧ qplus a (b + c) = qplus a b + qplus a c ∧
    qplus (s • a) b = s • qplus a b ∧ qplus a (s • b) = s • qplus a b := by
  refine ⟨?_, ?_, ?_, ?_, ?_, ?_⟩ <;> apply ext4 <;> simp [qplus, qoplus] <;> ring

/-- **C51** It has the identity `quatIdentity`, and `quatInv` gives the inverse of a unit quaternion; in
general `q · quatInv q = |q|²` and `quatInv` reverses products. -/
theorem C51_inverse (q p : V4) :
    qplus q quatIdentity = q ∧ qplus quatIdentity q = q ∧
    qplus q (quatInv q) = sqNorm q • quatIdentity ∧ qplus (quatInv q) q = sqNorm q • quatIdentity ∧
    (IsUnit4 q → qplus q (quatInv q) = quatIdentity ∧ qplus (quatInv q) q = quatIdentity ∧ IsUnit4 (quatInv q)) ∧
    quatInv (qplus q p) = qplus (quatInv p) (quatInv q) ∧ quatInv (quatInv q) = q := by
  have h1 : qplus q (quatInv q) = sqNorm q • quatIdentity := by
    rw [sq4]; apply ext4 <;> simp [qplus, quatInv, quatIdentity] <;> ring
  have h2 : qplus (quatInv q) q = sqNorm q • quatIdentity := by
    rw [sq4]; apply ext4 <;> simp [qplus, quatInv, quatIdentity] <;> ring
  refine ⟨?_, ?_, h1, h2, ?_, ?_, ?_⟩
  · apply ext4 <;> simp [qplus, quatIdentity]
  · apply ext4 <;> simp [qplus, quatIdentity]
  · intro h
    rw [unit_iff] at h
    rw [h1, h2, h]
    refine ⟨one_smul _ _, one_smul _ _, ?_⟩
    rw [unit_iff, ← h, sq4, sq4]; simp [quatInv]
  · apply ext4 <;> simp [qplus, quatInv] <;> ring
  · apply ext4 <;> simp [quatInv]

/-- **C51** The norm is multiplicative, so products of unit quaternions are unit quaternions. -/
theorem C51_norm (q p : V4) :
    sqNorm (qplus q p) = sqNorm q * sqNorm p ∧ norm (qplus q p) = norm q * norm p ∧
    (IsUnit4 q → IsUnit4 p → IsUnit4 (qplus q p)) := by
  have h : sqNorm (qplus q p) = sqNorm q * sqNorm p := by
    simp only [sq4]; simp [qplus]; ring
  refine ⟨h, ?_, ?_⟩
  · unfold norm
    rw [h, Real.sqrt_mul]
    rw [sq4]; nlinarith [mul_self_nonneg (q 0), mul_self_nonneg (q 1), mul_self_nonneg (q 2), mul_self_nonneg (q 3)]
  · intro hq hp
    rw [unit_iff] at *
    rw [h, hq, hp, one_mul]

/-- **C51** The matrix forms: multiplication from the left and from the right. -/
theorem C51_matrices (q p : V4) :
    (quatPlus q).mulVec p = qplus q p ∧ (quatOPlus q).mulVec p = qplus p q ∧
    quatPlus q * quatPlus p = quatPlus (qplus q p) ∧ quatOPlus q * quatOPlus p = quatOPlus (qplus p q) ∧
    quatPlus q * quatOPlus p = quatOPlus p * quatPlus q := by
  refine ⟨?_, ?_, ?_, ?_, ?_⟩
  · apply ext4 <;> rw [mv4] <;> simp [quatPlus, qplus] <;> ring
  · apply ext4 <;> rw [mv4] <;> simp [quatOPlus, qplus] <;> ring
  all_goals
    ext i j
    fin_cases i <;> fin_cases j <;> simp [quatPlus, quatOPlus, qplus, Matrix.mul_apply, Fin.sum_univ_succ] <;> ring

/-- Concrete: the unit quaternion (3/5, 0, 0, 4/5) and the product of two basis quaternions. -/
example : IsUnit4 ![3/5, 0, 0, 4/5] ∧ qplus ![1, 0, 0, 0] ![0, 1, 0, 0] = ![0, 0, -1, 0] := by
  constructor
  · simp [IsUnit4]; norm_num
  · apply ext4 <;> simp [qplus]

/-! ## C52 -/

theorem quat2r_mul (q p : V4) : quat2r q * quat2r p = quat2r (qplus q p) := by
  ext i j
  fin_cases i <;> fin_cases j <;> simp [quat2r, qplus, Matrix.mul_apply, Fin.sum_univ_succ] <;> ring

theorem quat2r_inv (q : V4) : quat2r (quatInv q) = (quat2r q).transpose := by
  ext i j
  fin_cases i <;> fin_cases j <;> simp [quat2r, quatInv, Matrix.transpose_apply] <;> ring

theorem quat2r_scale (s : ℝ) : quat2r (s • quatIdentity) = (s * s) • (1 : M3) := by
  ext i j
  fin_cases i <;> fin_cases j <;> simp [quat2r, quatIdentity]

theorem quat2r_det (q : V4) : (quat2r q).det = sqNorm q ^ 3 := by
  rw [Matrix.det_fin_three, sq4]; simp [quat2r]; ring

/-- **C52** For a unit quaternion `quat2r` is a rotation matrix. -/
theorem C52_rotation (q : V4) (h : IsUnit4 q) : IsRotation (quat2r q) := by
  obtain ⟨_, _, h1, h2, _⟩ := C51_inverse q q
  rw [unit_iff] at h
  refine ⟨?_, ?_, ?_⟩
  · rw [← quat2r_inv, quat2r_mul, h1, quat2r_scale, h]; simp
  · rw [← quat2r_inv, quat2r_mul, h2, quat2r_scale, h]; simp
  · rw [quat2r_det, h]; norm_num

/-- **C52** `quat2r` is a homomorphism, the same for `q` and `-q`, and the inverse quaternion gives the
transpose. -/
theorem C52_homomorphism (q p : V4) :
    quat2r (qplus q p) = quat2r q * quat2r p ∧ quat2r quatIdentity = 1 ∧ quat2r (-q) = quat2r q ∧
    quat2r (quatInv q) = (quat2r q).transpose := by
  refine ⟨(quat2r_mul q p).symm, ?_, ?_, quat2r_inv q⟩
  · have := quat2r_scale 1
    simpa using this
  · ext i j
    fin_cases i <;> fin_cases j <;> simp [quat2r]

/-- unit quaternions with the same rotation matrix differ at most in sign -/
theorem quat2r_injective {q p : V4} (hq : IsUnit4 q) (hp : IsUnit4 p) (h : quat2r q = quat2r p) : q = p ∨ q = -p := by
  -- r = q p⁻¹ has quat2r r = 1
  have h1 : quat2r (qplus q (quatInv p)) = 1 := by
    rw [← quat2r_mul, h, quat2r_inv]; exact (C52_rotation p hp).1
  have hu : IsUnit4 (qplus q (quatInv p)) := (C51_norm _ _).2.2 hq ((C51_inverse p p).2.2.2.2.1 hp).2.2
  have hback : qplus (qplus q (quatInv p)) p = q := by
    rw [(C51_product q (quatInv p) p 1).1, ((C51_inverse p p).2.2.2.2.1 hp).2.1]; exact (C51_inverse q q).1
  generalize qplus q (quatInv p) = r at *
  unfold IsUnit4 at hu
  have e00 := congrFun (congrFun h1 0) 0
  have e11 := congrFun (congrFun h1 1) 1
  have e22 := congrFun (congrFun h1 2) 2
  simp [quat2r] at e00 e11 e22
  have h0 : r 0 * r 0 = 0 := by nlinarith
  have h1' : r 1 * r 1 = 0 := by nlinarith
  have h2 : r 2 * r 2 = 0 := by nlinarith
  have h3 : r 3 * r 3 = 1 := by nlinarith
  have z0 : r 0 = 0 := mul_self_eq_zero.1 h0
  have z1 : r 1 = 0 := mul_self_eq_zero.1 h1'
  have z2 : r 2 = 0 := mul_self_eq_zero.1 h2
  rcases mul_self_eq_one_iff.1 h3 with z3 | z3
  · left; rw [← hback]; apply ext4 <;> simp [qplus, z0, z1, z2, z3]
  · right; rw [← hback]; apply ext4 <;> simp [qplus, z0, z1, z2, z3]

/-- **C52** Two unit quaternions give the same rotation exactly if they are equal or opposite. -/
theorem C52_double_cover (q p : V4) (hq : IsUnit4 q) (hp : IsUnit4 p) : quat2r q = quat2r p ↔ q = p ∨ q = -p := by
  constructor
  · exact quat2r_injective hq hp
  · rintro (rfl | rfl)
    · rfl
    · exact (C52_homomorphism p p).2.2.1

/-- **C52** `quatRotate` multiplies by the matrix, so it preserves inner products and lengths. -/
theorem C52_rotate (q : V4) (h : IsUnit4 q) (v w : V3) :
    quatRotate q v = (quat2r q).mulVec v ∧ inner (quatRotate q v) (quatRotate q w) = inner v w ∧
    norm (quatRotate q v) = norm v := by
  have h1 : ∀ v, quatRotate q v = (quat2r q).mulVec v := by
    intro v
    unfold IsUnit4 at h
    have e0 : q 3 * q 3 = 1 - q 0 * q 0 - q 1 * q 1 - q 2 * q 2 := by linarith
    apply ext3 <;> rw [mv3] <;> simp [quatRotate, quat2r, cross, qeps]
    · linear_combination (-(v 0)) * h
    · linear_combination (-(v 1)) * h
    · linear_combination (-(v 2)) * h
  have h2 : ∀ v w, inner (quatRotate q v) (quatRotate q w) = inner v w := by
    intro v w
    rw [h1, h1]
    have hr := (C52_rotation q h).2.1
    change (quat2r q).mulVec v ⬝ᵥ (quat2r q).mulVec w = v ⬝ᵥ w
    rw [Matrix.dotProduct_mulVec, Matrix.vecMul_mulVec, hr]
    simp
  refine ⟨h1 v, h2 v w, ?_⟩
  unfold norm
  congr 1
  exact h2 v v

/-- Concrete: a quarter turn about the z axis (in the passive convention). -/
example : quat2r ![0, 0, √2/2, √2/2] = !![0, 1, 0; -1, 0, 0; 0, 0, 1] ∧ IsUnit4 ![0, 0, √2/2, √2/2] := by
  have h : √2 * √2 = 2 := Real.mul_self_sqrt (by norm_num)
  constructor
  · ext i j
    fin_cases i <;> fin_cases j <;> simp [quat2r] <;> linarith
  · simp [IsUnit4]; linarith

/-! ## C53 -/

theorem maxq_max (dc : V4) : ∀ i, dc i ≤ dc (maxq dc) := by
  have h1 : ∀ m : Fin 4 × ℝ, m.2 = dc m.1 → ∀ i, (maxStep dc m i).2 = dc (maxStep dc m i).1 ∧
      dc m.1 ≤ dc (maxStep dc m i).1 ∧ dc i ≤ dc (maxStep dc m i).1 := by
    intro m hm i
    unfold maxStep
    split
    · rename_i h; rw [hm] at h; exact ⟨rfl, le_of_lt h, le_refl _⟩
    · rename_i h; rw [hm] at h; exact ⟨hm, le_refl _, not_lt.1 h⟩
  obtain ⟨a1, a2, a3⟩ := h1 (0, dc 0) rfl 1
  obtain ⟨b1, b2, b3⟩ := h1 _ a1 2
  obtain ⟨c1, c2, c3⟩ := h1 _ b1 3
  intro i
  unfold maxq
  fin_cases i
  · exact a2.trans (b2.trans c2)
  · exact a3.trans (b2.trans c2)
  · exact b3.trans c2
  · exact c3

theorem dc_quat2r (q : V4) (h : IsUnit4 q) (i : Fin 4) : r2quatDc (quat2r q) i = 4 * (q i * q i) := by
  unfold IsUnit4 at h
  have : ∀ x y : ℝ, x = 4 * (y * y) → |x| = 4 * (y * y) := by
    intro x y e; rw [e]; exact abs_of_nonneg (by nlinarith [mul_self_nonneg y])
  fin_cases i <;> simp [r2quatDc, quat2r] <;> apply this <;> linarith

theorem branch_quat2r (q : V4) (h : IsUnit4 q) (k : Fin 4) (hk : q k ≠ 0) :
    r2quatBranch (quat2r q) k = (|q k| / q k) • q := by
  have hdc := dc_quat2r q h
  have hs : ∀ i, (1 / 2 : ℝ) * √(r2quatDc (quat2r q) i) = |q i| := by
    intro i
    rw [hdc i, show 4 * (q i * q i) = (2 * q i) * (2 * q i) by ring, Real.sqrt_mul_self_eq_abs, abs_mul]
    norm_num
    ring
  have ha : |q k| ≠ 0 := abs_ne_zero.2 hk
  have haa : |q k| * |q k| = q k * q k := abs_mul_abs_self _
  have key : ∀ y : ℝ, (1 / 4 : ℝ) / |q k| * (4 * (q k * y)) = |q k| / q k * y := by
    intro y; field_simp; rw [show |q k| ^ 2 = |q k| * |q k| by ring, haa]; ring
  have self : |q k| = |q k| / q k * q k := by field_simp
  obtain rfl | rfl | rfl | rfl : k = 0 ∨ k = 1 ∨ k = 2 ∨ k = 3 := by fin_cases k <;> simp
  all_goals simp only [r2quatBranch, hs]
  all_goals apply ext4 <;> simp [quat2r] <;>
    first
    | (simpa using self)
    | (refine Eq.trans ?_ (key _); norm_num; left; ring)

/-- **C53** `r2quat(quat2r(q))` is `q` or `-q`: the one whose last component is not negative; whichever of the
four branches is taken. -/
theorem C53_left_inverse (q : V4) (h : IsUnit4 q) :
    (r2quat (quat2r q) = q ∨ r2quat (quat2r q) = -q) ∧ 0 ≤ r2quat (quat2r q) 3 := by
  have hdc := dc_quat2r q h
  set k := maxq (r2quatDc (quat2r q)) with hkdef
  have hmax := maxq_max (r2quatDc (quat2r q))
  have hk : q k ≠ 0 := by
    intro hz
    have hall : ∀ i, q i * q i ≤ 0 := by
      intro i
      have := hmax i
      rw [hdc i, hdc (maxq (r2quatDc (quat2r q))), ← hkdef, hz] at this
      linarith
    unfold IsUnit4 at h
    linarith [hall 0, hall 1, hall 2, hall 3]
  have hb := branch_quat2r q h k hk
  have hsgn : |q k| / q k = 1 ∨ |q k| / q k = -1 := by
    rcases lt_or_gt_of_ne hk with hn | hp
    · right; rw [abs_of_neg hn]; field_simp
    · left; rw [abs_of_pos hp]; field_simp
  have hq : r2quat (quat2r q) = if r2quatBranch (quat2r q) k 3 < 0 then -r2quatBranch (quat2r q) k
      else r2quatBranch (quat2r q) k := rfl
  rw [hq]
  constructor
  · rcases hsgn with e | e <;> rw [hb, e] <;> split <;> simp
  · split
    · rename_i hn; simp only [Pi.neg_apply]; linarith
    · rename_i hn; exact not_lt.1 hn

/-- the outer product `4 q qᵀ`, computed from the rotation matrix -/
def outer (C : M3) : M4 :=
  !![1 + C 0 0 - C 1 1 - C 2 2, C 0 1 + C 1 0, C 0 2 + C 2 0, C 1 2 - C 2 1;
     C 0 1 + C 1 0, 1 - C 0 0 + C 1 1 - C 2 2, C 2 1 + C 1 2, C 2 0 - C 0 2;
     C 0 2 + C 2 0, C 2 1 + C 1 2, 1 - C 0 0 - C 1 1 + C 2 2, C 0 1 - C 1 0;
     C 1 2 - C 2 1, C 2 0 - C 0 2, C 0 1 - C 1 0, 1 + C 0 0 + C 1 1 + C 2 2]

theorem adjugate_rotation {C : M3} (h : IsRotation C) : C.adjugate = C.transpose := by
  obtain ⟨h1, h2, h3⟩ := h
  calc C.adjugate = C.adjugate * (C * C.transpose) := by rw [h1, mul_one]
    _ = (C.adjugate * C) * C.transpose := by rw [Matrix.mul_assoc]
    _ = C.transpose := by rw [Matrix.adjugate_mul, h3, one_smul, one_mul]

theorem outer_rank_one {C : M3} (h : IsRotation C) (k i j : Fin 4) :
    outer C k i * outer C k j = outer C k k * outer C i j := by
  have ha := adjugate_rotation h
  obtain ⟨h1, h2, h3⟩ := h
  rw [Matrix.adjugate_fin_three] at ha
  have A := fun i j => congrFun (congrFun ha i) j
  have R := fun i j => congrFun (congrFun h1 i) j
  have S := fun i j => congrFun (congrFun h2 i) j
  have A00 := A 0 0
  have A01 := A 0 1
  have A02 := A 0 2
  have A10 := A 1 0
  have A11 := A 1 1
  have A12 := A 1 2
  have A20 := A 2 0
  have A21 := A 2 1
  have A22 := A 2 2
  have R00 := R 0 0
  have R01 := R 0 1
  have R02 := R 0 2
  have R11 := R 1 1
  have R12 := R 1 2
  have R22 := R 2 2
  have S00 := S 0 0
  have S01 := S 0 1
  have S02 := S 0 2
  have S11 := S 1 1
  have S12 := S 1 2
  have S22 := S 2 2
  clear A R S ha h1 h2 h3
  simp only [mm3, Matrix.transpose_apply] at R00 R01 R02 R11 R12 R22 S00 S01 S02 S11 S12 S22
  simp at A00 A01 A02 A10 A11 A12 A20 A21 A22 R00 R01 R02 R11 R12 R22 S00 S01 S02 S11 S12 S22
  fin_cases k <;> fin_cases i <;> fin_cases j <;> simp [outer] <;> grind

theorem outer_sum (C : M3) : outer C 0 0 + outer C 1 1 + outer C 2 2 + outer C 3 3 = 4 := by
  simp [outer]; ring

theorem outer_symm (C : M3) (i j : Fin 4) : outer C i j = outer C j i := by
  fin_cases i <;> fin_cases j <;> simp [outer]

theorem outer_diag_nonneg {C : M3} (h : IsRotation C) (i : Fin 4) : 0 ≤ outer C i i := by
  have hr := fun j => outer_rank_one h i j j
  have hpos : ∀ j, 0 ≤ outer C i i * outer C j j := fun j => by rw [← hr j]; exact mul_self_nonneg _
  have hsum := outer_sum C
  by_contra hneg
  have hneg' : outer C i i < 0 := not_le.1 hneg
  have hall : ∀ j, outer C j j ≤ 0 := by
    intro j
    by_contra hj
    have : outer C i i * outer C j j < 0 := mul_neg_of_neg_of_pos hneg' (not_le.1 hj)
    linarith [hpos j]
  linarith [hall 0, hall 1, hall 2, hall 3]

theorem dc_outer {C : M3} (h : IsRotation C) (i : Fin 4) : r2quatDc C i = outer C i i := by
  have := outer_diag_nonneg h i
  obtain rfl | rfl | rfl | rfl : i = 0 ∨ i = 1 ∨ i = 2 ∨ i = 3 := by fin_cases i <;> simp
  all_goals
    simp only [r2quatDc, outer] at this ⊢
    simp at this ⊢
    linarith

theorem branch_outer {C : M3} (h : IsRotation C) (k i : Fin 4) (hk : 0 < outer C k k) :
    r2quatBranch C k i = outer C k i / (2 * √(outer C k k)) := by
  have hd := dc_outer h k
  have hs : √(outer C k k) ≠ 0 := (Real.sqrt_pos.2 hk).ne'
  have hss : √(outer C k k) * √(outer C k k) = outer C k k := Real.mul_self_sqrt hk.le
  have hdiag : (1 / 2 : ℝ) * √(outer C k k) = outer C k k / (2 * √(outer C k k)) := by
    rw [eq_div_iff (by positivity)]; linear_combination hss
  have hoff : ∀ y : ℝ, (1 / 4 : ℝ) / (1 / 2 * √(outer C k k)) * y = y / (2 * √(outer C k k)) := by
    intro y; field_simp; norm_num
  obtain rfl | rfl | rfl | rfl : k = 0 ∨ k = 1 ∨ k = 2 ∨ k = 3 := by fin_cases k <;> simp
  all_goals simp only [r2quatBranch, hd, hoff]
  all_goals obtain rfl | rfl | rfl | rfl : i = 0 ∨ i = 1 ∨ i = 2 ∨ i = 3 := by fin_cases i <;> simp
  all_goals first
    | (exact hdiag)
    | (simp [outer]; done)
    | (simp [outer]; ring_nf; done)

theorem branch_products {C : M3} (h : IsRotation C) (k i j : Fin 4) (hk : 0 < outer C k k) :
    r2quatBranch C k i * r2quatBranch C k j = outer C i j / 4 := by
  rw [branch_outer h k i hk, branch_outer h k j hk, div_mul_div_comm, outer_rank_one h]
  have hss : √(outer C k k) * √(outer C k k) = outer C k k := Real.mul_self_sqrt hk.le
  rw [show 2 * √(outer C k k) * (2 * √(outer C k k)) = 4 * outer C k k by linear_combination 4 * hss]
  field_simp

theorem quat2r_outer (q : V4) (C : M3) (h : ∀ i j, q i * q j = outer C i j / 4) : quat2r q = C ∧ IsUnit4 q := by
  constructor
  · have e00 := h 0 0
    have e11 := h 1 1
    have e22 := h 2 2
    have e33 := h 3 3
    have e01 := h 0 1
    have e02 := h 0 2
    have e03 := h 0 3
    have e12 := h 1 2
    have e13 := h 1 3
    have e23 := h 2 3
    simp [outer] at e00 e11 e22 e33 e01 e02 e03 e12 e13 e23
    ext i j
    fin_cases i <;> fin_cases j <;> simp [quat2r] <;> linarith
  · unfold IsUnit4
    rw [h, h, h, h]
    linarith [outer_sum C]

/-- **C53** `quat2r(r2quat(C)) = C` for every rotation matrix, with a unit quaternion whose last component is
not negative; whichever of the four branches is taken. -/
theorem C53_right_inverse (C : M3) (h : IsRotation C) :
    quat2r (r2quat C) = C ∧ IsUnit4 (r2quat C) ∧ 0 ≤ r2quat C 3 := by
  set k := maxq (r2quatDc C) with hkdef
  have hmax := maxq_max (r2quatDc C)
  have hk : 0 < outer C k k := by
    by_contra hn
    have hall : ∀ i, outer C i i ≤ 0 := by
      intro i
      have := hmax i
      rw [dc_outer h, dc_outer h, ← hkdef] at this
      linarith
    linarith [hall 0, hall 1, hall 2, hall 3, outer_sum C]
  have hprod := branch_products h k
  have hq : r2quat C = if r2quatBranch C k 3 < 0 then -r2quatBranch C k else r2quatBranch C k := rfl
  have hp2 : ∀ i j, r2quat C i * r2quat C j = outer C i j / 4 := by
    intro i j
    rw [hq]
    split
    · rw [← hprod i j hk]; simp
    · exact hprod i j hk
  refine ⟨(quat2r_outer _ _ hp2).1, (quat2r_outer _ _ hp2).2, ?_⟩
  rw [hq]
  split
  · rename_i hn; simp only [Pi.neg_apply]; linarith
  · rename_i hn; exact not_lt.1 hn

/-- Concrete: a half turn about the x axis (the trace is -1, so the branch of the first component is taken). -/
example : IsRotation !![1, 0, 0; 0, -1, 0; 0, 0, -1] ∧ r2quat !![1, 0, 0; 0, -1, 0; 0, 0, -1] = ![1, 0, 0, 0] := by
  constructor
  · refine ⟨?_, ?_, ?_⟩
    · ext i j; rw [mm3]; fin_cases i <;> fin_cases j <;> simp [Matrix.transpose_apply]
    · ext i j; rw [mm3]; fin_cases i <;> fin_cases j <;> simp [Matrix.transpose_apply]
    · simp [Matrix.det_fin_three]
  · have hd : r2quatDc !![1, 0, 0; 0, -1, 0; 0, 0, -1] = ![4, 0, 0, 0] := by
      apply ext4 <;> simp [r2quatDc] <;> norm_num
    have hm : maxq ![4, 0, 0, 0] = 0 := by
      have : ¬ (4 : ℝ) < 0 := by norm_num
      simp [maxq, maxStep, this]
    have h4 : √(4 : ℝ) = 2 := by rw [show (4 : ℝ) = 2 * 2 by norm_num]; exact Real.sqrt_mul_self (by norm_num)
    unfold r2quat
    simp only [hd, hm]
    have : r2quatBranch !![1, 0, 0; 0, -1, 0; 0, 0, -1] 0 = ![1, 0, 0, 0] := by
      simp only [r2quatBranch, hd]
      apply ext4 <;> simp [h4]
    rw [this]
    simp

end Verif.Kinematics
