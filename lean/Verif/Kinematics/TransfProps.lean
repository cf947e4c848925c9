import Verif.Kinematics.TransfSpec
import Verif.Kinematics.RotProps

/-!
# Rigid transformations: C57
-/

namespace Verif.Kinematics

open Matrix

/-! ## lemmas -/

theorem normalized_unit {q : V4} (h : q ≠ 0) : IsUnit4 (fun i => q i / norm q) := by
  have hs : 0 < sqNorm q := by
    unfold sqNorm
    refine lt_of_le_of_ne (Finset.sum_nonneg fun i _ => mul_self_nonneg _) (fun e => h ?_)
    funext i
    have := (Finset.sum_eq_zero_iff_of_nonneg (fun i _ => mul_self_nonneg (q i))).1 e.symm i (Finset.mem_univ i)
    exact mul_self_eq_zero.1 this
  have hn : norm q * norm q = q 0 * q 0 + q 1 * q 1 + q 2 * q 2 + q 3 * q 3 := by
    rw [← sq4]; exact Real.mul_self_sqrt hs.le
  have hpos : 0 < norm q := Real.sqrt_pos.2 hs
  unfold IsUnit4
  simp only
  field_simp
  linarith

theorem norm_of_unit {q : V4} (h : IsUnit4 q) : norm q = 1 := by
  unfold norm; rw [(unit_iff q).1 h, Real.sqrt_one]

theorem mkQT_unit {q : V4} (h : IsUnit4 q) (t : V3) : Transformation.mkQT q t = ⟨q, t⟩ := by
  unfold Transformation.mkQT
  rw [norm_of_unit h]
  simp

theorem unit_ne_zero {q : V4} (h : IsUnit4 q) : q ≠ 0 := by
  rintro rfl
  simp [IsUnit4] at h

theorem quatInv_unit {q : V4} (h : IsUnit4 q) : IsUnit4 (quatInv q) := ((C51_inverse q q).2.2.2.2.1 h).2.2

theorem qplus_unit {q p : V4} (hq : IsUnit4 q) (hp : IsUnit4 p) : IsUnit4 (qplus q p) := (C51_norm q p).2.2 hq hp

theorem quatRotate_eq {q : V4} (h : IsUnit4 q) (v : V3) : quatRotate q v = (quat2r q).mulVec v := (C52_rotate q h v v).1

theorem qplus_ne_zero {q p : V4} (hq : q ≠ 0) (hp : p ≠ 0) : qplus q p ≠ 0 := by
  intro e
  have h := (C51_norm q p).1
  rw [e] at h
  have hz : sqNorm (0 : V4) = 0 := by simp [sqNorm]
  have key : ∀ r : V4, sqNorm r = 0 → r = 0 := by
    intro r hr
    funext i
    exact mul_self_eq_zero.1 ((Finset.sum_eq_zero_iff_of_nonneg (fun i _ => mul_self_nonneg (r i))).1 hr i (Finset.mem_univ i))
  rw [hz] at h
  rcases mul_eq_zero.1 h.symm with h | h
  · exact hq (key q h)
  · exact hp (key p h)

theorem rt_mul (C D : M3) (t u : V3) :
    rt2Transform C t * rt2Transform D u = rt2Transform (C * D) (C.mulVec u + t) := by
  ext i j
  rw [mm4]
  fin_cases i <;> fin_cases j <;> simp [rt2Transform, mm3, mv3] <;> ring

theorem rt_one : rt2Transform 1 0 = 1 := by
  ext i j
  fin_cases i <;> fin_cases j <;> simp [rt2Transform]

@[simp] theorem transform2C_rt (C : M3) (t : V3) : transform2C (rt2Transform C t) = C := by
  ext i j
  fin_cases i <;> fin_cases j <;> simp [transform2C, rt2Transform]

@[simp] theorem transform2rho_rt (C : M3) (t : V3) : transform2rho (rt2Transform C t) = t := by
  apply ext3 <;> simp [transform2rho, rt2Transform]

theorem rt_of_rigid {T : M4} (h : IsRigid T) : rt2Transform (transform2C T) (transform2rho T) = T := by
  obtain ⟨-, h0, h1, h2, h3⟩ := h
  ext i j
  fin_cases i <;> fin_cases j <;> simp [rt2Transform, transform2C, transform2rho, *]

theorem rigid_rt {C : M3} (h : IsRotation C) (t : V3) : IsRigid (rt2Transform C t) := by
  refine ⟨?_, by simp [rt2Transform], by simp [rt2Transform], by simp [rt2Transform], by simp [rt2Transform]⟩
  have : (fun i j : Fin 3 => rt2Transform C t i.castSucc j.castSucc) = C := transform2C_rt C t
  rw [this]; exact h

theorem rt_mulVec (C : M3) (t : V3) (p : V4) :
    (rt2Transform C t).mulVec p = (let h := C.mulVec (headV p) + p 3 • t; ![h 0, h 1, h 2, p 3]) := by
  apply ext4 <;> rw [mv4] <;> simp [rt2Transform, mv3, headV] <;> ring

theorem slerp_ne_zero {q p : V4} (hq : q ≠ 0) (hp : p ≠ 0) (s : ℝ) : qslerp q p s ≠ 0 := by
  have haa : ∀ a : V3, axisAngle2quat a ≠ 0 := by
    intro a e
    have h3 : axisAngle2quat a 3 = Real.cos (norm a * (1 / 2)) := by simp [axisAngle2quat]
    by_cases hs : isSmall (norm a)
    · have hlt : norm a < 1 / 8192 := hs
      have hnn := norm_nonneg a
      have : 0 < Real.cos (norm a * (1 / 2)) := Real.cos_pos_of_mem_Ioo
        ⟨by linarith [Real.pi_gt_three], by linarith [Real.pi_gt_three]⟩
      rw [e] at h3
      simp at h3
      norm_num at this
      linarith
    · have hu := ((C54_partial a).1 (not_lt.1 hs)).1
      exact unit_ne_zero hu e
  unfold qslerp
  split
  · exact hq
  · split
    · exact hp
    · split <;> exact qplus_ne_zero hq (haa _)

/-! ## C57 -/

/-- **C57** Whatever way a transformation was made, its quaternion has unit length, so its matrix is the matrix of
a rigid transformation. -/
theorem C57_unit (X : Transformation) (h : Built X) : IsUnit4 X.q ∧ IsRotation X.C ∧ IsRigid X.T := by
  have hu : IsUnit4 X.q := by
    induction h with
    | identity => simp [Transformation.identity, quatIdentity, IsUnit4]
    | ofMatrix T hT => exact (C53_right_inverse _ hT.1).2.1
    | mkQT q t h => exact normalized_unit h
    | mul X Y _ _ hX hY => exact normalized_unit (unit_ne_zero (qplus_unit hX hY))
    | inverse X _ hX => exact normalized_unit (unit_ne_zero (quatInv_unit hX))
    | slerp X Y s _ _ hX hY => exact normalized_unit (slerp_ne_zero (unit_ne_zero hX) (unit_ne_zero hY) s)
    | interpolate X Y s0 s1 si _ _ hX hY =>
      unfold Transformation.interpolate Transformation.interpolateOrdered
      split
      · exact normalized_unit (slerp_ne_zero (unit_ne_zero hY) (unit_ne_zero hX) _)
      · exact normalized_unit (slerp_ne_zero (unit_ne_zero hX) (unit_ne_zero hY) _)
  exact ⟨hu, C52_rotation _ hu, rigid_rt (C52_rotation _ hu) _⟩

/-- **C57** `T()` turns composition into the matrix product, the inverse into the inverse matrix, and the
constructor from a matrix is inverse to it. -/
theorem C57_matrix (X Y : Transformation) (hX : Built X) (hY : Built Y) :
    (X.mul Y).T = X.T * Y.T ∧ X.T * X.inverse.T = 1 ∧ X.inverse.T * X.T = 1 ∧
    Transformation.identity.T = 1 ∧ (Transformation.ofMatrix X.T).T = X.T ∧
    (∀ M, IsRigid M → (Transformation.ofMatrix M).T = M) ∧
    X.T3x4 = (fun i j => X.T i.castSucc j) ∧ X.C = (fun i j => X.T i.castSucc j.castSucc) := by
  have uX := (C57_unit X hX).1
  have uY := (C57_unit Y hY).1
  have hi := C52_rotation _ uX
  have hinv : X.inverse.T = rt2Transform (quat2r X.q).transpose ((quat2r X.q).transpose.mulVec (-X.t)) := by
    unfold Transformation.inverse Transformation.T
    rw [mkQT_unit (quatInv_unit uX)]
    simp only [quatRotate_eq (quatInv_unit uX), (C52_homomorphism X.q X.q).2.2.2]
  have hof : ∀ M, IsRigid M → (Transformation.ofMatrix M).T = M := by
    intro M hM
    unfold Transformation.ofMatrix Transformation.T
    simp only
    rw [(C53_right_inverse _ (show IsRotation (transform2C M) from hM.1)).1, rt_of_rigid hM]
  refine ⟨?_, ?_, ?_, ?_, ?_, hof, ?_, ?_⟩
  · unfold Transformation.mul Transformation.T
    rw [mkQT_unit (qplus_unit uX uY)]
    simp only [quatRotate_eq uX, (C52_homomorphism X.q Y.q).1, rt_mul]
  · rw [hinv]
    unfold Transformation.T
    rw [rt_mul, hi.1, mulVec_mulVec, hi.1, one_mulVec, neg_add_cancel, rt_one]
  · rw [hinv]
    unfold Transformation.T
    rw [rt_mul, hi.2.1, ← mulVec_add, add_neg_cancel, mulVec_zero, rt_one]
  · unfold Transformation.identity Transformation.T
    simp only [(C52_homomorphism quatIdentity quatIdentity).2.1, rt_one]
  · exact hof _ (C57_unit X hX).2.2
  · funext i j
    refine Fin.lastCases ?_ (fun k => ?_) j
    · simp only [Transformation.T3x4, Fin.lastCases_last]
      exact (congrFun (transform2rho_rt (quat2r X.q) X.t) i).symm
    · simp only [Transformation.T3x4, Fin.lastCases_castSucc]
      exact (congrFun (congrFun (transform2C_rt (quat2r X.q) X.t) i) k).symm
  · exact (transform2C_rt (quat2r X.q) X.t).symm

/-- **C57** Transforming points is multiplication by the matrix, for Euclidean points (in homogeneous
coordinates), 4-vectors and homogeneous points; transforming by a product is transforming twice, by the inverse
undoes it; `rotate` leaves out the translation. -/
theorem C57_action (X Y : Transformation) (hX : Built X) (hY : Built Y) (p : V3) (h : V4) :
    toHomogeneous (X.mulV3 p) = X.T.mulVec (toHomogeneous p) ∧ X.mulV4 h = X.T.mulVec h ∧ X.mulHP h = X.T.mulVec h ∧
    (X.mul Y).mulV3 p = X.mulV3 (Y.mulV3 p) ∧ (X.mul Y).mulV4 h = X.mulV4 (Y.mulV4 h) ∧
    (X.mul Y).mulHP h = X.mulHP (Y.mulHP h) ∧
    X.inverse.mulV3 (X.mulV3 p) = p ∧ X.mulV3 (X.inverse.mulV3 p) = p ∧
    X.inverse.mulHP (X.mulHP h) = h ∧ X.mulHP (X.inverse.mulHP h) = h ∧
    X.rotate p = X.C.mulVec p ∧ X.mulV3 p = X.C.mulVec p + X.t ∧
    X.rotate4 h = (rt2Transform X.C 0).mulVec h := by
  have toInj : ∀ a b : V3, toHomogeneous a = toHomogeneous b → a = b := by
    intro a b e
    apply ext3
    · simpa [toHomogeneous] using congrFun e 0
    · simpa [toHomogeneous] using congrFun e 1
    · simpa [toHomogeneous] using congrFun e 2
  have a4 : ∀ (Z : Transformation), Built Z → ∀ h, Z.mulV4 h = Z.T.mulVec h := by
    intro Z hZ h
    unfold Transformation.T Transformation.mulV4
    rw [rt_mulVec, quatRotate_eq (C57_unit Z hZ).1]
  have aH : ∀ (Z : Transformation), Built Z → ∀ h, Z.mulHP h = Z.T.mulVec h := fun Z hZ h => a4 Z hZ h
  have a3 : ∀ (Z : Transformation), Built Z → ∀ p, toHomogeneous (Z.mulV3 p) = Z.T.mulVec (toHomogeneous p) := by
    intro Z hZ p
    unfold Transformation.T Transformation.mulV3
    rw [rt_mulVec, quatRotate_eq (C57_unit Z hZ).1]
    have : headV (toHomogeneous p) = p := by apply ext3 <;> simp [headV, toHomogeneous]
    rw [this]
    apply ext4 <;> simp [toHomogeneous]
  obtain ⟨m1, m2, m3, -⟩ := C57_matrix X Y hX hY
  have bM := Built.mul X Y hX hY
  have bI := Built.inverse X hX
  refine ⟨a3 X hX p, a4 X hX h, aH X hX h, ?_, ?_, ?_, ?_, ?_, ?_, ?_, ?_, ?_, ?_⟩
  · apply toInj; rw [a3 _ bM, a3 _ hX, a3 _ hY, mulVec_mulVec, m1]
  · rw [a4 _ bM, a4 _ hX, a4 _ hY, mulVec_mulVec, m1]
  · rw [aH _ bM, aH _ hX, aH _ hY, mulVec_mulVec, m1]
  · apply toInj; rw [a3 _ bI, a3 _ hX, mulVec_mulVec, m3, one_mulVec]
  · apply toInj; rw [a3 _ hX, a3 _ bI, mulVec_mulVec, m2, one_mulVec]
  · rw [aH _ bI, aH _ hX, mulVec_mulVec, m3, one_mulVec]
  · rw [aH _ hX, aH _ bI, mulVec_mulVec, m2, one_mulVec]
  · exact quatRotate_eq (C57_unit X hX).1 p
  · unfold Transformation.mulV3; rw [quatRotate_eq (C57_unit X hX).1]; rfl
  · unfold Transformation.rotate4 Transformation.C
    rw [rt_mulVec, quatRotate_eq (C57_unit X hX).1]
    simp

/-- **C57** The group laws hold exactly, for the stored quaternion and translation. -/
theorem C57_group (X Y Z : Transformation) (hX : Built X) (hY : Built Y) (hZ : Built Z) :
    (X.mul Y).mul Z = X.mul (Y.mul Z) ∧ X.mul .identity = X ∧ Transformation.identity.mul X = X ∧
    X.mul X.inverse = .identity ∧ X.inverse.mul X = .identity ∧ X.inverse.inverse = X ∧
    (X.mul Y).inverse = Y.inverse.mul X.inverse ∧
    (X.T = Y.T ↔ X.t = Y.t ∧ (X.q = Y.q ∨ X.q = -Y.q)) := by
  have uX := (C57_unit X hX).1
  have uY := (C57_unit Y hY).1
  have uZ := (C57_unit Z hZ).1
  have iX := quatInv_unit uX
  have iY := quatInv_unit uY
  have uI : IsUnit4 quatIdentity := by simp [quatIdentity, IsUnit4]
  have rX := C52_rotation _ uX
  have rY := C52_rotation _ uY
  have emul : ∀ (a b : V4) (s u : V3), IsUnit4 a → IsUnit4 b →
      Transformation.mul ⟨a, s⟩ ⟨b, u⟩ = ⟨qplus a b, (quat2r a).mulVec u + s⟩ := by
    intro a b s u hA hB
    unfold Transformation.mul
    rw [mkQT_unit (qplus_unit hA hB), quatRotate_eq hA]
  have einv : ∀ (a : V4) (s : V3), IsUnit4 a →
      Transformation.inverse ⟨a, s⟩ = ⟨quatInv a, (quat2r a).transpose.mulVec (-s)⟩ := by
    intro a s hA
    unfold Transformation.inverse
    rw [mkQT_unit (quatInv_unit hA), quatRotate_eq (quatInv_unit hA), (C52_homomorphism a a).2.2.2]
  have uXY := qplus_unit uX uY
  have uYZ := qplus_unit uY uZ
  clear hX hY hZ
  obtain ⟨x, s⟩ := X
  obtain ⟨y, t⟩ := Y
  obtain ⟨z, u⟩ := Z
  simp only at uX uY uZ iX iY rX rY uXY uYZ
  refine ⟨?_, ?_, ?_, ?_, ?_, ?_, ?_, ?_⟩
  · rw [emul x y s t uX uY, emul y z t u uY uZ, emul _ _ _ _ uXY uZ, emul _ _ _ _ uX uYZ]
    simp only [(C51_product x y z 0).1, (C52_homomorphism x y).1, mulVec_add, mulVec_mulVec, add_assoc]
  · rw [Transformation.identity, emul x _ s _ uX uI]
    simp [(C51_inverse x x).1]
  · rw [Transformation.identity, emul _ x _ s uI uX]
    simp [(C51_inverse x x).2.1, (C52_homomorphism x x).2.1]
  · rw [einv x s uX, emul _ _ _ _ uX iX]
    simp only [((C51_inverse x x).2.2.2.2.1 uX).1, mulVec_mulVec, rX.1, one_mulVec, neg_add_cancel]
    rfl
  · rw [einv x s uX, emul _ _ _ _ iX uX]
    simp only [((C51_inverse x x).2.2.2.2.1 uX).2.1, (C52_homomorphism x x).2.2.2, ← mulVec_add,
      add_neg_cancel, mulVec_zero]
    rfl
  · rw [einv x s uX, einv _ _ iX]
    simp only [(C51_inverse x x).2.2.2.2.2.2, (C52_homomorphism x x).2.2.2, transpose_transpose, mulVec_neg,
      neg_neg, mulVec_mulVec, rX.1, one_mulVec]
  · rw [emul x y s t uX uY, einv x s uX, einv y t uY, einv _ _ uXY, emul _ _ _ _ iY iX]
    simp only [(C51_inverse x y).2.2.2.2.2.1, (C52_homomorphism x y).1, (C52_homomorphism y y).2.2.2,
      transpose_mul, mulVec_neg, mulVec_add, neg_add, mulVec_mulVec]
    congr 1
    rw [Matrix.mul_assoc, rX.2.1, Matrix.mul_one]
    abel
  · constructor
    · intro e
      have h1 := congrArg transform2rho e
      have h2 := congrArg transform2C e
      unfold Transformation.T at h1 h2
      simp only [transform2rho_rt] at h1
      simp only [transform2C_rt] at h2
      exact ⟨h1, (C52_double_cover _ _ uX uY).1 h2⟩
    · rintro ⟨h1, h2⟩
      unfold Transformation.T
      rw [h1, (C52_double_cover _ _ uX uY).2 h2]

/-- **C57** The functions on 4×4 matrices: `rt2Transform` of a rotation is rigid, `transform2C`, `transform2rho`
take it apart again, `inverseTransform` inverts it and agrees with `Transformation::inverse`. -/
theorem C57_functions (C : M3) (t : V3) (T : M4) (hC : IsRotation C) (hT : IsRigid T) (X : Transformation) (hX : Built X) :
    IsRigid (rt2Transform C t) ∧ transform2C (rt2Transform C t) = C ∧ transform2rho (rt2Transform C t) = t ∧
    rt2Transform (transform2C T) (transform2rho T) = T ∧
    transform2rhoHomogeneous T = T.mulVec ![0, 0, 0, 1] ∧
    T * inverseTransform T = 1 ∧ inverseTransform T * T = 1 ∧ IsRigid (inverseTransform T) ∧
    inverseTransform X.T = X.inverse.T := by
  have hR : IsRotation (transform2C T) := hT.1
  have key : ∀ T : M4, IsRigid T → T * inverseTransform T = 1 ∧ inverseTransform T * T = 1 := by
    intro T hT
    have hR : IsRotation (transform2C T) := hT.1
    constructor
    · conv => lhs; lhs; rw [← rt_of_rigid hT]
      unfold inverseTransform
      rw [rt_mul, hR.1, mulVec_mulVec, Matrix.mul_neg, hR.1, neg_mulVec, one_mulVec, neg_add_cancel, rt_one]
    · conv => lhs; rhs; rw [← rt_of_rigid hT]
      unfold inverseTransform
      rw [rt_mul, hR.2.1, neg_mulVec, add_neg_cancel, rt_one]
  refine ⟨rigid_rt hC t, transform2C_rt C t, transform2rho_rt C t, rt_of_rigid hT, ?_, (key T hT).1, (key T hT).2, ?_, ?_⟩
  · apply ext4 <;> rw [mv4] <;> simp [transform2rhoHomogeneous]
  · exact rigid_rt ⟨by rw [transpose_transpose]; exact hR.2.1, by rw [transpose_transpose]; exact hR.1,
      by rw [det_transpose]; exact hR.2.2⟩ _
  · obtain ⟨-, m2, -⟩ := C57_matrix X X hX hX
    have h := (key X.T (C57_unit X hX).2.2).2
    calc inverseTransform X.T = inverseTransform X.T * (X.T * X.inverse.T) := by rw [m2, Matrix.mul_one]
      _ = X.inverse.T := by rw [← Matrix.mul_assoc, h, Matrix.one_mul]

/-- **C57** `toTEuler` and `fromTEuler` are inverse to each other, away from pitch ±90°. -/
theorem C57_euler (T : M4) (hT : IsRigid T) (hs : T 2 0 * T 2 0 ≠ 1) (dt : V6) (hp : |tail3 dt 1| < Real.pi / 2)
    (hr : |tail3 dt 0| < Real.pi) (hh : |tail3 dt 2| < Real.pi) :
    toTEuler (fromTEuler T) = T ∧ fromTEuler (toTEuler dt) = dt ∧ IsRigid (toTEuler dt) := by
  refine ⟨?_, ?_, ?_⟩
  · unfold toTEuler fromTEuler
    have e1 : ∀ a b, tail3 (v6 a b) = b := fun a b => rfl
    have e2 : ∀ a b, head3 (v6 a b) = a := fun a b => rfl
    rw [e1, e2]
    simp only [Pi.neg_apply, neg_neg]
    have := (C55_onto (transform2C T) hT.1 hs).1
    simp only at this
    rw [this, rt_of_rigid hT]
  · unfold toTEuler fromTEuler
    rw [abs_lt] at hp hr hh
    have := (C55_recovers (-tail3 dt 0) (-tail3 dt 1) (-tail3 dt 2) ⟨by linarith, by linarith⟩ ⟨by linarith, by linarith⟩
      ⟨by linarith, by linarith⟩).1
    rw [transform2C_rt, transform2rho_rt, this]
    funext i
    rcases i with i | i
    · rfl
    · fin_cases i <;> simp [v6, tail3]
  · exact rigid_rt (C55_rph _ _ _).2.2.1 _

/-- Concrete: a transformation with a non-trivial rotation (90° about z) and translation, its inverse and product
with another one. -/
example : ∃ X Y, Built X ∧ Built Y ∧ X.t ≠ 0 ∧ X.q 2 ≠ 0 ∧ Y.t ≠ 0 := by
  refine ⟨.mkQT ![0, 0, 1, 1] ![1, 2, 3], .mkQT ![1, 0, 0, 2] ![0, 5, 0], .mkQT _ _ ?_, .mkQT _ _ ?_, ?_, ?_, ?_⟩
  · intro h; simpa using congrFun h 2
  · intro h; simpa using congrFun h 0
  · intro h; simpa [Transformation.mkQT] using congrFun h 0
  · have : sqNorm ![(0 : ℝ), 0, 1, 1] = 2 := by rw [sq4]; simp; norm_num
    simp [Transformation.mkQT, norm, this]
  · intro h; simpa [Transformation.mkQT] using congrFun h 1

example : IsRigid (rt2Transform (Rz 1) ![1, 2, 3]) ∧
    (rt2Transform (Rz 1) ![1, 2, 3]) 2 0 * (rt2Transform (Rz 1) ![1, 2, 3]) 2 0 ≠ 1 := by
  have hr : IsRotation (Rz 1) := by
    have := (C55_rph 0 0 1).2.2.1
    rwa [rphMatrix_product, show Ry 0 = 1 by ext i j; fin_cases i <;> fin_cases j <;> simp [Ry],
      show Rx 0 = 1 by ext i j; fin_cases i <;> fin_cases j <;> simp [Rx], Matrix.mul_one, Matrix.mul_one] at this
  refine ⟨rigid_rt hr _, by simp [rt2Transform, Rz]⟩

end Verif.Kinematics
