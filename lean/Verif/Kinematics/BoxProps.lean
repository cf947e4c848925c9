import Verif.Kinematics.HomProps

/-!
# Perturbations of rigid transformations: C62
-/

namespace Verif.Kinematics

open Matrix

/-! ## lemmas -/

theorem derivM_mul {ι κ μ : Type} [Fintype κ] {A : ℝ → Matrix ι κ ℝ} {B : ℝ → Matrix κ μ ℝ} {A' : Matrix ι κ ℝ}
    {B' : Matrix κ μ ℝ} {x : ℝ} (hA : ∀ i j, HasDerivAt (fun s => A s i j) (A' i j) x)
    (hB : ∀ i j, HasDerivAt (fun s => B s i j) (B' i j) x) (i : ι) (j : μ) :
    HasDerivAt (fun s => (A s * B s) i j) ((A' * B x + A x * B') i j) x := by
  have := HasDerivAt.fun_sum (u := Finset.univ) (fun k _ => (hA i k).fun_mul (hB k j))
  simp only [Matrix.mul_apply, Matrix.add_apply]
  refine this.congr_deriv ?_
  rw [Finset.sum_add_distrib]

theorem derivM_mulVec {ι κ : Type} [Fintype κ] {A : ℝ → Matrix ι κ ℝ} {A' : Matrix ι κ ℝ} {b : ℝ → κ → ℝ} {b' : κ → ℝ}
    {x : ℝ} (hA : ∀ i j, HasDerivAt (fun s => A s i j) (A' i j) x) (hb : ∀ j, HasDerivAt (fun s => b s j) (b' j) x) (i : ι) :
    HasDerivAt (fun s => (A s).mulVec (b s) i) ((A'.mulVec (b x) + (A x).mulVec b') i) x := by
  have := HasDerivAt.fun_sum (u := Finset.univ) (fun k _ => (hA i k).fun_mul (hb k))
  simp only [Matrix.mulVec, dotProduct, Pi.add_apply]
  refine this.congr_deriv ?_
  rw [Finset.sum_add_distrib]

theorem sum6 (f : Fin 3 ⊕ Fin 3 → ℝ) :
    ∑ i, f i = f (.inl 0) + f (.inl 1) + f (.inl 2) + f (.inr 0) + f (.inr 1) + f (.inr 2) := by
  simp [Fintype.sum_sum_type, Fin.sum_univ_succ]; ring

theorem mv6 {κ : Type} (M : Matrix κ (Fin 3 ⊕ Fin 3) ℝ) (v : V6) (i : κ) :
    M.mulVec v i = M i (.inl 0) * v (.inl 0) + M i (.inl 1) * v (.inl 1) + M i (.inl 2) * v (.inl 2) +
      M i (.inr 0) * v (.inr 0) + M i (.inr 1) * v (.inr 1) + M i (.inr 2) * v (.inr 2) := by
  simp only [Matrix.mulVec, dotProduct, sum6]

theorem cross_conj {C : M3} (h : IsRotation C) (v : V3) : C * crossMx v * C.transpose = crossMx (C.mulVec v) := by
  obtain ⟨-, -, ⟨k1, k2, k3⟩, ⟨k4, k5, k6⟩, ⟨k7, k8, k9⟩⟩ := rotation_entries h
  ext i j
  rw [mm3, mm3, mm3, mm3]
  obtain rfl | rfl | rfl : i = 0 ∨ i = 1 ∨ i = 2 := by fin_cases i <;> simp
  all_goals
    obtain rfl | rfl | rfl : j = 0 ∨ j = 1 ∨ j = 2 := by fin_cases j <;> simp
  all_goals
    simp [crossMx, mv3]
    grind

theorem twist_boxPlus (ξ : V6) : twist ξ = -boxPlus ξ := by
  ext i j
  fin_cases i <;> fin_cases j <;> simp [twist, boxPlus, head3, tail3]

theorem twist_mulVec (ξ : V6) (p : V4) : (twist ξ).mulVec p = (boxMinus p).mulVec ξ := by
  apply ext4 <;> rw [mv4, mv6] <;> simp [twist, boxMinus] <;> ring

theorem twist_inj {ξ η : V6} (h : twist ξ = twist η) : ξ = η := by
  have e : ∀ i j, twist ξ i j = twist η i j := fun i j => by rw [h]
  funext i
  rcases i with i | i <;> fin_cases i
  · simpa [twist] using e 0 3
  · simpa [twist] using e 1 3
  · simpa [twist] using e 2 3
  · simpa [twist] using e 1 2
  · simpa [twist] using e 2 0
  · simpa [twist] using e 0 1

theorem twist_add (ξ η : V6) : twist (ξ + η) = twist ξ + twist η := by
  ext i j
  fin_cases i <;> fin_cases j <;> simp [twist] <;> ring

theorem twist_neg (ξ : V6) : twist (-ξ) = -twist ξ := by
  ext i j
  fin_cases i <;> fin_cases j <;> simp [twist]

/-- `boxTimes` is the adjoint action on twists -/
theorem twist_conj {T : M4} (h : IsRigid T) (ξ : V6) : T * twist ξ = twist ((boxTimes T).mulVec ξ) * T := by
  have hC : IsRotation (transform2C T) := h.1
  rw [← rt_of_rigid h]
  generalize transform2C T = C at *
  generalize transform2rho T = t at *
  have hv : ∀ v : V3, C * crossMx v = crossMx (C.mulVec v) * C := by
    intro v
    rw [← cross_conj hC v, Matrix.mul_assoc, hC.2.1, Matrix.mul_one]
  have hk := fun i j => congrFun (congrFun (hv (tail3 ξ)) i) j
  obtain ⟨-, -, ⟨k1, k2, k3⟩, ⟨k4, k5, k6⟩, ⟨k7, k8, k9⟩⟩ := rotation_entries hC
  have hb : ∀ i, (boxTimes (rt2Transform C t)).mulVec ξ i =
      Sum.elim (fun k => C.mulVec (head3 ξ) k - (crossMx t).mulVec (C.mulVec (tail3 ξ)) k)
        (fun k => C.mulVec (tail3 ξ) k) i := by
    intro i
    unfold boxTimes
    rw [transform2C_rt, transform2rho_rt, fromBlocks_mulVec]
    rcases i with i | i
    · simp only [Sum.elim_inl, Pi.add_apply, Matrix.neg_mul, neg_mulVec, mulVec_mulVec, Pi.neg_apply]
      rfl
    · simp only [Sum.elim_inr, zero_mulVec, zero_add]
      rfl
  rw [funext hb]
  clear hv hb h
  ext i j
  rw [mm4, mm4]
  obtain rfl | rfl | rfl | rfl : i = 0 ∨ i = 1 ∨ i = 2 ∨ i = 3 := by fin_cases i <;> simp
  all_goals
    obtain rfl | rfl | rfl | rfl : j = 0 ∨ j = 1 ∨ j = 2 ∨ j = 3 := by fin_cases j <;> simp
  all_goals
    simp [rt2Transform, twist, mv3, crossMx, head3, tail3]
    try grind

/-! ## C62 -/

/-- **C62** The operators fit together: `boxPlus(ξ)` is minus the matrix of the perturbation, `boxMinus(p)` maps a
perturbation to the velocity of the point `p`, and `boxTimes(T)` carries a perturbation through `T`; `boxTimes` is
multiplicative. -/
theorem C62_operators (ξ : V6) (p : V4) (T T' : M4) (hT : IsRigid T) (hT' : IsRigid T') :
    boxPlus ξ = -twist ξ ∧ (boxMinus p).mulVec ξ = (twist ξ).mulVec p ∧
    twist ((boxTimes T).mulVec ξ) = T * twist ξ * inverseTransform T ∧
    boxTimes (T * T') = boxTimes T * boxTimes T' ∧ boxTimes 1 = 1 ∧
    boxTimes T * boxTimes (inverseTransform T) = 1 ∧ boxTimes (inverseTransform T) * boxTimes T = 1 := by
  have hinv : ∀ T, IsRigid T → T * inverseTransform T = 1 ∧ inverseTransform T * T = 1 ∧ IsRigid (inverseTransform T) := by
    intro T hT
    have h := C57_functions (transform2C T) (transform2rho T) T hT.1 hT .identity .identity
    exact ⟨h.2.2.2.2.2.1, h.2.2.2.2.2.2.1, h.2.2.2.2.2.2.2.1⟩
  have hconj : ∀ T, IsRigid T → ∀ ξ, twist ((boxTimes T).mulVec ξ) = T * twist ξ * inverseTransform T := by
    intro T hT ξ
    rw [twist_conj hT, Matrix.mul_assoc, (hinv T hT).1, Matrix.mul_one]
  have hrm : ∀ T T' : M4, IsRigid T → IsRigid T' → IsRigid (T * T') := by
    intro T T' hT hT'
    rw [← rt_of_rigid hT, ← rt_of_rigid hT', rt_mul]
    exact rigid_rt (IsRotation.mul hT.1 hT'.1) _
  have hmul : ∀ T T' : M4, IsRigid T → IsRigid T' → boxTimes (T * T') = boxTimes T * boxTimes T' := by
    intro T T' hT hT'
    apply Matrix.toLin'.injective
    apply LinearMap.ext
    intro η
    simp only [Matrix.toLin'_apply]
    apply twist_inj
    rw [← mulVec_mulVec, hconj _ (hrm T T' hT hT'), hconj T hT, hconj T' hT']
    have hi : inverseTransform (T * T') = inverseTransform T' * inverseTransform T := by
      have h1 := (hinv _ (hrm T T' hT hT')).2.1
      calc inverseTransform (T * T') = inverseTransform (T * T') * (T * (T' * inverseTransform T') * inverseTransform T) := by
            rw [(hinv T' hT').1, Matrix.mul_one, (hinv T hT).1, Matrix.mul_one]
        _ = inverseTransform (T * T') * (T * T') * (inverseTransform T' * inverseTransform T) := by
            simp only [Matrix.mul_assoc]
        _ = _ := by rw [h1, Matrix.one_mul]
    rw [hi]
    simp only [Matrix.mul_assoc]
  have hone : boxTimes 1 = 1 := by
    rw [← rt_one]
    unfold boxTimes
    rw [transform2C_rt, transform2rho_rt]
    have : crossMx 0 = 0 := by ext i j; fin_cases i <;> fin_cases j <;> simp [crossMx]
    rw [this]
    simp
  refine ⟨by rw [twist_boxPlus, neg_neg], (twist_mulVec ξ p).symm, hconj T hT ξ, hmul T T' hT hT', hone, ?_, ?_⟩
  · rw [← hmul _ _ hT (hinv T hT).2.2, (hinv T hT).1, hone]
  · rw [← hmul _ _ (hinv T hT).2.2 hT, (hinv T hT).2.1, hone]

theorem PerturbsBy.inverse {c : ℝ → M4} {ξ : V6} (hc : PerturbsBy c ξ) (h : IsRigid (c 0)) (i j : Fin 4) :
    HasDerivAt (fun s => inverseTransform (c s) i j) ((-(inverseTransform (c 0) * twist ξ)) i j) 0 := by
  have hd := hc
  unfold PerturbsBy at hd
  have hT := rt_of_rigid h
  have hC : IsRotation (transform2C (c 0)) := h.1
  obtain ⟨-, -, ⟨k1, k2, k3⟩, ⟨k4, k5, k6⟩, ⟨k7, k8, k9⟩⟩ := rotation_entries hC
  rw [← hT] at hd ⊢
  generalize hCC : transform2C (c 0) = C at *
  generalize htt : transform2rho (c 0) = t at *
  have e1 : ∀ s (i j : Fin 3), inverseTransform (c s) i.castSucc j.castSucc = c s j.castSucc i.castSucc := by
    intro s i j
    exact congrFun (congrFun (transform2C_rt (transform2C (c s)).transpose _) i) j
  have e2 : ∀ s (i : Fin 3), inverseTransform (c s) i.castSucc 3 =
      -(c s 0 i.castSucc * c s 0 3 + c s 1 i.castSucc * c s 1 3 + c s 2 i.castSucc * c s 2 3) := by
    intro s i
    have := congrFun (transform2rho_rt (transform2C (c s)).transpose
      ((-(transform2C (c s)).transpose).mulVec (transform2rho (c s)))) i
    have e : inverseTransform (c s) i.castSucc 3 = ((-(transform2C (c s)).transpose).mulVec (transform2rho (c s))) i := this
    rw [e, neg_mulVec, Pi.neg_apply, mv3]
    rfl
  have e3 : ∀ s j, inverseTransform (c s) 3 j = (![0, 0, 0, 1] : V4) j := by
    intro s j
    fin_cases j <;> simp [inverseTransform, rt2Transform]
  have hc0 : ∀ i j, c 0 i j = rt2Transform C t i j := fun i j => by rw [hT]
  simp only [inverseTransform, transform2C_rt, transform2rho_rt]
  have g1 : ∀ i j : Fin 3, HasDerivAt (fun s => inverseTransform (c s) i.castSucc j.castSucc)
      ((twist ξ * rt2Transform C t) j.castSucc i.castSucc) 0 := by
    intro i j
    simp only [e1]
    exact hd _ _
  have g2 : ∀ i : Fin 3, HasDerivAt (fun s => inverseTransform (c s) i.castSucc 3)
      (-((twist ξ * rt2Transform C t) 0 i.castSucc * t 0 + C 0 i * (twist ξ * rt2Transform C t) 0 3 +
        ((twist ξ * rt2Transform C t) 1 i.castSucc * t 1 + C 1 i * (twist ξ * rt2Transform C t) 1 3) +
        ((twist ξ * rt2Transform C t) 2 i.castSucc * t 2 + C 2 i * (twist ξ * rt2Transform C t) 2 3))) 0 := by
    intro i
    simp only [e2]
    refine ((((hd 0 i.castSucc).fun_mul (hd 0 3)).fun_add ((hd 1 i.castSucc).fun_mul (hd 1 3))).fun_add
      ((hd 2 i.castSucc).fun_mul (hd 2 3))).fun_neg.congr_deriv ?_
    simp only [hc0]
    fin_cases i <;> simp [rt2Transform]
  have g3 : ∀ j, HasDerivAt (fun s => inverseTransform (c s) 3 j) 0 0 := by
    intro j
    simp only [e3]
    exact hasDerivAt_const _ _
  have fin : ∀ i j, HasDerivAt (fun s => inverseTransform (c s) i j)
      ((-(rt2Transform C.transpose ((-C.transpose).mulVec t) * twist ξ)) i j) 0 := by
    intro i j
    rw [Matrix.neg_apply, mm4]
    obtain rfl | rfl | rfl | rfl : i = 0 ∨ i = 1 ∨ i = 2 ∨ i = 3 := by fin_cases i <;> simp
    · obtain rfl | rfl | rfl | rfl : j = 0 ∨ j = 1 ∨ j = 2 ∨ j = 3 := by fin_cases j <;> simp
      · exact (g1 0 0).congr_deriv (by rw [mm4]; simp [rt2Transform, twist]; ring)
      · exact (g1 0 1).congr_deriv (by rw [mm4]; simp [rt2Transform, twist]; ring)
      · exact (g1 0 2).congr_deriv (by rw [mm4]; simp [rt2Transform, twist]; ring)
      · exact (g2 0).congr_deriv (by simp only [mm4]; simp [rt2Transform, twist]; ring)
    · obtain rfl | rfl | rfl | rfl : j = 0 ∨ j = 1 ∨ j = 2 ∨ j = 3 := by fin_cases j <;> simp
      · exact (g1 1 0).congr_deriv (by rw [mm4]; simp [rt2Transform, twist]; ring)
      · exact (g1 1 1).congr_deriv (by rw [mm4]; simp [rt2Transform, twist]; ring)
      · exact (g1 1 2).congr_deriv (by rw [mm4]; simp [rt2Transform, twist]; ring)
      · exact (g2 1).congr_deriv (by simp only [mm4]; simp [rt2Transform, twist]; ring)
    · obtain rfl | rfl | rfl | rfl : j = 0 ∨ j = 1 ∨ j = 2 ∨ j = 3 := by fin_cases j <;> simp
      · exact (g1 2 0).congr_deriv (by rw [mm4]; simp [rt2Transform, twist]; ring)
      · exact (g1 2 1).congr_deriv (by rw [mm4]; simp [rt2Transform, twist]; ring)
      · exact (g1 2 2).congr_deriv (by rw [mm4]; simp [rt2Transform, twist]; ring)
      · exact (g2 2).congr_deriv (by simp only [mm4]; simp [rt2Transform, twist]; ring)
    · exact (g3 j).congr_deriv (by simp [rt2Transform, twist]; fin_cases j <;> simp)
  exact fin i j

/-- **C62** The matrices returned by `transformationAndJacobian` and `inverseTransformationAndJacobian` are the
derivatives of the transformed point with respect to the perturbation of the transformation: along every curve of
matrices that sets out from `T` with the perturbation `ξ`, the point moves with the velocity `B ξ`.  The points
returned are `T v` and `T⁻¹ v`. -/
theorem C62_jacobians (T : M4) (hT : IsRigid T) (v : V4) (c : ℝ → M4) (ξ : V6) (h0 : c 0 = T) (hc : PerturbsBy c ξ) :
    (transformationAndJacobian T v).1 = T.mulVec v ∧
    (∀ i, HasDerivAt (fun s => (c s).mulVec v i) ((transformationAndJacobian T v).2.mulVec ξ i) 0) ∧
    T.mulVec (inverseTransformationAndJacobian T v).1 = v ∧
    (∀ i, HasDerivAt (fun s => (inverseTransform (c s)).mulVec v i)
      ((inverseTransformationAndJacobian T v).2.mulVec ξ i) 0) := by
  subst h0
  have hconst : ∀ j, HasDerivAt (fun _ : ℝ => v j) ((0 : V4) j) 0 := fun j => hasDerivAt_const _ _
  have hf := C57_functions (transform2C (c 0)) (transform2rho (c 0)) (c 0) hT.1 hT .identity .identity
  refine ⟨rfl, ?_, ?_, ?_⟩
  · intro i
    refine (derivM_mulVec hc hconst i).congr_deriv ?_
    rw [mulVec_zero, add_zero, ← mulVec_mulVec, twist_mulVec]
    rfl
  · show (c 0).mulVec ((inverseTransform (c 0)).mulVec v) = v
    rw [mulVec_mulVec, hf.2.2.2.2.2.1, one_mulVec]
  · intro i
    refine (derivM_mulVec (hc.inverse hT) hconst i).congr_deriv ?_
    rw [mulVec_zero, add_zero, neg_mulVec, ← mulVec_mulVec]
    rw [← rt_of_rigid hf.2.2.2.2.2.2.2.1]
    unfold inverseTransformationAndJacobian
    simp only
    generalize transform2C (inverseTransform (c 0)) = D
    generalize transform2rho (inverseTransform (c 0)) = u
    rw [Pi.neg_apply, mv4, mv6]
    obtain rfl | rfl | rfl | rfl : i = 0 ∨ i = 1 ∨ i = 2 ∨ i = 3 := by fin_cases i <;> simp
    · rw [show (0 : Fin 4) = (0 : Fin 3).castSucc from rfl]
      simp only [rows3, Fin.lastCases_castSucc]
      simp [rt2Transform, mv4, twist, mm3, crossMx, headV]; ring
    · rw [show (1 : Fin 4) = (1 : Fin 3).castSucc from rfl]
      simp only [rows3, Fin.lastCases_castSucc]
      simp [rt2Transform, mv4, twist, mm3, crossMx, headV]; ring
    · rw [show (2 : Fin 4) = (2 : Fin 3).castSucc from rfl]
      simp only [rows3, Fin.lastCases_castSucc]
      simp [rt2Transform, mv4, twist, mm3, crossMx, headV]; ring
    · rw [show (3 : Fin 4) = Fin.last 3 from rfl]
      simp only [rows3, Fin.lastCases_last]
      simp [rt2Transform, mv4, twist, Fin.last]

/-- **C62** `boxTimes` composes perturbations: perturbing `T1` by `ξ1` and `T2` by `ξ2` perturbs the product by
`ξ1 + boxTimes(T1) ξ2`, and the inverse of `T1` by `-boxTimes(T1⁻¹) ξ1`; the perturbation of a rigid
transformation is determined by the curve. -/
theorem C62_composition (c1 c2 : ℝ → M4) (ξ1 ξ2 η : V6) (h1 : IsRigid (c1 0)) (p1 : PerturbsBy c1 ξ1)
    (p2 : PerturbsBy c2 ξ2) :
    PerturbsBy (fun s => c1 s * c2 s) (ξ1 + (boxTimes (c1 0)).mulVec ξ2) ∧
    PerturbsBy (fun s => inverseTransform (c1 s)) (-(boxTimes (inverseTransform (c1 0))).mulVec ξ1) ∧
    (PerturbsBy c1 η → η = ξ1) := by
  have hf := C57_functions (transform2C (c1 0)) (transform2rho (c1 0)) (c1 0) h1.1 h1 .identity .identity
  refine ⟨?_, ?_, ?_⟩
  · intro i j
    refine (derivM_mul p1 p2 i j).congr_deriv ?_
    simp only [twist_add, Matrix.add_mul, ← Matrix.mul_assoc, twist_conj h1]
  · intro i j
    refine (p1.inverse h1 i j).congr_deriv ?_
    rw [twist_neg, Matrix.neg_mul, twist_conj hf.2.2.2.2.2.2.2.1]
  · intro h
    apply twist_inj
    have : twist η * c1 0 = twist ξ1 * c1 0 := by
      ext i j
      exact (h i j).unique (p1 i j)
    calc twist η = twist η * c1 0 * inverseTransform (c1 0) := by
          rw [Matrix.mul_assoc, hf.2.2.2.2.2.1, Matrix.mul_one]
      _ = twist ξ1 := by rw [this, Matrix.mul_assoc, hf.2.2.2.2.2.1, Matrix.mul_one]

/-- **C62** The updates used with these Jacobians set out in the direction of their argument: `toTEuler(d) * T`
perturbs `T` by `d`, and `oplus(d)` perturbs the transformation by `S() d`, to first order and along every curve
`d` through 0. -/
theorem C62_updates (d : ℝ → V6) (v : V6) (h0 : d 0 = 0) (hd : ∀ i, HasDerivAt (fun s => d s i) (v i) 0) (T : M4)
    (X : Transformation) :
    PerturbsBy (fun s => toTEuler (d s) * T) v ∧ (toTEuler (d 0) * T = T) ∧
    PerturbsBy (fun s => (X.oplus (d s)).T) (X.S.mulVec v) ∧ X.oplus (d 0) = X := by
  have hz : axisAngle2quat 0 = quatIdentity := (C54_partial 0).2.1 rfl
  have hd0 : ∀ i, d 0 i = 0 := fun i => by rw [h0]; rfl
  have ht0 : tail3 (d 0) = 0 := by funext i; exact hd0 _
  have hh0 : head3 (d 0) = 0 := by funext i; exact hd0 _
  have hE0 : toTEuler (d 0) = 1 := by
    unfold toTEuler
    rw [ht0, hh0, ← rt_one]
    congr 1
    ext i j; fin_cases i <;> fin_cases j <;> simp [rph2R, rphMatrix]
  have hX0 : X.oplus (d 0) = X := by
    unfold Transformation.oplus
    rw [ht0, hh0, add_zero]
    have : updateQuat X.q 0 = X.q := (C58_oplus_jacobians X.q).2.1
    rw [this]
  refine ⟨?_, by rw [hE0, Matrix.one_mul], ?_, hX0⟩
  · have hE : ∀ i j, HasDerivAt (fun s => toTEuler (d s) i j) (twist v i j) 0 := by
      have hs : ∀ i, HasDerivAt (fun s => Real.sin (-tail3 (d s) i)) (-v (.inr i)) 0 := by
        intro i
        refine ((hd (.inr i)).fun_neg.sin).congr_deriv ?_
        simp [hd0]
      have hc : ∀ i, HasDerivAt (fun s => Real.cos (-tail3 (d s) i)) 0 0 := by
        intro i
        refine ((hd (.inr i)).fun_neg.cos).congr_deriv ?_
        simp [hd0]
      have s0 : ∀ i, Real.sin (-tail3 (d 0) i) = 0 := by intro i; simp [ht0]
      have c0 : ∀ i, Real.cos (-tail3 (d 0) i) = 1 := by intro i; simp [ht0]
      have hn : HasDerivAt (fun _ : ℝ => (0 : ℝ)) 0 0 := hasDerivAt_const _ _
      have h1 : HasDerivAt (fun _ : ℝ => (1 : ℝ)) 0 0 := hasDerivAt_const _ _
      intro i j
      obtain rfl | rfl | rfl | rfl : i = 0 ∨ i = 1 ∨ i = 2 ∨ i = 3 := by fin_cases i <;> simp
      all_goals
        obtain rfl | rfl | rfl | rfl : j = 0 ∨ j = 1 ∨ j = 2 ∨ j = 3 := by fin_cases j <;> simp
      · exact ((hc 2).fun_mul (hc 1)).congr_deriv (by simp [twist])
      · exact ((((hs 2).fun_neg.fun_mul (hc 0))).fun_add (((hc 2).fun_mul (hs 1)).fun_mul (hs 0))).congr_deriv
          (by simp [twist, s0, c0])
      · exact ((((hs 2).fun_mul (hs 0))).fun_add (((hc 2).fun_mul (hs 1)).fun_mul (hc 0))).congr_deriv
          (by simp [twist, s0, c0])
      · exact (hd (.inl 0)).congr_deriv (by simp [twist])
      · exact ((hs 2).fun_mul (hc 1)).congr_deriv (by simp [twist, s0, c0])
      · exact ((((hc 2).fun_mul (hc 0))).fun_add (((hs 2).fun_mul (hs 1)).fun_mul (hs 0))).congr_deriv
          (by simp [twist, s0, c0])
      · exact ((((hc 2).fun_neg.fun_mul (hs 0))).fun_add (((hs 2).fun_mul (hs 1)).fun_mul (hc 0))).congr_deriv
          (by simp [twist, s0, c0])
      · exact (hd (.inl 1)).congr_deriv (by simp [twist])
      · exact ((hs 1).fun_neg).congr_deriv (by simp [twist])
      · exact ((hc 1).fun_mul (hs 0)).congr_deriv (by simp [twist, s0, c0])
      · exact ((hc 1).fun_mul (hc 0)).congr_deriv (by simp [twist, s0, c0])
      · exact (hd (.inl 2)).congr_deriv (by simp [twist])
      · exact hn.congr_deriv (by simp [twist])
      · exact hn.congr_deriv (by simp [twist])
      · exact hn.congr_deriv (by simp [twist])
      · exact h1.congr_deriv (by simp [twist])
    intro i j
    have hTc : ∀ i j, HasDerivAt (fun _ : ℝ => T i j) ((0 : M4) i j) 0 := fun i j => hasDerivAt_const _ _
    refine (derivM_mul hE hTc i j).congr_deriv ?_
    simp only [hE0, Matrix.mul_zero, add_zero, Matrix.one_mul]
  · have hq := deriv_updateQuat X.q (c := fun s => tail3 (d s)) (v := tail3 v) ht0 (fun i => hd (.inr i))
    have hu0 : updateQuat X.q (tail3 (d 0)) = X.q := by
      have := congrArg Transformation.q hX0
      exact this
    have hS : ∀ i, X.S.mulVec v i = Sum.elim (fun k => head3 v k - (crossMx X.t).mulVec (tail3 v) k) (fun k => tail3 v k) i := by
      intro i
      unfold Transformation.S
      rw [fromBlocks_mulVec]
      rcases i with i | i
      · simp only [Sum.elim_inl, Pi.add_apply, one_mulVec, neg_mulVec, Pi.neg_apply]
        rfl
      · simp only [Sum.elim_inr, zero_mulVec, zero_add, one_mulVec]
        rfl
    set q := fun s => updateQuat X.q (tail3 (d s)) with hqdef
    have hT0 : (X.oplus (d 0)).T = X.T := by rw [hX0]
    have q0 : HasDerivAt (fun s => q s 0) ((quatJacobian X.q).mulVec (tail3 v) 0) 0 := hq 0
    have q1 : HasDerivAt (fun s => q s 1) ((quatJacobian X.q).mulVec (tail3 v) 1) 0 := hq 1
    have q2 : HasDerivAt (fun s => q s 2) ((quatJacobian X.q).mulVec (tail3 v) 2) 0 := hq 2
    have q3 : HasDerivAt (fun s => q s 3) ((quatJacobian X.q).mulVec (tail3 v) 3) 0 := hq 3
    have hu0' : q 0 = X.q := hu0
    have hn : HasDerivAt (fun _ : ℝ => (0 : ℝ)) 0 0 := hasDerivAt_const _ _
    have h1 : HasDerivAt (fun _ : ℝ => (1 : ℝ)) 0 0 := hasDerivAt_const _ _
    have ht : ∀ i, HasDerivAt (fun s => X.t i + head3 (d s) i) (head3 v i) 0 := fun i => (hd (.inl i)).const_add (X.t i)
    intro i j
    show HasDerivAt (fun s => rt2Transform (quat2r (q s)) (X.t + head3 (d s)) i j)
      ((twist (X.S.mulVec v) * (X.oplus (d 0)).T) i j) 0
    rw [hT0, funext hS, mm4]
    unfold Transformation.T
    obtain rfl | rfl | rfl | rfl : i = 0 ∨ i = 1 ∨ i = 2 ∨ i = 3 := by fin_cases i <;> simp
    all_goals
      obtain rfl | rfl | rfl | rfl : j = 0 ∨ j = 1 ∨ j = 2 ∨ j = 3 := by fin_cases j <;> simp
    · refine ((((q0.fun_mul q0).fun_sub (q1.fun_mul q1)).fun_sub (q2.fun_mul q2)).fun_add (q3.fun_mul q3)).congr_deriv ?_
      simp [hu0', mv3, quatJacobian, twist, rt2Transform, quat2r]; ring
    · refine (((q0.fun_mul q1).mul_const 2).fun_add ((q2.fun_mul q3).mul_const 2)).congr_deriv ?_
      simp [hu0', mv3, quatJacobian, twist, rt2Transform, quat2r]; ring
    · refine (((q0.fun_mul q2).mul_const 2).fun_sub ((q1.fun_mul q3).mul_const 2)).congr_deriv ?_
      simp [hu0', mv3, quatJacobian, twist, rt2Transform, quat2r]; ring
    · refine (ht 0).congr_deriv ?_
      simp [mv3, crossMx, twist, rt2Transform]; ring
    · refine (((q0.fun_mul q1).mul_const 2).fun_sub ((q2.fun_mul q3).mul_const 2)).congr_deriv ?_
      simp [hu0', mv3, quatJacobian, twist, rt2Transform, quat2r]; ring
    · refine ((((q0.fun_neg.fun_mul q0).fun_add (q1.fun_mul q1)).fun_sub (q2.fun_mul q2)).fun_add (q3.fun_mul q3)).congr_deriv ?_
      simp [hu0', mv3, quatJacobian, twist, rt2Transform, quat2r]; ring
    · refine (((q0.fun_mul q3).mul_const 2).fun_add ((q1.fun_mul q2).mul_const 2)).congr_deriv ?_
      simp [hu0', mv3, quatJacobian, twist, rt2Transform, quat2r]; ring
    · refine (ht 1).congr_deriv ?_
      simp [mv3, crossMx, twist, rt2Transform]; ring
    · refine (((q0.fun_mul q2).mul_const 2).fun_add ((q1.fun_mul q3).mul_const 2)).congr_deriv ?_
      simp [hu0', mv3, quatJacobian, twist, rt2Transform, quat2r]; ring
    · refine (((q0.fun_mul q3).mul_const (-2)).fun_add ((q1.fun_mul q2).mul_const 2)).congr_deriv ?_
      simp [hu0', mv3, quatJacobian, twist, rt2Transform, quat2r]; ring
    · refine ((((q0.fun_neg.fun_mul q0).fun_sub (q1.fun_mul q1)).fun_add (q2.fun_mul q2)).fun_add (q3.fun_mul q3)).congr_deriv ?_
      simp [hu0', mv3, quatJacobian, twist, rt2Transform, quat2r]; ring
    · refine (ht 2).congr_deriv ?_
      simp [mv3, crossMx, twist, rt2Transform]; ring
    · exact hn.congr_deriv (by simp [twist])
    · exact hn.congr_deriv (by simp [twist])
    · exact hn.congr_deriv (by simp [twist])
    · exact h1.congr_deriv (by simp [twist])

/-- Concrete: for every rigid `T` and every perturbation there are curves as in the theorems. -/
example (T : M4) (ξ : V6) : ∃ c : ℝ → M4, c 0 = T ∧ PerturbsBy c ξ := by
  have hd : ∀ i, HasDerivAt (fun s : ℝ => (s • ξ) i) (ξ i) 0 := by
    intro i
    have := (hasDerivAt_id (0 : ℝ)).mul_const (ξ i)
    simpa using this
  have h := C62_updates (fun s => s • ξ) ξ (by simp) hd T .identity
  exact ⟨_, h.2.1, h.1⟩

end Verif.Kinematics
