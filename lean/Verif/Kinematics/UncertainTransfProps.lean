import Verif.Kinematics.UncertainProps

/-!
# Uncertain transformations: C68; covariances stay covariances: C59
-/

namespace Verif.Kinematics

open Matrix

/-! ## lemmas -/

theorem mulV4_eq {X : Transformation} (h : Built X) (p : V4) : X.mulV4 p = X.T.mulVec p := (C57_action X X h h 0 p).2.1

theorem T_inverse {X : Transformation} (h : Built X) : X.inverse.T = inverseTransform X.T :=
  (C57_functions 1 0 1 (by constructor <;> simp) (by rw [← rt_one]; exact rigid_rt (by constructor <;> simp) 0) X h).2.2.2.2.2.2.2.2.symm

theorem rigid_T {X : Transformation} (h : Built X) : IsRigid X.T := (C57_unit X h).2.2

theorem T_mul {X Y : Transformation} (h : Built X) (h' : Built Y) : (X.mul Y).T = X.T * Y.T := (C57_matrix X Y h h').1

/-- the velocity of `T p`, when `T` is perturbed by `ξ` and `p` moves with `w` -/
theorem point_velocity {c : ℝ → M4} {ξ : V6} {b : ℝ → V4} {w : V4} (hc : PerturbsBy c ξ)
    (hb : ∀ i, HasDerivAt (fun s => b s i) (w i) 0) (i : Fin 4) :
    HasDerivAt (fun s => (c s).mulVec (b s) i) (((boxMinus ((c 0).mulVec (b 0))).mulVec ξ + (c 0).mulVec w) i) 0 := by
  refine (derivM_mulVec hc hb i).congr_deriv ?_
  rw [← mulVec_mulVec, twist_mulVec]

/-- **C68** Uncertain transformations: composition (with an uncertain transformation on either side or on both),
inversion and the transformation of points return the exact operation on the means, and the covariance of the
perturbation of the result (of the point) to first order.  A transformation or point without uncertainty enters
with the covariance 0.  `setUOplus` stores the covariance which the update `oplus` of that covariance propagates. -/
theorem C68_transformations (P R : UTransf) (X : Transformation) (hP : Built P.X) (hX : Built X)
    (p : UPoint) (v : UVec 3) :
    ((P.mul R).X = P.X.mul R.X ∧ PosePropagates2 (fun A B => A * B) P.X.T R.X.T P.U R.U (P.mul R).U) ∧
    ((P.mulT X).X = P.X.mul X ∧ PosePropagates2 (fun A B => A * B) P.X.T X.T P.U 0 (P.mulT X).U) ∧
    ((X.mulUT P).X = X.mul P.X ∧ PosePropagates2 (fun A B => A * B) X.T P.X.T 0 P.U (X.mulUT P).U) ∧
    (P.inverse.X = P.X.inverse ∧ PosePropagates2 (fun A _ => inverseTransform A) P.X.T 1 P.U 0 P.inverse.U) ∧
    ((P.mulUP p).p = P.X.mulHP p.p ∧ PosePointPropagates (fun A q => A.mulVec q) P.X.T p.p P.U p.U (P.mulUP p).U) ∧
    ((P.mulHP p.p).p = P.X.mulHP p.p ∧ PosePointPropagates (fun A q => A.mulVec q) P.X.T p.p P.U 0 (P.mulHP p.p).U) ∧
    ((X.mulUP p).p = X.mulHP p.p ∧ PosePointPropagates (fun A q => A.mulVec q) X.T p.p 0 p.U (X.mulUP p).U) ∧
    ((X.rotateU v).v = X.rotate v.v ∧ Propagates (fun x => X.C.mulVec x) v.v v.E (X.rotateU v).E) ∧
    (∀ U : M6, (P.setUOplus U).X = P.X ∧ ∃ J : M6, (P.setUOplus U).U = J * U * J.transpose ∧
      ∀ (d : ℝ → V6) (w : V6), d 0 = 0 → (∀ i, HasDerivAt (fun s => d s i) (w i) 0) →
        PerturbsBy (fun s => (P.X.oplus (d s)).T) (J.mulVec w)) := by
  have comp : ∀ {T1 : M4}, IsRigid T1 → ∀ (c1 c2 : ℝ → M4) (ξ1 ξ2 : V6), c1 0 = T1 → PerturbsBy c1 ξ1 → PerturbsBy c2 ξ2 →
      PerturbsBy (fun s => c1 s * c2 s) ((1 : M6).mulVec ξ1 + (boxTimes T1).mulVec ξ2) := by
    intro T1 hr c1 c2 ξ1 ξ2 e p1 p2
    subst e
    rw [one_mulVec]
    exact (C62_composition c1 c2 ξ1 ξ2 0 hr p1 p2).1
  have act : ∀ (T : M4) (q : V4) (c : ℝ → M4) (ξ : V6) (b : ℝ → V4) (w : V4), c 0 = T → PerturbsBy c ξ → b 0 = q →
      (∀ i, HasDerivAt (fun s => b s i) (w i) 0) →
      ∀ i, HasDerivAt (fun s => (c s).mulVec (b s) i) (((boxMinus (T.mulVec q)).mulVec ξ + T.mulVec w) i) 0 := by
    intro T q c ξ b w e hc e' hb i
    subst e e'
    exact point_velocity hc hb i
  refine ⟨⟨rfl, 1, boxTimes P.X.T, ?_, ?_⟩, ⟨rfl, 1, boxTimes P.X.T, ?_, ?_⟩, ⟨rfl, 1, boxTimes X.T, ?_, ?_⟩,
    ⟨rfl, -boxTimes (inverseTransform P.X.T), 0, ?_, ?_⟩, ⟨rfl, boxMinus (P.X.T.mulVec p.p), P.X.T, act _ _, ?_⟩,
    ⟨rfl, boxMinus (P.X.T.mulVec p.p), P.X.T, act _ _, ?_⟩, ⟨rfl, boxMinus (X.T.mulVec p.p), X.T, act _ _, ?_⟩,
    ⟨rfl, X.C, ?_, rfl⟩, ?_⟩
  · exact fun c1 c2 ξ1 ξ2 e _ p1 p2 => comp (rigid_T hP) c1 c2 ξ1 ξ2 e p1 p2
  · simp [UTransf.mul]
  · exact fun c1 c2 ξ1 ξ2 e _ p1 p2 => comp (rigid_T hP) c1 c2 ξ1 ξ2 e p1 p2
  · simp [UTransf.mulT]
  · exact fun c1 c2 ξ1 ξ2 e _ p1 p2 => comp (rigid_T hX) c1 c2 ξ1 ξ2 e p1 p2
  · simp [Transformation.mulUT]
  · intro c1 c2 ξ1 ξ2 e _ p1 _
    have := (C62_composition c1 c1 ξ1 ξ1 0 (by rw [e]; exact rigid_T hP) p1 p1).2.1
    rw [e] at this
    simpa [neg_mulVec] using this
  · simp [UTransf.inverse, T_inverse hP]
  · simp [UTransf.mulUP, mulV4_eq hP]
  · simp [UTransf.mulHP, mulV4_eq hP]
  · simp [Transformation.mulUP]
  · exact jac_congr (jac_linear X.C 0 v.v) (by simp)
  · intro U
    refine ⟨rfl, UTransf.S P.X, rfl, ?_⟩
    intro d w h0 hd
    exact (C62_updates d w h0 hd 1 P.X).2.2.1

/-- Concrete: a rotation by a right angle with a translation, uncertain in all six directions. -/
example : ∃ P : UTransf, Built P.X ∧ IsCov P.U ∧ P.X ≠ .identity ∧ P.U ≠ 0 := by
  refine ⟨⟨.mkQT ![1, 0, 0, 1] ![1, 2, 3], 1⟩, .mkQT _ _ (by intro e; simpa using congrFun e 0), ⟨by simp, fun x => ?_⟩, ?_, ?_⟩
  · rw [one_mulVec]; exact Finset.sum_nonneg fun i _ => mul_self_nonneg _
  · intro e
    have := congrFun (congrArg Transformation.t e) 0
    simp [Transformation.mkQT, Transformation.identity] at this
  · exact one_ne_zero

/-! ## C59 -/

theorem PosePropagates2.cov {F : M4 → M4 → M4} {T1 T2 : M4} {U1 U2 U' : M6} (h : PosePropagates2 F T1 T2 U1 U2 U')
    (h1 : IsCov U1) (h2 : IsCov U2) : IsCov U' := by
  obtain ⟨A, B, -, rfl⟩ := h
  exact (h1.conj A).add (h2.conj B)

theorem PosePointPropagates.cov {F : M4 → V4 → V4} {T : M4} {p : V4} {U : M6} {V U' : M4}
    (h : PosePointPropagates F T p U V U') (h1 : IsCov U) (h2 : IsCov V) : IsCov U' := by
  obtain ⟨A, B, -, rfl⟩ := h
  exact (h1.conj A).add (h2.conj B)

theorem cov_diagonal {ι : Type} [Fintype ι] [DecidableEq ι] {d : ι → ℝ} (h : ∀ i, 0 ≤ d i) : IsCov (Matrix.diagonal d) := by
  refine ⟨by simp, fun x => ?_⟩
  refine Finset.sum_nonneg fun i _ => ?_
  rw [mulVec_diagonal]
  nlinarith [mul_nonneg (h i) (mul_self_nonneg (x i))]

/-- **C59** Every covariance the library computes from covariances is symmetric and positive semidefinite: vectors. -/
theorem C59_vectors {n : Nat} (a b : UVec n) (t : UScalar) (w : Fin n → ℝ) (s : ℝ) (M : Matrix (Fin n) (Fin n) ℝ)
    (ha : IsCov a.E) (hb : IsCov b.E) (ht : 0 ≤ t.E) :
    IsCov (UVec.zero : UVec n).E ∧ IsCov (UVec.ofVec w).E ∧ IsCov (a.add b).E ∧ IsCov (a.sub b).E ∧ IsCov (a.addV w).E ∧
    IsCov (a.subV w).E ∧ IsCov (a.scale s).E ∧ IsCov (UVec.mulM M a).E ∧ 0 ≤ (a.dot b).E ∧ 0 ≤ (a.dotV w).E ∧
    IsCov (a.mulS t).E ∧ IsCov (t.mulVec w).E ∧ IsCov a.normalized.E := by
  have h := C68_vectors a b t w s M
  obtain ⟨⟨-, h1⟩, ⟨-, h2⟩, ⟨-, h3⟩, ⟨-, h4⟩, ⟨-, h5⟩, ⟨-, h6⟩, ⟨-, h7⟩, ⟨-, h8⟩, ⟨-, h9⟩, ⟨-, h10⟩, -⟩ := h
  exact ⟨IsCov.zero, IsCov.zero, h1.cov ha hb, h2.cov ha hb, h3.cov ha, h4.cov ha, h5.cov ha, h6.cov ha,
    asMat_cov (h7.cov ha hb), asMat_cov (h8.cov ha), h9.cov ha (isCov_asMat ht), h10.cov (isCov_asMat ht), ha.conj _⟩

/-- **C59** scalars: no operation returns a negative variance -/
theorem C59_scalars (a b : UScalar) (w : ℝ) (ha : 0 ≤ a.E) (hb : 0 ≤ b.E) :
    0 ≤ (a.add b).E ∧ 0 ≤ (a.sub b).E ∧ 0 ≤ (a.mul b).E ∧ 0 ≤ (a.div b).E ∧ 0 ≤ (a.addC w).E ∧ 0 ≤ (a.subC w).E ∧
    0 ≤ (a.mulC w).E ∧ 0 ≤ (a.divC w).E := by
  have key : ∀ x e : ℝ, 0 ≤ e → 0 ≤ x * e * x := fun x e h => by nlinarith [mul_nonneg h (mul_self_nonneg x)]
  exact ⟨add_nonneg ha hb, add_nonneg ha hb, add_nonneg (key _ _ ha) (key _ _ hb), add_nonneg (key _ _ ha) (key _ _ hb),
    ha, ha, key _ _ ha, key _ _ ha⟩

/-- **C59** points -/
theorem C59_points (P R : UPoint) (r : V4) (hP : IsCov P.U) (hR : IsCov R.U) (x : V3) (U : M3) (hU : IsCov U) :
    IsCov (UPoint.ofPoint r).U ∧ IsCov (UPoint.ofU3 x U).U ∧ IsCov P.U3 ∧ (∀ V, P.uAvForm = some V → IsCov V) ∧
    (∀ Q, UPoint.setUOplus r U = some Q → IsCov Q.U) ∧ IsCov P.normalize.U ∧ IsCov (P.addHP r).U ∧ IsCov (P.subHP r).U ∧
    IsCov (UPoint.hpAddU r P).U ∧ IsCov (UPoint.hpSubU r P).U ∧ IsCov (P.add R).U ∧ IsCov (P.sub R).U := by
  refine ⟨IsCov.zero, ((C68_points P R).2.2.2.2.2 x U).2.cov hU, hP.conj _, ?_, ?_, hP.conj _, hP, hP, hP, hP,
    (hP.conj _).add (hR.conj _), (hP.conj _).add (hR.conj _)⟩
  · intro V h
    unfold UPoint.uAvForm at h
    split at h
    · rw [← Option.some.inj h]; exact hP.conj _
    · exact absurd h (by simp)
  · intro Q h
    exact ((C68_points ⟨r, 0⟩ R).2.2.2.2.1 U Q h).2.cov hU

/-- **C59** transformations -/
theorem C59_transformations (P R : UTransf) (X : Transformation) (p : UPoint) (v : UVec 3) (q : V4) (U : M6) (tv rv : ℝ)
    (hP : IsCov P.U) (hR : IsCov R.U) (hp : IsCov p.U) (hv : IsCov v.E) (hU : IsCov U) (htv : 0 ≤ tv) (hrv : 0 ≤ rv) :
    IsCov (P.mul R).U ∧ IsCov P.inverse.U ∧ IsCov (P.mulT X).U ∧ IsCov (X.mulUT P).U ∧ IsCov (P.mulUP p).U ∧
    IsCov (P.mulHP q).U ∧ IsCov (X.mulUP p).U ∧ IsCov (X.rotateU v).E ∧ IsCov P.uOplus ∧ IsCov (P.setUOplus U).U ∧
    IsCov (UTransf.diagonal tv rv) := by
  refine ⟨hP.add (hR.conj _), hP.conj _, hP, hP.conj _, (hP.conj _).add (hp.conj _), hP.conj _, hp.conj _, hv.conj _, ?_,
    hU.conj _, cov_diagonal (by rintro (i | i) <;> simpa)⟩
  unfold UTransf.uOplus
  rw [← transpose_nonsing_inv]
  exact hP.conj _

theorem S_inv (X : Transformation) : UTransf.S X * fromBlocks 1 (crossMx X.t) 0 1 = 1 ∧
    fromBlocks 1 (crossMx X.t) 0 1 * UTransf.S X = 1 := by
  constructor <;> unfold UTransf.S <;> rw [fromBlocks_multiply] <;> simp

theorem S_cancel (X : Transformation) : (UTransf.S X)⁻¹ * UTransf.S X = 1 ∧ UTransf.S X * (UTransf.S X)⁻¹ = 1 := by
  have hu : IsUnit (UTransf.S X).det := by
    have := congrArg det (S_inv X).1
    rw [det_mul, det_one] at this
    exact IsUnit.of_mul_eq_one _ this
  exact ⟨nonsing_inv_mul _ hu, mul_nonsing_inv _ hu⟩

theorem quatS_InvS (p : V4) : quatS p * quatInvS p = sqNorm p • (1 : M3) := by
  ext i j
  rw [mm4]
  unfold sqNorm
  rw [Fin.sum_univ_four]
  fin_cases i <;> fin_cases j <;> simp [quatS, quatInvS] <;> ring

/-- **C59** The covariance read back in the form it was set in: of the update `oplus` of a transformation, and of a
point, where it is exact for points of norm one and the calls throw exactly when the norm differs from one by more
than 1e-6 (in between the covariance is scaled by the fourth power of the norm). -/
theorem C59_roundtrip (P : UTransf) (U : M6) (p : V4) (V : M3) :
    (P.setUOplus U).uOplus = U ∧ (P.setUOplus P.uOplus).U = P.U ∧
    (IsUnit4 p → ∃ Q, UPoint.setUOplus p V = some Q ∧ Q.p = p ∧ Q.uAvForm = some V) ∧
    (∀ Q, UPoint.setUOplus p V = some Q → Q.uAvForm = some ((norm p) ^ 4 • V)) ∧
    (1 / 10 ^ 6 < |norm p - 1| → UPoint.setUOplus p V = none ∧ ∀ W, (UPoint.mk p W).uAvForm = none) ∧
    (|norm p - 1| ≤ 1 / 10 ^ 6 → ∃ Q, UPoint.setUOplus p V = some Q) := by
  obtain ⟨h1, h2⟩ := S_cancel P.X
  have h1' : (UTransf.S P.X).transpose * (UTransf.S P.X).transpose⁻¹ = 1 := by
    rw [← transpose_nonsing_inv, ← transpose_mul, h1, transpose_one]
  have h2' : (UTransf.S P.X).transpose⁻¹ * (UTransf.S P.X).transpose = 1 := by
    rw [← transpose_nonsing_inv, ← transpose_mul, h2, transpose_one]
  have hsq : sqNorm p = norm p * norm p := by
    unfold norm
    rw [Real.mul_self_sqrt]
    exact Finset.sum_nonneg fun i _ => mul_self_nonneg _
  have hS : ∀ Q, UPoint.setUOplus p V = some Q → Q.uAvForm = some ((norm p) ^ 4 • V) := by
    intro Q h
    unfold UPoint.setUOplus at h
    split at h
    · rename_i hn
      rw [← Option.some.inj h]
      unfold UPoint.uAvForm
      simp only
      rw [if_pos hn]
      congr 1
      calc quatS p * (quatInvS p * V * (quatInvS p).transpose) * (quatS p).transpose
          = (quatS p * quatInvS p) * V * (quatS p * quatInvS p).transpose := by
            rw [transpose_mul]; simp only [Matrix.mul_assoc]
        _ = (norm p) ^ 4 • V := by
            rw [quatS_InvS, hsq]
            simp only [transpose_smul, transpose_one, Matrix.smul_mul, Matrix.mul_smul, Matrix.one_mul, Matrix.mul_one, smul_smul]
            congr 1; ring
    · exact absurd h (by simp)
  refine ⟨?_, ?_, ?_, hS, ?_, ?_⟩
  · unfold UTransf.uOplus UTransf.setUOplus
    simp only
    rw [Matrix.mul_assoc, Matrix.mul_assoc (UTransf.S P.X * U), h1', Matrix.mul_one, ← Matrix.mul_assoc, h1, Matrix.one_mul]
  · unfold UTransf.uOplus UTransf.setUOplus
    simp only
    rw [Matrix.mul_assoc, Matrix.mul_assoc ((UTransf.S P.X)⁻¹ * P.U), h2', Matrix.mul_one, ← Matrix.mul_assoc, h2, Matrix.one_mul]
  · intro hu
    have hn := norm_of_unit hu
    have hnear : UPoint.nearUnit p := by unfold UPoint.nearUnit; rw [hn]; norm_num
    have he : ∃ Q, UPoint.setUOplus p V = some Q ∧ Q.p = p := by
      unfold UPoint.setUOplus; rw [if_pos hnear]; exact ⟨_, rfl, rfl⟩
    obtain ⟨Q, hQ, hp⟩ := he
    refine ⟨Q, hQ, hp, ?_⟩
    rw [hS Q hQ, hn]; simp
  · intro hf
    have hnear : ¬ UPoint.nearUnit p := not_le.2 hf
    refine ⟨?_, fun W => ?_⟩
    · unfold UPoint.setUOplus; rw [if_neg hnear]
    · unfold UPoint.uAvForm; rw [if_neg hnear]
  · intro hn
    have hnear : UPoint.nearUnit p := hn
    unfold UPoint.setUOplus; rw [if_pos hnear]; exact ⟨_, rfl⟩

theorem rigid_mul {T T' : M4} (hT : IsRigid T) (hT' : IsRigid T') : IsRigid (T * T') := by
  rw [← rt_of_rigid hT, ← rt_of_rigid hT', rt_mul]
  exact rigid_rt (IsRotation.mul hT.1 hT'.1) _

theorem boxMinus_conj {T : M4} (h : IsRigid T) (p : V4) : boxMinus (T.mulVec p) * boxTimes T = T * boxMinus p := by
  apply Matrix.toLin'.injective
  apply LinearMap.ext
  intro ξ
  simp only [Matrix.toLin'_apply]
  rw [← mulVec_mulVec, ← mulVec_mulVec, ← twist_mulVec, ← twist_mulVec, mulVec_mulVec, mulVec_mulVec, twist_conj h]

/-- **C59** The group laws hold for the uncertain transformations too, with their covariances (of independent
transformations), and points may be transformed one transformation at a time. -/
theorem C59_consistent (P Q R : UTransf) (hP : Built P.X) (hQ : Built Q.X) (hR : Built R.X) (p : UPoint) :
    (P.mul Q).mul R = P.mul (Q.mul R) ∧ P.inverse.inverse = P ∧ (P.mul Q).inverse = Q.inverse.mul P.inverse ∧
    P.mulT .identity = P ∧ Transformation.identity.mulUT P = P ∧
    (P.mul ⟨Q.X, 0⟩ = P.mulT Q.X ∧ (UTransf.mk P.X 0).mul Q = P.X.mulUT Q) ∧
    (P.mul Q).mulUP p = P.mulUP (Q.mulUP p) ∧
    (P.mulUP ⟨p.p, 0⟩ = P.mulHP p.p ∧ (UTransf.mk P.X 0).mulUP p = P.X.mulUP p) ∧
    P.X.inverse.mulUP (P.X.mulUP p) = p := by
  have g := C57_group P.X Q.X R.X hP hQ hR
  have o := fun (T T' : M4) (h : IsRigid T) (h' : IsRigid T') => C62_operators 0 0 T T' h h'
  have rP := rigid_T hP
  have rQ := rigid_T hQ
  have rPi : IsRigid P.X.inverse.T := rigid_T (.inverse _ hP)
  have rQi : IsRigid Q.X.inverse.T := rigid_T (.inverse _ hQ)
  have bmul := fun (T T' : M4) (h : IsRigid T) (h' : IsRigid T') => (o T T' h h').2.2.2.1
  have bone := (o _ _ rP rP).2.2.2.2.1
  have binv := (o _ _ rP rP).2.2.2.2.2
  have mI : P.X.T * P.X.inverse.T = 1 ∧ P.X.inverse.T * P.X.T = 1 :=
    ⟨(C57_matrix P.X Q.X hP hQ).2.1, (C57_matrix P.X Q.X hP hQ).2.2.1⟩
  have mext : ∀ A B : UTransf, A.X = B.X → A.U = B.U → A = B := by
    rintro ⟨a, b⟩ ⟨c, d⟩ rfl rfl; rfl
  have pext : ∀ A B : UPoint, A.p = B.p → A.U = B.U → A = B := by
    rintro ⟨a, b⟩ ⟨c, d⟩ rfl rfl; rfl
  have act := C57_action P.X Q.X hP hQ 0 p.p
  refine ⟨mext _ _ g.1 ?_, mext _ _ g.2.2.2.2.2.1 ?_, mext _ _ g.2.2.2.2.2.2.1 ?_, mext _ _ g.2.1 rfl, mext _ _ g.2.2.1 ?_,
    ⟨mext _ _ rfl (by simp [UTransf.mul, UTransf.mulT]), mext _ _ rfl (by simp [UTransf.mul, Transformation.mulUT])⟩,
    pext _ _ act.2.2.2.2.1 ?_,
    ⟨pext _ _ rfl (by simp [UTransf.mulUP, UTransf.mulHP]), pext _ _ rfl (by simp [UTransf.mulUP, Transformation.mulUP])⟩,
    pext _ _ ?_ ?_⟩
  · simp only [UTransf.mul]
    rw [T_mul hP hQ, bmul _ _ rP rQ, transpose_mul]
    simp only [Matrix.mul_add, Matrix.add_mul, Matrix.mul_assoc, add_assoc]
  · simp only [UTransf.inverse]
    rw [g.2.2.2.2.2.1]
    have h : boxTimes P.X.T * boxTimes P.X.inverse.T = 1 := by rw [← bmul _ _ rP rPi, mI.1, bone]
    have h' : (boxTimes P.X.inverse.T).transpose * (boxTimes P.X.T).transpose = 1 := by rw [← transpose_mul, h, transpose_one]
    rw [Matrix.mul_assoc, Matrix.mul_assoc (boxTimes P.X.inverse.T * P.U), h', Matrix.mul_one, ← Matrix.mul_assoc, h, Matrix.one_mul]
  · simp only [UTransf.inverse, UTransf.mul]
    rw [g.2.2.2.2.2.2.1, T_mul (.inverse _ hQ) (.inverse _ hP), bmul _ _ rQi rPi, transpose_mul]
    have h : boxTimes P.X.inverse.T * boxTimes P.X.T = 1 := by rw [← bmul _ _ rPi rP, mI.2, bone]
    have h' : (boxTimes P.X.T).transpose * (boxTimes P.X.inverse.T).transpose = 1 := by rw [← transpose_mul, h, transpose_one]
    rw [Matrix.mul_add, Matrix.add_mul, add_comm]
    congr 1
    · calc _ = boxTimes Q.X.inverse.T * (boxTimes P.X.inverse.T * boxTimes P.X.T) * Q.U *
            ((boxTimes P.X.T).transpose * (boxTimes P.X.inverse.T).transpose) * (boxTimes Q.X.inverse.T).transpose := by
            simp only [Matrix.mul_assoc]
        _ = _ := by rw [h, h', Matrix.mul_one, Matrix.mul_one]
    · simp only [Matrix.mul_assoc]
  · simp only [Transformation.mulUT]
    have : Transformation.identity.T = 1 := (C57_matrix P.X Q.X hP hQ).2.2.2.1
    rw [this, bone]; simp
  · simp only [UTransf.mulUP, UTransf.mul]
    rw [act.2.2.2.2.1, T_mul hP hQ]
    rw [mulV4_eq hP, mulV4_eq hQ]
    simp only [Matrix.mul_add, Matrix.add_mul, transpose_mul]
    rw [add_assoc]
    congr 1
    congr 1
    · have e := boxMinus_conj rP (Q.X.T.mulVec p.p)
      have e' := congrArg transpose e
      rw [transpose_mul, transpose_mul] at e'
      calc _ = (boxMinus (P.X.T.mulVec (Q.X.T.mulVec p.p)) * boxTimes P.X.T) * Q.U *
            ((boxTimes P.X.T).transpose * (boxMinus (P.X.T.mulVec (Q.X.T.mulVec p.p))).transpose) := by
            simp only [Matrix.mul_assoc]
        _ = _ := by rw [e, e']; simp only [Matrix.mul_assoc]
    · simp only [Matrix.mul_assoc]
  · exact act.2.2.2.2.2.2.2.2.1
  · simp only [Transformation.mulUP]
    have h' : (P.X.T).transpose * (P.X.inverse.T).transpose = 1 := by rw [← transpose_mul, mI.2, transpose_one]
    rw [Matrix.mul_assoc, Matrix.mul_assoc (P.X.T * p.U), h', Matrix.mul_one, ← Matrix.mul_assoc, mI.2, Matrix.one_mul]

/-- Concrete: a covariance of a unit point, set and read back. -/
example : IsUnit4 ![0, 0, 0, 1] ∧ IsCov (1 : M3) := by
  refine ⟨by simp [IsUnit4], by simp, fun x => ?_⟩
  rw [one_mulVec]; exact Finset.sum_nonneg fun i _ => mul_self_nonneg _

end Verif.Kinematics
