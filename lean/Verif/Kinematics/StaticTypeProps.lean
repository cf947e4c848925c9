import Verif.Kinematics.StaticType
import Verif.Kinematics.UncertainTransfProps

/-!
# C147: uncertain objects seen through references to their base class
-/

namespace Verif.Python

open Matrix Verif.Kinematics

/-! ## Specification -/

/-- a transformation, with or without uncertainty -/
def IsTf (o : Obj) : Prop := o.cls = .tf ∨ o.cls = .utf
/-- a point, with or without uncertainty -/
def IsHp (o : Obj) : Prop := o.cls = .hp ∨ o.cls = .uhp

/-- `r` is the product of the transformations `a` and `b` with their uncertainty: it is uncertain if one of them is, and has the covariance that results from theirs -/
def IsProduct (a b r : Obj) : Prop :=
  IsTf r ∧ (r.cls = .utf ↔ a.cls = .utf ∨ b.cls = .utf) ∧ r.asTf = a.asTf.mul b.asTf ∧
  PosePropagates2 (fun A B => A * B) a.asTf.T b.asTf.T a.asUtf.U b.asUtf.U r.asUtf.U

/-- the same for a transformation and a point -/
def IsImage (a b r : Obj) : Prop :=
  IsHp r ∧ (r.cls = .uhp ↔ a.cls = .utf ∨ b.cls = .uhp) ∧ r.asHp = a.asTf.mulHP b.asHp ∧
  PosePointPropagates (fun A q => A.mulVec q) a.asTf.T b.asHp a.asUtf.U b.asUhp.U r.asUhp.U

/-- **C147, the claim**: a product of transformations, or of a transformation and a point, has the uncertainty of its operands, whether they are seen as what they are or as their base class. -/
def C147_claim : Prop := ∀ a b : Expr, Built a.obj.asTf →
  (IsTf a.obj → IsTf b.obj → ∃ r, exprMul a b = some r ∧ IsProduct a.obj b.obj r) ∧
  (IsTf a.obj → IsHp b.obj → ∃ r, exprMul a b = some r ∧ IsImage a.obj b.obj r)

/-! ## Proofs -/

theorem curve (T : M4) (ξ : V6) : PerturbsBy (fun s => T + s • (twist ξ * T)) ξ := by
  intro i j
  have e : (fun s : ℝ => (T + s • (twist ξ * T)) i j) = fun s => T i j + s * (twist ξ * T) i j := by
    funext s; simp
  rw [e]
  have : HasDerivAt (fun s : ℝ => T i j + s * (twist ξ * T) i j) (1 * (twist ξ * T) i j) 0 :=
    ((hasDerivAt_id (0 : ℝ)).mul_const _).const_add _
  simpa using this

/-- the covariance of a product is determined -/
theorem cov_unique {T1 T2 : M4} (h1 : IsRigid T1) (h2 : IsRigid T2) {U1 U2 U' : M6} (h : PosePropagates2 (fun A B => A * B) T1 T2 U1 U2 U') :
    U' = U1 + boxTimes T1 * U2 * (boxTimes T1).transpose := by
  obtain ⟨A, B, hAB, rfl⟩ := h
  have key : ∀ ξ1 ξ2 : V6, A.mulVec ξ1 + B.mulVec ξ2 = ξ1 + (boxTimes T1).mulVec ξ2 := by
    intro ξ1 ξ2
    have p := hAB (fun s => T1 + s • (twist ξ1 * T1)) (fun s => T2 + s • (twist ξ2 * T2)) ξ1 ξ2 (by simp) (by simp) (curve _ _) (curve _ _)
    have q := (C62_composition (fun s => T1 + s • (twist ξ1 * T1)) (fun s => T2 + s • (twist ξ2 * T2)) ξ1 ξ2 0 (by simpa using h1) (curve _ _) (curve _ _)).1
    simp only [zero_smul, add_zero] at q
    have e : twist (A.mulVec ξ1 + B.mulVec ξ2) * (T1 * T2) = twist (ξ1 + (boxTimes T1).mulVec ξ2) * (T1 * T2) := by
      ext i j
      have := (p i j).unique (q i j)
      simpa using this
    have hr := C57_functions (transform2C (T1 * T2)) 0 (T1 * T2) (rigid_mul h1 h2).1 (rigid_mul h1 h2) .identity .identity
    have := congrArg (· * inverseTransform (T1 * T2)) e
    simp only [Matrix.mul_assoc _ (T1 * T2)] at this
    rw [hr.2.2.2.2.2.1, Matrix.mul_one, Matrix.mul_one] at this
    exact twist_inj this
  have hA : A = 1 := by
    ext i j
    have := congrFun (key (Pi.single j 1) 0) i
    simpa [Matrix.mulVec_zero, Matrix.one_apply, Pi.single_apply] using this
  have hB : B = boxTimes T1 := by
    ext i j
    have := congrFun (key 0 (Pi.single j 1)) i
    simpa using this
  subst hA hB
  simp


theorem cov_point_unique {T : M4} {p : V4} {U : M6} {V U' : M4} (h : PosePointPropagates (fun A q => A.mulVec q) T p U V U') :
    U' = boxMinus (T.mulVec p) * U * (boxMinus (T.mulVec p)).transpose + T * V * T.transpose := by
  obtain ⟨A, B, hAB, rfl⟩ := h
  have key : ∀ (ξ : V6) (w : V4), A.mulVec ξ + B.mulVec w = (boxMinus (T.mulVec p)).mulVec ξ + T.mulVec w := by
    intro ξ w
    funext i
    have hb : ∀ i, HasDerivAt (fun s : ℝ => (p + s • w) i) (w i) 0 := by
      intro i
      have : HasDerivAt (fun s : ℝ => p i + s * w i) (1 * w i) 0 := ((hasDerivAt_id (0 : ℝ)).mul_const _).const_add _
      simpa using this
    have q := hAB (fun s => T + s • (twist ξ * T)) ξ (fun s => p + s • w) w (by simp) (curve T ξ) (by simp) hb i
    have q' := point_velocity (curve T ξ) hb i
    simp only [zero_smul, add_zero] at q'
    exact q.unique q'
  have hA : A = boxMinus (T.mulVec p) := by
    ext i j
    have := congrFun (key (Pi.single j 1) 0) i
    simpa using this
  have hB : B = T := by
    ext i j
    have := congrFun (key 0 (Pi.single j 1)) i
    simpa using this
  subst hA hB
  rfl

theorem conj_zero {ι : Type} [Fintype ι] [DecidableEq ι] {B B' U : Matrix ι ι ℝ} (h : B' * B = 1) (hU : B * U * B.transpose = 0) : U = 0 := by
  have h' : B.transpose * B'.transpose = 1 := by rw [← transpose_mul, h, transpose_one]
  calc U = (B' * B) * U * (B.transpose * B'.transpose) := by rw [h, h', Matrix.one_mul, Matrix.mul_one]
    _ = B' * (B * U * B.transpose) * B'.transpose := by simp only [Matrix.mul_assoc]
    _ = 0 := by rw [hU]; simp

/-- **C147, exactly**: a product of transformations has the right mean however the operands are seen; it has the right uncertainty exactly if the right operand is seen as what it is, and the left one too unless the
right one is uncertain, or if the left operand is seen as an uncertain one and the right one has no uncertainty. -/
theorem C147_product_partial (a b : Expr) (ha : IsTf a.obj) (hb : IsTf b.obj) (hA : Built a.obj.asTf) (hB : Built b.obj.asTf) :
    ∃ r, exprMul a b = some r ∧ r.asTf = a.obj.asTf.mul b.obj.asTf ∧
      (IsProduct a.obj b.obj r ↔
        (b.static = b.obj.cls ∧ (a.static = a.obj.cls ∨ b.obj.cls = .utf)) ∨ (a.static = .utf ∧ b.obj.asUtf.U = 0)) := by
  obtain ⟨a, sa, oa⟩ := a
  obtain ⟨b, sb, ob⟩ := b
  dsimp only at ha hb hA hB ⊢
  have c68 := fun (P R : UTransf) (X : Transformation) (hP : Built P.X) (hX : Built X) => C68_transformations P R X hP hX ⟨0, 0⟩ ⟨0, 0⟩
  cases a with
  | tf X =>
    have : sa = .tf := by cases sa <;> first | rfl | (exact (Bool.false_ne_true oa).elim)
    subst this
    cases b with
    | tf Y => 
      have : sb = .tf := by cases sb <;> first | rfl | (exact (Bool.false_ne_true ob).elim)
      subst this
      refine ⟨_, rfl, rfl, ?_⟩
      simpa [IsProduct, IsTf, Obj.cls, T_T, Obj.asTf, Obj.asUtf, UTransf.mulT] using (c68 ⟨X, 0⟩ ⟨X, 0⟩ Y hA hB).2.1.2
    | utf R => 
      cases sb with
      | tf => 
        refine ⟨_, rfl, rfl, ?_⟩
        simp [IsProduct, T_T, Obj.cls]
      | utf => 
        refine ⟨_, rfl, rfl, ?_⟩
        simpa [IsProduct, IsTf, Obj.cls, T_UT, Obj.asTf, Obj.asUtf] using ⟨rfl, (c68 R R X hB hA).2.2.1.2⟩
      | _ => exact (Bool.false_ne_true ob).elim
    | _ => simp [IsTf, Obj.cls] at hb
  | utf P => 
    cases b with
    | tf Y => 
      have : sb = .tf := by cases sb <;> first | rfl | (exact (Bool.false_ne_true ob).elim)
      subst this
      cases sa with
      | tf => 
        refine ⟨_, rfl, rfl, ?_⟩
        simp [IsProduct, T_T, Obj.cls]
      | utf => 
        refine ⟨_, rfl, rfl, ?_⟩
        simpa [IsProduct, IsTf, Obj.cls, UT_T, Obj.asTf, Obj.asUtf] using ⟨rfl, (c68 P P Y hA hB).2.1.2⟩
      | _ => exact (Bool.false_ne_true oa).elim
    | utf R => 
      cases sb with
      | tf => 
        cases sa with
        | tf => 
          refine ⟨_, rfl, rfl, ?_⟩
          simp [IsProduct, T_T, Obj.cls]
        | utf => 
          refine ⟨_, rfl, rfl, ?_⟩
          have h1 := (c68 P R P.X hA hA).1.2
          constructor
          · rintro ⟨-, -, -, h⟩
            refine Or.inr ⟨rfl, ?_⟩
            have := cov_unique (rigid_T hA) (rigid_T hB) h
            simp only [UT_T, Obj.asUtf, UTransf.mulT, Obj.asTf] at this
            exact conj_zero (C62_operators 0 0 _ _ (rigid_T hA) (rigid_T hA)).2.2.2.2.2.2 (by simpa [Obj.asTf, Obj.asUtf] using this)
          · rintro (h | ⟨-, h⟩)
            · simp [Obj.cls] at h
            · simp only [Obj.asUtf] at h
              refine ⟨Or.inr rfl, by simp [Obj.cls, UT_T], rfl, ?_⟩
              simpa [Obj.asTf, Obj.asUtf, UT_T, UTransf.mul, UTransf.mulT, h] using h1
        | _ => exact (Bool.false_ne_true oa).elim
      | utf => 
        have key : ∀ r, r = UT_UT (.utf P) (.utf R) → IsProduct (.utf P) (.utf R) r := by
          rintro r rfl
          exact ⟨Or.inr rfl, by simp [Obj.cls, UT_UT], rfl, (c68 P R P.X hA hA).1.2⟩
        cases sa with
        | tf => exact ⟨_, rfl, rfl, by simp [key _ rfl, Obj.cls]⟩
        | utf => exact ⟨_, rfl, rfl, by simp [key _ rfl, Obj.cls]⟩
        | _ => exact (Bool.false_ne_true oa).elim
      | _ => exact (Bool.false_ne_true ob).elim
    | _ => simp [IsTf, Obj.cls] at hb
  | _ => simp [IsTf, Obj.cls] at ha

/-- **C147, exactly**, for a transformation and a point. -/
theorem C147_image_partial (a b : Expr) (ha : IsTf a.obj) (hb : IsHp b.obj) (hA : Built a.obj.asTf) :
    ∃ r, exprMul a b = some r ∧ r.asHp = a.obj.asTf.mulHP b.obj.asHp ∧
      (IsImage a.obj b.obj r ↔
        (b.static = b.obj.cls ∧ (a.static = a.obj.cls ∨ b.obj.cls = .uhp)) ∨ (a.static = .utf ∧ b.obj.asUhp.U = 0)) := by
  obtain ⟨a, sa, oa⟩ := a
  obtain ⟨b, sb, ob⟩ := b
  dsimp only at ha hb hA ⊢
  have c68 := fun (P : UTransf) (X : Transformation) (hP : Built P.X) (hX : Built X) (q : UPoint) => C68_transformations P P X hP hX q ⟨0, 0⟩
  cases a with
  | tf X =>
    have : sa = .tf := by cases sa <;> first | rfl | (exact (Bool.false_ne_true oa).elim)
    subst this
    cases b with
    | hp p =>
      have : sb = .hp := by cases sb <;> first | rfl | (exact (Bool.false_ne_true ob).elim)
      subst this
      refine ⟨_, rfl, rfl, ?_⟩
      simpa [IsImage, IsHp, Obj.cls, T_HP, Obj.asTf, Obj.asUtf, Obj.asHp, Obj.asUhp, Transformation.mulUP] using (c68 ⟨X, 0⟩ X hA hA ⟨p, 0⟩).2.2.2.2.2.2.1.2
    | uhp R =>
      cases sb with
      | hp =>
        refine ⟨_, rfl, rfl, ?_⟩
        simp [IsImage, T_HP, Obj.cls]
      | uhp =>
        refine ⟨_, rfl, rfl, ?_⟩
        simpa [IsImage, IsHp, Obj.cls, T_UHP, Obj.asTf, Obj.asUtf, Obj.asHp, Obj.asUhp] using ⟨rfl, (c68 ⟨X, 0⟩ X hA hA R).2.2.2.2.2.2.1.2⟩
      | _ => exact (Bool.false_ne_true ob).elim
    | _ => simp [IsHp, Obj.cls] at hb
  | utf P =>
    cases b with
    | hp p =>
      have : sb = .hp := by cases sb <;> first | rfl | (exact (Bool.false_ne_true ob).elim)
      subst this
      cases sa with
      | tf =>
        refine ⟨_, rfl, rfl, ?_⟩
        simp [IsImage, T_HP, Obj.cls]
      | utf =>
        refine ⟨_, rfl, rfl, ?_⟩
        simpa [IsImage, IsHp, Obj.cls, UT_HP, Obj.asTf, Obj.asUtf, Obj.asHp, Obj.asUhp] using ⟨rfl, (c68 P P.X hA hA ⟨p, 0⟩).2.2.2.2.2.1.2⟩
      | _ => exact (Bool.false_ne_true oa).elim
    | uhp R =>
      cases sb with
      | hp =>
        cases sa with
        | tf =>
          refine ⟨_, rfl, rfl, ?_⟩
          simp [IsImage, T_HP, Obj.cls]
        | utf =>
          refine ⟨_, rfl, rfl, ?_⟩
          have h1 := (c68 P P.X hA hA R).2.2.2.2.1.2
          constructor
          · rintro ⟨-, -, -, h⟩
            refine Or.inr ⟨rfl, ?_⟩
            have := cov_point_unique h
            simp only [UT_HP, Obj.asUtf, UTransf.mulHP, Obj.asTf, Obj.asHp, Obj.asUhp] at this
            rw [show P.X.mulV4 R.p = P.X.T.mulVec R.p from mulV4_eq hA _] at this
            have hr := C57_functions (transform2C P.X.T) 0 P.X.T (rigid_T hA).1 (rigid_T hA) .identity .identity
            exact conj_zero hr.2.2.2.2.2.2.1 (by simpa [Obj.asUhp] using this)
          · rintro (h | ⟨-, h⟩)
            · simp [Obj.cls] at h
            · simp only [Obj.asUhp] at h
              refine ⟨Or.inr rfl, by simp [Obj.cls, UT_HP], rfl, ?_⟩
              simpa [Obj.asTf, Obj.asUtf, Obj.asHp, Obj.asUhp, UT_HP, UTransf.mulUP, UTransf.mulHP, h] using h1
        | _ => exact (Bool.false_ne_true oa).elim
      | uhp =>
        have key : ∀ r, r = UT_UHP (.utf P) (.uhp R) → IsImage (.utf P) (.uhp R) r := by
          rintro r rfl
          exact ⟨Or.inr rfl, by simp [Obj.cls, UT_UHP], rfl, (c68 P P.X hA hA R).2.2.2.2.1.2⟩
        cases sa with
        | tf => exact ⟨_, rfl, rfl, by simp [key _ rfl, Obj.cls]⟩
        | utf => exact ⟨_, rfl, rfl, by simp [key _ rfl, Obj.cls]⟩
        | _ => exact (Bool.false_ne_true oa).elim
      | _ => exact (Bool.false_ne_true ob).elim
    | _ => simp [IsHp, Obj.cls] at hb
  | _ => simp [IsTf, Obj.cls] at ha

/-- the left operand: an uncertain identity without uncertainty; the right one: an uncertain identity, seen as a `Transformation` -/
def hiddenLeft : Expr := ⟨.utf ⟨.identity, 0⟩, .utf, rfl⟩
def hiddenRight : Expr := ⟨.utf ⟨.identity, 1⟩, .tf, rfl⟩

/-- **C147 refuted**: the product of an uncertain transformation with one that is seen as a `Transformation` is uncertain, but with a covariance that lacks the right operand's. -/
theorem C147_negation : ¬ C147_claim := by
  intro h
  obtain ⟨r, e, hr⟩ := (h hiddenLeft hiddenRight .identity).1 (Or.inr rfl) (Or.inr rfl)
  obtain ⟨r', e', -, hiff⟩ := C147_product_partial hiddenLeft hiddenRight (Or.inr rfl) (Or.inr rfl) .identity .identity
  rw [e] at e'
  cases e'
  have := hiff.1 hr
  simp [hiddenLeft, hiddenRight, Obj.cls, Obj.asUtf] at this

/-- Concrete: that product claims to be certain. -/
example : ∃ Q, exprMul hiddenLeft hiddenRight = some (.utf Q) ∧ Q.U = 0 := ⟨_, rfl, rfl⟩

/-- **C147** sums and differences of points, and inverses: they are those of the objects if the right operand (for inverses, the operand) is seen as what it is, and for sums and differences either the left one too or the right one is uncertain; the values
are always those. -/
theorem C147_points_partial (a b : Expr) :
    (b.static = b.obj.cls → a.static = a.obj.cls ∨ b.obj.cls = .uhp → exprAdd a b = cppAdd a.obj b.obj ∧ exprSub a b = cppSub a.obj b.obj) ∧
    (exprAdd a b).map Obj.asHp = (cppAdd a.obj b.obj).map Obj.asHp ∧ (exprSub a b).map Obj.asHp = (cppSub a.obj b.obj).map Obj.asHp ∧
    (a.static = a.obj.cls → exprInverse a = cppInverse a.obj) ∧ (exprInverse a).map Obj.asTf = (cppInverse a.obj).map Obj.asTf := by
  obtain ⟨a, sa, oa⟩ := a
  obtain ⟨b, sb, ob⟩ := b
  dsimp only
  refine ⟨?_, ?_, ?_, ?_, ?_⟩
  · intro h
    cases a <;> cases sa <;> first
      | exact (Bool.false_ne_true oa).elim
      | (cases b <;> cases h <;> intro h' <;> first
          | exact ⟨rfl, rfl⟩
          | (rcases h' with h' | h' <;> cases h'))
  · cases a <;> cases sa <;> first
      | exact (Bool.false_ne_true oa).elim
      | (cases b <;> cases sb <;> first
          | exact (Bool.false_ne_true ob).elim
          | rfl)
  · cases a <;> cases sa <;> first
      | exact (Bool.false_ne_true oa).elim
      | (cases b <;> cases sb <;> first
          | exact (Bool.false_ne_true ob).elim
          | rfl)
  · intro h
    cases a <;> cases h <;> rfl
  · cases a <;> cases sa <;> first
      | exact (Bool.false_ne_true oa).elim
      | rfl

/-- Concrete: a base class reference on the left loses nothing if the right operand is uncertain. -/
example : ∃ Q, exprMul ⟨.utf ⟨.identity, 1⟩, .tf, rfl⟩ ⟨.utf ⟨.identity, 0⟩, .utf, rfl⟩ = some (.utf Q) ∧ Q.U = 1 := ⟨_, rfl, by simp [UTransf.mul, Obj.asUtf]⟩

/-- Concrete: three kinds of expressions the theorems are about. -/
example : IsTf hiddenLeft.obj ∧ IsTf hiddenRight.obj ∧ Built hiddenRight.obj.asTf ∧ IsHp (.uhp ⟨0, 1⟩) :=
  ⟨Or.inr rfl, Or.inr rfl, .identity, Or.inr rfl⟩

end Verif.Python
