import Verif.Kinematics.UncertainSet
import Verif.Kinematics.UncertainTransfProps

/-!
# C153, C154: changing uncertain points and transformations in place
-/

namespace Verif.Kinematics

open Matrix

/-! ## C153: points -/

/-- calls that have a meaning: `normalize` and `convertToPoint` divide by the length -/
def PointOp.Defined (p : V4) : PointOp → Prop
  | .toPoint => p ≠ 0
  | .normalize => p ≠ 0
  | _ => True

/-- what users expect: a call changes the point as it changes a point without uncertainty, and the covariance is that of the changed
point, to first order (for a call that forgets the old point: zero) -/
def C153_claim : Prop := ∀ (P : UPoint) (op : PointOp), op.Defined P.p → IsCov P.U →
  (op.onUncertain P).p = op.onPoint P.p ∧ Propagates (fun p => op.onPoint p) P.p P.U (op.onUncertain P).U

/-- the derivative of each call -/
noncomputable def PointOp.jac (p : V4) : PointOp → M4
  | .assign _ => 0
  | .assignBase _ => 0
  | .set3 _ => 0
  | .set4 _ => 0
  | .setZero => 0
  | .scale s => diagonal ![s, s, s, 1]
  | .oplus dp => !![axisAngle2quat dp 3, axisAngle2quat dp 2, -axisAngle2quat dp 1, axisAngle2quat dp 0;
      -axisAngle2quat dp 2, axisAngle2quat dp 3, axisAngle2quat dp 0, axisAngle2quat dp 1;
      axisAngle2quat dp 1, -axisAngle2quat dp 0, axisAngle2quat dp 3, axisAngle2quat dp 2;
      -axisAngle2quat dp 0, -axisAngle2quat dp 1, -axisAngle2quat dp 2, axisAngle2quat dp 3]
  | .toVector => diagonal ![1, 1, 1, 0]
  | .toPoint => diagonal ![1, 1, 1, 0] * (normalizeAndJacobian p).2
  | .normalize => (normalizeAndJacobian p).2

theorem jac_const {ι κ : Type} [Fintype ι] (b : κ → ℝ) (x : ι → ℝ) : IsJacobian (fun _ => b) (0 : Matrix κ ι ℝ) x :=
  jac_congr (jac_linear 0 b x) (by intro y; simp)

theorem normalizeN_ext (p : V4) : hpNormalize p = normalizeN p := rfl

theorem pointOp_jac (p : V4) (op : PointOp) (h : op.Defined p) : IsJacobian (fun p => op.onPoint p) (op.jac p) p := by
  cases op with
  | assign v => exact jac_const _ _
  | assignBase v => exact jac_const _ _
  | set3 v => exact jac_const _ _
  | set4 v => exact jac_const _ _
  | setZero => exact jac_const _ _
  | scale s =>
    refine jac_congr (jac_linear (diagonal ![s, s, s, 1]) 0 p) ?_
    intro y
    apply ext4 <;> simp [mulVec_diagonal, PointOp.onPoint, hpScale] <;> ring
  | oplus dp =>
    refine jac_congr (jac_linear (PointOp.jac p (.oplus dp)) 0 p) ?_
    intro y
    apply ext4 <;> simp only [Pi.add_apply, mv4] <;> simp [PointOp.jac, PointOp.onPoint, hpOplus, updateQuat] <;> ring
  | toVector =>
    refine jac_congr (jac_linear (diagonal ![1, 1, 1, 0]) 0 p) ?_
    intro y
    apply ext4 <;> simp [mulVec_diagonal, PointOp.onPoint, hpConvertToVector]
  | toPoint =>
    have hn : IsJacobian (fun y => normalizeN y) (normalizeAndJacobian p).2 p := (C58_jacobians (fun _ => 0) (fun _ => 1) p one_ne_zero h).2.2.1
    have hd : IsJacobian (fun y : V4 => (![y 0, y 1, y 2, 1] : V4)) (diagonal ![1, 1, 1, 0]) (normalizeN p) := by
      refine jac_congr (jac_linear (diagonal ![1, 1, 1, 0]) ![0, 0, 0, 1] _) ?_
      intro y
      apply ext4 <;> simp [mulVec_diagonal]
    exact hd.comp hn
  | normalize => exact (C58_jacobians (fun _ => 0) (fun _ => 1) p one_ne_zero h).2.2.1

/-- **C153** that is false: `setZero` leaves the covariance as it was. -/
theorem C153_negation : ¬ C153_claim := by
  intro h
  obtain ⟨-, J, hJ, hU⟩ := h ⟨hpZero, 1⟩ .setZero trivial isCov_one4
  have h0 := hJ.unique (jac_const hpZero hpZero)
  rw [h0] at hU
  have := congrFun (congrFun hU 0) 0
  simp [PointOp.onUncertain] at this

/-- **C153, what holds**: the point itself is the one that a `HomogeneousPoint` becomes, after every sequence of calls. -/
theorem C153_values_partial (P : UPoint) (ops : List PointOp) :
    (ops.foldl PointOp.onUncertain P).p = ops.foldl PointOp.onPoint P.p := by
  induction ops generalizing P with
  | nil => rfl
  | cons op ops ih =>
    have hn : (normalizeAndJacobian P.p).1 = hpNormalize P.p := by
      funext i
      simp [normalizeAndJacobian, hpNormalize, div_eq_mul_inv]
    have h1 : (op.onUncertain P).p = op.onPoint P.p := by
      cases op with
      | toPoint => simp only [PointOp.onUncertain, PointOp.onPoint, UPoint.normalize, hpConvertToPoint, hn]
      | normalize => exact hn
      | _ => rfl
    rw [List.foldl_cons, List.foldl_cons, ih, h1]

/-- **C153, what holds**: normalisation and the assignment of a vector leave the covariance of the changed point. -/
theorem C153_right_partial (P : UPoint) (v : V4) :
    (P.p ≠ 0 → Propagates (fun p => PointOp.onPoint p .normalize) P.p P.U (PointOp.onUncertain P .normalize).U) ∧
    Propagates (fun p => PointOp.onPoint p (.assign v)) P.p P.U (PointOp.onUncertain P (.assign v)).U :=
  ⟨fun h => ⟨_, pointOp_jac P.p .normalize h, rfl⟩, ⟨0, jac_const _ _, by simp [PointOp.onUncertain, UPoint.ofPoint]⟩⟩

theorem propagates_iff {ι κ : Type} [Fintype ι] [DecidableEq ι] {f : (ι → ℝ) → (κ → ℝ)} {x : ι → ℝ} {J : Matrix κ ι ℝ} (hJ : IsJacobian f J x)
    (U : Matrix ι ι ℝ) (U' : Matrix κ κ ℝ) : Propagates f x U U' ↔ U' = J * U * J.transpose := by
  constructor
  · rintro ⟨K, hK, h⟩
    rw [hK.unique hJ] at h
    exact h
  · intro h
    exact ⟨J, hJ, h⟩

/-- **C153, what holds, and nothing more**: the other calls keep the covariance (`convertToPoint`: that of the normalised point), which is right
exactly for: no uncertainty at all (`set`, `setZero`, assignment through the base class); uncertainty that the scaling of the first three coordinates by `s`, or
the update, leaves alone (`scale`, `oplus`); no uncertainty of the last coordinate (`convertToVector`, and `convertToPoint` of a direction). -/
theorem C153_exactly_partial (P : UPoint) :
    (∀ v, (PointOp.onUncertain P (.assignBase v)).U = P.U ∧ (Propagates (fun p => PointOp.onPoint p (.assignBase v)) P.p P.U P.U ↔ P.U = 0)) ∧
    (∀ v, (PointOp.onUncertain P (.set3 v)).U = P.U ∧ (Propagates (fun p => PointOp.onPoint p (.set3 v)) P.p P.U P.U ↔ P.U = 0)) ∧
    (∀ v, (PointOp.onUncertain P (.set4 v)).U = P.U ∧ (Propagates (fun p => PointOp.onPoint p (.set4 v)) P.p P.U P.U ↔ P.U = 0)) ∧
    ((PointOp.onUncertain P .setZero).U = P.U ∧ (Propagates (fun p => PointOp.onPoint p .setZero) P.p P.U P.U ↔ P.U = 0)) ∧
    (∀ s, (PointOp.onUncertain P (.scale s)).U = P.U ∧ (Propagates (fun p => PointOp.onPoint p (.scale s)) P.p P.U P.U ↔
      (s ^ 2 = 1 ∨ ∀ i j : Fin 3, P.U i.castSucc j.castSucc = 0) ∧ (s = 1 ∨ ∀ i : Fin 3, P.U i.castSucc 3 = 0 ∧ P.U 3 i.castSucc = 0))) ∧
    (∀ dp, (PointOp.onUncertain P (.oplus dp)).U = P.U ∧ (Propagates (fun p => PointOp.onPoint p (.oplus dp)) P.p P.U P.U ↔
      P.U = PointOp.jac P.p (.oplus dp) * P.U * (PointOp.jac P.p (.oplus dp)).transpose)) ∧
    ((PointOp.onUncertain P .toVector).U = P.U ∧ (Propagates (fun p => PointOp.onPoint p .toVector) P.p P.U P.U ↔ NoScaleCov P.U)) ∧
    (P.p ≠ 0 → P.p 3 = 0 → (PointOp.onUncertain P .toPoint).U = P.normalize.U ∧
      (Propagates (fun p => PointOp.onPoint p .toPoint) P.p P.U P.normalize.U ↔ NoScaleCov P.normalize.U)) := by
  have hz : ∀ op : PointOp, op.jac P.p = 0 → op.Defined P.p → (Propagates (fun p => op.onPoint p) P.p P.U P.U ↔ P.U = 0) := by
    intro op h0 hd
    rw [propagates_iff (pointOp_jac P.p op hd), h0]
    simp
  have hproj : ∀ U : M4, U = diagonal ![1, 1, 1, 0] * U * (diagonal ![1, 1, 1, 0] : M4).transpose ↔ NoScaleCov U := by
    intro U
    rw [diagonal_transpose]
    constructor
    · intro h
      have e : ∀ i j, U i j = (![1, 1, 1, 0] : V4) i * U i j * (![1, 1, 1, 0] : V4) j := by
        intro i j
        have := congrFun (congrFun h i) j
        rwa [mul_diagonal, diagonal_mul] at this
      exact ⟨fun i => by rw [e]; simp, fun j => by rw [e]; simp⟩
    · rintro ⟨h1, h2⟩
      ext i j
      rw [mul_diagonal, diagonal_mul]
      fin_cases i <;> fin_cases j <;> simp [h1, h2]
  refine ⟨fun v => ⟨rfl, hz _ rfl trivial⟩, fun v => ⟨rfl, hz _ rfl trivial⟩, fun v => ⟨rfl, hz _ rfl trivial⟩, ⟨rfl, hz _ rfl trivial⟩, ?_, ?_, ?_, ?_⟩
  · intro s
    refine ⟨rfl, ?_⟩
    rw [propagates_iff (pointOp_jac P.p (.scale s) trivial)]
    show P.U = diagonal ![s, s, s, 1] * P.U * (diagonal ![s, s, s, 1] : M4).transpose ↔ _
    rw [diagonal_transpose]
    constructor
    · intro h
      have e : ∀ i j, P.U i j = (![s, s, s, 1] : V4) i * P.U i j * (![s, s, s, 1] : V4) j := by
        intro i j
        have := congrFun (congrFun h i) j
        rwa [mul_diagonal, diagonal_mul] at this
      constructor
      · by_cases hs : s ^ 2 = 1
        · exact .inl hs
        · right
          intro i j
          have := e i.castSucc j.castSucc
          have hi : ∀ k : Fin 3, (![s, s, s, 1] : V4) k.castSucc = s := by intro k; fin_cases k <;> rfl
          rw [hi, hi] at this
          have h2 : (s ^ 2 - 1) * P.U i.castSucc j.castSucc = 0 := by linear_combination -this
          rcases mul_eq_zero.1 h2 with h3 | h3
          · exact absurd (by linarith) hs
          · exact h3
      · by_cases hs : s = 1
        · exact .inl hs
        · right
          have hs' : s - 1 ≠ 0 := sub_ne_zero.2 hs
          intro i
          have hi : (![s, s, s, 1] : V4) i.castSucc = s := by fin_cases i <;> rfl
          have h3 : (![s, s, s, 1] : V4) 3 = 1 := rfl
          have e1 := e i.castSucc 3
          have e2 := e 3 i.castSucc
          rw [hi, h3] at e1 e2
          constructor
          · have : (s - 1) * P.U i.castSucc 3 = 0 := by linear_combination -e1
            exact (mul_eq_zero.1 this).resolve_left hs'
          · have : (s - 1) * P.U 3 i.castSucc = 0 := by linear_combination -e2
            exact (mul_eq_zero.1 this).resolve_left hs'
    · rintro ⟨h1, h2⟩
      have a1 : ∀ i j : Fin 3, P.U i.castSucc j.castSucc = s * P.U i.castSucc j.castSucc * s := by
        intro i j
        rcases h1 with h1 | h1
        · linear_combination -(P.U i.castSucc j.castSucc) * h1
        · rw [h1]; ring
      have a2 : ∀ i : Fin 3, P.U i.castSucc 3 = s * P.U i.castSucc 3 ∧ P.U 3 i.castSucc = P.U 3 i.castSucc * s := by
        intro i
        rcases h2 with h2 | h2
        · rw [h2]; simp
        · rw [(h2 i).1, (h2 i).2]; simp
      ext i j
      rw [mul_diagonal, diagonal_mul]
      refine Fin.lastCases ?_ (fun i => ?_) i <;> refine Fin.lastCases ?_ (fun j => ?_) j
      · show P.U 3 3 = 1 * P.U 3 3 * 1
        ring
      · have hj : (![s, s, s, 1] : V4) j.castSucc = s := by fin_cases j <;> rfl
        rw [hj]
        show P.U 3 j.castSucc = 1 * P.U 3 j.castSucc * s
        rw [one_mul]; exact (a2 j).2
      · have hi : (![s, s, s, 1] : V4) i.castSucc = s := by fin_cases i <;> rfl
        rw [hi]
        show P.U i.castSucc 3 = s * P.U i.castSucc 3 * 1
        rw [mul_one]; exact (a2 i).1
      · have hi : ∀ k : Fin 3, (![s, s, s, 1] : V4) k.castSucc = s := by intro k; fin_cases k <;> rfl
        rw [hi, hi]; exact a1 i j
  · intro dp
    exact ⟨rfl, propagates_iff (pointOp_jac P.p (.oplus dp) trivial) _ _⟩
  · refine ⟨rfl, ?_⟩
    rw [propagates_iff (pointOp_jac P.p .toVector trivial)]
    exact hproj P.U
  · intro hp _
    refine ⟨rfl, ?_⟩
    rw [propagates_iff (pointOp_jac P.p .toPoint hp), ← hproj]
    have : PointOp.jac P.p .toPoint * P.U * (PointOp.jac P.p .toPoint).transpose =
        diagonal ![1, 1, 1, 0] * P.normalize.U * (diagonal ![1, 1, 1, 0] : M4).transpose := by
      simp only [PointOp.jac, UPoint.normalize, transpose_mul, Matrix.mul_assoc]
    rw [this]

/-- Concrete: the point (2, 0, 0) with variance 1 in every coordinate, scaled by 3, still has variance 1; the covariance of the scaled point would be 9. -/
example : (PointOp.onUncertain ⟨![2, 0, 0, 1], 1⟩ (.scale 3)).p = ![6, 0, 0, 1] ∧
    ¬ Propagates (fun p => PointOp.onPoint p (.scale 3)) ![2, 0, 0, 1] 1 (PointOp.onUncertain ⟨![2, 0, 0, 1], 1⟩ (.scale 3)).U := by
  refine ⟨by funext i; fin_cases i <;> simp [PointOp.onUncertain, hpScale]; norm_num, ?_⟩
  intro h
  have h2 := (((C153_exactly_partial ⟨![2, 0, 0, 1], 1⟩).2.2.2.2.1 3).2.1 h).1
  rcases h2 with h2 | h2
  · norm_num at h2
  · have := h2 0 0; simp at this

/-! ## C154: transformations -/

/-- what users expect: as with a `Transformation`; after `set`, `setIdentity` and an assignment there is no uncertainty (as after construction from the same
arguments); adding a known translation leaves the covariance of the minimal update (`UOplus`) as it was -/
def C154_claim : Prop := ∀ P : UTransf, IsCov P.U →
  (∀ op : TransfOp, (op.onUncertain P).X = op.onTransf P.X) ∧
  (∀ T, (TransfOp.onUncertain P (.set T)).U = 0) ∧ (TransfOp.onUncertain P .setIdentity).U = 0 ∧
  (∀ Y, (TransfOp.onUncertain P (.assign Y)).U = 0) ∧ (∀ Y, (TransfOp.onUncertain P (.assignBase Y)).U = 0) ∧
  ∀ ρ : V3, (TransfOp.onUncertain P (.oplus (v6 ρ 0))).uOplus = P.uOplus

theorem isCov_one6 : IsCov (1 : M6) := by
  refine ⟨by simp, fun x => ?_⟩
  rw [one_mulVec]
  exact Finset.sum_nonneg fun i _ => mul_self_nonneg _

/-- **C154** that is false: `setIdentity` leaves the covariance as it was. -/
theorem C154_negation : ¬ C154_claim := by
  intro h
  obtain ⟨-, -, h1, -⟩ := h ⟨.identity, 1⟩ isCov_one6
  have := congrFun (congrFun h1 (.inl 0)) (.inl 0)
  simp [TransfOp.onUncertain] at this

/-- **C154, what holds**: the transformation itself is the one that a `Transformation` becomes, after every sequence of calls. -/
theorem C154_values_partial (P : UTransf) (ops : List TransfOp) :
    (ops.foldl TransfOp.onUncertain P).X = ops.foldl TransfOp.onTransf P.X := by
  induction ops generalizing P with
  | nil => rfl
  | cons op ops ih =>
    rw [List.foldl_cons, List.foldl_cons, ih]
    congr 1
    cases op <;> rfl

/-- an assignment through the class itself -/
def TransfOp.IsAssign : TransfOp → Prop
  | .assign _ => True
  | _ => False

/-- **C154, what holds**: the assignment of a transformation clears the covariance; no other of these calls changes it: after any sequence it is
the old one, or zero if there was an assignment. -/
theorem C154_covariance_partial (P : UTransf) (ops : List TransfOp) :
    ((∃ op ∈ ops, op.IsAssign) → (ops.foldl TransfOp.onUncertain P).U = 0) ∧
    ((∀ op ∈ ops, ¬ op.IsAssign) → (ops.foldl TransfOp.onUncertain P).U = P.U) := by
  have key : ∀ (ops : List TransfOp) (P : UTransf), (ops.foldl TransfOp.onUncertain P).U = P.U ∨ (ops.foldl TransfOp.onUncertain P).U = 0 := by
    intro ops
    induction ops with
    | nil => intro P; exact .inl rfl
    | cons op ops ih =>
      intro P
      rw [List.foldl_cons]
      cases op with
      | assign Y =>
        rcases ih (TransfOp.onUncertain P (.assign Y)) with h | h
        · exact .inr h
        · exact .inr h
      | _ => exact ih _
  induction ops generalizing P with
  | nil => exact ⟨fun ⟨_, h, _⟩ => absurd h (by simp), fun _ => rfl⟩
  | cons op ops ih =>
    rw [List.foldl_cons]
    constructor
    · rintro ⟨o, ho, ha⟩
      rcases List.mem_cons.1 ho with rfl | ho
      · cases o with
        | assign Y =>
          rcases key ops (TransfOp.onUncertain P (.assign Y)) with h | h
          · exact h
          · exact h
        | _ => exact absurd ha (by simp [TransfOp.IsAssign])
      · exact (ih _).1 ⟨o, ho, ha⟩
    · intro h
      rw [(ih _).2 (fun o ho => h o (List.mem_cons_of_mem _ ho))]
      cases op with
      | assign Y => exact absurd trivial (h (.assign Y) List.mem_cons_self)
      | _ => rfl

/-- **C154, what holds**: `oplus` with the translation `ρ` (and any rotation) turns the covariance of the minimal update into that of the update in a frame moved by `ρ`:
the rotational part stays, the others get contributions of it.  Without translation, or without rotational uncertainty, it stays. -/
theorem C154_oplus_partial (P : UTransf) (ρ φ : V3) :
    (TransfOp.onUncertain P (.oplus (v6 ρ φ))).uOplus = fromBlocks 1 (crossMx ρ) 0 1 * P.uOplus * (fromBlocks 1 (crossMx ρ) 0 1 : M6).transpose ∧
    (TransfOp.onUncertain P (.oplus (v6 0 φ))).uOplus = P.uOplus ∧
    ((∀ i j, P.U (.inr i) j = 0 ∧ P.U j (.inr i) = 0) → (TransfOp.onUncertain P (.oplus (v6 ρ φ))).uOplus = P.uOplus) := by
  have hc : ∀ a b : V3, crossMx (a + b) = crossMx a + crossMx b := by
    intro a b
    ext i j
    fin_cases i <;> fin_cases j <;> simp [crossMx] <;> ring
  have hinv : ∀ X : Transformation, (UTransf.S X)⁻¹ = fromBlocks 1 (crossMx X.t) 0 1 := fun X => inv_eq_right_inv (S_inv X).1
  have hform : ∀ Q : UTransf, Q.uOplus = fromBlocks 1 (crossMx Q.X.t) 0 1 * Q.U * (fromBlocks 1 (crossMx Q.X.t) 0 1 : M6).transpose := by
    intro Q
    unfold UTransf.uOplus
    rw [← transpose_nonsing_inv, hinv]
  have hmul : ∀ a b : V3, (fromBlocks 1 (crossMx a) 0 1 : M6) * fromBlocks 1 (crossMx b) 0 1 = fromBlocks 1 (crossMx (b + a)) 0 1 := by
    intro a b
    rw [fromBlocks_multiply, hc]
    simp
  have h1 : ∀ ρ φ : V3, (TransfOp.onUncertain P (.oplus (v6 ρ φ))).uOplus = fromBlocks 1 (crossMx ρ) 0 1 * P.uOplus * (fromBlocks 1 (crossMx ρ) 0 1 : M6).transpose := by
    intro ρ φ
    have hX : (TransfOp.onUncertain P (.oplus (v6 ρ φ))).X.t = P.X.t + ρ := rfl
    have hU : (TransfOp.onUncertain P (.oplus (v6 ρ φ))).U = P.U := rfl
    rw [hform, hform P, hX, hU, ← hmul ρ P.X.t, transpose_mul]
    simp only [Matrix.mul_assoc]
  have h0 : (fromBlocks 1 (crossMx 0) 0 1 : M6) = 1 := by
    have : crossMx 0 = 0 := by ext i j; fin_cases i <;> fin_cases j <;> simp [crossMx]
    rw [this, fromBlocks_one]
  refine ⟨h1 ρ φ, ?_, ?_⟩
  · rw [h1, h0]; simp
  · intro h
    have hblock : P.U = fromBlocks P.U.toBlocks₁₁ 0 0 0 := by
      ext i j
      rcases i with i | i <;> rcases j with j | j
      · rfl
      · exact (h j (.inl i)).2
      · exact (h i (.inl j)).1
      · exact (h i (.inr j)).1
    rw [h1, hform P]
    have hk : ∀ a : V3, (fromBlocks 1 (crossMx a) 0 1 : M6) * P.U * (fromBlocks 1 (crossMx a) 0 1 : M6).transpose = P.U := by
      intro a
      rw [hblock, fromBlocks_transpose, fromBlocks_multiply, fromBlocks_multiply]
      simp
    rw [hk P.X.t, hk ρ]

/-- Concrete: variance 1 everywhere, at the origin; after adding the translation (1, 0, 0), `UOplus` says 2 for the translation along y. -/
example : (UTransf.uOplus ⟨.identity, 1⟩) (.inl 1) (.inl 1) = 1 ∧
    (TransfOp.onUncertain ⟨.identity, 1⟩ (.oplus (v6 ![1, 0, 0] 0))).uOplus (.inl 1) (.inl 1) = 2 := by
  have h1 : UTransf.uOplus ⟨.identity, 1⟩ = 1 := by
    have hS : UTransf.S .identity = 1 := by
      have : crossMx (0 : V3) = 0 := by ext i j; fin_cases i <;> fin_cases j <;> simp [crossMx]
      unfold UTransf.S Transformation.identity
      rw [this, neg_zero, fromBlocks_one]
    unfold UTransf.uOplus
    simp [hS]
  refine ⟨by rw [h1]; simp, ?_⟩
  rw [(C154_oplus_partial ⟨.identity, 1⟩ ![1, 0, 0] 0).1, h1, Matrix.mul_one, fromBlocks_transpose, fromBlocks_multiply]
  simp [crossMx, vecMul, dotProduct, Fin.sum_univ_three]
  norm_num

end Verif.Kinematics
