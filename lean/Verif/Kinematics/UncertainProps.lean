import Verif.Kinematics.UncertainSpec
import Verif.Kinematics.BoxProps

/-!
# Uncertain vectors, points and transformations: C59, C68
-/

namespace Verif.Kinematics

open Matrix

/-! ## lemmas -/

section
variable {ι κ : Type} [Fintype ι] [Fintype κ]

theorem IsCov.conj {U : Matrix ι ι ℝ} (h : IsCov U) (J : Matrix κ ι ℝ) : IsCov (J * U * J.transpose) := by
  refine ⟨?_, fun x => ?_⟩
  · rw [transpose_mul, transpose_mul, transpose_transpose, h.1, Matrix.mul_assoc]
  · have : x ⬝ᵥ (J * U * J.transpose).mulVec x = (J.transpose.mulVec x) ⬝ᵥ U.mulVec (J.transpose.mulVec x) := by
      rw [← mulVec_mulVec, ← mulVec_mulVec, dotProduct_mulVec, ← mulVec_transpose]
    rw [this]
    exact h.2 _

theorem IsCov.add {U V : Matrix ι ι ℝ} (h : IsCov U) (h' : IsCov V) : IsCov (U + V) := by
  refine ⟨by rw [transpose_add, h.1, h'.1], fun x => ?_⟩
  rw [add_mulVec, dotProduct_add]
  exact add_nonneg (h.2 x) (h'.2 x)

theorem IsCov.zero : IsCov (0 : Matrix ι ι ℝ) := ⟨by simp, fun x => by simp⟩

theorem Propagates.cov {f : (ι → ℝ) → (κ → ℝ)} {x : ι → ℝ} {U : Matrix ι ι ℝ} {U' : Matrix κ κ ℝ}
    (h : Propagates f x U U') (hU : IsCov U) : IsCov U' := by
  obtain ⟨J, -, rfl⟩ := h
  exact hU.conj J

theorem Propagates2.cov {μ : Type} [Fintype μ] {f : (ι → ℝ) → (κ → ℝ) → (μ → ℝ)} {x : ι → ℝ} {y : κ → ℝ}
    {U : Matrix ι ι ℝ} {V : Matrix κ κ ℝ} {W : Matrix μ μ ℝ} (h : Propagates2 f x y U V W) (hU : IsCov U) (hV : IsCov V) :
    IsCov W := by
  obtain ⟨J, K, -, -, rfl⟩ := h
  exact (hU.conj J).add (hV.conj K)

end

theorem isCov_asMat {x : ℝ} (h : 0 ≤ x) : IsCov (asMat x) := by
  refine ⟨by ext i j; rfl, fun y => ?_⟩
  simp only [dotProduct, Matrix.mulVec, asMat, Finset.univ_unique, Finset.sum_singleton]
  nlinarith [mul_self_nonneg (y default)]

theorem asMat_cov {x : ℝ} (h : IsCov (asMat x)) : 0 ≤ x := by
  have := h.2 (fun _ => 1)
  simpa [dotProduct, Matrix.mulVec, asMat] using this

/-- the Jacobian of a function is unique -/
theorem IsJacobian.unique {ι κ : Type} [Fintype ι] [DecidableEq ι] {f : (ι → ℝ) → (κ → ℝ)} {J K : Matrix κ ι ℝ}
    {x : ι → ℝ} (hJ : IsJacobian f J x) (hK : IsJacobian f K x) : J = K := by
  ext k i
  have hc : ∀ j, HasDerivAt (fun s : ℝ => (x + s • Pi.single i 1 : ι → ℝ) j) ((Pi.single i 1 : ι → ℝ) j) 0 := by
    intro j
    have := ((hasDerivAt_id (0 : ℝ)).mul_const ((Pi.single i 1 : ι → ℝ) j)).const_add (x j)
    simpa using this
  have h1 := hJ (fun s => x + s • Pi.single i 1) (Pi.single i 1) (by simp) hc k
  have h2 := hK (fun s => x + s • Pi.single i 1) (Pi.single i 1) (by simp) hc k
  have := h1.unique h2
  simpa using this

theorem jac_linear {ι κ : Type} [Fintype ι] (M : Matrix κ ι ℝ) (b : κ → ℝ) (x : ι → ℝ) :
    IsJacobian (fun y => M.mulVec y + b) M x := by
  intro c v h0 hc k
  have := HasDerivAt.fun_sum (u := Finset.univ) (fun i _ => (hc i).const_mul (M k i))
  exact (this.add_const (b k)).congr_deriv rfl

theorem jac_congr {ι κ : Type} [Fintype ι] {f g : (ι → ℝ) → (κ → ℝ)} {J : Matrix κ ι ℝ} {x : ι → ℝ} (h : IsJacobian f J x)
    (e : ∀ y, f y = g y) : IsJacobian g J x := by
  have : f = g := funext e
  rwa [← this]

theorem jac_id {ι : Type} [Fintype ι] [DecidableEq ι] (x : ι → ℝ) : IsJacobian (fun y => y) (1 : Matrix ι ι ℝ) x :=
  jac_congr (jac_linear 1 0 x) (by simp)

theorem jac_smul {n : Nat} (s : ℝ) (x : Fin n → ℝ) : IsJacobian (fun y => s • y) (s • (1 : Matrix (Fin n) (Fin n) ℝ)) x :=
  jac_congr (jac_linear _ 0 x) (by intro y; simp [smul_mulVec])

/-- one row, as a matrix -/
def rowM {n : Nat} (w : Fin n → ℝ) : Matrix (Fin 1) (Fin n) ℝ := fun _ j => w j

theorem rowM_conj {n : Nat} (w : Fin n → ℝ) (U : Matrix (Fin n) (Fin n) ℝ) :
    rowM w * U * (rowM w).transpose = asMat (w ⬝ᵥ U.mulVec w) := by
  ext i j
  rw [Matrix.mul_assoc]
  rfl

theorem jac_dot {n : Nat} (w x : Fin n → ℝ) : IsJacobian (fun y => asVec (y ⬝ᵥ w)) (rowM w) x := by
  refine jac_congr (jac_linear (rowM w) 0 x) ?_
  intro y
  funext i
  simp only [Pi.add_apply, Pi.zero_apply, add_zero, asVec]
  rw [dotProduct_comm]
  rfl

theorem jac_scalar {f : ℝ → ℝ} {d x : ℝ} (h : HasDerivAt f d x) : IsJacobian (fun y : Fin 1 → ℝ => asVec (f (y 0))) (asMat d) (asVec x) := by
  intro c v h0 hc k
  have hx : c 0 0 = x := by rw [h0]; rfl
  rw [← hx] at h
  have := HasDerivAt.comp (0 : ℝ) h (hc 0)
  refine this.congr_deriv ?_
  simp [Matrix.mulVec, dotProduct, asMat]

theorem asMat_conj (d e : ℝ) : asMat d * asMat e * (asMat d).transpose = asMat (d * e * d) := by
  ext i j
  simp [Matrix.mul_apply, asMat]

theorem asMat_add (d e : ℝ) : asMat d + asMat e = asMat (d + e) := rfl

/-! ## C68: first-order correctness -/

/-- **C68** Uncertain vectors: every operation returns the operation on the means with the covariance propagated to
first order (independent arguments). -/
theorem C68_vectors {n : Nat} (a b : UVec n) (t : UScalar) (w : Fin n → ℝ) (s : ℝ) (M : Matrix (Fin n) (Fin n) ℝ) :
    ((a.add b).v = a.v + b.v ∧ Propagates2 (fun x y => x + y) a.v b.v a.E b.E (a.add b).E) ∧
    ((a.sub b).v = a.v - b.v ∧ Propagates2 (fun x y => x - y) a.v b.v a.E b.E (a.sub b).E) ∧
    ((a.addV w).v = a.v + w ∧ Propagates (fun x => x + w) a.v a.E (a.addV w).E) ∧
    ((a.subV w).v = a.v - w ∧ Propagates (fun x => x - w) a.v a.E (a.subV w).E) ∧
    ((a.scale s).v = s • a.v ∧ Propagates (fun x => s • x) a.v a.E (a.scale s).E) ∧
    ((UVec.mulM M a).v = M.mulVec a.v ∧ Propagates (fun x => M.mulVec x) a.v a.E (UVec.mulM M a).E) ∧
    ((a.dot b).v = a.v ⬝ᵥ b.v ∧ Propagates2 (fun x y => asVec (x ⬝ᵥ y)) a.v b.v a.E b.E (asMat (a.dot b).E)) ∧
    ((a.dotV w).v = a.v ⬝ᵥ w ∧ Propagates (fun x => asVec (x ⬝ᵥ w)) a.v a.E (asMat (a.dotV w).E)) ∧
    ((a.mulS t).v = t.v • a.v ∧
      Propagates2 (fun x y => y 0 • x) a.v (asVec t.v) a.E (asMat t.E) (a.mulS t).E) ∧
    ((t.mulVec w).v = t.v • w ∧ Propagates (fun y => y 0 • w) (asVec t.v) (asMat t.E) (t.mulVec w).E) ∧
    (a.v ≠ 0 → (a.normalized.v = fun i => a.v i / norm a.v) ∧
      Propagates (fun x i => x i / norm x) a.v a.E a.normalized.E) := by
  have hneg : ∀ y : Fin n → ℝ, IsJacobian (fun x => y - x) (-1 : Matrix (Fin n) (Fin n) ℝ) b.v := fun y =>
    jac_congr (jac_linear (-1) y b.v) (by intro x; rw [neg_mulVec, one_mulVec]; abel)
  have hcol : ∀ w : Fin n → ℝ, IsJacobian (fun y : Fin 1 → ℝ => y 0 • w) (rowM w).transpose (asVec t.v) := by
    intro w
    refine jac_congr (jac_linear (rowM w).transpose 0 _) ?_
    intro y
    funext i
    simp [Matrix.mulVec, dotProduct, rowM, mul_comm]
  have hcolE : ∀ w : Fin n → ℝ, ∀ e : ℝ, (rowM w).transpose * asMat e * (rowM w).transpose.transpose = e • vecMulVec w w := by
    intro w e
    ext i j
    simp [Matrix.mul_apply, rowM, asMat, vecMulVec_apply]; ring
  refine ⟨⟨rfl, 1, 1, ?_, ?_, ?_⟩, ⟨rfl, 1, -1, ?_, ?_, ?_⟩, ⟨rfl, 1, ?_, ?_⟩, ⟨rfl, 1, ?_, ?_⟩,
    ⟨rfl, s • 1, jac_smul s _, ?_⟩, ⟨rfl, M, ?_, rfl⟩, ⟨rfl, rowM b.v, rowM a.v, jac_dot _ _, ?_, ?_⟩,
    ⟨rfl, rowM w, jac_dot _ _, ?_⟩, ⟨rfl, t.v • 1, (rowM a.v).transpose, jac_smul _ _, ?_, ?_⟩,
    ⟨rfl, (rowM w).transpose, hcol w, ?_⟩, ?_⟩
  · exact jac_congr (jac_linear 1 b.v a.v) (by simp)
  · exact jac_congr (jac_linear 1 a.v b.v) (by intro y; rw [one_mulVec, add_comm])
  · simp [UVec.add]
  · exact jac_congr (jac_linear 1 (-b.v) a.v) (by intro y; rw [one_mulVec]; abel)
  · exact hneg a.v
  · simp [UVec.sub]
  · exact jac_congr (jac_linear 1 w a.v) (by simp)
  · simp [UVec.addV]
  · exact jac_congr (jac_linear 1 (-w) a.v) (by intro y; rw [one_mulVec]; abel)
  · simp [UVec.subV]
  · simp [UVec.scale]
  · exact jac_congr (jac_linear M 0 a.v) (by simp)
  · refine jac_congr (jac_dot a.v b.v) ?_
    intro y; rw [dotProduct_comm]
  · rw [rowM_conj, rowM_conj, asMat_add, add_comm]; rfl
  · rw [rowM_conj]; rfl
  · exact hcol a.v
  · rw [hcolE]
    simp [UVec.mulS, add_comm]
  · rw [hcolE]; rfl
  · intro hne
    obtain ⟨-, -, h1, h2⟩ := C58_jacobians (fun _ => 0) (fun _ => 1) a.v one_ne_zero hne
    exact ⟨h2, _, h1, rfl⟩

/-- **C68** Uncertain scalars, likewise. -/
theorem C68_scalars (a b : UScalar) (w : ℝ) :
    ((a.add b).v = a.v + b.v ∧ Propagates2 (fun x y => asVec (x 0 + y 0)) (asVec a.v) (asVec b.v) (asMat a.E) (asMat b.E)
      (asMat (a.add b).E)) ∧
    ((a.sub b).v = a.v - b.v ∧ Propagates2 (fun x y => asVec (x 0 - y 0)) (asVec a.v) (asVec b.v) (asMat a.E) (asMat b.E)
      (asMat (a.sub b).E)) ∧
    ((a.mul b).v = a.v * b.v ∧ Propagates2 (fun x y => asVec (x 0 * y 0)) (asVec a.v) (asVec b.v) (asMat a.E) (asMat b.E)
      (asMat (a.mul b).E)) ∧
    (b.v ≠ 0 → (a.div b).v = a.v / b.v ∧ Propagates2 (fun x y => asVec (x 0 / y 0)) (asVec a.v) (asVec b.v) (asMat a.E)
      (asMat b.E) (asMat (a.div b).E)) ∧
    ((a.addC w).v = a.v + w ∧ Propagates (fun x => asVec (x 0 + w)) (asVec a.v) (asMat a.E) (asMat (a.addC w).E)) ∧
    ((a.subC w).v = a.v - w ∧ Propagates (fun x => asVec (x 0 - w)) (asVec a.v) (asMat a.E) (asMat (a.subC w).E)) ∧
    ((a.mulC w).v = a.v * w ∧ Propagates (fun x => asVec (x 0 * w)) (asVec a.v) (asMat a.E) (asMat (a.mulC w).E)) ∧
    (w ≠ 0 → (a.divC w).v = a.v / w ∧ Propagates (fun x => asVec (x 0 / w)) (asVec a.v) (asMat a.E) (asMat (a.divC w).E)) := by
  have hid : ∀ x : ℝ, HasDerivAt (fun x : ℝ => x) 1 x := fun x => hasDerivAt_id x
  refine ⟨⟨rfl, asMat 1, asMat 1, jac_scalar ((hid a.v).add_const b.v), jac_scalar ((hid b.v).const_add a.v), ?_⟩,
    ⟨rfl, asMat 1, asMat (-1), jac_scalar ((hid a.v).sub_const b.v), jac_scalar ((hid b.v).const_sub a.v), ?_⟩,
    ⟨rfl, asMat (1 * b.v), asMat (a.v * 1), jac_scalar ((hid a.v).mul_const b.v), jac_scalar ((hid b.v).const_mul a.v), ?_⟩,
    fun hb => ⟨rfl, asMat (1 / b.v), asMat (-a.v / (b.v * b.v)), jac_scalar ((hid a.v).div_const b.v),
      jac_scalar ((((hasDerivAt_const b.v a.v)).fun_div (hid b.v) hb).congr_deriv (by field_simp; ring)), ?_⟩,
    ⟨rfl, asMat 1, jac_scalar ((hid a.v).add_const w), ?_⟩, ⟨rfl, asMat 1, jac_scalar ((hid a.v).sub_const w), ?_⟩,
    ⟨rfl, asMat (1 * w), jac_scalar ((hid a.v).mul_const w), ?_⟩,
    fun _ => ⟨rfl, asMat (1 / w), jac_scalar ((hid a.v).div_const w), ?_⟩⟩
  all_goals
    simp only [asMat_conj, asMat_add]
    congr 1
  · simp [UScalar.add]
  · simp [UScalar.sub]
  · simp [UScalar.mul]
  · simp [UScalar.addC]
  · simp [UScalar.subC]
  · simp [UScalar.mulC]

theorem jac_hpAdd_left (p r : V4) : IsJacobian (fun x => hpAdd x r) (toHomogeneousPlus r) p := by
  refine jac_congr (jac_linear (toHomogeneousPlus r) 0 p) ?_
  intro y
  apply ext4 <;> simp only [Pi.add_apply, mv4] <;> simp [toHomogeneousPlus, hpAdd] <;> ring

theorem jac_hpAdd_right (p r : V4) : IsJacobian (hpAdd p) (toHomogeneousPlus p) r := by
  refine jac_congr (jac_linear (toHomogeneousPlus p) 0 r) ?_
  intro y
  apply ext4 <;> simp only [Pi.add_apply, mv4] <;> simp [toHomogeneousPlus, hpAdd] <;> ring

/-- the Jacobian of the Euclidean point of a sum -/
theorem fromHomogeneous_hpAdd (p r : V4) (hp : p 3 ≠ 0) (hr : r 3 ≠ 0) :
    fromHomogeneousJacobian (hpAdd p r) * toHomogeneousPlus r = fromHomogeneousJacobian p := by
  ext i j
  rw [mm4]
  fin_cases i <;> fin_cases j <;>
    simp [fromHomogeneousJacobian, fromHomogeneous, hpAdd, toHomogeneousPlus] <;> field_simp <;> ring

theorem hpAdd_comm (p r : V4) : hpAdd p r = hpAdd r p := by
  apply ext4 <;> simp [hpAdd] <;> ring

/-- **C68** Uncertain points: the sum of two uncertain points, the covariance of the Euclidean point, normalisation
and the covariance set from the minimal update are propagated to first order; so the covariances of the Euclidean
points add up when points are added. -/
theorem C68_points (P R : UPoint) :
    ((P.add R).p = hpAdd P.p R.p ∧ Propagates2 hpAdd P.p R.p P.U R.U (P.add R).U) ∧
    (P.p 3 ≠ 0 → Propagates fromHomogeneous P.p P.U P.U3) ∧
    (P.p 3 ≠ 0 → R.p 3 ≠ 0 → (P.add R).U3 = P.U3 + R.U3) ∧
    (P.p ≠ 0 → (P.normalize.p = fun i => P.p i / norm P.p) ∧ Propagates (fun x i => x i / norm x) P.p P.U P.normalize.U) ∧
    (∀ U Q, UPoint.setUOplus P.p U = some Q → Q.p = P.p ∧ Propagates (hpOplus P.p) 0 U Q.U) ∧
    (∀ (x : V3) (U3 : M3), (UPoint.ofU3 x U3).U3 = U3 ∧ Propagates toHomogeneous x U3 (UPoint.ofU3 x U3).U) := by
  refine ⟨⟨rfl, _, _, jac_hpAdd_left _ _, jac_hpAdd_right _ _, rfl⟩, ?_, ?_, ?_, ?_, ?_⟩
  · intro h
    exact ⟨_, (C58_jacobians (n := 1) (fun _ => 0) P.p (fun _ => 1) h (by intro e; simpa using congrFun e 0)).2.1, rfl⟩
  · intro hp hr
    unfold UPoint.U3 UPoint.add
    simp only
    rw [Matrix.mul_add, Matrix.add_mul]
    congr 1
    · rw [← fromHomogeneous_hpAdd P.p R.p hp hr]
      simp only [transpose_mul, Matrix.mul_assoc]
    · rw [hpAdd_comm]
      conv => rhs; rw [← fromHomogeneous_hpAdd R.p P.p hr hp]
      simp only [transpose_mul, Matrix.mul_assoc]
  · intro hne
    obtain ⟨-, -, h1, h2⟩ := C58_jacobians (fun _ => 0) (fun _ => 1) P.p one_ne_zero hne
    exact ⟨h2, _, h1, rfl⟩
  · intro U Q h
    unfold UPoint.setUOplus at h
    split at h
    · have := (Option.some.inj h).symm
      subst this
      have hj : quatInvS P.p = hpJacobian P.p := by
        ext i j
        fin_cases i <;> fin_cases j <;> simp [quatInvS, hpJacobian] <;> ring
      refine ⟨rfl, _, (C58_oplus_jacobians P.p).1, ?_⟩
      simp only [hj]
    · exact absurd h (by simp)
  · intro x U
    constructor
    · ext i j
      unfold UPoint.U3 UPoint.ofU3
      simp only
      rw [mm4, mm4, mm4, mm4, mm4]
      fin_cases i <;> fin_cases j <;> simp [fromHomogeneousJacobian, toHomogeneous]
    · refine ⟨_, (C58_jacobians (n := 1) x (fun _ => 1) (fun _ => 1) one_ne_zero (by intro e; simpa using congrFun e 0)).1, ?_⟩
      ext i j
      unfold UPoint.ofU3
      simp only
      rw [mm3, mm3, mm3, mm3]
      fin_cases i <;> fin_cases j <;> simp [toHomogeneousJacobian]

/-- the full claim for differences and for sums and differences with points without uncertainty: the covariance of
the Euclidean point is the sum of the covariances (of independent points), and that of the uncertain one when the
other is certain -/
def C68_points_claim : Prop := ∀ (P R : UPoint), IsCov P.U → IsCov R.U → P.p 3 ≠ 0 → R.p 3 ≠ 0 →
  (P.sub R).U3 = P.U3 + R.U3 ∧ (P.addHP R.p).U3 = P.U3 ∧ (P.subHP R.p).U3 = P.U3 ∧
  (UPoint.hpAddU P.p R).U3 = R.U3 ∧ (UPoint.hpSubU P.p R).U3 = R.U3

/-- the variance 1 in the last entry only -/
def wCov : M4 := !![0, 0, 0, 0; 0, 0, 0, 0; 0, 0, 0, 0; 0, 0, 0, 1]

theorem isCov_wCov : IsCov wCov := by
  refine ⟨by ext i j; fin_cases i <;> fin_cases j <;> simp [wCov], fun x => ?_⟩
  have : x ⬝ᵥ wCov.mulVec x = x 3 * x 3 := by
    simp only [dotProduct, Fin.sum_univ_four, mv4]
    simp [wCov]
  rw [this]; exact mul_self_nonneg _

theorem isCov_one4 : IsCov (1 : M4) := by
  refine ⟨by simp, fun x => ?_⟩
  rw [one_mulVec]
  exact Finset.sum_nonneg fun i _ => mul_self_nonneg _

/-- **C68** The difference of two uncertain points has the wrong covariance: the origin (uncertain only in its
scale, so not at all as a Euclidean point) minus the certain point `(1,0,0)` gets the variance 4. -/
theorem C68_difference_negation : ∃ P R : UPoint, IsCov P.U ∧ IsCov R.U ∧ P.p 3 ≠ 0 ∧ R.p 3 ≠ 0 ∧
    P.U3 = 0 ∧ R.U3 = 0 ∧ (P.sub R).U3 0 0 = 4 := by
  refine ⟨⟨![0, 0, 0, 1], wCov⟩, ⟨![1, 0, 0, 1], 0⟩, isCov_wCov, IsCov.zero, by simp, by simp, ?_, ?_, ?_⟩
  · ext i j
    unfold UPoint.U3
    simp only
    rw [mm4, mm4, mm4, mm4, mm4]
    fin_cases i <;> fin_cases j <;> simp [fromHomogeneousJacobian, fromHomogeneous, wCov]
  · unfold UPoint.U3; simp
  · unfold UPoint.U3 UPoint.sub
    simp only [Matrix.mul_zero, Matrix.zero_mul, add_zero]
    rw [mm4, mm4, mm4, mm4, mm4]
    simp only [mm4]
    simp [fromHomogeneousJacobian, fromHomogeneous, wCov, hpSub, toHomogeneousPlus]
    norm_num

/-- **C68** Adding a certain point written with the scale 2 divides the covariance by 4. -/
theorem C68_mixed_negation : ∃ (P : UPoint) (r : V4), IsCov P.U ∧ P.p 3 ≠ 0 ∧ r 3 ≠ 0 ∧
    P.U3 = 1 ∧ (P.addHP r).U3 = (1 / 4 : ℝ) • 1 ∧ (P.subHP r).U3 = (1 / 4 : ℝ) • 1 ∧
    (UPoint.hpAddU r P).U3 = (1 / 4 : ℝ) • 1 ∧ (UPoint.hpSubU r P).U3 = (1 / 4 : ℝ) • 1 := by
  have key : ∀ q : V4, q 0 = 0 → q 1 = 0 → q 2 = 0 → UPoint.U3 ⟨q, 1⟩ = (1 / q 3 * (1 / q 3)) • 1 := by
    intro q h0 h1 h2
    ext i j
    unfold UPoint.U3
    simp only
    rw [mm4, mm4, mm4, mm4, mm4]
    fin_cases i <;> fin_cases j <;> simp [fromHomogeneousJacobian, fromHomogeneous, h0, h1, h2]
  refine ⟨⟨![0, 0, 0, 1], 1⟩, ![0, 0, 0, 2], isCov_one4, by simp, by simp, ?_, ?_, ?_, ?_, ?_⟩
  · rw [key _ rfl rfl rfl]; simp
  all_goals
    simp only [UPoint.addHP, UPoint.subHP, UPoint.hpAddU, UPoint.hpSubU]
    rw [key _ (by simp [hpAdd, hpSub]) (by simp [hpAdd, hpSub]) (by simp [hpAdd, hpSub])]
    congr 1
    simp [hpAdd, hpSub]
    norm_num

theorem C68_points_negation : ¬ C68_points_claim := by
  intro h
  obtain ⟨P, R, h1, h2, h3, h4, h5, h6, h7⟩ := C68_difference_negation
  have := (h P R h1 h2 h3 h4).1
  rw [h5, h6] at this
  rw [this] at h7
  simp at h7

/-- no uncertainty of the scale, as in points constructed from Euclidean points and covariances -/
def NoScaleCov (U : M4) : Prop := (∀ i, U i 3 = 0) ∧ ∀ j, U 3 j = 0

theorem U3_noScale (q : V4) (U : M4) (h : NoScaleCov U) (i j : Fin 3) :
    UPoint.U3 ⟨q, U⟩ i j = 1 / q 3 * (1 / q 3) * U i.castSucc j.castSucc := by
  unfold UPoint.U3
  simp only
  rw [mm4, mm4, mm4, mm4, mm4]
  obtain rfl | rfl | rfl : i = 0 ∨ i = 1 ∨ i = 2 := by fin_cases i <;> simp
  all_goals
    obtain rfl | rfl | rfl : j = 0 ∨ j = 1 ∨ j = 2 := by fin_cases j <;> simp
  all_goals
    simp [fromHomogeneousJacobian, h.1, h.2]
    ring

theorem plus_noScale (r : V4) (U : M4) (h : NoScaleCov U) :
    toHomogeneousPlus r * U * (toHomogeneousPlus r).transpose = (r 3 * r 3) • U := by
  ext i j
  rw [mm4, mm4, mm4, mm4, mm4]
  obtain rfl | rfl | rfl | rfl : i = 0 ∨ i = 1 ∨ i = 2 ∨ i = 3 := by fin_cases i <;> simp
  all_goals
    obtain rfl | rfl | rfl | rfl : j = 0 ∨ j = 1 ∨ j = 2 ∨ j = 3 := by fin_cases j <;> simp
  all_goals
    simp [toHomogeneousPlus, h.1, h.2]
    try ring

/-- **C68** (part of `C68_points_claim`) For points without uncertainty of the scale the difference is right; adding
or subtracting a certain point with scale `w` divides the covariance of the Euclidean point by `w²`, so it is right
for scale ±1 (points constructed from Euclidean ones). -/
theorem C68_points_partial (P R : UPoint) (r : V4) (hP : NoScaleCov P.U) (hR : NoScaleCov R.U) (hp3 : P.p 3 ≠ 0)
    (hr3 : R.p 3 ≠ 0) :
    (P.sub R).U3 = P.U3 + R.U3 ∧ (P.addHP r).U3 = (1 / r 3 ^ 2) • P.U3 ∧ (P.subHP r).U3 = (1 / r 3 ^ 2) • P.U3 ∧
    (UPoint.hpAddU r P).U3 = (1 / r 3 ^ 2) • P.U3 ∧ (UPoint.hpSubU r P).U3 = (1 / r 3 ^ 2) • P.U3 := by
  have hw : ∀ (a b : ℝ), NoScaleCov (a • P.U + b • R.U) := fun a b =>
    ⟨fun i => by simp [hP.1, hR.1], fun j => by simp [hP.2, hR.2]⟩
  have e : ∀ (Q : UPoint), UPoint.U3 Q = UPoint.U3 ⟨Q.p, Q.U⟩ := fun Q => rfl
  refine ⟨?_, ?_, ?_, ?_, ?_⟩
  · ext i j
    rw [Matrix.add_apply, e P, e R, U3_noScale _ _ hP, U3_noScale _ _ hR]
    unfold UPoint.sub
    simp only
    rw [plus_noScale _ _ hP, plus_noScale _ _ hR, U3_noScale _ _ (hw _ _)]
    simp [hpSub]
    field_simp
  all_goals
    ext i j
    simp only [UPoint.addHP, UPoint.subHP, UPoint.hpAddU, UPoint.hpSubU]
    rw [Matrix.smul_apply, e P, U3_noScale _ _ hP, U3_noScale _ _ hP]
    simp [hpAdd, hpSub]
    ring

/-- Concrete: points constructed from Euclidean points and covariances satisfy the premises. -/
example : NoScaleCov (UPoint.ofU3 ![1, 2, 3] 1).U ∧ (UPoint.ofU3 ![1, 2, 3] 1).p 3 ≠ 0 := by
  refine ⟨⟨fun i => ?_, fun j => ?_⟩, by simp [UPoint.ofU3, toHomogeneous]⟩
  · fin_cases i <;> simp [UPoint.ofU3]
  · fin_cases j <;> simp [UPoint.ofU3]

end Verif.Kinematics
