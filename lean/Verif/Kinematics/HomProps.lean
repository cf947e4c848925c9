import Verif.Kinematics.TransfProps
import Verif.Kinematics.Deriv

/-!
# Homogeneous points: C58
-/

namespace Verif.Kinematics

open Matrix

theorem represents_iff {p : V4} {x : V3} : Represents p x ↔ p 3 ≠ 0 ∧ fromHomogeneous p = x := by
  unfold Represents fromHomogeneous
  constructor
  · rintro ⟨h3, h0, h1, h2⟩
    refine ⟨h3, ?_⟩
    apply ext3 <;> simp <;> field_simp <;> linarith
  · rintro ⟨h3, rfl⟩
    refine ⟨h3, ?_, ?_, ?_⟩ <;> simp <;> field_simp

/-- **C58** Converting to homogeneous coordinates and back: every representative of a point, whatever its scale,
is converted back to that point, and every 4-vector with non-zero last entry represents the point it is converted
to. -/
theorem C58_conversion (x : V3) (p : V4) :
    Represents (toHomogeneous x) x ∧ fromHomogeneous (toHomogeneous x) = x ∧ hpToEuclidean (toHomogeneous x) = x ∧
    (Represents p x → fromHomogeneous p = x ∧ hpToEuclidean p = x ∧ (hpToEuclideanAndJacobian p).1 = x) ∧
    (p 3 ≠ 0 → Represents p (fromHomogeneous p)) ∧ (hpAtInfinity p ↔ ¬ ∃ y, Represents p y) ∧
    Represents hpZero 0 := by
  have h1 : Represents (toHomogeneous x) x := by
    refine ⟨?_, ?_, ?_, ?_⟩ <;> simp [toHomogeneous]
  refine ⟨h1, (represents_iff.1 h1).2, (represents_iff.1 h1).2, ?_, ?_, ?_, ?_⟩
  · intro h
    exact ⟨(represents_iff.1 h).2, (represents_iff.1 h).2, (represents_iff.1 h).2⟩
  · exact fun h => represents_iff.2 ⟨h, rfl⟩
  · constructor
    · rintro h ⟨y, hy⟩; exact hy.1 h
    · intro h; by_contra hn; exact h ⟨_, represents_iff.2 ⟨hn, rfl⟩⟩
  · refine ⟨?_, ?_, ?_, ?_⟩ <;> simp [hpZero]

/-- **C58** Sum, difference, scaling and normalisation of homogeneous points are those of the points they
represent, whatever the scales; the matrices `toHomogeneousPlus(p)` and `toHomogeneousMinus(p)` add `p` to a point
and subtract `p` from it. -/
theorem C58_arithmetic (p r : V4) (x y : V3) (hp : Represents p x) (hr : Represents r y) (s : ℝ) :
    Represents (hpAdd p r) (x + y) ∧ Represents (hpSub p r) (x - y) ∧ Represents (hpScale p s) (s • x) ∧
    Represents (hpNormalize p) x ∧ IsUnit4 (hpNormalize p) ∧
    Represents ((toHomogeneousPlus p).mulVec r) (x + y) ∧ Represents ((toHomogeneousMinus p).mulVec r) (y - x) ∧
    (s ≠ 0 → Represents (s • p) x) := by
  obtain ⟨p3, p0, p1, p2⟩ := hp
  obtain ⟨r3, r0, r1, r2⟩ := hr
  have hne : p ≠ 0 := fun e => p3 (by rw [e]; rfl)
  have hn : norm p ≠ 0 := by
    intro e
    have := normalized_unit hne
    unfold IsUnit4 at this
    simp [e] at this
  have hpr := mul_ne_zero p3 r3
  refine ⟨⟨?_, ?_, ?_, ?_⟩, ⟨?_, ?_, ?_, ?_⟩, ⟨?_, ?_, ?_, ?_⟩, ⟨?_, ?_, ?_, ?_⟩, normalized_unit hne,
    ⟨?_, ?_, ?_, ?_⟩, ⟨?_, ?_, ?_, ?_⟩, fun hs => ⟨?_, ?_, ?_, ?_⟩⟩
  all_goals first
    | (rw [mv4]; simp [toHomogeneousPlus, toHomogeneousMinus, *]; done)
    | (rw [mv4, mv4]; simp [toHomogeneousPlus, toHomogeneousMinus, *]; ring)
    | (simp [hpAdd, hpSub, hpScale, hpNormalize, *]; done)
    | (simp [hpAdd, hpSub, hpScale, hpNormalize, *]; ring)

theorem quatRotate_smul (q : V4) (v : V3) (s : ℝ) : quatRotate q (s • v) = s • quatRotate q v := by
  have e : ∀ v i, quatRotate q v i = v i + 2 * cross (qeps q) (cross (qeps q) v - q 3 • v) i := fun v i => rfl
  apply ext3 <;> simp only [e, Pi.smul_apply, smul_eq_mul] <;> simp [cross] <;> ring

/-- **C58** Transforming a homogeneous point transforms the point it represents. -/
theorem C58_transform (X : Transformation) (p : V4) (x : V3) (hp : Represents p x) :
    Represents (X.mulHP p) (X.mulV3 x) ∧ Represents (X.mulV4 p) (X.mulV3 x) ∧ Represents (X.rotate4 p) (X.rotate x) := by
  obtain ⟨p3, p0, p1, p2⟩ := hp
  have hh : headV p = p 3 • x := by apply ext3 <;> simp [headV, *]
  refine ⟨⟨?_, ?_, ?_, ?_⟩, ⟨?_, ?_, ?_, ?_⟩, ?_, ?_, ?_, ?_⟩
  all_goals
    simp [Transformation.mulHP, Transformation.mulV4, Transformation.mulV3, Transformation.rotate4,
      Transformation.rotate, hh, quatRotate_smul, mul_add, p3]

/-- **C58** Points at infinity: `convertToVector` keeps the direction, `convertToPoint` gives the point at distance
one in that direction. -/
theorem C58_directions (p : V4) : hpAtInfinity (hpConvertToVector p) ∧ headV (hpConvertToVector p) = headV p ∧
    (hpAtInfinity p → p ≠ 0 → Represents (hpConvertToPoint p) (fun i => headV p i / norm (headV p)) ∧
      IsUnit3 (fun i => headV p i / norm (headV p))) := by
  refine ⟨rfl, ?_, ?_⟩
  · apply ext3 <;> simp [headV, hpConvertToVector]
  · intro h hne
    have h3 : p 3 = 0 := h
    have hnn : norm p = norm (headV p) := by
      unfold norm; rw [sq4, sq3, h3]; simp [headV]
    have hn : norm (headV p) ≠ 0 := by
      intro e
      have := normalized_unit hne
      unfold IsUnit4 at this
      simp [hnn, e] at this
    refine ⟨⟨?_, ?_, ?_, ?_⟩, unit_of_norm hn⟩ <;> simp [hpConvertToPoint, hpNormalize, hnn, headV]

/-- **C58** The column-wise versions: appending a row of ones and dividing by the last row undo each other, column
by column the same as for single points. -/
theorem C58_columns {m n : Nat} (M : Matrix (Fin m) (Fin n) ℝ) (H : Matrix (Fin 4) (Fin n) ℝ) (j : Fin n) :
    fromHomogeneousColumns (toHomogeneousColumns M) = M ∧
    (fun i => fromHomogeneousColumns H i j) = fromHomogeneous (fun i => H i j) ∧
    (H 3 j ≠ 0 → Represents (fun i => H i j) (fun i => fromHomogeneousColumns H i j)) := by
  have h2 : (fun i => fromHomogeneousColumns H i j) = fromHomogeneous (fun i => H i j) := by
    apply ext3 <;> simp [fromHomogeneousColumns, fromHomogeneous, Fin.last]
  refine ⟨?_, h2, ?_⟩
  · ext i j
    simp [fromHomogeneousColumns, toHomogeneousColumns]
  · intro h
    rw [h2]
    exact represents_iff.2 ⟨h, rfl⟩

theorem IsJacobian.comp {ι κ μ : Type} [Fintype ι] [Fintype κ] {f : (ι → ℝ) → (κ → ℝ)} {g : (κ → ℝ) → (μ → ℝ)}
    {J : Matrix κ ι ℝ} {K : Matrix μ κ ℝ} {x : ι → ℝ} (hg : IsJacobian g K (f x)) (hf : IsJacobian f J x) :
    IsJacobian (fun y => g (f y)) (K * J) x := by
  intro c v h0 hc k
  have := hg (fun s => f (c s)) (J.mulVec v) (by rw [h0]) (fun i => hf c v h0 hc i) k
  rwa [mulVec_mulVec] at this

/-- **C58** The Jacobians that come with the conversions are derivatives: of `toHomogeneous`, of `fromHomogeneous`
at every point not at infinity, of normalisation at every non-zero vector. -/
theorem C58_jacobians {n : Nat} (x : V3) (p : V4) (w : Fin n → ℝ) (hp : p 3 ≠ 0) (hw : w ≠ 0) :
    IsJacobian toHomogeneous (toHomogeneousJacobian x) x ∧ IsJacobian fromHomogeneous (fromHomogeneousJacobian p) p ∧
    IsJacobian normalizeN (normalizeAndJacobian w).2 w ∧ (normalizeAndJacobian w).1 = normalizeN w := by
  refine ⟨?_, ?_, ?_, ?_⟩
  · intro c v h0 hc k
    rw [mv3]
    fin_cases k
    · exact (hc 0).congr_deriv (by simp [toHomogeneousJacobian])
    · exact (hc 1).congr_deriv (by simp [toHomogeneousJacobian])
    · exact (hc 2).congr_deriv (by simp [toHomogeneousJacobian])
    · exact (hasDerivAt_const (0 : ℝ) (1 : ℝ)).congr_deriv (by simp [toHomogeneousJacobian])
  · intro c v h0 hc k
    rw [mv4]
    have h3 : c 0 3 ≠ 0 := by rw [h0]; exact hp
    have hd : ∀ i : Fin 4, HasDerivAt (fun s => c s i * (1 / c s 3))
        (v i * (1 / p 3) + p i * (-(v 3) / (p 3 * p 3))) 0 := by
      intro i
      refine ((hc i).fun_mul (((hasDerivAt_const (0 : ℝ) (1 : ℝ)).fun_div (hc 3) h3))).congr_deriv ?_
      rw [h0]
      field_simp
      ring
    fin_cases k
    · exact (hd 0).congr_deriv (by simp [fromHomogeneousJacobian, fromHomogeneous]; field_simp)
    · exact (hd 1).congr_deriv (by simp [fromHomogeneousJacobian, fromHomogeneous]; field_simp)
    · exact (hd 2).congr_deriv (by simp [fromHomogeneousJacobian, fromHomogeneous]; field_simp)
  · intro c v h0 hc k
    have hn : norm w ≠ 0 := by
      intro e
      apply hw
      have : sqNorm w = 0 := by rw [← norm_mul_self, e, mul_zero]
      funext i
      exact mul_self_eq_zero.1 ((Finset.sum_eq_zero_iff_of_nonneg (fun i _ => mul_self_nonneg (w i))).1 this i (Finset.mem_univ i))
    have hn0 : norm (c 0) ≠ 0 := by rw [h0]; exact hn
    have hd := (hc k).fun_div (deriv_norm hc hn0) hn0
    unfold normalizeN
    refine hd.congr_deriv ?_
    rw [h0]
    have e1 : (normalizeAndJacobian w).2.mulVec v k =
        1 / norm w * v k - 1 / norm w * (1 / norm w) * (1 / norm w) * (w k * inner w v) := by
      unfold normalizeAndJacobian
      simp only [sub_mulVec, smul_mulVec, one_mulVec, Pi.sub_apply, Pi.smul_apply, smul_eq_mul]
      congr 2
      rw [vecMulVec_mulVec]
      simp [inner, dotProduct, mul_comm]
    rw [e1]
    field_simp
  · funext i
    simp [normalizeAndJacobian, normalizeN, div_eq_mul_inv]

/-- **C58** The Jacobians of the minimal update `oplus`, at update zero: of the homogeneous coordinates and, for
points not at infinity, of the Euclidean coordinates of the updated point. -/
theorem C58_oplus_jacobians (p : V4) :
    IsJacobian (hpOplus p) (hpJacobian p) 0 ∧ hpOplus p 0 = p ∧
    (p 3 ≠ 0 → IsJacobian (fun d => hpToEuclidean (hpOplus p d)) (hpToEuclideanAndJacobian p).2 0) := by
  have h1 : IsJacobian (hpOplus p) (hpJacobian p) 0 := fun c v h0 hc k => deriv_updateQuat p h0 hc k
  have h2 : hpOplus p 0 = p := by
    have hz : axisAngle2quat 0 = quatIdentity := (C54_partial 0).2.1 rfl
    unfold hpOplus updateQuat
    rw [hz]
    apply ext4 <;> simp [quatIdentity]
  refine ⟨h1, h2, fun h3 => ?_⟩
  have h := (C58_jacobians (n := 1) (fun _ => 0) p (fun _ => 1) h3 (by intro e; simpa using congrFun e 0)).2.1
  exact IsJacobian.comp (by rw [h2]; exact h) h1

/-- Concrete: `(2, 4, 6, 2)` represents the point `(1, 2, 3)`, and is a point the Jacobians apply to. -/
example : Represents ![2, 4, 6, 2] ![1, 2, 3] ∧ (![2, 4, 6, 2] : V4) 3 ≠ 0 ∧ (![2, 4, 6, 2] : V4) ≠ 0 := by
  refine ⟨⟨?_, ?_, ?_, ?_⟩, by simp, ?_⟩
  · simp
  · simp
  · simp; norm_num
  · simp; norm_num
  · intro h; simpa using congrFun h 0

example : hpAtInfinity ![1, 2, 3, 0] ∧ (![1, 2, 3, 0] : V4) ≠ 0 := by
  refine ⟨rfl, ?_⟩
  intro h; simpa using congrFun h 0

end Verif.Kinematics
