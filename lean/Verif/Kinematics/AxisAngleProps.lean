import Verif.Kinematics.RotProps

/-!
# C56: `R2AxisAngle` inverts `axisAngle2R`
-/

namespace Verif.Kinematics

/-- **C56** `R2AxisAngle(C)`, given that `Eigen::AngleAxis(C)` returns a unit axis `e` and an angle of at least
0 for which `C` is the *active* rotation (Eigen's convention: the passive rotation by the opposite angle):
the vector returned has the length of the angle, is the axis-angle vector of `C` in the convention of this library,
and `axisAngle2R` of it is `C` again if the angle is at least `1e-12`. -/
theorem C56_log_partial (C : M3) (e : V3) (angle : ℝ) (he : IsUnit3 e) (h0 : 0 ≤ angle)
    (hC : IsRotationAbout C e (-angle)) :
    norm (R2AxisAngle e angle) = angle ∧
    (0 < angle → IsRotationAbout C (fun i => R2AxisAngle e angle i / norm (R2AxisAngle e angle)) (norm (R2AxisAngle e angle))) ∧
    (1 / 10 ^ 12 ≤ angle → axisAngle2RV (R2AxisAngle e angle) = C) := by
  have hn : norm (R2AxisAngle e angle) = angle := by
    unfold norm
    rw [sq3]
    have : R2AxisAngle e angle 0 * R2AxisAngle e angle 0 + R2AxisAngle e angle 1 * R2AxisAngle e angle 1 +
        R2AxisAngle e angle 2 * R2AxisAngle e angle 2 = angle * angle := by
      unfold IsUnit3 at he
      simp only [R2AxisAngle]
      linear_combination angle * angle * he
    rw [this, Real.sqrt_mul_self h0]
  have habout : 0 < angle →
      IsRotationAbout C (fun i => R2AxisAngle e angle i / norm (R2AxisAngle e angle)) (norm (R2AxisAngle e angle)) := by
    intro hp
    rw [hn]
    have hax : (fun i => R2AxisAngle e angle i / angle) = -e := by
      funext i
      simp only [R2AxisAngle, Pi.neg_apply]
      field_simp
    rw [hax]
    constructor
    · rw [Matrix.mulVec_neg, hC.1]
    · intro v hv
      have hv' : inner e v = 0 := by
        have : inner (-e) v = -inner e v := by simp [inner]
        linarith
      rw [hC.2 v hv', Real.cos_neg, Real.sin_neg]
      have hx : cross (-e) v = -cross e v := by
        apply ext3 <;> simp [cross] <;> ring
      rw [hx]
      simp
  refine ⟨hn, habout, ?_⟩
  intro h
  have hp : 0 < angle := lt_of_lt_of_le (by positivity) h
  have hu := unit_of_norm (x := R2AxisAngle e angle) (by rw [hn]; exact hp.ne')
  exact (C56_vector_partial (R2AxisAngle e angle) (by rw [hn]; exact h)).1.unique hu (habout hp)

/-- Concrete: the quarter turn about z, as Eigen reads it (active), is the passive one about -z. -/
example : IsUnit3 ![0, 0, 1] ∧ IsRotationAbout (rodrigues (-(Real.pi / 2)) ![0, 0, 1]) ![0, 0, 1] (-(Real.pi / 2)) ∧
    (1 / 10 ^ 12 : ℝ) ≤ Real.pi / 2 := by
  refine ⟨by simp [IsUnit3], rodrigues_about _ _ (by simp [IsUnit3]), ?_⟩
  have := Real.pi_gt_three; norm_num; linarith

end Verif.Kinematics
