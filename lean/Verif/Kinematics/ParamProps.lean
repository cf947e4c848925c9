import Verif.Kinematics.ParamSpec
import Verif.Kinematics.UncertainProps

/-!
# Rotation parametrisations: C61 (S-matrices, angular velocities), C69 (round trips)
-/

namespace Verif.Kinematics

open Matrix

/-! ## Euler angles -/

theorem ypr_eq (p : V3) : yprMatrix p = rph2R (p 2) (p 1) (p 0) := rfl
theorem zyx_eq (p : V3) : zyxMatrix p = rph2C (p 2) (p 1) (p 0) := rfl

/-- **C61** The Euler-angle parametrisations always yield rotations, composed of turns about the axes in the order
of their names. -/
theorem C61_euler_rotations (p : V3) :
    IsRotation (yprMatrix p) ∧ IsRotation (zyxMatrix p) ∧ IsRotation (zxyMatrix p) ∧
    yprMatrix p = Rz (p 0) * Ry (p 1) * Rx (p 2) ∧ zyxMatrix p = Cz (p 0) * Cy (p 1) * Cx (p 2) ∧
    zxyMatrix p = Rz (p 0) * Rx (p 1) * Ry (p 2) := by
  have hz : zxyMatrix p = Rz (p 0) * Rx (p 1) * Ry (p 2) := by
    ext i j
    rw [mm3, mm3, mm3, mm3]
    fin_cases i <;> fin_cases j <;> simp [zxyMatrix, Rx, Ry, Rz] <;> ring
  have h := C55_rph (p 2) (p 1) (p 0)
  refine ⟨h.2.2.1, h.2.2.2, ?_, h.1, h.2.1, hz⟩
  rw [hz]
  exact IsRotation.mul (IsRotation.mul (C55_elementary _ 0).2.2.1.2.2 (C55_elementary _ 0).2.2.1.1) (C55_elementary _ 0).2.2.1.2.1

theorem deriv_cos_of {c : ℝ → ℝ} {v : ℝ} (h : HasDerivAt c v 0) : HasDerivAt (fun s => Real.cos (c s)) (-Real.sin (c 0) * v) 0 := h.cos
theorem deriv_sin_of {c : ℝ → ℝ} {v : ℝ} (h : HasDerivAt c v 0) : HasDerivAt (fun s => Real.sin (c s)) (Real.cos (c 0) * v) 0 := h.sin

/-- the derivative of the yaw-pitch-roll matrix -/
theorem rph_turns {x y z : ℝ → ℝ} {dx dy dz : ℝ} (hx : HasDerivAt x dx 0) (hy : HasDerivAt y dy 0) (hz : HasDerivAt z dz 0) :
    TurnsBy (fun s => rph2R (x s) (y s) (z s))
      ((yprBuildS (Real.sin (z 0)) (Real.cos (z 0)) (Real.sin (y 0)) (Real.cos (y 0))).mulVec ![dz, dy, dx]) := by
  have cx := deriv_cos_of hx
  have sx := deriv_sin_of hx
  have cy := deriv_cos_of hy
  have sy := deriv_sin_of hy
  have cz := deriv_cos_of hz
  have sz := deriv_sin_of hz
  have tx := trig (x 0)
  have ty := trig (y 0)
  have tz := trig (z 0)
  intro i j
  obtain rfl | rfl | rfl : i = 0 ∨ i = 1 ∨ i = 2 := by fin_cases i <;> simp
  all_goals
    obtain rfl | rfl | rfl : j = 0 ∨ j = 1 ∨ j = 2 := by fin_cases j <;> simp
  · refine (cz.fun_mul cy).congr_deriv ?_
    simp [cross, mv3, yprBuildS, rph2R, rphMatrix]; grind
  · refine ((sz.fun_neg.fun_mul cx).fun_add ((cz.fun_mul sy).fun_mul sx)).congr_deriv ?_
    simp [cross, mv3, yprBuildS, rph2R, rphMatrix]; grind
  · refine ((sz.fun_mul sx).fun_add ((cz.fun_mul sy).fun_mul cx)).congr_deriv ?_
    simp [cross, mv3, yprBuildS, rph2R, rphMatrix]; grind
  · refine (sz.fun_mul cy).congr_deriv ?_
    simp [cross, mv3, yprBuildS, rph2R, rphMatrix]; grind
  · refine ((cz.fun_mul cx).fun_add ((sz.fun_mul sy).fun_mul sx)).congr_deriv ?_
    simp [cross, mv3, yprBuildS, rph2R, rphMatrix]; grind
  · refine ((cz.fun_neg.fun_mul sx).fun_add ((sz.fun_mul sy).fun_mul cx)).congr_deriv ?_
    simp [cross, mv3, yprBuildS, rph2R, rphMatrix]; grind
  · refine sy.fun_neg.congr_deriv ?_
    simp [cross, mv3, yprBuildS, rph2R, rphMatrix]; grind
  · refine (cy.fun_mul sx).congr_deriv ?_
    simp [cross, mv3, yprBuildS, rph2R, rphMatrix]; grind
  · refine (cy.fun_mul cx).congr_deriv ?_
    simp [cross, mv3, yprBuildS, rph2R, rphMatrix]; grind

/-- **C61** The S-matrices of the Euler-angle parametrisations map parameter rates to angular velocities, everywhere
and along every curve; they are invertible exactly away from gimbal lock (the middle angle at an odd multiple of a
right angle). -/
theorem C61_euler_smatrix (p : V3) :
    IsSMatrix yprMatrix (yprS p) p ∧ IsSMatrix zyxMatrix (zyxS p) p ∧ IsSMatrix zxyMatrix (zxyS p) p ∧
    (yprS p).det = Real.cos (p 1) ∧ (zyxS p).det = -Real.cos (p 1) ∧ (zxyS p).det = -Real.cos (p 1) := by
  refine ⟨?_, ?_, ?_, ?_, ?_, ?_⟩
  · rintro c v rfl hc
    have := rph_turns (hc 2) (hc 1) (hc 0)
    have e : ![v 0, v 1, v 2] = v := by apply ext3 <;> simp
    rw [e] at this
    exact this
  · rintro c v rfl hc
    have := rph_turns (hc 2).fun_neg (hc 1).fun_neg (hc 0).fun_neg
    have e : (yprBuildS (Real.sin (-c 0 0)) (Real.cos (-c 0 0)) (Real.sin (-c 0 1)) (Real.cos (-c 0 1))).mulVec
        ![-v 0, -v 1, -v 2] = (zyxS (c 0)).mulVec v := by
      apply ext3 <;> rw [mv3, mv3] <;> simp [yprBuildS, zyxS, zyxBuildS]
    rw [e] at this
    exact this
  · rintro c v rfl hc
    have cx := deriv_cos_of (hc 1)
    have sx := deriv_sin_of (hc 1)
    have cy := deriv_cos_of (hc 2)
    have sy := deriv_sin_of (hc 2)
    have cz := deriv_cos_of (hc 0)
    have sz := deriv_sin_of (hc 0)
    have tx := trig (c 0 1)
    have ty := trig (c 0 2)
    have tz := trig (c 0 0)
    intro i j
    obtain rfl | rfl | rfl : i = 0 ∨ i = 1 ∨ i = 2 := by fin_cases i <;> simp
    all_goals
      obtain rfl | rfl | rfl : j = 0 ∨ j = 1 ∨ j = 2 := by fin_cases j <;> simp
    · refine ((cz.fun_mul cy).fun_sub ((sz.fun_mul sx).fun_mul sy)).congr_deriv ?_
      simp [cross, mv3, zxyS, zxyMatrix]; grind
    · refine (sz.fun_neg.fun_mul cx).congr_deriv ?_
      simp [cross, mv3, zxyS, zxyMatrix]; grind
    · refine ((cz.fun_mul sy).fun_add ((sz.fun_mul sx).fun_mul cy)).congr_deriv ?_
      simp [cross, mv3, zxyS, zxyMatrix]; grind
    · refine ((sz.fun_mul cy).fun_add ((cz.fun_mul sx).fun_mul sy)).congr_deriv ?_
      simp [cross, mv3, zxyS, zxyMatrix]; grind
    · refine (cz.fun_mul cx).congr_deriv ?_
      simp [cross, mv3, zxyS, zxyMatrix]; grind
    · refine ((sz.fun_mul sy).fun_sub ((cz.fun_mul sx).fun_mul cy)).congr_deriv ?_
      simp [cross, mv3, zxyS, zxyMatrix]; grind
    · refine (cx.fun_neg.fun_mul sy).congr_deriv ?_
      simp [cross, mv3, zxyS, zxyMatrix]; grind
    · refine sx.congr_deriv ?_
      simp [cross, mv3, zxyS, zxyMatrix]; grind
    · refine (cx.fun_mul cy).congr_deriv ?_
      simp [cross, mv3, zxyS, zxyMatrix]; grind
  · have tz := trig (p 0)
    rw [det_fin_three]; simp [yprS, yprBuildS]; grind
  · have tz := trig (p 0)
    rw [det_fin_three]; simp [zyxS, zyxBuildS]; grind
  · have tz := trig (p 0)
    rw [det_fin_three]; simp [zxyS]; grind

/-- the Jacobian of a velocity `S(p) pdot`: it suffices to differentiate along curves of `p` and `pdot` -/
theorem jac_velocity {S : V3 → M3} {A : M3} {p pdot : V3}
    (h : ∀ (c d : ℝ → V3) (v w : V3), c 0 = p → d 0 = pdot → (∀ i, HasDerivAt (fun s => c s i) (v i) 0) →
      (∀ i, HasDerivAt (fun s => d s i) (w i) 0) →
      ∀ i, HasDerivAt (fun s => (S (c s)).mulVec (d s) i) ((A.mulVec v + (S p).mulVec w) i) 0) :
    IsJacobian (fun x : V6 => (S (head3 x)).mulVec (tail3 x)) (halves A (S p)) (v6 p pdot) := by
  intro c v h0 hc k
  have := h (fun s => head3 (c s)) (fun s => tail3 (c s)) (head3 v) (tail3 v) (by rw [h0]; rfl) (by rw [h0]; rfl)
    (fun i => hc (.inl i)) (fun i => hc (.inr i)) k
  refine this.congr_deriv ?_
  rw [mv6, Pi.add_apply, mv3, mv3]
  simp [halves, head3, tail3]
  ring

/-- **C61** `angularVelocityAndJacobian` of the Euler-angle parametrisations returns `S(p) pdot` and its exact
derivative with respect to `p` and `pdot`. -/
theorem C61_euler_velocity (p pdot : V3) :
    ((yprVelocity p pdot).1 = (yprS p).mulVec pdot ∧
      IsJacobian (fun x => (yprS (head3 x)).mulVec (tail3 x)) (yprVelocity p pdot).2 (v6 p pdot)) ∧
    ((zyxVelocity p pdot).1 = (zyxS p).mulVec pdot ∧
      IsJacobian (fun x => (zyxS (head3 x)).mulVec (tail3 x)) (zyxVelocity p pdot).2 (v6 p pdot)) ∧
    ((zxyVelocity p pdot).1 = (zxyS p).mulVec pdot ∧
      IsJacobian (fun x => (zxyS (head3 x)).mulVec (tail3 x)) (zxyVelocity p pdot).2 (v6 p pdot)) := by
  refine ⟨⟨rfl, jac_velocity ?_⟩, ⟨rfl, jac_velocity ?_⟩, ⟨rfl, jac_velocity ?_⟩⟩
  · rintro c d v w rfl rfl hc hd i
    have cy := deriv_cos_of (hc 1)
    have sy := deriv_sin_of (hc 1)
    have cz := deriv_cos_of (hc 0)
    have sz := deriv_sin_of (hc 0)
    have hn : HasDerivAt (fun _ : ℝ => (0 : ℝ)) 0 0 := hasDerivAt_const _ _
    have h1 : HasDerivAt (fun _ : ℝ => (-1 : ℝ)) 0 0 := hasDerivAt_const _ _
    simp only [mv3, Pi.add_apply]
    obtain rfl | rfl | rfl : i = 0 ∨ i = 1 ∨ i = 2 := by fin_cases i <;> simp
    · refine (((hn.fun_mul (hd 0)).fun_add (sz.fun_mul (hd 1))).fun_add ((cy.fun_neg.fun_mul cz).fun_mul (hd 2))).congr_deriv ?_
      simp [yprS, yprBuildS]; ring
    · refine (((hn.fun_mul (hd 0)).fun_add (cz.fun_neg.fun_mul (hd 1))).fun_add ((cy.fun_neg.fun_mul sz).fun_mul (hd 2))).congr_deriv ?_
      simp [yprS, yprBuildS]; ring
    · refine (((h1.fun_mul (hd 0)).fun_add (hn.fun_mul (hd 1))).fun_add (sy.fun_mul (hd 2))).congr_deriv ?_
      simp [yprS, yprBuildS]; ring
  · rintro c d v w rfl rfl hc hd i
    have cy := deriv_cos_of (hc 1).fun_neg
    have sy := deriv_sin_of (hc 1).fun_neg
    have cz := deriv_cos_of (hc 0).fun_neg
    have sz := deriv_sin_of (hc 0).fun_neg
    have hn : HasDerivAt (fun _ : ℝ => (0 : ℝ)) 0 0 := hasDerivAt_const _ _
    have h1 : HasDerivAt (fun _ : ℝ => (1 : ℝ)) 0 0 := hasDerivAt_const _ _
    simp only [mv3, Pi.add_apply]
    obtain rfl | rfl | rfl : i = 0 ∨ i = 1 ∨ i = 2 := by fin_cases i <;> simp
    · refine (((hn.fun_mul (hd 0)).fun_add (sz.fun_neg.fun_mul (hd 1))).fun_add ((cy.fun_mul cz).fun_mul (hd 2))).congr_deriv ?_
      simp [zyxS, zyxBuildS]; ring
    · refine (((hn.fun_mul (hd 0)).fun_add (cz.fun_mul (hd 1))).fun_add ((cy.fun_mul sz).fun_mul (hd 2))).congr_deriv ?_
      simp [zyxS, zyxBuildS]; ring
    · refine (((h1.fun_mul (hd 0)).fun_add (hn.fun_mul (hd 1))).fun_add (sy.fun_neg.fun_mul (hd 2))).congr_deriv ?_
      simp [zyxS, zyxBuildS]; ring
  · rintro c d v w rfl rfl hc hd i
    have cy := deriv_cos_of (hc 1)
    have sy := deriv_sin_of (hc 1)
    have cz := deriv_cos_of (hc 0)
    have sz := deriv_sin_of (hc 0)
    have hn : HasDerivAt (fun _ : ℝ => (0 : ℝ)) 0 0 := hasDerivAt_const _ _
    have h1 : HasDerivAt (fun _ : ℝ => (-1 : ℝ)) 0 0 := hasDerivAt_const _ _
    simp only [mv3, Pi.add_apply]
    obtain rfl | rfl | rfl : i = 0 ∨ i = 1 ∨ i = 2 := by fin_cases i <;> simp
    · refine (((hn.fun_mul (hd 0)).fun_add (cz.fun_neg.fun_mul (hd 1))).fun_add ((cy.fun_mul sz).fun_mul (hd 2))).congr_deriv ?_
      simp [zxyS]; ring
    · refine (((hn.fun_mul (hd 0)).fun_add (sz.fun_neg.fun_mul (hd 1))).fun_add ((cy.fun_neg.fun_mul cz).fun_mul (hd 2))).congr_deriv ?_
      simp [zxyS]; ring
    · refine (((h1.fun_mul (hd 0)).fun_add (hn.fun_mul (hd 1))).fun_add (sy.fun_neg.fun_mul (hd 2))).congr_deriv ?_
      simp [zxyS]; ring

/-- Concrete: parameters away from gimbal lock, and a curve through them. -/
example : (yprS ![1, 0, 2]).det ≠ 0 ∧ ∃ (c : ℝ → V3) (v : V3), c 0 = ![1, 0, 2] ∧ v ≠ 0 ∧ ∀ i, HasDerivAt (fun s => c s i) (v i) 0 := by
  refine ⟨?_, fun s => ![1 + s, 0, 2], ![1, 0, 0], by simp, by intro e; simpa using congrFun e 0, ?_⟩
  · rw [(C61_euler_smatrix _).2.2.2.1]; simp
  · intro i
    fin_cases i
    · simpa using (hasDerivAt_id (0 : ℝ)).const_add 1
    · simpa using hasDerivAt_const (0 : ℝ) (0 : ℝ)
    · simpa using hasDerivAt_const (0 : ℝ) (2 : ℝ)

/-! ## EulerRodriguez -/

/-- the quaternion of a Rodrigues vector -/
noncomputable def erQuat (p : V3) : V4 :=
  let r := 1 / √(1 + sqNorm p)
  ![p 0 * r, p 1 * r, p 2 * r, r]

theorem sqNorm_nonneg {n : Nat} (v : Fin n → ℝ) : 0 ≤ sqNorm v := Finset.sum_nonneg fun i _ => mul_self_nonneg _

theorem er_r (p : V3) : (1 / √(1 + sqNorm p)) * (1 / √(1 + sqNorm p)) = 1 / (1 + sqNorm p) ∧ 0 < 1 / √(1 + sqNorm p) := by
  have h := sqNorm_nonneg p
  have hs : √(1 + sqNorm p) * √(1 + sqNorm p) = 1 + sqNorm p := Real.mul_self_sqrt (by linarith)
  have hp : 0 < √(1 + sqNorm p) := Real.sqrt_pos.2 (by linarith)
  refine ⟨?_, by positivity⟩
  rw [div_mul_div_comm, hs, one_mul]

theorem erQuat_unit (p : V3) : IsUnit4 (erQuat p) := by
  obtain ⟨h, hp⟩ := er_r p
  have h0 := sqNorm_nonneg p
  unfold IsUnit4 erQuat
  simp only [Matrix.cons_val_zero, Matrix.cons_val_one, Matrix.cons_val]
  generalize 1 / √(1 + sqNorm p) = r at *
  have e : (1 + sqNorm p) * (r * r) = 1 := by rw [h]; field_simp
  rw [sq3] at e
  linear_combination e

theorem er_quat (p : V3) : erMatrix p = quat2r (erQuat p) := by
  obtain ⟨h, hp⟩ := er_r p
  have h0 := sqNorm_nonneg p
  have e2 : (2 : ℝ) / (1 + sqNorm p) = 2 * ((1 / √(1 + sqNorm p)) * (1 / √(1 + sqNorm p))) := by rw [h]; ring
  have hu := erQuat_unit p
  unfold erMatrix
  simp only [e2]
  unfold erQuat IsUnit4 at *
  simp only [Matrix.cons_val_zero, Matrix.cons_val_one, Matrix.cons_val] at hu
  generalize 1 / √(1 + sqNorm p) = r at *
  ext i j
  rw [Matrix.add_apply, Matrix.smul_apply, Matrix.sub_apply, mm3]
  fin_cases i <;> fin_cases j <;> simp [crossMx, quat2r] <;> first | ring1 | linear_combination -hu

/-- `1/(1+|p|²)` along a curve -/
theorem deriv_erRecip {c : ℝ → V3} {v : V3} (hc : ∀ i, HasDerivAt (fun s => c s i) (v i) 0) :
    HasDerivAt (fun s => 1 / (1 + sqNorm (c s))) (-(2 * inner (c 0) v) * (1 / (1 + sqNorm (c 0))) * (1 / (1 + sqNorm (c 0)))) 0 := by
  have h0 := sqNorm_nonneg (c 0)
  have hd := (deriv_sqNorm hc).const_add 1
  refine ((hasDerivAt_const (0 : ℝ) (1 : ℝ)).fun_div hd (by linarith)).congr_deriv ?_
  field_simp
  ring

/-- **C61** The Euler-Rodriguez parametrisation: always a rotation, the S-matrix is right everywhere and always
invertible, the Jacobian of the angular velocity is exact. -/
theorem C61_rodriguez (p pdot : V3) :
    IsRotation (erMatrix p) ∧ IsSMatrix erMatrix (erS p) p ∧ (erS p).det ≠ 0 ∧ (erVelocity p pdot).1 = (erS p).mulVec pdot ∧
    IsJacobian (fun x => (erS (head3 x)).mulVec (tail3 x)) (erVelocity p pdot).2 (v6 p pdot) := by
  have h0 := sqNorm_nonneg p
  have hS : ∀ p : V3, erS p = (2 * (1 / (1 + sqNorm p))) • (1 - crossMx p) := by
    intro p; unfold erS; simp only; congr 1; ring
  have hrel : ∀ p : V3, (1 + (p 0 * p 0 + p 1 * p 1 + p 2 * p 2)) * (1 / (1 + sqNorm p)) = 1 := by
    intro p
    have := sqNorm_nonneg p
    rw [← sq3]; field_simp
  have hin : ∀ p v : V3, inner p v = p 0 * v 0 + p 1 * v 1 + p 2 * v 2 := by
    intro p v; simp [inner, Fin.sum_univ_succ]; ring
  refine ⟨by rw [er_quat]; exact C52_rotation _ (erQuat_unit p), ?_, ?_, ?_, ?_⟩
  · rintro c v rfl hc
    have hu := deriv_erRecip hc
    have h1 := hrel (c 0)
    rw [hS]
    have hC : ∀ s i j, erMatrix (c s) i j = (1 : M3) i j + 2 * (1 / (1 + sqNorm (c s))) *
        (!![-(c s 1 * c s 1) - c s 2 * c s 2, c s 0 * c s 1 + c s 2, c s 0 * c s 2 - c s 1;
            c s 0 * c s 1 - c s 2, -(c s 0 * c s 0) - c s 2 * c s 2, c s 1 * c s 2 + c s 0;
            c s 0 * c s 2 + c s 1, c s 1 * c s 2 - c s 0, -(c s 0 * c s 0) - c s 1 * c s 1] : M3) i j := by
      intro s i j
      have e : erMatrix (c s) = 1 + (2 / (1 + sqNorm (c s))) • (crossMx (c s) * crossMx (c s) - crossMx (c s)) := rfl
      rw [e, Matrix.add_apply, Matrix.smul_apply, Matrix.sub_apply, mm3, show 2 / (1 + sqNorm (c s)) = 2 * (1 / (1 + sqNorm (c s))) by ring]
      generalize 1 / (1 + sqNorm (c s)) = u
      fin_cases i <;> fin_cases j <;> simp [crossMx, -mul_eq_mul_left_iff] <;> ring1
    have c0 := hc 0
    have c1 := hc 1
    have c2 := hc 2
    rw [hin] at hu
    have hf := hu.const_mul 2
    unfold TurnsBy
    simp only [hC]
    generalize hr : 1 / (1 + sqNorm (c 0)) = u at *
    intro i j
    obtain rfl | rfl | rfl : i = 0 ∨ i = 1 ∨ i = 2 := by fin_cases i <;> simp
    all_goals
      obtain rfl | rfl | rfl : j = 0 ∨ j = 1 ∨ j = 2 := by fin_cases j <;> simp
    · refine ((hf.fun_mul ((c1.fun_mul c1).fun_neg.fun_sub (c2.fun_mul c2))).const_add _).congr_deriv ?_
      simp only [hr]; simp [cross, mv3, crossMx]; clear hf hu c0 c1 c2 hC hc hS hrel hin; grind
    · refine ((hf.fun_mul ((c0.fun_mul c1).fun_add c2)).const_add _).congr_deriv ?_
      simp only [hr]; simp [cross, mv3, crossMx]; clear hf hu c0 c1 c2 hC hc hS hrel hin; grind
    · refine ((hf.fun_mul ((c0.fun_mul c2).fun_sub c1)).const_add _).congr_deriv ?_
      simp only [hr]; simp [cross, mv3, crossMx]; clear hf hu c0 c1 c2 hC hc hS hrel hin; grind
    · refine ((hf.fun_mul ((c0.fun_mul c1).fun_sub c2)).const_add _).congr_deriv ?_
      simp only [hr]; simp [cross, mv3, crossMx]; clear hf hu c0 c1 c2 hC hc hS hrel hin; grind
    · refine ((hf.fun_mul ((c0.fun_mul c0).fun_neg.fun_sub (c2.fun_mul c2))).const_add _).congr_deriv ?_
      simp only [hr]; simp [cross, mv3, crossMx]; clear hf hu c0 c1 c2 hC hc hS hrel hin; grind
    · refine ((hf.fun_mul ((c1.fun_mul c2).fun_add c0)).const_add _).congr_deriv ?_
      simp only [hr]; simp [cross, mv3, crossMx]; clear hf hu c0 c1 c2 hC hc hS hrel hin; grind
    · refine ((hf.fun_mul ((c0.fun_mul c2).fun_add c1)).const_add _).congr_deriv ?_
      simp only [hr]; simp [cross, mv3, crossMx]; clear hf hu c0 c1 c2 hC hc hS hrel hin; grind
    · refine ((hf.fun_mul ((c1.fun_mul c2).fun_sub c0)).const_add _).congr_deriv ?_
      simp only [hr]; simp [cross, mv3, crossMx]; clear hf hu c0 c1 c2 hC hc hS hrel hin; grind
    · refine ((hf.fun_mul ((c0.fun_mul c0).fun_neg.fun_sub (c1.fun_mul c1))).const_add _).congr_deriv ?_
      simp only [hr]; simp [cross, mv3, crossMx]; clear hf hu c0 c1 c2 hC hc hS hrel hin; grind
  · have h1 := hrel p
    have hu : 0 < 1 / (1 + sqNorm p) := by positivity
    have : (erS p).det = 8 * (1 / (1 + sqNorm p)) * (1 / (1 + sqNorm p)) := by
      rw [hS]
      generalize 1 / (1 + sqNorm p) = u at *
      rw [det_fin_three]
      simp [crossMx]
      linear_combination (8 * u * u) * h1
    rw [this]
    positivity
  · rw [hS]; rfl
  · have : (erVelocity p pdot).2 = halves (vecMulVec pdot ((-4 * (1 / (1 + sqNorm p)) * (1 / (1 + sqNorm p))) • p) -
        vecMulVec ((crossMx p).mulVec pdot) ((-4 * (1 / (1 + sqNorm p)) * (1 / (1 + sqNorm p))) • p) +
        (2 * (1 / (1 + sqNorm p))) • crossMx pdot) (erS p) := by
      rw [hS]; rfl
    rw [this]
    apply jac_velocity
    rintro c d v w rfl rfl hc hd i
    have hu := deriv_erRecip hc
    rw [hin] at hu
    have hf := hu.const_mul 2
    have c0 := hc 0
    have c1 := hc 1
    have c2 := hc 2
    have d0 := hd 0
    have d1 := hd 1
    have d2 := hd 2
    have hC : ∀ s i, (erS (c s)).mulVec (d s) i = 2 * (1 / (1 + sqNorm (c s))) *
        (![d s 0 + c s 2 * d s 1 - c s 1 * d s 2, d s 1 + c s 0 * d s 2 - c s 2 * d s 0, d s 2 + c s 1 * d s 0 - c s 0 * d s 1] : V3) i := by
      intro s i
      rw [hS, mv3]
      generalize 1 / (1 + sqNorm (c s)) = u
      fin_cases i <;> simp [crossMx] <;> ring1
    simp only [hC, Pi.add_apply]
    rw [hS, mv3, mv3]
    generalize hr : 1 / (1 + sqNorm (c 0)) = u at *
    obtain rfl | rfl | rfl : i = 0 ∨ i = 1 ∨ i = 2 := by fin_cases i <;> simp
    · refine (hf.fun_mul ((d0.fun_add (c2.fun_mul d1)).fun_sub (c1.fun_mul d2))).congr_deriv ?_
      simp only [hr, Matrix.add_apply, Matrix.sub_apply, Matrix.smul_apply, vecMulVec_apply, mv3]; simp [crossMx]; ring
    · refine (hf.fun_mul ((d1.fun_add (c0.fun_mul d2)).fun_sub (c2.fun_mul d0))).congr_deriv ?_
      simp only [hr, Matrix.add_apply, Matrix.sub_apply, Matrix.smul_apply, vecMulVec_apply, mv3]; simp [crossMx]; ring
    · refine (hf.fun_mul ((d2.fun_add (c1.fun_mul d0)).fun_sub (c0.fun_mul d1))).congr_deriv ?_
      simp only [hr, Matrix.add_apply, Matrix.sub_apply, Matrix.smul_apply, vecMulVec_apply, mv3]; simp [crossMx]; ring

/-! ## RotationVector -/

theorem cross0 (a b : V3) : cross a b 0 = a 1 * b 2 - a 2 * b 1 := rfl
theorem cross1 (a b : V3) : cross a b 1 = a 2 * b 0 - a 0 * b 2 := rfl
theorem cross2 (a b : V3) : cross a b 2 = a 0 * b 1 - a 1 * b 0 := rfl

/-- the axis-angle matrix along a curve: `n` the angle, `e` the unit axis, `nd` and `(v - nd e) ρ` their rates, where
`ρ = 1/n` -/
theorem rodrigues_turns {n : ℝ → ℝ} {e : ℝ → V3} {v : V3} {ρ : ℝ} (he : IsUnit3 (e 0))
    (hn : HasDerivAt n (inner (e 0) v) 0) (hd : ∀ i, HasDerivAt (fun s => e s i) ((v i - e 0 i * inner (e 0) v) * ρ) 0) :
    TurnsBy (fun s => rodrigues (n s) (e s)) (v + ((Real.cos (n 0) - 1) * ρ) • cross (e 0) v +
      (1 - Real.sin (n 0) * ρ) • cross (e 0) (cross (e 0) v)) := by
  have hin : inner (e 0) v = e 0 0 * v 0 + e 0 1 * v 1 + e 0 2 * v 2 := by simp [inner, Fin.sum_univ_succ]; ring
  have hs := hn.sin
  have hc := hn.cos
  have e0 := hd 0
  have e1 := hd 1
  have e2 := hd 2
  have ht := trig (n 0)
  unfold IsUnit3 at he
  rw [hin] at hs hc e0 e1 e2
  generalize hc0 : Real.cos (n 0) = C at *
  generalize hs0 : Real.sin (n 0) = S at *
  intro i j
  obtain rfl | rfl | rfl : i = 0 ∨ i = 1 ∨ i = 2 := by fin_cases i <;> simp
  all_goals
    obtain rfl | rfl | rfl : j = 0 ∨ j = 1 ∨ j = 2 := by fin_cases j <;> simp
  · refine ((e0.fun_mul e0).fun_add (hc.fun_mul ((e0.fun_mul e0).const_sub 1))).congr_deriv ?_
    simp only [cross0, cross1, cross2, Pi.add_apply, Pi.smul_apply, smul_eq_mul]
    simp [rodrigues, hc0, hs0]
    clear hs hc e0 e1 e2 hn hd hc0 hs0 hin
    grind
  · refine (((e0.fun_mul e1).fun_sub ((hc.fun_mul e0).fun_mul e1)).fun_add (hs.fun_mul e2)).congr_deriv ?_
    simp only [cross0, cross1, cross2, Pi.add_apply, Pi.smul_apply, smul_eq_mul]
    simp [rodrigues, hc0, hs0]
    clear hs hc e0 e1 e2 hn hd hc0 hs0 hin
    grind
  · refine (((e0.fun_mul e2).fun_sub ((hc.fun_mul e0).fun_mul e2)).fun_sub (hs.fun_mul e1)).congr_deriv ?_
    simp only [cross0, cross1, cross2, Pi.add_apply, Pi.smul_apply, smul_eq_mul]
    simp [rodrigues, hc0, hs0]
    clear hs hc e0 e1 e2 hn hd hc0 hs0 hin
    grind
  · refine (((e0.fun_mul e1).fun_sub ((hc.fun_mul e0).fun_mul e1)).fun_sub (hs.fun_mul e2)).congr_deriv ?_
    simp only [cross0, cross1, cross2, Pi.add_apply, Pi.smul_apply, smul_eq_mul]
    simp [rodrigues, hc0, hs0]
    clear hs hc e0 e1 e2 hn hd hc0 hs0 hin
    grind
  · refine ((e1.fun_mul e1).fun_add (hc.fun_mul ((e1.fun_mul e1).const_sub 1))).congr_deriv ?_
    simp only [cross0, cross1, cross2, Pi.add_apply, Pi.smul_apply, smul_eq_mul]
    simp [rodrigues, hc0, hs0]
    clear hs hc e0 e1 e2 hn hd hc0 hs0 hin
    grind
  · refine (((e1.fun_mul e2).fun_sub ((hc.fun_mul e1).fun_mul e2)).fun_add (hs.fun_mul e0)).congr_deriv ?_
    simp only [cross0, cross1, cross2, Pi.add_apply, Pi.smul_apply, smul_eq_mul]
    simp [rodrigues, hc0, hs0]
    clear hs hc e0 e1 e2 hn hd hc0 hs0 hin
    grind
  · refine (((e0.fun_mul e2).fun_sub ((hc.fun_mul e0).fun_mul e2)).fun_add (hs.fun_mul e1)).congr_deriv ?_
    simp only [cross0, cross1, cross2, Pi.add_apply, Pi.smul_apply, smul_eq_mul]
    simp [rodrigues, hc0, hs0]
    clear hs hc e0 e1 e2 hn hd hc0 hs0 hin
    grind
  · refine (((e1.fun_mul e2).fun_sub ((hc.fun_mul e1).fun_mul e2)).fun_sub (hs.fun_mul e0)).congr_deriv ?_
    simp only [cross0, cross1, cross2, Pi.add_apply, Pi.smul_apply, smul_eq_mul]
    simp [rodrigues, hc0, hs0]
    clear hs hc e0 e1 e2 hn hd hc0 hs0 hin
    grind
  · refine ((e2.fun_mul e2).fun_add (hc.fun_mul ((e2.fun_mul e2).const_sub 1))).congr_deriv ?_
    simp only [cross0, cross1, cross2, Pi.add_apply, Pi.smul_apply, smul_eq_mul]
    simp [rodrigues, hc0, hs0]
    clear hs hc e0 e1 e2 hn hd hc0 hs0 hin
    grind
