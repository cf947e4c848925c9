import Verif.Kinematics.OplusLemmas
import Verif.Kinematics.TransfDoubleProps

/-!
# Lemmas for C162: the quaternion of a rotation vector, and the product
-/

namespace Verif.KinematicsDouble

open Verif.Common
open Verif.Kinematics (V3 V4 sqNorm)

local notation "nrm" => Kinematics.norm

/-- the quaternion of the rotation by the angle `|v|` about `v` (for `v = 0`, Lean's `0 / 0 = 0` gives the identity) -/
noncomputable def expQuat (v : V3) : V4 :=
  ![v 0 * (Real.sin (nrm v / 2) / nrm v), v 1 * (Real.sin (nrm v / 2) / nrm v), v 2 * (Real.sin (nrm v / 2) / nrm v), Real.cos (nrm v / 2)]

/-- what the series of the code stands for -/
noncomputable def seriesQuat (v : V3) : V4 :=
  ![v 0 * (1 / 2 + nrm v * nrm v * (1 / 48)), v 1 * (1 / 2 + nrm v * nrm v * (1 / 48)), v 2 * (1 / 2 + nrm v * nrm v * (1 / 48)), Real.cos (nrm v / 2)]

theorem nrm_expQuat (v : V3) : nrm (expQuat v) = 1 := by
  have h : sqNorm (expQuat v) = 1 := by
    rw [Kinematics.sq4]
    have hv : nrm v * nrm v = v 0 * v 0 + v 1 * v 1 + v 2 * v 2 := by rw [nrm_sq, Kinematics.sq3]
    have sc := Real.sin_sq_add_cos_sq (nrm v / 2)
    show v 0 * (Real.sin (nrm v / 2) / nrm v) * (v 0 * (Real.sin (nrm v / 2) / nrm v)) + v 1 * (Real.sin (nrm v / 2) / nrm v) * (v 1 * (Real.sin (nrm v / 2) / nrm v)) +
      v 2 * (Real.sin (nrm v / 2) / nrm v) * (v 2 * (Real.sin (nrm v / 2) / nrm v)) + Real.cos (nrm v / 2) * Real.cos (nrm v / 2) = 1
    rcases eq_or_ne (nrm v) 0 with h0 | h0
    · rw [h0]; simp
    · have e : v 0 * (Real.sin (nrm v / 2) / nrm v) * (v 0 * (Real.sin (nrm v / 2) / nrm v)) + v 1 * (Real.sin (nrm v / 2) / nrm v) * (v 1 * (Real.sin (nrm v / 2) / nrm v)) +
          v 2 * (Real.sin (nrm v / 2) / nrm v) * (v 2 * (Real.sin (nrm v / 2) / nrm v)) = (v 0 * v 0 + v 1 * v 1 + v 2 * v 2) * (Real.sin (nrm v / 2) / nrm v) ^ 2 := by ring
      rw [e, ← hv, div_pow]
      field_simp
      linarith
  rw [Kinematics.norm, h, Real.sqrt_one]

/-- bounds of the sine of half the angle -/
theorem sin_bounds {N : ℝ} (h0 : 0 ≤ N) (h1 : N ≤ 1) : N / 2 - N ^ 3 / 48 ≤ Real.sin (N / 2) ∧ Real.sin (N / 2) ≤ N / 2 := by
  rcases h0.eq_or_lt with h | h
  · subst h; simp
  · constructor
    · have := Real.sin_gt_sub_cube (x := N / 2) (by linarith)
      have e2 : (N / 2) ^ 3 / 6 = N ^ 3 / 48 := by ring
      linarith
    · exact (Real.sin_lt (by linarith)).le

/-- the norm of the series -/
theorem nrm_seriesQuat {v : V3} (h : nrm v ≤ 1 / 8000) : |nrm (seriesQuat v) - 1| ≤ u51 := by
  set N := nrm v with hN
  have N0 : 0 ≤ N := nrm_nonneg _
  obtain ⟨s1, s2⟩ := sin_bounds N0 (by linarith)
  have sc := Real.sin_sq_add_cos_sq (N / 2)
  have hv : N * N = v 0 * v 0 + v 1 * v 1 + v 2 * v 2 := by rw [hN, nrm_sq, Kinematics.sq3]
  have e : sqNorm (seriesQuat v) = 1 + ((N * (1 / 2 + N * N * (1 / 48))) ^ 2 - Real.sin (N / 2) ^ 2) := by
    rw [Kinematics.sq4]
    show v 0 * (1 / 2 + N * N * (1 / 48)) * (v 0 * (1 / 2 + N * N * (1 / 48))) + v 1 * (1 / 2 + N * N * (1 / 48)) * (v 1 * (1 / 2 + N * N * (1 / 48))) +
      v 2 * (1 / 2 + N * N * (1 / 48)) * (v 2 * (1 / 2 + N * N * (1 / 48))) + Real.cos (N / 2) * Real.cos (N / 2) = _
    have : v 0 * (1 / 2 + N * N * (1 / 48)) * (v 0 * (1 / 2 + N * N * (1 / 48))) + v 1 * (1 / 2 + N * N * (1 / 48)) * (v 1 * (1 / 2 + N * N * (1 / 48))) +
      v 2 * (1 / 2 + N * N * (1 / 48)) * (v 2 * (1 / 2 + N * N * (1 / 48))) = (v 0 * v 0 + v 1 * v 1 + v 2 * v 2) * (1 / 2 + N * N * (1 / 48)) ^ 2 := by ring
    rw [this, ← hv]
    nlinarith
  have S0 : 0 ≤ Real.sin (N / 2) := Real.sin_nonneg_of_nonneg_of_le_pi (by linarith) (by linarith [Real.pi_gt_three])
  have N3 : 0 ≤ N ^ 3 := by positivity
  have c1 : Real.sin (N / 2) ≤ N * (1 / 2 + N * N * (1 / 48)) := by
    have : N * (1 / 2 + N * N * (1 / 48)) = N / 2 + N ^ 3 / 48 := by ring
    linarith
  have d0 : 0 ≤ (N * (1 / 2 + N * N * (1 / 48))) ^ 2 - Real.sin (N / 2) ^ 2 := by
    have := mul_self_le_mul_self S0 c1
    nlinarith
  have d1 : (N * (1 / 2 + N * N * (1 / 48))) ^ 2 - Real.sin (N / 2) ^ 2 ≤ 2 * u51 := by
    have f1 : N * (1 / 2 + N * N * (1 / 48)) - Real.sin (N / 2) ≤ N ^ 3 / 24 := by
      have : N * (1 / 2 + N * N * (1 / 48)) = N / 2 + N ^ 3 / 48 := by ring
      linarith
    have NN : N * N ≤ 1 / 8000 * (1 / 8000) := mul_self_le_mul_self N0 h
    have f2 : N * (1 / 2 + N * N * (1 / 48)) + Real.sin (N / 2) ≤ 2 * N := by
      have : N * (1 / 2 + N * N * (1 / 48)) ≤ N * 1 := mul_le_mul_of_nonneg_left (by linarith) N0
      linarith
    have f3 : (N * (1 / 2 + N * N * (1 / 48))) ^ 2 - Real.sin (N / 2) ^ 2 = (N * (1 / 2 + N * N * (1 / 48)) - Real.sin (N / 2)) * (N * (1 / 2 + N * N * (1 / 48)) + Real.sin (N / 2)) := by ring
    rw [f3]
    have f4 : (N * (1 / 2 + N * N * (1 / 48)) - Real.sin (N / 2)) * (N * (1 / 2 + N * N * (1 / 48)) + Real.sin (N / 2)) ≤ N ^ 3 / 24 * (2 * N) :=
      mul_le_mul f1 f2 (by linarith) (by positivity)
    refine f4.trans ?_
    have f5 : N ^ 3 / 24 * (2 * N) = (N * N) * (N * N) / 12 := by ring
    rw [f5]
    have f6 : (N * N) * (N * N) ≤ (1 / 8000 * (1 / 8000)) * (1 / 8000 * (1 / 8000)) := mul_self_le_mul_self (by positivity) NN
    unfold u51
    norm_num at f6 ⊢
    linarith
  have u0 := u51_pos
  have q : nrm (seriesQuat v) = Real.sqrt (1 + ((N * (1 / 2 + N * N * (1 / 48))) ^ 2 - Real.sin (N / 2) ^ 2)) := by rw [← e]; rfl
  rw [q, abs_le]
  constructor
  · have : 1 ≤ Real.sqrt (1 + ((N * (1 / 2 + N * N * (1 / 48))) ^ 2 - Real.sin (N / 2) ^ 2)) := Real.one_le_sqrt.2 (by linarith)
    linarith
  · have : Real.sqrt (1 + ((N * (1 / 2 + N * N * (1 / 48))) ^ 2 - Real.sin (N / 2) ^ 2)) ≤ 1 + u51 := by
      apply Real.sqrt_le_iff.2
      constructor
      · linarith
      · nlinarith
    linarith

/-- the series and the truth -/
theorem series_exp {v : V3} (h : nrm v ≤ 1 / 8191) : nrm (seriesQuat v - expQuat v) ≤ 1 / 2 ^ 43 * (7 / 10) := by
  set N := nrm v with hN
  have N0 : 0 ≤ N := nrm_nonneg _
  obtain ⟨s1, s2⟩ := sin_bounds N0 (by linarith)
  have hv : N * N = v 0 * v 0 + v 1 * v 1 + v 2 * v 2 := by rw [hN, nrm_sq, Kinematics.sq3]
  set κ := 1 / 2 + N * N * (1 / 48) - Real.sin (N / 2) / N with hκ
  have e : sqNorm (seriesQuat v - expQuat v) = (N * κ) ^ 2 := by
    rw [Kinematics.sq4]
    simp only [Pi.sub_apply]
    show (v 0 * (1 / 2 + N * N * (1 / 48)) - v 0 * (Real.sin (N / 2) / N)) * (v 0 * (1 / 2 + N * N * (1 / 48)) - v 0 * (Real.sin (N / 2) / N)) +
      (v 1 * (1 / 2 + N * N * (1 / 48)) - v 1 * (Real.sin (N / 2) / N)) * (v 1 * (1 / 2 + N * N * (1 / 48)) - v 1 * (Real.sin (N / 2) / N)) +
      (v 2 * (1 / 2 + N * N * (1 / 48)) - v 2 * (Real.sin (N / 2) / N)) * (v 2 * (1 / 2 + N * N * (1 / 48)) - v 2 * (Real.sin (N / 2) / N)) +
      (Real.cos (N / 2) - Real.cos (N / 2)) * (Real.cos (N / 2) - Real.cos (N / 2)) = _
    have : (v 0 * v 0 + v 1 * v 1 + v 2 * v 2) * κ ^ 2 = (N * κ) ^ 2 := by rw [← hv]; ring
    rw [← this, hκ]; ring
  have q : nrm (seriesQuat v - expQuat v) = |N * κ| := by rw [Kinematics.norm, e, Real.sqrt_sq_eq_abs]
  rw [q]
  have k : N * κ = N / 2 + N ^ 3 / 48 - Real.sin (N / 2) := by
    rcases N0.eq_or_lt with h0 | h0
    · rw [← h0]; simp
    · rw [hκ]; field_simp
  have N3 : 0 ≤ N ^ 3 := by positivity
  have N3' : N ^ 3 ≤ (1 / 8191) ^ 3 := pow_le_pow_left₀ N0 h 3
  rw [k, abs_le]
  norm_num at N3' ⊢
  constructor <;> linarith

section
variable {R : ℝ → ℚ} (hR : IsRndR R) (L : Lib fun q => R q)
include hR

/-- short rotation vectors -/
theorem small_bound {a : F3} (ha : Finite a) (hb : nrm (vals a) ≤ 8) (hs : isSmallD (norm3 L a) = true) :
    Ab (1 / 2 ^ 60) (norm3 L a) (nrm (vals a)) ∧ nrm (vals a) ≤ 1 / 8191 := by
  obtain ⟨t, ht, td, t0, te⟩ := norm3_err hR L ha hb
  have N0 := nrm_nonneg (vals a)
  have tl : (t : ℝ) < 1 / 2 ^ 13 := by
    rw [ht] at hs
    have h1 : t < 1 / 2 ^ 13 := of_decide_eq_true hs
    have h3 : (t : ℝ) < ((1 / 2 ^ 13 : ℚ) : ℝ) := Rat.cast_lt.2 h1
    push_cast at h3
    exact h3
  have te' := abs_le.1 te
  have nb : nrm (vals a) ≤ 1 / 8191 := by norm_num at te' tl ⊢; linarith
  refine ⟨⟨t, ht, td, te.trans ?_⟩, nb⟩
  norm_num at nb ⊢; linarith

/-- a component of the axis, for short rotation vectors -/
theorem axis_small {a : F3} (ha : Finite a) (hb : nrm (vals a) ≤ 8) (hs : isSmallD (norm3 L a) = true) (i : Fin 3) :
    Ab (2 * u51) (fmul (fun q => R q) (a i) (naD L (norm3 L a))) (vals a i * (1 / 2 + nrm (vals a) * nrm (vals a) * (1 / 48))) := by
  obtain ⟨A, nb⟩ := small_bound hR L ha hb hs
  set N := nrm (vals a) with hN
  have N0 : 0 ≤ N := nrm_nonneg _
  have u0 := u51_pos
  have us : u51 ≤ 1 / 1000000 := by unfold u51; norm_num
  have e60 : (1 : ℝ) / 2 ^ 60 ≤ u51 := by unfold u51; norm_num
  have aN : |N| = N := abs_of_nonneg N0
  have A1 := Ab.mul hR A A (X := 1 / 4000) (Y := 1 / 8191) (by rw [aN]; norm_num at nb ⊢; linarith) (by rw [aN]; exact nb) (by norm_num)
  have A1' : Ab (2 * u51) _ (N * N) := A1.mono (by norm_num at e60 ⊢; linarith)
  have h48 : |(1 / 48 : ℝ)| ≤ 8 := by rw [abs_of_pos (by norm_num)]; norm_num
  have A2 : Ab u51 (.fin (R (1 / 48))) (1 / 48) := ⟨R (1 / 48), rfl, hR.mem _, round8 hR h48⟩
  have NN : N * N ≤ 1 / 8191 * (1 / 8191) := mul_self_le_mul_self N0 nb
  have aNN : |N * N| = N * N := abs_of_nonneg (by positivity)
  have A3 := Ab.mul hR A1' A2 (X := 1 / 1000) (Y := 1 / 48) (by rw [aNN]; linarith) (by rw [abs_of_pos (by norm_num)]) (by linarith)
  have A3' : Ab (2 * u51) _ (N * N * (1 / 48)) := A3.mono (by linarith)
  have Ah : Ab 0 (.fin (1 / 2)) (1 / 2) := by
    have h := Ab.exact (q := 1 / 2) (by
      have := isDouble_pow (-1) (by norm_num)
      simpa using this)
    simpa using h
  have A4 := Ab.add hR Ah A3' (by
    rw [abs_of_nonneg (by positivity)]; linarith)
  obtain ⟨e, hd⟩ := ha.fin i
  have A5 : Ab 0 (a i) (vals a i) := Ab.self e hd
  have ai : |vals a i| ≤ 1 / 8191 := (abs_le_nrm _ i).trans nb
  have A6 := Ab.mul hR A5 A4 (X := 1 / 8191) (Y := 1) (by linarith) (by rw [abs_of_nonneg (by positivity)]; linarith) (by linarith)
  have hna : naD L (norm3 L a) = fadd (fun q => R q) (.fin (1 / 2)) (fmul (fun q => R q) (fmul (fun q => R q) (norm3 L a) (norm3 L a)) (.fin (R (1 / 48)))) := by
    unfold naD
    rw [if_pos hs]
  rw [hna]
  exact A6.mono (by linarith)

/-- a vector near another, component by component -/
theorem near_of_ab {d : F4} {e : V4} {c : ℝ} (h : ∀ i, Ab c (d i) (e i)) (hc : c ≤ 1) (he : nrm e ≤ 2) : Finite d ∧ nrm (vals d - e) ≤ 2 * c := by
  constructor
  · intro i
    exact (h i).isFinite (by have := abs_le_nrm e i; linarith)
  · have c0 : 0 ≤ c := by
      obtain ⟨r, -, -, h3⟩ := h 0
      exact (abs_nonneg _).trans h3
    refine le_trans (nrm_mono (w := fun _ => c) fun i => ?_) (nrm_const c c0 (by norm_num))
    obtain ⟨-, -, h3⟩ := (h i).val
    exact h3

/-- the quaternion of a rotation vector: its norm, and its distance from the truth -/
theorem aa_near {a : F3} (ha : Finite a) (hb : nrm (vals a) ≤ 8) :
    Finite (axisAngle2quat L a) ∧ |nrm (vals (axisAngle2quat L a)) - 1| ≤ 24 * u51 ∧ nrm (vals (axisAngle2quat L a) - expQuat (vals a)) ≤ 1 / 2 ^ 43 ∧
      (1 / 8000 ≤ nrm (vals a) → nrm (vals (axisAngle2quat L a) - expQuat (vals a)) ≤ 24 * u51) := by
  have u0 := u51_pos
  have us : u51 ≤ 1 / 1000000 := by unfold u51; norm_num
  have c3 := cos_comp hR L ha hb
  cases hl : isSmallD (norm3 L a) with
  | false =>
    have h : ∀ i, Ab (12 * u51) (axisAngle2quat L a i) (expQuat (vals a) i) := by
      intro i
      fin_cases i
      · exact axis_large hR L ha hb hl 0
      · exact axis_large hR L ha hb hl 1
      · exact axis_large hR L ha hb hl 2
      · exact c3.mono (by linarith)
    obtain ⟨f, n⟩ := near_of_ab hR h (by linarith) (by rw [nrm_expQuat]; norm_num)
    have n' : nrm (vals (axisAngle2quat L a) - expQuat (vals a)) ≤ 24 * u51 := by linarith
    refine ⟨f, ?_, n'.trans (by unfold u51; norm_num), fun _ => n'⟩
    have := nrm_diff (vals (axisAngle2quat L a)) (expQuat (vals a))
    rw [nrm_expQuat] at this
    exact this.trans n'
  | true =>
    obtain ⟨-, nb⟩ := small_bound hR L ha hb hl
    have h : ∀ i, Ab (7 * u51) (axisAngle2quat L a i) (seriesQuat (vals a) i) := by
      intro i
      fin_cases i
      · exact (axis_small hR L ha hb hl 0).mono (by linarith)
      · exact (axis_small hR L ha hb hl 1).mono (by linarith)
      · exact (axis_small hR L ha hb hl 2).mono (by linarith)
      · exact c3
    have ns := nrm_seriesQuat (nb.trans (by norm_num))
    have ns' := abs_le.1 ns
    obtain ⟨f, n⟩ := near_of_ab hR h (by linarith) (by linarith)
    refine ⟨f, ?_, ?_, fun h8 => absurd (h8.trans nb) (by norm_num)⟩
    · have h1 := nrm_diff (vals (axisAngle2quat L a)) (seriesQuat (vals a))
      have h2 := abs_sub_le (nrm (vals (axisAngle2quat L a))) (nrm (seriesQuat (vals a))) 1
      linarith
    · have h1 := nrm_sub_le (vals (axisAngle2quat L a)) (seriesQuat (vals a)) (expQuat (vals a))
      have h2 := series_exp nb
      have h3 : 2 * (7 * u51) ≤ 1 / 2 ^ 43 * (3 / 10) := by unfold u51; norm_num
      linarith

/-- the product -/
theorem update_near {q : F4} {a : F3} (hq : Finite q) (nq : nrm (vals q) ≤ 9 / 8) (hd : Finite (axisAngle2quat L a)) (nd : nrm (vals (axisAngle2quat L a)) ≤ 9 / 8) :
    Finite (updateQuat L q a) ∧ nrm (vals (updateQuat L q a) - Kinematics.qplus (vals (axisAngle2quat L a)) (vals q)) ≤ 14 * u51 := by
  have u0 := u51_pos
  have us : u51 ≤ 1 / 1000000 := by unfold u51; norm_num
  set d := axisAngle2quat L a with hdd
  have qi : ∀ i, |vals q i| ≤ 9 / 8 := fun i => (abs_le_nrm _ i).trans nq
  have di : ∀ i, |vals d i| ≤ 9 / 8 := fun i => (abs_le_nrm _ i).trans nd
  have P : ∀ i j, Ab u51 (fmul (fun q => R q) (q i) (d j)) (vals q i * vals d j) ∧ Ab u51 (fmul (fun q => R q) (d j) (q i)) (vals d j * vals q i) := by
    intro i j
    obtain ⟨e1, h1⟩ := hq.fin i
    obtain ⟨e2, h2⟩ := hd.fin j
    have A := Ab.mul hR (Ab.self e1 h1) (Ab.self e2 h2) (X := 9 / 8) (Y := 9 / 8) (by rw [add_zero]; exact qi i) (di j) (by norm_num)
    have B := Ab.mul hR (Ab.self e2 h2) (Ab.self e1 h1) (X := 9 / 8) (Y := 9 / 8) (by rw [add_zero]; exact di j) (qi i) (by norm_num)
    exact ⟨A.mono (by linarith), B.mono (by linarith)⟩
  have pb : ∀ i j, |vals q i * vals d j| ≤ 81 / 64 ∧ |vals d j * vals q i| ≤ 81 / 64 := by
    intro i j
    have : |vals q i * vals d j| ≤ 81 / 64 := by
      rw [abs_mul]
      calc |vals q i| * |vals d j| ≤ 9 / 8 * (9 / 8) := mul_le_mul (qi i) (di j) (abs_nonneg _) (by norm_num)
        _ = _ := by norm_num
    exact ⟨this, by rw [mul_comm]; exact this⟩
  -- sums of four
  have S : ∀ (g₁ g₂ g₃ : Bool) {w x y z : Fp} {w' x' y' z' : ℝ}, Ab u51 w w' → Ab u51 x x' → Ab u51 y y' → Ab u51 z z' → |w'| ≤ 81 / 64 → |x'| ≤ 81 / 64 → |y'| ≤ 81 / 64 → |z'| ≤ 81 / 64 →
      let op : Bool → Fp → Fp → Fp := fun g => if g then fadd (fun q => R q) else fsub (fun q => R q)
      let op' : Bool → ℝ → ℝ → ℝ := fun g => if g then (· + ·) else (· - ·)
      Ab (7 * u51) (op g₃ (op g₂ (op g₁ w x) y) z) (op' g₃ (op' g₂ (op' g₁ w' x') y') z') := by
    intro g₁ g₂ g₃ w x y z w' x' y' z' hw hx hy hz bw bx by' bz op op'
    have step : ∀ (g : Bool) {e e' b b' : ℝ} {f h : Fp} {u v : ℝ}, Ab e f u → Ab e' h v → |u| ≤ b → |v| ≤ b' → b + b' + e + e' ≤ 8 → Ab (e + e' + u51) (op g f h) (op' g u v) ∧ |op' g u v| ≤ b + b' := by
      intro g e e' b b' f h u v h1 h2 h3 h4 h5
      cases g
      · have t := abs_sub u v
        exact ⟨Ab.sub hR h1 h2 (by linarith), by show |u - v| ≤ _; linarith⟩
      · have t := abs_add_le u v
        exact ⟨Ab.add hR h1 h2 (by linarith), by show |u + v| ≤ _; linarith⟩
    obtain ⟨s1, b1⟩ := step g₁ hw hx bw bx (by linarith)
    obtain ⟨s2, b2⟩ := step g₂ s1 hy b1 by' (by linarith)
    obtain ⟨s3, -⟩ := step g₃ s2 hz b2 bz (by linarith)
    exact s3.mono (by linarith)
  have hp : nrm (Kinematics.qplus (vals d) (vals q)) ≤ 2 := by
    rw [nrm_qplus]
    calc nrm (vals d) * nrm (vals q) ≤ 9 / 8 * (9 / 8) := mul_le_mul nd nq (nrm_nonneg _) (by norm_num)
      _ ≤ 2 := by norm_num
  have h : ∀ i, Ab (7 * u51) (updateQuat L q a i) (Kinematics.qplus (vals d) (vals q) i) := by
    intro i
    fin_cases i
    · show Ab _ (updateQuat L q a 0) (Kinematics.qplus (vals d) (vals q) 0)
      have e : Kinematics.qplus (vals d) (vals q) 0 = vals q 0 * vals d 3 + vals d 0 * vals q 3 - vals d 1 * vals q 2 + vals d 2 * vals q 1 := by simp [Kinematics.qplus]; ring
      rw [e]
      exact S true false true (P 0 3).1 (P 3 0).2 (P 2 1).2 (P 1 2).2 (pb 0 3).1 (pb 3 0).2 (pb 2 1).2 (pb 1 2).2
    · show Ab _ (updateQuat L q a 1) (Kinematics.qplus (vals d) (vals q) 1)
      have e : Kinematics.qplus (vals d) (vals q) 1 = vals q 1 * vals d 3 + vals d 0 * vals q 2 + vals d 1 * vals q 3 - vals d 2 * vals q 0 := by simp [Kinematics.qplus]; ring
      rw [e]
      exact S true true false (P 1 3).1 (P 2 0).2 (P 3 1).2 (P 0 2).2 (pb 1 3).1 (pb 2 0).2 (pb 3 1).2 (pb 0 2).2
    · show Ab _ (updateQuat L q a 2) (Kinematics.qplus (vals d) (vals q) 2)
      have e : Kinematics.qplus (vals d) (vals q) 2 = vals q 2 * vals d 3 - vals d 0 * vals q 1 + vals d 1 * vals q 0 + vals d 2 * vals q 3 := by simp [Kinematics.qplus]; ring
      rw [e]
      exact S false true true (P 2 3).1 (P 1 0).2 (P 0 1).2 (P 3 2).2 (pb 2 3).1 (pb 1 0).2 (pb 0 1).2 (pb 3 2).2
    · show Ab _ (updateQuat L q a 3) (Kinematics.qplus (vals d) (vals q) 3)
      have e : Kinematics.qplus (vals d) (vals q) 3 = vals q 3 * vals d 3 - vals d 0 * vals q 0 - vals d 1 * vals q 1 - vals d 2 * vals q 2 := by simp [Kinematics.qplus]; ring
      rw [e]
      exact S false false false (P 3 3).1 (P 0 0).2 (P 1 1).2 (P 2 2).2 (pb 3 3).1 (pb 0 0).2 (pb 1 1).2 (pb 2 2).2
  obtain ⟨f, n⟩ := near_of_ab hR h (by linarith) hp
  exact ⟨f, n.trans (by linarith)⟩

/-- one update -/
theorem update_step {q : F4} {a : F3} (hq : Finite q) (nq : nrm (vals q) ≤ 17 / 16) (ha : Finite a) (hb : nrm (vals a) ≤ 8) (x : V4) :
    Finite (updateQuat L q a) ∧ |nrm (vals (updateQuat L q a)) - 1| ≤ |nrm (vals q) - 1| + 1 / 2 ^ 45 ∧
      nrm (vals (updateQuat L q a) - Kinematics.qplus (expQuat (vals a)) x) ≤ nrm (vals q - x) + 1 / 2 ^ 42 ∧
      (1 / 8000 ≤ nrm (vals a) → nrm (vals (updateQuat L q a) - Kinematics.qplus (expQuat (vals a)) x) ≤ nrm (vals q - x) + 1 / 2 ^ 45) := by
  have u0 := u51_pos
  have us : u51 ≤ 1 / 1000000 := by unfold u51; norm_num
  have u45 : 40 * u51 ≤ 1 / 2 ^ 45 := by unfold u51; norm_num
  have u42 : 15 * u51 + 9 / 8 / 2 ^ 43 ≤ 1 / 2 ^ 42 := by unfold u51; norm_num
  obtain ⟨fd, nd, ed, ed'⟩ := aa_near hR L ha hb
  have nd' := abs_le.1 nd
  obtain ⟨f, n⟩ := update_near hR L hq (nq.trans (by norm_num)) fd (by linarith)
  set d := vals (axisAngle2quat L a) with hd
  set p := vals q with hp
  have p0 := nrm_nonneg p
  have core : ∀ E, nrm (d - expQuat (vals a)) ≤ E → nrm (vals (updateQuat L q a) - Kinematics.qplus (expQuat (vals a)) x) ≤ nrm (p - x) + (14 * u51 + E * (17 / 16)) := by
    intro E hE
    have E0 : 0 ≤ E := (nrm_nonneg _).trans hE
    have t1 := nrm_sub_le (vals (updateQuat L q a)) (Kinematics.qplus d p) (Kinematics.qplus (expQuat (vals a)) x)
    have t2 := nrm_sub_le (Kinematics.qplus d p) (Kinematics.qplus (expQuat (vals a)) p) (Kinematics.qplus (expQuat (vals a)) x)
    rw [← qplus_sub_left, ← qplus_sub_right, nrm_qplus, nrm_qplus, nrm_expQuat, one_mul] at t2
    have t3 : nrm (d - expQuat (vals a)) * nrm p ≤ E * (17 / 16) := mul_le_mul hE nq p0 E0
    linarith
  refine ⟨f, ?_, ?_, fun h => ?_⟩
  · have h1 := nrm_diff (vals (updateQuat L q a)) (Kinematics.qplus d p)
    rw [nrm_qplus] at h1
    have h2 := abs_sub_le (nrm (vals (updateQuat L q a))) (nrm d * nrm p) 1
    have h3 : nrm d * nrm p - 1 = (nrm d - 1) * nrm p + (nrm p - 1) := by ring
    have h4 : |(nrm d - 1) * nrm p| ≤ 24 * u51 * (17 / 16) := by
      rw [abs_mul, abs_of_nonneg p0]
      exact mul_le_mul nd nq p0 (by linarith)
    have h5 := abs_add_le ((nrm d - 1) * nrm p) (nrm p - 1)
    rw [← h3] at h5
    linarith
  · have := core _ ed
    norm_num at this u42 ⊢
    linarith
  · have := core _ (ed' h)
    linarith

end

end Verif.KinematicsDouble
