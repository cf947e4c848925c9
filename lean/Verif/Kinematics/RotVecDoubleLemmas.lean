import Verif.Kinematics.RotVecDouble
import Verif.Kinematics.EulerDoubleProps
import Verif.Kinematics.RotExpProps
import Verif.Kinematics.RoundTripProps

/-!
# Lemmas for C177: the errors of the axis, the angle and the entries
-/

namespace Verif.RotVecDouble

open Verif.Common Verif.KinematicsDouble Verif.EulerDouble
open Verif.Kinematics (V3 V4 M3)

local notation "nrm" => Kinematics.norm

section
variable {R : ℝ → ℚ} (hR : IsRndR R)
include hR

/-- a small decimal literal -/
theorem literal {x : ℝ} (h0 : 1 / 2 ^ 50 ≤ x) (h1 : x ≤ 1) : |(R x : ℝ) - x| ≤ x / 2 ^ 53 := by
  have x0 : 0 ≤ x := le_trans (by norm_num) h0
  have h : (2 : ℝ) ^ (-1022 : ℤ) ≤ |x| := by
    rw [abs_of_nonneg x0]
    have : (2 : ℝ) ^ (-1022 : ℤ) ≤ 2 ^ (-50 : ℤ) := zpow_le_zpow_right₀ (by norm_num) (by norm_num)
    refine this.trans (le_trans (le_of_eq ?_) h0)
    rw [zpow_neg, one_div]; norm_cast
  have := hR.err_rel h
  rw [abs_of_nonneg x0] at this
  exact this

/-- the norm of a vector that is not tiny, with a relative error -/
theorem norm3_rel (L : Lib fun q => R q) {a : F3} (ha : Finite a) (hb : nrm (vals a) ≤ 8) (hl : 1 / 2 ^ 47 ≤ nrm (vals a)) :
    ∃ t : ℚ, norm3 L a = .fin t ∧ IsDouble t ∧ 0 ≤ t ∧ |(t : ℝ) - nrm (vals a)| ≤ 17 / 10 * u51 * nrm (vals a) := by
  obtain ⟨t, ht, td, t0, -⟩ := norm3_err hR L ha hb
  obtain ⟨s, s0, hs, he⟩ := sum3_err hR L ha hb
  set N := nrm (vals a) with hN
  have Np : 0 < N := lt_of_lt_of_le (by norm_num) hl
  have s0' : (0 : ℝ) ≤ s := by exact_mod_cast s0
  refine ⟨t, ht, td, t0, ?_⟩
  have e1 : t = R (Real.sqrt s) := by
    unfold norm3 at ht
    rw [hs] at ht
    simp only [Verif.NumericDouble.fsqrt, if_neg (not_lt.2 s0)] at ht
    cases ht; rfl
  set x := Real.sqrt s with hx
  have x0 : 0 ≤ x := Real.sqrt_nonneg _
  have xx : x * x = s := Real.mul_self_sqrt s0'
  have N2 : (1 : ℝ) / 2 ^ 160 ≤ 1 / 2 ^ 66 * (N * N) := by
    have : (1 : ℝ) / 2 ^ 47 * (1 / 2 ^ 47) ≤ N * N := mul_le_mul hl hl (by norm_num) Np.le
    calc (1 : ℝ) / 2 ^ 160 = 1 / 2 ^ 66 * (1 / 2 ^ 47 * (1 / 2 ^ 47)) := by norm_num
      _ ≤ _ := mul_le_mul_of_nonneg_left this (by norm_num)
  have he2 : |(s : ℝ) - N * N| ≤ 51 / 10 / 2 ^ 53 * (N * N) := by
    have NN : 0 ≤ N * N := by positivity
    refine he.trans ((add_le_add le_rfl N2).trans ?_)
    rw [← add_mul]
    exact mul_le_mul_of_nonneg_right (by norm_num) NN
  have h1 : |x - N| ≤ 51 / 10 / 2 ^ 53 * N := by
    have e2 : (s : ℝ) - N * N = (x - N) * (x + N) := by rw [← xx]; ring
    rw [e2, abs_mul, abs_of_nonneg (by linarith : 0 ≤ x + N)] at he2
    have h3 : |x - N| * N ≤ 51 / 10 / 2 ^ 53 * N * N := by
      refine le_trans (mul_le_mul_of_nonneg_left (by linarith : N ≤ x + N) (abs_nonneg _)) (he2.trans (le_of_eq (by ring)))
    exact le_of_mul_le_mul_right h3 Np
  have xl : N / 2 ≤ x := by
    have := (abs_le.1 h1).1
    norm_num at this ⊢
    linarith
  have h2 : |(R x : ℝ) - x| ≤ x / 2 ^ 53 := by
    have h : (2 : ℝ) ^ (-1022 : ℤ) ≤ |x| := by
      rw [abs_of_nonneg x0]
      have : (2 : ℝ) ^ (-1022 : ℤ) ≤ 2 ^ (-48 : ℤ) := zpow_le_zpow_right₀ (by norm_num) (by norm_num)
      refine this.trans (le_trans (le_of_eq ?_) (le_trans (by linarith : (1 : ℝ) / 2 ^ 47 / 2 ≤ N / 2) xl))
      norm_num
    have := hR.err_rel h
    rwa [abs_of_nonneg x0] at this
  rw [e1]
  have h3 := abs_sub_le (R x : ℝ) x N
  have h4 := abs_le.1 h1
  refine h3.trans ((add_le_add h2 h1).trans ?_)
  unfold u51
  norm_num at h4 ⊢
  linarith

/-- a component of the axis -/
theorem axis_err {f : Fp} {x N : ℝ} {t : ℚ} (hf : f = .fin (fval f)) (hx : (fval f : ℝ) = x) (hxN : |x| ≤ N) (hN : 1 / 2 ^ 47 ≤ N) (N8 : N ≤ 8) (ht : |(t : ℝ) - N| ≤ 17 / 10 * u51 * N) :
    Ab (3 * u51) (fmul (fun q => R q) f (fdiv (fun q => R q) (.fin 1) (.fin t))) (x / N) := by
  have Np : 0 < N := lt_of_lt_of_le (by norm_num) hN
  have us : u51 ≤ 1 / 1000000 := by unfold u51; norm_num
  have u0 := u51_pos
  have ht' := abs_le.1 ht
  have tl : N * (999 / 1000) ≤ t := by nlinarith
  have tp : (0 : ℝ) < t := lt_of_lt_of_le (by positivity) tl
  have t0 : t ≠ 0 := by rintro rfl; simp at tp
  have zt : |((1 / t : ℚ) : ℝ)| ≤ 2 ^ (300 : ℤ) := by
    push_cast
    rw [abs_of_pos (by positivity)]
    have h1 : (1 : ℝ) / t ≤ 2 ^ (48 : ℤ) := by
      rw [div_le_iff₀ tp]
      have : (1 : ℝ) / 2 ^ 47 * (999 / 1000) ≤ t := le_trans (mul_le_mul_of_nonneg_right hN (by norm_num)) tl
      norm_num at this ⊢
      linarith
    exact h1.trans (zpow_le_zpow_right₀ (by norm_num) (by norm_num))
  obtain ⟨r1, -, r3⟩ := round_mid hR zt
  have d1 : fdiv (fun q => R q) (.fin 1) (.fin t) = .fin (R ((1 / t : ℚ) : ℝ)) := by
    show rounded _ (if t = 0 then _ else Fp.fin (1 / t)) = _
    rw [if_neg t0]; exact r1
  set r := R ((1 / t : ℚ) : ℝ) with hr
  have r4 : |(r : ℝ) - 1 / t| ≤ 1 / t * (11 / 10 / 2 ^ 53) := by
    have e1 : ((1 / t : ℚ) : ℝ) = 1 / t := by push_cast; rfl
    rw [e1, abs_of_pos (by positivity : (0 : ℝ) < 1 / t)] at r3
    refine r3.trans ?_
    have h1 := tiny_small
    have h2 : (1 : ℝ) / 10 ≤ 1 / t := by
      rw [le_div_iff₀ tp]
      nlinarith
    have : (tiny : ℝ) ≤ 1 / t * (1 / 10 / 2 ^ 53) := by
      refine h1.trans ?_
      refine le_trans ?_ (mul_le_mul_of_nonneg_right h2 (by norm_num))
      norm_num
    calc (1 : ℝ) / t / 2 ^ 53 + tiny ≤ 1 / t / 2 ^ 53 + 1 / t * (1 / 10 / 2 ^ 53) := add_le_add le_rfl this
      _ = _ := by ring
  have ut : (11 : ℝ) / 10 / 2 ^ 53 ≤ 28 / 100 * u51 := by unfold u51; norm_num
  have i1 : N * (1 / t) ≤ 1001 / 1000 * (1001 / 1000) := by
    rw [mul_one_div, div_le_iff₀ tp]; nlinarith
  have it : 0 < (1 : ℝ) / t := by positivity
  -- x r - x/N
  have key : |((fval f * r : ℚ) : ℝ) - x / N| ≤ 2 * u51 := by
    push_cast
    rw [hx]
    have e1 : x * (r : ℝ) - x / N = x * (r - 1 / t) + x / N * ((N - t) * (1 / t)) := by field_simp; ring
    rw [e1]
    refine (abs_add_le _ _).trans ?_
    rw [abs_mul, abs_mul, abs_div, abs_of_pos Np, abs_mul, abs_of_pos it, abs_sub_comm N]
    have a1 : |x| * |(r : ℝ) - 1 / t| ≤ N * (1 / t * (28 / 100 * u51)) :=
      mul_le_mul hxN (r4.trans (mul_le_mul_of_nonneg_left ut it.le)) (abs_nonneg _) Np.le
    have a2 : |x| / N ≤ 1 := (div_le_one Np).2 hxN
    have a3 : |(t : ℝ) - N| * (1 / t) ≤ 17 / 10 * u51 * N * (1 / t) := mul_le_mul_of_nonneg_right ht it.le
    have a4 : |x| / N * (|(t : ℝ) - N| * (1 / t)) ≤ 1 * (17 / 10 * u51 * N * (1 / t)) := mul_le_mul a2 a3 (by positivity) (by norm_num)
    have a5 : N * (1 / t * (28 / 100 * u51)) + 1 * (17 / 10 * u51 * N * (1 / t)) = (N * (1 / t)) * (198 / 100 * u51) := by ring
    have a6 := mul_le_mul_of_nonneg_right i1 (by positivity : 0 ≤ 198 / 100 * u51)
    linarith
  have a2 : |x / N| ≤ 1 := by rw [abs_div, abs_of_pos Np]; exact (div_le_one Np).2 hxN
  have := Ab.op hR (z := fval f * r) (x := x / N) (e := 2 * u51) (by
    have := abs_sub_abs_le_abs_sub ((fval f * r : ℚ) : ℝ) (x / N)
    linarith) key
  rw [d1, hf]
  exact this.mono (by linarith)

omit hR in
/-- the sine and cosine of the angle -/
theorem trig_err (L : Lib fun q => R q) {N : ℝ} {t : ℚ} (N8 : N ≤ 8) (ht : |(t : ℝ) - N| ≤ 17 / 10 * u51 * N) :
    Ab (15 * u51) (libm L.sin (.fin t)) (Real.sin N) ∧ Ab (15 * u51) (libm L.cos (.fin t)) (Real.cos N) := by
  have u0 := u51_pos
  have h5 : (1 : ℝ) / 2 ^ 52 = u51 / 2 := by unfold u51; norm_num
  have h6 : |(t : ℝ) - N| ≤ 136 / 10 * u51 := by nlinarith
  constructor
  · refine ⟨L.sin t, rfl, L.sin_double t, ?_⟩
    have h1 := L.sin_err t
    have h2 := Real.abs_sin_sub_sin_le (t : ℝ) N
    have h3 := abs_sub_le (L.sin t : ℝ) (Real.sin t) (Real.sin N)
    linarith
  · refine ⟨L.cos t, rfl, L.cos_double t, ?_⟩
    have h1 := L.cos_err t
    have h2 := Real.abs_cos_sub_cos_le (t : ℝ) N
    have h3 := abs_sub_le (L.cos t : ℝ) (Real.cos t) (Real.cos N)
    linarith

/-- the entries of the matrix -/
theorem rodrigues_err {ax ay az sa ca : Fp} {a : ℝ} {e : V3} (he : ∀ i, |e i| ≤ 1) (h0 : Ab (3 * u51) ax (e 0)) (h1 : Ab (3 * u51) ay (e 1)) (h2 : Ab (3 * u51) az (e 2))
    (hs : Ab (15 * u51) sa (Real.sin a)) (hc : Ab (15 * u51) ca (Real.cos a)) (hC : ∀ i j, |Kinematics.rodrigues a e i j| ≤ 2) :
    EntriesNear (rodriguesD R ax ay az sa ca) (Kinematics.rodrigues a e) (64 * u51) := by
  have us : u51 ≤ 1 / 1000000 := by unfold u51; norm_num
  have u0 := u51_pos
  have c1 := Real.abs_cos_le_one a
  have s1 := Real.abs_sin_le_one a
  have one : Ab 0 (Fp.fin 1) 1 := by simpa using Ab.exact (q := 1) (by simpa using isDouble_int 1 (by norm_num))
  have m1 : ∀ {x y : ℝ}, |x| ≤ 1 → |y| ≤ 1 → |x * y| ≤ 1 := fun {x y} h k => by rw [abs_mul]; exact mul_le_one₀ h (abs_nonneg _) k
  -- the product of two components
  have pp : ∀ {f g : Fp} {x y : ℝ}, Ab (3 * u51) f x → Ab (3 * u51) g y → |x| ≤ 1 → |y| ≤ 1 → Ab (74 / 10 * u51) (fmul (fun q => R q) f g) (x * y) := fun hf hg hx hy =>
    (Ab.mul hR (X := 11 / 10) (Y := 1) hf hg (by linarith) hy (by linarith)).mono (by linarith)
  -- the cosine or sine times a component
  have cp : ∀ {f g : Fp} {x y : ℝ}, Ab (15 * u51) f x → Ab (3 * u51) g y → |x| ≤ 1 → |y| ≤ 1 → Ab (194 / 10 * u51) (fmul (fun q => R q) f g) (x * y) := fun hf hg hx hy =>
    (Ab.mul hR (X := 11 / 10) (Y := 1) hf hg (by linarith) hy (by linarith)).mono (by linarith)
  have cpp : ∀ {f g h : Fp} {x y z : ℝ}, Ab (15 * u51) f x → Ab (3 * u51) g y → Ab (3 * u51) h z → |x| ≤ 1 → |y| ≤ 1 → |z| ≤ 1 →
      Ab (238 / 10 * u51) (fmul (fun q => R q) (fmul (fun q => R q) f g) h) (x * y * z) := fun hf hg hh hx hy hz =>
    (Ab.mul hR (X := 11 / 10) (Y := 1) (cp hf hg hx hy) hh (by linarith [m1 hx hy]) hz (by linarith)).mono (by linarith)
  have dg : ∀ {f : Fp} {x : ℝ}, Ab (3 * u51) f x → |x| ≤ 1 → Ab (64 * u51) (fadd (fun q => R q) (fmul (fun q => R q) f f) (fmul (fun q => R q) ca (fsub (fun q => R q) (.fin 1) (fmul (fun q => R q) f f)))) (x * x + Real.cos a * (1 - x * x)) := by
    intro f x hf hx
    have a1 := pp hf hf hx hx
    have xx := m1 hx hx
    have xn : 0 ≤ x * x := mul_self_nonneg x
    rw [abs_of_nonneg xn] at xx
    have b1 : |1 - x * x| ≤ 1 := by rw [abs_le]; constructor <;> linarith
    have a2 := Ab.sub hR one a1 (by linarith)
    have a3 := Ab.mul hR (X := 11 / 10) (Y := 1) hc a2 (by linarith) b1 (by linarith)
    have b3 := m1 c1 b1
    have b4 : |x * x + Real.cos a * (1 - x * x)| ≤ 2 := by
      refine (abs_add_le _ _).trans ?_
      rw [abs_of_nonneg xn]; linarith
    exact (Ab.add hR a1 a3 (by linarith)).mono (by linarith)
  have off : ∀ {f g h : Fp} {x y z : ℝ}, Ab (3 * u51) f x → Ab (3 * u51) g y → Ab (3 * u51) h z → |x| ≤ 1 → |y| ≤ 1 → |z| ≤ 1 →
      Ab (64 * u51) (fadd (fun q => R q) (fsub (fun q => R q) (fmul (fun q => R q) f g) (fmul (fun q => R q) (fmul (fun q => R q) ca f) g)) (fmul (fun q => R q) sa h)) (x * y - Real.cos a * x * y + Real.sin a * z) ∧
      Ab (64 * u51) (fsub (fun q => R q) (fsub (fun q => R q) (fmul (fun q => R q) f g) (fmul (fun q => R q) (fmul (fun q => R q) ca f) g)) (fmul (fun q => R q) sa h)) (x * y - Real.cos a * x * y - Real.sin a * z) := by
    intro f g h x y z hf hg hh hx hy hz
    have b1 := m1 hx hy
    have b2 := m1 (m1 c1 hx) hy
    have b3 := m1 s1 hz
    have b4 : |x * y - Real.cos a * x * y| ≤ 2 := (abs_sub _ _).trans (by linarith)
    have a1 := Ab.sub hR (pp hf hg hx hy) (cpp hc hf hg c1 hx hy) (by linarith)
    have a2 := cp hs hh s1 hz
    exact ⟨(Ab.add hR a1 a2 (by have := abs_add_le (x * y - Real.cos a * x * y) (Real.sin a * z); linarith)).mono (by linarith),
      (Ab.sub hR a1 a2 (by have := abs_sub (x * y - Real.cos a * x * y) (Real.sin a * z); linarith)).mono (by linarith)⟩
  have all : ∀ i j, Ab (64 * u51) (rodriguesD R ax ay az sa ca i j) (Kinematics.rodrigues a e i j) := by
    intro i j
    fin_cases i <;> fin_cases j
    · exact dg h0 (he 0)
    · exact (off h0 h1 h2 (he 0) (he 1) (he 2)).1
    · exact (off h0 h2 h1 (he 0) (he 2) (he 1)).2
    · exact (off h0 h1 h2 (he 0) (he 1) (he 2)).2
    · exact dg h1 (he 1)
    · exact (off h1 h2 h0 (he 1) (he 2) (he 0)).1
    · exact (off h0 h2 h1 (he 0) (he 2) (he 1)).1
    · exact (off h1 h2 h0 (he 1) (he 2) (he 0)).2
    · exact dg h2 (he 2)
  intro i j
  obtain ⟨f1, f2⟩ := (all i j).isFinite (by linarith [hC i j])
  exact ⟨f1, (all i j).val.2.1, (all i j).val.2.2⟩

end

end Verif.RotVecDouble
