import Verif.Kinematics.MatrixConv
import Verif.Kinematics.MatrixDoubleProps
import Verif.Kinematics.QuatProps

/-!
# Lemmas for C161: absolute errors of numbers of ordinary size
-/

namespace Verif.KinematicsDouble

open Verif.Common
open Verif.Kinematics (V3 V4 M3 M4 outer)

/-- the double `f` is finite and within `e` of `x` -/
def Ab (e : ℝ) (f : Fp) (x : ℝ) : Prop := ∃ r : ℚ, f = .fin r ∧ IsDouble r ∧ |(r : ℝ) - x| ≤ e

/-- one rounding of a number of at most 8 -/
noncomputable def u51 : ℝ := 1 / 2 ^ 51

section
variable {R : ℝ → ℚ} (hR : IsRndR R)
include hR

theorem round8 {x : ℝ} (hx : |x| ≤ 8) : |(R x : ℝ) - x| ≤ u51 := by
  have := hR.err_abs (x := x) (e := -50) (by norm_num) (by norm_num at hx ⊢; exact hx)
  refine this.trans ?_
  unfold u51; norm_num

theorem rounded8 {z : ℚ} (hz : |(z : ℝ)| ≤ 8) : rounded (fun q => R q) (.fin z) = .fin (R z) := by
  have h := round8 hR hz
  have h1 : |(R z : ℝ)| ≤ 9 := by
    have h2 := abs_le.1 h
    have h3 := abs_le.1 hz
    have : u51 ≤ 1 := by unfold u51; norm_num
    rw [abs_le]; constructor <;> linarith
  have h2 : |R (z : ℝ)| ≤ 9 := by exact_mod_cast h1
  show (if |R (z : ℝ)| < tooBig then Fp.fin (R z) else _) = _
  rw [if_pos]
  refine lt_of_le_of_lt h2 ?_
  unfold tooBig
  calc (9 : ℚ) < 2 ^ 4 := by norm_num
    _ ≤ 2 ^ 1024 := pow_le_pow_right₀ (by norm_num) (by norm_num)

theorem Ab.op {e : ℝ} {z : ℚ} {x : ℝ} (hz : |(z : ℝ)| ≤ 8) (h : |(z : ℝ) - x| ≤ e) : Ab (e + u51) (rounded (fun q => R q) (.fin z)) x := by
  refine ⟨R z, rounded8 hR hz, hR.mem _, ?_⟩
  have := round8 hR hz
  have t := abs_sub_le (R z : ℝ) z x
  linarith

theorem Ab.add {e e' : ℝ} {f g : Fp} {x y : ℝ} (hf : Ab e f x) (hg : Ab e' g y) (hb : |x + y| + e + e' ≤ 8) :
    Ab (e + e' + u51) (fadd (fun q => R q) f g) (x + y) := by
  obtain ⟨a, rfl, _, ha⟩ := hf
  obtain ⟨b, rfl, _, hb'⟩ := hg
  have h : |((a + b : ℚ) : ℝ) - (x + y)| ≤ e + e' := by
    push_cast
    have : (a : ℝ) + b - (x + y) = (a - x) + (b - y) := by ring
    rw [this]; exact (abs_add_le _ _).trans (by linarith)
  refine Ab.op hR ?_ h
  have t := abs_sub_le ((a + b : ℚ) : ℝ) (x + y) 0
  simp only [sub_zero] at t
  linarith

theorem Ab.sub {e e' : ℝ} {f g : Fp} {x y : ℝ} (hf : Ab e f x) (hg : Ab e' g y) (hb : |x - y| + e + e' ≤ 8) :
    Ab (e + e' + u51) (fsub (fun q => R q) f g) (x - y) := by
  obtain ⟨a, rfl, _, ha⟩ := hf
  obtain ⟨b, rfl, _, hb'⟩ := hg
  have h : |((a + -b : ℚ) : ℝ) - (x - y)| ≤ e + e' := by
    push_cast
    have : (a : ℝ) + -b - (x - y) = (a - x) - (b - y) := by ring
    rw [this]; exact (abs_sub _ _).trans (by linarith)
  refine Ab.op hR ?_ h
  have t := abs_sub_le ((a + -b : ℚ) : ℝ) (x - y) 0
  simp only [sub_zero] at t
  linarith

/-- products: the error is relative to bounds of the factors -/
theorem Ab.mul {e e' : ℝ} {f g : Fp} {x y X Y : ℝ} (hf : Ab e f x) (hg : Ab e' g y) (hx : |x| + e ≤ X) (hy : |y| ≤ Y) (hb : X * (Y + e') ≤ 8) :
    Ab (X * e' + Y * e + u51) (fmul (fun q => R q) f g) (x * y) := by
  obtain ⟨a, rfl, _, ha⟩ := hf
  obtain ⟨b, rfl, _, hb'⟩ := hg
  have he' : 0 ≤ e' := (abs_nonneg _).trans hb'
  have he : 0 ≤ e := (abs_nonneg _).trans ha
  have h1 : |(a : ℝ)| ≤ X := by
    have t := abs_sub_le (a : ℝ) x 0
    simp only [sub_zero] at t; linarith
  have h2 : |(b : ℝ)| ≤ Y + e' := by
    have t := abs_sub_le (b : ℝ) y 0
    simp only [sub_zero] at t; linarith
  have hX : 0 ≤ X := (abs_nonneg _).trans h1
  have hY : 0 ≤ Y := (abs_nonneg _).trans hy
  refine Ab.op hR ?_ ?_
  · push_cast
    rw [abs_mul]
    exact (mul_le_mul h1 h2 (abs_nonneg _) hX).trans hb
  · push_cast
    have : (a : ℝ) * b - x * y = a * (b - y) + y * (a - x) := by ring
    rw [this]
    refine (abs_add_le _ _).trans ?_
    rw [abs_mul, abs_mul]
    exact add_le_add (mul_le_mul h1 hb' (abs_nonneg _) hX) (mul_le_mul hy ha (abs_nonneg _) hY)

end

theorem Ab.mono {e e' : ℝ} {f : Fp} {x : ℝ} (h : Ab e f x) (he : e ≤ e') : Ab e' f x := by
  obtain ⟨r, h1, h2, h3⟩ := h
  exact ⟨r, h1, h2, h3.trans he⟩

theorem Ab.abs {e : ℝ} {f : Fp} {x : ℝ} (h : Ab e f x) : Ab e f.abs |x| := by
  obtain ⟨r, rfl, h2, h3⟩ := h
  refine ⟨|r|, rfl, ?_, ?_⟩
  · rcases abs_cases r with ⟨h, _⟩ | ⟨h, _⟩ <;> rw [h]
    · exact h2
    · exact h2.neg
  · push_cast
    exact (abs_abs_sub_abs_le _ _).trans h3

theorem Ab.val {e : ℝ} {f : Fp} {x : ℝ} (h : Ab e f x) : f = .fin (fval f) ∧ IsDouble (fval f) ∧ |(fval f : ℝ) - x| ≤ e := by
  obtain ⟨r, rfl, h2, h3⟩ := h
  exact ⟨rfl, h2, h3⟩

theorem Ab.exact {q : ℚ} (h : IsDouble q) : Ab 0 (.fin q) q := ⟨q, rfl, h, by simp⟩

theorem Ab.self {f : Fp} (h1 : f = .fin (fval f)) (h2 : IsDouble (fval f)) : Ab 0 f (fval f) := ⟨fval f, h1, h2, by simp⟩

theorem Ab.isFinite {e : ℝ} {f : Fp} {x : ℝ} (h : Ab e f x) (hb : |x| + e ≤ 16) : f.isFinite ∧ IsDoubleVal f := by
  obtain ⟨r, rfl, h2, h3⟩ := h
  refine ⟨rfl, h2, ?_⟩
  have h1 : |(r : ℝ)| ≤ 16 := by
    have t := abs_sub_le (r : ℝ) x 0
    simp only [sub_zero] at t; linarith
  have : |r| ≤ 16 := by exact_mod_cast h1
  refine lt_of_le_of_lt this ?_
  unfold tooBig
  calc (16 : ℚ) < 2 ^ 5 := by norm_num
    _ ≤ 2 ^ 1024 := pow_le_pow_right₀ (by norm_num) (by norm_num)

/-! ## the largest component -/

/-- all entries are finite doubles -/
def FiniteM (M : FM3) : Prop := ∀ i j, (M i j).isFinite ∧ IsDoubleVal (M i j)

theorem FiniteM.ab {M : FM3} (h : FiniteM M) (i j : Fin 3) : Ab 0 (M i j) (valsM M i j) := by
  have h2 : Finite (fun j => M i j) := fun j => h i j
  exact Ab.self (h2.fin j).1 (h2.fin j).2

section
variable {R : ℝ → ℚ} (hR : IsRndR R)
include hR

omit hR in
theorem u51_pos : 0 < u51 := by unfold u51; positivity

/-- the value `dc(k)` -/
theorem dc_err {M : FM3} (hM : FiniteM M) (hb : ∀ i j, |valsM M i j| ≤ 2) (k : Fin 4) : Ab (3 * u51) (r2quatDc (fun q => R q) M k) |outer (valsM M) k k| := by
  have one : Ab 0 (.fin 1) 1 := by
    have := Ab.exact (q := 1) (by simpa using isDouble_int 1 (by norm_num))
    simpa using this
  have u0 := u51_pos
  have u1 : u51 ≤ 1 / 8 := by unfold u51; norm_num
  have b0 := abs_le.1 (hb 0 0)
  have b1 := abs_le.1 (hb 1 1)
  have b2 := abs_le.1 (hb 2 2)
  have m0 := hM.ab 0 0
  have m1 := hM.ab 1 1
  have m2 := hM.ab 2 2
  have aux : ∀ {x : ℝ} {c : ℝ}, -7 ≤ x → x ≤ 7 → c ≤ 1 → |x| + c ≤ 8 := fun h1 h2 h3 => by
    have := abs_le.2 ⟨h1, h2⟩; linarith
  obtain rfl | rfl | rfl | rfl : k = 0 ∨ k = 1 ∨ k = 2 ∨ k = 3 := by fin_cases k <;> simp
  · have s1 := Ab.add hR one m0 (by rw [add_assoc]; exact aux (by linarith) (by linarith) (by linarith))
    have s2 := Ab.sub hR s1 m1 (by rw [add_assoc]; exact aux (by linarith) (by linarith) (by linarith))
    have s3 := Ab.sub hR s2 m2 (by rw [add_assoc]; exact aux (by linarith) (by linarith) (by linarith))
    exact (Ab.abs s3).mono (by linarith)
  · have s1 := Ab.sub hR one m0 (by rw [add_assoc]; exact aux (by linarith) (by linarith) (by linarith))
    have s2 := Ab.add hR s1 m1 (by rw [add_assoc]; exact aux (by linarith) (by linarith) (by linarith))
    have s3 := Ab.sub hR s2 m2 (by rw [add_assoc]; exact aux (by linarith) (by linarith) (by linarith))
    exact (Ab.abs s3).mono (by linarith)
  · have s1 := Ab.sub hR one m0 (by rw [add_assoc]; exact aux (by linarith) (by linarith) (by linarith))
    have s2 := Ab.sub hR s1 m1 (by rw [add_assoc]; exact aux (by linarith) (by linarith) (by linarith))
    have s3 := Ab.add hR s2 m2 (by rw [add_assoc]; exact aux (by linarith) (by linarith) (by linarith))
    exact (Ab.abs s3).mono (by linarith)
  · have s1 := Ab.add hR one m0 (by rw [add_assoc]; exact aux (by linarith) (by linarith) (by linarith))
    have s2 := Ab.add hR s1 m1 (by rw [add_assoc]; exact aux (by linarith) (by linarith) (by linarith))
    have s3 := Ab.add hR s2 m2 (by rw [add_assoc]; exact aux (by linarith) (by linarith) (by linarith))
    exact (Ab.abs s3).mono (by linarith)

/-- `0.5*sqrt(dc(k))`: its square is a quarter of `dc(k)` -/
theorem largest_err {M : FM3} (hM : FiniteM M) (hb : ∀ i j, |valsM M i j| ≤ 2) (k : Fin 4) (hk : 1 / 2 ≤ outer (valsM M) k k) :
    ∃ r : ℚ, r2quatLargest R M k = .fin r ∧ IsDouble r ∧ 1 / 4 ≤ (r : ℝ) ∧ (r : ℝ) ≤ 2 ∧ |(r : ℝ) * r - outer (valsM M) k k / 4| ≤ 5 * u51 := by
  obtain ⟨d, e, hd, he⟩ := dc_err hR hM hb k
  have u0 := u51_pos
  have u1 : u51 ≤ 1 / 64 := by unfold u51; norm_num
  have hD : outer (valsM M) k k ≤ 7 := by
    have b0 := abs_le.1 (hb 0 0)
    have b1 := abs_le.1 (hb 1 1)
    have b2 := abs_le.1 (hb 2 2)
    obtain rfl | rfl | rfl | rfl : k = 0 ∨ k = 1 ∨ k = 2 ∨ k = 3 := by fin_cases k <;> simp
    all_goals simp [outer]; linarith
  rw [abs_of_nonneg (by linarith : 0 ≤ outer (valsM M) k k)] at he
  have he' := abs_le.1 he
  set D := outer (valsM M) k k with hDdef
  have hd0 : (0.45 : ℝ) ≤ d := by linarith
  have hd7 : (d : ℝ) ≤ 7.1 := by linarith
  have hdq : ¬ d < 0 := by
    have : (0 : ℝ) ≤ d := by linarith
    exact not_lt.2 (by exact_mod_cast this)
  set s := Real.sqrt d with hs
  have hss : s * s = d := Real.mul_self_sqrt (by linarith)
  have hs0 : 0.67 ≤ s := Real.le_sqrt_of_sq_le (by norm_num; linarith)
  have hs1 : s ≤ 2.7 := Real.sqrt_le_sqrt (by linarith : (d : ℝ) ≤ 2.7 ^ 2) |>.trans_eq (Real.sqrt_sq (by norm_num))
  have r1 := round8 hR (x := s) (by rw [abs_le]; constructor <;> linarith)
  have r1' := abs_le.1 r1
  set t : ℚ := R s with ht
  have hz : |(((1 / 2 : ℚ) * t : ℚ) : ℝ)| ≤ 8 := by
    push_cast; rw [abs_le]; constructor <;> linarith
  refine ⟨R (((1 / 2 : ℚ) * t : ℚ) : ℝ), ?_, hR.mem _, ?_⟩
  · unfold r2quatLargest
    rw [e]
    simp only [Verif.NumericDouble.fsqrt, if_neg hdq]
    exact rounded8 hR hz
  · have r2 := abs_le.1 (round8 hR hz)
    set r : ℚ := R (((1 / 2 : ℚ) * t : ℚ) : ℝ) with hr
    push_cast at r2
    refine ⟨by linarith, by linarith, ?_⟩
    have h1 : |(r : ℝ) - s / 2| ≤ 1.5 * u51 := by rw [abs_le]; constructor <;> linarith
    have h2 : (r : ℝ) * r - D / 4 = (r - s / 2) * (r + s / 2) + (d - D) / 4 := by
      linear_combination hss / 4
    rw [h2]
    refine (abs_add_le _ _).trans ?_
    have h3 : |((r : ℝ) - s / 2) * (r + s / 2)| ≤ 1.5 * u51 * 2.8 := by
      rw [abs_mul]
      refine mul_le_mul h1 ?_ (abs_nonneg _) (by linarith)
      rw [abs_le]; constructor <;> linarith
    have h4 : |((d : ℝ) - D) / 4| ≤ 0.75 * u51 := by rw [abs_le]; constructor <;> linarith
    linarith

/-- the other components -/
theorem other_err {M : FM3} (hM : FiniteM M) (hb : ∀ i j, |valsM M i j| ≤ 2) (k : Fin 4) (hk : 1 / 2 ≤ outer (valsM M) k k) {f : Fp} {w : ℝ} (hf : Ab u51 f w) (hw : |w| ≤ 4) :
    ∃ r p : ℚ, r2quatLargest R M k = .fin r ∧ fmul (fun q => R q) (r2quatC R M k) f = .fin p ∧ IsDouble p ∧ |(p : ℝ)| ≤ 5 ∧ |(p : ℝ) * r - w / 4| ≤ 16 * u51 := by
  obtain ⟨r, e, hd, h0, h2, hrr⟩ := largest_err hR hM hb k hk
  obtain ⟨g, rfl, hgd, hg⟩ := hf
  have u0 := u51_pos
  have u1 : u51 ≤ 1 / 64 := by unfold u51; norm_num
  have hr0 : (r : ℝ) ≠ 0 := by linarith
  have hrq : r ≠ 0 := by exact_mod_cast hr0
  have hcb : |(((1 / 4 : ℚ) / r : ℚ) : ℝ)| ≤ 1 := by
    push_cast
    rw [abs_div, div_le_one (by rw [abs_of_pos] <;> linarith), abs_of_pos (by norm_num), abs_of_pos (by linarith)]
    exact h0
  have hc : r2quatC R M k = .fin (R (((1 / 4 : ℚ) / r : ℚ) : ℝ)) := by
    unfold r2quatC
    rw [e]
    unfold fdiv Fp.div
    simp only [if_neg hrq]
    exact rounded8 hR (hcb.trans (by norm_num))
  have rc := round8 hR (hcb.trans (by norm_num))
  set c : ℚ := R (((1 / 4 : ℚ) / r : ℚ) : ℝ) with hcdef
  have hcr : |(c : ℝ) * r - 1 / 4| ≤ 2 * u51 := by
    have : (c : ℝ) * r - 1 / 4 = (c - ((1 / 4 : ℚ) / r : ℚ)) * r := by push_cast; field_simp
    rw [this, abs_mul]
    calc _ ≤ u51 * 2 := mul_le_mul rc (by rw [abs_of_pos] <;> linarith) (abs_nonneg _) u0.le
      _ = _ := by ring
  have hcabs : |(c : ℝ)| ≤ 1 + u51 := by
    have t := abs_sub_le (c : ℝ) (((1 / 4 : ℚ) / r : ℚ) : ℝ) 0
    simp only [sub_zero] at t; linarith
  have hgabs : |(g : ℝ)| ≤ 4 + u51 := by
    have t := abs_sub_le (g : ℝ) w 0
    simp only [sub_zero] at t; linarith
  have hcg : |((c * g : ℚ) : ℝ)| ≤ 4.2 := by
    push_cast
    rw [abs_mul]
    have := mul_le_mul hcabs hgabs (abs_nonneg _) (by linarith)
    nlinarith
  refine ⟨r, R ((c * g : ℚ) : ℝ), e, ?_, hR.mem _, ?_, ?_⟩
  · rw [hc]; exact rounded8 hR (hcg.trans (by norm_num))
  · have := round8 hR (hcg.trans (by norm_num))
    have t := abs_sub_le (R ((c * g : ℚ) : ℝ) : ℝ) ((c * g : ℚ) : ℝ) 0
    simp only [sub_zero] at t; linarith
  · have hp := round8 hR (hcg.trans (by norm_num))
    set p : ℚ := R ((c * g : ℚ) : ℝ) with hpdef
    push_cast at hp
    have : (p : ℝ) * r - w / 4 = (p - c * g) * r + (c * r - 1 / 4) * g + (g - w) / 4 := by ring
    rw [this]
    have a1 : |((p : ℝ) - c * g) * r| ≤ u51 * 2 := by
      rw [abs_mul]; exact mul_le_mul hp (by rw [abs_of_pos] <;> linarith) (abs_nonneg _) u0.le
    have a2 : |((c : ℝ) * r - 1 / 4) * g| ≤ 2 * u51 * 5 := by
      rw [abs_mul]; exact mul_le_mul hcr (by linarith) (abs_nonneg _) (by linarith)
    have a3 : |((g : ℝ) - w) / 4| ≤ u51 / 4 := by
      rw [abs_div, abs_of_pos (by norm_num : (0 : ℝ) < 4)]; linarith
    have t1 := abs_add_le (((p : ℝ) - c * g) * r + (c * r - 1 / 4) * g) ((g - w) / 4)
    have t2 := abs_add_le (((p : ℝ) - c * g) * r) ((c * r - 1 / 4) * g)
    linarith

/-- one branch of `r2quat`: the products with its largest component are those of the exact matrix -/
theorem branch_err {M : FM3} (hM : FiniteM M) (hb : ∀ i j, |valsM M i j| ≤ 2) (k : Fin 4) (hk : 1 / 2 ≤ outer (valsM M) k k) :
    Finite (r2quatBranch R M k) ∧ 1 / 4 ≤ vals (r2quatBranch R M k) k ∧ vals (r2quatBranch R M k) k ≤ 2 ∧
    ∀ j, |vals (r2quatBranch R M k) j * vals (r2quatBranch R M k) k - outer (valsM M) k j / 4| ≤ 16 * u51 := by
  have u0 := u51_pos
  have hadd : ∀ a b c d, Ab u51 (fadd (fun q => R q) (M a b) (M c d)) (valsM M a b + valsM M c d) ∧ |valsM M a b + valsM M c d| ≤ 4 := by
    intro a b c d
    have h : |valsM M a b + valsM M c d| ≤ 4 := (abs_add_le _ _).trans (by linarith [hb a b, hb c d])
    exact ⟨by simpa using Ab.add hR (hM.ab a b) (hM.ab c d) (by linarith), h⟩
  have hsub : ∀ a b c d, Ab u51 (fsub (fun q => R q) (M a b) (M c d)) (valsM M a b - valsM M c d) ∧ |valsM M a b - valsM M c d| ≤ 4 := by
    intro a b c d
    have h : |valsM M a b - valsM M c d| ≤ 4 := (abs_sub _ _).trans (by linarith [hb a b, hb c d])
    exact ⟨by simpa using Ab.sub hR (hM.ab a b) (hM.ab c d) (by linarith), h⟩
  obtain ⟨r, e, hd, h0, h2, hrr⟩ := largest_err hR hM hb k hk
  have hbig : (9 : ℚ) < tooBig := by
    unfold tooBig
    calc (9 : ℚ) < 2 ^ 4 := by norm_num
      _ ≤ 2 ^ 1024 := pow_le_pow_right₀ (by norm_num) (by norm_num)
  have big : ∀ p : ℚ, |(p : ℝ)| ≤ 5 → |p| < tooBig := by
    intro p hp
    have : |p| ≤ 5 := by exact_mod_cast hp
    linarith
  have L : (r2quatLargest R M k).isFinite ∧ IsDoubleVal (r2quatLargest R M k) ∧ (fval (r2quatLargest R M k) : ℝ) = r := by
    rw [e]; exact ⟨rfl, ⟨hd, big r (by rw [abs_of_pos] <;> linarith)⟩, rfl⟩
  have O : ∀ {f : Fp} {w : ℝ}, (Ab u51 f w ∧ |w| ≤ 4) → ((fmul (fun q => R q) (r2quatC R M k) f).isFinite ∧ IsDoubleVal (fmul (fun q => R q) (r2quatC R M k) f)) ∧
      |(fval (fmul (fun q => R q) (r2quatC R M k) f) : ℝ) * r - w / 4| ≤ 16 * u51 := by
    intro f w hf
    obtain ⟨r', p, e', ep, hpd, hp, hpr⟩ := other_err hR hM hb k hk hf.1 hf.2
    rw [e] at e'
    have : r = r' := by injection e'
    subst this
    rw [ep]
    exact ⟨⟨rfl, hpd, big p hp⟩, hpr⟩
  have L' : |(fval (r2quatLargest R M k) : ℝ) * r - outer (valsM M) k k / 4| ≤ 16 * u51 := by
    rw [L.2.2]; linarith
  obtain rfl | rfl | rfl | rfl : k = 0 ∨ k = 1 ∨ k = 2 ∨ k = 3 := by fin_cases k <;> simp
  · have hk' : vals (r2quatBranch R M 0) 0 = r := L.2.2
    rw [hk']
    refine ⟨?_, h0, h2, ?_⟩
    · intro j
      fin_cases j
      · exact ⟨L.1, L.2.1⟩
      · exact (O (hadd 0 1 1 0)).1
      · exact (O (hadd 0 2 2 0)).1
      · exact (O (hsub 1 2 2 1)).1
    · intro j
      fin_cases j
      · exact L'
      · exact (O (hadd 0 1 1 0)).2
      · exact (O (hadd 0 2 2 0)).2
      · exact (O (hsub 1 2 2 1)).2
  · have hk' : vals (r2quatBranch R M 1) 1 = r := L.2.2
    rw [hk']
    refine ⟨?_, h0, h2, ?_⟩
    · intro j
      fin_cases j
      · exact (O (hadd 0 1 1 0)).1
      · exact ⟨L.1, L.2.1⟩
      · exact (O (hadd 2 1 1 2)).1
      · exact (O (hsub 2 0 0 2)).1
    · intro j
      fin_cases j
      · exact (O (hadd 0 1 1 0)).2
      · exact L'
      · exact (O (hadd 2 1 1 2)).2
      · exact (O (hsub 2 0 0 2)).2
  · have hk' : vals (r2quatBranch R M 2) 2 = r := L.2.2
    rw [hk']
    refine ⟨?_, h0, h2, ?_⟩
    · intro j
      fin_cases j
      · exact (O (hadd 2 0 0 2)).1
      · exact (O (hadd 2 1 1 2)).1
      · exact ⟨L.1, L.2.1⟩
      · exact (O (hsub 0 1 1 0)).1
    · intro j
      fin_cases j
      · have := (O (hadd 2 0 0 2)).2
        rw [add_comm (valsM M 2 0)] at this
        exact this
      · exact (O (hadd 2 1 1 2)).2
      · exact L'
      · exact (O (hsub 0 1 1 0)).2
  · have hk' : vals (r2quatBranch R M 3) 3 = r := L.2.2
    rw [hk']
    refine ⟨?_, h0, h2, ?_⟩
    · intro j
      fin_cases j
      · exact (O (hsub 1 2 2 1)).1
      · exact (O (hsub 2 0 0 2)).1
      · exact (O (hsub 0 1 1 0)).1
      · exact ⟨L.1, L.2.1⟩
    · intro j
      fin_cases j
      · exact (O (hsub 1 2 2 1)).2
      · exact (O (hsub 2 0 0 2)).2
      · exact (O (hsub 0 1 1 0)).2
      · exact L'

end

/-- the loop finds a largest value -/
theorem maxq_max {dc : F4} (h : ∀ i, dc i = .fin (fval (dc i))) (i : Fin 4) : fval (dc i) ≤ fval (dc (maxq dc)) := by
  have lt : ∀ i j, Fp.lt (dc i) (dc j) = true ↔ fval (dc i) < fval (dc j) := by
    intro i j
    rw [h i, h j]
    simp only [Fp.lt, decide_eq_true_eq]
    rfl
  have step : ∀ (m : Fin 4) (j : Fin 4), ∃ m', maxStep dc (m, dc m) j = (m', dc m') ∧ fval (dc m) ≤ fval (dc m') ∧ fval (dc j) ≤ fval (dc m') := by
    intro m j
    unfold maxStep
    by_cases hl : Fp.lt (dc m) (dc j) = true
    · exact ⟨j, by simp [hl], ((lt m j).1 hl).le, le_rfl⟩
    · exact ⟨m, by simp [hl], le_rfl, not_lt.1 (fun h' => hl ((lt m j).2 h'))⟩
  obtain ⟨m1, e1, a1, b1⟩ := step 0 1
  obtain ⟨m2, e2, a2, b2⟩ := step m1 2
  obtain ⟨m3, e3, a3, b3⟩ := step m2 3
  have : maxq dc = m3 := by unfold maxq; rw [e1, e2, e3]
  rw [this]
  fin_cases i
  · exact (a1.trans a2).trans a3
  · exact (b1.trans a2).trans a3
  · exact b2.trans a3
  · exact b3

end Verif.KinematicsDouble
