import Verif.SmEigen.DiffDoubleLemmas
import Verif.Common.DoubleEven
import Verif.Common.CompareProps

/-!
# C180: numerical Jacobians in doubles
-/

namespace Verif.DiffDouble

open Verif.Common

/-- the number that a vector of doubles stands for -/
def vals {n : ℕ} (x : Fin n → Fp) : Fin n → ℝ := fun i => (fval (x i) : ℝ)

/-- a finite double of moderate size -/
def Moderate (x : Fp) : Prop := ∃ q : ℚ, x = .fin q ∧ IsDouble q ∧ |q| ≤ 2 ^ (900 : ℤ)

/-- the scale of a coordinate -/
noncomputable def scale (x : Fp) : ℝ := max |(fval x : ℝ)| 1

variable {n m : ℕ}

/-- `p` is `x0` except for coordinate `c`, which is a finite double at most `r` away -/
def Near (x0 : Fin n → Fp) (c : Fin n) (r : ℝ) (p : Fin n → Fp) : Prop :=
  (∀ j, j ≠ c → p j = x0 j) ∧ (p c).isFinite ∧ IsDoubleVal (p c) ∧ |vals p c - vals x0 c| ≤ r

variable {rnd : ℚ → ℚ} (hr : IsRnd rnd)

/-- what the two points and the step are -/
theorem points_aux (hr : IsRnd rnd) {eps x : ℚ} (he : GoodEps eps) (x0 : Fin n → Fp) (c : Fin n) (ex : x0 c = .fin x) (dx : IsDouble x) (hx : |x| ≤ 2 ^ (900 : ℤ)) :
    ∃ h p q : ℚ, stepSize rnd (.fin eps) x0 c = .fin h ∧ IsDouble h ∧ |h - eps * max |x| 1| ≤ eps * max |x| 1 / 2 ^ 53 ∧ (|x| ≤ 1 → h = eps) ∧
      update rnd x0 c (.fin h) = Function.update x0 c (.fin p) ∧ update rnd x0 c (Fp.fin h).neg = Function.update x0 c (.fin q) ∧
      IsDouble p ∧ IsDouble q ∧ |p| ≤ 2 ^ (902 : ℤ) ∧ |q| ≤ 2 ^ (902 : ℤ) ∧
      |p - (x + h)| ≤ 1005 / 1000 * (1 / (eps * 2 ^ 53)) * h ∧ |q - (x - h)| ≤ 1005 / 1000 * (1 / (eps * 2 ^ 53)) * h := by
  obtain ⟨h, e1, dh, hh, h1⟩ := step_eq hr he hx
  obtain ⟨s1, s2, s3, s4⟩ := step_size he hx hh
  have h0 : 0 < h := lt_of_lt_of_le (by positivity) s1
  obtain ⟨p, ep, dp, pe, pb⟩ := moved hr he hx dx dh (abs_of_pos h0) hh
  obtain ⟨q, eq, dq, qe, qb⟩ := moved hr he hx dx dh.neg (by rw [abs_neg, abs_of_pos h0]) hh
  refine ⟨h, p, q, ?_, dh, hh, h1, ?_, ?_, dp, dq, pb, qb, pe, by rw [sub_eq_add_neg x]; exact qe⟩
  · rw [stepSize, ex]; exact e1
  · funext i
    unfold update Function.update
    by_cases hi : i = c
    · subst hi; simp [ex, ep]
    · simp [hi]
  · funext i
    unfold update Function.update
    by_cases hi : i = c
    · subst hi
      simp only [if_true, dif_pos]
      rw [ex]
      exact eq
    · simp [hi]

theorem rho_le {eps : ℚ} (he : GoodEps eps) : 1 / (eps * 2 ^ 53) ≤ 1 / 2 ^ 13 := by
  have e0 : 0 < eps := lt_of_lt_of_le (by positivity) he.2.1
  rw [div_le_div_iff₀ (by positivity) (by positivity)]
  have := he.2.1
  norm_num at this ⊢
  linarith

/-- inequalities of rational numbers hold for the reals -/
theorem up {a b : ℚ} (h : a ≤ b) : (a : ℝ) ≤ (b : ℝ) := by exact_mod_cast h

theorem fadd_fin {x d p : ℚ} (h : fadd rnd (.fin x) (.fin d) = .fin p) : p = rnd (x + d) := by
  have h : rounded rnd (.fin (x + d)) = .fin p := h
  unfold rounded at h
  simp only at h
  split at h
  · exact (Fp.fin.inj h).symm
  · cases h

include hr

/-- **C180** For a step factor between 2^-40 and 2^-10 and a moderate point, a column of the Jacobian is computed from the values of the function at two points: they have all other coordinates of the point, bit for bit, and a coordinate that lies strictly below or above that of the point, at the distance `eps * max(|x|, 1)` up to 1.01/2^53 of the scale. -/
theorem C180_points (b : Bool) {eps : ℚ} (he : GoodEps eps) (x0 : Fin n → Fp) (c : Fin n) (hx : Moderate (x0 c)) :
    ∃ p q : Fin n → Fp, Near x0 c (2 * eps * scale (x0 c)) p ∧ Near x0 c (2 * eps * scale (x0 c)) q ∧ vals q c < vals x0 c ∧ vals x0 c < vals p c ∧
      |vals p c - (vals x0 c + eps * scale (x0 c))| ≤ 101 / 100 * scale (x0 c) / 2 ^ 53 ∧ |vals q c - (vals x0 c - eps * scale (x0 c))| ≤ 101 / 100 * scale (x0 c) / 2 ^ 53 ∧
      ∀ (f g : (Fin n → Fp) → Fin m → Fp), f p = g p → f q = g q → ∀ i, estimateJacobian rnd b f (.fin eps) x0 i c = estimateJacobian rnd b g (.fin eps) x0 i c := by
  obtain ⟨x, ex, dx, bx⟩ := hx
  obtain ⟨h, p, q, e1, dh, hh, h1, ep, eq, dp, dq, pb, qb, pe, qe⟩ := points_aux hr he x0 c ex dx bx
  obtain ⟨s1, s2, s3, s4⟩ := step_size he bx hh
  have h0 : 0 < h := lt_of_lt_of_le (by positivity) s1
  have rl := rho_le he
  have big : ∀ z : ℚ, |z| ≤ 2 ^ (902 : ℤ) → |z| < tooBig := by
    intro z hz
    refine lt_of_le_of_lt hz ?_
    unfold tooBig
    rw [show (902 : ℤ) = ((902 : ℕ) : ℤ) from rfl, zpow_natCast]
    exact pow_lt_pow_right₀ (by norm_num) (by norm_num)
  have vx : vals x0 c = (x : ℝ) := by unfold vals; rw [ex]; rfl
  have sx : scale (x0 c) = ((max |x| 1 : ℚ) : ℝ) := by
    unfold scale; rw [ex]; push_cast; rfl
  obtain ⟨S, hS⟩ : ∃ S, S = max |x| 1 := ⟨_, rfl⟩
  rw [← hS] at hh s3 sx
  have S1 : 1 ≤ S := hS ▸ le_max_right _ _
  have e10 := he.2.2
  have e0 : 0 < eps := lt_of_lt_of_le (by positivity) he.2.1
  have small : 1005 / 1000 * (1 / (eps * 2 ^ 53)) * h ≤ 1 / 1000 * h := by
    refine mul_le_mul_of_nonneg_right ?_ h0.le
    have : (1005 : ℚ) / 1000 * (1 / 2 ^ 13) ≤ 1 / 1000 := by norm_num
    linarith
  have hH : h ≤ 1001 / 1000 * (eps * S) := by
    have := (abs_le.1 hh).2
    have c0 : (0 : ℚ) ≤ eps * S := by positivity
    have : eps * S / 2 ^ 53 ≤ 1 / 1000 * (eps * S) := by
      rw [div_eq_mul_one_div, mul_comm]
      exact mul_le_mul_of_nonneg_right (by norm_num) c0
    linarith
  have xS : |x| ≤ S := hS ▸ le_max_left _ _
  -- the distance from the ideal point
  have ideal : ∀ z d D : ℚ, |z - (x + d)| ≤ (|x| + h) / 2 ^ 53 → |d - D| ≤ eps * S / 2 ^ 53 → |z - (x + D)| ≤ 101 / 100 * S / 2 ^ 53 := by
    intro z d D hz hd
    have t : |z - (x + D)| ≤ |z - (x + d)| + |d - D| := by
      have := abs_add_le (z - (x + d)) (d - D)
      rwa [show z - (x + d) + (d - D) = z - (x + D) by ring] at this
    have c1 : (|x| + h) / 2 ^ 53 + eps * S / 2 ^ 53 ≤ 101 / 100 * S / 2 ^ 53 := by
      rw [← add_div]
      refine div_le_div_of_nonneg_right ?_ (by positivity)
      have : eps * S ≤ 1 / 2 ^ 10 * S := mul_le_mul_of_nonneg_right e10 (by linarith)
      norm_num at s3 this ⊢
      linarith
    linarith
  have era : ∀ d : ℚ, IsDouble d → |d| = h → |rnd (x + d) - (x + d)| ≤ (|x| + h) / 2 ^ 53 := by
    intro d dd hd
    refine (hr.err_add dx dd).trans (div_le_div_of_nonneg_right ?_ (by positivity))
    rw [← hd]
    exact abs_add_le _ _
  have nearby : ∀ z d : ℚ, |d| = h → |z - (x + d)| ≤ 1005 / 1000 * (1 / (eps * 2 ^ 53)) * h → |z - x| ≤ 2 * eps * S := by
    intro z d hd hz
    have := abs_add_le (z - (x + d)) d
    rw [show z - (x + d) + d = z - x by ring, hd] at this
    linarith
  have mk : ∀ z : ℚ, IsDouble z → |z| ≤ 2 ^ (902 : ℤ) → |z - x| ≤ 2 * eps * S → Near x0 c (2 * eps * scale (x0 c)) (Function.update x0 c (.fin z)) := by
    intro z dz bz hz
    refine ⟨fun j hj => by simp [Function.update_of_ne hj], by simp [Fp.isFinite], by simpa [IsDoubleVal] using ⟨dz, big z bz⟩, ?_⟩
    rw [vx, sx]
    unfold vals
    simp only [Function.update_self, fval]
    exact_mod_cast hz
  have ap := abs_le.1 pe
  have aq := abs_le.1 qe
  refine ⟨Function.update x0 c (.fin p), Function.update x0 c (.fin q), mk p dp pb (nearby p h (abs_of_pos h0) pe),
    mk q dq qb (nearby q (-h) (by rw [abs_neg, abs_of_pos h0]) (by rw [← sub_eq_add_neg]; exact qe)), ?_, ?_, ?_, ?_, ?_⟩
  · rw [vx]
    unfold vals
    simp only [Function.update_self, fval]
    have : q < x := by linarith
    exact_mod_cast this
  · rw [vx]
    unfold vals
    simp only [Function.update_self, fval]
    have : x < p := by linarith
    exact_mod_cast this
  · have k : |p - (x + eps * S)| ≤ 101 / 100 * S / 2 ^ 53 := by
      refine ideal p h (eps * S) ?_ hh
      have : fadd rnd (.fin x) (.fin h) = .fin p := by
        have := congrFun ep c
        simpa [update, ex] using this
      rw [fadd_fin this]
      exact era h dh (abs_of_pos h0)
    rw [vx, sx]
    unfold vals
    simp only [Function.update_self, fval]
    have := up k
    push_cast at this
    exact this
  · have k : |q - (x - eps * S)| ≤ 101 / 100 * S / 2 ^ 53 := by
      rw [sub_eq_add_neg x]
      refine ideal q (-h) (-(eps * S)) ?_ (by rw [neg_sub_neg, abs_sub_comm]; exact hh)
      have : fadd rnd (.fin x) (.fin (-h)) = .fin q := by
        have := congrFun eq c
        simpa [update, ex, Fp.neg] using this
      rw [fadd_fin this]
      exact era (-h) dh.neg (by rw [abs_neg, abs_of_pos h0])
    rw [vx, sx]
    unfold vals
    simp only [Function.update_self, fval]
    have := up k
    push_cast at this
    exact this
  · intro f g fp fq i
    unfold estimateJacobian
    simp only [e1, ep, eq, fp, fq]

omit hr

/-- the error of a central difference of which the points are slightly off -/
theorem central (g : ℝ → ℝ) (hg : ContDiff ℝ 3 g) {M h a b ρ : ℝ} (h0 : 0 < h) (ρ1 : ρ ≤ 1 / 1000) (ha : |a - h| ≤ ρ * h) (hb : |b - h| ≤ ρ * h)
    (hM : ∀ t, |t| ≤ 1001 / 1000 * h → |iteratedDeriv 3 g t| ≤ M) :
    |(g a - g (-b)) / (2 * h) - deriv g 0| ≤ ρ * |deriv g 0| + 1001 / 1000 * ρ * h * |iteratedDeriv 2 g 0| + 1004 / 1000 * (M * h ^ 2 / 6) := by
  obtain ⟨a1, a2⟩ := abs_le.1 ha
  obtain ⟨b1, b2⟩ := abs_le.1 hb
  have ρh : ρ * h ≤ 1 / 1000 * h := mul_le_mul_of_nonneg_right ρ1 h0.le
  have ρ0 : 0 ≤ ρ * h := (abs_nonneg _).trans ha
  have ρ0' : 0 ≤ ρ := nonneg_of_mul_nonneg_left ρ0 h0
  have pa : 0 < a := by linarith
  have pb : 0 < b := by linarith
  have M0 : 0 ≤ M := (abs_nonneg _).trans (hM 0 (by rw [abs_zero]; positivity))
  have t1 := SmEigen.taylor3 g hg M a pa fun t ht => hM t (by linarith)
  have di : ∀ (k : ℕ) (t : ℝ), iteratedDeriv k (fun t => g (-t)) t = (-1) ^ k * iteratedDeriv k g (-t) := by
    intro k t
    rw [iteratedDeriv_comp_neg]; simp
  have t2 := SmEigen.taylor3 (fun t => g (-t)) (hg.comp contDiff_neg) M b pb (by
    intro t ht
    rw [di, abs_mul]
    have := hM (-t) (by rw [abs_neg]; linarith)
    simpa using this)
  have d1 : deriv (fun t => g (-t)) 0 = -deriv g 0 := by
    have := di 1 0
    rw [iteratedDeriv_one, iteratedDeriv_one] at this
    simpa using this
  rw [d1, di] at t2
  simp only [neg_zero] at t2
  obtain ⟨D, hD⟩ : ∃ D, D = deriv g 0 := ⟨_, rfl⟩
  obtain ⟨E, hE⟩ : ∃ E, E = iteratedDeriv 2 g 0 := ⟨_, rfl⟩
  rw [← hD] at t1 t2 ⊢
  rw [← hE] at t1 t2 ⊢
  obtain ⟨r, hr⟩ : ∃ r, r = g a - (g 0 + D * a + E / 2 * a ^ 2) := ⟨_, rfl⟩
  obtain ⟨s, hs⟩ : ∃ s, s = g (-b) - (g 0 + -D * b + (-1) ^ 2 * E / 2 * b ^ 2) := ⟨_, rfl⟩
  rw [← hr] at t1
  rw [← hs] at t2
  have cube : ∀ y, 0 < y → y ≤ 1001 / 1000 * h → M * y ^ 3 / 6 ≤ 1004 / 1000 * (M * h ^ 3 / 6) := by
    intro y y0 hy
    have : y ^ 3 ≤ 1004 / 1000 * h ^ 3 := by
      calc y ^ 3 ≤ (1001 / 1000 * h) ^ 3 := pow_le_pow_left₀ y0.le hy 3
        _ = (1001 / 1000) ^ 3 * h ^ 3 := by ring
        _ ≤ _ := mul_le_mul_of_nonneg_right (by norm_num) (by positivity)
    have := mul_le_mul_of_nonneg_left this M0
    linarith
  have key : (g a - g (-b)) / (2 * h) - D = (D * ((a - h) + (b - h)) + E / 2 * ((a - h) - (b - h)) * (a + b) + r - s) / (2 * h) := by
    rw [hr, hs]
    field_simp
    ring
  rw [key, abs_div, abs_of_pos (by positivity : 0 < 2 * h), div_le_iff₀ (by positivity)]
  have k1 : |D * ((a - h) + (b - h))| ≤ |D| * (2 * (ρ * h)) := by
    rw [abs_mul]
    exact mul_le_mul_of_nonneg_left ((abs_add_le _ _).trans (by linarith)) (abs_nonneg _)
  have k2 : |E / 2 * ((a - h) - (b - h)) * (a + b)| ≤ |E| / 2 * (2 * (ρ * h)) * (2002 / 1000 * h) := by
    rw [abs_mul, abs_mul, abs_div, abs_two]
    refine mul_le_mul (mul_le_mul_of_nonneg_left ((abs_sub _ _).trans (by linarith)) (by positivity)) ?_ (abs_nonneg _) (by positivity)
    rw [abs_of_pos (by linarith)]
    linarith
  have k3 := t1.trans (cube a pa (by linarith))
  have k4 := t2.trans (cube b pb (by linarith))
  have s1 := abs_sub (D * ((a - h) + (b - h)) + E / 2 * ((a - h) - (b - h)) * (a + b) + r) s
  have s2 := abs_add_le (D * ((a - h) + (b - h)) + E / 2 * ((a - h) - (b - h)) * (a + b)) r
  have s3 := abs_add_le (D * ((a - h) + (b - h))) (E / 2 * ((a - h) - (b - h)) * (a + b))
  have fin : (ρ * |D| + 1001 / 1000 * ρ * h * |E| + 1004 / 1000 * (M * h ^ 2 / 6)) * (2 * h) =
      |D| * (2 * (ρ * h)) + |E| / 2 * (2 * (ρ * h)) * (2002 / 1000 * h) + 2 * (1004 / 1000 * (M * h ^ 3 / 6)) := by ring
  rw [fin]
  linarith

/-- the last step: the errors together -/
theorem gather {D E A z W ρ ε t : ℝ} (ρ0 : 0 ≤ ρ) (hA : |A - D| ≤ E) (hE : E ≤ 1005 / 1000 * ρ * |D| + 1008 / 1000 * W) (W0 : 0 ≤ W)
    (hz : |z - A| ≤ |A| * ε + t) (ε0 : 0 ≤ ε) (hε : ε ≤ 1 / 256 * ρ) (ε1 : ε ≤ 1 / 2 ^ 30) :
    |z - D| ≤ 101 / 100 * (ρ * |D| + W) + t := by
  have a1 : |A| ≤ |D| + E := by
    have := abs_add_le (A - D) D
    rw [sub_add_cancel] at this
    linarith
  have a2 : |z - D| ≤ |z - A| + |A - D| := by
    have := abs_add_le (z - A) (A - D)
    rwa [sub_add_sub_cancel] at this
  have D0 := abs_nonneg D
  have E0 : 0 ≤ E := (abs_nonneg _).trans hA
  have b1 : |A| * ε ≤ |D| * (1 / 256 * ρ) + E * (1 / 2 ^ 30) := by
    have c1 := mul_le_mul_of_nonneg_right a1 ε0
    have c2 := mul_le_mul_of_nonneg_left hε D0
    have c3 := mul_le_mul_of_nonneg_left ε1 E0
    linarith
  have m0 : 0 ≤ ρ * |D| := by positivity
  norm_num at b1
  linarith

include hr in
/-- **C180** The error of a computed derivative.  `F` is the exact function, three times differentiable along the coordinate, and `f` computes it with an error of at most `η` near the point.  With the step `H = eps * max(|x|, 1)`, the result is finite and differs from the derivative by at most 1.01 times the sum of: the relative error 1/(eps 2^53) of the displacement, in the first and (over the step) in the second derivative; the truncation error, a sixth of the third derivative times the squared step; the error of the function over the step. -/
theorem C180_error (b : Bool) (f : (Fin n → Fp) → Fin m → Fp) (F : (Fin n → ℝ) → Fin m → ℝ) {eps : ℚ} (he : GoodEps eps) (x0 : Fin n → Fp) (i : Fin m) (c : Fin n) (hx : Moderate (x0 c)) (η M : ℝ)
    (smooth : ContDiff ℝ 3 fun t : ℝ => F (vals x0 + t • Pi.single c 1) i)
    (hM : ∀ t, |t| ≤ 2 * eps * scale (x0 c) → |iteratedDeriv 3 (fun t : ℝ => F (vals x0 + t • Pi.single c 1) i) t| ≤ M)
    (hf : ∀ p, Near x0 c (2 * eps * scale (x0 c)) p → Moderate (f p i) ∧ |vals (f p) i - F (vals p) i| ≤ η) :
    (estimateJacobian rnd b f (.fin eps) x0 i c).isFinite ∧
    |(fval (estimateJacobian rnd b f (.fin eps) x0 i c) : ℝ) - deriv (fun t : ℝ => F (vals x0 + t • Pi.single c 1) i) 0| ≤
      101 / 100 * (1 / (eps * 2 ^ 53) * |deriv (fun t : ℝ => F (vals x0 + t • Pi.single c 1) i) 0|
        + (1 / (eps * 2 ^ 53) * (eps * scale (x0 c)) * |iteratedDeriv 2 (fun t : ℝ => F (vals x0 + t • Pi.single c 1) i) 0|
          + M * (eps * scale (x0 c)) ^ 2 / 6 + η / (eps * scale (x0 c)))) + 2 ^ (-1074 : ℤ) := by
  obtain ⟨x, ex, dx, bx⟩ := hx
  obtain ⟨h, p, q, e1, dh, hh, h1, ep, eq, dp, dq, pb, qb, pe, qe⟩ := points_aux hr he x0 c ex dx bx
  obtain ⟨s1, s2, s3, s4⟩ := step_size he bx hh
  have h0 : 0 < h := lt_of_lt_of_le (by positivity) s1
  have rl := rho_le he
  have e0 : 0 < eps := lt_of_lt_of_le (by positivity) he.2.1
  have big : ∀ z : ℚ, |z| ≤ 2 ^ (902 : ℤ) → |z| < tooBig := by
    intro z hz
    refine lt_of_le_of_lt hz ?_
    unfold tooBig
    rw [show (902 : ℤ) = ((902 : ℕ) : ℤ) from rfl, zpow_natCast]
    exact pow_lt_pow_right₀ (by norm_num) (by norm_num)
  have vx : vals x0 c = (x : ℝ) := by unfold vals; rw [ex]; rfl
  have sx : scale (x0 c) = ((max |x| 1 : ℚ) : ℝ) := by
    unfold scale; rw [ex]; push_cast; rfl
  have small : 1005 / 1000 * (1 / (eps * 2 ^ 53)) ≤ 1 / 1000 := by
    have : (1005 : ℚ) / 1000 * (1 / 2 ^ 13) ≤ 1 / 1000 := by norm_num
    linarith
  obtain ⟨H, hH⟩ : ∃ H, H = eps * max |x| 1 := ⟨_, rfl⟩
  have HR : (eps : ℝ) * scale (x0 c) = (H : ℝ) := by rw [sx, hH]; push_cast; rfl
  have HR2 : 2 * (eps : ℝ) * scale (x0 c) = 2 * (H : ℝ) := by rw [mul_assoc, HR]
  rw [HR2] at hM hf
  rw [HR]
  rw [← hH] at hh
  have H0 : 0 < H := by rw [hH]; positivity
  have k53 : H / 2 ^ 53 ≤ 1 / 100000 * H := by
    rw [div_eq_mul_one_div, mul_comm]
    exact mul_le_mul_of_nonneg_right (by norm_num) H0.le
  obtain ⟨hl, hu⟩ := abs_le.1 hh
  have hu' : h ≤ 100001 / 100000 * H := by linarith
  have hl' : 99999 / 100000 * H ≤ h := by linarith
  obtain ⟨ρ, hρ⟩ : ∃ ρ, ρ = 1 / (eps * 2 ^ 53) := ⟨_, rfl⟩
  have ρR : 1 / ((eps : ℝ) * 2 ^ 53) = (ρ : ℝ) := by rw [hρ]; push_cast; rfl
  rw [ρR]
  rw [← hρ] at pe qe small
  have ρ0 : 0 < ρ := by rw [hρ]; positivity
  have near : ∀ z d : ℚ, |d| = h → |z - (x + d)| ≤ 1005 / 1000 * ρ * h → IsDouble z → |z| ≤ 2 ^ (902 : ℤ) → Near x0 c (2 * H) (Function.update x0 c (.fin z)) := by
    intro z d hd hz dz bz
    refine ⟨fun j hj => by simp [Function.update_of_ne hj], by simp [Fp.isFinite], by simpa [IsDoubleVal] using ⟨dz, big z bz⟩, ?_⟩
    rw [vx]
    unfold vals
    simp only [Function.update_self, fval]
    have t := abs_add_le (z - (x + d)) d
    rw [show z - (x + d) + d = z - x by ring, hd] at t
    have w : 1005 / 1000 * ρ * h ≤ 1 / 1000 * h := mul_le_mul_of_nonneg_right small h0.le
    have : |z - x| ≤ 2 * H := by linarith
    exact_mod_cast this
  obtain ⟨⟨y, ey, dy, yb⟩, hy⟩ := hf _ (near p h (abs_of_pos h0) pe dp pb)
  obtain ⟨⟨w, ew, dw, wb⟩, hw⟩ := hf _ (near q (-h) (by rw [abs_neg, abs_of_pos h0]) (by rw [← sub_eq_add_neg]; exact qe) dq qb)
  obtain ⟨z, ez, dz, hz⟩ := quotient_err hr b dy dw yb wb s1 s2 dh
  have J : estimateJacobian rnd b f (.fin eps) x0 i c = .fin z := by
    unfold estimateJacobian
    simp only [e1, ep, eq, ey, ew]
    exact ez
  rw [J]
  refine ⟨rfl, ?_⟩
  -- the exact function along the line
  obtain ⟨g, hg⟩ : ∃ g, g = fun t : ℝ => F (vals x0 + t • Pi.single c 1) i := ⟨_, rfl⟩
  rw [← hg] at smooth hM ⊢
  have line : ∀ z : ℚ, F (vals (Function.update x0 c (.fin z))) i = g ((z : ℝ) - x) := by
    intro z
    rw [hg]
    refine congrFun (congrArg F ?_) i
    funext j
    unfold vals
    by_cases hj : j = c
    · subst hj
      simp [fval, ex]
    · simp [hj]
  rw [line] at hy hw
  have vy : vals (f (Function.update x0 c (.fin p))) i = (y : ℝ) := by unfold vals; rw [ey]; rfl
  have vw : vals (f (Function.update x0 c (.fin q))) i = (w : ℝ) := by unfold vals; rw [ew]; rfl
  rw [vy] at hy
  rw [vw] at hw
  have hR0 : (0 : ℝ) < h := by exact_mod_cast h0
  have HR0 : (0 : ℝ) < H := by exact_mod_cast H0
  have ρR0 : (0 : ℝ) < ρ := by exact_mod_cast ρ0
  have huR : (h : ℝ) ≤ 100001 / 100000 * H := by have := up hu'; push_cast at this; exact this
  have hlR : 99999 / 100000 * (H : ℝ) ≤ h := by have := up hl'; push_cast at this; exact this
  have cen := central g smooth (M := M) (h := h) (a := (p : ℝ) - x) (b := (x : ℝ) - q) (ρ := 1005 / 1000 * ρ) hR0 (by have := up small; push_cast at this; exact this)
    (by rw [show (p : ℝ) - x - h = p - (x + h) by ring]; have := up pe; push_cast at this; exact this)
    (by rw [show (x : ℝ) - q - h = -(q - (x - h)) by ring, abs_neg]; have := up qe; push_cast at this; exact this)
    (fun t ht => hM t (by linarith))
  rw [show -((x : ℝ) - q) = q - x by ring] at cen
  have η0 : 0 ≤ η := (abs_nonneg _).trans hy
  have M0 : 0 ≤ M := (abs_nonneg _).trans (hM 0 (by rw [abs_zero]; positivity))
  have zR : |(z : ℝ) - (y - w) / (2 * h)| ≤ |((y : ℝ) - w) / (2 * h)| * (4 / 2 ^ 53) + 2 ^ (-1074 : ℤ) := by
    have e : 2 * tiny = 2 ^ (-1074 : ℤ) := by unfold tiny; ring
    rw [e] at hz
    have := up hz
    push_cast at this
    exact this
  have dif : |((y : ℝ) - w) / (2 * h) - (g (p - x) - g (q - x)) / (2 * h)| ≤ η / h := by
    rw [← sub_div, abs_div, abs_of_pos (by positivity : (0 : ℝ) < 2 * h), div_le_div_iff₀ (by positivity) hR0]
    have : |(y : ℝ) - w - (g (p - x) - g (q - x))| ≤ 2 * η := by
      rw [show (y : ℝ) - w - (g (p - x) - g (q - x)) = (y - g (p - x)) - (w - g (q - x)) by ring]
      exact (abs_sub _ _).trans (by linarith)
    have := mul_le_mul_of_nonneg_right this hR0.le
    linarith
  have tot : |((y : ℝ) - w) / (2 * h) - deriv g 0| ≤ η / h + (1005 / 1000 * ρ * |deriv g 0| + 1001 / 1000 * (1005 / 1000 * ρ) * h * |iteratedDeriv 2 g 0| + 1004 / 1000 * (M * h ^ 2 / 6)) := by
    have := abs_add_le (((y : ℝ) - w) / (2 * h) - (g (p - x) - g (q - x)) / (2 * h)) ((g (p - x) - g (q - x)) / (2 * h) - deriv g 0)
    rw [sub_add_sub_cancel] at this
    linarith
  have w1 : η / h ≤ 1008 / 1000 * (η / H) := by
    rw [div_le_iff₀ hR0]
    have : 1008 / 1000 * (η / H) * h ≥ 1008 / 1000 * (η / H) * (99999 / 100000 * H) := mul_le_mul_of_nonneg_left hlR (by positivity)
    have e : 1008 / 1000 * (η / H) * (99999 / 100000 * (H : ℝ)) = 1008 / 1000 * (99999 / 100000) * η := by field_simp
    rw [e] at this
    norm_num at this ⊢
    linarith
  have w2 : 1001 / 1000 * (1005 / 1000 * (ρ : ℝ)) * h * |iteratedDeriv 2 g 0| ≤ 1008 / 1000 * (ρ * H * |iteratedDeriv 2 g 0|) := by
    have := mul_le_mul_of_nonneg_left huR (by positivity : (0 : ℝ) ≤ ρ * |iteratedDeriv 2 g 0|)
    have c0 : (0 : ℝ) ≤ ρ * H * |iteratedDeriv 2 g 0| := by positivity
    linarith
  have w3 : 1004 / 1000 * (M * (h : ℝ) ^ 2 / 6) ≤ 1008 / 1000 * (M * H ^ 2 / 6) := by
    have : (h : ℝ) ^ 2 ≤ 1001 / 1000 * H ^ 2 := by
      calc (h : ℝ) ^ 2 ≤ (100001 / 100000 * H) ^ 2 := pow_le_pow_left₀ hR0.le huR 2
        _ = (100001 / 100000) ^ 2 * H ^ 2 := by ring
        _ ≤ _ := mul_le_mul_of_nonneg_right (by norm_num) (by positivity)
    have t := mul_le_mul_of_nonneg_left this M0
    have c0 : (0 : ℝ) ≤ M * H ^ 2 := by positivity
    linarith
  refine gather (ρ := ρ) (ε := 4 / 2 ^ 53) ρR0.le tot ?_ (by positivity) zR (by positivity) ?_ (by norm_num)
  · have : (η / H : ℝ) ≥ 0 := by positivity
    linarith
  · have : (4 : ℚ) / 2 ^ 53 ≤ 1 / 256 * ρ := by
      rw [hρ, ← mul_div_assoc, div_le_div_iff₀ (by positivity) (by positivity)]
      have := he.2.2
      norm_num at this ⊢
      linarith
    have := up this
    push_cast at this
    exact this

/-! ## Affine functions -/

/-- `defaultEps` is in range -/
theorem default_good : GoodEps (1 / 2 ^ 26) := ⟨⟨1, -26, by norm_num, by norm_num, by norm_num [zpow_neg]⟩, by norm_num, by norm_num⟩

include hr in
/-- **C180** With the default step factor, at a coordinate between -1 and 1 that is a multiple of 2^-52, the derivative of a function that is affine in the coordinate and whose values at the two points are computed without error is exact. -/
theorem C180_affine (b : Bool) (f : (Fin n → Fp) → Fin m → Fp) (x0 : Fin n → Fp) (i : Fin m) (c : Fin n) {k : ℤ} (hk : |k| ≤ 2 ^ 52) (hx : x0 c = .fin (k / 2 ^ 52)) (a d : ℚ)
    (da : IsDouble a) (a1 : a ≠ 0 → 2 ^ (-900 : ℤ) ≤ |a|) (a2 : |a| ≤ 2 ^ (900 : ℤ))
    (hf : ∀ (p : Fin n → Fp) (z : ℚ), (∀ j, j ≠ c → p j = x0 j) → p c = .fin z → |z - k / 2 ^ 52| = 1 / 2 ^ 26 → f p i = .fin (a * z + d)) :
    estimateJacobian rnd b f defaultEps x0 i c = .fin a := by
  have kq : |(k : ℚ)| ≤ 2 ^ 52 := by exact_mod_cast hk
  have ax : |(k : ℚ) / 2 ^ 52| ≤ 1 := by
    rw [abs_div, abs_of_pos (by positivity : (0 : ℚ) < 2 ^ 52), div_le_one (by positivity)]
    exact kq
  have frac : ∀ j : ℤ, |j| < 2 ^ 53 → IsDouble ((j : ℚ) / 2 ^ 52) := by
    intro j hj
    exact ⟨j, -52, hj, by norm_num, by rw [zpow_neg, div_eq_mul_inv]; rfl⟩
  have dx : IsDouble ((k : ℚ) / 2 ^ 52) := frac k (lt_of_le_of_lt hk (by norm_num))
  have lim : ∀ z : ℚ, |z| ≤ 4 → |z| ≤ 2 ^ (1000 : ℤ) := by
    intro z hz
    refine hz.trans ?_
    calc (4 : ℚ) = 2 ^ (2 : ℤ) := by norm_num
      _ ≤ _ := pow_le' (by norm_num)
  obtain ⟨h, e1, dh, hh, h1⟩ := step_eq hr default_good (ax.trans (by
    calc (1 : ℚ) = 2 ^ (0 : ℤ) := by norm_num
      _ ≤ _ := pow_le' (by norm_num)))
  rw [h1 ax] at e1
  have st : stepSize rnd defaultEps x0 c = .fin (1 / 2 ^ 26) := by rw [stepSize, hx]; exact e1
  have pt : ∀ s : ℤ, |s| = 1 → fadd rnd (.fin ((k : ℚ) / 2 ^ 52)) (.fin (s * (1 / 2 ^ 26))) = .fin ((k : ℚ) / 2 ^ 52 + s * (1 / 2 ^ 26)) := by
    intro s hs
    have e : (k : ℚ) / 2 ^ 52 + s * (1 / 2 ^ 26) = ((k + s * 2 ^ 26 : ℤ) : ℚ) / 2 ^ 52 := by push_cast; ring
    have dd : IsDouble ((k : ℚ) / 2 ^ 52 + s * (1 / 2 ^ 26)) := by
      rw [e]
      refine frac _ ?_
      have h1 := abs_add_le k (s * 2 ^ 26)
      rw [abs_mul, hs] at h1
      norm_num at h1 hk ⊢
      omega
    show rounded rnd (.fin _) = _
    rw [rounded_ok hr, hr.fix dd]
    refine lim _ ((abs_add_le _ _).trans ?_)
    have : |(s : ℚ)| = 1 := by exact_mod_cast hs
    rw [abs_mul, this]
    norm_num at ax ⊢
    linarith
  have up1 : ∀ s : ℤ, |s| = 1 → f (update rnd x0 c (.fin (s * (1 / 2 ^ 26)))) i = .fin (a * ((k : ℚ) / 2 ^ 52 + s * (1 / 2 ^ 26)) + d) := by
    intro s hs
    refine hf (update rnd x0 c (.fin (s * (1 / 2 ^ 26)))) _ (fun j hj => by simp [update, hj]) (by simp only [update, if_true]; rw [hx]; exact pt s hs) ?_
    have : |(s : ℚ)| = 1 := by exact_mod_cast hs
    rw [add_sub_cancel_left, abs_mul, this]
    norm_num
  have f1 := up1 1 rfl
  have f2 := up1 (-1) rfl
  have n1 : ((1 : ℤ) : ℚ) * (1 / 2 ^ 26) = 1 / 2 ^ 26 := by norm_num
  have n2 : (((-1 : ℤ)) : ℚ) * (1 / 2 ^ 26) = -(1 / 2 ^ 26) := by norm_num
  rw [n1] at f1
  rw [n2] at f2
  have dif : a * ((k : ℚ) / 2 ^ 52 + 1 / 2 ^ 26) + d + -(a * ((k : ℚ) / 2 ^ 52 + -(1 / 2 ^ 26)) + d) = a * (1 / 2 ^ 25) := by ring
  have da' : IsDouble (a * (1 / 2 ^ 25)) := by
    rcases eq_or_ne a 0 with e | e
    · rw [e, zero_mul]; exact ⟨0, 0, by norm_num, by norm_num, by norm_num⟩
    · have := NumericDouble.double_scale da (k := 25) (f := -1000) (by norm_num) ((pow_le' (by norm_num)).trans (a1 e))
      rw [zpow_neg, zpow_natCast] at this
      rw [one_div]
      exact this
  have two : |a| ≤ 2 ^ (1000 : ℤ) := a2.trans (pow_le' (by norm_num))
  have dd : fsub rnd (.fin (a * ((k : ℚ) / 2 ^ 52 + 1 / 2 ^ 26) + d)) (.fin (a * ((k : ℚ) / 2 ^ 52 + -(1 / 2 ^ 26)) + d)) = .fin (a * (1 / 2 ^ 25)) := by
    show rounded rnd (.fin (_ + -_)) = _
    rw [dif, rounded_ok hr, hr.fix da']
    rw [abs_mul]
    refine le_trans ?_ two
    refine mul_le_of_le_one_right (abs_nonneg a) ?_
    rw [abs_of_pos (by positivity)]
    norm_num
  have hh2 : fmul rnd (.fin (1 / 2 ^ 26)) (.fin 2) = .fin (1 / 2 ^ 25) := by
    show rounded rnd (.fin (1 / 2 ^ 26 * 2)) = _
    have e : (1 : ℚ) / 2 ^ 26 * 2 = 1 / 2 ^ 25 := by norm_num
    rw [e, rounded_ok hr (lim _ (by rw [abs_of_pos (by positivity)]; norm_num)), hr.fix]
    exact ⟨1, -25, by norm_num, by norm_num, by rw [zpow_neg, one_div, Int.cast_one, one_mul]; rfl⟩
  have nz : (1 : ℚ) / 2 ^ 25 ≠ 0 := by positivity
  unfold estimateJacobian
  simp only [st]
  show quotient rnd b (fsub rnd _ (f (update rnd x0 c (.fin (-(1 / 2 ^ 26)))) i)) _ = _
  rw [f1, f2, dd, hh2]
  cases b with
  | false =>
    show fdiv rnd (.fin (a * (1 / 2 ^ 25))) (.fin (1 / 2 ^ 25)) = _
    have : fdiv rnd (.fin (a * (1 / 2 ^ 25))) (.fin (1 / 2 ^ 25)) = rounded rnd (.fin (a * (1 / 2 ^ 25) / (1 / 2 ^ 25))) := by
      simp only [fdiv, Fp.div, nz, if_false]
    rw [this, mul_div_cancel_right₀ _ nz, rounded_ok hr two, hr.fix da]
  | true =>
    show fmul rnd (.fin (a * (1 / 2 ^ 25))) (fdiv rnd (.fin 1) (.fin (1 / 2 ^ 25))) = _
    have : fdiv rnd (.fin 1) (.fin (1 / 2 ^ 25)) = rounded rnd (.fin (1 / (1 / 2 ^ 25))) := by
      simp only [fdiv, Fp.div, nz, if_false]
    have e25 : (1 : ℚ) / (1 / 2 ^ 25) = 2 ^ 25 := by norm_num
    rw [this, e25, rounded_ok hr, hr.fix ⟨1, 25, by norm_num, by norm_num, by rw [Int.cast_one, one_mul]; rfl⟩]
    · show rounded rnd (.fin (a * (1 / 2 ^ 25) * 2 ^ 25)) = _
      rw [mul_assoc, show (1 : ℚ) / 2 ^ 25 * 2 ^ 25 = 1 by norm_num, mul_one, rounded_ok hr two, hr.fix da]
    · rw [abs_of_pos (by positivity), show (2 : ℚ) ^ 25 = 2 ^ (25 : ℤ) from (zpow_natCast 2 25).symm]
      exact pow_le' (by norm_num)

include hr in
/-- **C180** The Jacobian of the identity is the identity matrix up to 1.01/(eps 2^53), for every moderate point. -/
theorem C180_identity_partial (b : Bool) {eps : ℚ} (he : GoodEps eps) (x0 : Fin n → Fp) (hx : ∀ j, ∃ q : ℚ, x0 j = .fin q ∧ IsDouble q ∧ |q| ≤ 2 ^ (800 : ℤ)) (i c : Fin n) :
    (estimateJacobian rnd b id (.fin eps) x0 i c).isFinite ∧
    |(fval (estimateJacobian rnd b id (.fin eps) x0 i c) : ℝ) - (if i = c then 1 else 0)| ≤ 101 / 100 * (1 / (eps * 2 ^ 53)) + 2 ^ (-1074 : ℤ) := by
  have mod : ∀ j, Moderate (x0 j) := fun j => by
    obtain ⟨q, e, d, bq⟩ := hx j
    exact ⟨q, e, d, bq.trans (pow_le' (by norm_num))⟩
  obtain ⟨x, ex, dx, bx⟩ := hx c
  obtain ⟨s, hs⟩ : ∃ s : ℝ, s = if i = c then 1 else 0 := ⟨_, rfl⟩
  have line : (fun t : ℝ => (id (vals x0 + t • Pi.single c 1) : Fin n → ℝ) i) = fun t => vals x0 i + s * t := by
    funext t
    rw [hs]
    by_cases h : i = c
    · subst h; simp
    · simp [h]
  have d1 : ∀ t : ℝ, HasDerivAt (fun t => vals x0 i + s * t) s t := by
    intro t
    have := ((hasDerivAt_id t).const_mul s).const_add (vals x0 i)
    simpa using this
  have e1 : deriv (fun t : ℝ => vals x0 i + s * t) = fun _ => s := funext fun t => (d1 t).deriv
  have e2 : iteratedDeriv 2 (fun t : ℝ => vals x0 i + s * t) = fun _ => 0 := by
    rw [iteratedDeriv_succ, iteratedDeriv_one, e1]
    funext t
    simp
  have e3 : iteratedDeriv 3 (fun t : ℝ => vals x0 i + s * t) = fun _ => 0 := by
    rw [iteratedDeriv_succ, e2]
    funext t
    simp
  have key := C180_error hr b (f := (id : (Fin n → Fp) → Fin n → Fp)) (F := (id : (Fin n → ℝ) → Fin n → ℝ)) he x0 i c (mod c) 0 0
    (by rw [line]; fun_prop)
    (by rw [line, e3]; intro t _; simp)
    (by
      intro p hp
      refine ⟨?_, by simp⟩
      by_cases h : i = c
      · subst h
        obtain ⟨-, p1, p2, p3⟩ := hp
        have : ∃ z, p i = .fin z := by
          cases hz : p i with
          | fin z => exact ⟨z, rfl⟩
          | inf _ => rw [hz] at p1; simp [Fp.isFinite] at p1
          | nan => rw [hz] at p1; simp [Fp.isFinite] at p1
        obtain ⟨z, hz⟩ := this
        rw [hz] at p2
        refine ⟨z, hz, p2.1, ?_⟩
        have v1 : vals p i = (z : ℝ) := by unfold vals; rw [hz]; rfl
        have v2 : vals x0 i = (x : ℝ) := by unfold vals; rw [ex]; rfl
        have sx : scale (x0 i) = ((max |x| 1 : ℚ) : ℝ) := by unfold scale; rw [ex]; push_cast; rfl
        rw [v1, v2, sx] at p3
        have q3 : |z - x| ≤ 2 * eps * max |x| 1 := by
          have := p3
          exact_mod_cast this
        have m : max |x| 1 ≤ 2 ^ (800 : ℤ) := max_le bx (one_le_zpow₀ (by norm_num) (by norm_num))
        have e10 := he.2.2
        have e0 : 0 < eps := lt_of_lt_of_le (by positivity) he.2.1
        have k1 : 2 * eps * max |x| 1 ≤ 2 ^ (800 : ℤ) := by
          calc 2 * eps * max |x| 1 ≤ 1 * 2 ^ (800 : ℤ) := mul_le_mul (by norm_num at e10 ⊢; linarith) m (by positivity) (by norm_num)
            _ = _ := one_mul _
        have t := abs_add_le (z - x) x
        rw [sub_add_cancel] at t
        have k2 : (2 : ℚ) ^ (801 : ℤ) = 2 * 2 ^ (800 : ℤ) := by rw [show (801 : ℤ) = 1 + 800 by norm_num, zpow_add₀ (by norm_num), zpow_one]
        have k3 : (2 : ℚ) ^ (801 : ℤ) ≤ 2 ^ (900 : ℤ) := pow_le' (by norm_num)
        rw [k2] at k3
        refine le_trans ?_ k3
        rw [two_mul]
        exact t.trans (add_le_add (q3.trans k1) bx)
      · show Moderate (p i)
        rw [hp.1 i h]
        exact mod i)
  rw [line] at key
  refine ⟨key.1, ?_⟩
  rw [← hs]
  have k2 := key.2
  rw [e1, e2] at k2
  refine k2.trans ?_
  have s1 : |s| ≤ 1 := by rw [hs]; split <;> simp
  have ρ0 : (0 : ℝ) ≤ 1 / (eps * 2 ^ 53) := by
    have e0 : (0 : ℚ) < eps := lt_of_lt_of_le (by positivity) he.2.1
    have : (0 : ℝ) < eps := by exact_mod_cast e0
    positivity
  have := mul_le_mul_of_nonneg_left s1 ρ0
  simp only [abs_zero, mul_zero, zero_mul, zero_div, add_zero, mul_one] at this ⊢
  linarith

include hr in
/-- **C180** With a step factor of zero every entry is NaN: 0/0. -/
theorem C180_zero (b : Bool) (f : (Fin n → Fp) → Fin m → Fp) (x0 : Fin n → Fp) (i : Fin m) (c : Fin n) (hx : Moderate (x0 c)) (hf : (f x0 i).isFinite) :
    estimateJacobian rnd b f (.fin 0) x0 i c = .nan := by
  obtain ⟨x, ex, dx, bx⟩ := hx
  have d0 : IsDouble 0 := ⟨0, 0, by norm_num, by norm_num, by norm_num⟩
  have r0 : rounded rnd (.fin 0) = .fin 0 := by
    rw [rounded_ok hr (by rw [abs_zero]; positivity), hr.fix d0]
  have st : stepSize rnd (.fin 0) x0 c = .fin 0 := by
    rw [stepSize, ex]
    have : fmul rnd (Fp.fin x).abs (.fin 0) = .fin 0 := by
      show rounded rnd (.fin (|x| * 0)) = _
      rw [mul_zero, r0]
    rw [this]
    rfl
  have z0 : fadd rnd (.fin x) (.fin 0) = .fin x := by
    show rounded rnd (.fin (x + 0)) = _
    rw [add_zero, rounded_ok hr (bx.trans (pow_le' (by norm_num))), hr.fix dx]
  have u : update rnd x0 c (.fin 0) = x0 := by
    funext j
    unfold update
    split
    · rename_i h
      rw [h, ex, z0]
    · rfl
  have u' : update rnd x0 c (Fp.fin 0).neg = x0 := by
    have : (Fp.fin 0).neg = .fin 0 := by show Fp.fin (-0) = _; rw [neg_zero]
    rw [this, u]
  have t0 : fmul rnd (.fin 0) (.fin 2) = .fin 0 := by
    show rounded rnd (.fin (0 * 2)) = _
    rw [zero_mul, r0]
  unfold estimateJacobian
  simp only [st]
  rw [u, u', t0]
  cases hy : f x0 i with
  | fin y =>
    have : fsub rnd (.fin y) (.fin y) = .fin 0 := by
      show rounded rnd (.fin (y + -y)) = _
      rw [add_neg_cancel, r0]
    rw [this]
    cases b
    · simp [quotient, fdiv, Fp.div, rounded]
    · simp [quotient, fmul, Fp.mul, fdiv, Fp.div, rounded]
  | inf _ => rw [hy] at hf; simp [Fp.isFinite] at hf
  | nan => rw [hy] at hf; simp [Fp.isFinite] at hf

/-- the full claim: the Jacobian of the identity is the identity -/
def C180_identity_claim : Prop := ∀ x0 : Fin 1 → Fp, Moderate (x0 0) → estimateJacobian rndEven false id defaultEps x0 0 0 = .fin 1

/-- the full claim: every positive step factor makes a step -/
def C180_step_claim : Prop := ∀ (eps : ℚ) (x0 : Fin 1 → Fp), IsDouble eps → 0 < eps → Moderate (x0 0) → estimateJacobian rndEven false id (.fin eps) x0 0 0 ≠ .fin 0

/-- **C180** REFUTED: the derivative of the identity at 1 + 2^-52 is not 1: the step has more digits than the displaced points can hold. -/
theorem C180_identity_negation : ¬ C180_identity_claim := by
  intro h
  have := h ![.fin (1 + 1 / 2 ^ 52)] ⟨_, rfl, ⟨2 ^ 52 + 1, -52, by norm_num, by norm_num, by rw [zpow_neg]; norm_num⟩, by
    calc |(1 : ℚ) + 1 / 2 ^ 52| ≤ 2 ^ (1 : ℤ) := by rw [abs_of_pos (by positivity)]; norm_num
      _ ≤ _ := pow_le' (by norm_num)⟩
  revert this
  decide +kernel

/-- **C180** REFUTED: with a step factor of 2^-60 the points at 1 coincide, and the derivative of the identity comes out as zero. -/
theorem C180_step_negation : ¬ C180_step_claim := by
  intro h
  have := h (1 / 2 ^ 60) ![.fin 1] ⟨1, -60, by norm_num, by norm_num, by rw [zpow_neg, one_div, Int.cast_one, one_mul]; rfl⟩ (by positivity) ⟨1, rfl, ⟨1, 0, by norm_num, by norm_num, by norm_num⟩, by
    rw [abs_one]
    exact one_le_zpow₀ (by norm_num) (by norm_num)⟩
  apply this
  decide +kernel

/-! ## The hypotheses can be met -/

/-- integers up to 2^50 -/
theorem int_moderate (k : ℤ) (hk : |k| ≤ 2 ^ 50) : Moderate (.fin k) ∧ IsDouble (k : ℚ) ∧ |(k : ℚ)| ≤ 2 ^ (800 : ℤ) := by
  have d : IsDouble (k : ℚ) := isDouble_int k (lt_of_le_of_lt hk (by norm_num))
  have b : |(k : ℚ)| ≤ 2 ^ (50 : ℤ) := by
    rw [show (2 : ℚ) ^ (50 : ℤ) = 2 ^ 50 from zpow_natCast 2 50]
    exact_mod_cast hk
  exact ⟨⟨k, rfl, d, b.trans (pow_le' (by norm_num))⟩, d, b.trans (pow_le' (by norm_num))⟩

/-- the points of the identity at (3, -5) -/
example : ∃ p q : Fin 2 → Fp, vals q 1 < vals (![.fin 3, .fin (-5)] : Fin 2 → Fp) 1 ∧ vals (![.fin 3, .fin (-5)] : Fin 2 → Fp) 1 < vals p 1 ∧ p 0 = .fin 3 ∧ q 0 = .fin 3 := by
  obtain ⟨p, q, h1, h2, h3, h4, -⟩ := C180_points (m := 1) isRnd_rndEven false default_good ![.fin 3, .fin (-5)] 1 (by simpa using (int_moderate (-5) (by norm_num)).1)
  exact ⟨p, q, h3, h4, by simpa using h1.1 0 (by decide), by simpa using h2.1 0 (by decide)⟩

/-- the identity at (3, -5) -/
example (i c : Fin 2) : |(fval (estimateJacobian rndEven false id (.fin (1 / 2 ^ 26)) ![.fin 3, .fin (-5)] i c) : ℝ) - (if i = c then 1 else 0)| ≤ 101 / 100 * (1 / ((1 / 2 ^ 26 : ℚ) * 2 ^ 53)) + 2 ^ (-1074 : ℤ) :=
  (C180_identity_partial isRnd_rndEven false default_good _ (by
    intro j
    fin_cases j
    · exact ⟨3, rfl, by simpa using (int_moderate 3 (by norm_num)).2⟩
    · exact ⟨-5, rfl, by simpa using (int_moderate (-5) (by norm_num)).2⟩) i c).2

/-- the function 3 x + 1 at 1 -/
example : estimateJacobian (m := 1) rndEven true (fun p : Fin 1 → Fp => ![fadd rndEven (fmul rndEven (.fin 3) (p 0)) (.fin 1)]) defaultEps ![.fin 1] 0 0 = .fin 3 := by
  refine C180_affine isRnd_rndEven true _ _ 0 0 (k := 2 ^ 52) (by norm_num) (by norm_num) 3 1 (isDouble_int 3 (by norm_num)) (fun _ => ?_) ?_ ?_
  · calc (2 : ℚ) ^ (-900 : ℤ) ≤ 2 ^ (0 : ℤ) := pow_le' (by norm_num)
      _ ≤ |3| := by norm_num
  · calc |(3 : ℚ)| ≤ 2 ^ (2 : ℤ) := by norm_num
      _ ≤ _ := pow_le' (by norm_num)
  · intro p z _ hz h
    have e : z = 1 + 1 / 2 ^ 26 ∨ z = 1 - 1 / 2 ^ 26 := by
      rcases (abs_eq (by positivity)).1 h with h | h
      · left; norm_num at h ⊢; linarith
      · right; norm_num at h ⊢; linarith
    show fadd rndEven (fmul rndEven (.fin 3) (p 0)) (.fin 1) = _
    rw [hz]
    rcases e with rfl | rfl
    · decide +kernel
    · decide +kernel

/-- a step factor of zero, at (3, -5) -/
example (i c : Fin 2) : estimateJacobian rndEven true id (.fin 0) ![.fin 3, .fin (-5)] i c = .nan := by
  refine C180_zero isRnd_rndEven true id _ i c ?_ ?_
  · fin_cases c
    · exact (int_moderate 3 (by norm_num)).1
    · exact (int_moderate (-5) (by norm_num)).1
  · fin_cases i <;> rfl

/-- the square at 1: the derivative is 2 up to 2^-24 -/
example : |(fval (estimateJacobian (m := 1) rndEven false (fun p : Fin 1 → Fp => ![fmul rndEven (p 0) (p 0)]) (.fin (1 / 2 ^ 26)) ![.fin 1] 0 0) : ℝ) - 2| ≤ 1 / 2 ^ 24 := by
  have sc : scale ((![.fin 1] : Fin 1 → Fp) 0) = 1 := by
    show max |((1 : ℚ) : ℝ)| 1 = 1
    norm_num
  have v1 : vals (![.fin 1] : Fin 1 → Fp) 0 = 1 := by show ((1 : ℚ) : ℝ) = 1; norm_num
  have line : (fun t : ℝ => (fun v : Fin 1 → ℝ => (![v 0 ^ 2] : Fin 1 → ℝ)) (vals (![.fin 1] : Fin 1 → Fp) + t • Pi.single 0 1) 0) = fun t => (1 + t) ^ 2 := by
    funext t
    have : vals (![.fin 1] : Fin 1 → Fp) 0 = 1 := v1
    simp [this]
  have e1 : deriv (fun t : ℝ => (1 + t) ^ 2) = fun t => 2 * (1 + t) := by
    funext t
    have := (((hasDerivAt_id t).const_add 1).pow 2).deriv
    simp at this
    exact this
  have e2 : iteratedDeriv 2 (fun t : ℝ => (1 + t) ^ 2) = fun _ => 2 := by
    rw [iteratedDeriv_succ, iteratedDeriv_one, e1]
    funext t
    have := (((hasDerivAt_id t).const_add 1).const_mul 2).deriv
    simp at this ⊢
  have e3 : iteratedDeriv 3 (fun t : ℝ => (1 + t) ^ 2) = fun _ => 0 := by
    rw [iteratedDeriv_succ, e2]
    funext t
    simp
  have key := C180_error (m := 1) isRnd_rndEven false (fun p : Fin 1 → Fp => ![fmul rndEven (p 0) (p 0)]) (fun v => ![v 0 ^ 2]) default_good ![.fin 1] 0 0 (by simpa using (int_moderate 1 (by norm_num)).1) (1 / 2 ^ 51) 0
    (by rw [line]; fun_prop) (by rw [line, e3]; intro t _; simp)
    (by
      intro p hp
      obtain ⟨-, p1, p2, p3⟩ := hp
      have : ∃ z, p 0 = .fin z := by
        cases hz : p 0 with
        | fin z => exact ⟨z, rfl⟩
        | inf _ => rw [hz] at p1; simp [Fp.isFinite] at p1
        | nan => rw [hz] at p1; simp [Fp.isFinite] at p1
      obtain ⟨z, hz⟩ := this
      have v : vals p 0 = (z : ℝ) := by unfold vals; rw [hz]; rfl
      rw [sc, v, v1] at p3
      have p4 : |z - 1| ≤ 1 / 2 ^ 25 := by
        have : |(z : ℝ) - 1| ≤ 1 / 2 ^ 25 := p3.trans (by push_cast; norm_num)
        have h2 : ((|z - 1| : ℚ) : ℝ) ≤ ((1 / 2 ^ 25 : ℚ) : ℝ) := by push_cast; exact this
        exact_mod_cast h2
      obtain ⟨l, u⟩ := abs_le.1 p4
      have zz : |z * z| ≤ 3 / 2 := by
        rw [abs_of_nonneg (mul_self_nonneg z)]
        norm_num at l u
        nlinarith
      have lim : ∀ y : ℚ, |y| ≤ 4 → |y| ≤ 2 ^ (900 : ℤ) := by
        intro y hy
        refine hy.trans ?_
        calc (4 : ℚ) = 2 ^ (2 : ℤ) := by norm_num
          _ ≤ _ := pow_le' (by norm_num)
      have m : fmul rndEven (p 0) (p 0) = .fin (rndEven (z * z)) := by
        rw [hz]
        show rounded rndEven (.fin (z * z)) = _
        exact rounded_ok isRnd_rndEven ((lim _ (zz.trans (by norm_num))).trans (pow_le' (by norm_num)))
      have er := isRnd_rndEven.err_any (z * z)
      have ty : tiny ≤ 1 / 2 ^ 54 := by
        unfold tiny
        calc (2 : ℚ) ^ (-1074 : ℤ) / 2 ≤ 2 ^ (-1074 : ℤ) := half_le_self (by positivity)
          _ ≤ 2 ^ (-54 : ℤ) := pow_le' (by norm_num)
          _ = _ := by rw [zpow_neg, one_div]; exact congrArg _ (zpow_natCast 2 54)
      have er2 : |rndEven (z * z) - z * z| ≤ 1 / 2 ^ 51 := by
        refine er.trans ?_
        norm_num at ty zz ⊢
        linarith
      refine ⟨⟨rndEven (z * z), m, isRnd_rndEven.mem _, lim _ ?_⟩, ?_⟩
      · have := abs_add_le (rndEven (z * z) - z * z) (z * z)
        rw [sub_add_cancel] at this
        have c : (1 : ℚ) / 2 ^ 51 ≤ 1 := by norm_num
        linarith
      · show |((fval (fmul rndEven (p 0) (p 0)) : ℚ) : ℝ) - vals p 0 ^ 2| ≤ _
        rw [m, v]
        have := up er2
        push_cast at this
        rw [pow_two]
        exact this)
  have k2 := key.2
  rw [line, e1, e2, sc] at k2
  have t : (2 : ℝ) ^ (-1074 : ℤ) ≤ 1 / 2 ^ 40 := by
    calc (2 : ℝ) ^ (-1074 : ℤ) ≤ 2 ^ (-40 : ℤ) := zpow_le_zpow_right₀ (by norm_num) (by norm_num)
      _ = _ := by rw [zpow_neg, one_div]; exact congrArg _ (zpow_natCast 2 40)
  simp only [add_zero, mul_one] at k2
  refine k2.trans ?_
  push_cast
  norm_num at t ⊢
  linarith

end Verif.DiffDouble
