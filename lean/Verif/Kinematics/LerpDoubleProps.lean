import Verif.Kinematics.LerpDouble
import Verif.Kinematics.RateDoubleProps
import Verif.Kinematics.RvRateProps
import Verif.Kinematics.CovDoubleProps

/-!
# C189: linear interpolation in doubles
-/

namespace Verif.LerpDouble

open Verif.Common Verif.KinematicsDouble Verif.RateDouble

/-- **C189** Vectors of different sizes are refused, and no others. -/
theorem C189_size (rnd : ℚ → ℚ) {m n : ℕ} (p0 : Fin m → Fp) (p1 : Fin n → Fp) (t : Fp) : lerp rnd p0 p1 t = none ↔ m ≠ n := by
  unfold lerp
  split <;> simp_all

/-- **C189** At and beyond the ends the vector is exactly the one that was given, whatever the other one holds; this includes infinite parameters and vectors with infinities. -/
theorem C189_ends (rnd : ℚ → ℚ) {n : ℕ} (p0 p1 : Fin n → Fp) (q : ℚ) :
    (q ≤ 0 → lerp rnd p0 p1 (.fin q) = some ⟨n, p0⟩) ∧ (1 ≤ q → lerp rnd p0 p1 (.fin q) = some ⟨n, p1⟩) ∧
    lerp rnd p0 p1 (.inf true) = some ⟨n, p0⟩ ∧ lerp rnd p0 p1 (.inf false) = some ⟨n, p1⟩ := by
  have l : ∀ a b : ℚ, Fp.le (.fin a) (.fin b) = decide (a ≤ b) := by
    intro a b
    unfold Fp.le Fp.lt Fp.eq
    rw [Bool.eq_iff_iff]
    simp [le_iff_lt_or_eq]
  unfold lerp
  refine ⟨fun h => ?_, fun h => ?_, ?_, ?_⟩
  · rw [dif_pos rfl, l, if_pos (decide_eq_true h)]
  · rw [dif_pos rfl, l, l, if_neg (by simp; linarith), if_pos (decide_eq_true h)]
  · rw [dif_pos rfl]
    rfl
  · rw [dif_pos rfl]
    rfl

/-- **C189** A parameter that is not a number is not taken for an end: every entry of the result is not a number. -/
theorem C189_nan (rnd : ℚ → ℚ) {n : ℕ} (p0 p1 : Fin n → Fp) : lerp rnd p0 p1 .nan = some ⟨n, fun _ => .nan⟩ := by
  unfold lerp
  rw [dif_pos rfl]
  have e : ∀ x y : Fp, fadd rnd (fmul rnd (fsub rnd (.fin 1) .nan) x) (fmul rnd .nan y) = .nan := fun x y => rfl
  simp only [e]
  rfl

/-- **C189** Between the ends, for vectors whose entries are at most `B`, every entry is finite and within `B/2^50` of the point on the line. -/
theorem C189_between {R : ℝ → ℚ} (hR : IsRndR R) {n : ℕ} (p0 p1 : Fin n → Fp) (t : ℚ) (ht : IsDouble t) (t0 : 0 < t) (t1 : t < 1) {B : ℝ} (b1 : 1 / 2 ^ 100 ≤ B) (b2 : B ≤ 2 ^ 100)
    (h0 : ∀ i, (p0 i).isFinite ∧ IsDoubleVal (p0 i) ∧ |(fval (p0 i) : ℝ)| ≤ B) (h1 : ∀ i, (p1 i).isFinite ∧ IsDoubleVal (p1 i) ∧ |(fval (p1 i) : ℝ)| ≤ B) :
    ∃ x : Fin n → Fp, lerp (fun q => R q) p0 p1 (.fin t) = some ⟨n, x⟩ ∧ ∀ i, Near (B / 2 ^ 50) (x i) ((1 - t) * fval (p0 i) + t * fval (p1 i)) := by
  have t0' : (0 : ℝ) < t := by exact_mod_cast t0
  have t1' : (t : ℝ) < 1 := by exact_mod_cast t1
  refine ⟨fun i => fadd (fun q => R q) (fmul (fun q => R q) (fsub (fun q => R q) (.fin 1) (.fin t)) (p0 i)) (fmul (fun q => R q) (.fin t) (p1 i)), ?_, fun i => ?_⟩
  · have l0 : Fp.le (.fin t) (.fin 0) = false := by
      show (decide (t < 0) || decide (t = 0)) = false
      simp [t0.ne', t0.le]
    have l1 : Fp.le (.fin 1) (.fin t) = false := by
      show (decide (1 < t) || decide (1 = t)) = false
      simp [t1.ne', t1.le]
    unfold lerp
    rw [dif_pos rfl, l0, l1]
    rfl
  · have val : ∀ {f : Fp}, f.isFinite ∧ IsDoubleVal f ∧ |(fval f : ℝ)| ≤ B → Acc 0 f (fval f) B := by
      intro f h
      have F : Finite (fun _ : Fin 1 => f) := fun _ => ⟨h.1, h.2.1⟩
      exact F.acc (a := fun _ => B) (fun _ => h.2.2) 0
    have tA : Acc 0 (.fin t) t 1 := Acc.fin ht (by rw [abs_of_pos t0']; exact t1'.le)
    have s : Acc 1 (fsub (fun q => R q) (.fin 1) (.fin t)) (1 - t : ℝ) 1 := by
      have := Acc.round hR.rat (m := 0) (z := 1 + -t) (x := 1 - t) (S := 1) (by norm_num) (RvRate.sc (by norm_num) (by norm_num)) (by rw [abs_of_pos (by linarith)]; linarith) (by push_cast; norm_num)
      exact this
    have s1 : 1 / 2 ^ 120 ≤ 1 * B := by norm_num at b1 ⊢; linarith
    have s2 : 1 * B ≤ 2 ^ 120 := by norm_num at b2 ⊢; linarith
    have a := Acc.mul hR.rat (by norm_num) s (val (h0 i)) (RvRate.sc s1 s2)
    have b := Acc.mul hR.rat (by norm_num) tA (val (h1 i)) (RvRate.sc s1 s2)
    have c := Acc.add hR.rat (k := 2) (by norm_num) (by norm_num) (by norm_num) a b (RvRate.sc (by linarith) (by norm_num at b2 ⊢; linarith))
    refine near_of c (by norm_num) (RvRate.sc (by linarith) (by norm_num at b2 ⊢; linarith)) ?_
    have e : (1 + eps) ^ (2 + 1) - 1 ≤ 4 / 2 ^ 53 := by unfold eps; norm_num
    have B0 : 0 ≤ B := le_trans (by norm_num) b1
    refine (mul_le_mul_of_nonneg_right e (by linarith)).trans (le_of_eq ?_)
    ring

/-- the full claim: a point between the ends is between the end points -/
def C189_range_claim (rnd : ℚ → ℚ) : Prop := ∀ (a b t : ℚ) (x : Fin 1 → Fp), IsDouble a → IsDouble b → IsDouble t → 0 < t → t < 1 → a ≤ b → lerp rnd (fun _ : Fin 1 => .fin a) (fun _ : Fin 1 => .fin b) (.fin t) = some ⟨1, x⟩ →
  ∃ r, x 0 = .fin r ∧ a ≤ r ∧ r ≤ b

/-- **C189** It does not hold: a fifth of the way from 3 to 3 is more than 3. -/
theorem C189_range_negation : ¬ C189_range_claim rndEven := by
  intro h
  have d3 : IsDouble 3 := by have := isDouble_int 3 (by norm_num); simpa using this
  obtain ⟨r, hr, -, h2⟩ := h 3 3 (3602879701896397 / 18014398509481984) (fun _ => .fin (6755399441055745 / 2251799813685248)) d3 d3
    ⟨3602879701896397, -54, by norm_num, by norm_num, by norm_num⟩ (by norm_num) (by norm_num) le_rfl (by
    have e : fadd rndEven (fmul rndEven (fsub rndEven (.fin 1) (.fin (3602879701896397 / 18014398509481984))) (.fin 3)) (fmul rndEven (.fin (3602879701896397 / 18014398509481984)) (.fin 3)) =
      .fin (6755399441055745 / 2251799813685248) := by decide +kernel
    have l0 : Fp.le (.fin (3602879701896397 / 18014398509481984)) (.fin 0) = false := by decide +kernel
    have l1 : Fp.le (.fin 1) (.fin (3602879701896397 / 18014398509481984)) = false := by decide +kernel
    unfold lerp
    rw [dif_pos rfl, l0, l1]
    simp only [e]
    rfl)
  injection hr with hr
  rw [← hr] at h2
  norm_num at h2

/-- the hypotheses are met: halfway from 1 to 4 -/
example : ∃ x : Fin 1 → Fp, lerp (fun q => rndEvenReal q) (fun _ : Fin 1 => .fin 1) (fun _ : Fin 1 => .fin 4) (.fin (1 / 2)) = some ⟨1, x⟩ ∧ ∀ i, Near (4 / 2 ^ 50) (x i) ((1 - ((1 / 2 : ℚ) : ℝ)) * ((1 : ℚ) : ℝ) + ((1 / 2 : ℚ) : ℝ) * ((4 : ℚ) : ℝ)) := by
  have ok : ∀ (k : ℤ) (q : ℚ), q = k → |k| ≤ 4 → (Fp.fin q).isFinite ∧ IsDoubleVal (.fin q) ∧ |(fval (.fin q) : ℝ)| ≤ 4 := by
    rintro k q rfl hk
    refine ⟨rfl, ⟨isDouble_int k (lt_of_le_of_lt hk (by norm_num)), ?_⟩, ?_⟩
    · have : |(k : ℚ)| ≤ 4 := by exact_mod_cast hk
      exact lt_of_le_of_lt this (lt_of_lt_of_le (by norm_num : (4 : ℚ) < 2 ^ 3) (pow_le_pow_right₀ (by norm_num) (by norm_num)))
    · have : |(k : ℝ)| ≤ 4 := by exact_mod_cast hk
      show |((k : ℚ) : ℝ)| ≤ 4
      exact_mod_cast this
  exact C189_between isRndR_rndEvenReal _ _ (1 / 2) ⟨1, -1, by norm_num, by norm_num, by norm_num⟩ (by norm_num) (by norm_num) (B := 4) (by norm_num) (by norm_num)
    (fun _ => ok 1 1 (by norm_num) (by norm_num)) (fun _ => ok 4 4 (by norm_num) (by norm_num))

end Verif.LerpDouble
