import Verif.Kinematics.LogJac
import Verif.Kinematics.ExpDiffProps
import Verif.Kinematics.LogDoubleProps

/-!
# C190: the Jacobian of the logarithm in doubles
-/

namespace Verif.LogJac

open Verif.Common Verif.KinematicsDouble Verif.ErDouble Verif.RateDouble Verif.RotVecDouble Verif.RvRate Verif.ExpDiff
open Verif.Kinematics (V3 V4 M3 M34 IsJacobian)

local notation "nrm" => Kinematics.norm

section
variable {R : ℝ → ℚ} (hR : IsRndR R) (L : LogLib fun q => R q)

include hR

/-- **C190** For the two quaternions of the identity no entry of the matrix is finite. -/
theorem C190_identity (p : F4) (h0 : p 0 = .fin 0) (h1 : p 1 = .fin 0) (h2 : p 2 = .fin 0) (h3 : p 3 = .fin 1 ∨ p 3 = .fin (-1)) :
    (∀ i j, (leftBlock L p i j).isFinite = false) ∧ ∀ i, (lastColumn L p i).isFinite = false := by
  have z := RvInv.round_zero hR
  have mz : ∀ q : ℚ, fmul (fun q => R q) (.fin q) (.fin 0) = .fin 0 := by
    intro q
    show rounded (fun q => R q) (.fin (q * 0)) = _
    rw [mul_zero]
    exact z
  have sq0 : Verif.NumericDouble.fsqrt R (.fin 0) = .fin 0 := by
    unfold Verif.NumericDouble.fsqrt
    simp only
    rw [if_neg (lt_irrefl _), Rat.cast_zero, Real.sqrt_zero]
    have : R ((0 : ℚ) : ℝ) = 0 := hR.rat.fix (x := 0) (by simpa using isDouble_int 0 (by norm_num))
    rw [Rat.cast_zero] at this
    rw [this]
  have n : norm3 L.toLib ![p 0, p 1, p 2] = .fin 0 := by
    unfold norm3
    rw [RvInv.sum_zero hR (L.sum3_sum _ _ _) (by simp [h0, h1, h2, mz])]
    exact sq0
  have de : fmul (fun q => R q) (fmul (fun q => R q) (norm3 L.toLib ![p 0, p 1, p 2]) (norm3 L.toLib ![p 0, p 1, p 2])) (norm3 L.toLib ![p 0, p 1, p 2]) = .fin 0 := by rw [n, mz, mz]
  have lost : ∀ {f g : Fp}, g = .fin 0 → (fdiv (fun q => R q) f g).isFinite = false := by
    rintro f g rfl
    exact RvInv.lost_div_zero f
  constructor
  · intro i j
    fin_cases i <;> fin_cases j <;> exact lost de
  · intro i
    have one : fmul (fun q => R q) (p 3) (p 3) = .fin 1 := by
      have : R ((1 : ℚ) : ℝ) = 1 := hR.rat.fix (x := 1) (by simpa using isDouble_int 1 (by norm_num))
      have r : rounded (fun q => R q) (.fin 1) = .fin 1 := by
        unfold rounded
        simp only
        rw [this, if_pos (by rw [abs_one]; exact one_lt_pow₀ (by norm_num) (by norm_num))]
      rcases h3 with h | h <;> rw [h]
      · show rounded (fun q => R q) (.fin (1 * 1)) = _
        rw [one_mul]
        exact r
      · show rounded (fun q => R q) (.fin (-1 * -1)) = _
        rw [show (-1 : ℚ) * -1 = 1 by norm_num]
        exact r
    have d : fsub (fun q => R q) (.fin 1) (.fin 1) = .fin 0 := by
      show rounded (fun q => R q) (.fin (1 + -1)) = _
      rw [show (1 : ℚ) + -1 = 0 by norm_num]
      exact z
    have ng : (Fp.fin 0).neg = .fin 0 := by
      show Fp.fin (-0) = _
      rw [neg_zero]
    have uw : Verif.NumericDouble.fsqrt R (fmul (fun q => R q) (fmul (fun q => R q) (fsub (fun q => R q) (fmul (fun q => R q) (p 3) (p 3)) (.fin 1)).neg (norm3 L.toLib ![p 0, p 1, p 2])) (norm3 L.toLib ![p 0, p 1, p 2])) = .fin 0 := by
      rw [one, d, n, ng, mz, mz, sq0]
    exact lost uw

/-- the left block in terms of the exact formula -/
theorem left_entries (p : F4) (hp : Finite p) (h3 : |(fval (p 3) : ℝ)| ≤ 1) {n : ℝ} (hn : n = nrm ![vals p 0, vals p 1, vals p 2]) (n1 : 1 / 2 ^ 30 ≤ n) (n2 : n ≤ 8) (i : Fin 3) (j : Fin 3) :
    Near (1 / 2 ^ 43 / n) (leftBlock L p i j) (Kinematics.quatLogJacobian (vals p) i j.castSucc) := by
  have N0 : 0 < n := lt_of_lt_of_le (by norm_num) n1
  have hv : vals ![p 0, p 1, p 2] = ![vals p 0, vals p 1, vals p 2] := by ext k; fin_cases k <;> rfl
  have F : Finite ![p 0, p 1, p 2] := by
    intro k
    fin_cases k
    · exact hp 0
    · exact hp 1
    · exact hp 2
  obtain ⟨t, ht, td, -, te⟩ := norm3_rel hR L.toLib F (by rw [hv, ← hn]; exact n2) (by rw [hv, ← hn]; exact le_trans (by norm_num) n1)
  rw [hv, ← hn] at te
  have tA : Acc 7 (norm3 L.toLib ![p 0, p 1, p 2]) n n := ⟨t, ht, td, (abs_of_pos N0).le, te.trans (mul_le_mul_of_nonneg_right (by unfold eps u51; norm_num) N0.le)⟩
  have hq : Kinematics.norm (Kinematics.qeps (vals p)) = n := by
    rw [hn]
    rfl
  have v : ∀ k : Fin 3, Acc 0 (p k.castSucc) (vals p k.castSucc) n := by
    have a := F.acc (a := fun _ => n) fun k => by rw [hv, hn]; exact abs_le_nrm _ k
    intro k
    have := a k
    rw [hv] at this
    fin_cases k <;> exact this
  have v0 := v 0
  have v1 := v 1
  have v2 := v 2
  simp only [Fin.castSucc_zero, show (1 : Fin 3).castSucc = (1 : Fin 4) from rfl, show (2 : Fin 3).castSucc = (2 : Fin 4) from rfl] at v0 v1 v2
  have aA : Acc 3 (libmUnit L.acos (p 3)) (Real.arccos (vals p 3)) 4 := by
    obtain ⟨q, hq⟩ : ∃ q, p 3 = .fin q := by
      have := (hp 3).1
      generalize p 3 = f at this ⊢
      cases f with
      | fin q => exact ⟨q, rfl⟩
      | inf b => simp [Fp.isFinite] at this
      | nan => simp [Fp.isFinite] at this
    have e : vals p 3 = (q : ℝ) := by
      show (fval (p 3) : ℝ) = q
      rw [hq]
      rfl
    have q1 : |q| ≤ 1 := by
      have : (fval (p 3) : ℝ) = q := e
      rw [this] at h3
      exact_mod_cast h3
    rw [hq, e]
    show Acc 3 (if |q| ≤ 1 then .fin (L.acos q) else .nan) _ _
    rw [if_pos q1]
    refine ⟨L.acos q, rfl, L.acos_double q, ?_, (L.acos_err q q1).trans (by unfold eps; norm_num)⟩
    rw [abs_of_nonneg (Real.arccos_nonneg _)]
    exact (Real.arccos_le_pi _).trans (by linarith [Real.pi_lt_d2])
  have NN1 : 1 / 2 ^ 60 ≤ n * n := by
    have := mul_le_mul n1 n1 (by norm_num) N0.le
    norm_num at this ⊢
    linarith
  have NN2 : n * n ≤ 64 := by nlinarith
  have NNN1 : 1 / 2 ^ 90 ≤ n * n * n := by
    have := mul_le_mul NN1 n1 (by norm_num) (by positivity)
    norm_num at this ⊢
    linarith
  have NNN2 : n * n * n ≤ 512 := by nlinarith
  have NN := Acc.mul hR.rat (by norm_num) tA tA (sc (le_trans (by norm_num) NN1) (NN2.trans (by norm_num)))
  have D := Acc.mul hR.rat (by norm_num) NN tA (sc (le_trans (by norm_num) NNN1) (NNN2.trans (by norm_num)))
  have two : Acc 0 (.fin 2) 2 2 := by simpa using acc_num (q := 2) 2 (by norm_num) (by norm_num) (S := 2) (by norm_num)
  have m2 : Acc 0 (.fin (-2)) (-2) 2 := by simpa using acc_num (q := -2) (-2) (by norm_num) (by norm_num) (S := 2) (by norm_num)
  have A1 := Acc.mul hR.rat (by norm_num) two aA (sc (by norm_num) (by norm_num))
  have A2 := Acc.mul hR.rat (by norm_num) m2 aA (sc (by norm_num) (by norm_num))
  have scn : ∀ c : ℝ, 1 ≤ c → c ≤ 100 → Scale (c * n / (n * n * n) * n) := by
    intro c c1 c2
    have e : c * n / (n * n * n) * n = c / n := by field_simp
    rw [e]
    refine sc ?_ ?_
    · rw [le_div_iff₀ N0]; norm_num; linarith
    · rw [div_le_iff₀ N0]; norm_num at n1 ⊢; linarith
  have fin : ∀ {f : Fp} {x : ℝ}, Acc 9 f x (16 * (n * n)) → Near (1 / 2 ^ 43 / n) (fdiv (fun q => R q) f (fmul (fun q => R q) (fmul (fun q => R q) (norm3 L.toLib ![p 0, p 1, p 2]) (norm3 L.toLib ![p 0, p 1, p 2])) (norm3 L.toLib ![p 0, p 1, p 2]))) (x / (n * n * n)) := by
    intro f x h
    have e : 16 * (n * n) / (n * n * n) = 16 / n := by field_simp
    have s : Scale (16 / n) := sc (by rw [le_div_iff₀ N0]; norm_num; linarith) (by rw [div_le_iff₀ N0]; norm_num at n1 ⊢; linarith)
    have q := acc_div hR (m := 34) h D (by positivity) (by unfold eps; norm_num) (by norm_num) (by rw [e]; exact s)
    rw [e] at q
    refine near_of q (by norm_num) s ?_
    have e1 : (1 + eps) ^ 35 - 1 ≤ 36 / 2 ^ 53 := by unfold eps; norm_num
    refine (mul_le_mul_of_nonneg_right e1 (by positivity)).trans ?_
    rw [← mul_div_assoc]
    exact div_le_div_of_nonneg_right (by norm_num) N0.le
  have diag : ∀ {f g : Fp} {x y : ℝ}, Acc 0 f x n → Acc 0 g y n → Acc 9 (fmul (fun q => R q) (fmul (fun q => R q) (.fin 2) (libmUnit L.acos (p 3))) (fadd (fun q => R q) (fmul (fun q => R q) f f) (fmul (fun q => R q) g g))) (2 * Real.arccos (vals p 3) * (x * x + y * y)) (16 * (n * n)) := by
    intro f g x y hf hg
    have a := Acc.mul hR.rat (by norm_num) hf hf (sc (le_trans (by norm_num) NN1) (NN2.trans (by norm_num)))
    have b := Acc.mul hR.rat (by norm_num) hg hg (sc (le_trans (by norm_num) NN1) (NN2.trans (by norm_num)))
    have s := Acc.add hR.rat (k := 1) (by norm_num) (by norm_num) (by norm_num) a b (sc (by norm_num at NN1 ⊢; linarith) (by norm_num; linarith))
    have m := Acc.mul hR.rat (by norm_num) A1 s (sc (by norm_num at NN1 ⊢; linarith) (by norm_num; linarith))
    exact m.mono (by norm_num) (by linarith)
  have off : ∀ {f g : Fp} {x y : ℝ}, Acc 0 f x n → Acc 0 g y n → Acc 9 (fmul (fun q => R q) (fmul (fun q => R q) (fmul (fun q => R q) (.fin (-2)) (libmUnit L.acos (p 3))) f) g) (-2 * Real.arccos (vals p 3) * x * y) (16 * (n * n)) := by
    intro f g x y hf hg
    have a := Acc.mul hR.rat (by norm_num) A2 hf (sc (by norm_num at n1 ⊢; linarith) (by norm_num; linarith))
    have b := Acc.mul hR.rat (by norm_num) a hg (sc (by rw [mul_assoc]; norm_num at NN1 ⊢; linarith) (by rw [mul_assoc]; norm_num; linarith))
    exact b.mono (by norm_num) (by nlinarith)
  subst hn
  fin_cases i <;> fin_cases j
  · exact fin (diag v1 v2)
  · exact fin (off v1 v0)
  · exact fin (off v2 v0)
  · exact fin (off v0 v1)
  · exact fin (diag v0 v2)
  · exact fin (off v1 v2)
  · exact fin (off v0 v2)
  · exact fin (off v1 v2)
  · exact fin (diag v0 v1)

/-- **C190** The part that is proved: for every finite quaternion whose vector part has a length `n` of at least 2^-30 and whose scalar part is between -1 and 1, the first three columns are finite and, up to 2^-43/n in each entry, those of the derivative of the
logarithm: the rotation vector along the vector part whose length is twice the arc cosine of the scalar part.  Missing: the last column, where `1 - w²` cancels. -/
theorem C190_left_partial (p : F4) (hp : Finite p) (h3 : |(fval (p 3) : ℝ)| < 1) (n1 : 1 / 2 ^ 30 ≤ nrm ![vals p 0, vals p 1, vals p 2]) (n2 : nrm ![vals p 0, vals p 1, vals p 2] ≤ 8) :
    ∃ J : M34, IsJacobian (fun x : V4 => fun i : Fin 3 => x i.castSucc * (2 * (Real.arccos (x 3) / nrm ![x 0, x 1, x 2]))) J (vals p) ∧
      ∀ i j : Fin 3, Near (1 / 2 ^ 43 / nrm ![vals p 0, vals p 1, vals p 2]) (leftBlock L p i j) (J i j.castSucc) := by
  refine ⟨_, ?_, left_entries hR L p hp h3.le rfl n1 n2⟩
  have h : nrm (Kinematics.qeps (vals p)) ≠ 0 := (lt_of_lt_of_le (by norm_num) (show 1 / 2 ^ 30 ≤ nrm (Kinematics.qeps (vals p)) from n1)).ne'
  have J := Kinematics.deriv_logFormula (vals p) h (abs_lt.1 h3).1 (abs_lt.1 h3).2
  have e : Kinematics.logFormula = fun x : V4 => fun i : Fin 3 => x i.castSucc * (2 * (Real.arccos (x 3) / nrm ![x 0, x 1, x 2])) := by
    ext x i
    fin_cases i <;> rfl
  rw [← e]
  exact J

end

/-- the full claim: the matrix is finite for every unit quaternion -/
def C190_claim {R : ℝ → ℚ} (L : LogLib fun q => R q) : Prop := ∀ p : F4, Finite p → nrm (vals p) = 1 → ∀ i j, (leftBlock L p i j).isFinite

/-- **C190** It does not hold, whatever the rounding: for the identity the matrix is not finite. -/
theorem C190_negation {R : ℝ → ℚ} (hR : IsRndR R) (L : LogLib fun q => R q) : ¬ C190_claim L := by
  intro h
  have v1 : IsDoubleVal (.fin 1) := ⟨by simpa using isDouble_int 1 (by norm_num), by rw [abs_one]; exact one_lt_pow₀ (by norm_num) (by norm_num)⟩
  have zero_val : IsDoubleVal (.fin 0) := ⟨by simpa using isDouble_int 0 (by norm_num), by rw [abs_zero]; exact pow_pos (by norm_num) _⟩
  have := h ![.fin 0, .fin 0, .fin 0, .fin 1] (fun i => by fin_cases i <;> first | exact ⟨rfl, zero_val⟩ | exact ⟨rfl, v1⟩) (by
    unfold Kinematics.norm Kinematics.sqNorm
    simp [Fin.sum_univ_succ, vals, fval]) 0 0
  rw [(C190_identity hR L ![.fin 0, .fin 0, .fin 0, .fin 1] rfl rfl rfl (.inl rfl)).1 0 0] at this
  exact Bool.noConfusion this

/-- the hypotheses of the other theorem are met: half a unit along an axis, with the scalar part one half -/
example : Finite (![.fin (1 / 2), .fin 0, .fin 0, .fin (1 / 2)] : F4) ∧ |(fval ((![.fin (1 / 2), .fin 0, .fin 0, .fin (1 / 2)] : F4) 3) : ℝ)| < 1 ∧
    nrm ![vals (![.fin (1 / 2), .fin 0, .fin 0, .fin (1 / 2)] : F4) 0, vals (![.fin (1 / 2), .fin 0, .fin 0, .fin (1 / 2)] : F4) 1, vals (![.fin (1 / 2), .fin 0, .fin 0, .fin (1 / 2)] : F4) 2] = 1 / 2 := by
  have zero_val : IsDoubleVal (.fin 0) := ⟨by simpa using isDouble_int 0 (by norm_num), by rw [abs_zero]; exact pow_pos (by norm_num) _⟩
  have half_val : IsDoubleVal (.fin (1 / 2)) := ⟨⟨1, -1, by norm_num, by norm_num, by norm_num⟩, by
    rw [abs_of_pos (by norm_num)]
    exact lt_of_lt_of_le (by norm_num : (1 / 2 : ℚ) < 1) (one_le_pow₀ (by norm_num))⟩
  refine ⟨fun i => by fin_cases i <;> first | exact ⟨rfl, zero_val⟩ | exact ⟨rfl, half_val⟩, ?_, ?_⟩
  · show |((1 / 2 : ℚ) : ℝ)| < 1
    norm_num
  · show nrm ![((1 / 2 : ℚ) : ℝ), ((0 : ℚ) : ℝ), ((0 : ℚ) : ℝ)] = 1 / 2
    unfold Kinematics.norm Kinematics.sqNorm
    simp [Fin.sum_univ_succ]

end Verif.LogJac
