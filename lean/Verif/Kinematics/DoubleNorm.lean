import Verif.Kinematics.QuatDouble
import Verif.Kinematics.QuatProps
import Verif.Kinematics.RotProps
import Verif.Common.Acc
import Mathlib.Analysis.InnerProductSpace.PiL2

/-!
# Norms of vectors, and vectors of doubles
-/

namespace Verif.KinematicsDouble

open Verif.Common
open Verif.Kinematics (V3 V4 M3 sqNorm)

local notation "nrm" => Kinematics.norm

section norms

variable {n : ℕ}

theorem nrm_eq (v : Fin n → ℝ) : nrm v = ‖WithLp.toLp 2 v‖ := by
  rw [EuclideanSpace.norm_eq, Kinematics.norm, Kinematics.sqNorm]
  congr 1
  refine Finset.sum_congr rfl fun i _ => ?_
  simp [sq]

theorem nrm_nonneg (v : Fin n → ℝ) : 0 ≤ nrm v := Real.sqrt_nonneg _

theorem nrm_add (v w : Fin n → ℝ) : nrm (v + w) ≤ nrm v + nrm w := by
  simp only [nrm_eq, WithLp.toLp_add]
  exact norm_add_le _ _

theorem nrm_sub_rev (v w : Fin n → ℝ) : nrm (v - w) = nrm (w - v) := by
  simp only [nrm_eq, WithLp.toLp_sub]
  exact norm_sub_rev _ _

theorem nrm_smul (s : ℝ) (v : Fin n → ℝ) : nrm (s • v) = |s| * nrm v := by
  simp only [nrm_eq, WithLp.toLp_smul]
  rw [norm_smul, Real.norm_eq_abs]

theorem nrm_neg (v : Fin n → ℝ) : nrm (-v) = nrm v := by
  simp only [nrm_eq, WithLp.toLp_neg]
  exact norm_neg _

theorem nrm_sub_le (u v w : Fin n → ℝ) : nrm (u - w) ≤ nrm (u - v) + nrm (v - w) := by
  have := nrm_add (u - v) (v - w)
  rwa [sub_add_sub_cancel] at this

theorem nrm_le_add_sub (v w : Fin n → ℝ) : nrm v ≤ nrm w + nrm (v - w) := by
  have := nrm_add w (v - w)
  rwa [add_sub_cancel] at this

theorem nrm_diff (v w : Fin n → ℝ) : |nrm v - nrm w| ≤ nrm (v - w) := by
  rw [abs_le]
  have h1 := nrm_le_add_sub v w
  have h2 := nrm_le_add_sub w v
  rw [nrm_sub_rev w v] at h2
  constructor <;> linarith

theorem nrm_mono {v w : Fin n → ℝ} (h : ∀ i, |v i| ≤ w i) : nrm v ≤ nrm w := by
  apply Real.sqrt_le_sqrt
  refine Finset.sum_le_sum fun i _ => ?_
  rw [← abs_mul_abs_self (v i)]
  exact mul_self_le_mul_self (abs_nonneg _) (h i)

theorem nrm_abs (v : Fin n → ℝ) : nrm (fun i => |v i|) = nrm v := by
  unfold Kinematics.norm Kinematics.sqNorm
  simp only [abs_mul_abs_self]

theorem nrm_le_of {v w : Fin n → ℝ} {c : ℝ} (hc : 0 ≤ c) (h : ∀ i, |v i| ≤ c * w i) : nrm v ≤ c * nrm w := by
  have := nrm_mono (v := v) (w := c • w) h
  rwa [nrm_smul, abs_of_nonneg hc] at this

theorem abs_le_nrm (v : Fin n → ℝ) (i : Fin n) : |v i| ≤ nrm v := by
  apply Real.abs_le_sqrt
  rw [sq]
  exact Finset.single_le_sum (f := fun i => v i * v i) (fun i _ => mul_self_nonneg _) (Finset.mem_univ i)

theorem nrm_const (c : ℝ) (hc : 0 ≤ c) (hn : n ≤ 4) : nrm (fun _ : Fin n => c) ≤ 2 * c := by
  unfold Kinematics.norm Kinematics.sqNorm
  rw [Finset.sum_const, Finset.card_univ, Fintype.card_fin, nsmul_eq_mul]
  apply Real.sqrt_le_iff.2
  refine ⟨by linarith, ?_⟩
  have : (n : ℝ) ≤ 4 := by exact_mod_cast hn
  nlinarith [mul_self_nonneg c]

theorem nrm_sq (v : Fin n → ℝ) : nrm v * nrm v = sqNorm v :=
  Real.mul_self_sqrt (Finset.sum_nonneg fun i _ => mul_self_nonneg _)

theorem nrm_zero : nrm (0 : Fin n → ℝ) = 0 := by simp [Kinematics.norm, Kinematics.sqNorm]

end norms

/-! ## vectors of doubles -/

/-- the numbers in a vector of doubles -/
def vals {n : ℕ} (q : Fin n → Fp) : Fin n → ℝ := fun i => fval (q i)

/-- all entries are finite doubles -/
def Finite {n : ℕ} (q : Fin n → Fp) : Prop := ∀ i, (q i).isFinite ∧ IsDoubleVal (q i)

theorem Finite.fin {n : ℕ} {q : Fin n → Fp} (h : Finite q) (i : Fin n) : q i = .fin (fval (q i)) ∧ IsDouble (fval (q i)) := by
  obtain ⟨h1, h2⟩ := h i
  cases hq : q i with
  | fin x => rw [hq] at h2; exact ⟨rfl, h2.1⟩
  | inf b => rw [hq] at h1; simp [Fp.isFinite] at h1
  | nan => rw [hq] at h1; simp [Fp.isFinite] at h1

/-- the value of each entry, with a weight -/
theorem Finite.acc {n : ℕ} {q : Fin n → Fp} (h : Finite q) {a : Fin n → ℝ} (ha : ∀ i, |vals q i| ≤ a i) (i : Fin n) : Acc 0 (q i) (vals q i) (a i) := by
  have := Acc.fin (h.fin i).2 (ha i)
  rw [← (h.fin i).1] at this
  exact this

/-! ## scales -/

/-- between two powers of two -/
def InR (a b : ℤ) (S : ℝ) : Prop := (2 : ℝ) ^ a ≤ S ∧ S ≤ (2 : ℝ) ^ b

namespace InR

theorem pos {a b : ℤ} {S : ℝ} (h : InR a b S) : 0 < S := lt_of_lt_of_le (by positivity) h.1

theorem mono {a b c d : ℤ} {S : ℝ} (h : InR a b S) (h1 : c ≤ a) (h2 : b ≤ d) : InR c d S :=
  ⟨(zpow_le_zpow_right₀ (by norm_num) h1).trans h.1, h.2.trans (zpow_le_zpow_right₀ (by norm_num) h2)⟩

theorem mul {a b c d : ℤ} {S T : ℝ} (h : InR a b S) (h' : InR c d T) : InR (a + c) (b + d) (S * T) := by
  unfold InR
  rw [zpow_add₀ (by norm_num), zpow_add₀ (by norm_num)]
  exact ⟨mul_le_mul h.1 h'.1 (by positivity) h.pos.le, mul_le_mul h.2 h'.2 h'.pos.le (by positivity)⟩

theorem add {a b c d : ℤ} {S T : ℝ} (h : InR a b S) (h' : InR c d T) (hdb : d ≤ b) : InR a (b + 1) (S + T) := by
  unfold InR
  rw [zpow_add₀ (by norm_num), zpow_one]
  have := h.1
  have := h.2
  have := h'.pos
  have h4 := h'.2.trans (zpow_le_zpow_right₀ (by norm_num : (1 : ℝ) ≤ 2) hdb)
  constructor <;> linarith

theorem scale {a b : ℤ} {S : ℝ} (h : InR a b S) (h1 : -900 ≤ a) (h2 : b ≤ 900) : Scale S := h.mono h1 h2

end InR

theorem acc_finite {n : ℕ} {f : Fin n → Fp} {x S : Fin n → ℝ} {k : ℕ} (hk : k ≤ 100) (h : ∀ i, Acc k (f i) (x i) (S i)) (hS : ∀ i, Scale (S i)) : Finite f := by
  intro i
  obtain ⟨q, e, hd, hx, hq⟩ := h i
  rw [e]
  refine ⟨rfl, hd, ?_⟩
  have h1 : (1 + eps) ^ k ≤ 2 ^ 100 :=
    (pow_le_pow_left₀ (by linarith [eps_pos]) (show 1 + eps ≤ 2 by unfold eps; norm_num) k).trans (pow_le_pow_right₀ (by norm_num) hk)
  have h2 : |(q : ℝ)| ≤ 2 ^ 100 * (2 : ℝ) ^ (900 : ℤ) := by
    have h3 : |(q : ℝ)| ≤ |(q : ℝ) - x i| + |x i| := by simpa using abs_add_le ((q : ℝ) - x i) (x i)
    have h4 : (1 + eps) ^ k * S i ≤ 2 ^ 100 * (2 : ℝ) ^ (900 : ℤ) := mul_le_mul h1 (hS i).2 (hS i).pos.le (by positivity)
    linarith
  have h3 : (2 : ℝ) ^ 100 * (2 : ℝ) ^ (900 : ℤ) < ((tooBig : ℚ) : ℝ) := by
    unfold tooBig
    push_cast
    rw [show (900 : ℤ) = ((900 : ℕ) : ℤ) from rfl, zpow_natCast, ← pow_add]
    exact pow_lt_pow_right₀ (by norm_num) (by norm_num)
  have h4 : ((|q| : ℚ) : ℝ) < ((tooBig : ℚ) : ℝ) := by rw [Rat.cast_abs]; exact h2.trans_lt h3
  exact_mod_cast h4

/-- the error of a vector -/
theorem acc_nrm {n : ℕ} {f : Fin n → Fp} {x S : Fin n → ℝ} {k : ℕ} (h : ∀ i, Acc k (f i) (x i) (S i)) : nrm (vals f - x) ≤ ((1 + eps) ^ k - 1) * nrm S :=
  nrm_le_of (by linarith [one_le_pow_eps k]) fun i => (h i).err.2.2

/-! ## weights -/

/-- a weight for each entry: its absolute value and something small -/
def wt {n : ℕ} (δ : ℝ) (v : Fin n → ℝ) : Fin n → ℝ := fun i => |v i| + δ

theorem le_wt {n : ℕ} {δ : ℝ} (hδ : 0 ≤ δ) (v : Fin n → ℝ) (i : Fin n) : |v i| ≤ wt δ v i := by unfold wt; linarith

theorem nrm_wt {n : ℕ} (hn : n ≤ 4) {δ : ℝ} (hδ : 0 ≤ δ) (v : Fin n → ℝ) : nrm (wt δ v) ≤ nrm v + 2 * δ := by
  have h1 : wt δ v = (fun i => |v i|) + fun _ => δ := rfl
  rw [h1]
  refine (nrm_add _ _).trans ?_
  rw [nrm_abs]
  linarith [nrm_const (n := n) δ hδ hn]

end Verif.KinematicsDouble
