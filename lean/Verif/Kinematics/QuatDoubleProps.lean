import Verif.Kinematics.NormalizeLemmas
import Verif.Common.DoubleEven

/-!
# C119: long chains of quaternion products in doubles
-/

namespace Verif.KinematicsDouble

open Verif.Common
open Verif.Kinematics (V3 V4 M3 sqNorm)

local notation "nrm" => Kinematics.norm

/-- a quaternion of doubles that is a unit quaternion up to rounding -/
def NearUnit (q : F4) : Prop := Finite q ∧ |nrm (vals q) - 1| ≤ 1 / 2 ^ 50

/-- the program `for (p : ps) q = qplus(q, p);` -/
def chain (rnd : ℚ → ℚ) (q : F4) (ps : List F4) : F4 := ps.foldl (qplus rnd) q

/-- the exact product of the same quaternions -/
def exactChain (q : V4) (ps : List V4) : V4 := ps.foldl Kinematics.qplus q

theorem inR_near_one {x : ℝ} (h1 : 1 / 2 ≤ x) (h2 : x ≤ 2) : InR (-200) 200 x := by
  constructor
  · refine le_trans ?_ h1
    calc (2 : ℝ) ^ (-200 : ℤ) ≤ 2 ^ (-1 : ℤ) := zpow_le_zpow_right₀ (by norm_num) (by norm_num)
      _ = 1 / 2 := by norm_num
  · refine h2.trans ?_
    calc (2 : ℝ) = 2 ^ (1 : ℤ) := by norm_num
      _ ≤ _ := zpow_le_zpow_right₀ (by norm_num) (by norm_num)

theorem qplus_sub_left (a b c : V4) : Kinematics.qplus (a - b) c = Kinematics.qplus a c - Kinematics.qplus b c := by
  apply Kinematics.ext4 <;> simp [Kinematics.qplus] <;> ring

theorem qplus_sub_right (a b c : V4) : Kinematics.qplus c (a - b) = Kinematics.qplus c a - Kinematics.qplus c b := by
  apply Kinematics.ext4 <;> simp [Kinematics.qplus] <;> ring

theorem nrm_qplus (a b : V4) : nrm (Kinematics.qplus a b) = nrm a * nrm b := (Kinematics.C51_norm a b).2.1

section
variable {rnd : ℚ → ℚ} (hr : IsRnd rnd)
include hr

theorem chain_inv (ps : List F4) (hps : ∀ p ∈ ps, NearUnit p) : ∀ (c : F4) (x : V4) (k : ℕ), k + ps.length ≤ 2 ^ 40 → Finite c →
    nrm (vals c - x) ≤ k / 2 ^ 49 → |nrm x - 1| ≤ (k + 1) / 2 ^ 49 →
    Finite (chain rnd c ps) ∧ nrm (vals (chain rnd c ps) - exactChain x (ps.map vals)) ≤ (k + ps.length : ℕ) / 2 ^ 49 ∧
      |nrm (exactChain x (ps.map vals)) - 1| ≤ ((k + ps.length : ℕ) + 1) / 2 ^ 49 := by
  induction ps with
  | nil =>
    intro c x k _ h1 h2 h3
    simpa [chain, exactChain] using ⟨h1, h2, h3⟩
  | cons p ps ih =>
    intro c x k hk h1 h2 h3
    simp only [List.length_cons] at hk
    have hp := hps p (by simp)
    have hkr : (k : ℝ) + 1 ≤ 2 ^ 40 := by
      have : k + 1 ≤ 2 ^ 40 := by omega
      exact_mod_cast this
    have hk0 : (0 : ℝ) ≤ k := Nat.cast_nonneg k
    obtain ⟨pf, pn⟩ := hp
    have pb := abs_le.1 pn
    have xb := abs_le.1 h3
    have hcx : |nrm (vals c) - nrm x| ≤ nrm (vals c - x) := nrm_diff _ _
    have cb := abs_le.1 (hcx.trans h2)
    set P := nrm (vals p) with hP
    set X := nrm x with hX
    set Cn := nrm (vals c) with hC
    have sk : ((k : ℝ) + 1) / 2 ^ 49 ≤ 1 / 2 ^ 9 := by
      rw [div_le_div_iff₀ (by norm_num) (by norm_num)]
      calc ((k : ℝ) + 1) * 2 ^ 9 ≤ 2 ^ 40 * 2 ^ 9 := mul_le_mul_of_nonneg_right hkr (by norm_num)
        _ = 1 * 2 ^ 49 := by norm_num
    have sk' : (k : ℝ) / 2 ^ 49 ≤ 1 / 2 ^ 9 := le_trans (div_le_div_of_nonneg_right (by linarith) (by norm_num)) sk
    have c1 : Cn ≤ 1 + 2 / 2 ^ 9 := by linarith
    have c2 : 1 / 2 ≤ Cn := by
      have : (1 : ℝ) - 2 / 2 ^ 9 ≤ Cn := by linarith
      norm_num at this ⊢; linarith
    have p1 : P ≤ 1 + 1 / 2 ^ 50 := by linarith
    have p2 : 1 / 2 ≤ P := by norm_num at pb ⊢; linarith
    obtain ⟨f1, f2⟩ := qplus_err hr h1 pf (inR_near_one c2 (by norm_num at c1 ⊢; linarith)) (inR_near_one p2 (by norm_num at p1 ⊢; linarith))
    have step := ih (fun p' hp' => hps p' (by simp [hp'])) (qplus rnd c p) (Kinematics.qplus x (vals p)) (k + 1) (by omega) f1 ?_ ?_
    · have e : k + 1 + ps.length = k + (p :: ps).length := by simp; omega
      rw [e] at step
      exact step
    · -- the error grows by less than 2^-49
      have t := nrm_sub_le (vals (qplus rnd c p)) (Kinematics.qplus (vals c) (vals p)) (Kinematics.qplus x (vals p))
      rw [← qplus_sub_left, nrm_qplus] at t
      have b1 : 9 / 2 ^ 53 * (Cn * P) ≤ 10 / 2 ^ 53 := by
        have : Cn * P ≤ (1 + 2 / 2 ^ 9) * (1 + 1 / 2 ^ 50) := mul_le_mul c1 p1 (by linarith) (by norm_num)
        calc 9 / 2 ^ 53 * (Cn * P) ≤ 9 / 2 ^ 53 * ((1 + 2 / 2 ^ 9) * (1 + 1 / 2 ^ 50)) := mul_le_mul_of_nonneg_left this (by norm_num)
          _ ≤ _ := by norm_num
      have b2 : nrm (vals c - x) * P ≤ k / 2 ^ 49 * (1 + 1 / 2 ^ 50) := mul_le_mul h2 p1 (by linarith) (by positivity)
      have b3 : (k : ℝ) / 2 ^ 49 * (1 / 2 ^ 50) ≤ 1 / 2 ^ 9 * (1 / 2 ^ 50) := mul_le_mul_of_nonneg_right sk' (by norm_num)
      have e : (((k + 1 : ℕ)) : ℝ) / 2 ^ 49 = k / 2 ^ 49 + 1 / 2 ^ 49 := by push_cast; ring
      rw [e]
      have n1 : (10 : ℝ) / 2 ^ 53 + 1 / 2 ^ 9 * (1 / 2 ^ 50) ≤ 1 / 2 ^ 49 := by norm_num
      have e2 : (k : ℝ) / 2 ^ 49 * (1 + 1 / 2 ^ 50) = k / 2 ^ 49 + k / 2 ^ 49 * (1 / 2 ^ 50) := by ring
      linarith
    · rw [nrm_qplus]
      have e : (((k + 1 : ℕ) : ℝ) + 1) / 2 ^ 49 = (k + 1) / 2 ^ 49 + 1 / 2 ^ 49 := by push_cast; ring
      rw [e]
      have i1 : X * P - 1 = (X - 1) + (P - 1) + (X - 1) * (P - 1) := by ring
      rw [i1]
      have t := (abs_add_le ((X - 1) + (P - 1)) ((X - 1) * (P - 1))).trans (add_le_add_left (abs_add_le _ _) _)
      have t2 : |(X - 1) * (P - 1)| ≤ 1 / 2 ^ 9 * (1 / 2 ^ 50) := by
        rw [abs_mul]; exact mul_le_mul (h3.trans sk) pn (abs_nonneg _) (by norm_num)
      have n1 : (1 : ℝ) / 2 ^ 50 + 1 / 2 ^ 9 * (1 / 2 ^ 50) ≤ 1 / 2 ^ 49 := by norm_num
      linarith

/-- **C119** A product of `n` rotations (`n` up to 2^40) is finite; it is within `n·2^-49` of the exact product, and its norm within `(2n+1)·2^-49` of 1. -/
theorem C119_chain (q : F4) (ps : List F4) (hq : NearUnit q) (hps : ∀ p ∈ ps, NearUnit p) (hn : ps.length ≤ 2 ^ 40) :
    Finite (chain rnd q ps) ∧ nrm (vals (chain rnd q ps) - exactChain (vals q) (ps.map vals)) ≤ ps.length / 2 ^ 49 ∧
      |nrm (vals (chain rnd q ps)) - 1| ≤ (2 * ps.length + 1) / 2 ^ 49 := by
  have h := chain_inv hr ps hps q (vals q) 0 (by simpa using hn) hq.1 (by simp [nrm_zero]) (hq.2.trans (by norm_num))
  simp only [zero_add] at h
  refine ⟨h.1, h.2.1, ?_⟩
  have t := nrm_diff (vals (chain rnd q ps)) (exactChain (vals q) (ps.map vals))
  have t2 := abs_sub_le (nrm (vals (chain rnd q ps))) (nrm (exactChain (vals q) (ps.map vals))) 1
  have e : (2 * (ps.length : ℝ) + 1) / 2 ^ 49 = ps.length / 2 ^ 49 + (ps.length + 1) / 2 ^ 49 := by ring
  rw [e]
  linarith [h.2.1, h.2.2]

end

/-- **C119** One product, with either of the two functions, of quaternions of any moderate norm: `qplus(q, p)` is the exact product of `q` and `p`, `qoplus(q, p)` that of `p` and `q`, up to nine units of 2^-53. -/
theorem C119_product {rnd : ℚ → ℚ} (hr : IsRnd rnd) (q p : F4) (hq : Finite q) (hp : Finite p) (nq : InR (-200) 200 (nrm (vals q))) (np : InR (-200) 200 (nrm (vals p))) :
    nrm (vals (qplus rnd q p) - Kinematics.qplus (vals q) (vals p)) ≤ 9 / 2 ^ 53 * (nrm (vals q) * nrm (vals p)) ∧
    nrm (vals (qoplus rnd q p) - Kinematics.qplus (vals p) (vals q)) ≤ 9 / 2 ^ 53 * (nrm (vals q) * nrm (vals p)) := by
  refine ⟨(qplus_err hr hq hp nq np).2, ?_⟩
  have h := (qoplus_err hr hq hp nq np).2
  rwa [show Kinematics.qoplus (vals q) (vals p) = Kinematics.qplus (vals p) (vals q) from by
    apply Kinematics.ext4 <;> simp [Kinematics.qplus, Kinematics.qoplus] <;> ring] at h

/-- **C119** Up to 2^30 products, the debug assertion of `quat2r` ("The quaternion must be a unit vector", tolerance `1e-4` on the norm as the program computes it) does not fire. -/
theorem C119_assertion {R : ℝ → ℚ} (hR : IsRndR R) (E : Eigen fun q => R q) (q : F4) (ps : List F4) (hq : NearUnit q) (hps : ∀ p ∈ ps, NearUnit p) (hn : ps.length ≤ 2 ^ 30) :
    ∃ m : ℚ, norm E (chain (fun q => R q) q ps) = .fin m ∧ |m - 1| < 1 / 10000 := by
  obtain ⟨h1, -, h3⟩ := C119_chain hR.rat q ps hq hps (hn.trans (by norm_num))
  set c := chain (fun q => R q) q ps with hc
  have hlen : (ps.length : ℝ) ≤ 2 ^ 30 := by exact_mod_cast hn
  have h4 : |nrm (vals c) - 1| ≤ (2 * 2 ^ 30 + 1) / 2 ^ 49 := h3.trans (div_le_div_of_nonneg_right (by linarith) (by norm_num))
  have b := abs_le.1 h4
  norm_num at b
  obtain ⟨m, e1, -, e3⟩ := norm_err hR E h1 (inR_near_one (by linarith) (by linarith))
  refine ⟨m, e1, ?_⟩
  have e4 : 8 / 2 ^ 53 * nrm (vals c) ≤ 8 / 2 ^ 53 * 2 := mul_le_mul_of_nonneg_left (by linarith) (by norm_num)
  have t := abs_sub_le (m : ℝ) (nrm (vals c)) 1
  have n1 : (8 : ℝ) / 2 ^ 53 * 2 + (2 * 2 ^ 30 + 1) / 2 ^ 49 < 1 / 10000 := by norm_num
  have h5 : |(m : ℝ) - 1| < 1 / 10000 := by linarith
  have h6 : ((|m - 1| : ℚ) : ℝ) < ((1 / 10000 : ℚ) : ℝ) := by push_cast; exact h5
  exact_mod_cast h6

/-- the claim without a bound on the number of products: nothing in the chain renormalizes -/
def C119_claim (rnd : ℚ → ℚ) : Prop :=
  ∀ (q : F4) (ps : List F4), NearUnit q → (∀ p ∈ ps, NearUnit p) → |nrm (vals (chain rnd q ps)) - 1| ≤ 1 / 10000

/-- a quaternion whose last entry was rounded down -/
def drifting : F4 := ![.fin 0, .fin 0, .fin 0, .fin (1 - 1 / 2 ^ 53)]

theorem isDouble_below_one (n : ℕ) (hn : n ≤ 2 ^ 53) : IsDouble (1 - n / 2 ^ 53) := by
  rcases Nat.eq_zero_or_pos n with rfl | h0
  · simpa using isDouble_int 1 (by norm_num)
  refine ⟨2 ^ 53 - n, -53, ?_, by norm_num, ?_⟩
  · rw [abs_lt]; constructor <;> push_cast <;> omega
  · push_cast
    rw [show ((2 : ℚ) ^ (-53 : ℤ)) = 1 / 2 ^ 53 by rw [zpow_neg, one_div]; norm_cast]
    norm_num; ring

theorem grid_eq {j K : ℤ} {d : ℚ} (hd : 0 < d) (h : |(j : ℚ) / d - K / d| < 1 / d) : (j : ℚ) / d = K / d := by
  rw [← sub_div, abs_div, abs_of_pos hd, div_lt_div_iff_of_pos_right hd] at h
  have hint : |j - K| < 1 := by exact_mod_cast h
  have := Int.abs_lt_one_iff.1 hint
  rw [show j = K by omega]

theorem drift_round {rnd : ℚ → ℚ} (hr : IsRnd rnd) (n : ℕ) (hn : n < 2 ^ 51) : rnd ((1 - 1 / 2 ^ 53) * (1 - n / 2 ^ 53)) = 1 - (n + 1 : ℕ) / 2 ^ 53 := by
  -- the exact product is less than a quarter of the spacing above the result
  have hn' : (n : ℚ) < 2 ^ 51 := by exact_mod_cast hn
  set z : ℚ := (1 - 1 / 2 ^ 53) * (1 - n / 2 ^ 53) with hz
  have hd := isDouble_below_one (n + 1) (by omega)
  set t : ℚ := 1 - (n + 1 : ℕ) / 2 ^ 53 with ht
  have e1 : z - t = n / 2 ^ 53 / 2 ^ 53 := by rw [hz, ht]; push_cast; ring
  have e2 : |t - z| < 1 / 2 ^ 54 := by
    rw [abs_sub_comm, e1, abs_of_nonneg (by positivity), div_div, div_lt_div_iff₀ (by norm_num) (by norm_num)]
    calc (n : ℚ) * 2 ^ 54 < 2 ^ 51 * 2 ^ 54 := mul_lt_mul_of_pos_right hn' (by norm_num)
      _ ≤ 1 * (2 ^ 53 * 2 ^ 53) := by norm_num
  have hnear := hr.near z t hd
  obtain ⟨m, e, hm, he, hme⟩ := hr.mem z
  -- doubles in [1/2, 1) are multiples of 2^-53
  have hnear' : |rnd z - z| < 1 / 2 ^ 54 := lt_of_le_of_lt hnear e2
  have hb := abs_lt.1 hnear'
  have hb2 := abs_lt.1 e2
  have ht1 : 3 / 4 - 1 / 2 ^ 53 ≤ t := by
    rw [ht]; push_cast
    have : ((n : ℚ) + 1) / 2 ^ 53 ≤ (2 ^ 51 + 1) / 2 ^ 53 := div_le_div_of_nonneg_right (by linarith) (by norm_num)
    norm_num at this ⊢; linarith
  have hz1 : 1 / 2 < rnd z := by norm_num at hb hb2 ht1 ⊢; linarith
  have hge : -53 ≤ e := by
    by_contra hlt
    push Not at hlt
    have h2 : (2 : ℚ) ^ e ≤ 2 ^ (-54 : ℤ) := zpow_le_zpow_right₀ (by norm_num) (by omega)
    have hm' : (m : ℚ) < 2 ^ 53 := by exact_mod_cast (abs_lt.1 hm).2
    have p : (0 : ℚ) < 2 ^ e := by positivity
    have h3 : (m : ℚ) * 2 ^ e ≤ 2 ^ 53 * 2 ^ (-54 : ℤ) := mul_le_mul hm'.le h2 p.le (by norm_num)
    rw [hme] at hz1
    have h4 : (2 : ℚ) ^ 53 * 2 ^ (-54 : ℤ) = 1 / 2 := by norm_num
    exact absurd (hz1.trans_le (h3.trans h4.le)) (lt_irrefl _)
  obtain ⟨j, hj⟩ : ∃ j : ℤ, rnd z = j / 2 ^ 53 := by
    refine ⟨m * 2 ^ (e + 53).toNat, ?_⟩
    rw [hme]
    push_cast
    rw [mul_div_assoc]
    congr 1
    rw [eq_div_iff (by norm_num), show ((2 : ℚ) ^ 53) = 2 ^ (53 : ℤ) by norm_cast, ← zpow_add₀ (by norm_num), ← zpow_natCast]
    congr 1; omega
  obtain ⟨K, hk⟩ : ∃ K : ℤ, t = K / 2 ^ 53 := ⟨2 ^ 53 - (n + 1), by rw [ht]; push_cast; field_simp; norm_num⟩
  have hdist : |rnd z - t| < 1 / 2 ^ 53 := by
    have := abs_sub_le (rnd z) z t
    rw [abs_sub_comm z t] at this
    have n1 : (1 : ℚ) / 2 ^ 54 + 1 / 2 ^ 54 = 1 / 2 ^ 53 := by norm_num
    linarith
  rw [hj, hk] at hdist ⊢
  exact grid_eq (by norm_num) hdist

theorem drift_step {rnd : ℚ → ℚ} (hr : IsRnd rnd) (n : ℕ) (hn : n < 2 ^ 51) :
    qplus rnd ![.fin 0, .fin 0, .fin 0, .fin (1 - n / 2 ^ 53)] drifting = ![.fin 0, .fin 0, .fin 0, .fin (1 - (n + 1 : ℕ) / 2 ^ 53)] := by
  have h0 : rnd 0 = 0 := hr.fix (by simpa using isDouble_int 0 (by norm_num))
  have hz : rounded rnd (.fin 0) = .fin 0 := by
    simp only [rounded, h0, abs_zero]
    rw [if_pos (by unfold tooBig; positivity)]
  have hbig : (1 : ℚ) < tooBig := by
    unfold tooBig
    exact one_lt_pow₀ (by norm_num) (by norm_num)
  have hd := isDouble_below_one (n + 1) (by omega)
  set t : ℚ := 1 - (n + 1 : ℕ) / 2 ^ 53 with ht
  have ht0 : |t| ≤ 1 := by
    have : ((n + 1 : ℕ) : ℚ) ≤ 2 ^ 53 := by
      have : n + 1 ≤ 2 ^ 53 := by omega
      exact_mod_cast this
    rw [ht, abs_le]
    have h2 : ((n + 1 : ℕ) : ℚ) / 2 ^ 53 ≤ 1 := by rw [div_le_one (by norm_num)]; exact this
    have h3 : 0 ≤ ((n + 1 : ℕ) : ℚ) / 2 ^ 53 := by positivity
    constructor <;> linarith
  have htr : rounded rnd (.fin t) = .fin t := by
    simp only [rounded, hr.fix hd]
    rw [if_pos (ht0.trans_lt hbig)]
  have hp : rounded rnd (.fin ((1 - 1 / 2 ^ 53) * (1 - n / 2 ^ 53))) = .fin t := by
    simp only [rounded, drift_round hr n hn, ← ht]
    rw [if_pos (ht0.trans_lt hbig)]
  have m0 : ∀ x : ℚ, fmul rnd (.fin 0) (.fin x) = .fin 0 := fun x => by simp only [fmul, Fp.mul, zero_mul, hz]
  have m1 : ∀ x : ℚ, fmul rnd (.fin x) (.fin 0) = .fin 0 := fun x => by simp only [fmul, Fp.mul, mul_zero, hz]
  have a0 : fadd rnd (.fin 0) (.fin 0) = .fin 0 := by simp only [fadd, Fp.add, add_zero, hz]
  have s0 : fsub rnd (.fin 0) (.fin 0) = .fin 0 := by simp only [fsub, Fp.sub, Fp.neg, Fp.add, neg_zero, add_zero, hz]
  have st : fsub rnd (.fin t) (.fin 0) = .fin t := by simp only [fsub, Fp.sub, Fp.neg, Fp.add, neg_zero, add_zero, htr]
  have mt : fmul rnd (.fin (1 - 1 / 2 ^ 53)) (.fin (1 - n / 2 ^ 53)) = .fin t := by simp only [fmul, Fp.mul, hp]
  unfold qplus drifting
  simp only [Matrix.cons_val_zero, Matrix.cons_val_one, Matrix.cons_val, m0, m1, a0, s0, mt, st]

theorem drift_chain {rnd : ℚ → ℚ} (hr : IsRnd rnd) (n : ℕ) (hn : n ≤ 2 ^ 51) : ∀ k, k + n ≤ 2 ^ 51 →
    chain rnd ![.fin 0, .fin 0, .fin 0, .fin (1 - k / 2 ^ 53)] (List.replicate n drifting) = ![.fin 0, .fin 0, .fin 0, .fin (1 - (k + n : ℕ) / 2 ^ 53)] := by
  induction n with
  | zero => intro k _; simp [chain]
  | succ n ih =>
    intro k hk
    have := ih (by omega) (k + 1) (by omega)
    unfold chain at this ⊢
    rw [List.replicate_succ, List.foldl_cons, drift_step hr k (by omega), this]
    congr 5
    push_cast; ring

theorem nrm_last (x : ℚ) : nrm (vals ![.fin 0, .fin 0, .fin 0, .fin x]) = |(x : ℝ)| := by
  have : sqNorm (vals ![.fin 0, .fin 0, .fin 0, .fin x]) = (x : ℝ) * x := by
    rw [Kinematics.sq4]
    simp [vals, fval]
  rw [Kinematics.norm, this, Real.sqrt_mul_self_eq_abs]

theorem drifting_near : NearUnit drifting := by
  have hd : IsDouble (1 - 1 / 2 ^ 53) := by simpa using isDouble_below_one 1 (by norm_num)
  have hbig : (1 : ℚ) < tooBig := by
    unfold tooBig
    exact one_lt_pow₀ (by norm_num) (by norm_num)
  have h0 : IsDouble 0 := by simpa using isDouble_int 0 (by norm_num)
  refine ⟨?_, ?_⟩
  · intro i
    unfold drifting
    fin_cases i
    · exact ⟨rfl, h0, by simp; linarith⟩
    · exact ⟨rfl, h0, by simp; linarith⟩
    · exact ⟨rfl, h0, by simp; linarith⟩
    · refine ⟨rfl, hd, lt_of_le_of_lt ?_ hbig⟩
      rw [abs_of_nonneg] <;> norm_num
  · unfold drifting
    rw [nrm_last]
    norm_num

/-- **C119** With every rounding mode to nearest, the norm of a chain of products drifts away if the chain is long enough: nothing renormalizes it. -/
theorem C119_negation {rnd : ℚ → ℚ} (hr : IsRnd rnd) : ¬ C119_claim rnd := by
  intro h
  have hc := drift_chain hr (2 ^ 51 - 1) (by norm_num) 1 (by norm_num)
  have hd : (![.fin 0, .fin 0, .fin 0, .fin (1 - ((1 : ℕ) : ℚ) / 2 ^ 53)] : F4) = drifting := by
    unfold drifting; norm_num
  rw [hd] at hc
  have := h drifting (List.replicate (2 ^ 51 - 1) drifting) drifting_near (fun p hp => by rw [List.eq_of_mem_replicate hp]; exact drifting_near)
  rw [hc, nrm_last] at this
  norm_num at this

/-- a turn by 120 degrees: all entries one half -/
def third : F4 := ![.fin (1 / 2), .fin (1 / 2), .fin (1 / 2), .fin (1 / 2)]

theorem third_finite : Finite third := by
  have h : IsDouble (1 / 2) := by simpa using isDouble_pow (-1) (by norm_num)
  have hbig : (1 : ℚ) < tooBig := one_lt_pow₀ (by norm_num) (by norm_num)
  have hlt : |(1 / 2 : ℚ)| < tooBig := lt_trans (by norm_num) hbig
  intro i
  unfold third
  fin_cases i <;> exact ⟨rfl, h, hlt⟩

theorem third_norm : nrm (vals third) = 1 := by
  have : sqNorm (vals third) = 1 := by
    rw [Kinematics.sq4]
    have : ∀ i, vals third i = 1 / 2 := by intro i; fin_cases i <;> norm_num [vals, third, fval]
    simp only [this]; norm_num
  rw [Kinematics.norm, this, Real.sqrt_one]

theorem third_near : NearUnit third := ⟨third_finite, by rw [third_norm]; norm_num⟩

/-- a chain with the rounding of the machine (nearest, ties to even) that meets the hypotheses -/
example : nrm (vals (chain (fun q => rndEvenReal q) third [third, drifting, third]) - exactChain (vals third) ([third, drifting, third].map vals)) ≤ 3 / 2 ^ 49 := by
  have := (C119_chain (rnd := fun q => rndEvenReal q) isRndR_rndEvenReal.rat third [third, drifting, third] third_near (by
    intro p hp
    simp only [List.mem_cons, List.not_mem_nil, or_false] at hp
    rcases hp with rfl | rfl | rfl
    · exact third_near
    · exact drifting_near
    · exact third_near) (by norm_num)).2.1
  simpa using this

example : ∃ m : ℚ, norm (Eigen.lanes fun q => rndEvenReal q) (chain (fun q => rndEvenReal q) third [third, third]) = .fin m ∧ |m - 1| < 1 / 10000 :=
  C119_assertion isRndR_rndEvenReal _ third [third, third] third_near (by simp [third_near]) (by norm_num)

end Verif.KinematicsDouble
