import Verif.Kinematics.QuatDoubleLemmas
import Verif.Common.DoubleReal

/-!
# `normalize()` in doubles
-/

namespace Verif.KinematicsDouble

open Verif.Common
open Verif.Kinematics (V3 V4 M3 sqNorm)

local notation "nrm" => Kinematics.norm

/-- a sum in any order -/
theorem sumOf_acc {rnd : ℚ → ℚ} (hr : IsRnd rnd) {δ : ℝ} (hδ : 0 ≤ δ) {l : List Fp} {s : Fp} (h : SumOf rnd l s)
    (hf : ∀ f ∈ l, f = .fin (fval f) ∧ IsDouble (fval f)) (hs : ∀ f ∈ l, InR (-600) 600 (|(fval f : ℝ)| + δ)) (hl : l.length ≤ 100) :
    Acc l.length s (l.map fun f => (fval f : ℝ)).sum (l.map fun f => |(fval f : ℝ)| + δ).sum ∧ InR (-600) (600 + l.length) (l.map fun f => |(fval f : ℝ)| + δ).sum := by
  induction h with
  | one x =>
    have h1 := hf x (by simp)
    have h2 := hs x (by simp)
    refine ⟨?_, ?_⟩
    · simp only [List.length_singleton, List.map_cons, List.map_nil, List.sum_cons, List.sum_nil, add_zero]
      have := Acc.fin h1.2 (S := |(fval x : ℝ)| + δ) (by linarith)
      rw [← h1.1] at this
      exact this.mono (by norm_num) le_rfl
    · simp only [List.length_singleton, List.map_cons, List.map_nil, List.sum_cons, List.sum_nil, add_zero]
      exact h2.mono (by norm_num) (by norm_num)
  | @add l m n x y hl' hm' hn ihl ihm =>
    have hlen : n.length = l.length + m.length := by rw [hn.length_eq, List.length_append]
    have pos : ∀ {l : List Fp} {s : Fp}, SumOf rnd l s → 1 ≤ l.length := by
      intro l s h
      induction h with
      | one x => simp
      | add _ _ hn h1 h2 => rw [hn.length_eq, List.length_append]; omega
    have pl := pos hl'
    have pm := pos hm'
    obtain ⟨a1, r1⟩ := ihl (fun f hf' => hf f (hn.mem_iff.2 (List.mem_append_left _ hf'))) (fun f hf' => hs f (hn.mem_iff.2 (List.mem_append_left _ hf'))) (by omega)
    obtain ⟨a2, r2⟩ := ihm (fun f hf' => hf f (hn.mem_iff.2 (List.mem_append_right _ hf'))) (fun f hf' => hs f (hn.mem_iff.2 (List.mem_append_right _ hf'))) (by omega)
    have e1 : (n.map fun f => (fval f : ℝ)).sum = (l.map fun f => (fval f : ℝ)).sum + (m.map fun f => (fval f : ℝ)).sum := by
      rw [(hn.map _).sum_eq, List.map_append, List.sum_append]
    have e2 : (n.map fun f => |(fval f : ℝ)| + δ).sum = (l.map fun f => |(fval f : ℝ)| + δ).sum + (m.map fun f => |(fval f : ℝ)| + δ).sum := by
      rw [(hn.map _).sum_eq, List.map_append, List.sum_append]
    rw [e1, e2]
    have r1' := r1.mono le_rfl (show (600 : ℤ) + l.length ≤ 600 + (l.length + m.length - 1 : ℕ) by omega)
    have r2' := r2.mono le_rfl (show (600 : ℤ) + m.length ≤ 600 + (l.length + m.length - 1 : ℕ) by omega)
    have r := (r1'.add r2' le_rfl).mono le_rfl (show (600 : ℤ) + (l.length + m.length - 1 : ℕ) + 1 ≤ 600 + n.length by omega)
    refine ⟨?_, r⟩
    have := Acc.add hr (i := l.length) (j := m.length) (k := l.length + m.length - 1) (by omega) (by omega) (by omega) a1 a2 (r.scale (by norm_num) (by omega))
    rwa [show l.length + m.length - 1 + 1 = n.length by omega] at this

variable {R : ℝ → ℚ} (hR : IsRndR R)

include hR

/-- the rounding of a number of moderate size -/
theorem round_mid {z : ℚ} (hz : |(z : ℝ)| ≤ 2 ^ (300 : ℤ)) :
    rounded (fun q => R q) (.fin z) = .fin (R z) ∧ IsDouble (R z) ∧ |((R z : ℚ) : ℝ) - z| ≤ |(z : ℝ)| / 2 ^ 53 + tiny := by
  have hlim : |z| ≤ 2 * limit := by
    have h3 : (2 : ℝ) ^ (300 : ℤ) ≤ ((2 * limit : ℚ) : ℝ) := by
      unfold limit
      push_cast
      rw [show (300 : ℤ) = ((300 : ℕ) : ℤ) from rfl, zpow_natCast, ← pow_succ']
      exact pow_le_pow_right₀ (by norm_num) (by norm_num)
    have h4 : ((|z| : ℚ) : ℝ) ≤ ((2 * limit : ℚ) : ℝ) := by rw [Rat.cast_abs]; exact hz.trans h3
    exact_mod_cast h4
  refine ⟨(rounded_fin hR.rat hlim).1, hR.mem z, ?_⟩
  have := hR.rat.err_any z
  have h1 : ((|R z - z| : ℚ) : ℝ) ≤ ((|z| / 2 ^ 53 + tiny : ℚ) : ℝ) := by exact_mod_cast this
  push_cast at h1
  norm_num at h1 ⊢
  exact h1

/-- the sum of the squares -/
theorem squaredNorm_err (E : Eigen fun q => R q) {q : F4} (hq : Finite q) (nq : InR (-200) 200 (nrm (vals q))) :
    ∃ s : ℚ, squaredNorm E q = .fin s ∧ |(s : ℝ) - sqNorm (vals q)| ≤ 6 / 2 ^ 53 * sqNorm (vals q) := by
  set N := nrm (vals q) with hN
  have hN0 := nq.pos
  set v := vals q with hv
  have hw : ∀ i, |v i| ≤ |v i| + 1 / 2 ^ 60 * N := fun i => by have := hN0; have : 0 ≤ 1 / 2 ^ 60 * N := by positivity
                                                               linarith
  have A := hq.acc hw
  have h60 : InR (-60) (-60) (1 / 2 ^ 60 : ℝ) := by
    have : (1 / 2 ^ 60 : ℝ) = 2 ^ (-60 : ℤ) := by rw [zpow_neg, one_div]; norm_cast
    unfold InR; rw [this]; exact ⟨le_rfl, le_rfl⟩
  have rw_ : ∀ i, InR (-300) 250 (|v i| + 1 / 2 ^ 60 * N) := by
    intro i
    have h1 : InR (-260) 140 (1 / 2 ^ 60 * N) := h60.mul nq
    have h3 := abs_le_nrm v i
    constructor
    · exact ((h1.mono (show (-300 : ℤ) ≤ -260 by norm_num) le_rfl).1).trans (le_add_of_nonneg_left (abs_nonneg _))
    · have e := (h1.mono le_rfl (show (140 : ℤ) ≤ 200 by norm_num)).2
      have e2 : (2 : ℝ) ^ (200 : ℤ) + 2 ^ (200 : ℤ) = 2 ^ (201 : ℤ) := by rw [show (201 : ℤ) = 200 + 1 from rfl, zpow_add₀ (by norm_num)]; ring
      have e3 : (2 : ℝ) ^ (201 : ℤ) ≤ 2 ^ (250 : ℤ) := zpow_le_zpow_right₀ (by norm_num) (by norm_num)
      exact (add_le_add (h3.trans nq.2) e).trans (e2.le.trans e3)
  set w : V4 := fun i => |v i| + 1 / 2 ^ 60 * N with hwd
  have M : ∀ i, Acc 1 (fmul (fun x => R x) (q i) (q i)) (v i * v i) (w i * w i) := fun i =>
    Acc.mul hR.rat (by norm_num) (A i) (A i) (((rw_ i).mul (rw_ i)).scale (by norm_num) (by norm_num))
  set f : Fin 4 → Fp := fun i => fmul (fun x => R x) (q i) (q i) with hf
  -- the squares
  have F : ∀ i, f i = .fin (fval (f i)) ∧ IsDouble (fval (f i)) ∧ |(fval (f i) : ℝ) - v i * v i| ≤ eps * (w i * w i) := by
    intro i
    obtain ⟨a, b, c⟩ := (M i).err
    exact ⟨a, b, by simpa using c⟩
  have hw0 : ∀ i, 0 < w i := fun i => (rw_ i).pos
  have Fb : ∀ i, |(fval (f i) : ℝ)| ≤ 2 * (w i * w i) := by
    intro i
    have h1 := (F i).2.2
    have h2 : |(fval (f i) : ℝ)| ≤ |(fval (f i) : ℝ) - v i * v i| + |v i * v i| := by simpa using abs_add_le ((fval (f i) : ℝ) - v i * v i) (v i * v i)
    have h3 : |v i * v i| ≤ w i * w i := by
      rw [abs_mul]; exact mul_self_le_mul_self (abs_nonneg _) (hw i)
    have h4 : eps ≤ 1 := by unfold eps; norm_num
    have h5 : eps * (w i * w i) ≤ 1 * (w i * w i) := mul_le_mul_of_nonneg_right h4 (mul_self_nonneg _)
    linarith
  set δ : ℝ := 1 / 2 ^ 60 * (N * N) with hδ
  have hδ0 : 0 ≤ δ := by positivity
  have rδ : InR (-460) 340 δ := h60.mul (nq.mul nq)
  have sc : ∀ i, InR (-600) 600 (|(fval (f i) : ℝ)| + δ) := by
    intro i
    have h1 := ((rw_ i).mul (rw_ i)).2
    have h2 : (2 : ℝ) * 2 ^ (250 + 250 : ℤ) = 2 ^ (501 : ℤ) := by rw [show (501 : ℤ) = 1 + (250 + 250) from rfl, zpow_add₀ (by norm_num) 1, zpow_one]
    have h3 : |(fval (f i) : ℝ)| ≤ 2 ^ (501 : ℤ) := (Fb i).trans ((mul_le_mul_of_nonneg_left h1 (by norm_num)).trans h2.le)
    constructor
    · exact ((rδ.mono (show (-600 : ℤ) ≤ -460 by norm_num) le_rfl).1).trans (le_add_of_nonneg_left (abs_nonneg _))
    · have e := (rδ.mono le_rfl (show (340 : ℤ) ≤ 501 by norm_num)).2
      have e2 : (2 : ℝ) ^ (501 : ℤ) + 2 ^ (501 : ℤ) = 2 ^ (502 : ℤ) := by rw [show (502 : ℤ) = 501 + 1 from rfl, zpow_add₀ (by norm_num), zpow_one]; ring
      exact (add_le_add h3 e).trans (e2.le.trans (zpow_le_zpow_right₀ (by norm_num) (by norm_num)))
  have S := (sumOf_acc hR.rat hδ0 (E.sum4_sum (f 0) (f 1) (f 2) (f 3)) (by
      intro g hg
      simp only [List.mem_cons, List.not_mem_nil, or_false] at hg
      rcases hg with rfl | rfl | rfl | rfl <;> exact ⟨(F _).1, (F _).2.1⟩) (by
      intro g hg
      simp only [List.mem_cons, List.not_mem_nil, or_false] at hg
      rcases hg with rfl | rfl | rfl | rfl <;> exact sc _) (by simp)).1
  obtain ⟨s, hs, -, -, he⟩ := S
  refine ⟨s, hs, ?_⟩
  simp only [List.length_cons, List.length_nil, List.map_cons, List.map_nil, List.sum_cons, List.sum_nil, add_zero] at he
  have hsq : sqNorm v = v 0 * v 0 + v 1 * v 1 + v 2 * v 2 + v 3 * v 3 := Kinematics.sq4 v
  have hNN : N * N = sqNorm v := nrm_sq v
  have hW : w 0 * w 0 + w 1 * w 1 + w 2 * w 2 + w 3 * w 3 ≤ (1 + 1 / 2 ^ 59) ^ 2 * sqNorm v := by
    rw [← Kinematics.sq4, ← nrm_sq]
    have h1 : nrm w ≤ (1 + 1 / 2 ^ 59) * N := (nrm_wt (δ := 1 / 2 ^ 60 * N) (by norm_num) (by positivity) v).trans (le_of_eq (by ring))
    calc nrm w * nrm w ≤ ((1 + 1 / 2 ^ 59) * N) * ((1 + 1 / 2 ^ 59) * N) := mul_self_le_mul_self (nrm_nonneg _) h1
      _ = _ := by rw [← hNN]; ring
  have hQ : 0 ≤ sqNorm v := by rw [← hNN]; positivity
  rw [hNN] at hδ
  have b0 := (F 0).2.2
  have b1 := (F 1).2.2
  have b2 := (F 2).2.2
  have b3 := (F 3).2.2
  set g0 : ℝ := (fval (f 0) : ℝ)
  set g1 : ℝ := (fval (f 1) : ℝ)
  set g2 : ℝ := (fval (f 2) : ℝ)
  set g3 : ℝ := (fval (f 3) : ℝ)
  have T : |(g0 + (g1 + (g2 + g3))) - sqNorm v| ≤ eps * ((1 + 1 / 2 ^ 59) ^ 2 * sqNorm v) := by
    have e : (g0 + (g1 + (g2 + g3))) - sqNorm v = (g0 - v 0 * v 0) + (g1 - v 1 * v 1) + (g2 - v 2 * v 2) + (g3 - v 3 * v 3) := by rw [hsq]; ring
    rw [e]
    have t := (abs_add_le ((g0 - v 0 * v 0) + (g1 - v 1 * v 1) + (g2 - v 2 * v 2)) (g3 - v 3 * v 3))
    have t2 := (abs_add_le ((g0 - v 0 * v 0) + (g1 - v 1 * v 1)) (g2 - v 2 * v 2))
    have t3 := (abs_add_le (g0 - v 0 * v 0) (g1 - v 1 * v 1))
    have := mul_le_mul_of_nonneg_left hW eps_pos.le
    linarith
  have U : |g0| + δ + (|g1| + δ + (|g2| + δ + (|g3| + δ))) ≤ ((1 + eps) * (1 + 1 / 2 ^ 59) ^ 2 + 4 / 2 ^ 60) * sqNorm v := by
    have aux : ∀ (g x y : ℝ), |g - x * x| ≤ eps * (y * y) → |x| ≤ y → |g| ≤ (1 + eps) * (y * y) := by
      intro g x y h1 h2
      have h3 : |g| ≤ |g - x * x| + |x * x| := by simpa using abs_add_le (g - x * x) (x * x)
      have h4 : |x * x| ≤ y * y := by rw [abs_mul]; exact mul_self_le_mul_self (abs_nonneg _) h2
      linarith
    have c0 := aux _ _ _ b0 (hw 0)
    have c1 := aux _ _ _ b1 (hw 1)
    have c2 := aux _ _ _ b2 (hw 2)
    have c3 := aux _ _ _ b3 (hw 3)
    have := mul_le_mul_of_nonneg_left hW (show (0 : ℝ) ≤ 1 + eps by linarith [eps_pos])
    have c : 4 * δ = 4 / 2 ^ 60 * sqNorm v := by rw [hδ]; ring
    linarith
  have hk : 0 ≤ (1 + eps) ^ (0 + 1 + 1 + 1 + 1) - 1 := by linarith [one_le_pow_eps (0 + 1 + 1 + 1 + 1)]
  have V := mul_le_mul_of_nonneg_left U hk
  have tri : |(s : ℝ) - sqNorm v| ≤ |(s : ℝ) - (g0 + (g1 + (g2 + g3)))| + |(g0 + (g1 + (g2 + g3))) - sqNorm v| := abs_sub_le _ _ _
  have fin : ((1 + eps) ^ (0 + 1 + 1 + 1 + 1) - 1) * ((1 + eps) * (1 + 1 / 2 ^ 59) ^ 2 + 4 / 2 ^ 60) + eps * (1 + 1 / 2 ^ 59) ^ 2 ≤ 6 / 2 ^ 53 := by unfold eps; norm_num
  calc _ ≤ _ := tri
    _ ≤ ((1 + eps) ^ (0 + 1 + 1 + 1 + 1) - 1) * (((1 + eps) * (1 + 1 / 2 ^ 59) ^ 2 + 4 / 2 ^ 60) * sqNorm v) + eps * ((1 + 1 / 2 ^ 59) ^ 2 * sqNorm v) := add_le_add (he.trans V) T
    _ = (((1 + eps) ^ (0 + 1 + 1 + 1 + 1) - 1) * ((1 + eps) * (1 + 1 / 2 ^ 59) ^ 2 + 4 / 2 ^ 60) + eps * (1 + 1 / 2 ^ 59) ^ 2) * sqNorm v := by ring
    _ ≤ _ := mul_le_mul_of_nonneg_right fin hQ

/-- the norm -/
theorem norm_err (E : Eigen fun q => R q) {q : F4} (hq : Finite q) (nq : InR (-200) 200 (nrm (vals q))) :
    ∃ m : ℚ, norm E q = .fin m ∧ IsDouble m ∧ |(m : ℝ) - nrm (vals q)| ≤ 8 / 2 ^ 53 * nrm (vals q) := by
  obtain ⟨s, hs, he⟩ := squaredNorm_err hR E hq nq
  have hN0 := nq.pos
  set N := nrm (vals q) with hN
  rw [← nrm_sq, ← hN] at he
  have hs0 : 0 ≤ (s : ℝ) := by
    have := (abs_le.1 he).1
    have : 6 / 2 ^ 53 * (N * N) ≤ 1 * (N * N) := mul_le_mul_of_nonneg_right (by norm_num) (by positivity)
    linarith
  have hs0' : ¬ s < 0 := by
    have : (0 : ℚ) ≤ s := by exact_mod_cast hs0
    exact not_lt.2 this
  refine ⟨R (Real.sqrt s), ?_, hR.mem _, ?_⟩
  · unfold norm
    rw [hs]
    simp only [Verif.NumericDouble.fsqrt, if_neg hs0']
  set y := Real.sqrt (s : ℝ) with hy
  have hy0 : 0 ≤ y := Real.sqrt_nonneg _
  have hyy : y * y = s := Real.mul_self_sqrt hs0
  have h1 : |y - N| ≤ 6 / 2 ^ 53 * N := by
    rw [← hyy, show y * y - N * N = (y - N) * (y + N) by ring, abs_mul, abs_of_pos (show 0 < y + N by linarith)] at he
    by_contra hc
    push Not at hc
    have : 6 / 2 ^ 53 * (N * N) < |y - N| * (y + N) := by
      calc 6 / 2 ^ 53 * (N * N) = (6 / 2 ^ 53 * N) * N := by ring
        _ < |y - N| * N := mul_lt_mul_of_pos_right hc hN0
        _ ≤ |y - N| * (y + N) := mul_le_mul_of_nonneg_left (by linarith) (abs_nonneg _)
    linarith
  have h2 := abs_le.1 h1
  have hyN : N / 2 ≤ y := by
    have : 6 / 2 ^ 53 * N ≤ N / 2 := by rw [div_eq_mul_inv N, mul_comm N]; exact mul_le_mul_of_nonneg_right (by norm_num) hN0.le
    linarith
  have h3 : |((R y : ℚ) : ℝ) - y| ≤ |y| / 2 ^ 53 := by
    apply hR.err_rel
    rw [abs_of_nonneg hy0]
    refine le_trans ?_ hyN
    have h := nq.1
    have e : (2 : ℝ) ^ (-1022 : ℤ) ≤ 2 ^ (-200 : ℤ) / 2 := by
      rw [show (2 : ℝ) ^ (-200 : ℤ) / 2 = 2 ^ (-201 : ℤ) by rw [show (-201 : ℤ) = -200 - 1 by norm_num, zpow_sub₀ (by norm_num), zpow_one]]
      exact zpow_le_zpow_right₀ (by norm_num) (by norm_num)
    exact e.trans (div_le_div_of_nonneg_right h (by norm_num))
  rw [abs_of_nonneg hy0] at h3
  have h4 : y ≤ (1 + 6 / 2 ^ 53) * N := by linarith
  have h5 : y / 2 ^ 53 ≤ 2 / 2 ^ 53 * N := by
    rw [div_eq_mul_inv, mul_comm]
    calc (2 ^ 53)⁻¹ * y ≤ (2 ^ 53)⁻¹ * ((1 + 6 / 2 ^ 53) * N) := mul_le_mul_of_nonneg_left h4 (by norm_num)
      _ = ((2 ^ 53)⁻¹ * (1 + 6 / 2 ^ 53)) * N := by ring
      _ ≤ _ := mul_le_mul_of_nonneg_right (by norm_num) hN0.le
  have h6 : |((R y : ℚ) : ℝ) - N| ≤ |((R y : ℚ) : ℝ) - y| + |y - N| := abs_sub_le _ _ _
  have h7 : 8 / 2 ^ 53 * N = 2 / 2 ^ 53 * N + 6 / 2 ^ 53 * N := by ring
  linarith

/-- each entry of the normalized vector -/
theorem normalize_entries (E : Eigen fun q => R q) {q : F4} (hq : Finite q) (nq : InR (-200) 200 (nrm (vals q))) :
    ∀ i, ∃ r : ℚ, normalize E q i = .fin r ∧ IsDouble r ∧ |(r : ℝ) - vals q i * (nrm (vals q))⁻¹| ≤ 11 / 2 ^ 53 * (|vals q i| * (nrm (vals q))⁻¹) + tiny := by
  obtain ⟨m, hm, hmd, he⟩ := norm_err hR E hq nq
  have hN0 := nq.pos
  set N := nrm (vals q) with hN
  have hb := abs_le.1 he
  have hm1 : (1 - 8 / 2 ^ 53) * N ≤ m := by linarith
  have hm2 : (m : ℝ) ≤ (1 + 8 / 2 ^ 53) * N := by linarith
  have hmN : N / 2 ≤ m := by
    have : N / 2 ≤ (1 - 8 / 2 ^ 53) * N := by rw [div_eq_mul_inv N, mul_comm N]; exact mul_le_mul_of_nonneg_right (by norm_num) hN0.le
    linarith
  have hm0 : (0 : ℝ) < m := by linarith
  have hm0' : m ≠ 0 := by
    have : (m : ℝ) ≠ 0 := hm0.ne'
    exact_mod_cast this
  -- the reciprocal, exactly
  have hinv : |(m : ℝ)⁻¹ - N⁻¹| ≤ 81 / 10 / 2 ^ 53 * N⁻¹ := by
    have e : (m : ℝ)⁻¹ - N⁻¹ = (N - m) * ((m : ℝ)⁻¹ * N⁻¹) := by field_simp
    rw [e, abs_mul, abs_of_pos (show 0 < (m : ℝ)⁻¹ * N⁻¹ by positivity), abs_sub_comm]
    have h1 : (m : ℝ)⁻¹ * N⁻¹ ≤ ((1 - 8 / 2 ^ 53) * N)⁻¹ * N⁻¹ := mul_le_mul_of_nonneg_right (inv_anti₀ (mul_pos (by norm_num) hN0) hm1) (by positivity)
    calc |(m : ℝ) - N| * ((m : ℝ)⁻¹ * N⁻¹) ≤ (8 / 2 ^ 53 * N) * (((1 - 8 / 2 ^ 53) * N)⁻¹ * N⁻¹) := mul_le_mul he h1 (by positivity) (by positivity)
      _ = 8 / 2 ^ 53 * (1 - 8 / 2 ^ 53)⁻¹ * N⁻¹ := by rw [mul_inv]; field_simp
      _ ≤ _ := mul_le_mul_of_nonneg_right (by norm_num) (by positivity)
  have hminv : (m : ℝ)⁻¹ ≤ 2 * N⁻¹ := by
    rw [show 2 * N⁻¹ = (N / 2)⁻¹ by rw [inv_div]; rfl]
    exact inv_anti₀ (by linarith) hmN
  have hminv0 : 0 < (m : ℝ)⁻¹ := by positivity
  have hNinv : N⁻¹ ≤ 2 ^ (200 : ℤ) := by
    have := inv_anti₀ (by positivity) nq.1
    rwa [← zpow_neg, neg_neg] at this
  have hNinv2 : 2 ^ (-200 : ℤ) ≤ N⁻¹ := by
    have := inv_anti₀ hN0 nq.2
    rwa [← zpow_neg] at this
  have ht0 : (0 : ℝ) < tiny := by exact_mod_cast tiny_pos
  -- each entry
  · intro i
    obtain ⟨hqi, hqd⟩ := hq.fin i
    set x := fval (q i) with hx
    have hvx : vals q i = x := rfl
    have hxN : |(x : ℝ)| ≤ N := abs_le_nrm (vals q) i
    have hxn : |(x : ℝ)| * N⁻¹ ≤ 1 := by rw [← div_eq_mul_inv, div_le_one hN0]; exact hxN
    rw [hvx]
    have big : (4 : ℝ) ≤ 2 ^ (300 : ℤ) := by
      calc (4 : ℝ) = 2 ^ (2 : ℤ) := by norm_num
        _ ≤ _ := zpow_le_zpow_right₀ (by norm_num) (by norm_num)
    unfold normalize
    simp only [hm, hqi]
    split_ifs with hc
    · -- by the reciprocal
      have g1 : fdiv (fun q : ℚ => R q) (.fin 1) (.fin m) = rounded (fun q : ℚ => R q) (.fin (1 / m)) := by simp [fdiv, Fp.div, hm0']
      have hz : |((1 / m : ℚ) : ℝ)| ≤ 2 ^ (300 : ℤ) := by
        push_cast
        rw [one_div, abs_of_pos hminv0]
        refine hminv.trans ?_
        have : (2 : ℝ) * 2 ^ (200 : ℤ) = 2 ^ (201 : ℤ) := by rw [show (201 : ℤ) = 1 + 200 from rfl, zpow_add₀ (by norm_num), zpow_one]
        exact (mul_le_mul_of_nonneg_left hNinv (by norm_num)).trans (this.le.trans (zpow_le_zpow_right₀ (by norm_num) (by norm_num)))
      obtain ⟨r1, r2, -⟩ := round_mid hR hz
      have r3 : |((R ((1 / m : ℚ) : ℝ) : ℚ) : ℝ) - (m : ℝ)⁻¹| ≤ (m : ℝ)⁻¹ / 2 ^ 53 := by
        have h := hR.err_rel (x := ((1 / m : ℚ) : ℝ)) (by
          push_cast
          rw [one_div, abs_of_pos hminv0]
          have : (2 * N)⁻¹ ≤ (m : ℝ)⁻¹ := inv_anti₀ hm0 (hm2.trans (mul_le_mul_of_nonneg_right (by norm_num) hN0.le))
          refine le_trans ?_ this
          rw [mul_inv]
          have e : (2 : ℝ) ^ (-1022 : ℤ) ≤ 2⁻¹ * 2 ^ (-200 : ℤ) := by
            rw [show (2 : ℝ)⁻¹ * 2 ^ (-200 : ℤ) = 2 ^ (-201 : ℤ) by rw [show (-201 : ℤ) = -1 + -200 by norm_num, zpow_add₀ (by norm_num), zpow_neg_one]]
            exact zpow_le_zpow_right₀ (by norm_num) (by norm_num)
          exact e.trans (mul_le_mul_of_nonneg_left hNinv2 (by norm_num)))
        rw [show (((1 / m : ℚ)) : ℝ) = (m : ℝ)⁻¹ by push_cast; rw [one_div]] at h ⊢
        rwa [abs_of_pos hminv0] at h
      rw [g1, r1]
      set r := R ((1 / m : ℚ) : ℝ) with hr
      -- the reciprocal is off by at most 10 units
      have hrN : |(r : ℝ) - N⁻¹| ≤ 92 / 10 / 2 ^ 53 * N⁻¹ := by
        have := abs_sub_le (r : ℝ) (m : ℝ)⁻¹ N⁻¹
        have h2 : (m : ℝ)⁻¹ ≤ (1 + 81 / 10 / 2 ^ 53) * N⁻¹ := by
          have := (abs_le.1 hinv).2
          linarith
        have h3 : (m : ℝ)⁻¹ / 2 ^ 53 ≤ 11 / 10 / 2 ^ 53 * N⁻¹ := by
          calc (m : ℝ)⁻¹ / 2 ^ 53 ≤ (1 + 81 / 10 / 2 ^ 53) * N⁻¹ / 2 ^ 53 := div_le_div_of_nonneg_right h2 (by norm_num)
            _ = (1 + 81 / 10 / 2 ^ 53) / 2 ^ 53 * N⁻¹ := by ring
            _ ≤ _ := mul_le_mul_of_nonneg_right (by norm_num) (by positivity)
        linarith
      have hxr : |(x : ℝ) * r - x * N⁻¹| ≤ 92 / 10 / 2 ^ 53 * (|(x : ℝ)| * N⁻¹) := by
        rw [← mul_sub, abs_mul]
        calc _ ≤ |(x : ℝ)| * (92 / 10 / 2 ^ 53 * N⁻¹) := mul_le_mul_of_nonneg_left hrN (abs_nonneg _)
          _ = _ := by ring
      have hxr2 : |(x : ℝ) * r| ≤ (1 + 92 / 10 / 2 ^ 53) * (|(x : ℝ)| * N⁻¹) := by
        have h1 : |(x : ℝ) * r| ≤ |(x : ℝ) * r - x * N⁻¹| + |(x : ℝ) * N⁻¹| := by simpa using abs_add_le ((x : ℝ) * r - x * N⁻¹) (x * N⁻¹)
        rw [abs_mul (x : ℝ) N⁻¹, abs_of_pos (show 0 < N⁻¹ by positivity)] at h1
        linarith
      have hz2 : |((x * r : ℚ) : ℝ)| ≤ 2 ^ (300 : ℤ) := by
        push_cast
        refine hxr2.trans (le_trans ?_ big)
        calc _ ≤ (1 + 92 / 10 / 2 ^ 53) * (1 : ℝ) := mul_le_mul_of_nonneg_left hxn (by norm_num)
          _ ≤ 4 := by norm_num
      obtain ⟨s1, s2, s3⟩ := round_mid hR hz2
      have g2 : fmul (fun q : ℚ => R q) (.fin x) (.fin r) = rounded (fun q : ℚ => R q) (.fin (x * r)) := rfl
      refine ⟨R ((x * r : ℚ) : ℝ), by rw [g2, s1], s2, ?_⟩
      have h1 := abs_sub_le ((R ((x * r : ℚ) : ℝ) : ℚ) : ℝ) (x * r) (x * N⁻¹)
      push_cast at s3
      have h3 : |(x : ℝ) * r| / 2 ^ 53 ≤ 11 / 10 / 2 ^ 53 * (|(x : ℝ)| * N⁻¹) := by
        calc _ ≤ (1 + 92 / 10 / 2 ^ 53) * (|(x : ℝ)| * N⁻¹) / 2 ^ 53 := div_le_div_of_nonneg_right hxr2 (by norm_num)
          _ = (1 + 92 / 10 / 2 ^ 53) / 2 ^ 53 * (|(x : ℝ)| * N⁻¹) := by ring
          _ ≤ _ := mul_le_mul_of_nonneg_right (by norm_num) (by positivity)
      push_cast at h1 ⊢
      have h4 : 11 / 2 ^ 53 * (|(x : ℝ)| * N⁻¹) = 92 / 10 / 2 ^ 53 * (|(x : ℝ)| * N⁻¹) + 18 / 10 / 2 ^ 53 * (|(x : ℝ)| * N⁻¹) := by ring
      have h5 : 11 / 10 / 2 ^ 53 * (|(x : ℝ)| * N⁻¹) ≤ 18 / 10 / 2 ^ 53 * (|(x : ℝ)| * N⁻¹) := mul_le_mul_of_nonneg_right (by norm_num) (by positivity)
      linarith
    · have g1 : fdiv (fun q : ℚ => R q) (.fin x) (.fin m) = rounded (fun q : ℚ => R q) (.fin (x / m)) := by simp [fdiv, Fp.div, hm0']
      have hxr : |(x : ℝ) / m - x * N⁻¹| ≤ 81 / 10 / 2 ^ 53 * (|(x : ℝ)| * N⁻¹) := by
        rw [div_eq_mul_inv, ← mul_sub, abs_mul]
        calc _ ≤ |(x : ℝ)| * (81 / 10 / 2 ^ 53 * N⁻¹) := mul_le_mul_of_nonneg_left hinv (abs_nonneg _)
          _ = _ := by ring
      have hxr2 : |(x : ℝ) / m| ≤ (1 + 81 / 10 / 2 ^ 53) * (|(x : ℝ)| * N⁻¹) := by
        have h1 : |(x : ℝ) / m| ≤ |(x : ℝ) / m - x * N⁻¹| + |(x : ℝ) * N⁻¹| := by simpa using abs_add_le ((x : ℝ) / m - x * N⁻¹) (x * N⁻¹)
        rw [abs_mul (x : ℝ) N⁻¹, abs_of_pos (show 0 < N⁻¹ by positivity)] at h1
        linarith
      have hz2 : |((x / m : ℚ) : ℝ)| ≤ 2 ^ (300 : ℤ) := by
        push_cast
        refine hxr2.trans (le_trans ?_ big)
        calc _ ≤ (1 + 81 / 10 / 2 ^ 53) * (1 : ℝ) := mul_le_mul_of_nonneg_left hxn (by norm_num)
          _ ≤ 4 := by norm_num
      obtain ⟨s1, s2, s3⟩ := round_mid hR hz2
      refine ⟨R ((x / m : ℚ) : ℝ), by rw [g1, s1], s2, ?_⟩
      have h1 := abs_sub_le ((R ((x / m : ℚ) : ℝ) : ℚ) : ℝ) (x / m) (x * N⁻¹)
      push_cast at s3
      have h3 : |(x : ℝ) / m| / 2 ^ 53 ≤ 11 / 10 / 2 ^ 53 * (|(x : ℝ)| * N⁻¹) := by
        calc _ ≤ (1 + 81 / 10 / 2 ^ 53) * (|(x : ℝ)| * N⁻¹) / 2 ^ 53 := div_le_div_of_nonneg_right hxr2 (by norm_num)
          _ = (1 + 81 / 10 / 2 ^ 53) / 2 ^ 53 * (|(x : ℝ)| * N⁻¹) := by ring
          _ ≤ _ := mul_le_mul_of_nonneg_right (by norm_num) (by positivity)
      push_cast at h1 ⊢
      have h4 : 11 / 2 ^ 53 * (|(x : ℝ)| * N⁻¹) = 81 / 10 / 2 ^ 53 * (|(x : ℝ)| * N⁻¹) + 29 / 10 / 2 ^ 53 * (|(x : ℝ)| * N⁻¹) := by ring
      have h5 : 11 / 10 / 2 ^ 53 * (|(x : ℝ)| * N⁻¹) ≤ 29 / 10 / 2 ^ 53 * (|(x : ℝ)| * N⁻¹) := mul_le_mul_of_nonneg_right (by norm_num) (by positivity)
      linarith

/-- the entries of the normalized vector -/
theorem normalize_err (E : Eigen fun q => R q) {q : F4} (hq : Finite q) (nq : InR (-200) 200 (nrm (vals q))) :
    Finite (normalize E q) ∧ nrm (vals (normalize E q) - (nrm (vals q))⁻¹ • vals q) ≤ 12 / 2 ^ 53 := by
  have each := normalize_entries hR E hq nq
  have hN0 := nq.pos
  set N := nrm (vals q) with hN
  have ht0 : (0 : ℝ) < tiny := by exact_mod_cast tiny_pos
  have htiny : (tiny : ℝ) ≤ 1 / 2 ^ 100 := by
    have := tiny_le (S := 1) ⟨zpow_le_one_of_nonpos₀ (by norm_num) (by norm_num), one_le_zpow₀ (by norm_num) (by norm_num)⟩
    simpa using this
  constructor
  · intro i
    obtain ⟨r, e, hd, hb⟩ := each i
    rw [e]
    refine ⟨rfl, hd, ?_⟩
    have hxn : |vals q i| * N⁻¹ ≤ 1 := by rw [← div_eq_mul_inv, div_le_one hN0]; exact abs_le_nrm (vals q) i
    have h1 : |(r : ℝ)| ≤ |(r : ℝ) - vals q i * N⁻¹| + |vals q i * N⁻¹| := by simpa using abs_add_le ((r : ℝ) - vals q i * N⁻¹) (vals q i * N⁻¹)
    rw [abs_mul (vals q i) N⁻¹, abs_of_pos (show 0 < N⁻¹ by positivity)] at h1
    have h2 : 11 / 2 ^ 53 * (|vals q i| * N⁻¹) ≤ 11 / 2 ^ 53 * 1 := mul_le_mul_of_nonneg_left hxn (by norm_num)
    have h3 : |(r : ℝ)| < 2 := by
      have : (11 : ℝ) / 2 ^ 53 * 1 + 1 / 2 ^ 100 < 1 := by norm_num
      linarith
    have h4 : ((|r| : ℚ) : ℝ) < ((2 : ℚ) : ℝ) := by rw [Rat.cast_abs]; simpa using h3
    have h5 : |r| < 2 := by exact_mod_cast h4
    have h6 : (2 : ℚ) ≤ tooBig := by
      unfold tooBig
      calc (2 : ℚ) = 2 ^ 1 := by norm_num
        _ ≤ _ := pow_le_pow_right₀ (by norm_num) (by norm_num)
    exact h5.trans_le h6
  · have hw : ∀ i, |(vals (normalize E q) - N⁻¹ • vals q) i| ≤ (11 / 2 ^ 53 * N⁻¹) * (|vals q i|) + tiny := by
      intro i
      obtain ⟨r, e, hd, hb⟩ := each i
      have : (vals (normalize E q) - N⁻¹ • vals q) i = r - vals q i * N⁻¹ := by
        simp only [Pi.sub_apply, Pi.smul_apply, smul_eq_mul, vals, e, fval]; ring
      rw [this]
      refine hb.trans (le_of_eq ?_); ring
    refine (nrm_mono (w := (fun i => |((11 / 2 ^ 53 * N⁻¹) • vals q) i| + tiny)) fun i => ?_).trans ?_
    · refine (hw i).trans (le_of_eq ?_)
      rw [Pi.smul_apply, smul_eq_mul, abs_mul, abs_of_pos (show 0 < 11 / 2 ^ 53 * N⁻¹ by positivity)]
    · refine (nrm_wt (δ := (tiny : ℝ)) (by norm_num) ht0.le _).trans ?_
      rw [nrm_smul, abs_of_pos (show 0 < 11 / 2 ^ 53 * N⁻¹ by positivity), mul_assoc, ← hN, inv_mul_cancel₀ hN0.ne']
      have : (11 : ℝ) / 2 ^ 53 * 1 + 2 * (1 / 2 ^ 100) ≤ 12 / 2 ^ 53 := by norm_num
      linarith

end Verif.KinematicsDouble
