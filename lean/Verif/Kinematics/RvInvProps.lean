import Verif.Kinematics.RvInv
import Verif.Kinematics.RvRateProps
import Verif.PTree.CodecsLemmas

/-!
# C185: the inverse S-matrix of rotation vectors in doubles
-/

namespace Verif.RvInv

open Verif.Common Verif.KinematicsDouble Verif.ErDouble Verif.RateDouble Verif.RotVecDouble Verif.EulerDouble Verif.RvRate
open Verif.Kinematics (V3 M3 IsSMatrix)

local notation "nrm" => Kinematics.norm

/-- an infinity or NaN -/
def Lost (f : Fp) : Prop := f.isFinite = false

theorem lost_rounded {rnd : ℚ → ℚ} {f : Fp} (h : Lost f) : Lost (rounded rnd f) := by
  cases f with
  | fin q => simp [Lost, Fp.isFinite] at h
  | inf b => exact h
  | nan => exact h

theorem lost_add {rnd : ℚ → ℚ} {f g : Fp} (h : Lost f ∨ Lost g) : Lost (fadd rnd f g) := by
  refine lost_rounded ?_
  cases f <;> cases g <;> simp_all [Lost, Fp.isFinite, Fp.add]
  rename_i a b
  cases a <;> cases b <;> simp

theorem lost_neg {f : Fp} (h : Lost f) : Lost f.neg := by cases f <;> simp_all [Lost, Fp.isFinite, Fp.neg]

theorem lost_sub {rnd : ℚ → ℚ} {f g : Fp} (h : Lost f ∨ Lost g) : Lost (fsub rnd f g) := lost_add (h.imp id lost_neg)

theorem lost_mul {rnd : ℚ → ℚ} {f g : Fp} (h : Lost f ∨ Lost g) : Lost (fmul rnd f g) := by
  refine lost_rounded ?_
  unfold Lost
  cases f <;> cases g <;> simp_all [Lost, Fp.isFinite, Fp.mul]
  all_goals
    split <;> first | rfl | (rename_i h; split at h <;> simp at h)

theorem lost_sum {rnd : ℚ → ℚ} {l : List Fp} {s : Fp} (h : SumOf rnd l s) (hl : ∃ f ∈ l, Lost f) : Lost s := by
  induction h with
  | one x => simpa using hl
  | add ha hb hn iha ihb =>
    obtain ⟨f, hf, hx⟩ := hl
    rw [hn.mem_iff, List.mem_append] at hf
    exact lost_add (hf.imp (fun h => iha ⟨f, h, hx⟩) fun h => ihb ⟨f, h, hx⟩)

section
variable {R : ℝ → ℚ} (hR : IsRndR R) (L : SinLib fun q => R q)

theorem lost_square {c : Fp} {A : FM3} (h : Lost c) (i j : Fin 3) : Lost (scaledSquare L c A i j) := by
  unfold scaledSquare
  split
  · exact lost_mul (.inl h)
  · exact lost_sum (L.sum3_sum _ _ _) ⟨_, List.mem_cons_self, lost_mul (.inl (lost_mul (.inl h)))⟩

/-- a division by zero -/
theorem lost_div_zero {rnd : ℚ → ℚ} (f : Fp) : Lost (fdiv rnd f (.fin 0)) := by
  refine lost_rounded ?_
  cases f with
  | fin q => by_cases hq : q = 0 <;> simp [hq, Lost, Fp.isFinite, Fp.div]
  | inf b => simp [Lost, Fp.isFinite, Fp.div]
  | nan => simp [Lost, Fp.isFinite, Fp.div]

include hR

/-- the cosine of a short angle is rounded to one -/
theorem cos_one {t : ℚ} (h : |(t : ℝ)| ≤ 1 / 2 ^ 27) : R (Real.cos t) = 1 := by
  have h1 := Real.one_sub_sq_div_two_le_cos (x := (t : ℝ))
  have h2 := Real.cos_le_one (t : ℝ)
  have h3 : (t : ℝ) ^ 2 ≤ 1 / 2 ^ 54 := by
    rw [← sq_abs]
    have := mul_le_mul h h (abs_nonneg _) (by norm_num)
    norm_num at this ⊢
    linarith
  have one : IsDouble 1 := by simpa using isDouble_int 1 (by norm_num)
  have n := hR.near (Real.cos t) 1 one
  by_contra hne
  have g := Verif.PTree.Codecs.double_gap one (hR.mem (Real.cos t)) (by norm_num) hne
  have g' : (1 : ℝ) / 2 ^ 53 ≤ |(R (Real.cos t) : ℝ) - 1| := by
    have : ((1 / 2 ^ 53 : ℚ) : ℝ) ≤ ((|R (Real.cos t) - 1| : ℚ) : ℝ) := by exact_mod_cast g
    push_cast at this
    exact this
  have d := abs_sub_le (R (Real.cos t) : ℝ) (Real.cos t) 1
  push_cast at n
  have e : |1 - Real.cos (t : ℝ)| ≤ 1 / 2 ^ 55 := by
    rw [abs_of_nonneg (by linarith)]
    norm_num at h3 ⊢
    linarith
  rw [abs_sub_comm (Real.cos (t : ℝ)) 1] at d
  norm_num at e g' d n
  linarith

/-- **C185** With a correctly rounded cosine, of every finite rotation vector whose length is between 2^-47 and 2^-28 the computed inverse S-matrix has no finite entry at all, although the true one is the identity up to 2^-28. -/
theorem C185_short (hcos : ∀ x : ℚ, L.cos x = R (Real.cos x)) (p : F3) (hp : Finite p) (hl : 1 / 2 ^ 47 ≤ nrm (vals p)) (hb : nrm (vals p) ≤ 1 / 2 ^ 28) (i j : Fin 3) : (invS L p i j).isFinite = false := by
  obtain ⟨t, ht, -, t0, te⟩ := norm3_rel hR L.toLib hp (hb.trans (by norm_num)) hl
  have u1 : (17 / 10 * u51 : ℝ) ≤ 1 / 1000 := by unfold u51; norm_num
  have te' := abs_le.1 (te.trans (mul_le_mul_of_nonneg_right u1 (nrm_nonneg _)))
  have tp : (t : ℝ) ≠ 0 := by
    have hN : 0 < nrm (vals p) := lt_of_lt_of_le (by positivity) hl
    have : 0 < (t : ℝ) := by linarith [te'.1]
    exact this.ne'
  have tq : t ≠ 0 := by exact_mod_cast tp
  have c1 : libm L.cos (.fin t) = .fin 1 := by
    show Fp.fin (L.cos t) = _
    rw [hcos, cos_one hR]
    have : (0 : ℝ) ≤ t := by exact_mod_cast t0
    rw [abs_of_nonneg this]
    norm_num at hb te' ⊢
    linarith
  have one : R ((0 : ℚ) : ℝ) = 0 := hR.rat.fix (x := 0) (by simpa using isDouble_int 0 (by norm_num))
  have d0 : fsub (fun q => R q) (.fin 1) (.fin 1) = .fin 0 := by
    show rounded (fun q : ℚ => R q) (.fin (1 + -1)) = _
    rw [show (1 : ℚ) + -1 = 0 by norm_num]
    unfold rounded
    simp only
    rw [one, if_pos (by unfold tooBig; rw [abs_zero]; positivity)]
  have ct : Lost (cot L (.fin t)) := by
    unfold cot
    rw [c1, d0]
    exact lost_div_zero _
  have al : Lost (a1 L (.fin t)) := lost_mul (.inr (lost_sub (.inr (lost_mul (.inr ct)))))
  have nz : ¬ Fp.eq (.fin t) (.fin 0) = true := by
    show ¬ decide (t = 0) = true
    rw [decide_eq_true_eq]
    exact tq
  have e : invS L p = largeInv L p (.fin t) := by
    unfold invS
    simp only
    rw [ht, if_neg nz]
  rw [e]
  exact lost_add (.inr (lost_square L al i j))

/-! ## The zero vector -/

theorem round_zero : rounded (fun q => R q) (.fin 0) = .fin 0 := by
  have one : R ((0 : ℚ) : ℝ) = 0 := hR.rat.fix (x := 0) (by simpa using isDouble_int 0 (by norm_num))
  unfold rounded
  simp only
  rw [one, if_pos (by unfold tooBig; rw [abs_zero]; positivity)]

theorem sum_zero {l : List Fp} {s : Fp} (h : SumOf (fun q => R q) l s) (hl : ∀ f ∈ l, f = .fin 0) : s = .fin 0 := by
  induction h with
  | one x => exact hl x (List.mem_singleton_self x)
  | add ha hb hn iha ihb =>
    rw [iha fun f hf => hl f (hn.mem_iff.2 (List.mem_append_left _ hf)), ihb fun f hf => hl f (hn.mem_iff.2 (List.mem_append_right _ hf))]
    show rounded (fun q => R q) (.fin (0 + 0)) = _
    rw [add_zero]
    exact round_zero hR

/-- **C185** The inverse S-matrix of the zero vector is exactly the identity. -/
theorem C185_zero (p : F3) (hp : ∀ i, p i = .fin 0) : invS L p = ErDouble.oneD := by
  have m : ∀ i, fmul (fun q => R q) (p i) (p i) = .fin 0 := by
    intro i
    rw [hp i]
    show rounded (fun q => R q) (.fin (0 * 0)) = _
    rw [mul_zero]
    exact round_zero hR
  have n : norm3 L.toLib p = .fin 0 := by
    unfold norm3
    rw [sum_zero hR (L.sum3_sum _ _ _) (by simp [m])]
    unfold Verif.NumericDouble.fsqrt
    simp only
    rw [if_neg (lt_irrefl _), Rat.cast_zero, Real.sqrt_zero]
    have : R ((0 : ℚ) : ℝ) = 0 := hR.rat.fix (x := 0) (by simpa using isDouble_int 0 (by norm_num))
    rw [Rat.cast_zero] at this
    rw [this]
  unfold invS
  simp only
  rw [n, if_pos (by decide)]

/-! ## Lengths between 2^-20 and 4 -/

omit hR in
/-- the denominator of `cot` is not small -/
theorem den_big {N : ℝ} (h1 : 1 / 2 ≤ N) (h2 : N ≤ 4) : 1 / 9 ≤ 1 - Real.cos N := by
  rcases le_total N Real.pi with h | h
  · have m := Real.cos_le_cos_of_nonneg_of_le_pi (by norm_num) h h1
    have b := (abs_le.1 (Real.cos_bound (x := 1 / 2) (by rw [abs_of_pos] <;> norm_num))).2
    rw [abs_of_pos (by norm_num : (0 : ℝ) < 1 / 2)] at b
    norm_num at b m ⊢
    linarith
  · have pi3 := Real.pi_gt_three
    have : 0 ≤ Real.cos (N - Real.pi) := Real.cos_nonneg_of_mem_Icc ⟨by linarith, by linarith⟩
    rw [Real.cos_sub_pi] at this
    linarith

/-- the entries of the matrix over the real numbers, from the accuracy of `cot` -/
theorem inv_core {p : F3} (hp : Finite p) {t : ℚ} (ht : norm3 L.toLib p = .fin t) (td : IsDouble t) (te' : |(t : ℝ) - nrm (vals p)| ≤ 68 / 10 / 2 ^ 53 * nrm (vals p)) (h1 : 1 / 2 ^ 20 ≤ nrm (vals p)) (h2 : nrm (vals p) ≤ 6) {S : ℝ} (s1 : 1 ≤ S)
    (s2 : S ≤ 2 ^ 70) (cot : Acc 41 (cot L (.fin t)) (-Real.sin (nrm (vals p)) / (Real.cos (nrm (vals p)) - 1)) S) (i j : Fin 3) :
    Acc 75 (invS L p i j) (Kinematics.rvInvS (vals p) i j) (1 + 1 / 2 * nrm (vals p) + 3 * (1 + 1 / 2 * nrm (vals p) * S)) := by
  have n0 : 0 < nrm (vals p) := lt_of_lt_of_le (by norm_num) h1
  have hA : ∀ i j, Acc 0 (crossMx p i j) (Kinematics.crossMx (vals p) i j) (nrm (vals p)) := by
    have z : Acc 0 (.fin 0) 0 (nrm (vals p)) := CovDouble.acc_zero (nrm_nonneg _)
    have a : ∀ i, Acc 0 (p i) (vals p i) (nrm (vals p)) := hp.acc (a := fun _ => nrm (vals p)) fun i => abs_le_nrm (vals p) i
    intro i j
    fin_cases i <;> fin_cases j <;> first | exact z | exact a _ | exact (a _).neg
  have e2 : Kinematics.rvInvS (vals p) = 1 + (1 / 2 : ℝ) • Kinematics.crossMx (vals p) + (1 / (nrm (vals p) * nrm (vals p)) * (1 - 1 / 2 * nrm (vals p) *
        (-Real.sin (nrm (vals p)) / (Real.cos (nrm (vals p)) - 1)))) • (Kinematics.crossMx (vals p) * Kinematics.crossMx (vals p)) := by
    unfold Kinematics.rvInvS
    simp only
    rw [Kinematics.rvInvS.inner3, Kinematics.norm_eq, if_neg n0.ne', Matrix.smul_mul]
  rw [e2]
  generalize Kinematics.crossMx (vals p) = B at hA ⊢
  obtain ⟨N, hN⟩ : ∃ N, N = nrm (vals p) := ⟨_, rfl⟩
  rw [← hN] at n0 te' h1 h2 hA cot ⊢
  have N0 := n0
  have tb := abs_le.1 te'
  have tl : N * (999 / 1000) ≤ t := by
    have := tb.1
    norm_num at this ⊢
    linarith
  have tp : (0 : ℝ) < t := lt_of_lt_of_le (by positivity) tl
  have tq : t ≠ 0 := by rintro rfl; simp at tp
  have nz : ¬ Fp.eq (.fin t) (.fin 0) = true := by
    show ¬ decide (t = 0) = true
    rw [decide_eq_true_eq]
    exact tq
  have e : invS L p = largeInv L p (.fin t) := by
    unfold invS
    simp only
    rw [ht, if_neg nz]
  rw [e]
  have tA : Acc 7 (.fin t) N N := ⟨t, rfl, td, (abs_of_pos N0).le, te'.trans (mul_le_mul_of_nonneg_right (by unfold eps; norm_num) N0.le)⟩
  -- the factor of the square
  have half : Acc 0 (.fin (1 / 2)) (1 / 2) (1 / 2) := by
    have := Acc.fin (q := 1 / 2) ⟨1, -1, by norm_num, by norm_num, by norm_num⟩ (S := 1 / 2) (by push_cast; norm_num)
    simpa using this
  have one0 : Acc 0 (.fin 1) 1 1 := CovDouble.acc_one le_rfl
  have l1 : 1 / 2 ^ 21 ≤ 1 / 2 * N := by norm_num at h1 ⊢; linarith
  have hp1 := Acc.mul hR.rat (by norm_num) half tA (sc (le_trans (by norm_num) l1) (by norm_num; linarith))
  have w1 : 1 / 2 ^ 21 ≤ 1 / 2 * N * S := l1.trans (le_mul_of_one_le_right (by positivity) s1)
  have w2 : 1 / 2 * N * S ≤ 2 ^ 72 := by
    have := mul_le_mul (show 1 / 2 * N ≤ 3 by linarith) s2 (by linarith) (by norm_num)
    norm_num at this ⊢
    linarith
  have hp2 := Acc.mul hR.rat (by norm_num) hp1 cot (sc (le_trans (by norm_num) w1) (w2.trans (by norm_num)))
  have hp3 := Acc.sub hR.rat (k := 50) (by norm_num) le_rfl (by norm_num) one0 hp2 (sc (by norm_num; norm_num at w1; linarith) (by norm_num; norm_num at w2; linarith))
  obtain ⟨T, hT⟩ : ∃ T, T = 1 + 1 / 2 * N * S := ⟨_, rfl⟩
  rw [← hT] at hp3 ⊢
  have T1 : 1 ≤ T := by rw [hT]; norm_num at w1 ⊢; linarith
  have T2 : T ≤ 2 ^ 73 := by rw [hT]; norm_num at w2 ⊢; linarith
  have sq1 : 1 / 2 ^ 40 ≤ N * N := by
    have := mul_le_mul h1 h1 (by norm_num) N0.le
    norm_num at this ⊢
    linarith
  have sq2 : N * N ≤ 36 := by nlinarith
  have ppA := Acc.mul hR.rat (by norm_num) tA tA (sc (le_trans (by norm_num) sq1) (sq2.trans (by norm_num)))
  obtain ⟨u, hu, -, -, ue⟩ := ppA
  have ue' : |(u : ℝ) - N * N| ≤ 151 / 10 / 2 ^ 53 * (N * N) := ue.trans (mul_le_mul_of_nonneg_right (by unfold eps; norm_num) (by positivity))
  have ul : N * N * (999 / 1000) ≤ u := by
    have := (abs_le.1 ue').1
    norm_num at this ⊢
    linarith
  have up : (0 : ℝ) < u := lt_of_lt_of_le (by positivity) ul
  have uq : u ≠ 0 := by rintro rfl; simp at up
  have i1 : 1 / (N * N) ≤ 2 ^ 40 := by
    rw [div_le_iff₀ (by positivity)]
    norm_num at sq1 ⊢
    linarith
  have i2 : 1 / 36 ≤ 1 / (N * N) := one_div_le_one_div_of_le (by positivity) sq2
  have rA : Acc 17 (fdiv (fun q => R q) (.fin 1) (fmul (fun q => R q) (.fin t) (.fin t))) (1 / (N * N)) (1 / (N * N)) := by
    rw [hu]
    have r := Acc.round hR.rat (m := 16) (z := 1 / u) (x := 1 / (N * N)) (S := 1 / (N * N)) (by norm_num) (sc (le_trans (by norm_num) i2) (i1.trans (by norm_num))) (abs_of_pos (by positivity)).le (by
      have e7 : 155 / 10 / 2 ^ 53 ≤ (1 + eps) ^ 16 - 1 := by unfold eps; norm_num
      refine le_trans ?_ (mul_le_mul_of_nonneg_right e7 (by positivity))
      push_cast
      rw [show (1 : ℝ) / u - 1 / (N * N) = (N * N - u) / u * (1 / (N * N)) by field_simp, abs_mul, abs_of_pos (by positivity : 0 < 1 / (N * N))]
      refine mul_le_mul_of_nonneg_right ?_ (by positivity)
      rw [abs_div, abs_of_pos up, div_le_iff₀ up, abs_sub_comm]
      norm_num at ue' ⊢
      linarith)
    show Acc 17 (rounded _ (if u = 0 then _ else Fp.fin (1 / u))) _ _
    rw [if_neg uq]
    exact r
  have aA : Acc 69 (a1 L (.fin t)) (1 / (N * N) * (1 - 1 / 2 * N * (-Real.sin N / (Real.cos N - 1)))) (T / (N * N)) := by
    have := Acc.mul hR.rat (by norm_num) rA hp3 (sc (by
      refine le_trans ?_ (le_mul_of_one_le_right (by positivity) T1)
      exact le_trans (by norm_num) i2) (by
      refine (mul_le_mul i1 T2 (by linarith) (by norm_num)).trans ?_
      norm_num))
    exact this.mono (by norm_num) (le_of_eq (by ring))
  generalize 1 / (N * N) * (1 - 1 / 2 * N * (-Real.sin N / (Real.cos N - 1))) = α at aA ⊢
  -- the square
  have qA : Acc 73 (scaledSquare L (a1 L (.fin t)) (crossMx p) i j) (α * (B * B) i j) (3 * T) := by
    unfold scaledSquare
    rw [Matrix.mul_apply, Fin.sum_univ_three]
    have f1 : T / (N * N) * (3 * (N * N)) = 3 * T := by field_simp
    have f2 : T / (N * N) * N = T / N := by field_simp
    have f3 : T / N * N = T := by field_simp
    have f4 : 1 / 6 ≤ T / N := by rw [le_div_iff₀ N0]; linarith
    have f5 : T / N ≤ 2 ^ 93 := by
      rw [div_le_iff₀ N0]
      refine T2.trans ?_
      norm_num at h1 ⊢
      linarith
    have f6 : Scale (3 * T) := sc (le_trans (by norm_num) (show 3 ≤ 3 * T by linarith)) (le_trans (show 3 * T ≤ 3 * 2 ^ 73 by linarith) (by norm_num))
    have f7 : Scale T := sc (le_trans (by norm_num) T1) (T2.trans (by norm_num))
    split
    · have t := fun k : Fin 3 => Acc.mul hR.rat (by norm_num) (hA i k) (hA k j) (sc (le_trans (by norm_num) sq1) (sq2.trans (by norm_num)))
      have := Acc.mul hR.rat (by norm_num) aA (sum3_acc hR L (by norm_num) (le_trans (by norm_num) sq1) (sq2.trans (by norm_num)) t) (by rw [f1]; exact f6)
      exact this.mono (by norm_num) f1.le
    · have t := fun k : Fin 3 => Acc.mul hR.rat (by norm_num) (Acc.mul hR.rat (by norm_num) aA (hA i k) (by rw [f2]; exact sc (le_trans (by norm_num) f4) (f5.trans (by norm_num)))) (hA k j) (by rw [f2, f3]; exact f7)
      rw [f2, f3] at t
      have := sum3_acc hR L (by norm_num) (le_trans (by norm_num) T1) (T2.trans (by norm_num)) t
      rw [show α * (B i 0 * B 0 j + B i 1 * B 1 j + B i 2 * B 2 j) = α * B i 0 * B 0 j + α * B i 1 * B 1 j + α * B i 2 * B 2 j by ring]
      exact this.mono (by norm_num) le_rfl
  have one : Acc 1 (ErDouble.oneD i j) ((1 : M3) i j) 1 := by
    unfold ErDouble.oneD
    by_cases hij : i = j
    · rw [if_pos hij, hij, Matrix.one_apply_eq]
      exact (CovDouble.acc_one le_rfl).mono (by norm_num) le_rfl
    · rw [if_neg hij, Matrix.one_apply_ne hij]
      exact (CovDouble.acc_zero (by norm_num)).mono (by norm_num) le_rfl
  unfold largeInv
  simp only [Matrix.add_apply, Matrix.smul_apply, smul_eq_mul]
  have p1 := Acc.mul hR.rat (by norm_num) half (hA i j) (sc (le_trans (by norm_num) l1) (by norm_num; linarith))
  have p2 := Acc.add hR.rat (k := 1) le_rfl (by norm_num) (by norm_num) one p1 (sc (by norm_num; linarith) (by norm_num; linarith))
  have p3 := Acc.add hR.rat (k := 73) (by norm_num) le_rfl (by norm_num) p2 qA (sc (le_trans (by norm_num) (show 3 ≤ 1 + 1 / 2 * N + 3 * T by linarith)) (le_trans (show 1 + 1 / 2 * N + 3 * T ≤ 4 + 3 * 2 ^ 73 by linarith) (by norm_num)))
  exact p3.mono (by norm_num) le_rfl

/-- the entries for lengths between 1/2 and 4 -/
theorem inv_acc {p : F3} (hp : Finite p) (h1 : 1 / 2 ≤ nrm (vals p)) (h2 : nrm (vals p) ≤ 4) (i j : Fin 3) : Acc 75 (invS L p i j) (Kinematics.rvInvS (vals p) i j) 910 := by
  obtain ⟨t, ht, td, t0, te⟩ := norm3_rel hR L.toLib hp (h2.trans (by norm_num)) (le_trans (by norm_num) h1)
  have te' : |(t : ℝ) - nrm (vals p)| ≤ 68 / 10 / 2 ^ 53 * nrm (vals p) := te.trans (le_of_eq (by unfold u51; norm_num))
  have core := fun c => inv_core hR L hp ht td te' (le_trans (by norm_num) h1) (h2.trans (by norm_num)) (S := 150) (by norm_num) (by norm_num) c i j
  refine (core ?_).mono le_rfl (by linarith)
  clear core
  obtain ⟨N, hN⟩ : ∃ N, N = nrm (vals p) := ⟨_, rfl⟩
  rw [← hN] at te' h1 h2 ⊢
  have d4 : |(t : ℝ) - N| ≤ 272 / 10 / 2 ^ 53 := te'.trans (by norm_num; linarith)
  have se : |(L.sin t : ℝ) - Real.sin N| ≤ 293 / 10 / 2 ^ 53 := by
    have a := L.sin_err t
    have b := (Real.abs_sin_sub_sin_le t N).trans d4
    have c := abs_sub_le (L.sin t : ℝ) (Real.sin t) (Real.sin N)
    norm_num at a b c ⊢
    linarith
  have ce : |(L.cos t : ℝ) - Real.cos N| ≤ 293 / 10 / 2 ^ 53 := by
    have a := L.cos_err t
    have b := (Real.abs_cos_sub_cos_le t N).trans d4
    have c := abs_sub_le (L.cos t : ℝ) (Real.cos t) (Real.cos N)
    norm_num at a b c ⊢
    linarith
  have cA : Acc 30 (libm L.cos (.fin t)) (Real.cos N) 1 := ⟨L.cos t, rfl, L.cos_double t, Real.abs_cos_le_one N, ce.trans (by unfold eps; norm_num)⟩
  have one0 : Acc 0 (.fin 1) 1 1 := CovDouble.acc_one le_rfl
  have dA := Acc.sub hR.rat (k := 30) le_rfl (by norm_num) (by norm_num) cA one0 (sc (by norm_num) (by norm_num))
  obtain ⟨d, hd, -, -, de⟩ := dA
  have de' : |(d : ℝ) - (Real.cos N - 1)| ≤ 63 / 2 ^ 53 := de.trans (by unfold eps; norm_num)
  have big := den_big h1 h2
  have dn : (d : ℝ) ≤ -(1 / 10) := by
    have := (abs_le.1 de').2
    norm_num at this ⊢
    linarith
  have dq : d ≠ 0 := by rintro rfl; norm_num at dn
  have s1 := Real.abs_sin_le_one N
  have D0 : Real.cos N - 1 < 0 := by linarith
  have q9 : |-Real.sin N / (Real.cos N - 1)| ≤ 9 := by
    rw [abs_div, abs_neg, abs_of_neg D0, div_le_iff₀ (by linarith)]
    linarith
  have r:= Acc.round hR.rat (m := 40) (z := -L.sin t / d) (x := -Real.sin N / (Real.cos N - 1)) (S := 150) (by norm_num) (sc (by norm_num) (by norm_num)) (q9.trans (by norm_num)) (by
    refine le_trans ?_ (show (6000 : ℝ) / 2 ^ 53 ≤ _ by unfold eps; norm_num)
    push_cast
    rw [show -(L.sin t : ℝ) / d - -Real.sin N / (Real.cos N - 1) = (Real.sin N - L.sin t) / d + -Real.sin N / (Real.cos N - 1) * ((Real.cos N - 1 - d) / d) by
      have : (d : ℝ) ≠ 0 := by exact_mod_cast dq
      have := D0.ne
      field_simp
      ring]
    refine (abs_add_le _ _).trans ?_
    have dneg : (d : ℝ) < 0 := by linarith
    have x1 : |(Real.sin N - L.sin t) / (d : ℝ)| ≤ 293 / 2 ^ 53 := by
      rw [abs_div, abs_of_neg dneg, div_le_iff₀ (by linarith), abs_sub_comm]
      norm_num at se ⊢
      linarith
    have x2 : |(Real.cos N - 1 - d) / (d : ℝ)| ≤ 630 / 2 ^ 53 := by
      rw [abs_div, abs_of_neg dneg, div_le_iff₀ (by linarith), abs_sub_comm]
      norm_num at de' ⊢
      linarith
    rw [abs_mul]
    have := mul_le_mul q9 x2 (abs_nonneg _) (by norm_num)
    norm_num at x1 this ⊢
    linarith)
  unfold RvInv.cot
  rw [hd]
  show Acc 41 (rounded _ (if d = 0 then _ else Fp.fin (-L.sin t / d))) _ _
  rw [if_neg dq]
  exact r

omit hR in
/-- the denominator of a long vector -/
theorem den_long {N : ℝ} (h1 : 4 ≤ N) (h2 : N ≤ 6) : 1 / 26 ≤ 1 - Real.cos N := by
  have p2 := Real.pi_gt_d2
  have p3 := Real.pi_lt_d2
  have e : Real.cos N = Real.cos (2 * Real.pi - N) := by rw [Real.cos_two_pi_sub]
  have m := Real.cos_le_cos_of_nonneg_of_le_pi (x := 28 / 100) (y := 2 * Real.pi - N) (by norm_num) (by linarith) (by linarith)
  have b := (abs_le.1 (Real.cos_bound (x := 28 / 100) (by rw [abs_of_pos] <;> norm_num))).2
  rw [abs_of_pos (by norm_num : (0 : ℝ) < 28 / 100)] at b
  rw [e]
  norm_num at b m ⊢
  linarith

/-- the entries for lengths between 4 and 6 -/
theorem inv_acc_long {p : F3} (hp : Finite p) (h1 : 4 ≤ nrm (vals p)) (h2 : nrm (vals p) ≤ 6) (i j : Fin 3) : Acc 75 (invS L p i j) (Kinematics.rvInvS (vals p) i j) 14410 := by
  obtain ⟨t, ht, td, t0, te⟩ := norm3_rel hR L.toLib hp (h2.trans (by norm_num)) (le_trans (by norm_num) h1)
  have te' : |(t : ℝ) - nrm (vals p)| ≤ 68 / 10 / 2 ^ 53 * nrm (vals p) := te.trans (le_of_eq (by unfold u51; norm_num))
  have core := fun c => inv_core hR L hp ht td te' (le_trans (by norm_num) h1) h2 (S := 1600) (by norm_num) (by norm_num) c i j
  refine (core ?_).mono le_rfl (by linarith)
  clear core
  obtain ⟨N, hN⟩ : ∃ N, N = nrm (vals p) := ⟨_, rfl⟩
  rw [← hN] at te' h1 h2 ⊢
  have d4 : |(t : ℝ) - N| ≤ 408 / 10 / 2 ^ 53 := te'.trans (by norm_num; linarith)
  have se : |(L.sin t : ℝ) - Real.sin N| ≤ 429 / 10 / 2 ^ 53 := by
    have a := L.sin_err t
    have b := (Real.abs_sin_sub_sin_le t N).trans d4
    have c := abs_sub_le (L.sin t : ℝ) (Real.sin t) (Real.sin N)
    norm_num at a b c ⊢
    linarith
  have ce : |(L.cos t : ℝ) - Real.cos N| ≤ 429 / 10 / 2 ^ 53 := by
    have a := L.cos_err t
    have b := (Real.abs_cos_sub_cos_le t N).trans d4
    have c := abs_sub_le (L.cos t : ℝ) (Real.cos t) (Real.cos N)
    norm_num at a b c ⊢
    linarith
  have cA : Acc 43 (libm L.cos (.fin t)) (Real.cos N) 1 := ⟨L.cos t, rfl, L.cos_double t, Real.abs_cos_le_one N, ce.trans (by unfold eps; norm_num)⟩
  have one0 : Acc 0 (.fin 1) 1 1 := CovDouble.acc_one le_rfl
  have dA := Acc.sub hR.rat (k := 43) le_rfl (by norm_num) (by norm_num) cA one0 (sc (by norm_num) (by norm_num))
  obtain ⟨d, hd, -, -, de⟩ := dA
  have de' : |(d : ℝ) - (Real.cos N - 1)| ≤ 89 / 2 ^ 53 := de.trans (by unfold eps; norm_num)
  have big := den_long h1 h2
  have dn : (d : ℝ) ≤ -(1 / 27) := by
    have := (abs_le.1 de').2
    norm_num at this ⊢
    linarith
  have dq : d ≠ 0 := by rintro rfl; norm_num at dn
  have s1 := Real.abs_sin_le_one N
  have D0 : Real.cos N - 1 < 0 := by linarith
  have q9 : |-Real.sin N / (Real.cos N - 1)| ≤ 26 := by
    rw [abs_div, abs_neg, abs_of_neg D0, div_le_iff₀ (by linarith)]
    linarith
  have r:= Acc.round hR.rat (m := 40) (z := -L.sin t / d) (x := -Real.sin N / (Real.cos N - 1)) (S := 1600) (by norm_num) (sc (by norm_num) (by norm_num)) (q9.trans (by norm_num)) (by
    refine le_trans ?_ (show (64000 : ℝ) / 2 ^ 53 ≤ _ by unfold eps; norm_num)
    push_cast
    rw [show -(L.sin t : ℝ) / d - -Real.sin N / (Real.cos N - 1) = (Real.sin N - L.sin t) / d + -Real.sin N / (Real.cos N - 1) * ((Real.cos N - 1 - d) / d) by
      have : (d : ℝ) ≠ 0 := by exact_mod_cast dq
      have := D0.ne
      field_simp
      ring]
    refine (abs_add_le _ _).trans ?_
    have dneg : (d : ℝ) < 0 := by linarith
    have x1 : |(Real.sin N - L.sin t) / (d : ℝ)| ≤ 1159 / 2 ^ 53 := by
      rw [abs_div, abs_of_neg dneg, div_le_iff₀ (by linarith), abs_sub_comm]
      norm_num at se ⊢
      linarith
    have x2 : |(Real.cos N - 1 - d) / (d : ℝ)| ≤ 2403 / 2 ^ 53 := by
      rw [abs_div, abs_of_neg dneg, div_le_iff₀ (by linarith), abs_sub_comm]
      norm_num at de' ⊢
      linarith
    rw [abs_mul]
    have := mul_le_mul q9 x2 (abs_nonneg _) (by norm_num)
    norm_num at x1 this ⊢
    linarith)
  unfold RvInv.cot
  rw [hd]
  show Acc 41 (rounded _ (if d = 0 then _ else Fp.fin (-L.sin t / d))) _ _
  rw [if_neg dq]
  exact r

omit hR in
/-- the denominator of a short vector -/
theorem den_small {N : ℝ} (h0 : 0 < N) (h1 : N ≤ 1 / 2) : 4 / 9 * (N * N) ≤ 1 - Real.cos N := by
  have b := (abs_le.1 (Real.cos_bound (x := N) (by rw [abs_of_pos h0]; linarith))).2
  rw [abs_of_pos h0] at b
  have m : N * N ≤ 1 / 4 := by nlinarith
  have : N ^ 4 ≤ N * N * (1 / 4) := by
    rw [show N ^ 4 = N * N * (N * N) by ring]
    exact mul_le_mul_of_nonneg_left m (by positivity)
  nlinarith

/-- the entries for lengths between 2^-20 and 1/2 -/
theorem inv_acc_small {p : F3} (hp : Finite p) (h1 : 1 / 2 ^ 20 ≤ nrm (vals p)) (h2 : nrm (vals p) ≤ 1 / 2) (i j : Fin 3) :
    Acc 75 (invS L p i j) (Kinematics.rvInvS (vals p) i j) (5 / (nrm (vals p) * nrm (vals p))) := by
  obtain ⟨t, ht, td, t0, te⟩ := norm3_rel hR L.toLib hp (h2.trans (by norm_num)) (le_trans (by norm_num) h1)
  have te' : |(t : ℝ) - nrm (vals p)| ≤ 68 / 10 / 2 ^ 53 * nrm (vals p) := te.trans (le_of_eq (by unfold u51; norm_num))
  obtain ⟨N, hN⟩ : ∃ N, N = nrm (vals p) := ⟨_, rfl⟩
  have N0 : 0 < N := by rw [hN]; exact lt_of_lt_of_le (by norm_num) h1
  have core := fun s1 s2 c => inv_core hR L hp ht td te' h1 (h2.trans (by norm_num)) (S := 5 / 2 / (N * N * N)) s1 s2 c i j
  rw [← hN] at te' h1 h2 core ⊢
  have N1 : N * N ≤ 1 / 4 := by nlinarith
  have N2 : 1 / 2 ^ 40 ≤ N * N := by
    have := mul_le_mul h1 h1 (by norm_num) N0.le
    norm_num at this ⊢
    linarith
  have N3 : 1 / 2 ^ 60 ≤ N * N * N := by
    have := mul_le_mul N2 h1 (by norm_num) (by positivity)
    norm_num at this ⊢
    linarith
  have N4 : N * N * N ≤ 1 / 8 := by nlinarith
  have S1 : 1 ≤ 5 / 2 / (N * N * N) := by rw [le_div_iff₀ (by positivity)]; linarith
  have S2 : 5 / 2 / (N * N * N) ≤ 2 ^ 70 := by
    rw [div_le_iff₀ (by positivity)]
    norm_num at N3 ⊢
    linarith
  refine (core S1 S2 ?_).mono le_rfl ?_
  swap
  · rw [le_div_iff₀ (by positivity)]
    have : (1 + 1 / 2 * N + 3 * (1 + 1 / 2 * N * (5 / 2 / (N * N * N)))) * (N * N) = (4 + 1 / 2 * N) * (N * N) + 15 / 4 := by field_simp; ring
    rw [this]
    nlinarith
  clear core
  have tA : Acc 7 (.fin t) N N := ⟨t, rfl, td, (abs_of_pos N0).le, te'.trans (mul_le_mul_of_nonneg_right (by unfold eps; norm_num) N0.le)⟩
  obtain ⟨s, hs, -, sN, se⟩ := sin_acc L (m := 10) tA (le_trans (by norm_num) h1) (by unfold eps; norm_num) (by unfold eps; norm_num)
  have hs' : L.sin t = s := by
    have : Fp.fin (L.sin t) = .fin s := hs
    simpa using this
  have se' : |(s : ℝ) - Real.sin N| ≤ 11 / 2 ^ 53 * N := se.trans (mul_le_mul_of_nonneg_right (by unfold eps; norm_num) N0.le)
  have ce : |(L.cos t : ℝ) - Real.cos N| ≤ 59 / 10 / 2 ^ 53 := by
    have a := L.cos_err t
    have b := (Real.abs_cos_sub_cos_le t N).trans te'
    have c := abs_sub_le (L.cos t : ℝ) (Real.cos t) (Real.cos N)
    norm_num at a b c ⊢
    linarith
  have cA : Acc 6 (libm L.cos (.fin t)) (Real.cos N) 1 := ⟨L.cos t, rfl, L.cos_double t, Real.abs_cos_le_one N, ce.trans (by unfold eps; norm_num)⟩
  have one0 : Acc 0 (.fin 1) 1 1 := CovDouble.acc_one le_rfl
  have dA := Acc.sub hR.rat (k := 6) le_rfl (by norm_num) (by norm_num) cA one0 (sc (by norm_num) (by norm_num))
  obtain ⟨d, hd, -, -, de⟩ := dA
  have de' : |(d : ℝ) - (Real.cos N - 1)| ≤ 15 / 2 ^ 53 := de.trans (by unfold eps; norm_num)
  have big := den_small N0 h2
  have dn : (d : ℝ) ≤ -(4 / 10 * (N * N)) := by
    have := (abs_le.1 de').2
    norm_num at this N2 ⊢
    linarith
  have dneg : (d : ℝ) < 0 := by nlinarith
  have dq : d ≠ 0 := by rintro rfl; norm_num at dneg
  have D0 : Real.cos N - 1 < 0 := by nlinarith
  have q9 : |-Real.sin N / (Real.cos N - 1)| ≤ 9 / 4 / N := by
    rw [abs_div, abs_neg, abs_of_neg D0, div_le_iff₀ (by linarith)]
    refine sN.trans ?_
    rw [div_mul_eq_mul_div, le_div_iff₀ N0]
    linarith
  have x1 : |(Real.sin N - s) / (d : ℝ)| ≤ 55 / 2 / 2 ^ 53 / N := by
    rw [abs_div, abs_of_neg dneg, div_le_iff₀ (by linarith), abs_sub_comm, div_mul_eq_mul_div, le_div_iff₀ N0]
    have := mul_le_mul_of_nonneg_right se' N0.le
    norm_num at this ⊢
    linarith
  have x2 : |(Real.cos N - 1 - d) / (d : ℝ)| ≤ 75 / 2 / 2 ^ 53 / (N * N) := by
    rw [abs_div, abs_of_neg dneg, div_le_iff₀ (by linarith), abs_sub_comm, div_mul_eq_mul_div, le_div_iff₀ (by positivity)]
    have := mul_le_mul_of_nonneg_right de' (by positivity : 0 ≤ N * N)
    norm_num at this ⊢
    linarith
  have q10 : |-Real.sin N / (Real.cos N - 1)| ≤ 5 / 2 / (N * N * N) := by
    refine q9.trans ?_
    rw [div_le_div_iff₀ N0 (by positivity)]
    nlinarith
  have sc1 : Scale (5 / 2 / (N * N * N)) := sc (le_trans (by norm_num) S1) (S2.trans (by norm_num))
  have r := Acc.round hR.rat (m := 40) (z := -s / d) (x := -Real.sin N / (Real.cos N - 1)) (S := 5 / 2 / (N * N * N)) (by norm_num) sc1 q10 (by
    refine le_trans ?_ (mul_le_mul_of_nonneg_right (show (40 : ℝ) / 2 ^ 53 ≤ _ by unfold eps; norm_num) (by linarith))
    push_cast
    rw [show -(s : ℝ) / d - -Real.sin N / (Real.cos N - 1) = (Real.sin N - s) / d + -Real.sin N / (Real.cos N - 1) * ((Real.cos N - 1 - d) / d) by
      have : (d : ℝ) ≠ 0 := by exact_mod_cast dq
      have := D0.ne
      field_simp
      ring]
    refine (abs_add_le _ _).trans ?_
    rw [abs_mul]
    have m := mul_le_mul q9 x2 (abs_nonneg _) (by positivity)
    refine (add_le_add x1 m).trans ?_
    rw [show 55 / 2 / 2 ^ 53 / N + 9 / 4 / N * (75 / 2 / 2 ^ 53 / (N * N)) = (55 / 2 * (N * N) + 675 / 8) / 2 ^ 53 / (N * N * N) by field_simp; ring,
      show (40 : ℝ) / 2 ^ 53 * (5 / 2 / (N * N * N)) = 100 / 2 ^ 53 / (N * N * N) by field_simp; norm_num]
    refine div_le_div_of_nonneg_right ?_ (by positivity)
    refine div_le_div_of_nonneg_right ?_ (by positivity)
    linarith)
  unfold RvInv.cot
  rw [hd]
  show Acc 41 (rounded _ (if d = 0 then _ else Fp.fin (-L.sin t / d))) _ _
  rw [if_neg dq, hs']
  exact r

omit hR in
/-- over the real numbers: an S-matrix and its two-sided inverse -/
theorem exact_pair {p : V3} (h : 1 / 10 ^ 14 ≤ nrm p) (hc : Real.cos (nrm p) ≠ 1) :
    ∃ S : M3, IsSMatrix (fun q => NormedSpace.exp (-Kinematics.crossMx q)) S p ∧ S * Kinematics.rvInvS p = 1 ∧ Kinematics.rvInvS p * S = 1 := by
  have n0 : nrm p ≠ 0 := (lt_of_lt_of_le (by norm_num) h).ne'
  obtain ⟨c1, c2⟩ := Kinematics.C61_rotvec_inverse p (.inr ⟨h, hc⟩)
  have e : Kinematics.rvS p = exactS p := by
    unfold Kinematics.rvS exactS
    simp only
    rw [if_neg (not_lt.2 h)]
    simp only [mul_one_div, Matrix.smul_mul]
  rw [e] at c1 c2
  exact ⟨_, exact_smatrix n0, c1, c2⟩

/-- **C185** Of every finite rotation vector whose length is between 1/2 and 4, the computed inverse S-matrix is finite and, up to 2^-36 in each entry, the two-sided inverse of a matrix that takes the rates of the parameters to the
angular velocity of the frame, along every curve of rotation vectors; between 2^-20 and 1/2 it is so up to 2^-44 divided by the square of the length, between 4 and 6 up to 2^-32.  Missing: the lengths from 2^-28 to 2^-20 and those above 6. -/
theorem C185_accurate_partial (p : F3) (hp : Finite p) (h1 : 1 / 2 ^ 20 ≤ nrm (vals p)) (h2 : nrm (vals p) ≤ 6) :
    ∃ S T : M3, IsSMatrix (fun q => NormedSpace.exp (-Kinematics.crossMx q)) S (vals p) ∧ S * T = 1 ∧ T * S = 1 ∧
      ∀ i j, Near (if nrm (vals p) ≤ 1 / 2 then 1 / 2 ^ 44 / nrm (vals p) ^ 2 else if nrm (vals p) ≤ 4 then 1 / 2 ^ 36 else 1 / 2 ^ 32) (invS L p i j) (T i j) := by
  have e : (1 + eps) ^ 75 - 1 ≤ 76 / 2 ^ 53 := by unfold eps; norm_num
  have N0 : 0 < nrm (vals p) := lt_of_lt_of_le (by norm_num) h1
  by_cases h : nrm (vals p) ≤ 1 / 2
  · have b := den_small N0 h
    obtain ⟨S, x1, x2, x3⟩ := exact_pair (p := vals p) ((by norm_num : (1 : ℝ) / 10 ^ 14 ≤ 1 / 2 ^ 20).trans h1) (by nlinarith [mul_pos N0 N0])
    refine ⟨S, _, x1, x2, x3, fun i j => ?_⟩
    rw [if_pos h]
    have a1 : 1 / 2 ^ 40 ≤ nrm (vals p) * nrm (vals p) := by
      have := mul_le_mul h1 h1 (by norm_num) N0.le
      norm_num at this ⊢
      linarith
    have a2 : nrm (vals p) * nrm (vals p) ≤ 1 := by nlinarith
    refine near_of (inv_acc_small hR L hp h1 h i j) (by norm_num) (sc ?_ ?_) ?_
    · rw [le_div_iff₀ (by positivity)]; norm_num at a2 ⊢; linarith
    · rw [div_le_iff₀ (by positivity)]; norm_num at a1 ⊢; linarith
    · refine (mul_le_mul_of_nonneg_right e (by positivity)).trans ?_
      rw [← mul_div_assoc, pow_two]
      refine div_le_div_of_nonneg_right ?_ (by positivity)
      norm_num
  · have h' := (not_le.1 h).le
    rw [if_neg h]
    by_cases h4 : nrm (vals p) ≤ 4
    · have b := den_big h' h4
      obtain ⟨S, x1, x2, x3⟩ := exact_pair (p := vals p) ((by norm_num : (1 : ℝ) / 10 ^ 14 ≤ 1 / 2 ^ 20).trans h1) (by linarith)
      refine ⟨S, _, x1, x2, x3, fun i j => ?_⟩
      rw [if_pos h4]
      refine near_of (inv_acc hR L hp h' h4 i j) (by norm_num) (sc (by norm_num) (by norm_num)) ?_
      refine (mul_le_mul_of_nonneg_right e (by norm_num)).trans ?_
      norm_num
    · have b := den_long (not_le.1 h4).le h2
      obtain ⟨S, x1, x2, x3⟩ := exact_pair (p := vals p) ((by norm_num : (1 : ℝ) / 10 ^ 14 ≤ 1 / 2 ^ 20).trans h1) (by linarith)
      refine ⟨S, _, x1, x2, x3, fun i j => ?_⟩
      rw [if_neg h4]
      refine near_of (inv_acc_long hR L hp (not_le.1 h4).le h2 i j) (by norm_num) (sc (by norm_num) (by norm_num)) ?_
      refine (mul_le_mul_of_nonneg_right e (by norm_num)).trans ?_
      norm_num

omit hR in
/-- the claim: the inverse S-matrix of every finite rotation vector shorter than 6 is finite -/
def C185_claim {R : ℝ → ℚ} (L : SinLib fun q => R q) : Prop := ∀ p : F3, Finite p → nrm (vals p) ≤ 6 → ∀ i j, (invS L p i j).isFinite

end

/-- **C185** A rotation vector of length 2^-30 has no finite inverse S-matrix. -/
theorem C185_negation (b : Bool) : ¬ C185_claim (SinLib.rounded b) := by
  intro h
  have sf : Finite small := by
    intro i
    fin_cases i
    · exact fin_ok small_double (by norm_num)
    · exact fin_ok (r := 0) (by simpa using isDouble_int 0 (by norm_num)) (by norm_num)
    · exact fin_ok (r := 0) (by simpa using isDouble_int 0 (by norm_num)) (by norm_num)
  have n : nrm (vals small) = 1 / 2 ^ 30 := by
    unfold Kinematics.norm
    rw [Kinematics.sq3]
    simp only [vals, small, fval, Matrix.cons_val_zero, Matrix.cons_val_one, Matrix.cons_val_two, Matrix.head_cons, Matrix.tail_cons]
    rw [show (((1 / 2 ^ 30 : ℚ) : ℝ) * ((1 / 2 ^ 30 : ℚ) : ℝ) + ((0 : ℚ) : ℝ) * ((0 : ℚ) : ℝ) + ((0 : ℚ) : ℝ) * ((0 : ℚ) : ℝ)) = (1 / 2 ^ 30) * (1 / 2 ^ 30) by push_cast; ring]
    exact Real.sqrt_mul_self (by norm_num)
  have s := C185_short isRndR_rndEvenReal (SinLib.rounded b) (fun _ => rfl) small sf (by rw [n]; norm_num) (by rw [n]; norm_num) 0 0
  have := h small sf (by rw [n]; norm_num) 0 0
  rw [s] at this
  simp at this

/-- the hypotheses of `C185_accurate_partial` are met -/
example (b : Bool) : ∃ S T : M3, IsSMatrix (fun q => NormedSpace.exp (-Kinematics.crossMx q)) S (vals turnU.2) ∧ S * T = 1 ∧ T * S = 1 ∧ ∀ i j, Near (1 / 2 ^ 36) (invS (SinLib.rounded b) turnU.2 i j) (T i j) := by
  have h := C185_accurate_partial isRndR_rndEvenReal (SinLib.rounded b) turnU.2 turnU_finite.1 (by rw [turnU_norm]; norm_num) (by rw [turnU_norm]; norm_num)
  rw [if_neg (by rw [turnU_norm]; norm_num), if_pos (by rw [turnU_norm]; norm_num)] at h
  exact h

/-- and so are those of `C185_zero` -/
example (b : Bool) : invS (SinLib.rounded b) (fun _ => .fin 0) = ErDouble.oneD := C185_zero isRndR_rndEvenReal _ _ fun _ => rfl

end Verif.RvInv
