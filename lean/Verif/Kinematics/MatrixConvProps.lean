import Verif.Kinematics.MatrixConvLemmas

/-!
# C161: transformations converted to matrices and back, in doubles
-/

namespace Verif.KinematicsDouble

open Verif.Common
open Verif.Kinematics (V3 V4 M3 M4 outer sqNorm IsUnit4)

local notation "nrm" => Kinematics.norm

/-! ## one conversion -/

theorem outer_quat2r (q : V4) (k j : Fin 4) : outer (Kinematics.quat2r q) k j = if k = j then 1 - sqNorm q + 4 * (q k * q k) else 4 * (q k * q j) := by
  rw [Kinematics.sq4]
  fin_cases k <;> fin_cases j <;> simp [outer, Kinematics.quat2r] <;> ring

theorem outer_diff {C D : M3} {δ : ℝ} (h : ∀ i j, |C i j - D i j| ≤ δ) (k j : Fin 4) : |outer C k j - outer D k j| ≤ 3 * δ := by
  have b := fun i j => abs_le.1 (h i j)
  have b00 := b 0 0
  have b01 := b 0 1
  have b02 := b 0 2
  have b10 := b 1 0
  have b11 := b 1 1
  have b12 := b 1 2
  have b20 := b 2 0
  have b21 := b 2 1
  have b22 := b 2 2
  rw [abs_le]
  fin_cases k <;> fin_cases j <;> simp [outer] <;> constructor <;> linarith

theorem sq_le_sqNorm (q : V4) (i : Fin 4) : q i * q i ≤ sqNorm q := by
  rw [Kinematics.sq4]
  have h0 := mul_self_nonneg (q 0)
  have h1 := mul_self_nonneg (q 1)
  have h2 := mul_self_nonneg (q 2)
  have h3 := mul_self_nonneg (q 3)
  fin_cases i <;> simp <;> linarith

theorem sq_add_le_sqNorm (q : V4) {i k : Fin 4} (h : i ≠ k) : q i * q i + q k * q k ≤ sqNorm q := by
  rw [Kinematics.sq4]
  have h0 := mul_self_nonneg (q 0)
  have h1 := mul_self_nonneg (q 1)
  have h2 := mul_self_nonneg (q 2)
  have h3 := mul_self_nonneg (q 3)
  fin_cases i <;> fin_cases k <;> simp at h ⊢ <;> linarith

/-- the sign of a number -/
theorem exists_sign (a : ℝ) : ∃ s : ℝ, (s = 1 ∨ s = -1) ∧ s * a = |a| := by
  rcases le_total 0 a with h | h
  · exact ⟨1, .inl rfl, by rw [one_mul, abs_of_nonneg h]⟩
  · exact ⟨-1, .inr rfl, by rw [abs_of_nonpos h]; ring⟩

theorem abs_ge {a : ℝ} (h : 4 / 25 ≤ a * a) : 2 / 5 ≤ |a| := by
  have := abs_mul_abs_self a
  nlinarith [abs_nonneg a]

/-- two vectors whose products with their components `k` agree are equal up to the sign -/
theorem of_products {p x : V4} {k : Fin 4} {g : ℝ} (hp : 2 / 5 ≤ |p k|) (hx : 2 / 5 ≤ |x k|) (hx1 : ∀ j, |x j| ≤ 2)
    (h : ∀ j, |p j * p k - x j * x k| ≤ g) : ∃ s : ℝ, (s = 1 ∨ s = -1) ∧ ∀ j, |p j - s * x j| ≤ 9 * g := by
  obtain ⟨s, hs, e⟩ := exists_sign (p k)
  obtain ⟨t, ht, e'⟩ := exists_sign (x k)
  have hss : s * s = 1 := by rcases hs with rfl | rfl <;> norm_num
  have htt : t * t = 1 := by rcases ht with rfl | rfl <;> norm_num
  have hg : 0 ≤ g := (abs_nonneg _).trans (h k)
  refine ⟨s * t, ?_, fun j => ?_⟩
  · rcases hs with rfl | rfl <;> rcases ht with rfl | rfl <;> simp
  · set P := |p k| with hP
    set X := |x k| with hX
    have hpk : p k = s * P := by rw [← e, ← mul_assoc, hss, one_mul]
    have hxk : x k = t * X := by rw [← e', ← mul_assoc, htt, one_mul]
    have h1 : |P - X| * (P + X) ≤ g := by
      have := h k
      rw [hpk, hxk] at this
      have e1 : s * P * (s * P) - t * X * (t * X) = (P - X) * (P + X) := by linear_combination P ^ 2 * hss - X ^ 2 * htt
      rw [e1, abs_mul, abs_of_pos (by linarith : 0 < P + X)] at this
      exact this
    have h2 : |P - X| ≤ 5 / 4 * g := by
      have : |P - X| * (4 / 5) ≤ g := (mul_le_mul_of_nonneg_left (by linarith) (abs_nonneg _)).trans h1
      linarith
    have h3 : |p j - s * t * x j| * P ≤ 7 / 2 * g := by
      have e1 : |p j - s * t * x j| * P = |(p j * p k - x j * x k) - x j * t * (P - X)| := by
        have : (p j * p k - x j * x k) - x j * t * (P - X) = (p j - s * t * x j) * (s * P) := by
          rw [hpk, hxk]; linear_combination (t * x j * P) * hss
        rw [this, abs_mul, abs_mul s]
        have : |s| = 1 := by rcases hs with rfl | rfl <;> simp
        rw [this, one_mul, abs_of_pos (by linarith : 0 < P)]
      rw [e1]
      refine (abs_sub _ _).trans ?_
      have e2 : |x j * t * (P - X)| ≤ 2 * (5 / 4 * g) := by
        have : |t| = 1 := by rcases ht with rfl | rfl <;> simp
        rw [abs_mul, abs_mul, this, mul_one]
        exact mul_le_mul (hx1 j) h2 (abs_nonneg _) (by norm_num)
      linarith [h j]
    have h4 : |p j - s * t * x j| * (2 / 5) ≤ 7 / 2 * g := (mul_le_mul_of_nonneg_left hp (abs_nonneg _)).trans h3
    linarith

section
variable {R : ℝ → ℚ} (hR : IsRndR R)
include hR

/-- the values `dc` are ordered like those of the exact matrix -/
theorem dc_le {M : FM3} (hM : FiniteM M) (hb : ∀ i j, |valsM M i j| ≤ 2) (i : Fin 4) :
    |outer (valsM M) i i| ≤ |outer (valsM M) (maxq (r2quatDc (fun q => R q) M)) (maxq (r2quatDc (fun q => R q) M))| + 6 * u51 := by
  have hv := fun i => (dc_err hR hM hb i).val
  have hm : (fval (r2quatDc (fun q => R q) M i) : ℝ) ≤ fval (r2quatDc (fun q => R q) M (maxq (r2quatDc (fun q => R q) M))) := by
    exact_mod_cast maxq_max (fun i => (hv i).1) i
  have h1 := abs_le.1 (hv i).2.2
  have h2 := abs_le.1 (hv (maxq (r2quatDc (fun q => R q) M))).2.2
  linarith

/-- `r2quat` is the branch, up to the sign -/
theorem r2quat_branch {M : FM3} (hM : FiniteM M) (hb : ∀ i j, |valsM M i j| ≤ 2) {k : Fin 4} (hq : maxq (r2quatDc (fun q => R q) M) = k) (hk : 1 / 2 ≤ outer (valsM M) k k) :
    Finite (r2quat R M) ∧ 0 ≤ vals (r2quat R M) 3 ∧ 1 / 4 ≤ |vals (r2quat R M) k| ∧ |vals (r2quat R M) k| ≤ 2 ∧
    ∀ j, |vals (r2quat R M) j * vals (r2quat R M) k - outer (valsM M) k j / 4| ≤ 16 * u51 := by
  obtain ⟨hf, h0, h2, hp⟩ := branch_err hR hM hb k hk
  have hval : ∀ i, r2quatBranch R M k i = .fin (fval (r2quatBranch R M k i)) := fun i => (hf.fin i).1
  have hpos : 0 ≤ vals (r2quatBranch R M k) k := by linarith
  unfold r2quat
  simp only [hq]
  by_cases hl : Fp.lt (r2quatBranch R M k 3) (.fin 0) = true
  · rw [if_pos hl]
    have hn : vals (fun i => (r2quatBranch R M k i).neg) = -vals (r2quatBranch R M k) := vals_neg _
    have h3 : vals (r2quatBranch R M k) 3 < 0 := by
      rw [hval 3] at hl
      simp only [Fp.lt, decide_eq_true_eq] at hl
      unfold vals
      exact_mod_cast hl
    rw [hn]
    refine ⟨finite_neg hf, ?_, ?_, ?_, ?_⟩
    · simp only [Pi.neg_apply]; linarith
    · simp only [Pi.neg_apply, abs_neg]; rwa [abs_of_nonneg hpos]
    · simp only [Pi.neg_apply, abs_neg]; rwa [abs_of_nonneg hpos]
    · intro j
      simp only [Pi.neg_apply, neg_mul_neg]
      exact hp j
  · rw [if_neg hl]
    refine ⟨hf, ?_, ?_, ?_, hp⟩
    · rw [hval 3] at hl
      simp only [Fp.lt, decide_eq_true_eq] at hl
      unfold vals
      exact_mod_cast not_lt.1 hl
    · rwa [abs_of_nonneg hpos]
    · rwa [abs_of_nonneg hpos]

/-- **C161** A quaternion computed from a matrix of doubles that is close to a rotation matrix is finite, has a non-negative scalar part and is close to the quaternion of that rotation. -/
theorem C161_single {M : FM3} (hM : FiniteM M) {x : V4} (hx : IsUnit4 x) {δ : ℝ} (hδ : δ ≤ 1 / 2 ^ 10)
    (h : ∀ i j, |valsM M i j - Kinematics.quat2r x i j| ≤ δ) :
    Finite (r2quat R M) ∧ 0 ≤ vals (r2quat R M) 3 ∧ ∃ s : ℝ, (s = 1 ∨ s = -1) ∧ ∀ i, |vals (r2quat R M) i - s * x i| ≤ 7 * δ + 1 / 2 ^ 43 := by
  have hδ0 : 0 ≤ δ := (abs_nonneg _).trans (h 0 0)
  have u0 := u51_pos
  have u1 : u51 ≤ 1 / 2 ^ 51 := le_rfl
  have hN : sqNorm x = 1 := by rw [Kinematics.sq4]; exact hx
  have hx1 : ∀ j, |x j| ≤ 1 := by
    intro j
    have : x j * x j ≤ 1 := by
      unfold IsUnit4 at hx
      fin_cases j <;> simp <;> nlinarith [mul_self_nonneg (x 0), mul_self_nonneg (x 1), mul_self_nonneg (x 2), mul_self_nonneg (x 3)]
    exact abs_le_one_iff_mul_self_le_one.2 this
  have hb : ∀ i j, |valsM M i j| ≤ 2 := by
    intro i j
    have h1 := quat2r_entry x i j
    rw [hN] at h1
    have t := abs_sub_le (valsM M i j) (Kinematics.quat2r x i j) 0
    simp only [sub_zero] at t
    have := h i j
    norm_num at hδ; linarith
  have ho : ∀ k j, |outer (valsM M) k j - 4 * (x k * x j)| ≤ 3 * δ := by
    intro k j
    have := outer_diff h k j
    rw [outer_quat2r, hN] at this
    by_cases e : k = j
    · subst e; simpa using this
    · simpa [e] using this
  generalize hk : maxq (r2quatDc (fun q => R q) M) = k
  have hmax := dc_le hR hM hb
  rw [hk] at hmax
  have hkk : 1 - 3 * δ - 6 * u51 ≤ |outer (valsM M) k k| := by
    have g : ∀ i, 4 * (x i * x i) - 3 * δ ≤ |outer (valsM M) k k| + 6 * u51 := fun i => by
      have h1 := abs_le.1 (ho i i)
      have h2 := le_abs_self (outer (valsM M) i i)
      linarith [hmax i]
    have h0 := g 0
    have h1 := g 1
    have h2 := g 2
    have h3 := g 3
    unfold IsUnit4 at hx
    linarith
  have hpos : 1 - 3 * δ - 6 * u51 ≤ outer (valsM M) k k := by
    have h1 := abs_le.1 (ho k k)
    rcases abs_cases (outer (valsM M) k k) with ⟨e, _⟩ | ⟨e, _⟩
    · linarith
    · have := mul_self_nonneg (x k)
      norm_num at hδ u1; linarith
  obtain ⟨hf, h3, hp0, hp2, hp⟩ := r2quat_branch hR hM hb hk (by norm_num at hδ u1; linarith)
  refine ⟨hf, h3, ?_⟩
  have hprod : ∀ j, |vals (r2quat R M) j * vals (r2quat R M) k - x j * x k| ≤ 3 / 4 * δ + 16 * u51 := by
    intro j
    have h1 := hp j
    have h2 := ho k j
    have e : vals (r2quat R M) j * vals (r2quat R M) k - x j * x k = (vals (r2quat R M) j * vals (r2quat R M) k - outer (valsM M) k j / 4) + (outer (valsM M) k j - 4 * (x k * x j)) / 4 := by ring
    rw [e]
    refine (abs_add_le _ _).trans ?_
    rw [abs_div, abs_of_pos (by norm_num : (0 : ℝ) < 4)]
    linarith
  have hxk : 2 / 5 ≤ |x k| := by
    have h1 := abs_le.1 (ho k k)
    refine abs_ge ?_
    norm_num at hδ u1; linarith
  have hpk : 2 / 5 ≤ |vals (r2quat R M) k| := by
    have h1 := abs_le.1 (hp k)
    refine abs_ge ?_
    norm_num at hδ u1; linarith
  obtain ⟨s, hs, hj⟩ := of_products hpk hxk (fun j => (hx1 j).trans (by norm_num)) hprod
  refine ⟨s, hs, fun j => (hj j).trans ?_⟩
  norm_num at u1 ⊢; linarith

/-! ## there and back -/

/-- the entries of `quat2r` for a quaternion of any length up to about one -/
theorem quat2r_ab {q : F4} (hq : Finite q) (hb : ∀ i, |vals q i| ≤ 9 / 8) (i j : Fin 3) :
    Ab (8 * u51) (quat2r (fun x => R x) q i j) (Kinematics.quat2r (vals q) i j) := by
  have u0 := u51_pos
  have u1 : u51 ≤ 1 / 64 := by unfold u51; norm_num
  have A : ∀ i, Ab 0 (q i) (vals q i) := fun i => Ab.self (hq.fin i).1 (hq.fin i).2
  have hbb : ∀ i j, |vals q i * vals q j| ≤ 81 / 64 := fun i j => by
    rw [abs_mul]; exact (mul_le_mul (hb i) (hb j) (abs_nonneg _) (by norm_num)).trans (by norm_num)
  have b := fun i j => abs_le.1 (hbb i j)
  have P : ∀ i j, Ab u51 (fmul (fun x => R x) (q i) (q j)) (vals q i * vals q j) := fun i j => by
    have := Ab.mul hR (A i) (A j) (X := 9 / 8) (Y := 9 / 8) (by simpa using hb i) (hb j) (by norm_num)
    exact this.mono (by linarith)
  have N : Ab u51 (fmul (fun x => R x) (q 0).neg (q 0)) (-(vals q 0 * vals q 0)) := by
    have hn : Ab 0 (q 0).neg (-vals q 0) := by
      obtain ⟨r, e, hd, h⟩ := A 0
      refine ⟨-r, by rw [e]; rfl, hd.neg, ?_⟩
      push_cast
      rw [show -(r : ℝ) - -vals q 0 = -(r - vals q 0) by ring, abs_neg]; exact h
    have := Ab.mul hR hn (A 0) (X := 9 / 8) (Y := 9 / 8) (by simpa using hb 0) (hb 0) (by norm_num)
    rw [neg_mul] at this
    exact this.mono (by linarith)
  have two : Ab 0 (.fin 2) 2 := by
    have := Ab.exact (q := 2) (by simpa using isDouble_int 2 (by norm_num))
    simpa using this
  have mtwo : Ab 0 (.fin (-2)) (-2) := by
    have := Ab.exact (q := -2) (by simpa using (isDouble_int 2 (by norm_num)).neg)
    simpa using this
  have P2 : ∀ i j, Ab (3 * u51) (fmul (fun x => R x) (fmul (fun x => R x) (q i) (q j)) (.fin 2)) (vals q i * vals q j * 2) := fun i j => by
    have := Ab.mul hR (P i j) two (X := 2) (Y := 2) (by linarith [hbb i j]) (by norm_num) (by norm_num)
    exact this.mono (by linarith)
  have P2' : ∀ i j, Ab (3 * u51) (fmul (fun x => R x) (fmul (fun x => R x) (q i) (q j)) (.fin (-2))) (vals q i * vals q j * (-2)) := fun i j => by
    have := Ab.mul hR (P i j) mtwo (X := 2) (Y := 2) (by linarith [hbb i j]) (by norm_num) (by norm_num)
    exact this.mono (by linarith)
  have aux : ∀ {x : ℝ} {c : ℝ}, -6 ≤ x → x ≤ 6 → c ≤ 1 → |x| + c ≤ 8 := fun h1 h2 h3 => by
    have := abs_le.2 ⟨h1, h2⟩; linarith
  have b00 := b 0 0
  have b11 := b 1 1
  have b22 := b 2 2
  have b33 := b 3 3
  have b01 := b 0 1
  have b02 := b 0 2
  have b03 := b 0 3
  have b12 := b 1 2
  have b13 := b 1 3
  have b23 := b 2 3
  fin_cases i <;> fin_cases j
  · exact (Ab.add hR (Ab.sub hR (Ab.sub hR (P 0 0) (P 1 1) (by rw [add_assoc]; exact aux (by linarith) (by linarith) (by linarith))) (P 2 2) (by rw [add_assoc]; exact aux (by linarith) (by linarith) (by linarith)))
      (P 3 3) (by rw [add_assoc]; exact aux (by linarith) (by linarith) (by linarith))).mono (by linarith)
  · exact (Ab.add hR (P2 0 1) (P2 2 3) (by rw [add_assoc]; exact aux (by linarith) (by linarith) (by linarith))).mono (by linarith)
  · exact (Ab.sub hR (P2 0 2) (P2 1 3) (by rw [add_assoc]; exact aux (by linarith) (by linarith) (by linarith))).mono (by linarith)
  · exact (Ab.sub hR (P2 0 1) (P2 2 3) (by rw [add_assoc]; exact aux (by linarith) (by linarith) (by linarith))).mono (by linarith)
  · have := (Ab.add hR (Ab.sub hR (Ab.add hR N (P 1 1) (by rw [add_assoc]; exact aux (by linarith) (by linarith) (by linarith))) (P 2 2) (by rw [add_assoc]; exact aux (by linarith) (by linarith) (by linarith)))
      (P 3 3) (by rw [add_assoc]; exact aux (by linarith) (by linarith) (by linarith))).mono (e' := 8 * u51) (by linarith)
    have e : Kinematics.quat2r (vals q) 1 1 = -(vals q 0 * vals q 0) + vals q 1 * vals q 1 - vals q 2 * vals q 2 + vals q 3 * vals q 3 := by
      simp [Kinematics.quat2r]
    show Ab _ _ (Kinematics.quat2r (vals q) 1 1)
    rw [e]; exact this
  · exact (Ab.add hR (P2 0 3) (P2 1 2) (by rw [add_assoc]; exact aux (by linarith) (by linarith) (by linarith))).mono (by linarith)
  · exact (Ab.add hR (P2 0 2) (P2 1 3) (by rw [add_assoc]; exact aux (by linarith) (by linarith) (by linarith))).mono (by linarith)
  · exact (Ab.add hR (P2' 0 3) (P2 1 2) (by rw [add_assoc]; exact aux (by linarith) (by linarith) (by linarith))).mono (by linarith)
  · have := (Ab.add hR (Ab.add hR (Ab.sub hR N (P 1 1) (by rw [add_assoc]; exact aux (by linarith) (by linarith) (by linarith))) (P 2 2) (by rw [add_assoc]; exact aux (by linarith) (by linarith) (by linarith)))
      (P 3 3) (by rw [add_assoc]; exact aux (by linarith) (by linarith) (by linarith))).mono (e' := 8 * u51) (by linarith)
    have e : Kinematics.quat2r (vals q) 2 2 = -(vals q 0 * vals q 0) - vals q 1 * vals q 1 + vals q 2 * vals q 2 + vals q 3 * vals q 3 := by
      simp [Kinematics.quat2r]
    show Ab _ _ (Kinematics.quat2r (vals q) 2 2)
    rw [e]; exact this

omit hR in
theorem block_T (X : TransformationD) : (fun i j : Fin 3 => TransformationD.T R X i.castSucc j.castSucc) = quat2r (fun x => R x) X.q := by
  funext i j
  fin_cases i <;> fin_cases j <;> rfl

omit hR in
theorem viaMatrix_q (X : TransformationD) : (X.viaMatrix R).q = r2quat R (quat2r (fun x => R x) X.q) := by
  show r2quat R _ = _
  rw [← block_T]

omit hR in
theorem viaMatrix_t (X : TransformationD) : (X.viaMatrix R).t = X.t := by
  funext i
  fin_cases i <;> rfl

/-- one conversion to a matrix and back, for a quaternion with a clearly largest component `k` -/
theorem step {X : TransformationD} (hq : Finite X.q) (hN : |sqNorm (vals X.q) - 1| ≤ 1 / 4) {k : Fin 4}
    (hk5 : 1 / 5 ≤ vals X.q k * vals X.q k) (hk : ∀ i, i ≠ k → vals X.q i * vals X.q i + 1 / 2 ^ 40 ≤ vals X.q k * vals X.q k) :
    Finite (X.viaMatrix R).q ∧ 0 ≤ vals (X.viaMatrix R).q 3 ∧ 1 / 4 ≤ |vals (X.viaMatrix R).q k| ∧
    |vals (X.viaMatrix R).q k * vals (X.viaMatrix R).q k - (vals X.q k * vals X.q k + (1 - sqNorm (vals X.q)) / 4)| ≤ 1 / 2 ^ 46 ∧
    ∀ j, j ≠ k → |vals (X.viaMatrix R).q j * vals (X.viaMatrix R).q k - vals X.q j * vals X.q k| ≤ 1 / 2 ^ 46 := by
  have u0 := u51_pos
  have u1 : u51 = 1 / 2 ^ 51 := rfl
  have hN' := abs_le.1 hN
  have hb : ∀ i, |vals X.q i| ≤ 9 / 8 := fun i => by
    have h1 := sq_le_sqNorm (vals X.q) i
    rw [abs_le]; constructor <;> nlinarith
  have E := fun i j => (quat2r_ab hR hq hb i j)
  set M := quat2r (fun x => R x) X.q with hMdef
  have hent : ∀ i j, |Kinematics.quat2r (vals X.q) i j| ≤ 5 / 4 := fun i j => (quat2r_entry _ i j).trans (by linarith)
  have hM : FiniteM M := fun i j => (E i j).isFinite (by
    have := hent i j
    norm_num at u1; linarith)
  have hd : ∀ i j, |valsM M i j - Kinematics.quat2r (vals X.q) i j| ≤ 8 * u51 := fun i j => (E i j).val.2.2
  have hb2 : ∀ i j, |valsM M i j| ≤ 2 := by
    intro i j
    have t := abs_sub_le (valsM M i j) (Kinematics.quat2r (vals X.q) i j) 0
    simp only [sub_zero] at t
    have := hent i j
    have := hd i j
    norm_num at u1; linarith
  have ho : ∀ k j, |outer (valsM M) k j - (if k = j then 1 - sqNorm (vals X.q) + 4 * (vals X.q k * vals X.q k) else 4 * (vals X.q k * vals X.q j))| ≤ 24 * u51 := by
    intro k j
    have := outer_diff hd k j
    rw [outer_quat2r] at this
    linarith
  have hdiag : ∀ i, |outer (valsM M) i i - (1 - sqNorm (vals X.q) + 4 * (vals X.q i * vals X.q i))| ≤ 24 * u51 := fun i => by
    have := ho i i
    simpa using this
  have hkk := abs_le.1 (hdiag k)
  have hkk1 : 1 / 2 ≤ outer (valsM M) k k := by norm_num at u1; linarith
  have hmaxq : maxq (r2quatDc (fun q => R q) M) = k := by
    by_contra hne
    have h1 := dc_le hR hM hb2 k
    set m := maxq (r2quatDc (fun q => R q) M) with hm
    have h2 := abs_le.1 (hdiag m)
    have h3 := hk m hne
    rw [abs_of_pos (by linarith : 0 < outer (valsM M) k k)] at h1
    have h4 := mul_self_nonneg (vals X.q m)
    rcases abs_cases (outer (valsM M) m m) with ⟨e, _⟩ | ⟨e, _⟩
    · rw [e] at h1; norm_num at u1 h3; linarith
    · rw [e] at h1; norm_num at u1; linarith
  obtain ⟨hf, h3, h14, _, hp⟩ := r2quat_branch hR hM hb2 hmaxq hkk1
  rw [viaMatrix_q]
  refine ⟨hf, h3, h14, ?_, ?_⟩
  · have h1 := abs_le.1 (hp k)
    rw [abs_le]
    norm_num at u1 ⊢
    constructor <;> linarith
  · intro j hj
    have h1 := abs_le.1 (hp j)
    have h2 := ho k j
    rw [if_neg (fun e => hj e.symm)] at h2
    have h2 := abs_le.1 h2
    have e : vals X.q k * vals X.q j = vals X.q j * vals X.q k := mul_comm _ _
    rw [abs_le]
    norm_num at u1 ⊢
    constructor <;> linarith

/-- **C161** Converting a transformation, however it was built, to a matrix and back keeps the translation exactly and the quaternion up to its sign and 2^-42. -/
theorem C161_roundtrip (E : Eigen fun q => R q) (b : Build) (h : b.RotationsOk) :
    ((b.run E).viaMatrix R).t = (b.run E).t ∧ Finite ((b.run E).viaMatrix R).q ∧ 0 ≤ vals ((b.run E).viaMatrix R).q 3 ∧
    ∃ s : ℝ, (s = 1 ∨ s = -1) ∧ ∀ i, |vals ((b.run E).viaMatrix R).q i - s * vals (b.run E).q i| ≤ 1 / 2 ^ 42 := by
  obtain ⟨hf, hn⟩ := C120_unit hR E b h
  refine ⟨viaMatrix_t _, ?_⟩
  set v := vals (b.run E).q with hv
  have qb := abs_le.1 hn
  have n0 : 0 < nrm v := by norm_num at qb; linarith
  set x : V4 := (nrm v)⁻¹ • v with hx
  have nx : nrm x = 1 := by rw [hx, nrm_smul, abs_of_nonneg (inv_nonneg.2 n0.le), inv_mul_cancel₀ n0.ne']
  have ux : IsUnit4 x := by
    have := nrm_sq x
    rw [nx, Kinematics.sq4] at this
    unfold IsUnit4; linarith
  have hd : nrm (v - x) ≤ 12 / 2 ^ 53 := by
    have e : v - x = (nrm v - 1) • x := by
      funext i
      simp only [hx, Pi.sub_apply, Pi.smul_apply, smul_eq_mul]
      field_simp
    rw [e, nrm_smul, nx, mul_one]; exact hn
  have hs : nrm (v + x) ≤ 2 + 12 / 2 ^ 53 := by
    have := nrm_add v x
    linarith
  have ent := quat2r_err hR.rat hf hn
  have hM : FiniteM (quat2r (fun q => R q) (b.run E).q) := fun i j => by
    have := Ab.isFinite (e := 5 / 2 ^ 53) (f := quat2r (fun q => R q) (b.run E).q i j) (x := Kinematics.quat2r v i j) ⟨_, (ent i j).1, (ent i j).2.1, (ent i j).2.2⟩ (by
      have h1 := quat2r_entry v i j
      have h2 : sqNorm v ≤ 2 := by rw [← nrm_sq]; norm_num at qb; nlinarith
      norm_num; linarith)
    exact this
  have hδ : ∀ i j, |valsM (quat2r (fun q => R q) (b.run E).q) i j - Kinematics.quat2r x i j| ≤ 102 / 2 ^ 53 := fun i j => by
    have h1 := quat2r_lip v x i j
    have h2 : nrm (v - x) * nrm (v + x) ≤ 12 / 2 ^ 53 * (2 + 12 / 2 ^ 53) := mul_le_mul hd hs (nrm_nonneg _) (by norm_num)
    have h3 := abs_sub_le (valsM (quat2r (fun q => R q) (b.run E).q) i j) (Kinematics.quat2r v i j) (Kinematics.quat2r x i j)
    have h4 := (ent i j).2.2
    norm_num at h2 h4 ⊢; linarith
  obtain ⟨h1, h2, s, hs, h3⟩ := C161_single hR hM ux (by norm_num) hδ
  rw [viaMatrix_q]
  refine ⟨h1, h2, s, hs, fun i => ?_⟩
  have h4 := h3 i
  have h5 := (abs_le_nrm (v - x) i).trans hd
  have h6 : |s * x i - s * v i| ≤ 12 / 2 ^ 53 := by
    have : |s| = 1 := by rcases hs with rfl | rfl <;> simp
    rw [← mul_sub, abs_mul, this, one_mul, abs_sub_comm]; exact h5
  have h7 := abs_sub_le (vals (r2quat R (quat2r (fun x => R x) (b.run E).q)) i) (s * x i) (s * v i)
  norm_num at h4 h6 ⊢; linarith

/-! ## again and again -/

omit hR in
/-- how the missing part `1 - |q|²` of the squared norm changes in one conversion -/
theorem tau_step {q q' : V4} {k : Fin 4} {η : ℝ} (hη : η ≤ 1 / 100) (hN : sqNorm q ≤ 5 / 4)
    (hk : |q' k * q' k - (q k * q k + (1 - sqNorm q) / 4)| ≤ η) (hj : ∀ j, j ≠ k → |q' j * q' k - q j * q k| ≤ η) :
    |q' k * q' k * (1 - sqNorm q') - (1 - sqNorm q) / 4 * (1 + 2 * (q k * q k) - (1 - sqNorm q) / 4)| ≤ 7 * η + η * |1 - sqNorm q| := by
  have hη0 : 0 ≤ η := (abs_nonneg _).trans hk
  have hp : ∀ j, j ≠ k → |q j * q k| ≤ 5 / 8 := fun j hjk => by
    have := sq_add_le_sqNorm q hjk
    rw [abs_le]; constructor <;> nlinarith [mul_self_nonneg (q j - q k), mul_self_nonneg (q j + q k)]
  have D : ∀ j, j ≠ k → |(q' j * q' k) * (q' j * q' k) - (q j * q k) * (q j * q k)| ≤ 13 / 10 * η := fun j hjk => by
    have h1 := hj j hjk
    have h2 := hp j hjk
    have e : (q' j * q' k) * (q' j * q' k) - (q j * q k) * (q j * q k) = (q' j * q' k - q j * q k) * ((q' j * q' k - q j * q k) + 2 * (q j * q k)) := by ring
    have h3 := abs_add_le (q' j * q' k - q j * q k) (2 * (q j * q k))
    rw [abs_mul, abs_of_pos (by norm_num : (0 : ℝ) < 2)] at h3
    rw [e, abs_mul]
    have : |q' j * q' k - q j * q k + 2 * (q j * q k)| ≤ 13 / 10 := by linarith
    have := mul_le_mul h1 this (abs_nonneg _) hη0
    linarith
  have S : |(q' k * q' k * (sqNorm q' - q' k * q' k)) - (q k * q k * (sqNorm q - q k * q k))| ≤ 39 / 10 * η := by
    rw [Kinematics.sq4, Kinematics.sq4]
    have D0 := fun h => abs_le.1 (D 0 h)
    have D1 := fun h => abs_le.1 (D 1 h)
    have D2 := fun h => abs_le.1 (D 2 h)
    have D3 := fun h => abs_le.1 (D 3 h)
    rw [abs_le]
    fin_cases k
    · have d1 := D1 (by decide); have d2 := D2 (by decide); have d3 := D3 (by decide)
      simp at d1 d2 d3 ⊢
      constructor <;> nlinarith
    · have d1 := D0 (by decide); have d2 := D2 (by decide); have d3 := D3 (by decide)
      simp at d1 d2 d3 ⊢
      constructor <;> nlinarith
    · have d1 := D0 (by decide); have d2 := D1 (by decide); have d3 := D3 (by decide)
      simp at d1 d2 d3 ⊢
      constructor <;> nlinarith
    · have d1 := D0 (by decide); have d2 := D1 (by decide); have d3 := D2 (by decide)
      simp at d1 d2 d3 ⊢
      constructor <;> nlinarith
  have hB : q k * q k ≤ 5 / 4 := (sq_le_sqNorm q k).trans hN
  have hB0 := mul_self_nonneg (q k)
  set τ := 1 - sqNorm q with hτ
  obtain ⟨e, he⟩ : ∃ e, e = q' k * q' k - (q k * q k + τ / 4) := ⟨_, rfl⟩
  rw [← he] at hk
  have id : q' k * q' k * (1 - sqNorm q') - τ / 4 * (1 + 2 * (q k * q k) - τ / 4) =
      e * (1 - 2 * (q k * q k)) - τ / 2 * e - e * e - ((q' k * q' k * (sqNorm q' - q' k * q' k)) - (q k * q k * (sqNorm q - q k * q k))) := by
    have h1 : q' k * q' k = e + (q k * q k + τ / 4) := by rw [he]; ring
    have h2 : sqNorm q = 1 - τ := by rw [hτ]; ring
    rw [h2, h1]; ring
  rw [id]
  have t1 : |e * (1 - 2 * (q k * q k))| ≤ η * (3 / 2) := by
    rw [abs_mul]
    exact mul_le_mul hk (abs_le.2 ⟨by linarith, by linarith⟩) (abs_nonneg _) hη0
  have t2 : |τ / 2 * e| ≤ η * |τ| := by
    rw [abs_mul, abs_div, abs_of_pos (by norm_num : (0 : ℝ) < 2)]
    nlinarith [abs_nonneg τ, abs_nonneg e, mul_le_mul_of_nonneg_left hk (abs_nonneg τ)]
  have t3 : |e * e| ≤ η * 1 := by
    rw [abs_mul]
    exact mul_le_mul hk (by linarith) (abs_nonneg _) hη0
  have u1 := abs_sub (e * (1 - 2 * (q k * q k)) - τ / 2 * e - e * e) ((q' k * q' k * (sqNorm q' - q' k * q' k)) - (q k * q k * (sqNorm q - q k * q k)))
  have u2 := abs_sub (e * (1 - 2 * (q k * q k)) - τ / 2 * e) (e * e)
  have u3 := abs_sub (e * (1 - 2 * (q k * q k))) (τ / 2 * e)
  linarith

/-- repeated conversions of a quaternion that is about normalized and has a large component -/
theorem stable_inv {X : TransformationD} (hq : Finite X.q) (hN : |1 - sqNorm (vals X.q)| ≤ 1 / 2 ^ 46) {k : Fin 4} (hk : 3 / 5 ≤ vals X.q k * vals X.q k) (n : ℕ) (hn : n ≤ 2 ^ 25) :
    let Y := (TransformationD.viaMatrix R)^[n] X
    Y.t = X.t ∧ Finite Y.q ∧ |1 - sqNorm (vals Y.q)| ≤ 160 / 2 ^ 46 ∧ |vals Y.q k * vals Y.q k - vals X.q k * vals X.q k| ≤ n * (41 / 2 ^ 46) ∧
    ∀ j, j ≠ k → |vals Y.q j * vals Y.q k - vals X.q j * vals X.q k| ≤ n * (1 / 2 ^ 46) := by
  induction n with
  | zero => exact ⟨rfl, hq, by norm_num at hN ⊢; linarith, by simp, by simp⟩
  | succ n ih =>
    obtain ⟨ht, hf, hτ, hB, hp⟩ := ih (by omega)
    have hn' : (n : ℝ) ≤ 2 ^ 25 := by exact_mod_cast (by omega : n ≤ 2 ^ 25)
    rw [Function.iterate_succ_apply']
    set Y := (TransformationD.viaMatrix R)^[n] X with hY
    intro Z
    have hB' := abs_le.1 hB
    have hτ' := abs_le.1 hτ
    have hBk : 599 / 1000 ≤ vals Y.q k * vals Y.q k := by
      have h1 := mul_le_mul_of_nonneg_right hn' (by norm_num : (0 : ℝ) ≤ 41 / 2 ^ 46)
      have h2 : (2 : ℝ) ^ 25 * (41 / 2 ^ 46) ≤ 1 / 1000 := by norm_num
      linarith
    obtain ⟨g1, g2, g3, g4, g5⟩ := step hR hf (k := k) (by rw [abs_sub_comm]; norm_num at hτ ⊢; linarith) (by linarith) (fun i hi => by
      have h1 := sq_add_le_sqNorm (vals Y.q) hi
      norm_num at hτ' ⊢; linarith)
    have T := tau_step (q := vals Y.q) (q' := vals Z.q) (k := k) (η := 1 / 2 ^ 46) (by norm_num) (by norm_num at hτ' ⊢; linarith) g4 g5
    have g4' := abs_le.1 g4
    push_cast
    refine ⟨(viaMatrix_t Y).trans ht, g1, ?_, ?_, fun j hj => ?_⟩
    · set τ := 1 - sqNorm (vals Y.q)
      set τ' := 1 - sqNorm (vals Z.q)
      set B := vals Y.q k * vals Y.q k
      set B' := vals Z.q k * vals Z.q k
      have b1 : |τ / 4 * (1 + 2 * B - τ / 4)| ≤ 40 / 2 ^ 46 * (1 + 2 * B + 40 / 2 ^ 46) := by
        rw [abs_mul]
        refine mul_le_mul ?_ ?_ (abs_nonneg _) (by norm_num)
        · rw [abs_div, abs_of_pos (by norm_num : (0 : ℝ) < 4)]; linarith
        · rw [abs_le]; constructor <;> (norm_num at hτ' ⊢; linarith)
      have b2 : |B' * τ'| ≤ 40 / 2 ^ 46 * (1 + 2 * B + 40 / 2 ^ 46) + (7 * (1 / 2 ^ 46) + 1 / 2 ^ 46 * |τ|) := by
        have := abs_add_le (B' * τ' - τ / 4 * (1 + 2 * B - τ / 4)) (τ / 4 * (1 + 2 * B - τ / 4))
        rw [sub_add_cancel] at this
        linarith
      have b3 : B - 41 / 2 ^ 46 ≤ B' := by norm_num at g4' hτ' ⊢; linarith
      have b4 : 0 < B' := by norm_num at b3; linarith
      rw [abs_mul, abs_of_pos b4] at b2
      have b5 : B' * |τ'| ≤ B' * (160 / 2 ^ 46) := by
        refine b2.trans ?_
        norm_num at b3 hτ ⊢; linarith
      exact le_of_mul_le_mul_left b5 b4
    · have := abs_sub_le (vals Z.q k * vals Z.q k) (vals Y.q k * vals Y.q k) (vals X.q k * vals X.q k)
      have h1 : |vals Z.q k * vals Z.q k - vals Y.q k * vals Y.q k| ≤ 41 / 2 ^ 46 := by
        rw [abs_le]; constructor <;> (norm_num at g4' hτ' ⊢; linarith)
      linarith
    · have := abs_sub_le (vals Z.q j * vals Z.q k) (vals Y.q j * vals Y.q k) (vals X.q j * vals X.q k)
      have := g5 j hj
      have := hp j hj
      linarith

omit hR in
theorem tau_of_norm {q : V4} (h : |nrm q - 1| ≤ 12 / 2 ^ 53) : |1 - sqNorm q| ≤ 1 / 2 ^ 46 := by
  have qb := abs_le.1 h
  rw [← nrm_sq, abs_le]
  constructor <;> (norm_num at qb ⊢; nlinarith)

/-- **C161** What holds of repeated conversions: a transformation, however it was built, one of whose quaternion components has a square of at least 3/5 (such as a rotation of less than 78 degrees), can be converted to a matrix and back
`n ≤ 2^25` times; the translation stays and the quaternion moves by at most `n * 2^-37`, up to the sign. -/
theorem C161_stable_partial (E : Eigen fun q => R q) (b : Build) (h : b.RotationsOk) {k : Fin 4} (hk : 3 / 5 ≤ vals (b.run E).q k * vals (b.run E).q k) (n : ℕ) (hn : n ≤ 2 ^ 25) :
    ((TransformationD.viaMatrix R)^[n] (b.run E)).t = (b.run E).t ∧ Finite ((TransformationD.viaMatrix R)^[n] (b.run E)).q ∧
    ∃ s : ℝ, (s = 1 ∨ s = -1) ∧ ∀ i, |vals ((TransformationD.viaMatrix R)^[n] (b.run E)).q i - s * vals (b.run E).q i| ≤ n / 2 ^ 37 := by
  obtain ⟨hf, hu⟩ := C120_unit hR E b h
  obtain ⟨h1, h2, h3, h4, h5⟩ := stable_inv hR hf (tau_of_norm hu) hk n hn
  refine ⟨h1, h2, ?_⟩
  have hn' : (n : ℝ) ≤ 2 ^ 25 := by exact_mod_cast hn
  have n0 : (0 : ℝ) ≤ n := Nat.cast_nonneg n
  set X := b.run E
  set Y := (TransformationD.viaMatrix R)^[n] X
  have m1 := mul_le_mul_of_nonneg_right hn' (by norm_num : (0 : ℝ) ≤ 41 / 2 ^ 46)
  have m2 : (2 : ℝ) ^ 25 * (41 / 2 ^ 46) ≤ 1 / 1000 := by norm_num
  have h4' := abs_le.1 h4
  obtain ⟨s, hs, hj⟩ := of_products (p := vals Y.q) (x := vals X.q) (k := k) (g := n * (41 / 2 ^ 46)) (abs_ge (by linarith)) (abs_ge (by linarith)) (fun j => by
      have a1 := sq_le_sqNorm (vals X.q) j
      have a2 := abs_le.1 (tau_of_norm hu)
      rw [abs_le]; constructor <;> (norm_num at a2; nlinarith)) (fun j => by
    by_cases e : j = k
    · rw [e]; exact h4
    · exact (h5 j e).trans (mul_le_mul_of_nonneg_left (by norm_num) n0))
  refine ⟨s, hs, fun i => (hj i).trans ?_⟩
  have : (9 : ℝ) * (41 / 2 ^ 46) ≤ 1 / 2 ^ 37 := by norm_num
  nlinarith

end

/-- **C161** The statement that one would expect: a transformation is set from a finite matrix whose upper left block is a rotation matrix up to the precision of a `float`; converting it to a matrix and back, any number of times, keeps the
rotation to within 1/128. -/
def C161_claim (R : ℝ → ℚ) : Prop :=
  ∀ (T : FM4) (x : V4), (∀ i j, (T i j).isFinite ∧ IsDoubleVal (T i j)) → IsUnit4 x →
    (∀ i j, |valsM (fun i j : Fin 3 => T i.castSucc j.castSucc) i j - Kinematics.quat2r x i j| ≤ 1 / 2 ^ 26) →
    ∀ n : ℕ, ∃ s : ℝ, (s = 1 ∨ s = -1) ∧
      ∀ i, |vals ((TransformationD.viaMatrix R)^[n] (TransformationD.ofMatrix R T)).q i - s * vals (TransformationD.ofMatrix R T).q i| ≤ 1 / 128

/-- a rotation of about 116 degrees around the diagonal; the quaternion is about 2^-33 too short -/
def driftStart : TransformationD where
  q := ![.fin (33613435917 / 2 ^ 36), .fin (33613435917 / 2 ^ 36), .fin (33613435917 / 2 ^ 36), .fin (17 / 32)]
  t := ![.fin 0, .fin 0, .fin 0]

theorem driftStart_finite : Finite driftStart.q := by
  have big : (1 : ℚ) < tooBig := one_lt_pow₀ (by norm_num) (by norm_num)
  have h1 : IsDouble (33613435917 / 2 ^ 36) := ⟨33613435917, -36, by norm_num, by norm_num, by norm_num [zpow_neg]⟩
  have h2 : IsDouble (17 / 32) := ⟨17, -5, by norm_num, by norm_num, by norm_num [zpow_neg]⟩
  have b1 : |(33613435917 / 2 ^ 36 : ℚ)| < tooBig := lt_trans (by norm_num [abs_of_pos]) big
  have b2 : |(17 / 32 : ℚ)| < tooBig := lt_trans (by norm_num [abs_of_pos]) big
  intro i
  fin_cases i
  · exact ⟨rfl, h1, b1⟩
  · exact ⟨rfl, h1, b1⟩
  · exact ⟨rfl, h1, b1⟩
  · exact ⟨rfl, h2, b2⟩

theorem driftStart_t : Finite driftStart.t := by
  have big : (1 : ℚ) < tooBig := one_lt_pow₀ (by norm_num) (by norm_num)
  have z0 : IsDoubleVal (.fin 0) := ⟨by simpa using isDouble_int 0 (by norm_num), by simpa using lt_trans zero_lt_one big⟩
  intro i
  fin_cases i <;> exact ⟨rfl, z0⟩

/-- `T()` is finite if its parts are -/
theorem T_finite {R : ℝ → ℚ} {X : TransformationD} (hM : FiniteM (quat2r (fun q => R q) X.q)) (ht : Finite X.t) (i j : Fin 4) :
    (TransformationD.T R X i j).isFinite ∧ IsDoubleVal (TransformationD.T R X i j) := by
  have big : (1 : ℚ) < tooBig := one_lt_pow₀ (by norm_num) (by norm_num)
  have z0 : IsDoubleVal (.fin 0) := ⟨by simpa using isDouble_int 0 (by norm_num), by simpa using lt_trans zero_lt_one big⟩
  have z1 : IsDoubleVal (.fin 1) := ⟨by simpa using isDouble_int 1 (by norm_num), by simpa using big⟩
  unfold TransformationD.T
  generalize quat2r (fun q => R q) X.q = C at hM ⊢
  fin_cases i <;> fin_cases j
  · exact hM 0 0
  · exact hM 0 1
  · exact hM 0 2
  · exact ht 0
  · exact hM 1 0
  · exact hM 1 1
  · exact hM 1 2
  · exact ht 1
  · exact hM 2 0
  · exact hM 2 1
  · exact hM 2 2
  · exact ht 2
  · exact ⟨rfl, z0⟩
  · exact ⟨rfl, z0⟩
  · exact ⟨rfl, z0⟩
  · exact ⟨rfl, z1⟩

theorem driftStart_vals : vals driftStart.q = ![33613435917 / 2 ^ 36, 33613435917 / 2 ^ 36, 33613435917 / 2 ^ 36, 17 / 32] := by
  funext i
  fin_cases i <;> norm_num [vals, driftStart, fval]

section
variable {R : ℝ → ℚ} (hR : IsRndR R)
include hR

/-- as long as the scalar part stays, the missing part of the norm grows -/
theorem drift (hb : ∀ n ≤ 120, 515 / 1000 ≤ vals ((TransformationD.viaMatrix R)^[n] driftStart).q 3 ∧ vals ((TransformationD.viaMatrix R)^[n] driftStart).q 3 ≤ 547 / 1000) (n : ℕ) (hn : n ≤ 120) :
    let Y := (TransformationD.viaMatrix R)^[n] driftStart
    Finite Y.q ∧ (∀ j, j ≠ 3 → |vals Y.q j * vals Y.q 3 - 33613435917 / 2 ^ 36 * (17 / 32)| ≤ (n : ℝ) * (1 / 2 ^ 46)) ∧ 1 / 2 ^ 32 * (6 / 5) ^ n ≤ 1 - sqNorm (vals Y.q) ∧ 1 - sqNorm (vals Y.q) ≤ 1 / 10 := by
  have upper : ∀ n : ℕ, n ≤ 120 → Finite ((TransformationD.viaMatrix R)^[n] driftStart).q →
      (∀ j, j ≠ 3 → |vals ((TransformationD.viaMatrix R)^[n] driftStart).q j * vals ((TransformationD.viaMatrix R)^[n] driftStart).q 3 - 33613435917 / 2 ^ 36 * (17 / 32)| ≤ (n : ℝ) * (1 / 2 ^ 46)) →
      (∀ j, j ≠ 3 → 224 / 1000 ≤ vals ((TransformationD.viaMatrix R)^[n] driftStart).q j * vals ((TransformationD.viaMatrix R)^[n] driftStart).q j ∧
        vals ((TransformationD.viaMatrix R)^[n] driftStart).q j * vals ((TransformationD.viaMatrix R)^[n] driftStart).q j ≤ 256 / 1000) ∧ 1 - sqNorm (vals ((TransformationD.viaMatrix R)^[n] driftStart).q) ≤ 1 / 10 := by
    intro n hn hf hp
    obtain ⟨b1, b2⟩ := hb n hn
    set q := vals ((TransformationD.viaMatrix R)^[n] driftStart).q
    have hn' : (n : ℝ) ≤ 120 := by exact_mod_cast hn
    have A : ∀ j, j ≠ 3 → 224 / 1000 ≤ q j * q j ∧ q j * q j ≤ 256 / 1000 := by
      intro j hj
      have h1 := abs_le.1 (hp j hj)
      have m : (n : ℝ) * (1 / 2 ^ 46) ≤ 1 / 2 ^ 39 := by nlinarith
      have c1 : (25985 : ℝ) / 100000 ≤ q j * q 3 := by norm_num at h1 m; linarith
      have c2 : q j * q 3 ≤ 25986 / 100000 := by norm_num at h1 m; linarith
      have d1 : (475 : ℝ) / 1000 ≤ q j := by nlinarith
      have d2 : q j ≤ 505 / 1000 := by nlinarith
      constructor <;> nlinarith
    refine ⟨A, ?_⟩
    have a0 := A 0 (by decide)
    have a1 := A 1 (by decide)
    have a2 := A 2 (by decide)
    rw [Kinematics.sq4]
    nlinarith
  induction n with
  | zero =>
    intro Y
    have hY : vals Y.q = ![33613435917 / 2 ^ 36, 33613435917 / 2 ^ 36, 33613435917 / 2 ^ 36, 17 / 32] := driftStart_vals
    refine ⟨driftStart_finite, fun j hj => ?_, ?_, ?_⟩
    · rw [hY]
      fin_cases j <;> simp at hj ⊢
    · have : sqNorm (vals Y.q) = 3 * (33613435917 / 2 ^ 36 * (33613435917 / 2 ^ 36)) + 17 / 32 * (17 / 32) := by rw [hY, Kinematics.sq4]; simp; ring
      rw [this]; norm_num
    · have : sqNorm (vals Y.q) = 3 * (33613435917 / 2 ^ 36 * (33613435917 / 2 ^ 36)) + 17 / 32 * (17 / 32) := by rw [hY, Kinematics.sq4]; simp; ring
      rw [this]; norm_num
  | succ n ih =>
    obtain ⟨hf, hp, hτ, hτ1⟩ := ih (by omega)
    obtain ⟨b1, b2⟩ := hb n (by omega)
    obtain ⟨c1, c2⟩ := hb (n + 1) hn
    have A := (upper n (by omega) hf hp).1
    have U := upper (n + 1) hn
    rw [Function.iterate_succ_apply'] at c1 c2 U ⊢
    set Y := (TransformationD.viaMatrix R)^[n] driftStart with hY
    intro Z
    have hpow : (1 : ℝ) ≤ (6 / 5) ^ n := one_le_pow₀ (by norm_num)
    have τ0 : 1 / 2 ^ 32 ≤ 1 - sqNorm (vals Y.q) := by norm_num at hτ ⊢; linarith
    have B1 : 26522 / 100000 ≤ vals Y.q 3 * vals Y.q 3 := by nlinarith
    obtain ⟨g1, g2, g3, g4, g5⟩ := step hR hf (k := 3) (by rw [abs_le]; constructor <;> (norm_num at τ0 ⊢; linarith)) (by linarith) (fun i hi => by
      have := (A i hi).2
      norm_num; linarith)
    have T := tau_step (q := vals Y.q) (q' := vals Z.q) (k := 3) (η := 1 / 2 ^ 46) (by norm_num) (by norm_num at τ0 ⊢; linarith) g4 g5
    have P : ∀ j, j ≠ 3 → |vals Z.q j * vals Z.q 3 - 33613435917 / 2 ^ 36 * (17 / 32)| ≤ ((n + 1 : ℕ) : ℝ) * (1 / 2 ^ 46) := fun j hj => by
      have := abs_sub_le (vals Z.q j * vals Z.q 3) (vals Y.q j * vals Y.q 3) (33613435917 / 2 ^ 36 * (17 / 32))
      have := g5 j hj
      have := hp j hj
      push_cast
      linarith
    refine ⟨g1, P, ?_, (U g1 P).2⟩
    have T' := (abs_le.1 T).1
    set τ := 1 - sqNorm (vals Y.q)
    set τ' := 1 - sqNorm (vals Z.q)
    set B := vals Y.q 3 * vals Y.q 3
    have C1 : vals Z.q 3 * vals Z.q 3 ≤ 29921 / 100000 := by nlinarith
    have C0 : 0 < vals Z.q 3 * vals Z.q 3 := by nlinarith
    rw [abs_of_pos (by linarith [show (0 : ℝ) < 1 / 2 ^ 32 by norm_num] : 0 < τ)] at T'
    have t1 : τ * (37 / 100) ≤ τ / 4 * (1 + 2 * B - τ / 4) := by
      have : τ / 4 * (1 + 2 * B - τ / 4) = τ * ((1 + 2 * B - τ / 4) / 4) := by ring
      rw [this]
      exact mul_le_mul_of_nonneg_left (by linarith) (by linarith [show (0 : ℝ) < 1 / 2 ^ 32 by norm_num])
    have t2 : τ * (365 / 1000) ≤ vals Z.q 3 * vals Z.q 3 * τ' := by
      have : 7 * (1 / 2 ^ 46) + 1 / 2 ^ 46 * τ ≤ τ * (5 / 1000) := by norm_num at τ0 ⊢; linarith
      linarith
    have t3 : 0 ≤ τ' := by
      have : 0 ≤ τ * (365 / 1000) := by linarith [show (0 : ℝ) < 1 / 2 ^ 32 by norm_num]
      exact nonneg_of_mul_nonneg_right (this.trans t2) C0
    have t4 : τ * (6 / 5) ≤ τ' := by nlinarith
    rw [pow_succ (6 / 5 : ℝ), ← mul_assoc]
    exact (mul_le_mul_of_nonneg_right hτ (by norm_num)).trans t4

omit hR in
/-- the scalar part is never negative -/
theorem r2quat_nonneg (M : FM3) : 0 ≤ vals (r2quat R M) 3 := by
  unfold r2quat
  simp only
  generalize r2quatBranch R M _ = q
  unfold vals
  by_cases h : Fp.lt (q 3) (.fin 0) = true
  · rw [if_pos h]
    cases hq : q 3 with
    | fin a =>
      rw [hq] at h
      simp only [Fp.lt, decide_eq_true_eq] at h
      simp only [Fp.neg, fval]
      exact_mod_cast (neg_nonneg.2 h.le)
    | _ => simp [Fp.neg, fval]
  · rw [if_neg h]
    cases hq : q 3 with
    | fin a =>
      rw [hq] at h
      simp only [Fp.lt, decide_eq_true_eq, not_lt] at h
      simp only [fval]
      exact_mod_cast h
    | _ => simp [fval]

omit hR in
theorem drift_vals : vals driftStart.q 3 = 17 / 32 ∧ (∀ j, j ≠ 3 → vals driftStart.q j = 33613435917 / 2 ^ 36) ∧
    sqNorm (vals driftStart.q) = 3 * (33613435917 / 2 ^ 36 * (33613435917 / 2 ^ 36)) + 17 / 32 * (17 / 32) := by
  have v3 : vals driftStart.q 3 = 17 / 32 := by rw [driftStart_vals]; rfl
  have vj : ∀ j, j ≠ 3 → vals driftStart.q j = 33613435917 / 2 ^ 36 := by
    intro j hj
    rw [driftStart_vals]
    fin_cases j <;> simp at hj ⊢
  have hN : sqNorm (vals driftStart.q) = 3 * (33613435917 / 2 ^ 36 * (33613435917 / 2 ^ 36)) + 17 / 32 * (17 / 32) := by
    rw [Kinematics.sq4, v3, vj 0 (by decide), vj 1 (by decide), vj 2 (by decide)]; ring
  exact ⟨v3, vj, hN⟩

/-- its matrix is finite and close to a rotation matrix -/
theorem drift_matrix : (∀ i j, (TransformationD.T R driftStart i j).isFinite ∧ IsDoubleVal (TransformationD.T R driftStart i j)) ∧
    ∃ x : V4, IsUnit4 x ∧ ∀ i j, |valsM (fun i j : Fin 3 => TransformationD.T R driftStart i.castSucc j.castSucc) i j - Kinematics.quat2r x i j| ≤ 1 / 2 ^ 26 := by
  obtain ⟨v3, vj, hN⟩ := drift_vals
  -- the matrix
  have hb : ∀ i, |vals driftStart.q i| ≤ 9 / 8 := by
    intro i
    by_cases e : i = 3
    · rw [e, v3]; norm_num [abs_of_pos]
    · rw [vj i e]; norm_num [abs_of_pos]
  have E := quat2r_ab hR driftStart_finite hb
  have n1 : |nrm (vals driftStart.q) - 1| ≤ 1 / 2 ^ 32 := by
    have h1 := nrm_sq (vals driftStart.q)
    have h0 := nrm_nonneg (vals driftStart.q)
    rw [hN] at h1
    rw [abs_le]
    constructor <;> (norm_num at h1 ⊢; nlinarith)
  set v := vals driftStart.q with hv
  have qb := abs_le.1 n1
  have n0 : 0 < nrm v := by norm_num at qb; linarith
  set x : V4 := (nrm v)⁻¹ • v with hx
  have nx : nrm x = 1 := by rw [hx, nrm_smul, abs_of_nonneg (inv_nonneg.2 n0.le), inv_mul_cancel₀ n0.ne']
  have ux : IsUnit4 x := by
    have := nrm_sq x
    rw [nx, Kinematics.sq4] at this
    unfold IsUnit4; linarith
  have hd : nrm (v - x) ≤ 1 / 2 ^ 32 := by
    have e : v - x = (nrm v - 1) • x := by
      funext i
      simp only [hx, Pi.sub_apply, Pi.smul_apply, smul_eq_mul]
      field_simp
    rw [e, nrm_smul, nx, mul_one]; exact n1
  have hs : nrm (v + x) ≤ 3 := by
    have := nrm_add v x
    norm_num at qb; linarith
  have u1 : u51 = 1 / 2 ^ 51 := rfl
  have hM : FiniteM (quat2r (fun q => R q) driftStart.q) := fun i j => (E i j).isFinite (by
    have h1 := quat2r_entry v i j
    rw [hN] at h1
    norm_num at u1 h1 ⊢; linarith)
  have hT := T_finite hM driftStart_t
  have hδ : ∀ i j, |valsM (fun i j : Fin 3 => TransformationD.T R driftStart i.castSucc j.castSucc) i j - Kinematics.quat2r x i j| ≤ 1 / 2 ^ 26 := fun i j => by
    rw [block_T]
    have h1 := quat2r_lip v x i j
    have h2 : nrm (v - x) * nrm (v + x) ≤ 1 / 2 ^ 32 * 3 := mul_le_mul hd hs (nrm_nonneg _) (by norm_num)
    have h3 := abs_sub_le (valsM (quat2r (fun q => R q) driftStart.q) i j) (Kinematics.quat2r v i j) (Kinematics.quat2r x i j)
    have h4 : |valsM (quat2r (fun q => R q) driftStart.q) i j - Kinematics.quat2r v i j| ≤ 8 * u51 := (E i j).val.2.2
    norm_num at h2 h4 u1 ⊢; linarith
  exact ⟨hT, x, ux, hδ⟩

/-- the first conversion keeps its scalar part -/
theorem drift_first : 531 / 1000 ≤ vals (driftStart.viaMatrix R).q 3 ∧ vals (driftStart.viaMatrix R).q 3 ≤ 532 / 1000 := by
  obtain ⟨v3, vj, hN⟩ := drift_vals
  -- the first conversion
  obtain ⟨f1, f2, f3, f4, f5⟩ := step hR driftStart_finite (k := 3) (by rw [hN]; norm_num [abs_le]) (by rw [v3]; norm_num) (fun i hi => by rw [v3, vj i hi]; norm_num)
  have s0 : 531 / 1000 ≤ vals (driftStart.viaMatrix R).q 3 ∧ vals (driftStart.viaMatrix R).q 3 ≤ 532 / 1000 := by
    rw [hN, v3] at f4
    have := abs_le.1 f4
    constructor <;> (norm_num at this ⊢; nlinarith)
  exact s0

/-- **C161** That is false, with every rounding of the hardware: the quaternion read from a matrix is not normalized, and for a rotation whose quaternion has no component with a square over 1/2 the error of its length grows with each
conversion. -/
theorem C161_negation : ¬ C161_claim R := by
  intro hc
  obtain ⟨v3, vj, hN⟩ := drift_vals
  obtain ⟨hT, x, ux, hδ⟩ := drift_matrix hR
  have C := hc (TransformationD.T R driftStart) x hT ux hδ
  have s0 := drift_first hR
  -- the scalar part is never negative
  have nonneg : ∀ n, 0 ≤ vals ((TransformationD.viaMatrix R)^[n] driftStart).q 3 := by
    intro n
    cases n with
    | zero => show 0 ≤ vals driftStart.q 3; rw [v3]; norm_num
    | succ n =>
      rw [Function.iterate_succ_apply', viaMatrix_q]
      exact r2quat_nonneg _
  have D := drift hR (fun n _ => by
    cases n with
    | zero => show _ ≤ vals driftStart.q 3 ∧ vals driftStart.q 3 ≤ _; rw [v3]; norm_num
    | succ n =>
      have h0 := nonneg (n + 1)
      obtain ⟨s, hs, h⟩ := C n
      have h3 := h 3
      rw [Function.iterate_succ_apply] at h0 ⊢
      have h3 := abs_le.1 (show |vals ((TransformationD.viaMatrix R)^[n] (driftStart.viaMatrix R)).q 3 - s * vals (driftStart.viaMatrix R).q 3| ≤ 1 / 128 from h3)
      rcases hs with rfl | rfl
      · constructor <;> linarith
      · exfalso; linarith) 120 le_rfl
  obtain ⟨-, -, d1, d2⟩ := D
  norm_num at d1 d2
  linarith

end

/-! ## the hypotheses can be met -/

/-- a turn around the third axis, by about 74 degrees -/
def turn : Build := .make ![.fin 0, .fin 0, .fin 3, .fin 4] ![.fin 1, .fin 2, .fin 2]

theorem turn_norm : nrm (vals ![.fin 0, .fin 0, .fin 3, .fin 4]) = 5 := by
  have : sqNorm (vals ![.fin 0, .fin 0, .fin 3, .fin 4]) = 5 * 5 := by norm_num [sqNorm, Fin.sum_univ_succ, vals, fval]
  rw [Kinematics.norm, this, Real.sqrt_mul_self (by norm_num)]

theorem turn_rotations : turn.RotationsOk := by
  refine ⟨?_, by rw [turn_norm]; exact ⟨by norm_num, by norm_num⟩⟩
  have big : (5 : ℚ) < tooBig := lt_of_lt_of_le (by norm_num : (5 : ℚ) < 2 ^ 3) (pow_le_pow_right₀ (by norm_num) (by norm_num : 3 ≤ 1024))
  have z : ∀ n : ℕ, n ≤ 4 → IsDoubleVal (.fin (n : ℚ)) := fun n hn => by
    have hn' : (n : ℚ) ≤ 4 := by exact_mod_cast hn
    have h0 : (0 : ℚ) ≤ n := Nat.cast_nonneg n
    refine ⟨by simpa using isDouble_int (n : ℤ) (by rw [Nat.abs_cast]; exact_mod_cast lt_of_le_of_lt hn (by norm_num : 4 < 2 ^ 53)), ?_⟩
    rw [abs_of_nonneg h0]
    exact lt_of_le_of_lt hn' (lt_trans (by norm_num) big)
  intro i
  fin_cases i
  · exact ⟨rfl, by simpa using z 0 (by norm_num)⟩
  · exact ⟨rfl, by simpa using z 0 (by norm_num)⟩
  · exact ⟨rfl, by simpa using z 3 (by norm_num)⟩
  · exact ⟨rfl, by simpa using z 4 (by norm_num)⟩

theorem turn_large {R : ℝ → ℚ} (hR : IsRndR R) (E : Eigen fun q => R q) : 3 / 5 ≤ vals (turn.run E).q 3 * vals (turn.run E).q 3 := by
  have h := (abs_le_nrm (vals (turn.run E).q - turn.exact.q) 3).trans (C121_rotation hR E turn turn_rotations (by norm_num [turn, Build.steps]))
  have e : turn.exact.q 3 = 4 / 5 := by
    show vals ![.fin 0, .fin 0, .fin 3, .fin 4] 3 / nrm (vals ![.fin 0, .fin 0, .fin 3, .fin 4]) = 4 / 5
    rw [turn_norm]
    show ((4 : ℚ) : ℝ) / 5 = 4 / 5
    norm_num
  have s : (turn.steps : ℝ) = 1 := by norm_num [turn, Build.steps]
  rw [Pi.sub_apply, e, s] at h
  have := (abs_le.1 h).1
  norm_num at this
  nlinarith

example : ((turn.run (Eigen.lanes fun q => rndEvenReal q)).viaMatrix rndEvenReal).t = ![.fin 1, .fin 2, .fin 2] ∧
    ∃ s : ℝ, (s = 1 ∨ s = -1) ∧ ∀ i, |vals ((turn.run (Eigen.lanes fun q => rndEvenReal q)).viaMatrix rndEvenReal).q i - s * vals (turn.run (Eigen.lanes fun q => rndEvenReal q)).q i| ≤ 1 / 2 ^ 42 :=
  have h := C161_roundtrip isRndR_rndEvenReal (Eigen.lanes fun q => rndEvenReal q) turn turn_rotations
  ⟨h.1, h.2.2.2⟩

/-- a million conversions of the turn -/
example : ∃ s : ℝ, (s = 1 ∨ s = -1) ∧
    ∀ i, |vals ((TransformationD.viaMatrix rndEvenReal)^[1000000] (turn.run (Eigen.lanes fun q => rndEvenReal q))).q i - s * vals (turn.run (Eigen.lanes fun q => rndEvenReal q)).q i| ≤ ((1000000 : ℕ) : ℝ) / 2 ^ 37 :=
  (C161_stable_partial isRndR_rndEvenReal (Eigen.lanes fun q => rndEvenReal q) turn turn_rotations (turn_large isRndR_rndEvenReal _) 1000000 (by norm_num)).2.2

/-- a matrix that is a rotation matrix only up to single precision: the one of the refutation -/
example : Finite (r2quat rndEvenReal fun i j : Fin 3 => TransformationD.T rndEvenReal driftStart i.castSucc j.castSucc) := by
  obtain ⟨hT, x, ux, hδ⟩ := drift_matrix isRndR_rndEvenReal
  exact (C161_single isRndR_rndEvenReal (fun i j => hT _ _) ux (by norm_num) hδ).1

example : ¬ C161_claim rndEvenReal := C161_negation isRndR_rndEvenReal

end Verif.KinematicsDouble
