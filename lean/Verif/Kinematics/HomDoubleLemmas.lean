import Verif.Kinematics.HomDouble
import Verif.Kinematics.NormalizeLemmas
import Verif.Kinematics.RotateErr
import Verif.Common.RelErr
import Mathlib.Algebra.Order.Ring.Pow

/-!
# Homogeneous points on doubles: lemmas

Many roundings (`Acc` of `Verif.Common.Acc` allows for a hundred).
-/

namespace Verif.HomDouble

open Verif.Common Verif.KinematicsDouble

theorem pow_eps_le {m : ℕ} (hm : m ≤ 2 ^ 40) : (1 + eps) ^ m ≤ 1 + m / 2 ^ 52 := by
  have e0 := eps_pos
  have e1 : eps ≤ 1 / 2 ^ 53 + 1 / 2 ^ 100 := le_rfl
  have hm' : (m : ℝ) ≤ 2 ^ 40 := by exact_mod_cast hm
  have m0 : (0 : ℝ) ≤ m := Nat.cast_nonneg m
  have b := one_add_mul_le_pow (a := -eps) (by linarith [show (1 : ℝ) / 2 ^ 53 + 1 / 2 ^ 100 ≤ 2 by norm_num]) m
  have a0 : 0 ≤ (1 + eps) ^ m := by positivity
  have c : (1 + eps) ^ m * (1 + -eps) ^ m ≤ 1 := by
    rw [← mul_pow]
    exact pow_le_one₀ (mul_nonneg (by linarith) (by linarith [show (1 : ℝ) / 2 ^ 53 + 1 / 2 ^ 100 ≤ 1 by norm_num])) (by nlinarith)
  have d : (1 + eps) ^ m * (1 + m * -eps) ≤ 1 := (mul_le_mul_of_nonneg_left b a0).trans c
  obtain ⟨t, ht⟩ : ∃ t, t = (m : ℝ) * eps := ⟨_, rfl⟩
  have t1 : t ≤ m * (1 / 2 ^ 53 + 1 / 2 ^ 100) := by rw [ht]; exact mul_le_mul_of_nonneg_left e1 m0
  have t2 : t ≤ 1 / 2 ^ 12 := t1.trans ((mul_le_mul_of_nonneg_right hm' (by norm_num)).trans (by norm_num))
  have t0 : 0 ≤ t := by rw [ht]; positivity
  rw [show 1 + (m : ℝ) * -eps = 1 - t by rw [ht]; ring] at d
  have k : 1 ≤ (1 + (m : ℝ) / 2 ^ 52) * (1 - t) := by
    have : (m : ℝ) / 2 ^ 52 * t ≤ m / 2 ^ 52 * (1 / 2 ^ 12) := mul_le_mul_of_nonneg_left t2 (by positivity)
    have : (m : ℝ) * (1 / 2 ^ 53 + 1 / 2 ^ 100) + m / 2 ^ 52 * (1 / 2 ^ 12) ≤ m / 2 ^ 52 := by
      rw [show (m : ℝ) * (1 / 2 ^ 53 + 1 / 2 ^ 100) + m / 2 ^ 52 * (1 / 2 ^ 12) = m * (1 / 2 ^ 53 + 1 / 2 ^ 100 + 1 / 2 ^ 52 * (1 / 2 ^ 12)) by ring, div_eq_mul_inv]
      exact mul_le_mul_of_nonneg_left (by norm_num) m0
    nlinarith
  exact le_of_mul_le_mul_right (d.trans k) (by linarith [show (1 : ℝ) / 2 ^ 12 < 1 by norm_num])

theorem pow_eps_two {m : ℕ} (hm : m ≤ 2 ^ 40) : (1 + eps) ^ m ≤ 1 + 1 / 2 ^ 12 := by
  refine (pow_eps_le hm).trans ?_
  have hm' : (m : ℝ) ≤ 2 ^ 40 := by exact_mod_cast hm
  have : (m : ℝ) / 2 ^ 52 ≤ 2 ^ 40 / 2 ^ 52 := div_le_div_of_nonneg_right hm' (by norm_num)
  refine (add_le_add_right this 1).trans (by norm_num)

section
variable {rnd : ℚ → ℚ} (hr : IsRnd rnd)

include hr

theorem acc_round {m : ℕ} (hm : m ≤ 2 ^ 40) {z : ℚ} {x S : ℝ} (hS : Scale S) (hx : |x| ≤ S) (hz : |(z : ℝ) - x| ≤ ((1 + eps) ^ m - 1) * S) :
    Acc (m + 1) (rounded rnd (.fin z)) x S := by
  have hS0 := hS.pos
  have hzS : |(z : ℝ)| ≤ (1 + eps) ^ m * S := by
    have : |(z : ℝ)| ≤ |(z : ℝ) - x| + |x| := by simpa using abs_add_le ((z : ℝ) - x) x
    linarith
  have hlim : |z| ≤ 2 * limit := by
    have h2 : |(z : ℝ)| ≤ 2 ^ 100 * (2 : ℝ) ^ (900 : ℤ) := hzS.trans (mul_le_mul ((pow_eps_two hm).trans (by norm_num)) hS.2 hS0.le (by positivity))
    have h3 : (2 : ℝ) ^ 100 * (2 : ℝ) ^ (900 : ℤ) ≤ ((2 * limit : ℚ) : ℝ) := by
      unfold limit
      push_cast
      rw [show (900 : ℤ) = ((900 : ℕ) : ℤ) from rfl, zpow_natCast, ← pow_add, ← pow_succ']
      exact pow_le_pow_right₀ (by norm_num) (by norm_num)
    have h4 : ((|z| : ℚ) : ℝ) ≤ ((2 * limit : ℚ) : ℝ) := by rw [Rat.cast_abs]; exact h2.trans h3
    exact_mod_cast h4
  refine ⟨rnd z, (rounded_fin hr hlim).1, hr.mem z, hx, ?_⟩
  have he : |((rnd z : ℚ) : ℝ) - z| ≤ |(z : ℝ)| / 2 ^ 53 + tiny := by
    have := hr.err_any z
    have h1 : ((|rnd z - z| : ℚ) : ℝ) ≤ ((|z| / 2 ^ 53 + tiny : ℚ) : ℝ) := by exact_mod_cast this
    push_cast at h1
    norm_num at h1 ⊢
    exact h1
  have ht := tiny_le hS
  have h1 : |((rnd z : ℚ) : ℝ) - z| ≤ eps * ((1 + eps) ^ m * S) := by
    refine he.trans ?_
    have h3 : S ≤ (1 + eps) ^ m * S := le_mul_of_one_le_left hS0.le (one_le_pow_eps m)
    have e1 : eps * ((1 + eps) ^ m * S) = (1 + eps) ^ m * S / 2 ^ 53 + 1 / 2 ^ 100 * ((1 + eps) ^ m * S) := by
      obtain ⟨y, hy⟩ : ∃ y, y = (1 + eps) ^ m * S := ⟨_, rfl⟩
      rw [← hy]; unfold eps; ring
    rw [e1]
    have h4 : |(z : ℝ)| / 2 ^ 53 ≤ (1 + eps) ^ m * S / 2 ^ 53 := div_le_div_of_nonneg_right hzS (by positivity)
    have h5 : 1 / 2 ^ 100 * S ≤ 1 / 2 ^ 100 * ((1 + eps) ^ m * S) := mul_le_mul_of_nonneg_left h3 (by positivity)
    linarith
  have h2 : |((rnd z : ℚ) : ℝ) - x| ≤ |((rnd z : ℚ) : ℝ) - z| + |(z : ℝ) - x| := abs_sub_le _ _ _
  have e2 : ((1 + eps) ^ (m + 1) - 1) * S = eps * ((1 + eps) ^ m * S) + ((1 + eps) ^ m - 1) * S := by rw [pow_succ]; ring
  rw [e2]
  linarith

theorem acc_mul {j k : ℕ} (hjk : j + k ≤ 2 ^ 40) {f g : Fp} {x y S T : ℝ} (hf : Acc j f x S) (hg : Acc k g y T) (hs : Scale (S * T)) :
    Acc (j + k + 1) (fmul rnd f g) (x * y) (S * T) := by
  obtain ⟨q, rfl, hd, hx, hq⟩ := hf
  obtain ⟨p, rfl, hd', hy, hp⟩ := hg
  have hS : 0 ≤ S := (abs_nonneg x).trans hx
  have hT : 0 ≤ T := (abs_nonneg y).trans hy
  refine acc_round hr hjk hs (by rw [abs_mul]; exact mul_le_mul hx hy (abs_nonneg y) hS) ?_
  set a := (1 + eps) ^ j with ha
  set b := (1 + eps) ^ k with hb
  have ha1 : 1 ≤ a := one_le_pow_eps j
  have hb1 : 1 ≤ b := one_le_pow_eps k
  have e : ((q * p : ℚ) : ℝ) - x * y = ((q : ℝ) - x) * ((p : ℝ) - y) + ((q : ℝ) - x) * y + x * ((p : ℝ) - y) := by push_cast; ring
  rw [e]
  have t1 : |((q : ℝ) - x) * ((p : ℝ) - y)| ≤ (a - 1) * S * ((b - 1) * T) := by
    rw [abs_mul]; exact mul_le_mul hq hp (abs_nonneg _) (mul_nonneg (by linarith) hS)
  have t2 : |((q : ℝ) - x) * y| ≤ (a - 1) * S * T := by
    rw [abs_mul]; exact mul_le_mul hq hy (abs_nonneg _) (mul_nonneg (by linarith) hS)
  have t3 : |x * ((p : ℝ) - y)| ≤ S * ((b - 1) * T) := by
    rw [abs_mul]; exact mul_le_mul hx hp (abs_nonneg _) hS
  have := (abs_add_le (((q : ℝ) - x) * ((p : ℝ) - y) + ((q : ℝ) - x) * y) (x * ((p : ℝ) - y))).trans (add_le_add_left (abs_add_le _ _) _)
  rw [pow_add, ← ha, ← hb]
  nlinarith

theorem acc_add {i j k : ℕ} (hi : i ≤ k) (hj : j ≤ k) (hk : k ≤ 2 ^ 40) {f g : Fp} {x y S T : ℝ} (hf : Acc i f x S) (hg : Acc j g y T) (hs : Scale (S + T)) :
    Acc (k + 1) (fadd rnd f g) (x + y) (S + T) := by
  replace hf := hf.mono hi le_rfl
  replace hg := hg.mono hj le_rfl
  obtain ⟨q, rfl, hd, hx, hq⟩ := hf
  obtain ⟨p, rfl, hd', hy, hp⟩ := hg
  refine acc_round hr hk hs ((abs_add_le x y).trans (add_le_add hx hy)) ?_
  have e : ((q + p : ℚ) : ℝ) - (x + y) = ((q : ℝ) - x) + ((p : ℝ) - y) := by push_cast; ring
  rw [e, mul_add]
  exact (abs_add_le _ _).trans (add_le_add hq hp)

theorem acc_sub {i j k : ℕ} (hi : i ≤ k) (hj : j ≤ k) (hk : k ≤ 2 ^ 40) {f g : Fp} {x y S T : ℝ} (hf : Acc i f x S) (hg : Acc j g y T) (hs : Scale (S + T)) :
    Acc (k + 1) (fsub rnd f g) (x - y) (S + T) := by
  have := acc_add hr hi hj hk hf hg.neg hs
  rw [sub_eq_add_neg]
  exact this

/-- the reciprocal of a weight -/
theorem acc_recip {k : ℕ} (hk : 2 * k ≤ 2 ^ 40) {f : Fp} {w : ℝ} (hw : w ≠ 0) (hf : Acc k f w |w|) (hs : Scale (1 / |w|)) : Acc (2 * k + 1) (fdiv rnd (.fin 1) f) (1 / w) (1 / |w|) := by
  obtain ⟨q, rfl, hd, -, hq⟩ := hf
  have w0 : 0 < |w| := abs_pos.2 hw
  have a1 := one_le_pow_eps k
  have a2 : (1 + eps) ^ k ≤ 1 + 1 / 2 ^ 12 := pow_eps_two (by omega)
  obtain ⟨a, ha⟩ : ∃ a, a = (1 + eps) ^ k := ⟨_, rfl⟩
  have sq : (1 + eps) ^ (2 * k) = a * a := by rw [ha, two_mul, pow_add]
  rw [← ha] at a1 a2 hq
  have q1 : (2 - a) * |w| ≤ |(q : ℝ)| := by
    have := abs_sub_abs_le_abs_sub w (q : ℝ)
    rw [abs_sub_comm] at this
    linarith
  have h2 : (0 : ℝ) < 2 - a := by linarith [show (1 : ℝ) / 2 ^ 12 < 1 by norm_num]
  have q0 : 0 < |(q : ℝ)| := lt_of_lt_of_le (mul_pos h2 w0) q1
  have qr : (q : ℝ) ≠ 0 := abs_pos.1 q0
  have qn : q ≠ 0 := by exact_mod_cast qr
  have e : fdiv rnd (.fin 1) (.fin q) = rounded rnd (.fin (1 / q)) := by simp [fdiv, Fp.div, qn]
  rw [e]
  refine acc_round hr hk hs (by rw [abs_div, abs_one]) ?_
  rw [sq]
  push_cast
  rw [show 1 / (q : ℝ) - 1 / w = (w - q) / (q * w) by field_simp, abs_div, abs_mul, abs_sub_comm, div_le_iff₀ (mul_pos q0 w0)]
  have : (a * a - 1) * (1 / |w|) * (|(q : ℝ)| * |w|) = (a * a - 1) * |(q : ℝ)| := by field_simp
  rw [this]
  have b1 : (a - 1) * |w| ≤ (a * a - 1) * ((2 - a) * |w|) := by
    have : a - 1 ≤ (a * a - 1) * (2 - a) := by
      have : (a * a - 1) * (2 - a) - (a - 1) = (a - 1) * (1 + a * (1 - a)) := by ring
      have h3 : 0 ≤ 1 + a * (1 - a) := by nlinarith [show (1 : ℝ) / 2 ^ 12 ≤ 1 / 4 by norm_num]
      nlinarith [mul_nonneg (sub_nonneg.2 a1) h3]
    calc _ ≤ (a * a - 1) * (2 - a) * |w| := mul_le_mul_of_nonneg_right this w0.le
      _ = _ := by ring
  exact hq.trans (b1.trans (mul_le_mul_of_nonneg_left q1 (by nlinarith)))

end

/-- multiplying by one -/
theorem fmul_one {rnd : ℚ → ℚ} (h : IsRnd rnd) {x : Fp} (hx : IsDoubleVal x) : fmul rnd x (.fin 1) = x := by
  cases x with
  | fin q => simp only [fmul, Fp.mul, mul_one, rounded, h.fix hx.1, if_pos hx.2]
  | inf b => simp [fmul, Fp.mul, rounded, show ¬ ((1 : ℚ) < 0) by norm_num]
  | nan => rfl

theorem one_div_one {rnd : ℚ → ℚ} (h : IsRnd rnd) : fdiv rnd (.fin 1) (.fin 1) = .fin 1 := by
  have d : IsDouble 1 := by simpa using isDouble_int 1 (by norm_num)
  simp only [fdiv, Fp.div, one_ne_zero, if_false, div_one, rounded, h.fix d]
  rw [if_pos]
  rw [abs_one]; unfold tooBig; exact one_lt_pow₀ (by norm_num) (by norm_num)

theorem rounded_val {rnd : ℚ → ℚ} (h : IsRnd rnd) (x : Fp) : IsDoubleVal (rounded rnd x) := by
  cases x with
  | fin q =>
    simp only [rounded]
    split
    · exact ⟨h.mem q, ‹_›⟩
    · trivial
  | inf b => trivial
  | nan => trivial

theorem one_val : IsDoubleVal (.fin 1) := ⟨by simpa using isDouble_int 1 (by norm_num), by rw [abs_one]; unfold tooBig; exact one_lt_pow₀ (by norm_num) (by norm_num)⟩

theorem zero_val : IsDoubleVal (.fin 0) := ⟨by simpa using isDouble_int 0 (by norm_num), by rw [abs_zero]; unfold tooBig; positivity⟩

/-- adding zero -/
theorem fadd_zero {rnd : ℚ → ℚ} (h : IsRnd rnd) {x : Fp} (hx : IsDoubleVal x) : fadd rnd x (.fin 0) = x := by
  cases x with
  | fin q => simp only [fadd, Fp.add, add_zero, rounded, h.fix hx.1, if_pos hx.2]
  | inf b => simp [fadd, Fp.add, rounded]
  | nan => rfl

theorem fadd_comm (rnd : ℚ → ℚ) (x y : Fp) : fadd rnd x y = fadd rnd y x := by
  unfold fadd
  congr 1
  cases x <;> cases y <;> simp [Fp.add, add_comm, eq_comm]
  rename_i a b
  cases a <;> cases b <;> rfl

theorem fmul_comm (rnd : ℚ → ℚ) (x y : Fp) : fmul rnd x y = fmul rnd y x := by
  unfold fmul
  congr 1
  cases x <;> cases y <;> simp [Fp.mul, mul_comm]
  rename_i a b
  cases a <;> cases b <;> rfl

/-- a sum in any order, all but two of whose terms are zero -/
theorem sumOf_two {rnd : ℚ → ℚ} (h : IsRnd rnd) {l : List Fp} {s : Fp} (hl : SumOf rnd l s) (hv : ∀ x ∈ l, IsDoubleVal x) :
    IsDoubleVal s ∧ (l.filter (· ≠ .fin 0) = [] → s = .fin 0) ∧ (∀ a, (l.filter (· ≠ .fin 0)).Perm [a] → s = a) ∧ ∀ a b, (l.filter (· ≠ .fin 0)).Perm [a, b] → s = fadd rnd a b := by
  induction hl with
  | one x =>
    refine ⟨hv x (by simp), ?_, ?_, ?_⟩
    · intro e
      by_contra hn
      simp [hn] at e
    · intro a p
      by_cases hx : x = .fin 0
      · simp [hx] at p
      · simpa [hx] using p
    · intro a b p
      have := p.length_eq
      have h2 := List.length_filter_le (fun y => decide (y ≠ Fp.fin 0)) [x]
      simp only [List.length_cons, List.length_nil] at this h2
      omega
  | @add l m n x y hl hm hn ihl ihm =>
    obtain ⟨vx, x0, x1, x2⟩ := ihl fun z hz => hv z (hn.mem_iff.2 (List.mem_append_left _ hz))
    obtain ⟨vy, y0, y1, y2⟩ := ihm fun z hz => hv z (hn.mem_iff.2 (List.mem_append_right _ hz))
    have hf := hn.filter (fun y => decide (y ≠ Fp.fin 0))
    rw [List.filter_append] at hf
    generalize l.filter (· ≠ .fin 0) = u at *
    generalize m.filter (· ≠ .fin 0) = v at *
    refine ⟨rounded_val h _, ?_, ?_, ?_⟩
    · intro e
      rw [e] at hf
      obtain ⟨eu, ev⟩ := List.append_eq_nil_iff.1 hf.symm.eq_nil
      rw [x0 eu, y0 ev]
      exact fadd_zero h zero_val
    · intro a p
      have q := hf.symm.trans p
      match u, v, q with
      | [], v, q =>
        rw [x0 rfl, y1 a q, fadd_comm]
        exact fadd_zero h (y1 a q ▸ vy)
      | [c], [], q =>
        rw [y0 rfl, x1 a q]
        exact fadd_zero h (x1 a q ▸ vx)
      | [c], _ :: _, q => simpa using q.length_eq
      | _ :: _ :: _, _, q => simpa using q.length_eq
    · intro a b p
      have q := hf.symm.trans p
      match u, v, q with
      | [], v, q =>
        rw [x0 rfl, y2 a b q, fadd_comm]
        exact fadd_zero h (rounded_val h _)
      | [c], [d], q =>
        rw [x1 c (.refl _), y1 d (.refl _)]
        have q' : ([c, d] : List Fp).Perm [a, b] := q
        have hc : c ∈ [a, b] := q'.mem_iff.1 (by simp)
        rcases List.mem_pair.1 hc with rfl | rfl
        · have := List.perm_singleton.1 ((List.perm_cons _).1 q')
          simp only [List.cons.injEq, and_true] at this
          rw [this]
        · have := List.perm_singleton.1 ((List.perm_cons _).1 (q'.trans (List.Perm.swap _ _ _)))
          simp only [List.cons.injEq, and_true] at this
          rw [this, fadd_comm]
      | [c], [], q => simpa using q.length_eq
      | [c], _ :: _ :: _, q => simpa using q.length_eq
      | c :: d :: [], [], q =>
        rw [y0 rfl, x2 a b q]
        exact fadd_zero h (rounded_val h _)
      | _ :: _ :: [], _ :: _, q => simpa using q.length_eq
      | _ :: _ :: _ :: _, _, q => simpa using q.length_eq

end Verif.HomDouble
