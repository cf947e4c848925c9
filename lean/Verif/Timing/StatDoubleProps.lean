import Verif.Timing.StatDouble
import Verif.Timing.Props
import Mathlib.Algebra.BigOperators.Group.List.Basic
import Mathlib.Data.List.Induction
import Mathlib.Algebra.Order.BigOperators.Group.List

/-! # C129: statistics of timers in double precision -/

namespace Verif.Timing

open Verif.Common

theorem isDouble_diff {a b : ℚ} (ha : IsDouble a) (hb : IsDouble b) (h : |a - b| ≤ 2 ^ (-1021 : ℤ)) : IsDouble (a - b) := by
  obtain ⟨m, e, hm, he, rfl⟩ := ha
  obtain ⟨n, f, hn, hf, rfl⟩ := hb
  set k : ℤ := m * 2 ^ (e + 1074).toNat - n * 2 ^ (f + 1074).toNat with hk
  have hd : (m : ℚ) * 2 ^ e - n * 2 ^ f = k * 2 ^ (-1074 : ℤ) := by
    have p : ∀ g : ℤ, -1074 ≤ g → (2 : ℚ) ^ g = 2 ^ (g + 1074).toNat * 2 ^ (-1074 : ℤ) := by
      intro g hg
      rw [← zpow_natCast, ← zpow_add₀ (by norm_num)]
      congr 1; omega
    rw [p e he, p f hf, hk]
    push_cast; ring
  rw [hd] at h ⊢
  have p0 : (0 : ℚ) < 2 ^ (-1074 : ℤ) := by positivity
  have e1 : (2 : ℚ) ^ (-1021 : ℤ) = 2 ^ 53 * 2 ^ (-1074 : ℤ) := by
    have : (2 : ℚ) ^ 53 = 2 ^ (53 : ℤ) := by norm_cast
    rw [this, ← zpow_add₀ (by norm_num)]; norm_num
  have hkb : |k| ≤ 2 ^ 53 := by
    rw [abs_mul, abs_of_pos p0, e1] at h
    have := le_of_mul_le_mul_right h p0
    exact_mod_cast this
  rcases hkb.lt_or_eq with hlt | heq
  · exact ⟨k, -1074, hlt, le_refl _, rfl⟩
  · rcases (abs_eq (by norm_num)).mp heq with h1 | h1
    · exact ⟨1, -1021, by norm_num, by norm_num, by rw [h1, Int.cast_one, one_mul, e1]; norm_num⟩
    · exact ⟨-1, -1021, by norm_num, by norm_num, by rw [h1, e1]; push_cast; ring⟩

/-- the relative error of a difference or sum of doubles: no exception for small results -/
theorem sub_err {rnd : ℚ → ℚ} (h : IsRnd rnd) {a b : ℚ} (ha : IsDouble a) (hb : IsDouble b) : |rnd (a - b) - (a - b)| ≤ |a - b| / 2 ^ 53 := by
  rcases le_or_gt (2 ^ (-1022 : ℤ)) |a - b| with hc | hc
  · exact h.err_rel hc
  · have p : (2 : ℚ) ^ (-1022 : ℤ) ≤ 2 ^ (-1021 : ℤ) := zpow_le_zpow_right₀ (by norm_num) (by norm_num)
    rw [h.fix (isDouble_diff ha hb (hc.le.trans p)), sub_self, abs_zero]
    positivity

theorem add_err {rnd : ℚ → ℚ} (h : IsRnd rnd) {a b : ℚ} (ha : IsDouble a) (hb : IsDouble b) : |rnd (a + b) - (a + b)| ≤ |a + b| / 2 ^ 53 := by
  have := sub_err h ha hb.neg
  simpa using this

/-- the unit roundoff -/
def ulp : ℚ := 1 / 2 ^ 53

theorem pow_le_lin (k : ℕ) (hk : k ≤ 2 ^ 52) : (1 + ulp) ^ k ≤ 1 + 2 * k * ulp := by
  induction k with
  | zero => simp
  | succ k ih =>
    have := ih (by omega)
    have hk' : (k : ℚ) ≤ 2 ^ 52 := by exact_mod_cast (by omega : k ≤ 2 ^ 52)
    have hu : (k : ℚ) * ulp ≤ 1 / 2 := by
      unfold ulp
      rw [mul_one_div, div_le_iff₀ (by positivity)]
      norm_num at hk' ⊢
      linarith
    have u0 : (0 : ℚ) < ulp := by unfold ulp; positivity
    rw [pow_succ]
    calc (1 + ulp) ^ k * (1 + ulp) ≤ (1 + 2 * k * ulp) * (1 + ulp) := by gcongr
      _ = 1 + 2 * k * ulp + ulp + 2 * (k * ulp) * ulp := by ring
      _ ≤ 1 + 2 * (k + 1 : ℕ) * ulp := by push_cast; nlinarith

/-- the samples the bounds speak about: durations that are zero or not absurdly small -/
def Sample (x : ℚ) : Prop := IsDouble x ∧ (x = 0 ∨ 2 ^ (-400 : ℤ) ≤ x)

theorem Sample.nonneg {x : ℚ} (h : Sample x) : 0 ≤ x := by
  rcases h.2 with h | h
  · exact h.ge
  · exact (by positivity : (0 : ℚ) ≤ 2 ^ (-400 : ℤ)).trans h

theorem pushAll_snoc (rnd : ℚ → ℚ) (xs : List ℚ) (x : ℚ) : DAcc.pushAll rnd (xs ++ [x]) = (DAcc.pushAll rnd xs).push rnd x := by
  simp [DAcc.pushAll]

/-- **C129** The number of samples and the extremes are exact, for all samples. -/
theorem C129_extremes (rnd : ℚ → ℚ) (xs : List ℚ) :
    (DAcc.pushAll rnd xs).count = xs.length ∧ IsMin xs (DAcc.pushAll rnd xs).min ∧ IsMax xs (DAcc.pushAll rnd xs).max := by
  induction xs using List.reverseRecOn with
  | nil => exact ⟨rfl, rfl, rfl⟩
  | append_singleton xs x ih =>
    obtain ⟨h1, h2, h3⟩ := ih
    rw [pushAll_snoc]
    refine ⟨by simp [DAcc.push, h1], ?_, ?_⟩
    · cases hm : (DAcc.pushAll rnd xs).min with
      | none =>
        rw [hm] at h2
        have h2' : xs = [] := h2
        subst h2'
        simp [DAcc.push, DAcc.pushAll, DAcc.init, IsMin]
      | some m =>
        rw [hm] at h2
        obtain ⟨g1, g2⟩ := h2
        simp only [DAcc.push, hm, IsMin]
        split
        · rename_i hlt
          refine ⟨by simp, fun y hy => ?_⟩
          rcases List.mem_append.1 hy with hy | hy
          · exact hlt.le.trans (g2 y hy)
          · simp only [List.mem_singleton] at hy; rw [hy]
        · rename_i hlt
          refine ⟨by simp [g1], fun y hy => ?_⟩
          rcases List.mem_append.1 hy with hy | hy
          · exact g2 y hy
          · simp only [List.mem_singleton] at hy; rw [hy]; exact not_lt.1 hlt
    · cases hm : (DAcc.pushAll rnd xs).max with
      | none =>
        rw [hm] at h3
        have h3' : xs = [] := h3
        subst h3'
        simp [DAcc.push, DAcc.pushAll, DAcc.init, IsMax]
      | some m =>
        rw [hm] at h3
        obtain ⟨g1, g2⟩ := h3
        simp only [DAcc.push, hm, IsMax]
        split
        · rename_i hlt
          refine ⟨by simp, fun y hy => ?_⟩
          rcases List.mem_append.1 hy with hy | hy
          · exact (g2 y hy).trans hlt.le
          · simp only [List.mem_singleton] at hy; rw [hy]
        · rename_i hlt
          refine ⟨by simp [g1], fun y hy => ?_⟩
          rcases List.mem_append.1 hy with hy | hy
          · exact g2 y hy
          · simp only [List.mem_singleton] at hy; rw [hy]; exact not_lt.1 hlt

theorem sum_isDouble {rnd : ℚ → ℚ} (h : IsRnd rnd) (xs : List ℚ) : IsDouble (DAcc.pushAll rnd xs).sum ∧ IsDouble (DAcc.pushAll rnd xs).sumSq := by
  induction xs using List.reverseRecOn with
  | nil =>
    have h0 : IsDouble 0 := by simpa using isDouble_int 0 (by norm_num)
    exact ⟨h0, h0⟩
  | append_singleton xs x _ => rw [pushAll_snoc]; exact ⟨h.mem _, h.mem _⟩

theorem total_err {rnd : ℚ → ℚ} (h : IsRnd rnd) (xs : List ℚ) (hx : ∀ x ∈ xs, IsDouble x) :
    |(DAcc.pushAll rnd xs).sum - xs.sum| ≤ ((1 + ulp) ^ xs.length - 1) * (xs.map abs).sum ∧ |xs.sum| ≤ (xs.map abs).sum := by
  induction xs using List.reverseRecOn with
  | nil => simp [DAcc.pushAll, DAcc.init]
  | append_singleton xs x ih =>
    obtain ⟨i1, i2⟩ := ih fun y hy => hx y (List.mem_append_left _ hy)
    have hxx := hx x (by simp)
    rw [pushAll_snoc]
    simp only [DAcc.push, List.sum_append, List.sum_singleton, List.map_append, List.map_cons, List.map_nil, List.length_append,
      List.length_singleton]
    set s := (DAcc.pushAll rnd xs).sum
    set A := (xs.map abs).sum
    set S := xs.sum
    have u0 : (0 : ℚ) < ulp := by unfold ulp; positivity
    have hp : 1 ≤ (1 + ulp) ^ xs.length := one_le_pow₀ (by linarith)
    set g := (1 + ulp) ^ xs.length with hg
    have ha := add_err h (sum_isDouble h xs).1 hxx
    have hs : |s| ≤ g * A := by
      have := abs_sub_abs_le_abs_sub s S
      nlinarith
    have hsx : |s + x| ≤ g * A + |x| := (abs_add_le s x).trans (by linarith)
    have e : |s + x| / 2 ^ 53 = ulp * |s + x| := by unfold ulp; ring
    rw [e] at ha
    have x0 := abs_nonneg x
    refine ⟨?_, (abs_add_le _ _).trans (by linarith)⟩
    have : |rnd (s + x) - (S + x)| ≤ |rnd (s + x) - (s + x)| + |s - S| := by
      have := abs_add_le (rnd (s + x) - (s + x)) (s - S)
      have e2 : rnd (s + x) - (s + x) + (s - S) = rnd (s + x) - (S + x) := by ring
      rwa [e2] at this
    rw [pow_succ, ← hg]
    have m1 : ulp * |s + x| ≤ ulp * (g * A + |x|) := by gcongr
    nlinarith [mul_nonneg (sub_nonneg.2 hp) x0, mul_nonneg u0.le x0]

/-- **C129** The total of any samples: every sample adds at most one relative rounding error. -/
theorem C129_total {rnd : ℚ → ℚ} (h : IsRnd rnd) (xs : List ℚ) (hx : ∀ x ∈ xs, IsDouble x) (hn : xs.length ≤ 2 ^ 52) :
    |(DAcc.pushAll rnd xs).total - Stats.total xs| ≤ 2 * xs.length / 2 ^ 53 * (xs.map abs).sum := by
  have h1 := (total_err h xs hx).1
  have h2 := pow_le_lin xs.length hn
  have h3 : 0 ≤ (xs.map abs).sum := by
    apply List.sum_nonneg; simp
  unfold DAcc.total Stats.total
  refine h1.trans ?_
  have : (1 + ulp) ^ xs.length - 1 ≤ 2 * xs.length / 2 ^ 53 := by unfold ulp at *; linarith
  gcongr

theorem map_abs_sum {xs : List ℚ} (hx : ∀ x ∈ xs, 0 ≤ x) : (xs.map abs).sum = xs.sum := by
  congr 1
  conv_rhs => rw [← List.map_id xs]
  apply List.map_congr_left
  intro x hxx; simp [abs_of_nonneg (hx x hxx)]

/-- the sum stays above every sample -/
theorem sum_ge {rnd : ℚ → ℚ} (h : IsRnd rnd) (xs : List ℚ) (hx : ∀ x ∈ xs, Sample x) :
    0 ≤ (DAcc.pushAll rnd xs).sum ∧ ∀ x ∈ xs, x ≤ (DAcc.pushAll rnd xs).sum := by
  induction xs using List.reverseRecOn with
  | nil => simp [DAcc.pushAll, DAcc.init]
  | append_singleton xs x ih =>
    obtain ⟨i1, i2⟩ := ih fun y hy => hx y (List.mem_append_left _ hy)
    have hxx := hx x (by simp)
    rw [pushAll_snoc]
    have x0 := hxx.nonneg
    refine ⟨h.nonneg (by linarith), fun y hy => ?_⟩
    rcases List.mem_append.1 hy with hy | hy
    · exact h.ge_of_ge (hx y (List.mem_append_left _ hy)).1 (by have := i2 y hy; linarith)
    · simp only [List.mem_singleton] at hy
      rw [hy]
      exact h.ge_of_ge hxx.1 (by linarith)

/-- a rounding of zero or of a number that is not tiny -/
theorem rnd_err {rnd : ℚ → ℚ} (h : IsRnd rnd) {x : ℚ} (hx : x = 0 ∨ 2 ^ (-1022 : ℤ) ≤ x) : |rnd x - x| ≤ ulp * x := by
  rcases hx with rfl | hx
  · rw [h.fix (by simpa using isDouble_int 0 (by norm_num))]; simp
  · have x0 : 0 < x := (by positivity : (0 : ℚ) < 2 ^ (-1022 : ℤ)).trans_le hx
    have := h.err_rel (x := x) (by rwa [abs_of_pos x0])
    rw [abs_of_pos x0] at this
    unfold ulp; linarith

theorem sq_range {x : ℚ} {e : ℤ} (he : -511 ≤ e) (hx : x = 0 ∨ 2 ^ e ≤ x) : x * x = 0 ∨ 2 ^ (-1022 : ℤ) ≤ x * x := by
  rcases hx with rfl | hx
  · left; simp
  · right
    have p : (0 : ℚ) < 2 ^ e := by positivity
    have x0 : 0 ≤ x := p.le.trans hx
    calc (2 : ℚ) ^ (-1022 : ℤ) ≤ 2 ^ (e + e) := zpow_le_zpow_right₀ (by norm_num) (by omega)
      _ = 2 ^ e * 2 ^ e := zpow_add₀ (by norm_num) _ _
      _ ≤ x * x := by gcongr

theorem sumSq_err {rnd : ℚ → ℚ} (h : IsRnd rnd) (xs : List ℚ) (hx : ∀ x ∈ xs, Sample x) :
    |(DAcc.pushAll rnd xs).sumSq - (xs.map fun x => x * x).sum| ≤ ((1 + ulp) ^ (xs.length + 1) - 1) * (xs.map fun x => x * x).sum ∧
    0 ≤ (xs.map fun x => x * x).sum ∧ 0 ≤ (DAcc.pushAll rnd xs).sumSq ∧ ∀ x ∈ xs, rnd (x * x) ≤ (DAcc.pushAll rnd xs).sumSq := by
  induction xs using List.reverseRecOn with
  | nil => simp [DAcc.pushAll, DAcc.init]
  | append_singleton xs x ih =>
    obtain ⟨i1, i2, i3, i4⟩ := ih fun y hy => hx y (List.mem_append_left _ hy)
    have hxx := hx x (by simp)
    rw [pushAll_snoc]
    simp only [DAcc.push, List.sum_append, List.sum_singleton, List.map_append, List.map_cons, List.map_nil, List.length_append,
      List.length_singleton]
    have u0 : (0 : ℚ) < ulp := by unfold ulp; positivity
    have hp : 1 ≤ (1 + ulp) ^ (xs.length + 1) := one_le_pow₀ (by linarith)
    set q := (DAcc.pushAll rnd xs).sumSq with hq
    set Q := (xs.map fun x => x * x).sum
    set g := (1 + ulp) ^ (xs.length + 1) with hg
    have hy := rnd_err h (sq_range (by norm_num) hxx.2)
    have hxq : 0 ≤ x * x := mul_self_nonneg x
    have y0 : 0 ≤ rnd (x * x) := h.nonneg hxq
    have ha := add_err h (sum_isDouble h xs).2 (h.mem (x * x))
    rw [← hq, abs_of_nonneg (show 0 ≤ q + rnd (x * x) by linarith)] at ha
    refine ⟨?_, by linarith, h.nonneg (by linarith), fun y hym => ?_⟩
    · set y := rnd (x * x)
      have e : (q + y) / 2 ^ 53 = ulp * (q + y) := by unfold ulp; ring
      rw [e] at ha
      have b1 := abs_le.1 i1
      have b2 := abs_le.1 hy
      have : |rnd (q + y) - (Q + x * x)| ≤ |rnd (q + y) - (q + y)| + |q - Q| + |y - x * x| := by
        have t1 := abs_add_le (rnd (q + y) - (q + y)) (q - Q + (y - x * x))
        have t2 := abs_add_le (q - Q) (y - x * x)
        have e2 : rnd (q + y) - (q + y) + (q - Q + (y - x * x)) = rnd (q + y) - (Q + x * x) := by ring
        rw [e2] at t1
        linarith
      rw [pow_succ, ← hg]
      have hqg : q ≤ g * Q := by linarith
      have hyg : y ≤ (1 + ulp) * (x * x) := by linarith
      have g1 : 1 + ulp ≤ g := by
        rw [hg, pow_succ]
        have : 1 ≤ (1 + ulp) ^ xs.length := one_le_pow₀ (by linarith)
        nlinarith
      have m1 : ulp * (q + y) ≤ ulp * (g * Q + (1 + ulp) * (x * x)) := by gcongr
      have m2 : (1 + ulp) * (x * x) ≤ g * (x * x) := by gcongr
      nlinarith
    · rcases List.mem_append.1 hym with hym | hym
      · exact h.ge_of_ge (h.mem _) (by have := i4 y hym; linarith)
      · simp only [List.mem_singleton] at hym
        rw [hym]
        exact h.ge_of_ge (h.mem _) (by linarith)

theorem div_range {s : ℚ} {n : ℕ} {e : ℤ} (hn : 0 < n) (hb : n ≤ 2 ^ 50) (hs : s = 0 ∨ 2 ^ e ≤ s) : s / n = 0 ∨ 2 ^ (e - 50) ≤ s / n := by
  rcases hs with rfl | hs
  · left; simp
  · right
    have n0 : (0 : ℚ) < n := by exact_mod_cast hn
    have nb : (n : ℚ) ≤ 2 ^ (50 : ℤ) := by
      have : (n : ℚ) ≤ 2 ^ 50 := by exact_mod_cast hb
      simpa using this
    rw [le_div_iff₀ n0, zpow_sub₀ (by norm_num)]
    calc (2 : ℚ) ^ e / 2 ^ (50 : ℤ) * n ≤ 2 ^ e / 2 ^ (50 : ℤ) * 2 ^ (50 : ℤ) := by gcongr
      _ = 2 ^ e := by field_simp
      _ ≤ s := hs

theorem sum_range {rnd : ℚ → ℚ} (h : IsRnd rnd) (xs : List ℚ) (hx : ∀ x ∈ xs, Sample x) :
    ((DAcc.pushAll rnd xs).sum = 0 ∨ 2 ^ (-400 : ℤ) ≤ (DAcc.pushAll rnd xs).sum) ∧
    ((DAcc.pushAll rnd xs).sumSq = 0 ∨ 2 ^ (-800 : ℤ) ≤ (DAcc.pushAll rnd xs).sumSq) := by
  by_cases hz : ∀ x ∈ xs, x = 0
  · have r0 : rnd 0 = 0 := h.fix (by simpa using isDouble_int 0 (by norm_num))
    have : (DAcc.pushAll rnd xs).sum = 0 ∧ (DAcc.pushAll rnd xs).sumSq = 0 := by
      clear hx
      induction xs using List.reverseRecOn with
      | nil => exact ⟨rfl, rfl⟩
      | append_singleton xs x ih =>
        obtain ⟨i1, i2⟩ := ih fun y hy => hz y (List.mem_append_left _ hy)
        have := hz x (by simp)
        subst this
        rw [pushAll_snoc]
        simp [DAcc.push, i1, i2, r0]
    exact ⟨Or.inl this.1, Or.inl this.2⟩
  · push Not at hz
    obtain ⟨x, hm, hne⟩ := hz
    have hxs := (hx x hm).2.resolve_left hne
    refine ⟨Or.inr (hxs.trans ((sum_ge h xs hx).2 x hm)), Or.inr ?_⟩
    refine le_trans ?_ ((sumSq_err h xs hx).2.2.2 x hm)
    refine h.ge_of_ge (isDouble_pow _ (by norm_num)) ?_
    have : (2 : ℚ) ^ (-800 : ℤ) = 2 ^ (-400 : ℤ) * 2 ^ (-400 : ℤ) := by rw [← zpow_add₀ (by norm_num)]; norm_num
    rw [this]
    have p : (0 : ℚ) < 2 ^ (-400 : ℤ) := by positivity
    have x0 : 0 ≤ x := p.le.trans hxs
    gcongr

theorem mean_err {rnd : ℚ → ℚ} (h : IsRnd rnd) (xs : List ℚ) (hx : ∀ x ∈ xs, Sample x) (hne : xs ≠ []) (hn : xs.length ≤ 2 ^ 50) :
    |(DAcc.pushAll rnd xs).mean rnd - xs.sum / xs.length| ≤ ((1 + ulp) ^ (xs.length + 1) - 1) * (xs.sum / xs.length) ∧
    0 ≤ xs.sum / xs.length ∧ ((DAcc.pushAll rnd xs).mean rnd = 0 ∨ 2 ^ (-450 : ℤ) ≤ (DAcc.pushAll rnd xs).mean rnd) := by
  have hlen : 0 < xs.length := List.length_pos_iff.2 hne
  have n0 : (0 : ℚ) < xs.length := by exact_mod_cast hlen
  have he := (total_err h xs fun x hm => (hx x hm).1).1
  rw [map_abs_sum fun x hm => (hx x hm).nonneg] at he
  have S0 : 0 ≤ xs.sum := List.sum_nonneg fun x hm => (hx x hm).nonneg
  have hr := div_range hlen hn (sum_range h xs hx).1
  have hc := (C129_extremes rnd xs).1
  unfold DAcc.mean
  rw [hc]
  set s := (DAcc.pushAll rnd xs).sum
  set S := xs.sum
  set n : ℚ := (xs.length : ℚ) with hndef
  have u0 : (0 : ℚ) < ulp := by unfold ulp; positivity
  have hp : 1 ≤ (1 + ulp) ^ xs.length := one_le_pow₀ (by linarith)
  set g := (1 + ulp) ^ xs.length with hg
  have e1 : |s / n - S / n| ≤ (g - 1) * (S / n) := by
    rw [← sub_div, abs_div, abs_of_pos n0, mul_div_assoc']
    gcongr
  have M0 : 0 ≤ S / n := by positivity
  have b1 := abs_le.1 e1
  have hr2 : s / n = 0 ∨ (2 : ℚ) ^ (-1022 : ℤ) ≤ s / n := by
    rcases hr with hr | hr
    · exact Or.inl hr
    · right
      refine le_trans (zpow_le_zpow_right₀ (by norm_num) (by norm_num)) hr
  have e2 := rnd_err h hr2
  refine ⟨?_, M0, ?_⟩
  · have t := abs_add_le (rnd (s / n) - s / n) (s / n - S / n)
    have e3 : rnd (s / n) - s / n + (s / n - S / n) = rnd (s / n) - S / n := by ring
    rw [e3] at t
    rw [pow_succ, ← hg]
    have m : ulp * (s / n) ≤ ulp * (g * (S / n)) := by
      apply mul_le_mul_of_nonneg_left _ u0.le; linarith
    nlinarith
  · rcases hr with hr | hr
    · left; rw [hr]; exact h.fix (by simpa using isDouble_int 0 (by norm_num))
    · right; exact h.ge_of_ge (isDouble_pow _ (by norm_num)) (le_trans (by norm_num) hr)

/-- Cauchy's inequality for the mean -/
theorem sq_mean_le (xs : List ℚ) (hne : xs ≠ []) : (xs.sum / xs.length) * (xs.sum / xs.length) ≤ (xs.map fun x => x * x).sum / xs.length := by
  have hlen : 0 < xs.length := List.length_pos_iff.2 hne
  have n0 : (0 : ℚ) < xs.length := by exact_mod_cast hlen
  set M := xs.sum / xs.length with hM
  have key : 0 ≤ (xs.map fun x => (x - M) * (x - M)).sum := List.sum_nonneg (by
    intro y hy
    obtain ⟨x, _, rfl⟩ := List.mem_map.1 hy
    exact mul_self_nonneg _)
  have hexp : ∀ l : List ℚ, (l.map fun x => (x - M) * (x - M)).sum = (l.map fun x => x * x).sum - 2 * M * l.sum + l.length * (M * M) := by
    intro l
    induction l with
    | nil => simp
    | cons a l ih => simp only [List.map_cons, List.sum_cons, ih, List.length_cons]; push_cast; ring
  rw [hexp] at key
  have hs : xs.sum = M * xs.length := by rw [hM]; field_simp
  rw [hs] at key
  rw [le_div_iff₀ n0]
  nlinarith

/-- the exact variance is the mean of the squares less the square of the mean -/
theorem variance_eq (xs : List ℚ) (hne : xs ≠ []) : Stats.variance xs =
    some ((xs.map fun x => x * x).sum / xs.length - (xs.sum / xs.length) * (xs.sum / xs.length)) := by
  have hlen : 0 < xs.length := List.length_pos_iff.2 hne
  have n0 : (0 : ℚ) < xs.length := by exact_mod_cast hlen
  simp only [Stats.variance, hne, if_false, Option.some.injEq]
  set M := xs.sum / xs.length with hM
  have hexp : ∀ l : List ℚ, (l.map fun x => (x - M) ^ 2).sum = (l.map fun x => x * x).sum - 2 * M * l.sum + l.length * (M * M) := by
    intro l
    induction l with
    | nil => simp
    | cons a l ih => simp only [List.map_cons, List.sum_cons, ih, List.length_cons]; push_cast; ring
  have hs : xs.sum = M * xs.length := by rw [hM]; field_simp
  rw [hexp, hs]
  field_simp
  ring

theorem var_core {u g E W a b v : ℚ} (u0 : 0 < u) (g1 : 1 ≤ g) (E0 : 0 ≤ E) (W0 : 0 ≤ W) (hW : W ≤ E) (a0 : 0 ≤ a) (b0 : 0 ≤ b)
    (a3 : |a - E| ≤ (g * (1 + u) - 1) * E) (b3 : |b - W| ≤ (g * g * (1 + u) - 1) * W) (d1 : |v - (a - b)| ≤ u * |a - b|) :
    |v - (E - W)| ≤ 2 * (g * g * (1 + u) * (1 + u) - 1) * E := by
  have hgg : g ≤ g * g := by nlinarith
  have hAB : g * (1 + u) ≤ g * g * (1 + u) := by gcongr
  set A := g * (1 + u)
  set B := g * g * (1 + u)
  have hB : 1 ≤ B := by
    have : (1 : ℚ) ≤ A := by
      have : 1 * 1 ≤ g * (1 + u) := by gcongr; linarith
      simpa using this
    linarith
  have c1 : (A - 1) * E ≤ (B - 1) * E := by gcongr
  have c2 : (B - 1) * W ≤ (B - 1) * E := mul_le_mul_of_nonneg_left hW (by linarith)
  have a4 := abs_le.1 (a3.trans c1)
  have b4 := abs_le.1 b3
  have b5 : B * W ≤ B * E := mul_le_mul_of_nonneg_left hW (by linarith)
  have d2 : |a - b| ≤ B * E := by rw [abs_le]; constructor <;> linarith
  have d3 : u * |a - b| ≤ u * (B * E) := by gcongr
  have d4 : 0 ≤ u * (B * E) := by positivity
  have t1 := abs_add_le (v - (a - b)) ((a - E) - (b - W))
  have t2 := abs_sub (a - E) (b - W)
  have e : v - (a - b) + ((a - E) - (b - W)) = v - (E - W) := by ring
  rw [e] at t1
  have e2 : 2 * (B * (1 + u) - 1) * E = 2 * ((B - 1) * E) + 2 * (u * (B * E)) := by ring
  rw [e2]
  linarith

/-- **C129** Mean and variance of at most `2 ^ 40` samples, every one zero or at least `2 ^ -400` s, in doubles: the mean has a relative error of at most `2 (n + 1) 2⁻⁵³`; the error of the variance is bounded relative to the mean *square*, not relative to the variance itself. -/
theorem C129_mean_variance_partial {rnd : ℚ → ℚ} (h : IsRnd rnd) (xs : List ℚ) (hx : ∀ x ∈ xs, Sample x) (hne : xs ≠ []) (hn : xs.length ≤ 2 ^ 40) :
    (∀ m, Stats.mean xs = some m → |(DAcc.pushAll rnd xs).mean rnd - m| ≤ 2 * (xs.length + 1) / 2 ^ 53 * m) ∧
    (∀ v, Stats.variance xs = some v → |(DAcc.pushAll rnd xs).variance rnd - v| ≤
      8 * (xs.length + 2) / 2 ^ 53 * ((xs.map fun x => x * x).sum / xs.length)) := by
  have hlen : 0 < xs.length := List.length_pos_iff.2 hne
  have n0 : (0 : ℚ) < xs.length := by exact_mod_cast hlen
  obtain ⟨m1, m2, m3⟩ := mean_err h xs hx hne (by omega)
  have u0 : (0 : ℚ) < ulp := by unfold ulp; positivity
  have pw : ∀ k : ℕ, 1 ≤ (1 + ulp) ^ k := fun k => one_le_pow₀ (by linarith)
  constructor
  · intro m hm
    simp only [Stats.mean, hne, if_false, Option.some.injEq] at hm
    subst hm
    refine m1.trans ?_
    have := pow_le_lin (xs.length + 1) (by omega)
    have e : (1 + ulp) ^ (xs.length + 1) - 1 ≤ 2 * (xs.length + 1) / 2 ^ 53 := by
      push_cast at this; unfold ulp at *; linarith
    gcongr
  · intro v hv
    rw [variance_eq xs hne, Option.some.injEq] at hv
    subst hv
    obtain ⟨q1, q2, q3, _⟩ := sumSq_err h xs hx
    have hcs := sq_mean_le xs hne
    have hc := (C129_extremes rnd xs).1
    have hqr := div_range hlen (by omega : xs.length ≤ 2 ^ 50) (sum_range h xs hx).2
    unfold DAcc.variance
    rw [hc]
    set m := (DAcc.pushAll rnd xs).mean rnd with hm
    set M := xs.sum / xs.length with hM
    set Q := (xs.map fun x => x * x).sum with hQ
    set q := (DAcc.pushAll rnd xs).sumSq with hq
    set n : ℚ := (xs.length : ℚ) with hndef
    set k := xs.length with hk
    have E0 : 0 ≤ Q / n := by positivity
    -- the mean of the squares
    set g := (1 + ulp) ^ (k + 1) with hg
    have g1 : 1 ≤ g := pw _
    have a1 : |q / n - Q / n| ≤ (g - 1) * (Q / n) := by
      rw [← sub_div, abs_div, abs_of_pos n0, mul_div_assoc']
      gcongr
    have a1' := abs_le.1 a1
    have hqr2 : q / n = 0 ∨ (2 : ℚ) ^ (-1022 : ℤ) ≤ q / n := by
      rcases hqr with hr | hr
      · exact Or.inl hr
      · exact Or.inr (le_trans (zpow_le_zpow_right₀ (by norm_num) (by norm_num)) hr)
    have a2 := abs_le.1 (rnd_err h hqr2)
    have a0 : 0 ≤ rnd (q / n) := h.nonneg (by positivity)
    set a := rnd (q / n) with ha
    have hqn : ulp * (q / n) ≤ ulp * (g * (Q / n)) := by
      apply mul_le_mul_of_nonneg_left _ u0.le; linarith
    have a3 : |a - Q / n| ≤ (g * (1 + ulp) - 1) * (Q / n) := by
      rw [abs_le]; constructor <;> nlinarith
    -- the square of the mean
    have mb := abs_le.1 m1
    have mm0 : 0 ≤ m := by
      rcases m3 with h3 | h3
      · exact h3.ge
      · exact (by positivity : (0 : ℚ) ≤ 2 ^ (-450 : ℤ)).trans h3
    have b1 : |m * m - M * M| ≤ (g * g - 1) * (M * M) := by
      have e : m * m - M * M = (m - M) * (m + M) := by ring
      have hs : |m + M| ≤ (g + 1) * M := by
        rw [abs_of_nonneg (by linarith)]; linarith
      rw [e, abs_mul]
      calc |m - M| * |m + M| ≤ ((g - 1) * M) * ((g + 1) * M) := by gcongr
        _ = (g * g - 1) * (M * M) := by ring
    have b1' := abs_le.1 b1
    have b2 := abs_le.1 (rnd_err h (sq_range (by norm_num) m3))
    have b0 : 0 ≤ rnd (m * m) := h.nonneg (mul_self_nonneg m)
    set b := rnd (m * m) with hb
    have M20 : 0 ≤ M * M := mul_self_nonneg M
    have hmn : ulp * (m * m) ≤ ulp * (g * g * (M * M)) := by
      apply mul_le_mul_of_nonneg_left _ u0.le; linarith
    have b3 : |b - M * M| ≤ (g * g * (1 + ulp) - 1) * (M * M) := by
      rw [abs_le]; constructor <;> nlinarith
    -- the difference
    have d1 := sub_err h (h.mem (q / n)) (h.mem (m * m))
    rw [← ha, ← hb] at d1
    have d1' : |rnd (a - b) - (a - b)| ≤ ulp * |a - b| := by
      refine d1.trans (le_of_eq ?_); unfold ulp; ring
    refine (var_core u0 g1 E0 M20 hcs a0 b0 a3 b3 d1').trans ?_
    have hpow : g * g * (1 + ulp) * (1 + ulp) = (1 + ulp) ^ (2 * k + 4) := by rw [hg]; ring
    have hl := pow_le_lin (2 * k + 4) (by omega)
    rw [hpow]
    have hfin : 2 * ((1 + ulp) ^ (2 * k + 4) - 1) ≤ 8 * (n + 2) / 2 ^ 53 := by
      push_cast at hl
      unfold ulp at *
      rw [hndef]
      linarith
    gcongr

/-- **C129** … so the standard deviation printed is a number as soon as the samples spread enough. -/
theorem C129_stddev_partial {rnd : ℚ → ℚ} (h : IsRnd rnd) (sqrtD : ℚ → ℚ) (xs : List ℚ) (hx : ∀ x ∈ xs, Sample x) (hne : xs ≠ []) (hn : xs.length ≤ 2 ^ 40)
    (v : ℚ) (hv : Stats.variance xs = some v) (hs : 8 * (xs.length + 2) / 2 ^ 53 * ((xs.map fun x => x * x).sum / xs.length) ≤ v) :
    (DAcc.pushAll rnd xs).stddev sqrtD rnd ≠ none := by
  have := abs_le.1 ((C129_mean_variance_partial h xs hx hne hn).2 v hv)
  have h0 : 0 ≤ (DAcc.pushAll rnd xs).variance rnd := by linarith
  simp [DAcc.stddev, not_lt.2 h0]

/-- **C129** One sample: the mean is the sample, the variance is zero. -/
theorem C129_one_sample {rnd : ℚ → ℚ} (h : IsRnd rnd) (x : ℚ) (hx : IsDouble x) :
    (DAcc.pushAll rnd [x]).mean rnd = x ∧ (DAcc.pushAll rnd [x]).variance rnd = 0 := by
  have h0 : rnd 0 = 0 := h.fix (by simpa using isDouble_int 0 (by norm_num))
  have e1 : (DAcc.pushAll rnd [x]).mean rnd = x := by
    simp [DAcc.pushAll, DAcc.push, DAcc.init, DAcc.mean, h.fix hx]
  refine ⟨e1, ?_⟩
  unfold DAcc.variance
  rw [e1]
  simp [DAcc.pushAll, DAcc.push, DAcc.init, h.fix (h.mem (x * x)), h0]

/-! ## Five laps of 111 microseconds -/

/-- the rounding of a concrete number -/
theorem rnd_eq {rnd : ℚ → ℚ} (h : IsRnd rnd) {x : ℚ} (m : ℕ) (e : ℤ) (he : -1074 ≤ e) (hm : m < 2 ^ 53) (h1 : (2 : ℚ) ^ 52 * 2 ^ e ≤ x)
    (h2 : |x - m * 2 ^ e| < 2 ^ e / 2) : rnd x = m * 2 ^ e := by
  have p : (0 : ℚ) < 2 ^ e := by positivity
  have hd : IsDouble ((m : ℤ) * (2 : ℚ) ^ e) := ⟨m, e, by simpa using (by exact_mod_cast hm : (m : ℤ) < 2 ^ 53), he, rfl⟩
  have hd' : IsDouble ((m : ℚ) * 2 ^ e) := by simpa using hd
  have hnear := h.near x _ hd'
  rw [abs_sub_comm _ x] at hnear
  have hlow : (2 : ℚ) ^ 52 * 2 ^ e ≤ rnd x := by
    refine h.ge_of_ge ?_ h1
    exact ⟨2 ^ 52, e, by norm_num, he, by push_cast; ring⟩
  obtain ⟨m', e', hm', he', hr⟩ := h.mem x
  have hee : e ≤ e' := by
    by_contra hc
    have hlt : e' + 1 ≤ e := by omega
    have p' : (0 : ℚ) < 2 ^ e' := by positivity
    have : (2 : ℚ) * 2 ^ e' ≤ 2 ^ e := by
      calc (2 : ℚ) * 2 ^ e' = 2 ^ (e' + 1) := by rw [zpow_add₀ (by norm_num)]; ring
        _ ≤ 2 ^ e := zpow_le_zpow_right₀ (by norm_num) hlt
    have hmb : (m' : ℚ) < 2 ^ 53 := by
      have := (abs_lt.1 hm').2
      exact_mod_cast this
    have : (m' : ℚ) * 2 ^ e' < 2 ^ 53 * 2 ^ e' := by gcongr
    rw [← hr] at this
    nlinarith
  have hr2 : rnd x = ((m' * 2 ^ (e' - e).toNat : ℤ) : ℚ) * 2 ^ e := by
    rw [hr]
    push_cast
    rw [mul_assoc, ← zpow_natCast, ← zpow_add₀ (by norm_num)]
    congr 2; omega
  set K : ℤ := m' * 2 ^ (e' - e).toNat
  have hdist : |rnd x - m * 2 ^ e| < 2 ^ e := by
    have t := abs_add_le (rnd x - x) (x - m * 2 ^ e)
    have e3 : rnd x - x + (x - m * 2 ^ e) = rnd x - m * 2 ^ e := by ring
    rw [e3] at t
    have r1 := abs_sub_comm x (rnd x)
    have r2 := abs_sub_comm ((m : ℚ) * 2 ^ e) x
    linarith
  rw [hr2] at hdist ⊢
  have : |((K - m : ℤ) : ℚ)| < 1 := by
    have e4 : (K : ℚ) * 2 ^ e - m * 2 ^ e = ((K - m : ℤ) : ℚ) * 2 ^ e := by push_cast; ring
    rw [e4, abs_mul, abs_of_pos p] at hdist
    have : |((K - m : ℤ) : ℚ)| * 2 ^ e < 1 * 2 ^ e := by linarith
    exact lt_of_mul_lt_mul_right this p.le
  have hz : K - m = 0 := by
    rw [← Int.cast_abs] at this
    have h3 : |K - (m : ℤ)| < 1 := by exact_mod_cast this
    exact Int.abs_lt_one_iff.1 h3
  have hKm : K = (m : ℤ) := by omega
  rw [hKm]
  push_cast
  ring

/-- five laps of exactly 111 microseconds -/
def fiveLaps : List ℤ := [111000, 111000, 111000, 111000, 111000]

theorem five_values {rnd : ℚ → ℚ} (h : IsRnd rnd) :
    let a := DAcc.pushAll rnd (fiveLaps.map (sampleOf rnd))
    a.max = some (8190354368727041 * 2 ^ (-66 : ℤ)) ∧ a.min = some (8190354368727041 * 2 ^ (-66 : ℤ)) ∧ a.mean rnd = 8190354368727042 * 2 ^ (-66 : ℤ) ∧ a.variance rnd = -2 ^ (-78 : ℤ) := by
  have k0 : rnd 111000 = 111000 := by simpa using h.fix (isDouble_int 111000 (by norm_num))
  have kc : rnd (1 / 1000000000) = 4835703278458517 * 2 ^ (-82 : ℤ) := by
    have := rnd_eq h (x := 1 / 1000000000) 4835703278458517 (-82) (by norm_num) (by norm_num) (by norm_num) (by norm_num [abs_lt])
    simpa using this
  have kx : rnd (111000 * (4835703278458517 * 2 ^ (-82 : ℤ))) = 8190354368727041 * 2 ^ (-66 : ℤ) := by
    have := rnd_eq h (x := 111000 * (4835703278458517 * 2 ^ (-82 : ℤ))) 8190354368727041 (-66) (by norm_num) (by norm_num) (by norm_num) (by norm_num [abs_lt])
    simpa using this
  have ky : rnd (8190354368727041 * 2 ^ (-66 : ℤ) * (8190354368727041 * 2 ^ (-66 : ℤ))) = 7447587511735923 * 2 ^ (-79 : ℤ) := by
    have := rnd_eq h (x := 8190354368727041 * 2 ^ (-66 : ℤ) * (8190354368727041 * 2 ^ (-66 : ℤ))) 7447587511735923 (-79) (by norm_num) (by norm_num) (by norm_num) (by norm_num [abs_lt])
    simpa using this
  have s1 : rnd (0 + 8190354368727041 * 2 ^ (-66 : ℤ)) = 8190354368727041 * 2 ^ (-66 : ℤ) := by
    have := rnd_eq h (x := 0 + 8190354368727041 * 2 ^ (-66 : ℤ)) 8190354368727041 (-66) (by norm_num) (by norm_num) (by norm_num) (by norm_num [abs_lt])
    simpa using this
  have q1 : rnd (0 + 7447587511735923 * 2 ^ (-79 : ℤ)) = 7447587511735923 * 2 ^ (-79 : ℤ) := by
    have := rnd_eq h (x := 0 + 7447587511735923 * 2 ^ (-79 : ℤ)) 7447587511735923 (-79) (by norm_num) (by norm_num) (by norm_num) (by norm_num [abs_lt])
    simpa using this
  have s2 : rnd (8190354368727041 * 2 ^ (-66 : ℤ) + 8190354368727041 * 2 ^ (-66 : ℤ)) = 8190354368727041 * 2 ^ (-65 : ℤ) := by
    have := rnd_eq h (x := 8190354368727041 * 2 ^ (-66 : ℤ) + 8190354368727041 * 2 ^ (-66 : ℤ)) 8190354368727041 (-65) (by norm_num) (by norm_num) (by norm_num) (by norm_num [abs_lt])
    simpa using this
  have q2 : rnd (7447587511735923 * 2 ^ (-79 : ℤ) + 7447587511735923 * 2 ^ (-79 : ℤ)) = 7447587511735923 * 2 ^ (-78 : ℤ) := by
    have := rnd_eq h (x := 7447587511735923 * 2 ^ (-79 : ℤ) + 7447587511735923 * 2 ^ (-79 : ℤ)) 7447587511735923 (-78) (by norm_num) (by norm_num) (by norm_num) (by norm_num [abs_lt])
    simpa using this
  have s3 : rnd (8190354368727041 * 2 ^ (-65 : ℤ) + 8190354368727041 * 2 ^ (-66 : ℤ)) = 6142765776545281 * 2 ^ (-64 : ℤ) := by
    have := rnd_eq h (x := 8190354368727041 * 2 ^ (-65 : ℤ) + 8190354368727041 * 2 ^ (-66 : ℤ)) 6142765776545281 (-64) (by norm_num) (by norm_num) (by norm_num) (by norm_num [abs_lt])
    simpa using this
  have q3 : rnd (7447587511735923 * 2 ^ (-78 : ℤ) + 7447587511735923 * 2 ^ (-79 : ℤ)) = 5585690633801942 * 2 ^ (-77 : ℤ) := by
    have := rnd_eq h (x := 7447587511735923 * 2 ^ (-78 : ℤ) + 7447587511735923 * 2 ^ (-79 : ℤ)) 5585690633801942 (-77) (by norm_num) (by norm_num) (by norm_num) (by norm_num [abs_lt])
    simpa using this
  have s4 : rnd (6142765776545281 * 2 ^ (-64 : ℤ) + 8190354368727041 * 2 ^ (-66 : ℤ)) = 8190354368727041 * 2 ^ (-64 : ℤ) := by
    have := rnd_eq h (x := 6142765776545281 * 2 ^ (-64 : ℤ) + 8190354368727041 * 2 ^ (-66 : ℤ)) 8190354368727041 (-64) (by norm_num) (by norm_num) (by norm_num) (by norm_num [abs_lt])
    simpa using this
  have q4 : rnd (5585690633801942 * 2 ^ (-77 : ℤ) + 7447587511735923 * 2 ^ (-79 : ℤ)) = 7447587511735923 * 2 ^ (-77 : ℤ) := by
    have := rnd_eq h (x := 5585690633801942 * 2 ^ (-77 : ℤ) + 7447587511735923 * 2 ^ (-79 : ℤ)) 7447587511735923 (-77) (by norm_num) (by norm_num) (by norm_num) (by norm_num [abs_lt])
    simpa using this
  have s5 : rnd (8190354368727041 * 2 ^ (-64 : ℤ) + 8190354368727041 * 2 ^ (-66 : ℤ)) = 5118971480454401 * 2 ^ (-63 : ℤ) := by
    have := rnd_eq h (x := 8190354368727041 * 2 ^ (-64 : ℤ) + 8190354368727041 * 2 ^ (-66 : ℤ)) 5118971480454401 (-63) (by norm_num) (by norm_num) (by norm_num) (by norm_num [abs_lt])
    simpa using this
  have q5 : rnd (7447587511735923 * 2 ^ (-77 : ℤ) + 7447587511735923 * 2 ^ (-79 : ℤ)) = 4654742194834952 * 2 ^ (-76 : ℤ) := by
    have := rnd_eq h (x := 7447587511735923 * 2 ^ (-77 : ℤ) + 7447587511735923 * 2 ^ (-79 : ℤ)) 4654742194834952 (-76) (by norm_num) (by norm_num) (by norm_num) (by norm_num [abs_lt])
    simpa using this
  have km : rnd (5118971480454401 * 2 ^ (-63 : ℤ) / 5) = 8190354368727042 * 2 ^ (-66 : ℤ) := by
    have := rnd_eq h (x := 5118971480454401 * 2 ^ (-63 : ℤ) / 5) 8190354368727042 (-66) (by norm_num) (by norm_num) (by norm_num) (by norm_num [abs_lt])
    simpa using this
  have kmm : rnd (8190354368727042 * 2 ^ (-66 : ℤ) * (8190354368727042 * 2 ^ (-66 : ℤ))) = 7447587511735925 * 2 ^ (-79 : ℤ) := by
    have := rnd_eq h (x := 8190354368727042 * 2 ^ (-66 : ℤ) * (8190354368727042 * 2 ^ (-66 : ℤ))) 7447587511735925 (-79) (by norm_num) (by norm_num) (by norm_num) (by norm_num [abs_lt])
    simpa using this
  have ka : rnd (4654742194834952 * 2 ^ (-76 : ℤ) / 5) = 7447587511735923 * 2 ^ (-79 : ℤ) := by
    have := rnd_eq h (x := 4654742194834952 * 2 ^ (-76 : ℤ) / 5) 7447587511735923 (-79) (by norm_num) (by norm_num) (by norm_num) (by norm_num [abs_lt])
    simpa using this
  have kv : rnd (7447587511735923 * 2 ^ (-79 : ℤ) - 7447587511735925 * 2 ^ (-79 : ℤ)) = -2 ^ (-78 : ℤ) := by
    have e : (7447587511735923 * 2 ^ (-79 : ℤ) - 7447587511735925 * 2 ^ (-79 : ℤ) : ℚ) = -2 ^ (-78 : ℤ) := by norm_num
    rw [e]; exact h.fix (isDouble_pow (-78) (by norm_num)).neg
  have hs : sampleOf rnd 111000 = 8190354368727041 * 2 ^ (-66 : ℤ) := by
    simp only [sampleOf, Int.cast_ofNat, k0, kc, kx]
  simp only [fiveLaps, List.map_cons, List.map_nil, hs, DAcc.pushAll, List.foldl_cons, List.foldl_nil, DAcc.push, DAcc.init, DAcc.mean, DAcc.variance,
    ky, s1, s2, s3, s4, s5, q1, q2, q3, q4, q5]
  have e5 : ((0 + 1 + 1 + 1 + 1 + 1 : ℕ) : ℚ) = 5 := by norm_num
  simp only [e5, km, kmm, ka, kv, lt_self_iff_false, if_false, and_self]

/-- **C129** The claim: the variance of durations is not negative, the deviation printed is a number, and the mean lies between the extremes. -/
def C129_claim : Prop := ∀ rnd : ℚ → ℚ, IsRnd rnd → ∀ laps : List ℤ, laps ≠ [] → (∀ n ∈ laps, 0 ≤ n ∧ n < 2 ^ 53) →
  let a := DAcc.pushAll rnd (laps.map (sampleOf rnd))
  0 ≤ a.variance rnd ∧ ∀ lo hi, a.min = some lo → a.max = some hi → lo ≤ a.mean rnd ∧ a.mean rnd ≤ hi

/-- **C129** It is false: five equal laps of 111 µs have a negative variance, a mean above the maximum, a standard deviation that is not a number, and printing it is undefined behaviour – whatever the rounding of ties. -/
theorem C129_five_laps_negation {rnd : ℚ → ℚ} (h : IsRnd rnd) (sqrtD : ℚ → ℚ) (rnd6 : ℚ → ℤ) :
    let a := DAcc.pushAll rnd (fiveLaps.map (sampleOf rnd))
    a.variance rnd < 0 ∧ a.stddev sqrtD rnd = none ∧ printedStddev sqrtD rnd rnd6 a = none ∧
    (∃ hi, a.max = some hi ∧ hi < a.mean rnd) := by
  intro a
  obtain ⟨h1, h2, h3, h4⟩ := five_values h
  have hv : a.variance rnd < 0 := by rw [h4]; norm_num
  have hn : a.stddev sqrtD rnd = none := by simp [DAcc.stddev, hv]
  refine ⟨hv, hn, by simp [printedStddev, hn], _, h1, ?_⟩
  rw [h3]; norm_num

theorem C129_negation : ¬ C129_claim := by
  intro hc
  have := (hc rndNearest isRnd_rndNearest fiveLaps (by decide) (by decide)).1
  have h2 := (C129_five_laps_negation isRnd_rndNearest (fun x => x) (fun _ => 0)).1
  exact absurd this (not_le.2 h2)

/-- The bounds speak about real samples: every lap of a nanosecond or more is one. -/
theorem sample_of_lap {rnd : ℚ → ℚ} (h : IsRnd rnd) (n : ℤ) (h0 : 0 ≤ n) : Sample (sampleOf rnd n) := by
  refine ⟨h.mem _, ?_⟩
  rcases h0.lt_or_eq with hp | rfl
  · right
    have h1 : (1 : ℚ) ≤ rnd n := h.ge_of_ge (by simpa using isDouble_int 1 (by norm_num)) (by exact_mod_cast hp)
    have h2 : (2 : ℚ) ^ (-30 : ℤ) ≤ rnd (1 / 1000000000) := h.ge_of_ge (isDouble_pow _ (by norm_num)) (by norm_num)
    have h3 : (2 : ℚ) ^ (-30 : ℤ) ≤ sampleOf rnd n := by
      refine h.ge_of_ge (isDouble_pow _ (by norm_num)) ?_
      have p : (0 : ℚ) < 2 ^ (-30 : ℤ) := by positivity
      nlinarith
    exact le_trans (zpow_le_zpow_right₀ (by norm_num) (by norm_num)) h3
  · left
    have r0 : rnd 0 = 0 := h.fix (by simpa using isDouble_int 0 (by norm_num))
    simp [sampleOf, r0]

/-- **C129** For all laps a clock can give (non-negative nanoseconds), in doubles: count exact, mean within `2 (n + 1) 2⁻⁵³` relative error of the exact mean of the samples. -/
theorem C129_laps_partial {rnd : ℚ → ℚ} (h : IsRnd rnd) (laps : List ℤ) (hl : ∀ n ∈ laps, 0 ≤ n) (hne : laps ≠ []) (hn : laps.length ≤ 2 ^ 40) :
    let xs := laps.map (sampleOf rnd)
    (DAcc.pushAll rnd xs).count = laps.length ∧
    (∀ m, Stats.mean xs = some m → |(DAcc.pushAll rnd xs).mean rnd - m| ≤ 2 * (laps.length + 1) / 2 ^ 53 * m) := by
  intro xs
  have hx : ∀ x ∈ xs, Sample x := by
    intro x hm
    obtain ⟨n, hn, rfl⟩ := List.mem_map.1 hm
    exact sample_of_lap h n (hl n hn)
  have hlen : xs.length = laps.length := by simp [xs]
  refine ⟨by rw [(C129_extremes rnd xs).1, hlen], ?_⟩
  have := (C129_mean_variance_partial h xs hx (by simpa [xs] using hne) (by omega)).1
  rwa [hlen] at this

/-- non-vacuity: laps of 1 s and 3 s spread enough for the deviation to be a number -/
example : (DAcc.pushAll rndNearest [1, 3]).stddev (fun x => x) rndNearest ≠ none := by
  have d1 : IsDouble 1 := by simpa using isDouble_int 1 (by norm_num)
  have d3 : IsDouble 3 := by simpa using isDouble_int 3 (by norm_num)
  have hp : (2 : ℚ) ^ (-400 : ℤ) ≤ 1 := zpow_le_one_of_nonpos₀ (by norm_num) (by norm_num)
  refine C129_stddev_partial isRnd_rndNearest _ [1, 3] ?_ (by simp) (by norm_num) 1 (by simp [Stats.variance]; norm_num) (by norm_num)
  intro x hx
  simp only [List.mem_cons, List.not_mem_nil, or_false] at hx
  rcases hx with rfl | rfl
  · exact ⟨d1, Or.inr hp⟩
  · exact ⟨d3, Or.inr (by linarith)⟩

end Verif.Timing
