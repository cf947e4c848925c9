import Verif.SmEigen.DiffDouble
import Verif.SmEigen.Props
import Verif.Common.DoubleErr

/-! # Lemmas about differences and quotients of doubles -/

namespace Verif.DiffDouble

open Verif.Common

variable {rnd : ℚ → ℚ}

/-- a relative error is a factor -/
theorem factor {a b u : ℚ} (hu : 0 ≤ u) (h : |a - b| ≤ |b| * u) : ∃ δ : ℚ, |δ| ≤ u ∧ a = b * (1 + δ) := by
  rcases eq_or_ne b 0 with e | e
  · refine ⟨0, by simpa using hu, ?_⟩
    rw [e] at h ⊢
    simpa using h
  · refine ⟨(a - b) / b, ?_, by field_simp; ring⟩
    rw [abs_div, div_le_iff₀ (abs_pos.2 e)]
    linarith [mul_comm |b| u]

theorem normal_le {x : ℚ} (h : (2 : ℚ) ^ (-1000 : ℤ) ≤ |x|) : (2 : ℚ) ^ (-1022 : ℤ) ≤ |x| := (zpow_le_zpow_right₀ (by norm_num) (by norm_num)).trans h

theorem rounded_ok (hr : IsRnd rnd) {q : ℚ} (hq : |q| ≤ 2 ^ (1000 : ℤ)) : rounded rnd (.fin q) = .fin (rnd q) := by
  refine (rounded_fin hr (hq.trans ?_)).1
  unfold limit
  rw [show (1000 : ℤ) = ((1000 : ℕ) : ℤ) from rfl, zpow_natCast, ← pow_succ']
  exact pow_le_pow_right₀ (by norm_num) (by norm_num)

theorem pow_pos' (k : ℤ) : (0 : ℚ) < 2 ^ k := by positivity

theorem pow_le' {j k : ℤ} (h : j ≤ k) : (2 : ℚ) ^ j ≤ 2 ^ k := zpow_le_zpow_right₀ (by norm_num) h

/-- the steps that matter -/
def GoodEps (eps : ℚ) : Prop := IsDouble eps ∧ 1 / 2 ^ 40 ≤ eps ∧ eps ≤ 1 / 2 ^ 10

/-- the step -/
theorem step_eq (hr : IsRnd rnd) {eps x : ℚ} (he : GoodEps eps) (hx : |x| ≤ 2 ^ (900 : ℤ)) :
    ∃ h : ℚ, (fmul rnd (Fp.fin x).abs (.fin eps)).max (.fin eps) = .fin h ∧ IsDouble h ∧ |h - eps * max |x| 1| ≤ eps * max |x| 1 / 2 ^ 53 ∧ (|x| ≤ 1 → h = eps) := by
  obtain ⟨hd, h1, h2⟩ := he
  have e0 : 0 < eps := lt_of_lt_of_le (by positivity) h1
  have ex : 0 ≤ |x| * eps := by positivity
  have b : |(|x| * eps)| ≤ 2 ^ (1000 : ℤ) := by
    rw [abs_of_nonneg ex]
    calc |x| * eps ≤ 2 ^ (900 : ℤ) * 1 := mul_le_mul hx (h2.trans (by norm_num)) e0.le (by positivity)
      _ ≤ _ := by rw [mul_one]; exact pow_le' (by norm_num)
  have r : fmul rnd (Fp.fin x).abs (.fin eps) = .fin (rnd (|x| * eps)) := rounded_ok hr b
  rw [r]
  have mx : ∀ p : ℚ, (Fp.fin p).max (.fin eps) = .fin (max p eps) := by
    intro p
    show (if decide (p < eps) = true then Fp.fin eps else .fin p) = _
    rcases lt_or_ge p eps with hc | hc
    · simp [hc, max_eq_right hc.le]
    · simp [not_lt.2 hc, max_eq_left hc]
  rw [mx]
  rcases le_or_gt |x| 1 with hc | hc
  · have : rnd (|x| * eps) ≤ eps := hr.le_of_le hd (mul_le_of_le_one_left e0.le hc)
    refine ⟨eps, by rw [max_eq_right this], hd, ?_, fun _ => rfl⟩
    rw [max_eq_right hc, mul_one, sub_self, abs_zero]
    positivity
  · have g : eps ≤ rnd (|x| * eps) := hr.ge_of_ge hd (le_mul_of_one_le_left e0.le hc.le)
    refine ⟨rnd (|x| * eps), by rw [max_eq_left g], hr.mem _, ?_, fun h => absurd h (not_le.2 hc)⟩
    rw [max_eq_left hc.le, mul_comm eps]
    refine (hr.err_rel (normal_le ?_)).trans_eq ?_
    · rw [abs_of_nonneg ex]
      calc (2 : ℚ) ^ (-1000 : ℤ) ≤ 2 ^ (-40 : ℤ) := pow_le' (by norm_num)
        _ = 1 / 2 ^ 40 := by rw [zpow_neg, one_div]; exact congrArg _ (zpow_natCast 2 40)
        _ ≤ eps := h1
        _ ≤ _ := le_mul_of_one_le_left e0.le hc.le
    · rw [abs_of_nonneg ex]

/-- the size of the step -/
theorem step_size {eps x h : ℚ} (he : GoodEps eps) (hx : |x| ≤ 2 ^ (900 : ℤ)) (hh : |h - eps * max |x| 1| ≤ eps * max |x| 1 / 2 ^ 53) :
    1 / 2 ^ 41 ≤ h ∧ h ≤ 2 ^ (901 : ℤ) ∧ h ≤ 1 / 2 ^ 9 * max |x| 1 ∧ (|x| + h) / 2 ^ 53 ≤ 1005 / 1000 * (1 / (eps * 2 ^ 53)) * h := by
  obtain ⟨hd, h1, h2⟩ := he
  have e0 : 0 < eps := lt_of_lt_of_le (by positivity) h1
  have m1 : (1 : ℚ) ≤ max |x| 1 := le_max_right _ _
  have mx : |x| ≤ max |x| 1 := le_max_left _ _
  have mb : max |x| 1 ≤ 2 ^ (900 : ℤ) := max_le hx (one_le_zpow₀ (by norm_num) (by norm_num))
  obtain ⟨S, hS⟩ : ∃ S, S = max |x| 1 := ⟨_, rfl⟩
  rw [← hS] at hh m1 mx mb ⊢
  obtain ⟨l, u⟩ := abs_le.1 hh
  have eS : 1 / 2 ^ 40 ≤ eps * S := h1.trans (le_mul_of_one_le_right e0.le m1)
  have eS2 : eps * S ≤ 1 / 2 ^ 10 * S := mul_le_mul_of_nonneg_right h2 (by linarith)
  have c1 : h ≤ 1 / 2 ^ 9 * S := by
    have : (0:ℚ) ≤ S := by linarith
    norm_num at eS2 u ⊢
    linarith
  refine ⟨?_, ?_, c1, ?_⟩
  · norm_num at eS l ⊢
    linarith
  · refine c1.trans ?_
    calc (1 : ℚ) / 2 ^ 9 * S ≤ 1 * 2 ^ (900 : ℤ) := mul_le_mul (by norm_num) mb (by linarith) (by norm_num)
      _ ≤ _ := by rw [one_mul]; exact pow_le' (by norm_num)
  · have a : eps * (|x| + h) ≤ 1005 / 1000 * h := by
      have a1 : eps * (|x| + h) ≤ eps * S + 1 / 2 ^ 10 * h := by
        have := mul_le_mul_of_nonneg_left mx e0.le
        have h0 : 0 ≤ h := by norm_num at eS l ⊢; linarith
        have := mul_le_mul_of_nonneg_right h2 h0
        linarith
      norm_num at l a1 eS ⊢
      linarith
    have e : 1005 / 1000 * (1 / (eps * 2 ^ 53)) * h = (1005 / 1000 * h) / (eps * 2 ^ 53) := by ring
    rw [e, div_le_div_iff₀ (by positivity) (by positivity)]
    calc (|x| + h) * (eps * 2 ^ 53) = eps * (|x| + h) * 2 ^ 53 := by ring
      _ ≤ _ := mul_le_mul_of_nonneg_right a (by positivity)

/-- a displaced coordinate -/
theorem moved (hr : IsRnd rnd) {eps x h d : ℚ} (he : GoodEps eps) (hx : |x| ≤ 2 ^ (900 : ℤ)) (dx : IsDouble x) (dh : IsDouble d) (hdh : |d| = h)
    (hh : |h - eps * max |x| 1| ≤ eps * max |x| 1 / 2 ^ 53) :
    ∃ p : ℚ, fadd rnd (.fin x) (.fin d) = .fin p ∧ IsDouble p ∧ |p - (x + d)| ≤ 1005 / 1000 * (1 / (eps * 2 ^ 53)) * h ∧ |p| ≤ 2 ^ (902 : ℤ) := by
  obtain ⟨s1, s2, s3, s4⟩ := step_size he hx hh
  have t : |x + d| ≤ |x| + h := (abs_add_le x d).trans (by rw [hdh])
  have t9 : |x| + h ≤ 2 ^ (900 : ℤ) + 2 ^ (901 : ℤ) := add_le_add hx s2
  have p900 := pow_pos' 900
  have e1 : (2 : ℚ) ^ (901 : ℤ) = 2 * 2 ^ (900 : ℤ) := by rw [show (901 : ℤ) = 1 + 900 by norm_num, zpow_add₀ (by norm_num), zpow_one]
  have e2 : (2 : ℚ) ^ (902 : ℤ) = 4 * 2 ^ (900 : ℤ) := by rw [show (902 : ℤ) = 2 + 900 by norm_num, zpow_add₀ (by norm_num)]; norm_num
  have e3 := pow_le' (show (902 : ℤ) ≤ 1000 by norm_num)
  rw [e1] at t9
  rw [e2] at e3 ⊢
  obtain ⟨P, hP⟩ : ∃ P : ℚ, P = 2 ^ (900 : ℤ) := ⟨_, rfl⟩
  rw [← hP] at p900 t9 e3 ⊢
  have b : |x + d| ≤ 2 ^ (1000 : ℤ) := t.trans (le_trans (by linarith) e3)
  have er := hr.err_add dx dh
  refine ⟨rnd (x + d), rounded_ok hr b, hr.mem _, ?_, ?_⟩
  · exact er.trans (le_trans (div_le_div_of_nonneg_right t (by positivity)) s4)
  · have : |rnd (x + d)| ≤ |rnd (x + d) - (x + d)| + |x + d| := by
      have := abs_add_le (rnd (x + d) - (x + d)) (x + d)
      simpa using this
    have k : |x + d| / 2 ^ 53 ≤ |x + d| * (1 / 4) := by
      rw [div_eq_mul_one_div]
      exact mul_le_mul_of_nonneg_left (by norm_num) (abs_nonneg _)
    linarith

/-- one operation, with or without underflow -/
theorem round_factor (hr : IsRnd rnd) (x : ℚ) : ∃ δ θ : ℚ, |δ| ≤ 1 / 2 ^ 53 ∧ |θ| ≤ tiny ∧ rnd x = x * (1 + δ) + θ := by
  have h := hr.err_any x
  have t := tiny_pos
  rcases le_total |rnd x - x| (|x| / 2 ^ 53) with hc | hc
  · obtain ⟨δ, hd, e⟩ := factor (u := 1 / 2 ^ 53) (by positivity) (hc.trans_eq (div_eq_mul_one_div _ _))
    exact ⟨δ, 0, hd, by simpa using t.le, by rw [add_zero]; exact e⟩
  · rcases le_total x (rnd x) with hx | hx
    · rw [abs_of_nonneg (sub_nonneg.2 hx)] at h hc
      rcases le_total 0 x with h0 | h0
      · rw [abs_of_nonneg h0] at h hc
        exact ⟨1 / 2 ^ 53, rnd x - x - x / 2 ^ 53, by rw [abs_of_pos (by positivity)], by rw [abs_of_nonneg (by linarith)]; linarith, by ring⟩
      · rw [abs_of_nonpos h0] at h hc
        exact ⟨-(1 / 2 ^ 53), rnd x - x - -x / 2 ^ 53, by rw [abs_neg, abs_of_pos (by positivity)], by rw [abs_of_nonneg (by linarith)]; linarith, by ring⟩
    · rw [abs_of_nonpos (sub_nonpos.2 hx)] at h hc
      rcases le_total 0 x with h0 | h0
      · rw [abs_of_nonneg h0] at h hc
        exact ⟨-(1 / 2 ^ 53), rnd x - x + x / 2 ^ 53, by rw [abs_neg, abs_of_pos (by positivity)], by rw [abs_of_nonpos (by linarith)]; linarith, by ring⟩
      · rw [abs_of_nonpos h0] at h hc
        exact ⟨1 / 2 ^ 53, rnd x - x + -x / 2 ^ 53, by rw [abs_of_pos (by positivity)], by rw [abs_of_nonpos (by linarith)]; linarith, by ring⟩

/-- the quotient of a difference -/
theorem quotient_err (hr : IsRnd rnd) (b : Bool) {p q h : ℚ} (dp : IsDouble p) (dq : IsDouble q) (hp : |p| ≤ 2 ^ (900 : ℤ)) (hq : |q| ≤ 2 ^ (900 : ℤ))
    (h1 : 1 / 2 ^ 41 ≤ h) (h2 : h ≤ 2 ^ (901 : ℤ)) (dh : IsDouble h) :
    ∃ z : ℚ, quotient rnd b (fsub rnd (.fin p) (.fin q)) (fmul rnd (.fin h) (.fin 2)) = .fin z ∧ IsDouble z ∧ |z - (p - q) / (2 * h)| ≤ |(p - q) / (2 * h)| * (4 / 2 ^ 53) + 2 * tiny := by
  have p900 := pow_pos' 900
  have e1 : (2 : ℚ) ^ (901 : ℤ) = 2 * 2 ^ (900 : ℤ) := by rw [show (901 : ℤ) = 1 + 900 by norm_num, zpow_add₀ (by norm_num), zpow_one]
  have e4 : (2 : ℚ) ^ (950 : ℤ) = 2 ^ 50 * 2 ^ (900 : ℤ) := by
    rw [show (950 : ℤ) = (50 : ℕ) + 900 by norm_num, zpow_add₀ (by norm_num), zpow_natCast]
  have e5 : (2 : ℚ) ^ (950 : ℤ) ≤ 2 ^ (1000 : ℤ) := pow_le' (by norm_num)
  have e6 : (2 : ℚ) ^ (-1000 : ℤ) * 2 ^ (950 : ℤ) ≤ 1 := by rw [← zpow_add₀ (by norm_num)]; exact zpow_le_one_of_nonpos₀ (by norm_num) (by norm_num)
  rw [e1] at h2
  rw [e4] at e5 e6
  obtain ⟨P, hP⟩ : ∃ P : ℚ, P = 2 ^ (900 : ℤ) := ⟨_, rfl⟩
  rw [← hP] at p900 hp hq h2 e5 e6
  have h0 : 0 < h := lt_of_lt_of_le (by positivity) h1
  have d2 : IsDouble (h * 2) := by rw [mul_comm]; exact two_mul_double dh
  have s1 : fsub rnd (.fin p) (.fin q) = .fin (rnd (p - q)) := by
    show rounded rnd (.fin (p + -q)) = _
    rw [← sub_eq_add_neg]
    refine rounded_ok hr ((abs_sub p q).trans (le_trans ?_ e5))
    norm_num
    linarith
  have s2 : fmul rnd (.fin h) (.fin 2) = .fin (2 * h) := by
    show rounded rnd (.fin (h * 2)) = _
    rw [rounded_ok hr, hr.fix d2, mul_comm]
    rw [abs_of_pos (by positivity)]
    refine le_trans ?_ e5
    norm_num
    linarith
  obtain ⟨δ, hδ, eδ⟩ := factor (u := 1 / 2 ^ 53) (by positivity) ((hr.err_sub dp dq).trans_eq (div_eq_mul_one_div _ _))
  rw [s1, s2]
  have hn0 : (2 * h) ≠ 0 := by positivity
  have i1 : 1 / (2 * h) ≤ 2 ^ 40 := by
    rw [div_le_iff₀ (by positivity)]
    norm_num at h1 ⊢
    linarith
  have i0 : 0 < 1 / (2 * h) := by positivity
  obtain ⟨Q, hQ⟩ : ∃ Q, Q = (p - q) / (2 * h) := ⟨_, rfl⟩
  have Qb : |Q| ≤ 2 ^ 41 * P := by
    rw [hQ, div_eq_mul_one_div, abs_mul, abs_of_pos i0]
    calc |p - q| * (1 / (2 * h)) ≤ (2 * P) * 2 ^ 40 := mul_le_mul ((abs_sub p q).trans (by linarith)) i1 i0.le (by positivity)
      _ = _ := by ring
  have t0 := tiny_pos
  have u1 : |1 + δ| ≤ 1 + 1 / 2 ^ 53 := (abs_add_le 1 δ).trans (by rw [abs_one]; linarith)
  rw [← hQ]
  cases b with
  | false =>
    have e : fdiv rnd (.fin (rnd (p - q))) (.fin (2 * h)) = rounded rnd (.fin (rnd (p - q) / (2 * h))) := by
      simp [fdiv, Fp.div, h0.ne']
    have eq1 : rnd (p - q) / (2 * h) = Q * (1 + δ) := by rw [eδ, hQ]; ring
    have bq : |Q * (1 + δ)| ≤ 2 ^ (1000 : ℤ) := by
      rw [abs_mul]
      calc |Q| * |1 + δ| ≤ (2 ^ 41 * P) * 2 := mul_le_mul Qb (u1.trans (by norm_num)) (abs_nonneg _) (by positivity)
        _ ≤ 2 ^ 50 * P := by norm_num; linarith
        _ ≤ _ := e5
    obtain ⟨ε, θ, hε, hθ, eε⟩ := round_factor hr (Q * (1 + δ))
    refine ⟨rnd (Q * (1 + δ)), ?_, hr.mem _, ?_⟩
    · show fdiv rnd (.fin (rnd (p - q))) (.fin (2 * h)) = _
      rw [e, eq1, rounded_ok hr bq]
    · rw [eε, show Q * (1 + δ) * (1 + ε) + θ - Q = Q * (δ + ε + δ * ε) + θ by ring]
      have k : |δ + ε + δ * ε| ≤ 4 / 2 ^ 53 := by
        have m : |δ * ε| ≤ 1 / 2 ^ 53 * (1 / 2 ^ 53) := by rw [abs_mul]; exact mul_le_mul hδ hε (abs_nonneg _) (by positivity)
        refine (abs_add_le _ _).trans ((add_le_add (abs_add_le _ _) m).trans ?_)
        norm_num at hδ hε ⊢
        linarith
      refine (abs_add_le _ _).trans ?_
      rw [abs_mul]
      have := mul_le_mul_of_nonneg_left k (abs_nonneg Q)
      linarith
  | true =>
    have e : fdiv rnd (.fin 1) (.fin (2 * h)) = rounded rnd (.fin (1 / (2 * h))) := by
      simp [fdiv, Fp.div, h0.ne']
    have ib : |1 / (2 * h)| ≤ 2 ^ (1000 : ℤ) := by
      rw [abs_of_pos i0]
      refine i1.trans ?_
      rw [show (2 : ℚ) ^ 40 = 2 ^ (40 : ℤ) from (zpow_natCast 2 40).symm]
      exact pow_le' (by norm_num)
    have il : (2 : ℚ) ^ (-1000 : ℤ) ≤ |1 / (2 * h)| := by
      rw [abs_of_pos i0, le_div_iff₀ (by positivity)]
      calc (2 : ℚ) ^ (-1000 : ℤ) * (2 * h) ≤ 2 ^ (-1000 : ℤ) * (2 ^ 50 * P) := mul_le_mul_of_nonneg_left (by norm_num; linarith) (by positivity)
        _ ≤ 1 := e6
    obtain ⟨ι, hι, eι⟩ := factor (u := 1 / 2 ^ 53) (by positivity) ((hr.err_rel (normal_le il)).trans_eq (div_eq_mul_one_div _ _))
    have u2 : |1 + ι| ≤ 1 + 1 / 2 ^ 53 := (abs_add_le 1 ι).trans (by rw [abs_one]; linarith)
    have eq1 : rnd (p - q) * rnd (1 / (2 * h)) = Q * ((1 + δ) * (1 + ι)) := by rw [eδ, eι, hQ]; ring
    have w : |(1 + δ) * (1 + ι)| ≤ 2 := by
      rw [abs_mul]
      calc |1 + δ| * |1 + ι| ≤ (1 + 1 / 2 ^ 53) * (1 + 1 / 2 ^ 53) := mul_le_mul u1 u2 (abs_nonneg _) (by positivity)
        _ ≤ 2 := by norm_num
    have bq : |Q * ((1 + δ) * (1 + ι))| ≤ 2 ^ (1000 : ℤ) := by
      rw [abs_mul]
      calc |Q| * |(1 + δ) * (1 + ι)| ≤ (2 ^ 41 * P) * 2 := mul_le_mul Qb w (abs_nonneg _) (by positivity)
        _ ≤ 2 ^ 50 * P := by norm_num; linarith
        _ ≤ _ := e5
    obtain ⟨ε, θ, hε, hθ, eε⟩ := round_factor hr (Q * ((1 + δ) * (1 + ι)))
    refine ⟨rnd (Q * ((1 + δ) * (1 + ι))), ?_, hr.mem _, ?_⟩
    · show fmul rnd (.fin (rnd (p - q))) (fdiv rnd (.fin 1) (.fin (2 * h))) = _
      rw [e, rounded_ok hr ib]
      show rounded rnd (.fin _) = _
      rw [eq1, rounded_ok hr bq]
    · rw [eε, show Q * ((1 + δ) * (1 + ι)) * (1 + ε) + θ - Q = Q * (δ + ι + ε + (δ * ι + δ * ε + ι * ε + δ * ι * ε)) + θ by ring]
      have k : |δ + ι + ε + (δ * ι + δ * ε + ι * ε + δ * ι * ε)| ≤ 4 / 2 ^ 53 := by
        have m : ∀ a b : ℚ, |a| ≤ 1 / 2 ^ 53 → |b| ≤ 1 / 2 ^ 53 → |a * b| ≤ 1 / 2 ^ 106 := by
          intro a b ha hb
          rw [abs_mul]
          exact (mul_le_mul ha hb (abs_nonneg _) (by positivity)).trans (by norm_num)
        have m1 := m _ _ hδ hι
        have m2 := m _ _ hδ hε
        have m3 := m _ _ hι hε
        have m4 := m (δ * ι) ε (m1.trans (by norm_num)) hε
        have a1 := abs_add_le (δ + ι + ε) (δ * ι + δ * ε + ι * ε + δ * ι * ε)
        have a2 := abs_add_le (δ + ι) ε
        have a3 := abs_add_le δ ι
        have a4 := abs_add_le (δ * ι + δ * ε + ι * ε) (δ * ι * ε)
        have a5 := abs_add_le (δ * ι + δ * ε) (ι * ε)
        have a6 := abs_add_le (δ * ι) (δ * ε)
        have c : (3 : ℚ) * (1 / 2 ^ 53) + 4 * (1 / 2 ^ 106) ≤ 4 / 2 ^ 53 := by norm_num
        linarith
      refine (abs_add_le _ _).trans ?_
      rw [abs_mul]
      have := mul_le_mul_of_nonneg_left k (abs_nonneg Q)
      linarith

end Verif.DiffDouble
