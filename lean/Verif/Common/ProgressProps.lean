import Verif.Common.Progress

/-!
# C135: `showProgress`
-/

namespace Verif.Common

theorem double_int_le (n : ℤ) (h : |n| ≤ 2 ^ 53) : IsDouble n := by
  rcases h.eq_or_lt with h | h
  · rcases abs_choice n with h' | h'
    · have : (n : ℚ) = 2 ^ (53 : ℤ) := by
        have : n = 2 ^ 53 := by omega
        rw [this]; norm_num
      rw [this]; exact isDouble_pow _ (by norm_num)
    · have : (n : ℚ) = -(2 ^ (53 : ℤ)) := by
        have : n = -2 ^ 53 := by omega
        rw [this]; norm_num
      rw [this]; exact (isDouble_pow _ (by norm_num)).neg
  · exact isDouble_int n h

theorem roundEven_mono {x y : ℚ} (h : x ≤ y) : roundEven x ≤ roundEven y := by
  by_contra hc
  have hlt : roundEven y + 1 ≤ roundEven x := by omega
  have h1 := roundEven_near x (roundEven y)
  have h2 := roundEven_near y (roundEven x)
  have hl : (roundEven y : ℚ) + 1 ≤ roundEven x := by exact_mod_cast hlt
  rcases le_abs_self ((roundEven x : ℚ) - x) with _
  have a1 : (roundEven x : ℚ) - x ≤ |(roundEven y : ℚ) - x| := le_trans (le_abs_self _) h1
  have a2 : y - roundEven y ≤ |(roundEven x : ℚ) - y| := by
    refine le_trans ?_ h2
    rw [abs_sub_comm]; exact le_abs_self _
  -- both distances are to integers on the two sides, so `x` and `y` lie at the midpoint
  have m1 : (roundEven x : ℚ) + roundEven y ≤ 2 * x := by
    rcases abs_cases ((roundEven y : ℚ) - x) with ⟨e, _⟩ | ⟨e, _⟩ <;> rw [e] at a1 <;> linarith
  have m2 : 2 * y ≤ (roundEven x : ℚ) + roundEven y := by
    rcases abs_cases ((roundEven x : ℚ) - y) with ⟨e, _⟩ | ⟨e, _⟩ <;> rw [e] at a2 <;> linarith
  have : x = y := by linarith
  rw [this] at hlt
  omega

theorem roundEven_err (x : ℚ) : |(roundEven x : ℚ) - x| ≤ 1 / 2 := by
  have f1 := Int.floor_le x
  have f2 := Int.lt_floor_add_one x
  unfold roundEven
  split_ifs <;> push_cast <;> rw [abs_le] <;> constructor <;> linarith

/-! ## the counts -/

/-- the quotient of two counts that doubles hold exactly is at least one iff the counts say so -/
theorem ratio_ge_one {rnd : ℚ → ℚ} (h : IsRnd rnd) {done all : ℤ} (ha : 0 < all) (hd : |done| ≤ 2 ^ 53) (hb : all ≤ 2 ^ 53) :
    (1 ≤ rnd (rnd done / rnd all) ↔ all ≤ done) ∧ (1 < rnd (rnd done / rnd all) ↔ all < done) := by
  have e1 : rnd (done : ℚ) = done := h.fix (double_int_le done hd)
  have e2 : rnd (all : ℚ) = all := h.fix (double_int_le all (by rw [abs_of_pos ha]; exact hb))
  have hq : (0 : ℚ) < all := by exact_mod_cast ha
  have d1 : IsDouble 1 := by exact_mod_cast isDouble_int 1 (by norm_num)
  rw [e1, e2]
  have below : done < all → rnd ((done : ℚ) / all) < 1 := by
    intro hlt
    have hx : (done : ℚ) / all ≤ 1 - 1 / 2 ^ 53 := by
      rw [div_le_iff₀ hq]
      have h1 : (done : ℚ) ≤ all - 1 := by
        have : done ≤ all - 1 := by omega
        exact_mod_cast this
      have h2 : (all : ℚ) ≤ 2 ^ 53 := by exact_mod_cast hb
      have h3 : (1 - 1 / 2 ^ 53 : ℚ) * all = all - all / 2 ^ 53 := by ring
      have h4 : (all : ℚ) / 2 ^ 53 ≤ 1 := by rw [div_le_one (by positivity)]; exact h2
      linarith
    have hdbl : IsDouble (1 - 1 / 2 ^ 53) := ⟨2 ^ 53 - 1, -53, by norm_num, by norm_num, by norm_num⟩
    have := h.le_of_le hdbl hx
    have : (1 - 1 / 2 ^ 53 : ℚ) < 1 := by norm_num
    linarith
  have above : all < done → 1 < rnd ((done : ℚ) / all) := by
    intro hlt
    have hx : 1 + 1 / 2 ^ 52 ≤ (done : ℚ) / all ∨ (2 : ℚ) ^ 52 < all := by
      by_cases hbig : (2 : ℚ) ^ 52 < all
      · exact .inr hbig
      · left
        rw [le_div_iff₀ hq]
        have h1 : (all : ℚ) + 1 ≤ done := by
          have : all + 1 ≤ done := by omega
          exact_mod_cast this
        have h3 : (1 + 1 / 2 ^ 52 : ℚ) * all = all + all / 2 ^ 52 := by ring
        have h4 : (all : ℚ) / 2 ^ 52 ≤ 1 := by rw [div_le_one (by positivity)]; linarith
        linarith
    rcases hx with hx | hx
    · have hdbl : IsDouble (1 + 1 / 2 ^ 52) := ⟨2 ^ 52 + 1, -52, by norm_num, by norm_num, by norm_num⟩
      have := h.ge_of_ge hdbl hx
      have : (1 : ℚ) < 1 + 1 / 2 ^ 52 := by norm_num
      linarith
    · -- the quotient is above the midpoint of one and the next double
      have hmid : 1 + 1 / 2 ^ 53 < (done : ℚ) / all := by
        rw [lt_div_iff₀ hq]
        have h1 : (all : ℚ) + 1 ≤ done := by
          have : all + 1 ≤ done := by omega
          exact_mod_cast this
        have h2 : (all : ℚ) < 2 ^ 53 := by
          have h5 : done ≤ 2 ^ 53 := le_trans (le_abs_self _) hd
          have : all < 2 ^ 53 := by omega
          exact_mod_cast this
        have h3 : (1 + 1 / 2 ^ 53 : ℚ) * all = all + all / 2 ^ 53 := by ring
        have h4 : (all : ℚ) / 2 ^ 53 < 1 := by rw [div_lt_one (by positivity)]; exact h2
        linarith
      by_contra hc
      have hge : 1 ≤ rnd ((done : ℚ) / all) := h.ge_of_ge d1 (by
        have : (1 : ℚ) < 1 + 1 / 2 ^ 53 := by norm_num
        linarith)
      have heq : rnd ((done : ℚ) / all) = 1 := le_antisymm (not_lt.mp hc) hge
      have hn := h.near ((done : ℚ) / all) (1 + 1 / 2 ^ 52) ⟨2 ^ 52 + 1, -52, by norm_num, by norm_num, by norm_num⟩
      rw [heq] at hn
      rcases le_total ((done : ℚ) / all) (1 + 1 / 2 ^ 52) with hle | hle
      · rw [abs_of_nonpos (by linarith), abs_of_nonneg (by linarith)] at hn
        norm_num at hmid hn
        linarith
      · have hdbl : IsDouble (1 + 1 / 2 ^ 52) := ⟨2 ^ 52 + 1, -52, by norm_num, by norm_num, by norm_num⟩
        have := h.ge_of_ge hdbl hle
        rw [heq] at this
        norm_num at this
  constructor
  · constructor
    · intro h1
      by_contra hc
      have := below (by omega)
      linarith
    · intro h1
      refine h.ge_of_ge d1 ?_
      rw [le_div_iff₀ hq, one_mul]; exact_mod_cast h1
  · constructor
    · intro h1
      by_contra hc
      have : rnd ((done : ℚ) / all) ≤ 1 := by
        refine h.le_of_le d1 ?_
        rw [div_le_one hq]; exact_mod_cast (by omega : done ≤ all)
      linarith
    · exact above

/-! ## C135 -/

/-- what a call writes -/
def written (before : Cout) (r : ProgressRes) : List ProgressText := r.cout.out.drop before.out.length

/-- **C135, the claim**: for all counts `0 ≤ done < all` the call says how much is done — a percentage below 100, not that everything is complete — and leaves the formatting of `std::cout` as it was. -/
def C135_claim : Prop := ∀ rnd, IsRnd rnd → ∀ (debug : Bool) (c : Cout) (done all : ℤ), 0 ≤ done → done < all → all < 2 ^ 64 →
  (∃ n, written c (showProgressOf rnd debug c done all) = [.percent n] ∧ n < 10000) ∧
  (showProgressOf rnd debug c done all).cout.fmt = c.fmt

/-- **C135, refuted (the stream)**: every call that does not throw leaves `std::cout` in fixed notation with two decimals, whatever it was before. -/
theorem C135_format (rnd : ℚ → ℚ) (debug : Bool) (c : Cout) (done all : ℤ) :
    ((showProgressOf rnd debug c done all).threw = false → (showProgressOf rnd debug c done all).cout.fmt = ⟨true, 2, true⟩) ∧
    ((showProgressOf rnd debug c done all).threw = true → (showProgressOf rnd debug c done all).cout = c) := by
  unfold showProgressOf showProgress
  split_ifs <;> simp

theorem rnd_big {rnd : ℚ → ℚ} (h : IsRnd rnd) : rnd (2 ^ 60 - 1 : ℚ) = 2 ^ 60 := by
  have hd : IsDouble (2 ^ 60) := ⟨1, 60, by norm_num, by norm_num, by norm_num⟩
  have hn := h.near (2 ^ 60 - 1) (2 ^ 60) hd
  have hle := h.le_of_le hd (show (2 ^ 60 - 1 : ℚ) ≤ 2 ^ 60 by norm_num)
  have hge : (2 ^ 60 - 2 : ℚ) ≤ rnd (2 ^ 60 - 1) := by
    have := (abs_le.mp (le_trans hn (by norm_num : |(2 ^ 60 : ℚ) - (2 ^ 60 - 1)| ≤ 1))).1
    linarith
  obtain ⟨m, e, hm, he, hx⟩ := h.mem (2 ^ 60 - 1)
  rw [hx] at hle hge ⊢
  have he7 : 7 ≤ e := by
    by_contra hc
    have h1 : (2 : ℚ) ^ e ≤ 2 ^ (6 : ℤ) := zpow_le_zpow_right₀ (by norm_num) (by omega)
    have h2 : (m : ℚ) ≤ 2 ^ 53 := by
      have : m ≤ 2 ^ 53 := by have := le_abs_self m; omega
      exact_mod_cast this
    have h3 : (m : ℚ) * 2 ^ e ≤ 2 ^ 53 * 2 ^ (6 : ℤ) := by
      have hp : (0 : ℚ) < 2 ^ e := by positivity
      calc (m : ℚ) * 2 ^ e ≤ 2 ^ 53 * 2 ^ e := by exact mul_le_mul_of_nonneg_right h2 hp.le
        _ ≤ _ := by exact mul_le_mul_of_nonneg_left h1 (by positivity)
    norm_num at h3 hge
    linarith
  obtain ⟨k, rfl⟩ : ∃ k : ℕ, e = k := ⟨e.toNat, by omega⟩
  obtain ⟨j, rfl⟩ : ∃ j, k = 7 + j := ⟨k - 7, by omega⟩
  have hz : ((m : ℚ) * 2 ^ ((7 + j : ℕ) : ℤ)) = ((m * 2 ^ j * 128 : ℤ) : ℚ) := by
    rw [zpow_natCast]; push_cast; rw [pow_add]; norm_num; ring
  rw [hz] at hle hge ⊢
  have h1 : m * 2 ^ j * 128 ≤ 2 ^ 60 := by exact_mod_cast hle
  have h2 : 2 ^ 60 - 2 ≤ m * 2 ^ j * 128 := by exact_mod_cast hge
  have h3 : m * 2 ^ j * 128 = 2 ^ 60 := by
    generalize m * 2 ^ j = z at *
    omega
  rw [h3]; norm_num

/-- **C135, refuted (the counts)**: with counts above 2⁵³ the call says "Complete!" before everything is done. -/
theorem C135_complete_too_early {rnd : ℚ → ℚ} (h : IsRnd rnd) (debug : Bool) (c : Cout) :
    written c (showProgressOf rnd debug c (2 ^ 60 - 1) (2 ^ 60)) = [.complete] := by
  have hd : IsDouble (2 ^ 60) := ⟨1, 60, by norm_num, by norm_num, by norm_num⟩
  have e1 : rnd (((2 ^ 60 - 1 : ℤ)) : ℚ) = 2 ^ 60 := by
    have := rnd_big h
    norm_num at this ⊢; exact this
  have e2 : rnd (((2 ^ 60 : ℤ)) : ℚ) = 2 ^ 60 := by push_cast; exact h.fix hd
  have d1 : IsDouble 1 := by exact_mod_cast isDouble_int 1 (by norm_num)
  unfold showProgressOf showProgress
  rw [e1, e2, div_self (by norm_num), h.fix d1]
  have z : ¬ (1 : ℚ) < 0 := by norm_num
  simp [written, z]

theorem C135_negation : ¬ C135_claim := by
  intro hc
  obtain ⟨⟨n, hn, _⟩, _⟩ := hc rndEven isRnd_rndEven false ⟨⟨false, 6, false⟩, []⟩ (2 ^ 60 - 1) (2 ^ 60) (by norm_num) (by norm_num) (by norm_num)
  rw [C135_complete_too_early isRnd_rndEven] at hn
  simp at hn

/-- **C135, the part that holds**: for counts up to 2⁵³ nothing is written if `all` is not positive (the call throws); it says "Complete!" iff everything is done (with assertions it throws
if more than everything is done); otherwise it shows the percentage with two decimals, wrong by half a hundredth and the rounding of doubles at most. -/
theorem C135_shown_partial {rnd : ℚ → ℚ} (h : IsRnd rnd) (debug : Bool) (c : Cout) (done all : ℤ) (hd0 : 0 ≤ done) (hd : done ≤ 2 ^ 53) (hb : all ≤ 2 ^ 53) :
    (all ≤ 0 → showProgressOf rnd debug c done all = ⟨true, c⟩) ∧
    (0 < all → all < done → debug = true → showProgressOf rnd debug c done all = ⟨true, c⟩) ∧
    (0 < all → (all = done ∨ all < done ∧ debug = false) →
      (showProgressOf rnd debug c done all).threw = false ∧ written c (showProgressOf rnd debug c done all) = [.complete]) ∧
    (done < all → (showProgressOf rnd debug c done all).threw = false ∧
      ∃ n : ℤ, written c (showProgressOf rnd debug c done all) = [.percent n] ∧ 0 ≤ n ∧ n ≤ 10000 ∧ |(n : ℚ) - 10000 * (done / all)| ≤ 1 / 2 + 1 / 2 ^ 39) := by
  have habs : |done| ≤ 2 ^ 53 := by rw [abs_of_nonneg hd0]; exact hd
  have hpos : 0 < all → 0 ≤ rnd (rnd done / rnd all) := by
    intro ha
    refine h.nonneg (div_nonneg (h.nonneg (by exact_mod_cast hd0)) (h.nonneg (by exact_mod_cast ha.le)))
  refine ⟨fun ha => ?_, fun ha hlt hdb => ?_, fun ha hcase => ?_, fun hlt => ?_⟩
  · unfold showProgressOf
    rw [if_neg (by omega)]
  · have hr := (ratio_ge_one h ha habs hb).2.2 hlt
    unfold showProgressOf showProgress
    rw [if_pos ha]
    simp [hdb, hr, not_lt.mpr (hpos ha)]
  · have h1 := (ratio_ge_one h ha habs hb)
    have hge := h1.1.2 (by omega)
    have hn : ¬ (debug && decide (1 < rnd (rnd done / rnd all))) = true := by
      rcases hcase with hc | ⟨_, hc⟩
      · simp only [Bool.and_eq_true, decide_eq_true_eq, not_and]
        intro _
        rw [h1.2]; omega
      · simp [hc]
    have hn0 : ¬ (debug && decide (rnd (rnd done / rnd all) < 0)) = true := by
      simp [not_lt.mpr (hpos ha)]
    unfold showProgressOf showProgress
    rw [if_pos ha, if_neg hn0, if_neg hn]
    simp only [hge, if_true]
    simp [written]
  · have ha : 0 < all := by omega
    have h1 := (ratio_ge_one h ha habs hb)
    have hq : (0 : ℚ) < all := by exact_mod_cast ha
    have hlt1 : ¬ 1 ≤ rnd (rnd done / rnd all) := by rw [h1.1]; omega
    have hlt2 : ¬ 1 < rnd (rnd done / rnd all) := fun hh => hlt1 hh.le
    have e1 : rnd (done : ℚ) = done := h.fix (double_int_le done habs)
    have e2 : rnd (all : ℚ) = all := h.fix (double_int_le all (by rw [abs_of_pos ha]; exact hb))
    have hres : showProgressOf rnd debug c done all =
        ⟨false, ⟨⟨true, 2, true⟩, c.out ++ [.percent (roundEven (100 * rnd (100 * rnd (done / all))))]⟩⟩ := by
      unfold showProgressOf showProgress
      rw [if_pos ha]
      have := hpos ha
      rw [e1, e2] at this hlt1 hlt2 ⊢
      simp [not_lt.mpr this, hlt1, hlt2]
    rw [hres]
    refine ⟨rfl, roundEven (100 * rnd (100 * rnd (done / all))), by simp [written], ?_, ?_, ?_⟩
    all_goals
      have hx0 : 0 ≤ (done : ℚ) / all := div_nonneg (by exact_mod_cast hd0) hq.le
      have hx1 : (done : ℚ) / all ≤ 1 := by rw [div_le_one hq]; exact_mod_cast hlt.le
      have d1 : IsDouble 1 := by exact_mod_cast isDouble_int 1 (by norm_num)
      have d100 : IsDouble 100 := by exact_mod_cast isDouble_int 100 (by norm_num)
      have hr0 : 0 ≤ rnd ((done : ℚ) / all) := h.nonneg hx0
      have hr1 : rnd ((done : ℚ) / all) ≤ 1 := h.le_of_le d1 hx1
      have hs0 : 0 ≤ rnd (100 * rnd ((done : ℚ) / all)) := h.nonneg (by linarith)
      have hs1 : rnd (100 * rnd ((done : ℚ) / all)) ≤ 100 := h.le_of_le d100 (by linarith)
    · have := roundEven_mono (show (0 : ℚ) ≤ 100 * rnd (100 * rnd ((done : ℚ) / all)) by linarith)
      have z : roundEven (0 : ℚ) = 0 := by simp [roundEven]
      omega
    · have := roundEven_mono (show 100 * rnd (100 * rnd ((done : ℚ) / all)) ≤ (10000 : ℚ) by linarith)
      have z : roundEven (10000 : ℚ) = 10000 := by
        have : ⌊(10000 : ℚ)⌋ = 10000 := by norm_num
        unfold roundEven; rw [this]; norm_num
      omega
    · have a1 := h.err_abs (x := (done : ℚ) / all) (e := -53) (by norm_num) (by rw [abs_of_nonneg hx0]; norm_num; linarith)
      have a2 := h.err_abs (x := 100 * rnd ((done : ℚ) / all)) (e := -46) (by norm_num) (by
        rw [abs_of_nonneg (by linarith)]; norm_num; linarith)
      have a3 := roundEven_err (100 * rnd (100 * rnd ((done : ℚ) / all)))
      rw [abs_le] at a1 a2 a3 ⊢
      norm_num at a1 a2 a3 ⊢
      constructor <;> linarith [a1.1, a1.2, a2.1, a2.2, a3.1, a3.2]

/-- **C135** The percentage shown never goes back: more done, at least as much shown (for any counts). -/
theorem C135_monotone {rnd : ℚ → ℚ} (h : IsRnd rnd) (debug debug' : Bool) (c c' : Cout) (d d' all : ℤ) (hdd : d ≤ d') (n n' : ℤ)
    (hn : written c (showProgressOf rnd debug c d all) = [.percent n]) (hn' : written c' (showProgressOf rnd debug' c' d' all) = [.percent n']) : n ≤ n' := by
  have key : ∀ (debug : Bool) (c : Cout) (d n : ℤ), written c (showProgressOf rnd debug c d all) = [.percent n] →
      0 < all ∧ n = roundEven (100 * rnd (100 * rnd (rnd d / rnd all))) := by
    intro debug c d n hn
    unfold showProgressOf showProgress at hn
    split_ifs at hn <;> simp [written] at hn
    exact ⟨‹_›, hn.symm⟩
  obtain ⟨ha, rfl⟩ := key _ _ _ _ hn
  obtain ⟨_, rfl⟩ := key _ _ _ _ hn'
  have hq : 0 ≤ rnd (all : ℚ) := h.nonneg (by exact_mod_cast ha.le)
  have h1 : rnd (d : ℚ) ≤ rnd d' := h.mono (by exact_mod_cast hdd)
  have h2 : rnd (rnd d / rnd all) ≤ rnd (rnd d' / rnd all) := h.mono (div_le_div_of_nonneg_right h1 hq)
  have h3 : rnd (100 * rnd (rnd d / rnd all)) ≤ rnd (100 * rnd (rnd d' / rnd all)) := h.mono (by linarith)
  exact roundEven_mono (by linarith)

/-- **C135, the boundary of the claim**: "100.00% complete" can be shown although one of 100000 steps is missing. -/
theorem C135_hundred_too_early {rnd : ℚ → ℚ} (h : IsRnd rnd) (debug : Bool) (c : Cout) :
    written c (showProgressOf rnd debug c 99999 100000) = [.percent 10000] := by
  obtain ⟨_, n, hn, _, h2, h3⟩ := (C135_shown_partial h debug c 99999 100000 (by norm_num) (by norm_num) (by norm_num)).2.2.2 (by norm_num)
  rw [hn]
  have h4 := (abs_le.mp h3).1
  norm_num at h4
  have : (9999 : ℚ) < n := by linarith
  have : 9999 < n := by exact_mod_cast this
  have : n = 10000 := by omega
  rw [this]

example : ∃ n : ℤ, written ⟨⟨false, 6, false⟩, []⟩ (showProgressOf rndEven true ⟨⟨false, 6, false⟩, []⟩ 1 3) = [.percent n] ∧ n = 3333 := by
  obtain ⟨_, n, hn, _, h2, h3⟩ := (C135_shown_partial isRnd_rndEven true ⟨⟨false, 6, false⟩, []⟩ 1 3 (by norm_num) (by norm_num) (by norm_num)).2.2.2 (by norm_num)
  refine ⟨n, hn, ?_⟩
  have h4 := abs_le.mp h3
  norm_num at h4
  have a : (3332 : ℚ) < n := by linarith [h4.1]
  have b : (n : ℚ) < 3334 := by linarith [h4.2]
  have a' : 3332 < n := by exact_mod_cast a
  have b' : n < 3334 := by exact_mod_cast b
  omega

end Verif.Common
