import Verif.Timing.MachineLemmas
import Verif.Timing.MonotoneProps
import Verif.Common.DoubleErr

/-!
# C112: `TimestampCorrector<double>`: which reads are outside the hull
-/

namespace Verif.Timing.Machine

open Verif.Common

/-! ## The midpoint -/

theorem midpoint_between {rnd : ℚ → ℚ} (h : IsRnd rnd) {x0 x1 r : ℚ} (h0 : IsDouble x0) (h1 : IsDouble x1) (h2 : IsDouble r) (l1 : x0 < x1) (l2 : x1 < r) :
    x0 < rnd (rnd (x0 + r) / 2) ∧ rnd (rnd (x0 + r) / 2) ≤ r := by
  have hS : rnd (x0 + r) ≤ 2 * r := h.le_of_le (two_mul_double h2) (by linarith)
  refine ⟨?_, h.le_of_le h2 (by linarith)⟩
  set S := rnd (x0 + r) with hSdef
  by_cases hc : 2 * x1 ≤ S
  · exact lt_of_lt_of_le l1 (h.ge_of_ge h1 (by linarith))
  push Not at hc
  have hS0 : 2 * x0 < S := by
    have hge : 2 * x0 ≤ S := h.ge_of_ge (two_mul_double h0) (by linarith)
    rcases hge.lt_or_eq with hlt | heq
    · exact hlt
    exfalso
    have hn := h.near (x0 + r) (2 * x1) (two_mul_double h1)
    rw [← hSdef, ← heq] at hn
    have a1 : |2 * x0 - (x0 + r)| = r - x0 := by rw [abs_of_nonpos (by linarith)]; ring
    rw [a1] at hn
    have hx : x0 + r < 2 * x1 := by
      by_contra hcc
      push Not at hcc
      have := h.ge_of_ge (two_mul_double h1) hcc
      linarith
    rw [abs_of_pos (by linarith)] at hn
    linarith
  rcases half_double (h.mem (x0 + r)) with hd | ⟨n, hn, hnb⟩
  · rw [h.fix hd]
    linarith
  · have pu : (0 : ℚ) < 2 ^ (-1074 : ℤ) := by positivity
    obtain ⟨a, ha⟩ := double_mult h0
    obtain ⟨b, hb⟩ := double_mult h1
    obtain ⟨c, hc'⟩ := double_mult h2
    have hab : a < b := by
      have : (a : ℚ) * 2 ^ (-1074 : ℤ) < b * 2 ^ (-1074 : ℤ) := by rw [← ha, ← hb]; exact l1
      exact_mod_cast lt_of_mul_lt_mul_right this pu.le
    have hbc : b < c := by
      have : (b : ℚ) * 2 ^ (-1074 : ℤ) < c * 2 ^ (-1074 : ℤ) := by rw [← hb, ← hc']; exact l2
      exact_mod_cast lt_of_mul_lt_mul_right this pu.le
    by_cases hbig : a < -2 ^ 53
    · -- the first time is far below: a negative power of two is between
      have hd : IsDouble (-(2 : ℚ) ^ (-1021 : ℤ)) := (isDouble_pow (-1021) (by norm_num)).neg
      have e53 : (2 : ℚ) ^ (-1021 : ℤ) = 2 ^ 53 * 2 ^ (-1074 : ℤ) := by
        rw [show (-1021 : ℤ) = 53 + -1074 by norm_num, zpow_add₀ (by norm_num)]; norm_num
      have hlt : x0 < -(2 : ℚ) ^ (-1021 : ℤ) := by
        rw [ha, e53]
        have : (a : ℚ) < -2 ^ 53 := by exact_mod_cast hbig
        nlinarith
      refine lt_of_lt_of_le hlt (h.ge_of_ge hd ?_)
      have : (-2 ^ 53 : ℚ) < n := by exact_mod_cast (abs_lt.1 hnb).1
      change rnd (x0 + r) = _ at hn
      rw [← hSdef] at hn
      rw [hn, e53]
      nlinarith
    · push Not at hbig
      change rnd (x0 + r) = _ at hn
      rw [← hSdef] at hn
      have hnb' := abs_lt.1 hnb
      -- the sum is small, so it is exact
      have hsum : |a + c| ≤ 2 ^ 53 := by
        rw [abs_le]
        constructor
        · by_contra hcc
          push Not at hcc
          have hd : IsDouble (((-2 ^ 53 : ℤ) : ℚ) * 2 ^ (-1074 : ℤ)) := mult_double (by norm_num)
          have hle : S ≤ ((-2 ^ 53 : ℤ) : ℚ) * 2 ^ (-1074 : ℤ) := by
            refine h.le_of_le hd ?_
            rw [ha, hc', ← add_mul]
            refine mul_le_mul_of_nonneg_right ?_ pu.le
            exact_mod_cast hcc.le
          rw [hn] at hle
          have := le_of_mul_le_mul_right hle pu
          have : n ≤ -2 ^ 53 := by exact_mod_cast this
          omega
        · by_contra hcc
          push Not at hcc
          have hd : IsDouble (((2 ^ 53 : ℤ) : ℚ) * 2 ^ (-1074 : ℤ)) := mult_double (by norm_num)
          have hle : ((2 ^ 53 : ℤ) : ℚ) * 2 ^ (-1074 : ℤ) ≤ S := by
            refine h.ge_of_ge hd ?_
            rw [ha, hc', ← add_mul]
            refine mul_le_mul_of_nonneg_right ?_ pu.le
            exact_mod_cast hcc.le
          rw [hn] at hle
          have := le_of_mul_le_mul_right hle pu
          have : 2 ^ 53 ≤ n := by exact_mod_cast this
          omega
      have hSe : S = x0 + r := by
        rw [hSdef]
        apply h.fix
        rw [ha, hc', ← add_mul]
        have := mult_double hsum
        push_cast at this
        exact this
      have ha1 : IsDouble (((a + 1 : ℤ) : ℚ) * 2 ^ (-1074 : ℤ)) := by
        refine mult_double (abs_le.2 ⟨by omega, ?_⟩)
        have := (abs_le.1 hsum).2
        omega
      have hlt : x0 < ((a + 1 : ℤ) : ℚ) * 2 ^ (-1074 : ℤ) := by
        rw [ha]; push_cast; linarith
      refine lt_of_lt_of_le hlt (h.ge_of_ge ha1 ?_)
      rw [hSe, ha, hc']
      have : (a : ℚ) + 2 ≤ c := by exact_mod_cast (show a + 2 ≤ c by omega)
      push_cast
      nlinarith

/-- finite times of at most 2^1022 are safe, whatever the local times -/
theorem dbl_safe {rnd : ℚ → ℚ} (h : IsRnd rnd) : Safe (dbl rnd) fval fun p => Bounded limit p.x where
  le := by
    rintro ⟨_, _⟩ ⟨_, _⟩ ⟨p, rfl, -⟩ ⟨q, rfl, -⟩
    simp only [dbl, Fp.le, Fp.lt, Fp.eq, fval]
    rcases lt_trichotomy p q with hc | hc | hc
    · simp [hc, hc.le]
    · simp [hc]
    · simp [not_lt.2 hc.le, hc.ne', not_le.2 hc]
  above := fun _ _ _ _ _ _ => by simp [dbl]
  mid := by
    rintro ⟨_, _⟩ ⟨_, _⟩ ⟨_, _⟩ ⟨a, rfl, ha, hab⟩ ⟨b, rfl, hb, hbb⟩ ⟨c, rfl, hc, hcb⟩ h1 h2
    simp only [fval] at h1 h2
    have hs : |a + c| ≤ 2 * limit := (abs_add_le _ _).trans (by linarith)
    obtain ⟨e1, b1⟩ := rounded_fin h hs
    have hs2 : |rnd (a + c) / 2| ≤ 2 * limit := by rw [abs_div, abs_of_pos (by norm_num : (0 : ℚ) < 2)]; linarith [abs_nonneg (rnd (a + c)), limit_pos]
    obtain ⟨e2, b2⟩ := rounded_fin h hs2
    obtain ⟨m1, m2⟩ := midpoint_between h ha hb hc h1 h2
    refine ⟨.fin (rnd (rnd (a + c) / 2)), ?_, m1, m2, ?_⟩
    · simp only [dbl, fadd, Fp.add, e1, fdiv, Fp.div]
      rw [if_neg (by norm_num), e2]
    · rintro ⟨_, _⟩ ⟨q, rfl, -⟩
      simp only [dbl, Fp.lt, fval]
      congr
  line := fun _ _ _ _ _ _ _ => by simp [dbl]

/-- **C112** (claim) With finite times `correctTimestamp` never reads outside the hull. -/
def C112_claim : Prop := ∀ (rnd : ℚ → ℚ), IsRnd rnd → ∀ (obs : List (Pt Fp)) (p : Pt Fp),
  (∀ q ∈ obs ++ [p], (IsDoubleVal q.x ∧ q.x.isFinite = true) ∧ (IsDoubleVal q.y ∧ q.y.isFinite = true)) →
  (correct (dbl rnd) (feed (dbl rnd) .fresh obs) p.x p.y).1 ≠ .ub

/-- **C112** for remote times of at most 2^1022 the claim holds, whatever the local times are (infinite or not a number) and however the comparisons of points with lines are rounded: an observation
that is not later than the last accepted one is refused and changes nothing; all others are accepted.  The hull has the first, the latest and some others of the accepted observations, in order; with fewer than three points the
result is the given local time, and else it is on the line through two neighbouring points of the hull, one before and one not before the computed midpoint. -/
theorem C112_safe_partial {rnd : ℚ → ℚ} (h : IsRnd rnd) (obs : List (Pt Fp)) (p : Pt Fp) (hb : ∀ q ∈ obs ++ [p], Bounded limit q.x) :
    (correct (dbl rnd) (feed (dbl rnd) .fresh obs) p.x p.y).1 ≠ .ub ∧
    Kept fval (accepted fval obs) (feed (dbl rnd) .fresh obs).hull ∧
    ((∃ q, (accepted fval obs).getLast? = some q ∧ fval p.x ≤ fval q.x) →
      correct (dbl rnd) (feed (dbl rnd) .fresh obs) p.x p.y = (.threw, feed (dbl rnd) .fresh obs)) ∧
    ((∀ q, (accepted fval obs).getLast? = some q → fval q.x < fval p.x) →
      ∃ c, (correct (dbl rnd) (feed (dbl rnd) .fresh obs) p.x p.y).2 = c ∧
        (c.hull.length < 3 → (correct (dbl rnd) (feed (dbl rnd) .fresh obs) p.x p.y).1 = .value p.y) ∧
        (3 ≤ c.hull.length → ∃ q a b, c.hull.head? = some q ∧ c.hull[c.mid]? = some a ∧ c.hull[c.mid + 1]? = some b ∧
          fval a.x < rnd (rnd (fval q.x + fval p.x) / 2) ∧ rnd (rnd (fval q.x + fval p.x) / 2) ≤ fval b.x ∧
          (correct (dbl rnd) (feed (dbl rnd) .fresh obs) p.x p.y).1 =
            .value (fadd rnd a.y (fmul rnd (fdiv rnd (fsub rnd b.y a.y) (fsub rnd b.x a.x)) (fsub rnd p.x a.x))))) := by
  have hS := dbl_safe h
  have hV : ∀ q ∈ obs, Bounded limit q.x := fun q hq => hb q (by simp [hq])
  have hk := feed_kept hS obs hV
  have hs := step hS hk (fun q hq => hV q (accepted_subset _ _ q hq)) (hb p (by simp))
  refine ⟨?_, hk, hs.1, ?_⟩
  · by_cases hc : ∃ q, (accepted fval obs).getLast? = some q ∧ fval p.x ≤ fval q.x
    · rw [hs.1 hc]; simp
    · push Not at hc
      obtain ⟨h', -, h2, h3, h4, h5⟩ := hs.2 hc
      by_cases hl : 3 ≤ h'.length
      · obtain ⟨q, m, a, b, v, -, -, -, -, -, -, -, e⟩ := h5 hl
        rw [e]; simp
      · rw [h4 (by omega)]; simp
  · intro hc
    obtain ⟨h', -, h2, h3, h4, h5⟩ := hs.2 hc
    refine ⟨_, rfl, fun hl => h4 (by rw [← h2]; exact hl), fun hl => ?_⟩
    obtain ⟨q, m, a, b, v, hq, hm, ha, hb', h6, h7, h8, e⟩ := h5 (by rw [← h2]; exact hl)
    refine ⟨q, a, b, by rw [h2]; exact hq, ha, hb', ?_⟩
    -- the midpoint is the number it should be
    have hqv : Bounded limit q.x := by
      have : q ∈ accepted fval obs ++ [p] := h3.sub.subset (List.mem_of_mem_head? (by rw [hq]; rfl))
      rcases List.mem_append.1 this with hm | hm
      · exact hV q (accepted_subset _ _ q hm)
      · simp at hm; rw [hm]; exact hb p (by simp)
    obtain ⟨x0, hx0, d0, b0⟩ := hqv
    obtain ⟨r, hr, d1, b1⟩ := hb p (by simp)
    have hsum : |x0 + r| ≤ 2 * limit := (abs_add_le _ _).trans (by linarith)
    obtain ⟨e1, c1⟩ := rounded_fin h hsum
    have hs2 : |rnd (x0 + r) / 2| ≤ 2 * limit := by rw [abs_div, abs_of_pos (by norm_num : (0 : ℚ) < 2)]; linarith [abs_nonneg (rnd (x0 + r)), limit_pos]
    obtain ⟨e2, c2⟩ := rounded_fin h hs2
    have hm' : m = .fin (rnd (rnd (x0 + r) / 2)) := by
      simp only [dbl, hx0, hr, fadd, Fp.add, e1, fdiv, Fp.div, Option.some.injEq] at hm
      rw [if_neg (by norm_num), e2] at hm
      exact hm.symm
    rw [hm'] at h6 h7
    have ev1 : fval q.x = x0 := by rw [hx0]; rfl
    have ev2 : fval p.x = r := by rw [hr]; rfl
    rw [ev1, ev2]
    refine ⟨h6, h7, ?_⟩
    rw [e]
    simp only [dbl, Option.some.injEq] at h8
    rw [← h8]

theorem lowerBound_all {T : Type} (A : Arith T) (hull : List (Pt T)) (m : T) (h : ∀ q ∈ hull, A.lt q.x m = true) : lowerBound A hull m = hull.length := by
  have hp : ∀ i, i < hull.length → (match hull[i]? with | some q => A.lt q.x m | none => false) = true := by
    intro i hi
    rw [List.getElem?_eq_getElem hi]
    exact h _ (List.getElem_mem _)
  obtain ⟨h1, h2, h3, h4⟩ := lbGo_spec (fun i => match hull[i]? with | some q => A.lt q.x m | none => false) hull.length 0
    (fun i j _ hij hj _ => hp i (by omega))
  change lowerBound A hull m ≤ _ at h2
  change ∀ i, lowerBound A hull m ≤ i → _ at h4
  rcases Nat.lt_or_ge (lowerBound A hull m) hull.length with hl | hl
  · have := h4 (lowerBound A hull m) (Nat.le_refl _) (by omega)
    rw [hp _ hl] at this
    cases this
  · omega

theorem lowerBound_none {T : Type} (A : Arith T) (hull : List (Pt T)) (m : T) (h : ∀ q ∈ hull, A.lt q.x m = false) : lowerBound A hull m = 0 := by
  have hp : ∀ i : ℕ, (match hull[i]? with | some (q : Pt T) => A.lt q.x m | none => false) = false := by
    intro i
    split
    · rename_i q e
      exact h q (List.mem_of_getElem? e)
    · rfl
  obtain ⟨h1, h2, h3, h4⟩ := lbGo_spec (fun i => match hull[i]? with | some q => A.lt q.x m | none => false) hull.length 0
    (fun i j _ hij hj hj' => by simp only [hp j] at hj'; cases hj')
  change ∀ i, _ → i < lowerBound A hull m → _ at h3
  rcases Nat.eq_zero_or_pos (lowerBound A hull m) with hl | hl
  · exact hl
  · have := h3 0 (by omega) hl
    simp only [hp 0] at this
    cases this

theorem rounded_zero {rnd : ℚ → ℚ} (h : IsRnd rnd) : rounded rnd (.fin 0) = .fin 0 := by
  have e : rnd 0 = 0 := h.fix (by simpa using isDouble_int 0 (by norm_num))
  have := (rounded_fin h (q := 0) (by simp; exact limit_pos.le)).1
  rw [this, e]

/-- three observations at the local time 0 that are accepted and kept, with a midpoint that is after or before all of them -/
theorem three_ub {rnd : ℚ → ℚ} (x0 x1 x2 m : Fp) (a1 : Fp.le x1 x0 = false) (a2 : Fp.le x2 x1 = false)
    (hp : pushHull (dbl rnd) [⟨x0, .fin 0⟩, ⟨x1, .fin 0⟩] ⟨x2, .fin 0⟩ = some [⟨x0, .fin 0⟩, ⟨x1, .fin 0⟩, ⟨x2, .fin 0⟩])
    (hm : fdiv rnd (fadd rnd x0 x2) (.fin 2) = m)
    (hall : (∀ x ∈ [x0, x1, x2], Fp.lt x m = true) ∨ (∀ x ∈ [x0, x1, x2], Fp.lt x m = false)) :
    (correct (dbl rnd) (feed (dbl rnd) .fresh [⟨x0, .fin 0⟩, ⟨x1, .fin 0⟩]) x2 (.fin 0)).1 = .ub := by
  have f1 : correct (dbl rnd) .fresh x0 (.fin 0) = (.value (.fin 0), ⟨[⟨x0, .fin 0⟩], 0⟩) := by
    simp [correct, rejects, Corr.fresh, pushHull, isAboveTopLine]
  have f2 : correct (dbl rnd) ⟨[⟨x0, .fin 0⟩], 0⟩ x1 (.fin 0) = (.value (.fin 0), ⟨[⟨x0, .fin 0⟩, ⟨x1, .fin 0⟩], 0⟩) := by
    have : rejects (dbl rnd) [⟨x0, .fin 0⟩] x1 = false := a1
    simp [correct, this, pushHull, isAboveTopLine]
  have f3 : feed (dbl rnd) .fresh [⟨x0, .fin 0⟩, ⟨x1, .fin 0⟩] = ⟨[⟨x0, .fin 0⟩, ⟨x1, .fin 0⟩], 0⟩ := by
    simp only [feed, List.foldl_cons, List.foldl_nil, f1, f2]
  have hr : rejects (dbl rnd) [⟨x0, .fin 0⟩, ⟨x1, .fin 0⟩] x2 = false := a2
  have hmid : (dbl rnd).mid x0 x2 = some m := by rw [← hm]; rfl
  rw [f3]
  simp only [correct, hr, Bool.false_eq_true, if_false, hp, List.length_cons, List.length_nil, Nat.zero_add, Nat.reduceAdd, Nat.le_refl, if_true, List.head?_cons, hmid, getLocalTime]
  rcases hall with hall | hall
  · rw [lowerBound_all (dbl rnd) _ m (by
      intro q hq
      simp only [List.mem_cons, List.not_mem_nil, or_false] at hq
      rcases hq with rfl | rfl | rfl <;> exact hall _ (by simp))]
    simp [Corrector.predWrap]
  · rw [lowerBound_none (dbl rnd) _ m (by
      intro q hq
      simp only [List.mem_cons, List.not_mem_nil, or_false] at hq
      rcases hq with rfl | rfl | rfl <;> exact hall _ (by simp))]
    simp [Corrector.predWrap]

theorem push_flat {rnd : ℚ → ℚ} (h : IsRnd rnd) {x0 x1 x2 : Fp} (hf : ∀ x ∈ [x1, x2], ∃ q, fsub rnd x x0 = .fin q) :
    pushHull (dbl rnd) [⟨x0, .fin 0⟩, ⟨x1, .fin 0⟩] ⟨x2, .fin 0⟩ = some [⟨x0, .fin 0⟩, ⟨x1, .fin 0⟩, ⟨x2, .fin 0⟩] := by
  obtain ⟨q1, h1⟩ := hf x1 (by simp)
  obtain ⟨q2, h2⟩ := hf x2 (by simp)
  have hz : fsub rnd (.fin 0) (.fin 0) = .fin 0 := by
    simp only [fsub, Fp.sub, Fp.neg, Fp.add, neg_zero, add_zero, rounded_zero h]
  have hd : fdet rnd ⟨x0, .fin 0⟩ ⟨x1, .fin 0⟩ ⟨x2, .fin 0⟩ = .fin 0 := by
    simp only [fdet, h1, h2, hz]
    simp only [fmul, Fp.mul, mul_zero, zero_mul, rounded_zero h, hz]
  simp [pushHull, isAboveTopLine, dbl, hd, Fp.le, Fp.eq]

/-- **C112** times near the largest double: the sum of the first and the last overflows to infinity, and the point behind the last one is read. -/
theorem C112_negation : ¬ C112_claim := by
  intro H
  have h := isRnd_rndNearest
  set rnd := rndNearest with hr
  obtain ⟨u, hu0, d, el⟩ : ∃ u : ℚ, 0 < u ∧ (∀ m : ℤ, |m| < 2 ^ 53 → IsDouble ((m : ℚ) * u)) ∧ limit = 2 ^ 22 * u := by
    refine ⟨2 ^ (1000 : ℤ), by positivity, fun m hm => ⟨m, 1000, hm, by norm_num, rfl⟩, ?_⟩
    rw [limit, show (1000 : ℤ) = ((1000 : ℕ) : ℤ) from rfl, zpow_natCast, ← pow_add]
  have dv : ∀ m : ℤ, |m| < 2 ^ 24 → IsDoubleVal (.fin ((m : ℚ) * u)) := by
    intro m hm
    refine ⟨d m (by omega), ?_⟩
    rw [four_limit, el, abs_mul, abs_of_pos hu0]
    have : |(m : ℚ)| < 2 ^ 24 := by exact_mod_cast hm
    nlinarith
  have key := H rnd h [⟨.fin ((2 ^ 23 : ℤ) * u), .fin 0⟩, ⟨.fin ((2 ^ 23 + 1 : ℤ) * u), .fin 0⟩] ⟨.fin ((2 ^ 23 + 2 : ℤ) * u), .fin 0⟩ (by
    intro q hq
    have d0 : IsDoubleVal (.fin 0) := by simpa using dv 0 (by norm_num)
    simp only [List.cons_append, List.nil_append, List.mem_cons, List.not_mem_nil, or_false] at hq
    rcases hq with rfl | rfl | rfl <;> exact ⟨⟨dv _ (by norm_num), rfl⟩, d0, rfl⟩)
  apply key
  have hsub : ∀ a b : ℤ, |a - b| < 2 ^ 22 → fsub rnd (.fin ((a : ℚ) * u)) (.fin ((b : ℚ) * u)) = .fin (((a - b : ℤ) : ℚ) * u) := by
    intro a b hab
    have e1 : (a : ℚ) * u + -((b : ℚ) * u) = ((a - b : ℤ) : ℚ) * u := by push_cast; ring
    simp only [fsub, Fp.sub, Fp.neg, Fp.add, e1]
    rw [(rounded_fin h (q := ((a - b : ℤ) : ℚ) * u) (by
      rw [el, abs_mul, abs_of_pos hu0]
      have : |((a - b : ℤ) : ℚ)| < 2 ^ 22 := by exact_mod_cast hab
      nlinarith)).1, h.fix (d _ (by omega))]
  have hinf : fadd rnd (.fin ((2 ^ 23 : ℤ) * u)) (.fin ((2 ^ 23 + 2 : ℤ) * u)) = .inf false := by
    have e1 : ((2 ^ 23 : ℤ) : ℚ) * u + ((2 ^ 23 + 2 : ℤ) : ℚ) * u = ((2 ^ 24 + 2 : ℤ) : ℚ) * u := by push_cast; ring
    have e2 : ¬ |((2 ^ 24 + 2 : ℤ) : ℚ) * u| < tooBig := by
      rw [four_limit, el, abs_of_pos (by positivity)]
      push_cast
      nlinarith
    have e3 : ¬ ((2 ^ 24 + 2 : ℤ) : ℚ) * u < 0 := by push_cast; nlinarith
    simp only [fadd, Fp.add, e1, rounded, h.fix (d (2 ^ 24 + 2) (by norm_num)), if_neg e2, e3, decide_false]
  have hmul : ∀ a b : ℤ, a < b → ¬ (b : ℚ) * u ≤ (a : ℚ) * u := by
    intro a b hab hc
    have := le_of_mul_le_mul_right hc hu0
    have : b ≤ a := by exact_mod_cast this
    omega
  have hle : ∀ a b : ℤ, a < b → Fp.le (.fin ((b : ℚ) * u)) (.fin ((a : ℚ) * u)) = false := by
    intro a b hab
    have := hmul a b hab
    simp only [Fp.le, Fp.lt, Fp.eq, Bool.or_eq_false_iff, decide_eq_false_iff_not]
    exact ⟨fun hc => this hc.le, fun hc => this hc.le⟩
  refine three_ub _ _ _ (.inf false) (hle _ _ (by norm_num)) (hle _ _ (by norm_num)) (push_flat h ?_) ?_ (.inl ?_)
  · intro x hx
    simp only [List.mem_cons, List.not_mem_nil, or_false] at hx
    rcases hx with rfl | rfl
    · exact ⟨_, hsub _ _ (by norm_num)⟩
    · exact ⟨_, hsub _ _ (by norm_num)⟩
  · rw [hinf]
    simp [fdiv, Fp.div, rounded]
  · intro x hx
    simp only [List.mem_cons, List.not_mem_nil, or_false] at hx
    rcases hx with rfl | rfl | rfl <;> rfl

/-- **C112** a first remote time that is −∞ or not a number is accepted, and the third observation then reads outside the hull, for all later times. -/
theorem C112_special_negation {rnd : ℚ → ℚ} (h : IsRnd rnd) (x0 : Fp) (h0 : x0 = .inf true ∨ x0 = .nan) (x1 x2 : ℚ) (hlt : x1 < x2) :
    (correct (dbl rnd) (feed (dbl rnd) .fresh [⟨x0, .fin 0⟩, ⟨.fin x1, .fin 0⟩]) (.fin x2) (.fin 0)).1 = .ub := by
  have hz : fsub rnd (.fin 0) (.fin 0) = .fin 0 := by
    simp only [fsub, Fp.sub, Fp.neg, Fp.add, neg_zero, add_zero, rounded_zero h]
  have hle : Fp.le (.fin x2) (.fin x1) = false := by
    simp only [Fp.le, Fp.lt, Fp.eq, Bool.or_eq_false_iff, decide_eq_false_iff_not]
    exact ⟨not_lt.2 hlt.le, hlt.ne'⟩
  refine three_ub x0 _ _ x0 ?_ hle ?_ ?_ (.inr ?_)
  · rcases h0 with rfl | rfl <;> rfl
  · have hd : ∀ a b : ℚ, fdet rnd ⟨x0, .fin 0⟩ ⟨.fin a, .fin 0⟩ ⟨.fin b, .fin 0⟩ = .nan := by
      intro a b
      simp only [fdet, hz]
      rcases h0 with rfl | rfl <;> simp [fsub, fmul, Fp.sub, Fp.neg, Fp.add, Fp.mul, rounded]
    have hn : Fp.le (.fin 0) .nan = false := rfl
    simp [pushHull, isAboveTopLine, popLoop, dbl, hd, hn]
  · rcases h0 with rfl | rfl <;> simp [fadd, Fp.add, fdiv, Fp.div, rounded]
  · intro x hx
    simp only [List.mem_cons, List.not_mem_nil, or_false] at hx
    rcases h0 with rfl | rfl <;> rcases hx with rfl | rfl | rfl <;> rfl

/-- Concrete: the observations (0, 0), (1, 2), (3, 3): the point (1, 2) is dropped. -/
example : ∃ c : Corr Fp, feed (dbl rndNearest) .fresh [⟨.fin 0, .fin 0⟩, ⟨.fin 1, .fin 2⟩, ⟨.fin 3, .fin 3⟩] = c ∧ c.hull = [⟨.fin 0, .fin 0⟩, ⟨.fin 3, .fin 3⟩] ∧
    Bounded limit (.fin 3) := by
  refine ⟨_, rfl, by decide +kernel, 3, rfl, ?_, ?_⟩
  · simpa using isDouble_int 3 (by norm_num)
  · rw [limit, abs_of_pos (by norm_num)]
    calc (3 : ℚ) ≤ 2 ^ 2 := by norm_num
      _ ≤ 2 ^ 1022 := pow_le_pow_right₀ (by norm_num) (by norm_num)

/-- **C112** the query after any observations with remote times of at most 2^1022, for every time asked for (also infinite or not a number): it throws exactly while the hull has fewer than two points; with three or more it
gives the point on the line through two neighbouring points of the hull; with two it does if the segment index is 0, and reads outside the hull otherwise. -/
theorem C112_query_partial {rnd : ℚ → ℚ} (h : IsRnd rnd) (obs : List (Pt Fp)) (hb : ∀ q ∈ obs, Bounded limit q.x) (r : Fp) :
    ∃ c, feed (dbl rnd) .fresh obs = c ∧
    (getLocalTime (dbl rnd) c r = .threw ↔ c.hull.length < 2) ∧
    (3 ≤ c.hull.length → ∃ a b, c.hull[c.mid]? = some a ∧ c.hull[c.mid + 1]? = some b ∧ fval a.x < fval b.x ∧
      getLocalTime (dbl rnd) c r = .value (fadd rnd a.y (fmul rnd (fdiv rnd (fsub rnd b.y a.y) (fsub rnd b.x a.x)) (fsub rnd r a.x)))) ∧
    (∀ a b, c.hull = [a, b] →
      (c.mid = 0 → getLocalTime (dbl rnd) c r = .value (fadd rnd a.y (fmul rnd (fdiv rnd (fsub rnd b.y a.y) (fsub rnd b.x a.x)) (fsub rnd r a.x)))) ∧
      (c.mid ≠ 0 → getLocalTime (dbl rnd) c r = .ub)) := by
  refine ⟨_, rfl, ?_, ?_, ?_⟩
  · unfold getLocalTime
    split
    · simp [*]
    · rename_i hc
      simp only [hc, iff_false]
      split
      · simp [dbl]
      · simp
  · intro hl
    have hseg : ∃ a b, (feed (dbl rnd) .fresh obs).hull[(feed (dbl rnd) .fresh obs).mid]? = some a ∧
        (feed (dbl rnd) .fresh obs).hull[(feed (dbl rnd) .fresh obs).mid + 1]? = some b ∧ fval a.x < fval b.x := by
      induction obs using List.reverseRecOn with
      | nil => simp [feed, Corr.fresh] at hl
      | append_singleton obs p ih =>
        obtain ⟨-, hk, h1, h2⟩ := C112_safe_partial h obs p hb
        rw [feed_snoc] at hl ⊢
        by_cases hc : ∃ q, (accepted fval obs).getLast? = some q ∧ fval p.x ≤ fval q.x
        · rw [h1 hc] at hl ⊢
          exact ih (fun q hq => hb q (by simp [hq])) hl
        · push Not at hc
          obtain ⟨c, ec, -, h3⟩ := h2 hc
          rw [ec] at hl ⊢
          obtain ⟨q, a, b, -, ha, hb', e1, e2, -⟩ := h3 hl
          exact ⟨a, b, ha, hb', e1.trans_le e2⟩
    obtain ⟨a, b, ha, hb', hab⟩ := hseg
    refine ⟨a, b, ha, hb', hab, ?_⟩
    unfold getLocalTime
    rw [if_neg (by omega), ha, hb']
    rfl
  · intro a b e
    constructor
    · intro hm
      simp only [getLocalTime, e, hm]
      rfl
    · intro hm
      obtain ⟨n, hn⟩ := Nat.exists_eq_succ_of_ne_zero hm
      simp [getLocalTime, e, hn]

/-- Concrete: three points in convex position, asked for a time between; and two points. -/
example : ∃ c : Corr Fp, feed (dbl rndNearest) .fresh [⟨.fin 0, .fin 0⟩, ⟨.fin 1, .fin 1⟩, ⟨.fin 2, .fin 4⟩] = c ∧ c.hull.length = 3 ∧
    getLocalTime (dbl rndNearest) c (.fin 3) = .value (.fin 3) ∧
    getLocalTime (dbl rndNearest) (feed (dbl rndNearest) .fresh [⟨.fin 0, .fin 0⟩, ⟨.fin 1, .fin 1⟩]) (.fin 3) = .value (.fin 3) := by
  refine ⟨_, rfl, by decide +kernel, by decide +kernel, by decide +kernel⟩

end Verif.Timing.Machine
