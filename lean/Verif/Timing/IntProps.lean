import Verif.Timing.AccuracyProps

/-!
# C114, C115: `TimestampCorrector<int64_t>`: overflow and accuracy
-/

namespace Verif.Timing.Machine

open Verif.Common
open Verif.Timing.Corrector (Point lineAt cross)

/-- the time as a number -/
def ival (n : ℤ) : ℚ := n

/-- the observation as exact numbers -/
def intQ (p : Pt ℤ) : Point := ⟨p.x, p.y⟩

/-- the observations are close together: remote and local times differ by less than 2^31, and are less than 2^62 and 2^61 themselves; remote times are
less than 2^52, or different ones differ by at least 258 -/
structure Close (obs : List (Pt ℤ)) : Prop where
  x : ∀ p ∈ obs, |p.x| < 2 ^ 62
  y : ∀ p ∈ obs, |p.y| < 2 ^ 61
  dx : ∀ p ∈ obs, ∀ q ∈ obs, |p.x - q.x| < 2 ^ 31
  dy : ∀ p ∈ obs, ∀ q ∈ obs, |p.y - q.y| < 2 ^ 31
  far : (∀ p ∈ obs, |p.x| < 2 ^ 52) ∨ ∀ p ∈ obs, ∀ q ∈ obs, p.x < q.x → 258 ≤ q.x - p.x

theorem fits_of {n : ℤ} (h : |n| < 2 ^ 63) : fits n = some n := by
  have := abs_lt.1 h
  simp only [fits]
  rw [if_pos ⟨this.1.le, this.2⟩]

theorem prod_lt {a b : ℤ} (ha : |a| < 2 ^ 31) (hb : |b| < 2 ^ 31) : |a * b| < 2 ^ 62 := by
  rw [abs_mul]
  have := abs_nonneg a
  have := abs_nonneg b
  nlinarith

/-- the determinant is exact -/
theorem idet_eq {l1 l2 p : Pt ℤ} (h1 : |l2.x - l1.x| < 2 ^ 31) (h2 : |l2.y - l1.y| < 2 ^ 31) (h3 : |p.x - l1.x| < 2 ^ 31) (h4 : |p.y - l1.y| < 2 ^ 31) :
    idet l1 l2 p = some ((l2.x - l1.x) * (p.y - l1.y) - (l2.y - l1.y) * (p.x - l1.x)) := by
  have b : ∀ n : ℤ, |n| < 2 ^ 31 → |n| < 2 ^ 63 := fun n h => h.trans (by norm_num)
  have p1 := prod_lt h1 h4
  have p2 := prod_lt h2 h3
  simp only [idet, fits_of (b _ h1), fits_of (b _ h2), fits_of (b _ h3), fits_of (b _ h4), fits_of (p1.trans (by norm_num)), fits_of (p2.trans (by norm_num)),
    Option.bind_eq_bind, Option.bind_some]
  refine fits_of ((abs_sub _ _).trans_lt ?_)
  omega

theorem above_eq {rnd : ℚ → ℚ} {l1 l2 p : Pt ℤ} (h1 : |l2.x - l1.x| < 2 ^ 31) (h2 : |l2.y - l1.y| < 2 ^ 31) (h3 : |p.x - l1.x| < 2 ^ 31) (h4 : |p.y - l1.y| < 2 ^ 31) :
    (i64 rnd).above l1 l2 p = some (Corrector.isAboveLine (intQ l1) (intQ l2) (intQ p)) := by
  simp only [i64, idet_eq h1 h2 h3 h4, Option.map_some, Corrector.isAboveLine, intQ, Option.some.injEq]
  congr 1
  rw [eq_iff_iff]
  exact_mod_cast Iff.rfl

/-- the midpoint is near the middle -/
theorem mid_near {rnd : ℚ → ℚ} (h : IsRnd rnd) {s : ℤ} (hs : |s| < 2 ^ 63) :
    ∃ S : ℚ, rnd (rnd s / 2) = S / 2 ∧ |S - s| ≤ 512 ∧ (|s| < 2 ^ 53 → S = s) := by
  refine ⟨rnd s, ?_, ?_, fun hs => h.fix (isDouble_int s hs)⟩
  · by_cases hc : |s| < 2 ^ 53
    · rw [h.fix (isDouble_int s hc)]
      exact h.fix ⟨s, -1, hc, by norm_num, by rw [zpow_neg, zpow_one]; ring⟩
    · refine h.fix ?_
      rcases half_double (h.mem s) with hd | ⟨n, e, hn⟩
      · exact hd
      · exfalso
        have h1 : (2 : ℚ) ^ 53 ≤ |rnd s| := by
          have hd : IsDouble ((2 : ℚ) ^ 53) := by
            have := isDouble_pow 53 (by norm_num)
            exact_mod_cast this
          push Not at hc
          rcases le_abs.1 hc with hc | hc
          · exact (h.ge_of_ge hd (by exact_mod_cast hc)).trans (le_abs_self _)
          · refine le_trans ?_ (neg_le_abs _)
            have : rnd s ≤ -2 ^ 53 := h.le_of_le hd.neg (by have : ((2 ^ 53 : ℤ) : ℚ) ≤ ((-s : ℤ) : ℚ) := by exact_mod_cast hc
                                                            push_cast at this; linarith)
            linarith
        rw [e, abs_mul, abs_of_pos (by positivity : (0 : ℚ) < 2 ^ (-1074 : ℤ))] at h1
        have h2 : |(n : ℚ)| < 2 ^ 53 := by exact_mod_cast hn
        have h3 : (2 : ℚ) ^ (-1074 : ℤ) ≤ 2 ^ (0 : ℤ) := zpow_le_zpow_right₀ (by norm_num) (by norm_num)
        rw [zpow_zero] at h3
        have h4 : (0 : ℚ) < 2 ^ (-1074 : ℤ) := by positivity
        generalize (2 : ℚ) ^ (-1074 : ℤ) = t at *
        nlinarith [abs_nonneg (n : ℚ)]
  · have := h.err_abs (x := (s : ℚ)) (e := 10) (by norm_num) (by
      have : |(s : ℚ)| < 2 ^ 63 := by exact_mod_cast hs
      refine this.le.trans (by norm_num))
    refine this.trans (by norm_num)

theorem trunc_between {x : ℚ} {a b : ℤ} (h1 : (a : ℚ) ≤ x) (h2 : x ≤ b) : a ≤ trunc x ∧ trunc x ≤ b := by
  have m1 := Corrector.trunc_mono h1
  have m2 := Corrector.trunc_mono h2
  rw [trunc_int] at m1 m2
  exact ⟨m1, m2⟩

/-- the value on a line fits -/
theorem line_fits {rnd : ℚ → ℚ} (h : IsRnd rnd) {y dy dx d : ℤ} (hy : |y| < 2 ^ 61) (hdy : |dy| < 2 ^ 31) (hdx : 0 < dx) (hd : |d| < 2 ^ 31) :
    |rnd (rnd y + rnd (rnd (rnd dy / rnd dx) * rnd d))| ≤ 2 ^ 61 + 2 ^ 62 := by
  have cast : ∀ (n : ℤ) (k : ℕ), |n| < 2 ^ k → |(n : ℚ)| ≤ 2 ^ k := by
    intro n k hn
    have : |(n : ℚ)| < 2 ^ k := by exact_mod_cast hn
    exact this.le
  have b1 := rnd_abs_le h (cast y 61 hy)
  have b2 := rnd_abs_le h (cast dy 31 hdy)
  have b3 : 1 ≤ rnd dx := by
    have := h.ge_of_ge (isDouble_int 1 (by norm_num)) (show ((1 : ℤ) : ℚ) ≤ dx by exact_mod_cast hdx)
    simpa using this
  have b4 := rnd_abs_le h (cast d 31 hd)
  have b5 : |rnd dy / rnd dx| ≤ 2 ^ 31 := by
    rw [abs_div, abs_of_pos (by linarith : 0 < rnd dx), div_le_iff₀ (by linarith)]
    nlinarith
  have b6 := rnd_abs_le h b5
  have b7 : |rnd (rnd dy / rnd dx) * rnd d| ≤ 2 ^ 62 := by
    rw [abs_mul, show (2 : ℚ) ^ 62 = 2 ^ 31 * 2 ^ 31 by norm_num]
    gcongr
  have b8 := rnd_abs_le h b7
  have b9 : |rnd y + rnd (rnd (rnd dy / rnd dx) * rnd d)| ≤ 2 ^ 61 + 2 ^ 62 := (abs_add_le _ _).trans (by linarith)
  have hd : IsDouble ((2 : ℚ) ^ 61 + 2 ^ 62) := ⟨3, 61, by norm_num, by norm_num, by norm_num⟩
  exact abs_le.2 ⟨h.ge_of_ge hd.neg (abs_le.1 b9).1, h.le_of_le hd (abs_le.1 b9).2⟩

theorem line_eq {rnd : ℚ → ℚ} (h : IsRnd rnd) {a b : Pt ℤ} {r : ℤ} (hy : |a.y| < 2 ^ 61) (hdy : |b.y - a.y| < 2 ^ 31) (hdx : |b.x - a.x| < 2 ^ 31) (hlt : a.x < b.x)
    (hd : |r - a.x| < 2 ^ 31) :
    (i64 rnd).line a b r = some (trunc (rnd (rnd a.y + rnd (rnd (rnd (b.y - a.y : ℤ) / rnd (b.x - a.x : ℤ)) * rnd (r - a.x : ℤ))))) := by
  have e : ∀ n : ℤ, |n| < 2 ^ 31 → fits n = some n := fun n hn => fits_of (hn.trans (by norm_num))
  simp only [i64, e _ hdy, e _ hdx, e _ hd, Option.bind_eq_bind, Option.bind_some]
  rw [if_neg (by omega)]
  have hb := abs_le.1 (line_fits h hy hdy (by omega : 0 < b.x - a.x) hd)
  have := trunc_between (x := rnd (rnd a.y + rnd (rnd (rnd (b.y - a.y : ℤ) / rnd (b.x - a.x : ℤ)) * rnd (r - a.x : ℤ)))) (a := -(2 ^ 61 + 2 ^ 62)) (b := 2 ^ 61 + 2 ^ 62) (by
    have : ((-(2 ^ 61 + 2 ^ 62) : ℤ) : ℚ) = -(2 ^ 61 + 2 ^ 62) := by norm_num
    rw [this]; exact hb.1) (by
    have : ((2 ^ 61 + 2 ^ 62 : ℤ) : ℚ) = 2 ^ 61 + 2 ^ 62 := by norm_num
    rw [this]; exact hb.2)
  exact fits_of (abs_lt.2 ⟨by omega, by omega⟩)

/-- close observations are safe -/
theorem i64_safe {rnd : ℚ → ℚ} (h : IsRnd rnd) {obs : List (Pt ℤ)} (hc : Close obs) : Safe (i64 rnd) ival fun p => p ∈ obs where
  le := by
    intro p q _ _
    simp only [i64, ival, Int.cast_le]
  above := fun a b c ha hb hc' => by
    rw [above_eq (hc.dx b hb a ha) (hc.dy b hb a ha) (hc.dx c hc' a ha) (hc.dy c hc' a ha)]
    simp
  mid := by
    intro a b c ha hb hc' h1 h2
    simp only [ival, Int.cast_lt] at h1 h2
    have xa := abs_lt.1 (hc.x a ha)
    have xc := abs_lt.1 (hc.x c hc')
    have hs : |a.x + c.x| < 2 ^ 63 := abs_lt.2 ⟨by omega, by omega⟩
    obtain ⟨S, e, hS, hS'⟩ := mid_near h hs
    have hin : ((a.x + 1 : ℤ) : ℚ) ≤ S / 2 ∧ S / 2 ≤ (c.x : ℤ) := by
      rcases hc.far with hf | hf
      · have f1 := abs_lt.1 (hf a ha)
        have f2 := abs_lt.1 (hf c hc')
        rw [hS' (abs_lt.2 ⟨by omega, by omega⟩)]
        have : ((2 * (a.x + 1) : ℤ) : ℚ) ≤ ((a.x + c.x : ℤ) : ℚ) := by exact_mod_cast (by omega : 2 * (a.x + 1) ≤ a.x + c.x)
        have h3 : ((a.x + c.x : ℤ) : ℚ) ≤ ((2 * c.x : ℤ) : ℚ) := by exact_mod_cast (by omega : a.x + c.x ≤ 2 * c.x)
        push_cast at this h3 ⊢
        constructor <;> linarith
      · have f1 := hf a ha b hb h1
        have f2 := hf b hb c hc' h2
        have hS2 := abs_le.1 hS
        have : ((2 * (a.x + 1) : ℤ) : ℚ) ≤ ((a.x + c.x - 512 : ℤ) : ℚ) := by exact_mod_cast (by omega : 2 * (a.x + 1) ≤ a.x + c.x - 512)
        have h3 : ((a.x + c.x + 512 : ℤ) : ℚ) ≤ ((2 * c.x : ℤ) : ℚ) := by exact_mod_cast (by omega : a.x + c.x + 512 ≤ 2 * c.x)
        push_cast at this h3 hS2 ⊢
        constructor <;> linarith
    have ht := trunc_between hin.1 hin.2
    refine ⟨trunc (S / 2), ?_, ?_, ?_, ?_⟩
    · simp only [i64, fits_of hs, Option.bind_eq_bind, Option.bind_some, toInt, e]
      exact fits_of (abs_lt.2 ⟨by omega, by omega⟩)
    · simp only [ival, Int.cast_lt]; omega
    · simp only [ival, Int.cast_le]; exact ht.2
    · intro q _
      simp only [i64, ival, Int.cast_lt]
  line := by
    intro a b c ha hb hc' h1
    simp only [ival, Int.cast_lt] at h1
    rw [line_eq h (hc.y a ha) (hc.dy b hb a ha) (hc.dx b hb a ha) h1 (hc.dx c hc' a ha)]
    simp

/-! ## The hull is exact -/

theorem popLoop_exact {rnd : ℚ → ℚ} {obs : List (Pt ℤ)} (hc : Close obs) {p : Pt ℤ} (hp : p ∈ obs) : ∀ st : List (Pt ℤ), (∀ q ∈ st, q ∈ obs) →
    ∃ st', popLoop (i64 rnd) p st = some st' ∧ st'.map intQ = Corrector.popLoop (intQ p) (st.map intQ)
  | [], _ => ⟨[], rfl, rfl⟩
  | [t], _ => ⟨[t], rfl, rfl⟩
  | t :: a :: r, h => by
    have ha : a ∈ obs := h a (by simp)
    have ht : t ∈ obs := h t (by simp)
    have e := above_eq (rnd := rnd) (hc.dx p hp a ha) (hc.dy p hp a ha) (hc.dx t ht a ha) (hc.dy t ht a ha)
    obtain ⟨st', e1, e2⟩ := popLoop_exact hc hp (a :: r) fun q hq => h q (List.mem_cons_of_mem _ hq)
    simp only [popLoop, e, List.map_cons, Corrector.popLoop]
    cases hb : Corrector.isAboveLine (intQ a) (intQ p) (intQ t) with
    | true => exact ⟨st', e1, by simpa using e2⟩
    | false => exact ⟨t :: a :: r, rfl, by simp⟩

theorem pushHull_exact {rnd : ℚ → ℚ} {obs : List (Pt ℤ)} (hc : Close obs) {p : Pt ℤ} (hp : p ∈ obs) {hull : List (Pt ℤ)} (hh : ∀ q ∈ hull, q ∈ obs) :
    ∃ h', pushHull (i64 rnd) hull p = some h' ∧ h'.map intQ = Corrector.pushHull (hull.map intQ) (intQ p) := by
  have htop : isAboveTopLine (i64 rnd) hull.reverse p = some (Corrector.isAboveTopLine (hull.map intQ).reverse (intQ p)) := by
    rw [← List.map_reverse]
    cases e : hull.reverse with
    | nil => rfl
    | cons t r =>
      cases r with
      | nil => rfl
      | cons a r =>
        have ht : t ∈ obs := hh t (by rw [← List.mem_reverse, e]; simp)
        have ha : a ∈ obs := hh a (by rw [← List.mem_reverse, e]; simp)
        simp only [isAboveTopLine, List.map_cons, Corrector.isAboveTopLine]
        exact above_eq (hc.dx t ht a ha) (hc.dy t ht a ha) (hc.dx p hp a ha) (hc.dy p hp a ha)
  simp only [pushHull, htop, Corrector.pushHull]
  cases Corrector.isAboveTopLine (hull.map intQ).reverse (intQ p) with
  | true => exact ⟨_, rfl, by simp⟩
  | false =>
    obtain ⟨st', e1, e2⟩ := popLoop_exact (rnd := rnd) hc hp hull.reverse fun q hq => hh q (by simpa using hq)
    refine ⟨st'.reverse ++ [p], by rw [e1]; rfl, ?_⟩
    simp [e2, List.map_reverse]

theorem feed_exact {rnd : ℚ → ℚ} (h : IsRnd rnd) (cast : ℚ → ℚ) {all : List (Pt ℤ)} (hc : Close all) (obs : List (Pt ℤ)) (ho : ∀ p ∈ obs, p ∈ all) :
    (feed (i64 rnd) .fresh obs).hull.map intQ = (Corrector.feed cast .fresh (obs.map intQ)).hull := by
  have hS := i64_safe h hc
  induction obs using List.reverseRecOn with
  | nil => rfl
  | append_singleton obs p ih =>
    have ho' : ∀ q ∈ obs, q ∈ all := fun q hq => ho q (by simp [hq])
    have ih := ih ho'
    have hk := feed_kept hS obs ho'
    have hs := step hS hk (fun q hq => ho' q (accepted_subset _ _ q hq)) (ho p (by simp))
    have hmem : ∀ q ∈ (feed (i64 rnd) .fresh obs).hull, q ∈ all := fun q hq => ho' q (accepted_subset _ _ q (hk.sub.subset hq))
    rw [feed_snoc, List.map_append, List.map_singleton, Corrector.feed_snoc]
    set H := (feed (i64 rnd) .fresh obs).hull with hH
    -- both refuse the same
    have hrej : Corrector.rejects (Corrector.feed cast .fresh (obs.map intQ)).hull (intQ p).x = true ↔ ∃ q, H.getLast? = some q ∧ ival p.x ≤ ival q.x := by
      rw [← ih]
      simp only [Corrector.rejects, List.getLast?_map]
      cases H.getLast? with
      | none => simp
      | some q => simp [intQ, ival]
    by_cases hr : ∃ q, H.getLast? = some q ∧ ival p.x ≤ ival q.x
    · rw [hs.1 (by rw [← hk.last]; exact hr)]
      rw [Corrector.correct, if_pos (hrej.2 hr)]
      exact ih
    · have hr' := hr
      push Not at hr'
      obtain ⟨h', e1, e2, -⟩ := hs.2 (by rw [← hk.last]; exact hr')
      obtain ⟨h'', e3, e4⟩ := pushHull_exact (rnd := rnd) hc (ho p (by simp)) hmem
      rw [e1, Option.some.injEq] at e3
      subst e3
      rw [e2, e4, ih, Corrector.correct, if_neg (by rw [hrej]; exact hr)]
      dsimp only
      split_ifs <;> rfl

/-! ## C114 -/

/-- **C114** (claim) With `int64_t` times `correctTimestamp` has no undefined behaviour. -/
def C114_claim : Prop := ∀ (rnd : ℚ → ℚ), IsRnd rnd → ∀ (obs : List (Pt ℤ)) (p : Pt ℤ), (∀ q ∈ obs ++ [p], |q.x| < 2 ^ 62 ∧ |q.y| < 2 ^ 62) →
  (correct (i64 rnd) (feed (i64 rnd) .fresh obs) p.x p.y).1 ≠ .ub

/-- **C114** for times within 2^31 of each other (2.1 seconds of nanoseconds) and remote times that are small or 258 apart there is no undefined behaviour: an observation that is not later than the
last accepted one is refused and changes nothing, and the hull is exactly the lower hull of the accepted ones.  With fewer than three points the result is the local time, and else it is the rounded value of the line through two neighbours of
the hull around the computed midpoint. -/
theorem C114_safe_partial {rnd : ℚ → ℚ} (h : IsRnd rnd) (obs : List (Pt ℤ)) (p : Pt ℤ) (hc : Close (obs ++ [p])) :
    (correct (i64 rnd) (feed (i64 rnd) .fresh obs) p.x p.y).1 ≠ .ub ∧
    Corrector.IsLowerHull (Corrector.accepted (obs.map intQ)) ((feed (i64 rnd) .fresh obs).hull.map intQ) ∧
    ((∃ q, (feed (i64 rnd) .fresh obs).hull.getLast? = some q ∧ p.x ≤ q.x) →
      correct (i64 rnd) (feed (i64 rnd) .fresh obs) p.x p.y = (.threw, feed (i64 rnd) .fresh obs)) ∧
    ((∀ q, (feed (i64 rnd) .fresh obs).hull.getLast? = some q → q.x < p.x) →
      ∃ c, (correct (i64 rnd) (feed (i64 rnd) .fresh obs) p.x p.y).2 = c ∧
        (c.hull.length < 3 → (correct (i64 rnd) (feed (i64 rnd) .fresh obs) p.x p.y).1 = .value p.y) ∧
        (3 ≤ c.hull.length → ∃ q a b, c.hull.head? = some q ∧ c.hull[c.mid]? = some a ∧ c.hull[c.mid + 1]? = some b ∧
          a.x < trunc (rnd (rnd (q.x + p.x : ℤ) / 2)) ∧ trunc (rnd (rnd (q.x + p.x : ℤ) / 2)) ≤ b.x ∧
          (correct (i64 rnd) (feed (i64 rnd) .fresh obs) p.x p.y).1 =
            .value (trunc (rnd (rnd a.y + rnd (rnd (rnd (b.y - a.y : ℤ) / rnd (b.x - a.x : ℤ)) * rnd (p.x - a.x : ℤ))))))) := by
  have hS := i64_safe h hc
  have hV : ∀ q ∈ obs, q ∈ obs ++ [p] := fun q hq => by simp [hq]
  have hk := feed_kept hS obs hV
  have hs := step hS hk (fun q hq => hV q (accepted_subset _ _ q hq)) (show p ∈ obs ++ [p] by simp)
  have hx := feed_exact h id hc obs hV
  refine ⟨?_, ?_, ?_, ?_⟩
  · by_cases hr : ∃ q, (accepted ival obs).getLast? = some q ∧ ival p.x ≤ ival q.x
    · rw [hs.1 hr]; simp
    · push Not at hr
      obtain ⟨h', -, h2, h3, h4, h5⟩ := hs.2 hr
      by_cases hl : 3 ≤ h'.length
      · obtain ⟨q, m, a, b, v, -, -, -, -, -, -, -, e⟩ := h5 hl
        rw [e]; simp
      · rw [h4 (by omega)]; simp
  · rw [hx]
    exact (Corrector.C42_hull id _).1
  · rintro ⟨q, hq, hle⟩
    exact hs.1 ⟨q, by rw [← hk.last]; exact hq, by simp only [ival, Int.cast_le]; exact hle⟩
  · intro hlt
    obtain ⟨h', -, h2, h3, h4, h5⟩ := hs.2 (fun q hq => by simp only [ival, Int.cast_lt]; exact hlt q (by rw [hk.last]; exact hq))
    refine ⟨_, rfl, fun hl => h4 (by rw [← h2]; exact hl), fun hl => ?_⟩
    obtain ⟨q, m, a, b, v, hq, hm, ha, hb', h6, h7, h8, e⟩ := h5 (by rw [← h2]; exact hl)
    have hin : ∀ x ∈ h', x ∈ obs ++ [p] := by
      intro x hx
      rcases List.mem_append.1 (h3.sub.subset hx) with hx | hx
      · exact hV x (accepted_subset _ _ x hx)
      · simp only [List.mem_singleton] at hx; simp [hx]
    have hqm := hin q (List.mem_of_mem_head? (by rw [hq]; rfl))
    have ham := hin a (by rw [h2] at ha; exact List.mem_of_getElem? ha)
    have hbm := hin b (by rw [h2] at hb'; exact List.mem_of_getElem? hb')
    have hpm : p ∈ obs ++ [p] := by simp
    refine ⟨q, a, b, by rw [h2]; exact hq, ha, hb', ?_⟩
    have hm' : m = trunc (rnd (rnd (q.x + p.x : ℤ) / 2)) := by
      have x1 := abs_lt.1 (hc.x q hqm)
      have x2 := abs_lt.1 (hc.x p hpm)
      simp only [i64, fits_of (abs_lt.2 ⟨by omega, by omega⟩ : |q.x + p.x| < 2 ^ 63), Option.bind_eq_bind, Option.bind_some] at hm
      simp only [toInt, fits] at hm
      split_ifs at hm
      exact (Option.some.inj hm).symm
    simp only [ival, Int.cast_lt, Int.cast_le] at h6 h7
    rw [← hm']
    refine ⟨h6, h7, ?_⟩
    have hlt' : a.x < b.x := by omega
    rw [line_eq h (hc.y a ham) (hc.dy b hbm a ham) (hc.dx b hbm a ham) hlt' (hc.dx p hpm a ham), Option.some.injEq] at h8
    rw [e, h8]

/-- **C114** nanoseconds over eight seconds: the products in the comparison with a line overflow. -/
theorem C114_negation : ¬ C114_claim := by
  intro H
  exact H rndNearest isRnd_rndNearest [⟨0, 0⟩, ⟨4000000000, 4000000000⟩] ⟨8000000000, 8000000000⟩ (by
    intro q hq
    simp only [List.cons_append, List.nil_append, List.mem_cons, List.not_mem_nil, or_false] at hq
    rcases hq with rfl | rfl | rfl <;> norm_num) (by decide +kernel)

/-- **C114** remote times next to each other near 2^60: the midpoint is rounded to a time before the first point, and the index of the piece of the hull wraps around. -/
theorem C114_midpoint_negation : (correct (i64 rndNearest) (feed (i64 rndNearest) .fresh [⟨2 ^ 60 + 1, 0⟩, ⟨2 ^ 60 + 2, 0⟩]) (2 ^ 60 + 3) 0).1 = .ub := by
  decide +kernel

/-- Concrete: nanoseconds near 2^60. -/
example : Close [⟨2 ^ 60 + 1, 2 ^ 60 + 100⟩, ⟨2 ^ 60 + 1001, 2 ^ 60 + 1100⟩, ⟨2 ^ 60 + 2001, 2 ^ 60 + 2100⟩] := by
  constructor <;> simp

/-! ## C115 -/

theorem i64_line_err {rnd : ℚ → ℚ} (h : IsRnd rnd) {y dy dx d : ℤ} (hy : |y| < 2 ^ 61) (hdy : |dy| < 2 ^ 31) (hdx : 0 < dx) (hdx' : |dx| < 2 ^ 31) (hd : |d| < 2 ^ 31) :
    |((trunc (rnd (rnd y + rnd (rnd (rnd dy / rnd dx) * rnd d))) : ℤ) : ℚ) - (y + (dy : ℚ) / dx * d)| <
      1 + (|(y : ℚ) + (dy : ℚ) / dx * d| + 2 * |(y : ℚ)| + 4 * |(dy : ℚ) / dx * d|) / 2 ^ 53 + 2 ^ 34 * tiny := by
  have t0 := tiny_pos
  have fx : ∀ n : ℤ, |n| < 2 ^ 31 → rnd n = n := fun n hn => h.fix (isDouble_int n (hn.trans (by norm_num)))
  rw [fx dy hdy, fx dx hdx', fx d hd]
  have hdq : |(d : ℚ)| < 2 ^ 31 := by exact_mod_cast hd
  set s : ℚ := (dy : ℚ) / dx with hs
  set e : ℚ := (d : ℚ) with he
  have ps := abs_nonneg s
  have pe := abs_nonneg e
  have pse : 0 ≤ |s| * |e| := by positivity
  have e1 := h.err_any s
  set q := rnd s with hq
  have e2 : |q * e - s * e| ≤ |s| * |e| / 2 ^ 53 + tiny * |e| := by
    rw [← sub_mul, abs_mul]
    have : |q - s| * |e| ≤ (|s| / 2 ^ 53 + tiny) * |e| := by gcongr
    linarith
  have e3 := h.err_any (q * e)
  set m := rnd (q * e) with hm
  have a2 : |q * e| ≤ |s| * |e| * (1 + 1 / 2 ^ 53) + tiny * |e| := by
    have : q * e = (q * e - s * e) + s * e := by ring
    rw [this]
    refine (abs_add_le _ _).trans ?_
    rw [abs_mul s e]
    linarith
  have hte : tiny * |e| ≤ tiny * 2 ^ 31 := by gcongr
  have e4 : |m - s * e| ≤ |s| * |e| * 3 / 2 ^ 53 + 2 ^ 33 * tiny := by
    have : m - s * e = (m - q * e) + (q * e - s * e) := by ring
    rw [this]
    refine (abs_add_le _ _).trans ?_
    have a3 : |q * e| / 2 ^ 53 ≤ (|s| * |e| * (1 + 1 / 2 ^ 53) + tiny * |e|) / 2 ^ 53 := by gcongr
    nlinarith
  have e5 : |rnd y - y| ≤ |(y : ℚ)| / 2 ^ 53 := h.err_mult ⟨y * 2 ^ 1074, by
    push_cast
    rw [zpow_neg, mul_assoc, show (2 : ℚ) ^ 1074 * (2 ^ (1074 : ℤ))⁻¹ = 1 by
      rw [show (2 : ℚ) ^ (1074 : ℤ) = 2 ^ (1074 : ℕ) from zpow_natCast _ _]
      exact mul_inv_cancel₀ (by positivity), mul_one]⟩
  have e6 := h.err_add (h.mem y) (h.mem (q * e))
  rw [← hm] at e6
  have py := abs_nonneg (y : ℚ)
  have a5 : |rnd y + m - (y + s * e)| ≤ |(y : ℚ)| / 2 ^ 53 + (|s| * |e| * 3 / 2 ^ 53 + 2 ^ 33 * tiny) := by
    have : rnd y + m - (y + s * e) = (rnd y - y) + (m - s * e) := by ring
    rw [this]
    exact (abs_add_le _ _).trans (by linarith)
  have a6 : |rnd y + m| ≤ |y + s * e| + |rnd y + m - (y + s * e)| := by
    have : rnd y + m = (y + s * e) + (rnd y + m - (y + s * e)) := by ring
    conv_lhs => rw [this]
    exact abs_add_le _ _
  have e7 := trunc_err (rnd (rnd y + m))
  have : ((trunc (rnd (rnd y + m)) : ℤ) : ℚ) - (y + s * e) =
      (((trunc (rnd (rnd y + m)) : ℤ) : ℚ) - rnd (rnd y + m)) + (rnd (rnd y + m) - (rnd y + m)) + (rnd y + m - (y + s * e)) := by ring
  rw [this]
  have b1 := abs_add_le ((((trunc (rnd (rnd y + m)) : ℤ) : ℚ) - rnd (rnd y + m)) + (rnd (rnd y + m) - (rnd y + m))) (rnd y + m - (y + s * e))
  have b2 := abs_add_le (((trunc (rnd (rnd y + m)) : ℤ) : ℚ) - rnd (rnd y + m)) (rnd (rnd y + m) - (rnd y + m))
  have a7 : |rnd y + m| / 2 ^ 53 ≤ (|y + s * e| + (|(y : ℚ)| / 2 ^ 53 + (|s| * |e| * 3 / 2 ^ 53 + 2 ^ 33 * tiny))) / 2 ^ 53 := by gcongr; linarith
  rw [abs_mul s e]
  nlinarith

/-- **C115** (claim) the returned local time differs from the value of the line by less than one unit. -/
def C115_claim : Prop := ∀ (rnd : ℚ → ℚ), IsRnd rnd → ∀ (obs : List (Pt ℤ)) (p : Pt ℤ), Close (obs ++ [p]) →
  ∀ (c : Corr ℤ) (a b : Pt ℤ) (V : ℤ), correct (i64 rnd) (feed (i64 rnd) .fresh obs) p.x p.y = (.value V, c) → c.hull[c.mid]? = some a → c.hull[c.mid + 1]? = some b →
    |(V : ℚ) - lineAt (intQ a) (intQ b) p.x| < 1

/-- **C115** the returned local time differs from the value of the line through the two neighbours of the hull by less than one unit plus the sizes of the numbers involved times 2^-53. -/
theorem C115_accuracy_partial {rnd : ℚ → ℚ} (h : IsRnd rnd) (obs : List (Pt ℤ)) (p : Pt ℤ) (hc : Close (obs ++ [p]))
    (hacc : ∀ q, (feed (i64 rnd) .fresh obs).hull.getLast? = some q → q.x < p.x)
    (hl : 3 ≤ (correct (i64 rnd) (feed (i64 rnd) .fresh obs) p.x p.y).2.hull.length) :
    ∃ c a b V, correct (i64 rnd) (feed (i64 rnd) .fresh obs) p.x p.y = (.value V, c) ∧ c.hull[c.mid]? = some a ∧ c.hull[c.mid + 1]? = some b ∧
      |(V : ℚ) - lineAt (intQ a) (intQ b) p.x| <
        1 + (|lineAt (intQ a) (intQ b) p.x| + 2 * |(a.y : ℚ)| + 4 * |lineAt (intQ a) (intQ b) p.x - a.y|) / 2 ^ 53 + 2 ^ 34 * tiny := by
  obtain ⟨-, -, -, hs⟩ := C114_safe_partial h obs p hc
  obtain ⟨c, ec, -, hs⟩ := hs hacc
  rw [ec] at hl
  obtain ⟨q, a, b, -, ha, hb, h1, h2, hv⟩ := hs hl
  have hS := i64_safe h hc
  have hk := feed_kept hS (obs ++ [p]) fun q hq => hq
  rw [feed_snoc, ec] at hk
  have hin : ∀ x ∈ c.hull, x ∈ obs ++ [p] := fun x hx => accepted_subset _ _ x (hk.sub.subset hx)
  have ham := hin a (List.mem_of_getElem? ha)
  have hbm := hin b (List.mem_of_getElem? hb)
  have hpm : p ∈ obs ++ [p] := by simp
  refine ⟨c, a, b, _, Prod.ext hv ec, ha, hb, ?_⟩
  have := i64_line_err h (hc.y a ham) (hc.dy b hbm a ham) (by omega : 0 < b.x - a.x) (hc.dx b hbm a ham) (hc.dx p hpm a ham)
  have e : lineAt (intQ a) (intQ b) p.x = (a.y : ℚ) + ((b.y - a.y : ℤ) : ℚ) / ((b.x - a.x : ℤ) : ℚ) * ((p.x - a.x : ℤ) : ℚ) := by
    simp only [lineAt, intQ]
    push_cast
    rfl
  rw [e]
  simp only [add_sub_cancel_left]
  exact this

/-- **C115** nanoseconds near 2^60: a clock that always reads 2^60 + 100 is corrected to 2^60. -/
theorem C115_negation : ¬ C115_claim := by
  intro H
  have := H rndNearest isRnd_rndNearest [⟨0, 2 ^ 60 + 100⟩, ⟨1000, 2 ^ 60 + 100⟩] ⟨2000, 2 ^ 60 + 100⟩ (by constructor <;> simp)
    ⟨[⟨0, 2 ^ 60 + 100⟩, ⟨1000, 2 ^ 60 + 100⟩, ⟨2000, 2 ^ 60 + 100⟩], 0⟩ ⟨0, 2 ^ 60 + 100⟩ ⟨1000, 2 ^ 60 + 100⟩ (2 ^ 60) (by decide +kernel) rfl rfl
  revert this
  decide +kernel

end Verif.Timing.Machine
