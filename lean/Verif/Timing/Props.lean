import Verif.Timing.Lemmas
import Verif.Common.Double
import Mathlib.Tactic.NormNum
import Mathlib.Tactic.Positivity
import Mathlib.Tactic.GCongr

/-!
# Times and timers (C37–C41)
-/

namespace Verif.Timing

open Verif.Common

/-! ## C37 -/

/-- **C37** With a system clock that counts nanoseconds the conversions are inverse to each other, both
ways. -/
theorem C37_chrono (t : ℤ) : chronoToNsec 1 (nsecToChrono 1 t) = t ∧ nsecToChrono 1 (chronoToNsec 1 t) = t := by
  simp [chronoToNsec, nsecToChrono, tdiv]

/-- **C37** With a coarser clock (`p` nanoseconds per tick) a time point survives the round trip through
nanoseconds, a nanosecond time is cut towards zero to a whole number of ticks. -/
theorem C37_chrono_coarse (p : ℤ) (hp : 0 < p) (t : ℤ) :
    nsecToChrono p (chronoToNsec p t) = t ∧
    |chronoToNsec p (nsecToChrono p t)| ≤ |t| ∧ |t - chronoToNsec p (nsecToChrono p t)| < p ∧
    (chronoToNsec p (nsecToChrono p t) = t ↔ p ∣ t) := by
  unfold chronoToNsec nsecToChrono tdiv
  have h := Int.tmod_add_tdiv_mul t p
  have hm := Int.tmod_lt_of_pos t hp
  have hm' : -p < t.tmod p := by
    have := Int.tmod_lt_of_pos (-t) hp
    rw [Int.neg_tmod] at this; omega
  refine ⟨Int.mul_tdiv_cancel _ hp.ne', ?_, ?_, ?_⟩
  · rcases le_or_gt 0 t with h0 | h0
    · have h1 := Int.tmod_nonneg p h0
      have h2 : 0 ≤ t.tdiv p * p := mul_nonneg (Int.tdiv_nonneg h0 hp.le) hp.le
      rw [abs_of_nonneg h0, abs_of_nonneg h2]; omega
    · have h1 : t.tmod p ≤ 0 := by
        have := Int.tmod_nonneg p (show 0 ≤ -t by omega)
        rw [Int.neg_tmod] at this; omega
      have h2 : t.tdiv p * p ≤ 0 := by
        have : 0 ≤ (-t).tdiv p := Int.tdiv_nonneg (by omega) hp.le
        rw [Int.neg_tdiv] at this
        nlinarith
      rw [abs_of_neg h0, abs_of_nonpos h2]; omega
  · have : t - t.tdiv p * p = t.tmod p := by omega
    rw [this, abs_lt]; exact ⟨hm', hm⟩
  · constructor
    · intro e; exact Dvd.intro_left _ e
    · rintro ⟨k, rfl⟩; rw [Int.mul_tdiv_cancel_left _ hp.ne', mul_comm]

theorem trunc_spec (x : ℚ) :
    (0 ≤ x → 0 ≤ trunc x ∧ (trunc x : ℚ) ≤ x ∧ x < trunc x + 1) ∧
    (x ≤ 0 → trunc x ≤ 0 ∧ x ≤ trunc x ∧ (trunc x : ℚ) - 1 < x) := by
  unfold trunc
  constructor
  · intro h
    rw [if_pos h]
    exact ⟨Int.floor_nonneg.2 h, Int.floor_le x, Int.lt_floor_add_one x⟩
  · intro h
    by_cases h0 : 0 ≤ x
    · have : x = 0 := le_antisymm h h0
      subst this; simp
    · rw [if_neg h0]
      refine ⟨?_, Int.le_ceil x, ?_⟩
      · exact Int.ceil_le.2 (by simpa using h)
      · have := Int.ceil_lt_add_one x; linarith

theorem trunc_err (x : ℚ) : |(trunc x : ℚ) - x| < 1 := by
  rcases le_total 0 x with h | h
  · obtain ⟨_, h1, h2⟩ := (trunc_spec x).1 h
    rw [abs_lt]; constructor <;> linarith
  · obtain ⟨_, h1, h2⟩ := (trunc_spec x).2 h
    rw [abs_lt]; constructor <;> linarith

theorem trunc_int (n : ℤ) : trunc (n : ℚ) = n := by
  unfold trunc; split <;> simp

/-- **C37** In exact arithmetic seconds and nanoseconds round-trip; a fraction of a nanosecond is cut off
towards zero. -/
theorem C37_seconds (t : ℤ) (s : ℚ) :
    secToNsec id (nsecToSec id (1 / 1000000000) t) = t ∧
    (0 ≤ s → (secToNsec id s : ℚ) ≤ s * 10 ^ 9 ∧ s * 10 ^ 9 < secToNsec id s + 1) ∧
    (s ≤ 0 → s * 10 ^ 9 ≤ secToNsec id s ∧ (secToNsec id s : ℚ) - 1 < s * 10 ^ 9) := by
  have e : (10 : ℚ) ^ 9 = 1000000000 := by norm_num
  refine ⟨?_, ?_, ?_⟩
  · unfold secToNsec nsecToSec
    simp only [id]
    rw [show (t : ℚ) * (1 / 1000000000) * 1000000000 = t by ring]
    exact trunc_int t
  · intro h
    obtain ⟨_, h1, h2⟩ := (trunc_spec (s * 1000000000)).1 (by positivity)
    rw [e]; exact ⟨h1, h2⟩
  · intro h
    obtain ⟨_, h1, h2⟩ := (trunc_spec (s * 1000000000)).2 (by linarith)
    rw [e]; exact ⟨h1, h2⟩

theorem rel_compose {x t δ ε y : ℚ} (h1 : |x - t| ≤ δ * |t|) (h2 : |y - x| ≤ ε * |x|) (hε : 0 ≤ ε) :
    |y - t| ≤ (δ + ε + ε * δ) * |t| := by
  have h3 : |x| ≤ |t| + δ * |t| := by
    have := abs_sub_abs_le_abs_sub x t; linarith
  have h4 : |y - t| ≤ |y - x| + |x - t| := by
    have := abs_add_le (y - x) (x - t); rwa [sub_add_sub_cancel] at this
  have h5 : ε * |x| ≤ ε * (|t| + δ * |t|) := mul_le_mul_of_nonneg_left h3 hε
  nlinarith

/-- **C37** In floating point arithmetic (every operation has relative error at most `ε`, as has the
constant 1e-9) the round trip is off by less than one nanosecond plus `5 ε` times the time. -/
theorem C37_seconds_rounded (rnd : ℚ → ℚ) (c ε : ℚ) (hε : 0 ≤ ε) (hε' : ε ≤ 1 / 10)
    (hr : ∀ x, |rnd x - x| ≤ ε * |x|) (hc : |c - 1 / 1000000000| ≤ ε * (1 / 1000000000)) (t : ℤ) :
    |(secToNsec rnd (nsecToSec rnd c t) : ℚ) - t| < 1 + 5 * ε * |(t : ℚ)| := by
  have h1 : |rnd t - t| ≤ ε * |(t : ℚ)| := hr t
  have h2 : |rnd t * c * 1000000000 - rnd t| ≤ ε * |rnd t| := by
    have : rnd t * c * 1000000000 - rnd t = rnd t * 1000000000 * (c - 1 / 1000000000) := by ring
    rw [this, abs_mul, abs_mul, abs_of_pos (by norm_num : (0 : ℚ) < 1000000000)]
    calc |rnd t| * 1000000000 * |c - 1 / 1000000000| ≤ |rnd t| * 1000000000 * (ε * (1 / 1000000000)) := by
          gcongr
      _ = ε * |rnd t| := by ring
  have h12 := rel_compose h1 h2 hε
  have h3 : |rnd (rnd t * c) * 1000000000 - rnd t * c * 1000000000| ≤ ε * |rnd t * c * 1000000000| := by
    rw [← sub_mul, abs_mul, abs_mul (rnd t * c), ← mul_assoc]
    exact mul_le_mul_of_nonneg_right (hr _) (abs_nonneg _)
  have h123 := rel_compose h12 h3 hε
  have h4 := hr (rnd (rnd t * c) * 1000000000)
  have h1234 := rel_compose h123 h4 hε
  have hb : (ε + ε + ε * ε + ε + ε * (ε + ε + ε * ε) + ε + ε * (ε + ε + ε * ε + ε + ε * (ε + ε + ε * ε)))
      ≤ 5 * ε := by
    have e2 : ε * ε ≤ ε * (1 / 10) := mul_le_mul_of_nonneg_left hε' hε
    have e3 : ε * ε * ε ≤ ε * (1 / 10) * (1 / 10) :=
      mul_le_mul e2 hε' hε (by positivity)
    have e4 : ε * ε * ε * ε ≤ ε * (1 / 10) * (1 / 10) * (1 / 10) :=
      mul_le_mul e3 hε' hε (by positivity)
    nlinarith
  have h5 := mul_le_mul_of_nonneg_right hb (abs_nonneg (t : ℚ))
  have h6 := trunc_err (rnd (rnd (rnd t * c) * 1000000000))
  have h7 : |(secToNsec rnd (nsecToSec rnd c t) : ℚ) - t| ≤
      |(trunc (rnd (rnd (rnd t * c) * 1000000000)) : ℚ) - rnd (rnd (rnd t * c) * 1000000000)| +
      |rnd (rnd (rnd t * c) * 1000000000) - t| := by
    have := abs_add_le ((trunc (rnd (rnd (rnd t * c) * 1000000000)) : ℚ) - rnd (rnd (rnd t * c) * 1000000000))
      (rnd (rnd (rnd t * c) * 1000000000) - t)
    rwa [sub_add_sub_cancel] at this
  linarith

theorem rnd_abs_ge {rnd : ℚ → ℚ} (h : IsRnd rnd) {x : ℚ} {e : ℤ} (he : -1074 ≤ e) (hx : 2 ^ e ≤ |x|) : 2 ^ e ≤ |rnd x| := by
  rcases le_total 0 x with h0 | h0
  · rw [abs_of_nonneg h0] at hx
    exact (h.ge_of_ge (isDouble_pow e he) hx).trans (le_abs_self _)
  · rw [abs_of_nonpos h0] at hx
    have := h.le_of_le (isDouble_pow e he).neg (x := x) (by linarith)
    have := neg_le_abs (rnd x)
    linarith

/-- **C37** With doubles (rounding to nearest, whatever the rule for ties) the round trip is off by less than one
nanosecond plus `5 * 2⁻⁵³` of the time; times up to 2⁵⁰ ns (13 days) are off by at most one nanosecond. -/
theorem C37_seconds_double (rnd : ℚ → ℚ) (hr : IsRnd rnd) (t : ℤ) :
    |(secToNsec rnd (nsecToSec rnd (rnd (1 / 1000000000)) t) : ℚ) - t| < 1 + 5 / 2 ^ 53 * |(t : ℚ)| ∧
    (|t| ≤ 2 ^ 50 → |secToNsec rnd (nsecToSec rnd (rnd (1 / 1000000000)) t) - t| ≤ 1) := by
  -- the rounding, made exact for the subnormal numbers, which do not occur
  let rnd' : ℚ → ℚ := fun x => if x = 0 ∨ 2 ^ (-1022 : ℤ) ≤ |x| then rnd x else x
  have r0 : rnd 0 = 0 := by simpa using hr.fix (isDouble_int 0 (by norm_num))
  have hr' : ∀ x, |rnd' x - x| ≤ 1 / 2 ^ 53 * |x| := by
    intro x
    simp only [rnd']
    split
    · rename_i hx
      rcases hx with rfl | hx
      · simp [r0]
      · have := hr.err_rel hx
        linarith
    · simp only [sub_self, abs_zero]; positivity
  have small : (2 : ℚ) ^ (-1022 : ℤ) ≤ 2 ^ (-30 : ℤ) := zpow_le_zpow_right₀ (by norm_num) (by norm_num)
  have agree : ∀ x : ℚ, x = 0 ∨ 2 ^ (-30 : ℤ) ≤ |x| → rnd' x = rnd x := by
    intro x hx
    simp only [rnd']
    rw [if_pos (hx.imp_right small.trans)]
  have hc0 : (2 : ℚ) ^ (-30 : ℤ) ≤ rnd (1 / 1000000000) := hr.ge_of_ge (isDouble_pow _ (by norm_num)) (by norm_num)
  have hc : |rnd (1 / 1000000000) - 1 / 1000000000| ≤ 1 / 2 ^ 53 * (1 / 1000000000) := by
    have := hr' (1 / 1000000000)
    rw [agree _ (Or.inr (by norm_num))] at this
    rwa [abs_of_pos (by norm_num : (0 : ℚ) < 1 / 1000000000)] at this
  have same : secToNsec rnd (nsecToSec rnd (rnd (1 / 1000000000)) t) =
      secToNsec rnd' (nsecToSec rnd' (rnd (1 / 1000000000)) t) := by
    unfold secToNsec nsecToSec
    rcases eq_or_ne t 0 with rfl | ht
    · simp [rnd', r0]
    · have t1 : (1 : ℚ) ≤ |(t : ℚ)| := by
        have : 1 ≤ |t| := Int.one_le_abs ht
        exact_mod_cast this
      have t2 : (2 : ℚ) ^ (-30 : ℤ) ≤ 1 := by norm_num
      have a1 : rnd' t = rnd t := agree _ (Or.inr (t2.trans t1))
      have b1 : (1 : ℚ) ≤ |rnd t| := by simpa using rnd_abs_ge hr (e := 0) (by norm_num) (by simpa using t1)
      have b2 : (2 : ℚ) ^ (-30 : ℤ) ≤ |rnd t * rnd (1 / 1000000000)| := by
        rw [abs_mul, abs_of_pos (a := rnd (1 / 1000000000)) (lt_of_lt_of_le (by positivity) hc0)]
        nlinarith
      have a2 : rnd' (rnd t * rnd (1 / 1000000000)) = rnd (rnd t * rnd (1 / 1000000000)) := agree _ (Or.inr b2)
      have b3 := rnd_abs_ge hr (by norm_num) b2
      have b4 : (2 : ℚ) ^ (-30 : ℤ) ≤ |rnd (rnd t * rnd (1 / 1000000000)) * 1000000000| := by
        rw [abs_mul, abs_of_pos (by norm_num : (0 : ℚ) < 1000000000)]
        linarith [abs_nonneg (rnd (rnd t * rnd (1 / 1000000000)))]
      rw [a1, a2, agree _ (Or.inr b4)]
  have h := C37_seconds_rounded rnd' (rnd (1 / 1000000000)) (1 / 2 ^ 53) (by positivity) (by norm_num) hr' hc t
  rw [← same] at h
  have h' : |(secToNsec rnd (nsecToSec rnd (rnd (1 / 1000000000)) t) : ℚ) - t| < 1 + 5 / 2 ^ 53 * |(t : ℚ)| := by
    calc _ < _ := h
      _ = _ := by ring
  refine ⟨h', fun ht => ?_⟩
  have ht' : |(t : ℚ)| ≤ 2 ^ 50 := by exact_mod_cast ht
  have : |((secToNsec rnd (nsecToSec rnd (rnd (1 / 1000000000)) t) - t : ℤ) : ℚ)| < 2 := by
    push_cast
    have : (5 / 2 ^ 53 : ℚ) * |(t : ℚ)| ≤ 5 / 2 ^ 53 * 2 ^ 50 := by gcongr
    have e : (5 / 2 ^ 53 * 2 ^ 50 : ℚ) = 5 / 8 := by norm_num
    linarith
  have h2 : |secToNsec rnd (nsecToSec rnd (rnd (1 / 1000000000)) t) - t| < 2 := by exact_mod_cast this
  omega

/-- a rounding -/
example : IsRnd rndNearest := isRnd_rndNearest

/-- exact arithmetic is one such rounding -/
example : (∀ x : ℚ, |id x - x| ≤ 1 / 2 ^ 53 * |x|) ∧
    |(1 / 1000000000 : ℚ) - 1 / 1000000000| ≤ 1 / 2 ^ 53 * (1 / 1000000000) := by
  constructor
  · intro x; simp
  · norm_num

/-! ## C38 -/

/-- the documented meaning: every time but the magic number is valid -/
def C38_claim : Prop := ∀ t : ℤ, isValid t = true ↔ t ≠ invalidTime

/-- **C38** is false, for every time: `isValid` answers the opposite. -/
theorem C38_negation : ¬ C38_claim ∧ ∀ t : ℤ, isValid t = true ↔ ¬ t ≠ invalidTime := by
  have h : ∀ t : ℤ, isValid t = true ↔ ¬ t ≠ invalidTime := by
    intro t; unfold isValid; rw [decide_eq_true_iff, not_not]; exact eq_comm
  refine ⟨fun hc => ?_, h⟩
  have := (hc 0).1
  have h0 : isValid 0 = true := (hc 0).2 (by decide)
  exact absurd ((h 0).1 h0) (by decide)

/-- what does hold: `isValid` distinguishes the magic number from every other time -/
theorem C38_partial (t : ℤ) : isValid t = isValid invalidTime ↔ t = invalidTime := by
  unfold isValid
  by_cases h : t = invalidTime
  · simp [h]
  · have : ¬ invalidTime = t := fun e => h e.symm
    simp [h, this]

/-! ## C39 -/

/-- **C39** After any history, a tag's handle is the same whenever it is asked for later, whatever happens
in between; different tags have different handles; the handle's tag is the tag. -/
theorem C39_handles (before between : List Op) (t : Tag) :
    let r := getHandle (run Sys.init before).2 t
    let later := (run r.2 between).2
    getHandle later t = (r.1, later) ∧ getTag later r.1 = some t ∧
    ∀ t', t' ≠ t → (getHandle later t').1 ≠ r.1 := by
  intro r later
  obtain ⟨_, hi⟩ := inv_run inv_init before
  obtain ⟨h1, h2⟩ := inv_getHandle hi t
  obtain ⟨_, h3⟩ := inv_run h2 between
  set a1 := (Abs.run Abs.init before).2.register t with ha1
  set a2 := (Abs.run a1 between).2 with ha2
  have hmem1 : t ∈ a1.tags := register_mem _ t
  have hpre : a1.tags <+: a2.tags := abs_run_tags a1 between
  have hmem2 : t ∈ a2.tags := hpre.subset hmem1
  have hidx : a2.tags.idxOf t = r.1 := by
    obtain ⟨l, hl⟩ := hpre
    rw [← hl, List.idxOf_append_of_mem hmem1]; exact h1.symm
  refine ⟨?_, ?_, ?_⟩
  · have := inv_lookup h3 t
    rw [if_pos hmem2, hidx] at this
    unfold getHandle
    rw [show lookup later.tagMap t = some r.1 from this]
  · unfold getTag
    rw [show later.tagMap = a2.tags.zipIdx from h3.map]
    have hlt : r.1 < a2.tags.length := hidx ▸ List.idxOf_lt_length_of_mem hmem2
    have hget : a2.tags[r.1] = t := by
      have := List.getElem_idxOf (List.idxOf_lt_length_of_mem hmem2)
      simp only [hidx] at this; exact this
    have hin : (t, r.1) ∈ a2.tags.zipIdx := by
      rw [List.mk_mem_zipIdx_iff_getElem?, List.getElem?_eq_getElem hlt, hget]
    cases hf : a2.tags.zipIdx.find? fun e => e.2 = r.1 with
    | none =>
      rw [List.find?_eq_none] at hf
      exact absurd (decide_eq_true rfl) (hf _ hin)
    | some e =>
      have he := List.find?_some hf
      have hm := List.mem_of_find?_eq_some hf
      obtain ⟨t', i⟩ := e
      simp only [decide_eq_true_eq] at he
      subst he
      rw [List.mk_mem_zipIdx_iff_getElem?, List.getElem?_eq_getElem hlt, hget] at hm
      simp at hm; simp [hm]
  · intro t' hne
    obtain ⟨h5, h6⟩ := inv_getHandle h3 t'
    rw [h5]
    have hpre2 : a2.tags <+: (a2.register t').tags := by
      unfold Abs.register; split <;> simp
    obtain ⟨l, hl⟩ := hpre2
    have e1 : (a2.register t').tags.idxOf t = r.1 := by
      rw [← hl, List.idxOf_append_of_mem hmem2, hidx]
    rw [← e1]
    intro e
    have h7 := register_mem a2 t'
    have h8 : t ∈ (a2.register t').tags := by rw [← hl]; simp [hmem2]
    exact hne ((List.idxOf_inj h7).1 e)

/-- **C39** After any history, asking a statistic of a tag nobody has used registers it with no samples; a
timer on a handle throws, and changes nothing, exactly if no tag has that handle. -/
theorem C39_unknown (before : List Op) :
    let s := (run Sys.init before).2
    (∀ t, (∀ h, getTag s h ≠ some t) →
      (getHandle s t).2.accs[(getHandle s t).1]? = some Acc.init ∧
      getTag (getHandle s t).2 (getHandle s t).1 = some t) ∧
    ∀ id h stopped now, s.timers id = none →
      ((step s (.newHandle id h stopped now)).1 = .threw ↔ getTag s h = none) ∧
      ((step s (.newHandle id h stopped now)).1 = .threw → (step s (.newHandle id h stopped now)).2 = s) := by
  intro s
  obtain ⟨_, hi⟩ := inv_run inv_init before
  have htag : ∀ h, getTag s h = (Abs.run Abs.init before).2.tags[h]? := by
    intro h
    unfold getTag
    rw [show s.tagMap = (Abs.run Abs.init before).2.tags.zipIdx from hi.map]
    generalize (Abs.run Abs.init before).2.tags = l
    cases hl : l[h]? with
    | none =>
      have : l.zipIdx.find? (fun e => decide (e.2 = h)) = none := by
        rw [List.find?_eq_none]
        rintro ⟨t', i⟩ hm
        rw [List.mk_mem_zipIdx_iff_getElem?] at hm
        simp only [decide_eq_true_eq]
        rintro rfl
        rw [hl] at hm; simp at hm
      rw [this]; rfl
    | some t =>
      have hin : (t, h) ∈ l.zipIdx := by rw [List.mk_mem_zipIdx_iff_getElem?, hl]
      cases hf : l.zipIdx.find? fun e => e.2 = h with
      | none =>
        rw [List.find?_eq_none] at hf
        exact absurd (decide_eq_true rfl) (hf _ hin)
      | some e =>
        have he := List.find?_some hf
        have hm := List.mem_of_find?_eq_some hf
        obtain ⟨t', i⟩ := e
        simp only [decide_eq_true_eq] at he
        subst he
        rw [List.mk_mem_zipIdx_iff_getElem?, hl] at hm
        simpa using hm.symm
  constructor
  · intro t ht
    have hnot : t ∉ (Abs.run Abs.init before).2.tags := by
      intro hm
      obtain ⟨i, hi', e⟩ := List.getElem_of_mem hm
      exact ht i (by rw [htag, List.getElem?_eq_getElem hi', e])
    have hl := inv_lookup hi t
    rw [if_neg hnot] at hl
    have hg : getHandle s t = (s.accs.length, { s with
      tagMap := s.tagMap ++ [(t, s.accs.length)]
      accs := s.accs ++ [Acc.init]
      maxLen := Nat.max s.maxLen t.length }) := by
      unfold getHandle; rw [show lookup s.tagMap t = none from hl]
    refine ⟨by rw [hg]; simp, ?_⟩
    have := C39_handles before [] t
    exact this.2.1
  · intro id h stopped now hid
    have hlen : s.accs.length = (Abs.run Abs.init before).2.tags.length := inv_len hi
    simp only [step, hid]
    by_cases hh : h < s.accs.length
    · simp only [hh, if_true]
      refine ⟨?_, by simp⟩
      rw [htag, List.getElem?_eq_none_iff, ← hlen]
      simp [hh]
    · simp only [hh, if_false]
      refine ⟨?_, by simp⟩
      rw [htag, List.getElem?_eq_none_iff, ← hlen]
      simp; omega

/-! ## C40 -/

/-- **C40** Every program over any number of timers sees the outcomes of the intended machine — in
particular starting a running timer, stopping a stopped one and constructing a timer on an unknown handle
throw and change nothing — and after it every registered tag's statistics are those of the samples
recorded for it since its last reset. -/
theorem C40_statistics (ops : List Op) :
    (run Sys.init ops).1 = (Abs.run Abs.init ops).1 ∧
    ∀ h t, getTag (run Sys.init ops).2 h = some t →
      ∃ acc, (run Sys.init ops).2.accs[h]? = some acc ∧
        let xs := (Abs.run Abs.init ops).2.samples t
        acc.count = xs.length ∧ acc.total = Stats.total xs ∧ acc.mean = Stats.mean xs ∧
        acc.variance = Stats.variance xs ∧ IsMin xs acc.min ∧ IsMax xs acc.max ∧ acc.hz = Stats.hz xs := by
  obtain ⟨h1, hi⟩ := inv_run inv_init ops
  refine ⟨h1, ?_⟩
  intro h t ht
  have hmem : (t, h) ∈ (Abs.run Abs.init ops).2.tags.zipIdx := by
    unfold getTag at ht
    rw [hi.map] at ht
    cases hf : (Abs.run Abs.init ops).2.tags.zipIdx.find? fun e => e.2 = h with
    | none => rw [hf] at ht; simp at ht
    | some e =>
      have he := List.find?_some hf
      have hm := List.mem_of_find?_eq_some hf
      rw [hf] at ht
      obtain ⟨t', i⟩ := e
      simp only [decide_eq_true_eq] at he
      simp only [Option.map_some, Option.some.injEq] at ht
      rw [← he, ← ht]; exact hm
  rw [List.mk_mem_zipIdx_iff_getElem?] at hmem
  refine ⟨accOf ((Abs.run Abs.init ops).2.samples t), by rw [hi.accs, List.getElem?_map, hmem]; rfl, ?_⟩
  intro xs
  obtain ⟨b1, b2, b3, b4, b5, b6, b7⟩ := acc_basic xs
  have hxs : xs.length = 0 ↔ xs = [] := List.length_eq_zero_iff
  refine ⟨b1, b2, ?_, ?_, b4, b5, ?_⟩
  · unfold Acc.mean Stats.mean
    rw [b1, b2]; simp only [hxs]
  · unfold Acc.variance Stats.variance
    rw [b1, b2, b3]
    simp only [hxs]
    by_cases he : xs = []
    · simp [he]
    · rw [if_neg he, if_neg he, sum_sq_dev]
      have : (xs.length : ℚ) ≠ 0 := by simpa using he
      congr 1
      field_simp
      ring
  · unfold Acc.hz Stats.hz
    rw [b6, b7]
    simp only [List.length_eq_zero_iff]

/-- **C40** What the intended machine records: exactly the interval between a successful start and the
matching stop (or destruction), for the timer's own tag; failing operations record nothing. -/
theorem C40_records (a : Abs) (id : ℕ) (t : Tag) :
    (∀ now t0, a.timers id = some (t, some t0) →
      (∀ o, o = Op.stop id now ∨ o = Op.destroy id now →
        (a.step o).2.samples t = a.samples t ++ [now - t0] ∧
        ∀ t', t' ≠ t → (a.step o).2.samples t' = a.samples t') ∧
      (a.step (.start id now)) = (.threw, a)) ∧
    (∀ now, a.timers id = some (t, none) → (a.step (.stop id now)) = (.threw, a)) ∧
    (a.step (.resetTag t)).2.samples t = [] := by
  refine ⟨?_, ?_, ?_⟩
  · intro now t0 h
    refine ⟨?_, by simp [Abs.step, h]⟩
    rintro o (rfl | rfl) <;> simp only [Abs.step, h, Abs.setTimer, Abs.record, if_true, true_and] <;>
      · intro t' ht'; simp [ht']
  · intro now h; simp [Abs.step, h]
  · simp [Abs.step, Abs.clear]

/-- Concrete: two intervals on one tag, with a failing second start. -/
example :
    let ops := [Op.newTag 0 ['a'] false 1, .start 0 2, .stop 0 3, .start 0 4, .stop 0 7]
    (run Sys.init ops).1 = [.ok, .threw, .ok, .ok, .ok] ∧
    (Abs.run Abs.init ops).2.samples ['a'] = [2, 3] ∧
    getTag (run Sys.init ops).2 0 = some ['a'] := by
  refine ⟨by decide, ?_, by decide⟩
  simp [Abs.run, Abs.step, Abs.init, Abs.register, Abs.setTimer, Abs.record]
  norm_num

/-! ## C41 -/

theorem toInt32_id (x : ℤ) (h1 : -2147483648 ≤ x) (h2 : x < 2147483648) : toInt32 x = x := by
  unfold toInt32; omega

/-- the documented meaning of the printed fields -/
def C41_claim (rnd : ℚ → ℚ) (rnd6 : ℚ → ℤ) : Prop :=
  ∀ s : ℚ, IsDouble s → 0 ≤ s → s < 60 * 2147483648 →
    let r := secondsToTimeString rnd rnd6 s
    0 ≤ r.hours ∧ 0 ≤ r.minutes ∧ r.minutes < 60 ∧ 0 ≤ r.micros ∧ r.micros < 60 * 1000000 ∧
    |3600 * (r.hours : ℚ) + 60 * r.minutes + r.micros / 1000000 - s| ≤ 1 / 2000000

/-- dividing a double in double arithmetic and cutting off the fraction -/
theorem trunc_rnd_div (rnd : ℚ → ℚ) (h : IsRnd rnd) (s : ℚ) (hs : IsDouble s) (h0 : 0 ≤ s) (h1 : s < 60 * 2147483648) :
    trunc (rnd (s / 60)) = trunc (s / 60) ∧ trunc (rnd (s / 3600)) = trunc (s / 3600) := by
  unfold trunc
  constructor
  · rw [if_pos (h.nonneg (by positivity)), if_pos (by positivity)]
    exact h.floor_div hs h0 (D := 60) (by norm_num) (by push_cast; linarith)
  · rw [if_pos (h.nonneg (by positivity)), if_pos (by positivity)]
    exact h.floor_div hs h0 (D := 3600) (by norm_num) (by push_cast; linarith)

/-- **C41** The printed fields add up to the input within half a microsecond, with minutes below 60 and
seconds at most 60, for every non-negative double below 2³¹ minutes, in double arithmetic. -/
theorem C41_partial (rnd : ℚ → ℚ) (hrnd : IsRnd rnd) (rnd6 : ℚ → ℤ) (hr : ∀ x, |(rnd6 x : ℚ) - x| ≤ 1 / 2) (s : ℚ)
    (hs : IsDouble s) (h0 : 0 ≤ s) (h1 : s < 60 * 2147483648) :
    let r := secondsToTimeString rnd rnd6 s
    0 ≤ r.hours ∧ 0 ≤ r.minutes ∧ r.minutes < 60 ∧ 0 ≤ r.micros ∧ r.micros ≤ 60 * 1000000 ∧
    |3600 * (r.hours : ℚ) + 60 * r.minutes + r.micros / 1000000 - s| ≤ 1 / 2000000 := by
  obtain ⟨m0, m1, m2⟩ := (trunc_spec (s / 60)).1 (by positivity)
  obtain ⟨k0, k1, k2⟩ := (trunc_spec (s / 3600)).1 (by positivity)
  have mlt : trunc (s / 60) < 2147483648 := by
    have : (trunc (s / 60) : ℚ) < 2147483648 := by linarith
    exact_mod_cast this
  have klt : trunc (s / 3600) < 2147483648 := by
    have : (trunc (s / 3600) : ℚ) < 2147483648 := by linarith
    exact_mod_cast this
  have hm1 : 0 ≤ trunc (s / 60) - trunc (s / 3600) * 60 := by
    have : (-1 : ℚ) < trunc (s / 60) - trunc (s / 3600) * 60 := by linarith
    have : (-1 : ℤ) < trunc (s / 60) - trunc (s / 3600) * 60 := by exact_mod_cast this
    omega
  have hm2 : trunc (s / 60) - trunc (s / 3600) * 60 < 60 := by
    have : ((trunc (s / 60) - trunc (s / 3600) * 60 : ℤ) : ℚ) < 60 := by push_cast; linarith
    exact_mod_cast this
  intro r
  obtain ⟨t1, t2⟩ := trunc_rnd_div rnd hrnd s hs h0 h1
  have e1 : r.hours = trunc (s / 3600) := by
    show toInt32 (trunc (rnd (s / 3600))) = _
    rw [t2]; exact toInt32_id _ (by omega) klt
  have e2 : r.minutes = trunc (s / 60) - trunc (s / 3600) * 60 := by
    show toInt32 (toInt32 (trunc (rnd (s / 60))) - toInt32 (trunc (rnd (s / 3600))) * 60) = _
    rw [t1, t2, toInt32_id _ (by omega) mlt, toInt32_id _ (by omega) klt, toInt32_id _ (by omega) (by omega)]
  have e3 : r.micros = rnd6 ((s - 60 * trunc (s / 60)) * 1000000) := rfl
  have hr' := hr ((s - 60 * trunc (s / 60)) * 1000000)
  rw [← e3] at hr'
  rw [abs_le] at hr'
  obtain ⟨r1, r2⟩ := hr'
  refine ⟨by omega, by omega, by omega, ?_, ?_, ?_⟩
  · have : (-1 : ℚ) < r.micros := by linarith
    have : (-1 : ℤ) < r.micros := by exact_mod_cast this
    omega
  · have : (r.micros : ℚ) < 60 * 1000000 + 1 := by linarith
    have : r.micros < 60 * 1000000 + 1 := by exact_mod_cast this
    omega
  · rw [e1, e2, abs_le]
    push_cast
    constructor <;> linarith

/-- **C41** is false as stated: a duration just below a full minute is printed with 60 seconds (and the
minutes not increased), for every way of rounding to the nearest microsecond. -/
theorem C41_negation (rnd : ℚ → ℚ) (hrnd : IsRnd rnd) (rnd6 : ℚ → ℤ) (hr : ∀ x, |(rnd6 x : ℚ) - x| ≤ 1 / 2) :
    secondsToTimeString rnd rnd6 (60 - 1 / 2 ^ 22) = ⟨0, 0, 60000000⟩ ∧ ¬ C41_claim rnd rnd6 := by
  have hd : IsDouble (60 - 1 / 2 ^ 22 : ℚ) := ⟨60 * 2 ^ 22 - 1, -22, by norm_num, by norm_num, by norm_num⟩
  have key : secondsToTimeString rnd rnd6 (60 - 1 / 2 ^ 22) = ⟨0, 0, 60000000⟩ := by
    obtain ⟨t1, t2⟩ := trunc_rnd_div rnd hrnd _ hd (by norm_num) (by norm_num)
    have h1 : trunc ((60 - 1 / 2 ^ 22 : ℚ) / 60) = 0 := by
      unfold trunc; rw [if_pos (by norm_num), Int.floor_eq_iff]; norm_num
    have h2 : trunc ((60 - 1 / 2 ^ 22 : ℚ) / 3600) = 0 := by
      unfold trunc; rw [if_pos (by norm_num), Int.floor_eq_iff]; norm_num
    unfold secondsToTimeString fmod60
    simp only [t1, t2, h1, h2]
    have h3 := hr ((60 - 1 / 2 ^ 22 - 60 * ((0 : ℤ) : ℚ)) * 1000000)
    generalize rnd6 ((60 - 1 / 2 ^ 22 - 60 * ((0 : ℤ) : ℚ)) * 1000000) = z at h3
    rw [abs_le] at h3
    norm_num at h3
    have a1 : (59999999 : ℚ) < z := by linarith
    have a2 : (z : ℚ) < 60000001 := by linarith
    have a1 : (59999999 : ℤ) < z := by exact_mod_cast a1
    have a2 : z < (60000001 : ℤ) := by exact_mod_cast a2
    have : z = 60000000 := by omega
    subst this
    decide
  refine ⟨key, fun h => ?_⟩
  have := h _ hd (by norm_num) (by norm_num)
  simp only [key] at this
  omega

/-- rounding to nearest exists: e.g. rounding half up -/
example : ∀ x : ℚ, |((⌊x + 1 / 2⌋ : ℤ) : ℚ) - x| ≤ 1 / 2 := by
  intro x
  have h1 := Int.floor_le (x + 1 / 2)
  have h2 := Int.lt_floor_add_one (x + 1 / 2)
  rw [abs_le]; constructor <;> linarith

end Verif.Timing
