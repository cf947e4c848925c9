import Verif.Random.Model
import Verif.Common.Double
import Mathlib.Data.Nat.Count
import Mathlib.Order.Interval.Finset.Nat
import Mathlib.Tactic.IntervalCases

/-!
# C83–C85: the random numbers
-/

namespace Verif.Random

open Verif.Common

variable {E D : Type}

/-! ## C83: seeding -/

/-- boost's contract for `reset`: "subsequent uses of the distribution do not depend on values produced by any
engine prior to invoking reset".  Two states are indistinguishable if they are related by a relation that sampling
respects. -/
def ResetOk (L : Lib E D) : Prop :=
  ∃ R : D → D → Prop, (∀ d d', R (L.reset d) (L.reset d')) ∧
    ∀ d d' e, R d d' → (L.draw d e).1 = (L.draw d' e).1 ∧ (L.draw d e).2.2 = (L.draw d' e).2.2 ∧
      R (L.draw d e).2.1 (L.draw d' e).2.1

theorem step_rel (L : Lib E D) (rnd : ℚ → ℚ) (R : D → D → Prop)
    (hR : ∀ d d' e, R d d' → (L.draw d e).1 = (L.draw d' e).1 ∧ (L.draw d e).2.2 = (L.draw d' e).2.2 ∧
      R (L.draw d e).2.1 (L.draw d' e).2.1) (h0 : ∀ d d', R (L.reset d) (L.reset d'))
    (s s' : St E D) (he : s.eng = s'.eng) (hd : R s.dist s'.dist) (c : Call) :
    (step L rnd s c).1 = (step L rnd s' c).1 ∧ (step L rnd s c).2.eng = (step L rnd s' c).2.eng ∧
      R (step L rnd s c).2.dist (step L rnd s' c).2.dist := by
  have hn : ∀ s s' : St E D, s.eng = s'.eng → R s.dist s'.dist →
      (s.normal L).1 = (s'.normal L).1 ∧ (s.normal L).2.eng = (s'.normal L).2.eng ∧
        R (s.normal L).2.dist (s'.normal L).2.dist := by
    intro s s' he hd
    obtain ⟨a, b, c⟩ := hR s.dist s'.dist s.eng hd
    simp only [St.normal, ← he]
    exact ⟨a, b, c⟩
  have hv : ∀ (n : ℕ) (s s' : St E D), s.eng = s'.eng → R s.dist s'.dist →
      (s.randnVec L n).1 = (s'.randnVec L n).1 ∧ (s.randnVec L n).2.eng = (s'.randnVec L n).2.eng ∧
        R (s.randnVec L n).2.dist (s'.randnVec L n).2.dist := by
    intro n
    induction n with
    | zero => intro s s' he hd; exact ⟨rfl, he, hd⟩
    | succ n ih =>
      intro s s' he hd
      obtain ⟨a, b, c⟩ := hn s s' he hd
      obtain ⟨a', b', c'⟩ := ih _ _ b c
      simp only [St.randnVec]
      exact ⟨by rw [a, a'], b', c'⟩
  obtain ⟨a, b, c'⟩ := hn s s' he hd
  cases c with
  | normal => exact ⟨congrArg Out.num a, b, c'⟩
  | randn => exact ⟨congrArg Out.num a, b, c'⟩
  | uniform => simp only [step, St.uniform, ← he]; exact ⟨trivial, trivial, hd⟩
  | rand => simp only [step, St.uniform, ← he]; exact ⟨trivial, trivial, hd⟩
  | randLU lo hi => simp only [step, St.uniform, ← he]; exact ⟨trivial, trivial, hd⟩
  | randLUi lo hi => simp only [step, St.uniform, ← he]; exact ⟨trivial, trivial, hd⟩
  | seed x => exact ⟨rfl, rfl, h0 _ _⟩
  | randnVec n =>
    obtain ⟨a, b, c'⟩ := hv n s s' he hd
    exact ⟨congrArg Out.vec a, b, c'⟩

/-- **C83** What the calls after `seed(s)` return depends on nothing that happened before: any two histories of
calls (with samples of all kinds and other seeds), followed by the same seed and the same calls, give the same results -
also for two seeds that agree in their lower 32 bits. -/
theorem C83_reproducible (L : Lib E D) (hL : ResetOk L) (rnd : ℚ → ℚ) (hist hist' : List Call) (s s' : ℕ)
    (hs : s % 2 ^ 32 = s' % 2 ^ 32) (cs : List Call) :
    outs L rnd (after L rnd (St.start L) (hist ++ [.seed s])) cs =
      outs L rnd (after L rnd (St.start L) (hist' ++ [.seed s'])) cs := by
  obtain ⟨R, h0, hR⟩ := hL
  have key : ∀ (cs : List Call) (a b : St E D), a.eng = b.eng → R a.dist b.dist → outs L rnd a cs = outs L rnd b cs := by
    intro cs
    induction cs with
    | nil => intros; rfl
    | cons c cs ih =>
      intro a b he hd
      obtain ⟨x, y, z⟩ := step_rel L rnd R hR h0 a b he hd c
      simp only [outs, x]
      rw [ih _ _ y z]
  have happ : ∀ (l : List Call) (a : St E D) (c : Call), after L rnd a (l ++ [c]) = (step L rnd (after L rnd a l) c).2 := by
    intro l
    induction l with
    | nil => intros; rfl
    | cons x l ih => intro a c; exact ih _ c
  rw [happ, happ]
  apply key
  · simp only [step, St.seed, hs]
  · exact h0 _ _

/-- **C83** A generator that has been seeded produces the engine's own sequence: the `n`-th `uniform()` after `seed(s)`
is the `n`-th output of the engine with that seed, divided by `2 ^ 32`, and lies in `[0, 1)`. -/
theorem C83_uniform (L : Lib E D) (rnd : ℚ → ℚ) (st : St E D) (s n : ℕ) :
    outs L rnd (step L rnd st (.seed s)).2 (List.replicate n .uniform) =
      (List.range n).map (fun i => .num (((L.next ((fun e => (L.next e).2)^[i] (L.ofSeed (s % 2 ^ 32)))).1 : ℚ) / 2 ^ 32)) ∧
    ∀ e, (0 : ℚ) ≤ (L.next e).1 / 2 ^ 32 ∧ ((L.next e).1 : ℚ) / 2 ^ 32 < 1 := by
  constructor
  · have key : ∀ (n : ℕ) (a : St E D), outs L rnd a (List.replicate n .uniform) =
        (List.range n).map (fun i => .num (((L.next ((fun e => (L.next e).2)^[i] a.eng)).1 : ℚ) / 2 ^ 32)) := by
      intro n
      induction n with
      | zero => intro a; rfl
      | succ n ih =>
        intro a
        rw [List.replicate_succ, List.range_succ_eq_map, List.map_cons, List.map_map]
        simp only [outs]
        rw [ih]
        rfl
    exact key n _
  · intro e
    have h := L.next_lt e
    have h' : ((L.next e).1 : ℚ) < 2 ^ 32 := by exact_mod_cast h
    exact ⟨by positivity, by rw [div_lt_one (by positivity)]; exact h'⟩

/-- a library whose normal distribution keeps, like boost's, a cached second sample -/
def sampleLib : Lib ℕ (Bool × ℚ) where
  init := 5489
  ofSeed := fun s => s
  next := fun e => (e % 2 ^ 32, e * 3 + 1)
  next_lt := fun _ => Nat.mod_lt _ (by norm_num)
  dist0 := (false, 0)
  draw := fun d e => if d.1 then (d.2, (false, d.2), e) else ((e % 7 : ℕ), (true, ((e % 5 : ℕ) : ℚ)), e * 3 + 1)
  reset := fun d => (false, d.2)

example : ResetOk sampleLib :=
  ⟨fun a b => a.1 = b.1 ∧ (a.1 = true → a.2 = b.2), fun _ _ => by simp [sampleLib], by
    rintro ⟨a, x⟩ ⟨b, y⟩ e ⟨h1, h2⟩
    simp only at h1 h2
    subst h1
    cases a
    · simp [sampleLib]
    · simp [sampleLib, h2 rfl]⟩

/-- a history that leaves a cached sample behind, which the seed discards -/
example : outs sampleLib id (after sampleLib id (St.start sampleLib) ([.normal, .rand] ++ [.seed 9])) [.normal, .normal] =
    [.num 2, .num 4] := by decide +kernel

/-! ## C84: `randLU` -/

theorem isDouble_sub {a b : ℚ} (ha : IsDouble a) (hb : IsDouble b) (h : |a - b| ≤ 2 ^ (-1021 : ℤ)) : IsDouble (a - b) := by
  obtain ⟨m, e, hm, he, rfl⟩ := ha
  obtain ⟨n, f, hn, hf, rfl⟩ := hb
  set k : ℤ := m * 2 ^ (e + 1074).toNat - n * 2 ^ (f + 1074).toNat with hk
  have hd : (m : ℚ) * 2 ^ e - n * 2 ^ f = k * 2 ^ (-1074 : ℤ) := by
    have p : ∀ g : ℤ, -1074 ≤ g → (2 : ℚ) ^ g = 2 ^ (g + 1074).toNat * 2 ^ (-1074 : ℤ) := by
      intro g hg
      rw [← zpow_natCast, ← zpow_add₀ (by norm_num)]
      congr 1; omega
    rw [p e he, p f hf, hk]
    push_cast; ring
  rw [hd] at h ⊢
  have p0 : (0 : ℚ) < 2 ^ (-1074 : ℤ) := by positivity
  have hkb : |k| ≤ 2 ^ 53 := by
    rw [abs_mul, abs_of_pos p0] at h
    have e1 : (2 : ℚ) ^ (-1021 : ℤ) = 2 ^ 53 * 2 ^ (-1074 : ℤ) := by
      have : (2 : ℚ) ^ 53 = 2 ^ (53 : ℤ) := by norm_cast
      rw [this, ← zpow_add₀ (by norm_num)]; norm_num
    rw [e1] at h
    have := le_of_mul_le_mul_right h p0
    exact_mod_cast this
  rcases hkb.lt_or_eq with hlt | heq
  · exact ⟨k, -1074, hlt, le_refl _, rfl⟩
  · have e1 : (2 : ℚ) ^ (-1021 : ℤ) = 2 ^ 53 * 2 ^ (-1074 : ℤ) := by
      have : (2 : ℚ) ^ 53 = 2 ^ (53 : ℤ) := by norm_cast
      rw [this, ← zpow_add₀ (by norm_num)]; norm_num
    rcases (abs_eq (by norm_num)).mp heq with h1 | h1
    · exact ⟨1, -1021, by norm_num, by norm_num, by rw [h1, Int.cast_one, one_mul, e1]; norm_num⟩
    · exact ⟨-1, -1021, by norm_num, by norm_num, by rw [h1, e1]; push_cast; ring⟩

/-- the product in `randLU` -/
theorem lu_product {rnd : ℚ → ℚ} (h : IsRnd rnd) {d : ℚ} (hd : 2 ^ (-1021 : ℤ) ≤ d) {u : ℚ} (hu0 : 0 ≤ u)
    (hu : u ≤ 1 - 1 / 2 ^ 32) : rnd (u * rnd d) ≤ d * (1 - 1 / 2 ^ 33) := by
  have p1 : (0 : ℚ) < 2 ^ (-1022 : ℤ) := by positivity
  have e0 : (2 : ℚ) ^ (-1021 : ℤ) = 2 * 2 ^ (-1022 : ℤ) := by
    rw [show (-1021 : ℤ) = 1 + -1022 by norm_num, zpow_add₀ (by norm_num)]; norm_num
  have hd0 : 0 < d := by linarith
  have hw := h.err_rel (x := d) (by rw [abs_of_pos hd0]; linarith)
  rw [abs_of_pos hd0] at hw
  have hw' : rnd d ≤ d * (1 + 1 / 2 ^ 53) := by have := (abs_le.mp hw).2; linarith
  have hw0 : 0 ≤ rnd d := h.nonneg hd0.le
  set x := u * rnd d with hx
  have hx0 : 0 ≤ x := mul_nonneg hu0 hw0
  have hxle : x ≤ (1 - 1 / 2 ^ 32) * (d * (1 + 1 / 2 ^ 53)) :=
    (mul_le_mul_of_nonneg_right hu hw0).trans (mul_le_mul_of_nonneg_left hw' (by norm_num))
  rcases le_or_gt (2 ^ (-1022 : ℤ)) x with hge | hlt
  · have := h.err_rel (x := x) (by rwa [abs_of_nonneg hx0])
    rw [abs_of_nonneg hx0] at this
    have := (abs_le.mp this).2
    have c : (1 - 1 / 2 ^ 32) * (1 + 1 / 2 ^ 53) * (1 + 1 / 2 ^ 53) ≤ (1 - 1 / 2 ^ 33 : ℚ) := by norm_num
    calc rnd x ≤ x * (1 + 1 / 2 ^ 53) := by linarith
      _ ≤ (1 - 1 / 2 ^ 32) * (d * (1 + 1 / 2 ^ 53)) * (1 + 1 / 2 ^ 53) := by gcongr
      _ = d * ((1 - 1 / 2 ^ 32) * (1 + 1 / 2 ^ 53) * (1 + 1 / 2 ^ 53)) := by ring
      _ ≤ d * (1 - 1 / 2 ^ 33) := by gcongr
  · have := h.le_of_le (isDouble_pow (-1022) (by norm_num)) hlt.le
    have : 2 ^ (-1022 : ℤ) ≤ d * (1 - 1 / 2 ^ 33 : ℚ) := by
      have c : d * (1 / 2) ≤ d * (1 - 1 / 2 ^ 33 : ℚ) := by
        apply mul_le_mul_of_nonneg_left _ hd0.le; norm_num
      linarith
    linarith

theorem sample_bounds {k : ℕ} (hk : k < 2 ^ 32) : (0 : ℚ) ≤ k / 2 ^ 32 ∧ (k : ℚ) / 2 ^ 32 ≤ 1 - 1 / 2 ^ 32 := by
  refine ⟨by positivity, ?_⟩
  have : (k : ℚ) + 1 ≤ 2 ^ 32 := by exact_mod_cast hk
  rw [div_le_iff₀ (by positivity)]
  norm_num at this ⊢
  linarith

/-- the full claim: for all doubles `lo < hi`, `randLU(lo, hi)` is in the half-open range (the documentation of
random.hpp:24) -/
def C84_claim : Prop :=
  ∀ (E D : Type) (L : Lib E D) (rnd : ℚ → ℚ), IsRnd rnd → ∀ (s : St E D) (lo hi : ℚ), IsDouble lo → IsDouble hi →
    lo < hi → ∃ x, (step L rnd s (.randLU lo hi)).1 = .num x ∧ lo ≤ x ∧ x < hi

/-- **C84** `randLU(lo, hi)` is between its bounds, and it is smaller than the upper bound if the interval is not
very narrow: if its width is at least `2^-18` of its larger end and not subnormal.  (Overflow of `hi - lo`: `C84_overflow`.) -/
theorem C84_range_partial (L : Lib E D) (rnd : ℚ → ℚ) (h : IsRnd rnd) (s : St E D) (lo hi : ℚ) (hlo : IsDouble lo)
    (hhi : IsDouble hi) (hle : lo ≤ hi) :
    ∃ x, (step L rnd s (.randLU lo hi)).1 = .num x ∧ lo ≤ x ∧ x ≤ hi ∧
      (2 ^ (-1021 : ℤ) ≤ hi - lo → max |lo| |hi| ≤ 2 ^ 18 * (hi - lo) → x < hi) := by
  obtain ⟨hu0, hu1⟩ := sample_bounds (L.next_lt s.eng)
  refine ⟨luValue rnd ((L.next s.eng).1 / 2 ^ 32) lo hi, rfl, ?_, ?_, ?_⟩
  all_goals set u : ℚ := ((L.next s.eng).1 : ℚ) / 2 ^ 32
  all_goals unfold luValue
  · apply h.ge_of_ge hlo
    have := h.nonneg (mul_nonneg hu0 (h.nonneg (sub_nonneg.mpr hle)))
    linarith
  · apply h.le_of_le hhi
    rcases le_or_gt (2 ^ (-1021 : ℤ)) (hi - lo) with hge | hlt
    · have := lu_product h hge hu0 hu1
      have p : (0 : ℚ) < 2 ^ (-1021 : ℤ) := by positivity
      have : (hi - lo) * (1 - 1 / 2 ^ 33) ≤ hi - lo := by
        have c : (1 - 1 / 2 ^ 33 : ℚ) ≤ 1 := by norm_num
        calc (hi - lo) * (1 - 1 / 2 ^ 33) ≤ (hi - lo) * 1 := by gcongr
          _ = hi - lo := by ring
      linarith
    · have hd := isDouble_sub hhi hlo (by rw [abs_of_nonneg (by linarith)]; exact hlt.le)
      rw [h.fix hd]
      have h1 : u * (hi - lo) ≤ hi - lo := by
        have : u ≤ 1 := hu1.trans (by norm_num)
        calc u * (hi - lo) ≤ 1 * (hi - lo) := by gcongr
          _ = _ := one_mul _
      have := h.le_of_le hd h1
      linarith
  · intro hge hmax
    have hp := lu_product h hge hu0 hu1
    have hp0 := h.nonneg (mul_nonneg hu0 (h.nonneg (sub_nonneg.mpr hle)))
    have hpd := h.mem (u * rnd (hi - lo))
    have p : (0 : ℚ) < 2 ^ (-1021 : ℤ) := by positivity
    generalize rnd (u * rnd (hi - lo)) = q at hp hp0 hpd
    have hd0 : 0 < hi - lo := by linarith
    have hs : q + lo ≤ hi - (hi - lo) / 2 ^ 33 := by linarith
    have hs0 : lo ≤ q + lo := by linarith
    rcases le_or_gt (2 ^ (-1022 : ℤ)) |q + lo| with hn | hn
    · have he := (abs_le.mp (h.err_rel hn)).2
      have hb : |q + lo| ≤ 2 ^ 18 * (hi - lo) := by
        refine le_trans ?_ hmax
        have : q + lo ≤ hi := by
          have : 0 ≤ (hi - lo) / 2 ^ 33 := by positivity
          linarith
        rw [abs_le]
        constructor
        · have := neg_abs_le lo
          have := le_max_left |lo| |hi|
          linarith
        · have := le_abs_self hi
          have := le_max_right |lo| |hi|
          linarith
      have : |q + lo| / 2 ^ 53 ≤ (hi - lo) / 2 ^ 35 := by
        calc |q + lo| / 2 ^ 53 ≤ 2 ^ 18 * (hi - lo) / 2 ^ 53 := by gcongr
          _ = (hi - lo) / 2 ^ 35 := by ring
      have : (hi - lo) / 2 ^ 35 < (hi - lo) / 2 ^ 33 := by
        apply div_lt_div_of_pos_left hd0 (by norm_num) (by norm_num)
      linarith
    · have hdd : IsDouble (q + lo) := by
        have := isDouble_sub hpd hlo.neg (by
          rw [sub_neg_eq_add]
          have : (2 : ℚ) ^ (-1022 : ℤ) ≤ 2 ^ (-1021 : ℤ) := zpow_le_zpow_right₀ (by norm_num) (by norm_num)
          linarith)
        rwa [sub_neg_eq_add] at this
      rw [h.fix hdd]
      have : 0 < (hi - lo) / 2 ^ 33 := by positivity
      linarith

/-- no double lies between 1 and its successor -/
theorem no_double_between {y : ℚ} (hy : IsDouble y) (h1 : 1 < y) (h2 : y < 1 + 2 ^ (-52 : ℤ)) : False := by
  obtain ⟨m, e, hm, he, rfl⟩ := hy
  rcases le_or_gt (-52) e with hge | hlt
  · have e1 : (m : ℚ) * 2 ^ e = (m * 2 ^ (e + 52).toNat : ℤ) * 2 ^ (-52 : ℤ) := by
      push_cast
      rw [mul_assoc, ← zpow_natCast, ← zpow_add₀ (by norm_num)]
      congr 2; omega
    rw [e1] at h1 h2
    generalize m * 2 ^ (e + 52).toNat = n at h1 h2
    norm_num at h1 h2
    have a : (4503599627370496 : ℚ) < n := by linarith
    have b : (n : ℚ) < 4503599627370497 := by linarith
    have a' : (4503599627370496 : ℤ) < n := by exact_mod_cast a
    have b' : n < (4503599627370497 : ℤ) := by exact_mod_cast b
    omega
  · have hm' : (m : ℚ) < 2 ^ 53 := by exact_mod_cast (abs_lt.mp hm).2
    have : (2 : ℚ) ^ e ≤ 2 ^ (-53 : ℤ) := zpow_le_zpow_right₀ (by norm_num) (by omega)
    have p : (0 : ℚ) < 2 ^ e := by positivity
    have : (m : ℚ) * 2 ^ e ≤ 2 ^ 53 * 2 ^ (-53 : ℤ) := by
      have := mul_le_mul_of_nonneg_right hm'.le p.le
      have : (2 : ℚ) ^ 53 * 2 ^ e ≤ 2 ^ 53 * 2 ^ (-53 : ℤ) := by gcongr
      linarith
    norm_num at this
    linarith

/-- **C84** The full claim is false: with `lo = 1` and `hi` the next double, `lo + u * (hi - lo)` is rounded to `hi` for the
largest sample, whatever the rule for ties. -/
theorem C84_negation : ¬ C84_claim := by
  intro hc
  let L : Lib Unit Unit := ⟨(), fun _ => (), fun _ => (2 ^ 32 - 1, ()), fun _ => by norm_num, (), fun _ _ => (0, (), ()), id⟩
  have h := isRnd_rndNearest
  have hlo : IsDouble (1 : ℚ) := isDouble_int 1 (by norm_num)
  have hhi : IsDouble (1 + 2 ^ (-52 : ℤ) : ℚ) := ⟨2 ^ 52 + 1, -52, by norm_num, by norm_num, by norm_num⟩
  obtain ⟨x, hx, h1, h2⟩ := hc Unit Unit L rndNearest h ⟨(), ()⟩ 1 (1 + 2 ^ (-52 : ℤ)) hlo hhi (by norm_num)
  have hx' : luValue rndNearest (((2 ^ 32 - 1 : ℕ) : ℚ) / 2 ^ 32) 1 (1 + 2 ^ (-52 : ℤ)) = x := by
    simpa [step, St.uniform, L] using hx
  unfold luValue at hx'
  have hd : IsDouble (2 ^ (-52 : ℤ) : ℚ) := isDouble_pow _ (by norm_num)
  rw [show (1 + 2 ^ (-52 : ℤ) : ℚ) - 1 = 2 ^ (-52 : ℤ) by ring, h.fix hd] at hx'
  have hp : IsDouble (((2 ^ 32 - 1 : ℕ) : ℚ) / 2 ^ 32 * 2 ^ (-52 : ℤ)) :=
    ⟨2 ^ 32 - 1, -84, by norm_num, by norm_num, by norm_num⟩
  rw [h.fix hp] at hx'
  have hn := h.near (((2 ^ 32 - 1 : ℕ) : ℚ) / 2 ^ 32 * 2 ^ (-52 : ℤ) + 1) _ hhi
  have hm := h.mem (((2 ^ 32 - 1 : ℕ) : ℚ) / 2 ^ 32 * 2 ^ (-52 : ℤ) + 1)
  rw [hx'] at hn hm
  have h3 : 1 < x := by
    have := (abs_le.mp (hn.trans (le_of_eq (abs_of_nonneg (by norm_num))))).1
    norm_num at this ⊢
    linarith
  exact no_double_between hm h3 h2

/-- `randLU(-1, 1)` -/
example : ∃ x, (step sampleLib rndNearest (St.start sampleLib) (.randLU (-1) 1)).1 = .num x ∧ -1 ≤ x ∧ x < 1 := by
  obtain ⟨x, h1, h2, _, h3⟩ := C84_range_partial sampleLib rndNearest isRnd_rndNearest (St.start sampleLib) (-1) 1
    (by exact_mod_cast isDouble_int (-1) (by norm_num)) (by exact_mod_cast isDouble_int 1 (by norm_num)) (by norm_num)
  exact ⟨x, h1, h2, h3 ((zpow_le_one_of_nonpos₀ (by norm_num) (by norm_num)).trans (by norm_num)) (by norm_num)⟩

/-! ## C85: `randLUi` -/

/-- the full claim: for all `int`s `lo < hi`, `randLUi(lo, hi)` is in the half-open range -/
def C85_claim : Prop :=
  ∀ (E D : Type) (L : Lib E D) (rnd : ℚ → ℚ), IsRnd rnd → ∀ (s : St E D) (lo hi : ℤ), isInt32 lo → isInt32 hi →
    lo < hi → ∃ n, (step L rnd s (.randLUi lo hi)).1 = .int (some n) ∧ lo ≤ n ∧ n < hi

theorem lui_floor {rnd : ℚ → ℚ} (h : IsRnd rnd) {k : ℕ} (hk : k < 2 ^ 32) {d : ℤ} (hd : 0 < d) :
    0 ≤ ⌊rnd ((k : ℚ) / 2 ^ 32 * d)⌋ ∧ ⌊rnd ((k : ℚ) / 2 ^ 32 * d)⌋ < d := by
  obtain ⟨hu0, hu1⟩ := sample_bounds hk
  have hdq : (0 : ℚ) < d := by exact_mod_cast hd
  have hx0 : 0 ≤ (k : ℚ) / 2 ^ 32 * d := by positivity
  refine ⟨Int.floor_nonneg.mpr (h.nonneg hx0), ?_⟩
  rw [Int.floor_lt]
  rcases le_or_gt (2 ^ (-1022 : ℤ)) ((k : ℚ) / 2 ^ 32 * d) with hge | hlt
  · have := h.err_rel (x := (k : ℚ) / 2 ^ 32 * d) (by rwa [abs_of_nonneg hx0])
    rw [abs_of_nonneg hx0] at this
    have := (abs_le.mp this).2
    have hx1 : (k : ℚ) / 2 ^ 32 * d ≤ (1 - 1 / 2 ^ 32) * d := by gcongr
    have c : (1 - 1 / 2 ^ 32) * (1 + 1 / 2 ^ 53) < (1 : ℚ) := by norm_num
    calc rnd ((k : ℚ) / 2 ^ 32 * d) ≤ (k : ℚ) / 2 ^ 32 * d * (1 + 1 / 2 ^ 53) := by linarith
      _ ≤ (1 - 1 / 2 ^ 32) * d * (1 + 1 / 2 ^ 53) := by gcongr
      _ = ((1 - 1 / 2 ^ 32) * (1 + 1 / 2 ^ 53)) * d := by ring
      _ < 1 * d := by gcongr
      _ = d := one_mul _
  · have h1 := h.le_of_le (isDouble_pow (-1022) (by norm_num)) hlt.le
    have h2 : (2 : ℚ) ^ (-1022 : ℤ) < 1 := zpow_lt_one_of_neg₀ (by norm_num) (by norm_num)
    have h3 : (1 : ℚ) ≤ d := by exact_mod_cast hd
    linarith

/-- **C85** `randLUi(lo, hi)` is in the half-open range whenever `hi - lo` is an `int`; `randLUi(lo, lo)` is `lo`. -/
theorem C85_range_partial (L : Lib E D) (rnd : ℚ → ℚ) (h : IsRnd rnd) (s : St E D) (lo hi : ℤ) (h1 : isInt32 lo)
    (h2 : isInt32 hi) (hw : hi - lo < 2 ^ 31) :
    (lo < hi → ∃ n, (step L rnd s (.randLUi lo hi)).1 = .int (some n) ∧ lo ≤ n ∧ n < hi) ∧
    (lo = hi → (step L rnd s (.randLUi lo hi)).1 = .int (some lo)) := by
  constructor
  · intro hlt
    obtain ⟨a, b⟩ := lui_floor h (L.next_lt s.eng) (d := hi - lo) (by omega)
    refine ⟨⌊rnd ((L.next s.eng).1 / 2 ^ 32 * (hi - lo : ℤ))⌋ + lo, ?_, by omega, by omega⟩
    unfold isInt32 at h1 h2
    change Out.int (luiValue rnd ((L.next s.eng).1 / 2 ^ 32) lo hi) = _
    simp only [luiValue]
    rw [if_pos (by unfold isInt32; omega), if_pos (by unfold isInt32; omega)]
  · rintro rfl
    have : rnd 0 = 0 := by simpa using h.fix (isDouble_int 0 (by norm_num))
    simp only [step, St.uniform, luiValue]
    rw [if_pos (by unfold isInt32; omega)]
    simp [this, h1, show isInt32 0 by decide]

/-- **C85** The full claim is false: `hi - lo` overflows for bounds more than `INT_MAX` apart. -/
theorem C85_negation : ¬ C85_claim := by
  intro hc
  obtain ⟨n, hn, _⟩ := hc _ _ sampleLib rndNearest isRnd_rndNearest (St.start sampleLib) (-2 ^ 31) (2 ^ 31 - 1)
    (by decide) (by decide) (by norm_num)
  simp only [step, luiValue] at hn
  rw [if_neg (by decide)] at hn
  simp at hn

/-- **C85** Every number of the range is the value for some output of the engine. -/
theorem C85_onto (rnd : ℚ → ℚ) (h : IsRnd rnd) (lo hi n : ℤ) (h1 : isInt32 lo) (h2 : isInt32 hi) (hw : hi - lo < 2 ^ 31)
    (hn : lo ≤ n) (hn' : n < hi) : ∃ k : ℕ, k < 2 ^ 32 ∧ luiValue rnd ((k : ℚ) / 2 ^ 32) lo hi = some n := by
  obtain ⟨d, hd⟩ : ∃ d : ℕ, hi - lo = d := ⟨(hi - lo).toNat, by omega⟩
  obtain ⟨j, hj⟩ : ∃ j : ℕ, n - lo = j := ⟨(n - lo).toNat, by omega⟩
  have hjd : j < d := by omega
  have hd31 : d < 2 ^ 31 := by omega
  set k := (j * 2 ^ 32 + (d - 1)) / d with hk
  have hkd : k * d + (j * 2 ^ 32 + (d - 1)) % d = j * 2 ^ 32 + (d - 1) := by
    rw [hk, mul_comm]; exact Nat.div_add_mod _ _
  have hm : (j * 2 ^ 32 + (d - 1)) % d < d := Nat.mod_lt _ (by omega)
  have b1 : j * 2 ^ 32 ≤ k * d := by omega
  have b2 : k * d < j * 2 ^ 32 + d := by omega
  have hklt : k < 2 ^ 32 := by
    by_contra hge
    push Not at hge
    have : 2 ^ 32 * d ≤ k * d := Nat.mul_le_mul_right _ hge
    have : (j + 1) * 2 ^ 32 ≤ d * 2 ^ 32 := Nat.mul_le_mul_right _ hjd
    omega
  refine ⟨k, hklt, ?_⟩
  have hfl : ⌊rnd ((k : ℚ) / 2 ^ 32 * (hi - lo : ℤ))⌋ = j := by
    rw [hd, Int.floor_eq_iff]
    have q1 : (j : ℚ) * 2 ^ 32 ≤ k * d := by exact_mod_cast b1
    have q2 : (k : ℚ) * d ≤ j * 2 ^ 32 + d := by exact_mod_cast b2.le
    have q3 : (d : ℚ) ≤ 2 ^ 31 := by exact_mod_cast hd31.le
    have ex : (k : ℚ) / 2 ^ 32 * ((d : ℤ) : ℚ) = (k * d) / 2 ^ 32 := by push_cast; ring
    rw [ex]
    have hjb : j < 2 ^ 31 := by omega
    constructor
    · have : IsDouble ((j : ℤ) : ℚ) := isDouble_int j (by rw [abs_of_nonneg (by omega)]; omega)
      apply h.ge_of_ge this
      rw [le_div_iff₀ (by positivity)]
      exact_mod_cast b1
    · have : IsDouble ((j : ℚ) + 1 / 2) := by
        refine ⟨2 * j + 1, -1, ?_, by norm_num, ?_⟩
        · rw [abs_of_nonneg (by omega)]; omega
        · push_cast; norm_num; ring
      have := h.le_of_le this (x := (k * d : ℚ) / 2 ^ 32) (by
        rw [div_le_iff₀ (by positivity)]
        have e31 : (2 : ℚ) ^ 32 = 2 * 2 ^ 31 := by norm_num
        linarith)
      push_cast
      linarith
  simp only [luiValue]
  rw [hfl]
  unfold isInt32 at h1 h2
  rw [if_pos (by unfold isInt32; omega), if_pos (by unfold isInt32; omega)]
  congr 1
  omega

/-- the number of multiples -/
theorem count_bin (N d j : ℕ) (hN : 0 < N) (hd : 0 < d) (hj : j < d) :
    ((Finset.range N).filter fun k => k * d / N = j).card = N / d ∨
      ((Finset.range N).filter fun k => k * d / N = j).card = N / d + 1 := by
  have hs : ((Finset.range N).filter fun k => k * d / N = j) =
      Finset.Ico ((j * N + (d - 1)) / d) (((j + 1) * N + (d - 1)) / d) := by
    ext k
    simp only [Finset.mem_filter, Finset.mem_range, Finset.mem_Ico]
    have c : ∀ i, (i * N + (d - 1)) / d ≤ k ↔ i * N ≤ k * d := by
      intro i
      have e := Nat.div_add_mod (i * N + (d - 1)) d
      have m := Nat.mod_lt (i * N + (d - 1)) hd
      constructor
      · intro h
        have := Nat.mul_le_mul_left d h
        rw [mul_comm k d]
        omega
      · intro h
        by_contra hc
        push Not at hc
        have := Nat.mul_le_mul_left d hc
        rw [Nat.mul_succ] at this
        rw [mul_comm k d] at h
        omega
    have c1 := c j
    have c2 := c (j + 1)
    have e : k * d / N = j ↔ j * N ≤ k * d ∧ k * d < (j + 1) * N := by
      rw [Nat.div_eq_iff hN]
      constructor
      · rintro ⟨a, b⟩
        refine ⟨by linarith, ?_⟩
        have : j * N + N = (j + 1) * N := by ring
        omega
      · rintro ⟨a, b⟩
        have : j * N + N = (j + 1) * N := by ring
        omega
    rw [e]
    have hlt : k * d < (j + 1) * N → k < N := by
      intro h
      by_contra hc
      push Not at hc
      have h1 := Nat.mul_le_mul_right d hc
      have h2 : (j + 1) * N ≤ d * N := Nat.mul_le_mul_right _ hj
      rw [mul_comm d N] at h2
      omega
    constructor
    · rintro ⟨_, a, b⟩
      refine ⟨c1.mpr a, ?_⟩
      by_contra hc
      push Not at hc
      have := c2.mp hc
      omega
    · rintro ⟨a, b⟩
      have b' : k * d < (j + 1) * N := by
        by_contra hc
        push Not at hc
        have := c2.mpr hc
        omega
      exact ⟨hlt b', c1.mp a, b'⟩
  rw [hs, Nat.card_Ico]
  have e : (j + 1) * N + (d - 1) = (j * N + (d - 1)) + N := by ring
  rw [e, Nat.add_div hd]
  generalize (j * N + (d - 1)) / d = a
  generalize N / d = b
  split <;> omega

/-- **C85** For ranges of at most `2^21` numbers every number of the range is the value for equally many of the `2^32`
outputs of the engine, up to one. -/
theorem C85_uniform (rnd : ℚ → ℚ) (h : IsRnd rnd) (lo hi n : ℤ) (h1 : isInt32 lo) (h2 : isInt32 hi) (hw : hi - lo ≤ 2 ^ 21)
    (hn : lo ≤ n) (hn' : n < hi) :
    ((Finset.range (2 ^ 32)).filter fun k : ℕ => luiValue rnd ((k : ℚ) / 2 ^ 32) lo hi = some n).card = 2 ^ 32 / (hi - lo).toNat ∨
    ((Finset.range (2 ^ 32)).filter fun k : ℕ => luiValue rnd ((k : ℚ) / 2 ^ 32) lo hi = some n).card =
      2 ^ 32 / (hi - lo).toNat + 1 := by
  obtain ⟨d, hd⟩ : ∃ d : ℕ, hi - lo = d := ⟨(hi - lo).toNat, by omega⟩
  obtain ⟨j, hj⟩ : ∃ j : ℕ, n - lo = j := ⟨(n - lo).toNat, by omega⟩
  have key : ((Finset.range (2 ^ 32)).filter fun k : ℕ => luiValue rnd ((k : ℚ) / 2 ^ 32) lo hi = some n) =
      ((Finset.range (2 ^ 32)).filter fun k => k * d / 2 ^ 32 = j) := by
    apply Finset.filter_congr
    intro k hk
    have hk := Finset.mem_range.mp hk
    have hkd : k * d < 2 ^ 53 := by
      calc k * d ≤ k * 2 ^ 21 := Nat.mul_le_mul_left _ (by omega)
        _ < 2 ^ 32 * 2 ^ 21 := by omega
        _ = 2 ^ 53 := by norm_num
    have hx : IsDouble ((k : ℚ) / 2 ^ 32 * ((hi - lo : ℤ) : ℚ)) := by
      refine ⟨(k * d : ℕ), -32, ?_, by norm_num, ?_⟩
      · rw [abs_of_nonneg (by positivity)]; exact_mod_cast hkd
      · rw [hd]; push_cast; norm_num; ring
    have hf : ⌊(k : ℚ) / 2 ^ 32 * ((hi - lo : ℤ) : ℚ)⌋ = ((k * d / 2 ^ 32 : ℕ) : ℤ) := by
      have : (k : ℚ) / 2 ^ 32 * ((hi - lo : ℤ) : ℚ) = ((k * d : ℕ) : ℚ) / ((2 ^ 32 : ℕ) : ℚ) := by
        rw [hd]; push_cast; ring
      rw [this, Rat.floor_natCast_div_natCast]
      rfl
    obtain ⟨f0, f1⟩ := lui_floor h hk (d := hi - lo) (by omega)
    simp only [luiValue]
    rw [h.fix hx, hf] at *
    generalize k * d / 2 ^ 32 = q at *
    unfold isInt32 at h1 h2
    rw [if_pos (by unfold isInt32; omega), if_pos (by unfold isInt32; omega)]
    simp only [Option.some.injEq]
    omega
  rw [key, hd, Int.toNat_natCast]
  exact count_bin (2 ^ 32) d j (by norm_num) (by omega) (by omega)

/-- a die -/
example : ∃ n, (step sampleLib rndNearest (St.start sampleLib) (.randLUi 1 7)).1 = .int (some n) ∧ 1 ≤ n ∧ n < 7 :=
  (C85_range_partial sampleLib rndNearest isRnd_rndNearest _ 1 7 (by decide) (by decide) (by norm_num)).1 (by norm_num)

end Verif.Random
