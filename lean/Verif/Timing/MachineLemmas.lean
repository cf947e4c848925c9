import Verif.Timing.Machine
import Mathlib.Data.List.Pairwise
import Mathlib.Tactic.SplitIfs

namespace Verif.Timing.Machine

open Verif.Common

/-! ## The binary search -/

theorem lbGo_spec (p : ℕ → Bool) (len : ℕ) : ∀ first, (∀ i j, first ≤ i → i ≤ j → j < first + len → p j = true → p i = true) →
    first ≤ lbGo p first len ∧ lbGo p first len ≤ first + len ∧
    (∀ i, first ≤ i → i < lbGo p first len → p i = true) ∧ (∀ i, lbGo p first len ≤ i → i < first + len → p i = false) := by
  induction len using Nat.strong_induction_on with
  | _ len ih =>
    intro first hp
    rw [lbGo]
    split_ifs with h0 hm
    · subst h0
      exact ⟨le_refl _, by omega, fun i h1 h2 => absurd h1 (by omega), fun i h1 h2 => absurd h1 (by omega)⟩
    · obtain ⟨h1, h2, h3, h4⟩ := ih (len - len / 2 - 1) (by omega) (first + len / 2 + 1) fun i j hi hij hj => hp i j (by omega) hij (by omega)
      refine ⟨by omega, by omega, fun i hi hi' => ?_, fun i hi hi' => h4 i hi (by omega)⟩
      rcases Nat.lt_or_ge i (first + len / 2 + 1) with hc | hc
      · exact hp i (first + len / 2) hi (by omega) (by omega) hm
      · exact h3 i hc hi'
    · obtain ⟨h1, h2, h3, h4⟩ := ih (len / 2) (by omega) first fun i j hi hij hj => hp i j (by omega) hij (by omega)
      refine ⟨by omega, by omega, h3, fun i hi hi' => ?_⟩
      rcases Nat.lt_or_ge i (first + len / 2) with hc | hc
      · exact h4 i hi hc
      · cases hpi : p i with
        | false => rfl
        | true => exact absurd (hp (first + len / 2) i (by omega) hc hi' hpi) hm

/-- whatever the elements, the result is in the range -/
theorem lbGo_range (p : ℕ → Bool) (len : ℕ) : ∀ first, first ≤ lbGo p first len ∧ lbGo p first len ≤ first + len := by
  induction len using Nat.strong_induction_on with
  | _ len ih =>
    intro first
    rw [lbGo]
    split_ifs with h0 hm
    · omega
    · have := ih (len - len / 2 - 1) (by omega) (first + len / 2 + 1); omega
    · have := ih (len / 2) (by omega) first; omega

/-! ## The hull -/

variable {T : Type} (A : Arith T)

theorem popLoop_suffix (p : Pt T) : ∀ st st', popLoop A p st = some st' → st' <:+ st ∧ (st ≠ [] → st' ≠ [])
  | [], st', h => by simp only [popLoop, Option.some.injEq] at h; subst h; exact ⟨List.suffix_refl _, id⟩
  | [t], st', h => by simp only [popLoop, Option.some.injEq] at h; subst h; exact ⟨List.suffix_refl _, id⟩
  | t :: a :: r, st', h => by
    simp only [popLoop] at h
    split at h
    · obtain ⟨h1, h2⟩ := popLoop_suffix p (a :: r) st' h
      exact ⟨h1.trans (List.suffix_cons _ _), fun _ => h2 (by simp)⟩
    · cases h; exact ⟨List.suffix_refl _, id⟩
    · cases h

theorem pushHull_form {hull h : List (Pt T)} {p : Pt T} (e : pushHull A hull p = some h) :
    ∃ pre, pre <+: hull ∧ (hull ≠ [] → pre ≠ []) ∧ h = pre ++ [p] := by
  simp only [pushHull] at e
  split at e
  · cases e; exact ⟨hull, List.prefix_refl _, id, rfl⟩
  · simp only [Option.map_eq_some_iff] at e
    obtain ⟨st, hs, rfl⟩ := e
    obtain ⟨h1, h2⟩ := popLoop_suffix A p _ _ hs
    refine ⟨st.reverse, ?_, ?_, rfl⟩
    · rw [← List.reverse_suffix]; simpa using h1
    · intro hne; simpa using h2 (by simpa using hne)
  · cases e

theorem popLoop_total (p : Pt T) : ∀ st, (∀ a ∈ st, ∀ t ∈ st, A.above a p t ≠ none) → popLoop A p st ≠ none
  | [], _ => by simp [popLoop]
  | [t], _ => by simp [popLoop]
  | t :: a :: r, h => by
    simp only [popLoop]
    have := h a (by simp) t (by simp)
    split
    · exact popLoop_total p (a :: r) fun x hx y hy => h x (by simp [hx]) y (by simp [hy])
    · simp
    · contradiction

theorem pushHull_total {hull : List (Pt T)} {p : Pt T} (h1 : ∀ a ∈ hull, ∀ t ∈ hull, A.above a t p ≠ none)
    (h2 : ∀ a ∈ hull, ∀ t ∈ hull, A.above a p t ≠ none) : pushHull A hull p ≠ none := by
  simp only [pushHull]
  have ht : isAboveTopLine A hull.reverse p ≠ none := by
    unfold isAboveTopLine
    split
    · rename_i t a r e
      have hm : ∀ x, x ∈ hull.reverse ↔ x ∈ hull := fun x => by simp
      rw [e] at hm
      exact h1 a ((hm a).1 (by simp)) t ((hm t).1 (by simp))
    · simp
  split
  · simp
  · have := popLoop_total A p hull.reverse fun a ha t ht' => h2 a (by simpa using ha) t (by simpa using ht')
    intro hc
    simp only [Option.map_eq_none_iff] at hc
    exact this hc
  · contradiction

/-! ## Runs -/

/-- the state after the observations -/
def feed (c : Corr T) (obs : List (Pt T)) : Corr T := obs.foldl (fun c p => (correct A c p.x p.y).2) c

theorem feed_snoc (c : Corr T) (obs : List (Pt T)) (p : Pt T) : feed A c (obs ++ [p]) = (correct A (feed A c obs) p.x p.y).2 := by
  simp [feed, List.foldl_append]

/-- the observations that are later than all accepted before; `val` gives the times as numbers -/
def accepted (val : T → ℚ) (obs : List (Pt T)) : List (Pt T) :=
  obs.foldl (fun acc p => match acc.getLast? with
    | some q => if val q.x < val p.x then acc ++ [p] else acc
    | none => acc ++ [p]) []

theorem accepted_snoc (val : T → ℚ) (obs : List (Pt T)) (p : Pt T) : accepted val (obs ++ [p]) =
    match (accepted val obs).getLast? with
    | some q => if val q.x < val p.x then accepted val obs ++ [p] else accepted val obs
    | none => accepted val obs ++ [p] := by
  simp [accepted, List.foldl_append]

/-- what the arithmetic does on the valid observations `V`: it compares the times like the numbers they stand for and has no undefined behaviour; the
midpoint of two times with another one between them is between them -/
structure Safe (val : T → ℚ) (V : Pt T → Prop) : Prop where
  le : ∀ p q, V p → V q → A.le p.x q.x = decide (val p.x ≤ val q.x)
  above : ∀ a b c, V a → V b → V c → A.above a b c ≠ none
  mid : ∀ a b c, V a → V b → V c → val a.x < val b.x → val b.x < val c.x → ∃ m, A.mid a.x c.x = some m ∧ val a.x < val m ∧ val m ≤ val c.x ∧
    ∀ q, V q → A.lt q.x m = decide (val q.x < val m)
  line : ∀ a b c, V a → V b → V c → val a.x < val b.x → A.line a b c.x ≠ none

/-- `h` is made of the accepted observations: in the same order, from the first to the latest -/
structure Kept (val : T → ℚ) (obs h : List (Pt T)) : Prop where
  sub : h.Sublist obs
  inc : h.Pairwise fun a b => val a.x < val b.x
  head : h.head? = obs.head?
  last : h.getLast? = obs.getLast?

variable {A}

theorem mid_segment {val : T → ℚ} {V : Pt T → Prop} (hS : Safe A val V) {h : List (Pt T)} (hV : ∀ p ∈ h, V p)
    (hinc : h.Pairwise fun a b => val a.x < val b.x) (hl : 3 ≤ h.length) {q p : Pt T} (hq : h.head? = some q) (hp : h.getLast? = some p) :
    ∃ m a b, A.mid q.x p.x = some m ∧ val q.x < val m ∧ val m ≤ val p.x ∧ h[Corrector.predWrap (lowerBound A h m)]? = some a ∧
      h[Corrector.predWrap (lowerBound A h m) + 1]? = some b ∧ val a.x < val m ∧ val m ≤ val b.x ∧ val a.x < val b.x := by
  have hget : ∀ i j (hi : i < h.length) (hj : j < h.length), i < j → val h[i].x < val h[j].x := fun i j hi hj hij =>
    List.pairwise_iff_getElem.1 hinc i j hi hj hij
  have e0 : h[0] = q := by
    rw [List.head?_eq_getElem?, List.getElem?_eq_getElem (by omega)] at hq
    exact Option.some.inj hq
  have en : h[h.length - 1] = p := by
    rw [List.getLast?_eq_getElem?, List.getElem?_eq_getElem (by omega)] at hp
    exact Option.some.inj hp
  have v0 : V q := by rw [← e0]; exact hV _ (List.getElem_mem _)
  have vn : V p := by rw [← en]; exact hV _ (List.getElem_mem _)
  have v1 : V h[1] := hV _ (List.getElem_mem _)
  obtain ⟨m, hm, hm1, hm2, hlt⟩ := hS.mid q h[1] p v0 v1 vn (by rw [← e0]; exact hget 0 1 (by omega) (by omega) (by omega))
    (by rw [← en]; exact hget 1 (h.length - 1) (by omega) (by omega) (by omega))
  have hpi : ∀ i (hi : i < h.length), (match h[i]? with | some q => A.lt q.x m | none => false) = decide (val h[i].x < val m) := by
    intro i hi
    rw [List.getElem?_eq_getElem hi]
    exact hlt _ (hV _ (List.getElem_mem _))
  obtain ⟨l1, l2, l3, l4⟩ := lbGo_spec (fun i => match h[i]? with | some q => A.lt q.x m | none => false) h.length 0 (by
    intro i j _ hij hj hj'
    have hj : j < h.length := by omega
    simp only [hpi j hj, decide_eq_true_eq] at hj'
    simp only [hpi i (by omega), decide_eq_true_eq]
    rcases hij.eq_or_lt with rfl | hij
    · exact hj'
    · exact (hget i j (by omega) hj hij).trans hj')
  change _ ≤ lowerBound A h m at l1
  change lowerBound A h m ≤ _ at l2
  change ∀ i, _ → i < lowerBound A h m → _ at l3
  change ∀ i, lowerBound A h m ≤ i → _ → _ at l4
  have k0 : 0 < lowerBound A h m := by
    rcases Nat.eq_zero_or_pos (lowerBound A h m) with hz | hz
    · have := l4 0 (by omega) (by omega)
      simp only [hpi 0 (by omega), decide_eq_false_iff_not, e0] at this
      exact absurd hm1 this
    · exact hz
  have kn : lowerBound A h m < h.length := by
    rcases Nat.lt_or_ge (lowerBound A h m) h.length with hz | hz
    · exact hz
    · have := l3 (h.length - 1) (by omega) (by omega)
      simp only [hpi (h.length - 1) (by omega), decide_eq_true_eq, en] at this
      exact absurd hm2 (not_le.2 this)
  have ek : Corrector.predWrap (lowerBound A h m) = lowerBound A h m - 1 := by
    unfold Corrector.predWrap; rw [if_neg (by omega)]
  have ek1 : Corrector.predWrap (lowerBound A h m) + 1 = lowerBound A h m := by omega
  have ha := l3 (lowerBound A h m - 1) (by omega) (by omega)
  have hb := l4 (lowerBound A h m) (by omega) (by omega)
  simp only [hpi _ (show lowerBound A h m - 1 < h.length by omega), decide_eq_true_eq] at ha
  simp only [hpi _ kn, decide_eq_false_iff_not, not_lt] at hb
  exact ⟨m, _, _, hm, hm1, hm2, by rw [ek]; exact List.getElem?_eq_getElem (by omega), by rw [ek1]; exact List.getElem?_eq_getElem kn, ha, hb, lt_of_lt_of_le ha hb⟩

theorem prefix_getLast_le {val : T → ℚ} {h pre : List (Pt T)} (hinc : h.Pairwise fun a b => val a.x < val b.x) (hp : pre <+: h) {q : Pt T}
    (hq : h.getLast? = some q) : ∀ a ∈ pre, val a.x ≤ val q.x := by
  intro a ha
  have hm := hp.subset ha
  obtain ⟨ini, rfl⟩ : ∃ ini, h = ini ++ [q] := by
    obtain ⟨ys, rfl⟩ := List.getLast?_eq_some_iff.1 hq
    exact ⟨ys, rfl⟩
  rcases List.mem_append.1 hm with hm | hm
  · exact ((List.pairwise_append.1 hinc).2.2 a hm q (by simp)).le
  · simp at hm; rw [hm]

/-- one step: no undefined behaviour; the hull stays made of the accepted observations; with at least three points in the hull the result is on the line through two neighbouring points of the
hull around the (computed) midpoint -/
theorem step {val : T → ℚ} {V : Pt T → Prop} (hS : Safe A val V) {obs : List (Pt T)} {c : Corr T} (hk : Kept val obs c.hull) (hV : ∀ p ∈ obs, V p)
    {p : Pt T} (hp : V p) :
    ((∃ q, obs.getLast? = some q ∧ val p.x ≤ val q.x) → correct A c p.x p.y = (.threw, c)) ∧
    ((∀ q, obs.getLast? = some q → val q.x < val p.x) → ∃ h, pushHull A c.hull p = some h ∧ (correct A c p.x p.y).2.hull = h ∧ Kept val (obs ++ [p]) h ∧
      (h.length < 3 → (correct A c p.x p.y).1 = .value p.y) ∧
      (3 ≤ h.length → ∃ q m a b v, h.head? = some q ∧ A.mid q.x p.x = some m ∧ (correct A c p.x p.y).2.hull[(correct A c p.x p.y).2.mid]? = some a ∧
        (correct A c p.x p.y).2.hull[(correct A c p.x p.y).2.mid + 1]? = some b ∧
        val a.x < val m ∧ val m ≤ val b.x ∧ A.line a b p.x = some v ∧ (correct A c p.x p.y).1 = .value v)) := by
  have hVh : ∀ a ∈ c.hull, V a := fun a ha => hV a (hk.sub.subset ha)
  constructor
  · rintro ⟨q, hq, hle⟩
    have hr : rejects A c.hull p.x = true := by
      unfold rejects
      rw [hk.last, hq]
      simp only [hS.le p q hp (hV q (List.mem_of_getLast? hq)), decide_eq_true_eq]
      exact hle
    simp [correct, hr]
  · intro hlt
    have hr : rejects A c.hull p.x = false := by
      unfold rejects
      rw [hk.last]
      cases hq : obs.getLast? with
      | none => rfl
      | some q =>
        simp only [hS.le p q hp (hV q (List.mem_of_getLast? hq)), decide_eq_false_iff_not, not_le]
        exact hlt q hq
    have hex := pushHull_total A (hull := c.hull) (p := p) (fun a ha t ht => hS.above a t p (hVh a ha) (hVh t ht) hp)
      (fun a ha t ht => hS.above a p t (hVh a ha) hp (hVh t ht))
    obtain ⟨h, hh⟩ := Option.ne_none_iff_exists'.1 hex
    obtain ⟨pre, hpre, hne, e⟩ := pushHull_form A hh
    have hprelt : ∀ a ∈ pre, val a.x < val p.x := by
      intro a ha
      cases hq : c.hull.getLast? with
      | none =>
        rw [List.getLast?_eq_none_iff] at hq
        rw [hq] at hpre
        have := List.prefix_nil.1 hpre
        rw [this] at ha; cases ha
      | some q => exact lt_of_le_of_lt (prefix_getLast_le hk.inc hpre hq a ha) (hlt q (by rw [← hk.last, hq]))
    have hkept : Kept val (obs ++ [p]) h := by
      refine ⟨?_, ?_, ?_, ?_⟩
      · rw [e]; exact (hpre.sublist.trans hk.sub).append (List.Sublist.refl _)
      · rw [e, List.pairwise_append]
        exact ⟨hk.inc.sublist hpre.sublist, by simp, fun a ha b hb => by simp at hb; rw [hb]; exact hprelt a ha⟩
      · rw [e]
        by_cases hc : c.hull = []
        · have ho : obs = [] := by
            have := hk.last
            rw [hc] at this
            exact List.getLast?_eq_none_iff.1 this.symm
          rw [hc] at hpre
          rw [List.prefix_nil.1 hpre, ho]
        · have hpn := hne hc
          obtain ⟨x, pre', rfl⟩ := List.exists_cons_of_ne_nil hpn
          obtain ⟨t, ht⟩ := hpre
          have ho : obs.head? = some x := by rw [← hk.head, ← ht]; rfl
          cases obs with
          | nil => cases ho
          | cons y ys => simpa using ho.symm
      · rw [e]; simp
    refine ⟨h, hh, ?_⟩
    have hVall : ∀ a ∈ h, V a := by
      intro a ha
      rw [e] at ha
      rcases List.mem_append.1 ha with ha | ha
      · exact hVh a (hpre.subset ha)
      · simp at ha; rw [ha]; exact hp
    by_cases hl : 3 ≤ h.length
    · have hlast : h.getLast? = some p := by rw [e]; simp
      obtain ⟨q, hq⟩ : ∃ q, h.head? = some q := by
        cases hh' : h with
        | nil => rw [hh'] at hl; simp at hl
        | cons x xs => exact ⟨x, rfl⟩
      obtain ⟨m, a, b, hm, -, -, ha, hb, h1, h2, h3⟩ := mid_segment hS hVall hkept.inc hl hq hlast
      have hva := hVall a (List.mem_of_getElem? ha)
      have hvb := hVall b (List.mem_of_getElem? hb)
      obtain ⟨v, hv⟩ := Option.ne_none_iff_exists'.1 (hS.line a b p hva hvb hp h3)
      have ec : correct A c p.x p.y = (.value v, ⟨h, Corrector.predWrap (lowerBound A h m)⟩) := by
        simp only [correct, hr, Bool.false_eq_true, if_false, hh, hl, if_true, hq, hm, getLocalTime]
        rw [if_neg (by omega), ha, hb]
        simp only [hv]
      rw [ec]
      exact ⟨rfl, hkept, fun hc => absurd hl (by omega), fun _ => ⟨q, m, a, b, v, hq, hm, ha, hb, h1, h2, hv, rfl⟩⟩
    · have ec : correct A c p.x p.y = (.value p.y, ⟨h, c.mid⟩) := by
        simp only [correct, hr, Bool.false_eq_true, if_false, hh, hl, if_false]
      rw [ec]
      exact ⟨rfl, hkept, fun _ => rfl, fun hc => absurd hc hl⟩

theorem accepted_subset (val : T → ℚ) (obs : List (Pt T)) : ∀ p ∈ accepted val obs, p ∈ obs := by
  induction obs using List.reverseRecOn with
  | nil => simp [accepted]
  | append_singleton obs p ih =>
    rw [accepted_snoc]
    intro x hx
    split at hx
    · split_ifs at hx
      · rcases List.mem_append.1 hx with hx | hx
        · exact List.mem_append_left _ (ih x hx)
        · exact List.mem_append_right _ hx
      · exact List.mem_append_left _ (ih x hx)
    · rcases List.mem_append.1 hx with hx | hx
      · exact List.mem_append_left _ (ih x hx)
      · exact List.mem_append_right _ hx

/-- after any observations the hull is made of the accepted ones -/
theorem feed_kept {val : T → ℚ} {V : Pt T → Prop} (hS : Safe A val V) (obs : List (Pt T)) (hV : ∀ p ∈ obs, V p) :
    Kept val (accepted val obs) (feed A .fresh obs).hull := by
  induction obs using List.reverseRecOn with
  | nil => exact ⟨List.Sublist.refl _, List.Pairwise.nil, rfl, rfl⟩
  | append_singleton obs p ih =>
    have hk := ih fun q hq => hV q (by simp [hq])
    have hs := step hS hk (fun q hq => hV q (by simp [accepted_subset val obs q hq])) (hV p (by simp))
    rw [feed_snoc, accepted_snoc]
    cases hq : (accepted val obs).getLast? with
    | none =>
      obtain ⟨h, -, h2, h3, -⟩ := hs.2 (fun q hq' => by rw [hq] at hq'; cases hq')
      simp only [h2]; exact h3
    | some q =>
      simp only
      split_ifs with hc
      · obtain ⟨h, -, h2, h3, -⟩ := hs.2 (fun q' hq' => by rw [hq] at hq'; cases hq'; exact hc)
        rw [h2]; exact h3
      · rw [hs.1 ⟨q, hq, not_lt.1 hc⟩]
        exact hk

end Verif.Timing.Machine
