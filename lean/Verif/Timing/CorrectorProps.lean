import Verif.Timing.Corrector
import Verif.Timing.Props
import Mathlib.Tactic.LinearCombination

/-!
# The timestamp corrector (C42–C44, C64)
-/

namespace Verif.Timing.Corrector

/-! ## specification -/

/-- the height at `x` of the line through `a` and `b` -/
def lineAt (a b : Point) (x : ℚ) : ℚ := a.y + (b.y - a.y) / (b.x - a.x) * (x - a.x)

/-- `a`, `b` are neighbours in the list -/
def Neighbours (h : List Point) (a b : Point) : Prop := ∃ i, h[i]? = some a ∧ h[i + 1]? = some b

/-- the observations that are accepted: those later (in remote time) than all accepted before -/
def accepted (inputs : List Point) : List Point :=
  inputs.foldl (fun acc p => if ∀ q ∈ acc, q.x < p.x then acc ++ [p] else acc) []

/-- `h` is a convex lower hull of `obs`: a subsequence with the same ends, increasing, such that no
observation is below the line through any two neighbours -/
structure IsLowerHull (obs h : List Point) : Prop where
  sub : h.Sublist obs
  first : h.head? = obs.head?
  last : h.getLast? = obs.getLast?
  increasing : h.Pairwise fun a b => a.x < b.x
  below : ∀ a b, Neighbours h a b → ∀ o ∈ obs, lineAt a b o.x ≤ o.y

/-- feeding a list of observations into a corrector (rejected ones change nothing) -/
def feed (cast : ℚ → ℚ) (c : Corr) (inputs : List Point) : Corr :=
  inputs.foldl (fun c p => (correct cast c p.x p.y).2) c

/-! ## geometry -/

def cross (a b o : Point) : ℚ := (b.x - a.x) * (o.y - a.y) - (b.y - a.y) * (o.x - a.x)

theorem isAboveLine_iff (a b o : Point) : isAboveLine a b o = true ↔ 0 ≤ cross a b o := by
  simp [isAboveLine, cross]

theorem cross_line {a b : Point} (h : a.x < b.x) (o : Point) : 0 ≤ cross a b o ↔ lineAt a b o.x ≤ o.y := by
  have hp : 0 < b.x - a.x := by linarith
  unfold cross lineAt
  have e : a.y + (b.y - a.y) / (b.x - a.x) * (o.x - a.x) =
      o.y - ((b.x - a.x) * (o.y - a.y) - (b.y - a.y) * (o.x - a.x)) / (b.x - a.x) := by
    field_simp; ring
  rw [e]
  constructor
  · intro h; have := div_nonneg h hp.le; linarith
  · intro h
    have h2 : 0 ≤ ((b.x - a.x) * (o.y - a.y) - (b.y - a.y) * (o.x - a.x)) / (b.x - a.x) := by linarith
    by_contra hn
    have := div_neg_of_neg_of_pos (not_le.1 hn) hp
    linarith

theorem pos_of_mul {k z : ℚ} (hk : 0 < k) (h : 0 ≤ z * k) : 0 ≤ z := by
  by_contra hn
  have := mul_neg_of_neg_of_pos (not_le.1 hn) hk
  linarith

/-- `p` above the later edge is above the earlier one -/
theorem geomA {a b c p : Point} (hab : a.x < b.x) (hbc : b.x < c.x) (hcp : c.x < p.x)
    (h1 : 0 ≤ cross a b c) (h2 : 0 ≤ cross b c p) : 0 ≤ cross a b p := by
  apply pos_of_mul (show 0 < c.x - b.x by linarith)
  have : cross a b p * (c.x - b.x) = cross a b c * (p.x - b.x) + cross b c p * (b.x - a.x) := by
    unfold cross; ring
  rw [this]
  have h3 := mul_nonneg h1 (show 0 ≤ p.x - b.x by linarith)
  have h4 := mul_nonneg h2 (show 0 ≤ b.x - a.x by linarith)
  linarith

/-- observations left of `t` stay above the new edge -/
theorem geomB {a t p o : Point} (hat : a.x < t.x) (htp : t.x < p.x) (ho : o.x ≤ t.x)
    (h1 : 0 ≤ cross a t o) (h2 : 0 ≤ cross a t p) : 0 ≤ cross t p o := by
  apply pos_of_mul (show 0 < t.x - a.x by linarith)
  have : cross t p o * (t.x - a.x) = cross a t o * (p.x - t.x) + cross a t p * (t.x - o.x) := by
    unfold cross; ring
  rw [this]
  have h3 := mul_nonneg h1 (show 0 ≤ p.x - t.x by linarith)
  have h4 := mul_nonneg h2 (show 0 ≤ t.x - o.x by linarith)
  linarith

theorem geomC {a b p o : Point} (hab : a.x < b.x) (hbp : b.x < p.x) (ho : a.x ≤ o.x)
    (h1 : 0 ≤ cross a b o) (h2 : 0 ≤ cross a p b) : 0 ≤ cross a p o := by
  apply pos_of_mul (show 0 < b.x - a.x by linarith)
  have : cross a p o * (b.x - a.x) = cross a b o * (p.x - a.x) + cross a p b * (o.x - a.x) := by
    unfold cross; ring
  rw [this]
  have h3 := mul_nonneg h1 (show 0 ≤ p.x - a.x by linarith)
  have h4 := mul_nonneg h2 (show 0 ≤ o.x - a.x by linarith)
  linarith

theorem geomD {a b p o : Point} (hab : a.x < b.x) (hbp : b.x < p.x) (hop : o.x ≤ p.x)
    (h1 : 0 ≤ cross b p o) (h2 : 0 ≤ cross a p b) : 0 ≤ cross a p o := by
  apply pos_of_mul (show 0 < p.x - b.x by linarith)
  have : cross a p o * (p.x - b.x) = cross b p o * (p.x - a.x) + cross a p b * (p.x - o.x) := by
    unfold cross; ring
  rw [this]
  have h3 := mul_nonneg h1 (show 0 ≤ p.x - a.x by linarith)
  have h4 := mul_nonneg h2 (show 0 ≤ p.x - o.x by linarith)
  linarith

theorem cross_swap (a b p : Point) : cross a p b = -cross a b p := by unfold cross; ring

/-! ## the stack invariant -/

/-- stack (top first): increasing, and every observation on or above every edge -/
def Sup (obs : List Point) : List Point → Prop
  | [] => True
  | [_] => True
  | t :: a :: r => a.x < t.x ∧ (∀ o ∈ obs, 0 ≤ cross a t o) ∧ Sup obs (a :: r)

theorem sup_tail {obs : List Point} {t : Point} {r : List Point} (h : Sup obs (t :: r)) : Sup obs r := by
  cases r with
  | nil => trivial
  | cons a r => exact h.2.2

/-- a new point above the top edge is above all edges -/
theorem sup_extend {obs : List Point} {p : Point} : ∀ {st : List Point}, Sup obs st →
    (∀ q ∈ st, q ∈ obs) → (∀ o ∈ obs, o.x < p.x) → (∀ t a r, st = t :: a :: r → 0 ≤ cross a t p) →
    Sup (obs ++ [p]) st := by
  intro st
  induction st with
  | nil => intro _ _ _ _; trivial
  | cons t st ih =>
    intro hs hm hp htop
    cases st with
    | nil => trivial
    | cons a r =>
      obtain ⟨h1, h2, h3⟩ := hs
      refine ⟨h1, ?_, ih h3 (fun q hq => hm q (List.mem_cons_of_mem _ hq)) hp ?_⟩
      · intro o ho
        rcases List.mem_append.1 ho with ho | ho
        · exact h2 o ho
        · rw [List.mem_singleton.1 ho]; exact htop t a r rfl
      · intro t' a' r' e
        cases e
        obtain ⟨h4, h5, _⟩ := h3
        exact geomA h4 h1 (hp t (hm t (by simp))) (h5 t (hm t (by simp))) (htop t _ _ rfl)

/-- one popping step keeps: everything from the top on is above the line from the top to `p` -/
theorem pop_spec {obs : List Point} {p : Point} (hp : ∀ o ∈ obs, o.x < p.x) : ∀ st : List Point, st ≠ [] →
    Sup obs st → (∀ q ∈ st, q ∈ obs) →
    (∀ t, st.head? = some t → ∀ o ∈ obs, t.x ≤ o.x → 0 ≤ cross t p o) →
    ∃ pre, st = pre ++ popLoop p st ∧ popLoop p st ≠ [] ∧
      (∀ t, (popLoop p st).head? = some t → ∀ o ∈ obs, t.x ≤ o.x → 0 ≤ cross t p o) ∧
      (∀ t a r, popLoop p st = t :: a :: r → 0 ≤ cross a t p) := by
  intro st
  induction st with
  | nil => intro h; exact absurd rfl h
  | cons t st ih =>
    intro _ hs hm htop
    cases st with
    | nil => exact ⟨[], rfl, by simp [popLoop], htop, by simp [popLoop]⟩
    | cons a r =>
      rw [popLoop]
      by_cases hc : isAboveLine a p t = true
      · rw [if_pos hc]
        rw [isAboveLine_iff] at hc
        obtain ⟨h1, h2, h3⟩ := hs
        have htp := hp t (hm t (by simp))
        obtain ⟨pre, e1, e2, e3, e4⟩ := ih (by simp) h3 (fun q hq => hm q (List.mem_cons_of_mem _ hq)) (by
          intro a' ha o ho hao
          simp only [List.head?_cons, Option.some.injEq] at ha
          subst ha
          rcases le_total t.x o.x with hto | hot
          · exact geomD h1 htp (hp o ho).le (htop t rfl o ho hto) hc
          · exact geomC h1 htp hao (h2 o ho) hc)
        exact ⟨t :: pre, by rw [List.cons_append, ← e1], e2, e3, e4⟩
      · rw [if_neg hc]
        refine ⟨[], rfl, by simp, htop, ?_⟩
        intro t' a' r' e
        cases e
        rw [isAboveLine_iff, cross_swap] at hc
        linarith

theorem sup_suffix {obs : List Point} {pre st : List Point} (h : Sup obs (pre ++ st)) : Sup obs st := by
  induction pre with
  | nil => exact h
  | cons a pre ih => exact ih (sup_tail h)

/-- the invariant of the hull after a list of accepted observations -/
structure HullInv (obs h : List Point) : Prop where
  sub : h.Sublist obs
  first : h.head? = obs.head?
  last : h.getLast? = obs.getLast?
  incr : obs.Pairwise fun a b => a.x < b.x
  sup : Sup obs h.reverse

theorem last_max {obs : List Point} (h : obs.Pairwise fun a b => a.x < b.x) {t : Point}
    (ht : obs.getLast? = some t) : ∀ o ∈ obs, o.x ≤ t.x ∧ (t.x ≤ o.x → o = t) := by
  intro o ho
  obtain ⟨ys, rfl⟩ := List.getLast?_eq_some_iff.1 ht
  rw [List.pairwise_append] at h
  rcases List.mem_append.1 ho with ho | ho
  · have := h.2.2 o ho t (by simp)
    exact ⟨this.le, fun h' => absurd h' (not_le.2 this)⟩
  · rw [List.mem_singleton.1 ho]; exact ⟨le_refl _, fun _ => rfl⟩

theorem push_inv {obs h : List Point} (hi : HullInv obs h) (p : Point) (hp : ∀ o ∈ obs, o.x < p.x) :
    HullInv (obs ++ [p]) (pushHull h p) := by
  have hincr : (obs ++ [p]).Pairwise fun a b => a.x < b.x := by
    rw [List.pairwise_append]
    exact ⟨hi.incr, by simp, fun a ha b hb => by rw [List.mem_singleton.1 hb]; exact hp a ha⟩
  cases hne : h with
  | nil =>
    have hobs : obs = [] := by
      have := hi.first; rw [hne] at this; simpa using this.symm
    subst hobs
    simp only [pushHull, List.reverse_nil, isAboveTopLine, if_true, List.nil_append]
    exact ⟨List.Sublist.refl _, rfl, rfl, by simp, trivial⟩
  | cons h0 hs =>
    rw [← hne]
    have hne' : h ≠ [] := by rw [hne]; simp
    have hmem : ∀ q ∈ h.reverse, q ∈ obs := fun q hq => hi.sub.subset (List.mem_reverse.1 hq)
    -- the kept part of the stack
    obtain ⟨keep, hkeep, pre, e1, e2, e3, e4⟩ : ∃ keep : List Point, pushHull h p = keep.reverse ++ [p] ∧
        ∃ pre, h.reverse = pre ++ keep ∧ keep ≠ [] ∧
        (∀ t, keep.head? = some t → ∀ o ∈ obs, t.x ≤ o.x → 0 ≤ cross t p o) ∧
        (∀ t a r, keep = t :: a :: r → 0 ≤ cross a t p) := by
      have htop : ∀ t, h.reverse.head? = some t → ∀ o ∈ obs, t.x ≤ o.x → 0 ≤ cross t p o := by
        intro t ht o ho hto
        rw [List.head?_reverse, hi.last] at ht
        rw [(last_max hi.incr ht o ho).2 hto]
        simp [cross]
      unfold pushHull
      by_cases hab : isAboveTopLine h.reverse p = true
      · refine ⟨h.reverse, by simp [hab], [], rfl, by simpa using hne', htop, ?_⟩
        intro t a r e
        rw [e] at hab
        exact (isAboveLine_iff _ _ _).1 hab
      · refine ⟨popLoop p h.reverse, by simp [hab], ?_⟩
        exact pop_spec hp _ (by simpa using hne') hi.sup hmem htop
    have hkm : ∀ q ∈ keep, q ∈ obs := fun q hq => hmem q (by rw [e1]; simp [hq])
    have hks : Sup obs keep := sup_suffix (e1 ▸ hi.sup)
    have hke := sup_extend hks hkm hp e4
    have hsub : keep.reverse.Sublist h := by
      have : h = keep.reverse ++ pre.reverse := by
        rw [← List.reverse_append, ← e1, List.reverse_reverse]
      rw [this]; exact List.sublist_append_left _ _
    rw [hkeep]
    refine ⟨(hsub.trans hi.sub).append_right _, ?_, by simp, hincr, ?_⟩
    · have hobs : obs ≠ [] := by
        intro e; have := hi.first; rw [e, hne] at this; simp at this
      have hh : h = keep.reverse ++ pre.reverse := by
        rw [← List.reverse_append, ← e1, List.reverse_reverse]
      have hk' : keep.reverse ≠ [] := by simpa using e2
      rw [List.head?_append_of_ne_nil _ hk', List.head?_append_of_ne_nil _ hobs, ← hi.first, hh,
        List.head?_append_of_ne_nil _ hk']
    · rw [List.reverse_append, List.reverse_reverse, List.reverse_singleton, List.singleton_append]
      cases hk : keep with
      | nil => trivial
      | cons t r =>
        have htm : t ∈ obs := hkm t (by rw [hk]; simp)
        rw [hk] at hke
        refine ⟨hp t htm, ?_, hke⟩
        intro o ho
        rcases List.mem_append.1 ho with ho | ho
        · rcases le_total t.x o.x with hto | hot
          · exact e3 t (by rw [hk]; rfl) o ho hto
          · cases r with
            | nil =>
              -- `t` is the first observation
              have hh : h = keep.reverse ++ pre.reverse := by
                rw [← List.reverse_append, ← e1, List.reverse_reverse]
              have hf := hi.first
              rw [hh, hk] at hf
              simp only [List.reverse_singleton, List.singleton_append, List.head?_cons] at hf
              cases hob : obs with
              | nil => rw [hob] at ho; simp at ho
              | cons o0 os =>
                rw [hob] at hf ho
                simp only [List.head?_cons, Option.some.injEq] at hf
                subst hf
                have hinc := hi.incr
                rw [hob, List.pairwise_cons] at hinc
                rcases List.mem_cons.1 ho with rfl | ho
                · simp [cross]
                · exact absurd hot (not_le.2 (hinc.1 o ho))
            | cons a r =>
              rw [hk] at hks
              exact geomB hks.1 (hp t htm) hot (hks.2.1 o ho) (e4 t a r hk)
        · rw [List.mem_singleton.1 ho]
          have : cross t p p = 0 := by unfold cross; ring
          rw [this]

/-- from the stack form to neighbours -/
theorem sup_neighbours {obs : List Point} : ∀ {st : List Point}, Sup obs st → ∀ a b, Neighbours st.reverse a b →
    a.x < b.x ∧ ∀ o ∈ obs, 0 ≤ cross a b o := by
  intro st
  induction st with
  | nil => rintro _ a b ⟨i, h, _⟩; simp at h
  | cons t st ih =>
    rintro hs a b ⟨i, h1, h2⟩
    rw [List.reverse_cons] at h1 h2
    by_cases hi : i + 1 < st.reverse.length
    · rw [List.getElem?_append_left (by omega)] at h1
      rw [List.getElem?_append_left hi] at h2
      exact ih (sup_tail hs) a b ⟨i, h1, h2⟩
    · have hlt : i + 1 < (st.reverse ++ [t]).length := by
        by_contra hc
        rw [List.getElem?_eq_none (by omega)] at h2; simp at h2
      simp only [List.length_append, List.length_reverse, List.length_singleton] at hlt hi
      have hi' : i + 1 = st.length := by omega
      cases st with
      | nil => simp at hi'
      | cons a' r =>
        rw [hi', List.getElem?_append_right (by simp)] at h2
        simp at h2
        subst h2
        have e : i = r.reverse.length := by simp at hi' ⊢; omega
        rw [List.getElem?_append_left (by simp at hi' ⊢; omega), List.reverse_cons, e,
          List.getElem?_append_right (le_refl _)] at h1
        simp at h1
        subst h1
        exact ⟨hs.1, hs.2.1⟩

theorem HullInv.isLowerHull {obs h : List Point} (hi : HullInv obs h) : IsLowerHull obs h := by
  refine ⟨hi.sub, hi.first, hi.last, hi.incr.sublist hi.sub, ?_⟩
  intro a b hn o ho
  have := sup_neighbours (st := h.reverse) hi.sup a b (by rwa [List.reverse_reverse])
  exact (cross_line this.1 o).1 (this.2 o ho)

/-! ## histories -/

theorem rejects_iff {obs h : List Point} (hi : HullInv obs h) (r : ℚ) :
    rejects h r = true ↔ ¬ ∀ o ∈ obs, o.x < r := by
  unfold rejects
  rw [hi.last]
  cases hl : obs.getLast? with
  | none =>
    have : obs = [] := List.getLast?_eq_none_iff.1 hl
    simp [this]
  | some t =>
    simp only [decide_eq_true_eq]
    constructor
    · intro h h3
      have := h3 t (List.mem_of_getLast? hl)
      linarith
    · intro h
      push Not at h
      obtain ⟨o, ho, hr⟩ := h
      exact hr.trans (last_max hi.incr hl o ho).1

theorem correct_hull (cast : ℚ → ℚ) {obs : List Point} {c : Corr} (hi : HullInv obs c.hull) (p : Point) :
    ((∀ o ∈ obs, o.x < p.x) → (correct cast c p.x p.y).2.hull = pushHull c.hull p ∧
      HullInv (obs ++ [p]) (correct cast c p.x p.y).2.hull) ∧
    ((¬ ∀ o ∈ obs, o.x < p.x) → correct cast c p.x p.y = (.threw, c)) := by
  constructor
  · intro h
    have hr : ¬ rejects c.hull p.x = true := by
      rw [rejects_iff hi]; exact not_not.2 h
    have e : (correct cast c p.x p.y).2.hull = pushHull c.hull p := by
      unfold correct
      rw [if_neg hr]
      dsimp only
      split <;> rfl
    exact ⟨e, e ▸ push_inv hi p h⟩
  · intro h
    rw [← rejects_iff hi] at h
    unfold correct
    rw [if_pos h]

theorem accepted_snoc (inputs : List Point) (p : Point) :
    accepted (inputs ++ [p]) = if ∀ q ∈ accepted inputs, q.x < p.x then accepted inputs ++ [p]
      else accepted inputs := by
  simp only [accepted, List.foldl_append, List.foldl_cons, List.foldl_nil]
  congr

theorem feed_snoc (cast : ℚ → ℚ) (c : Corr) (inputs : List Point) (p : Point) :
    feed cast c (inputs ++ [p]) = (correct cast (feed cast c inputs) p.x p.y).2 := by
  simp only [feed, List.foldl_append, List.foldl_cons, List.foldl_nil]

theorem feed_inv (cast : ℚ → ℚ) (inputs : List Point) :
    HullInv (accepted inputs) (feed cast .fresh inputs).hull := by
  induction inputs using List.reverseRecOn with
  | nil => exact ⟨List.Sublist.refl _, rfl, rfl, List.Pairwise.nil, trivial⟩
  | append_singleton inputs p ih =>
    rw [accepted_snoc, feed_snoc]
    have h := correct_hull cast ih p
    split
    · rename_i hc; exact (h.1 hc).2
    · rename_i hc; rw [h.2 hc]; exact ih

/-! ## C42 -/

/-- **C42** After any sequence of calls the stored points are a convex lower hull of the accepted
observations (those with a remote time later than all accepted before); a call with any other remote time
throws and changes nothing. -/
theorem C42_hull (cast : ℚ → ℚ) (inputs : List Point) :
    IsLowerHull (accepted inputs) (feed cast .fresh inputs).hull ∧
    ∀ r l, (¬ ∀ o ∈ accepted inputs, o.x < r) →
      correct cast (feed cast .fresh inputs) r l = (.threw, feed cast .fresh inputs) := by
  refine ⟨(feed_inv cast inputs).isLowerHull, fun r l h => ?_⟩
  exact (correct_hull cast (feed_inv cast inputs) ⟨r, l⟩).2 h

/-- **C42** A lower hull in this sense is convex: the slopes of successive edges do not decrease. -/
theorem C42_convex {obs h : List Point} (hh : IsLowerHull obs h) (a b c : Point)
    (hab : Neighbours h a b) (hbc : Neighbours h b c) :
    (b.y - a.y) / (b.x - a.x) ≤ (c.y - b.y) / (c.x - b.x) := by
  obtain ⟨i, hi1, hi2⟩ := hab
  obtain ⟨j, hj1, hj2⟩ := hbc
  have lt : ∀ k u v, h[k]? = some u → h[k + 1]? = some v → u.x < v.x := by
    intro k u v h1 h2
    obtain ⟨l1, e1⟩ := List.getElem?_eq_some_iff.1 h1
    obtain ⟨l2, e2⟩ := List.getElem?_eq_some_iff.1 h2
    have := List.pairwise_iff_getElem.1 hh.increasing k (k + 1) l1 l2 (by omega)
    rwa [e1, e2] at this
  have h1 := lt i a b hi1 hi2
  have h2 := lt j b c hj1 hj2
  have hc : c ∈ obs := hh.sub.subset (List.mem_of_getElem? hj2)
  have := hh.below a b ⟨i, hi1, hi2⟩ c hc
  unfold lineAt at this
  rw [le_div_iff₀ (by linarith)]
  have e : (b.y - a.y) / (b.x - a.x) * (b.x - a.x) = b.y - a.y := div_mul_cancel₀ _ (by linarith)
  have e2 : (b.y - a.y) / (b.x - a.x) * (c.x - a.x) =
      (b.y - a.y) / (b.x - a.x) * (c.x - b.x) + (b.y - a.y) / (b.x - a.x) * (b.x - a.x) := by ring
  linarith

/-- Concrete: a history where a point is popped. -/
example : (feed id .fresh [⟨0, 0⟩, ⟨1, 3⟩, ⟨2, 1⟩, ⟨1, 5⟩]).hull = [⟨0, 0⟩, ⟨2, 1⟩] ∧
    accepted [⟨0, 0⟩, ⟨1, 3⟩, ⟨2, 1⟩, ⟨1, 5⟩] = [⟨0, 0⟩, ⟨1, 3⟩, ⟨2, 1⟩] := by decide +kernel

/-! ## C43, C44 -/

/-- the time type: which rationals are times, and the conversion of a computed value to a time: it is
monotone, leaves times alone, and the converted midpoint of two times with a time in between lies after the
first -/
structure TimeCast (isTime : ℚ → Prop) (cast : ℚ → ℚ) : Prop where
  mono : Monotone cast
  fix : ∀ x, isTime x → cast x = x
  mid : ∀ a b c, isTime a → isTime b → isTime c → a < b → b < c → a < cast ((a + c) / 2)

/-- (idealised) floating point times -/
theorem timeCast_exact : TimeCast (fun _ => True) id :=
  ⟨monotone_id, fun _ _ => rfl, fun a b c _ _ _ h1 h2 => by simp only [id]; linarith⟩

theorem trunc_mono : Monotone trunc := by
  intro x y h
  unfold trunc
  split <;> split
  · exact Int.floor_le_floor h
  · exfalso; rename_i h1 h2; exact h2 (h1.trans h)
  · rename_i h1 h2
    exact (Int.ceil_le.2 (by push_cast; linarith : x ≤ ((0 : ℤ) : ℚ))).trans (Int.floor_nonneg.2 h2)
  · exact Int.ceil_le_ceil h

/-- integer times (`NsecTime`) -/
theorem timeCast_int : TimeCast (fun x => ∃ n : ℤ, x = n) (fun x => (trunc x : ℚ)) := by
  refine ⟨fun x y h => by exact_mod_cast trunc_mono h, ?_, ?_⟩
  · rintro x ⟨n, rfl⟩; exact_mod_cast trunc_int n
  · rintro a b c ⟨a, rfl⟩ ⟨b, rfl⟩ ⟨c, rfl⟩ h1 h2
    have h1 : a < b := by exact_mod_cast h1
    have h2 : b < c := by exact_mod_cast h2
    have h3 : ((a + 1 : ℤ) : ℚ) ≤ ((a : ℚ) + c) / 2 := by
      have : ((a + 2 : ℤ) : ℚ) ≤ c := by exact_mod_cast (by omega : a + 2 ≤ c)
      push_cast at this ⊢; linarith
    have h4 := trunc_mono h3
    rw [trunc_int] at h4
    exact_mod_cast (by omega : a < trunc (((a : ℚ) + c) / 2))

theorem predWrap_pos {i : ℕ} (h : 0 < i) : predWrap i + 1 = i := by
  unfold predWrap; rw [if_neg (by omega)]; omega

/-- with three points the computed segment exists -/
theorem segment_exists {isTime : ℚ → Prop} {cast : ℚ → ℚ} (tc : TimeCast isTime cast) {obs h : List Point}
    (hi : HullInv obs h) (ht : ∀ o ∈ obs, isTime o.x) (hl : 3 ≤ h.length) (r : ℚ)
    (hr : ∃ p, h.getLast? = some p ∧ p.x = r) :
    ∃ a b, (Corr.mk h (predWrap (lowerBound h (cast (((h.headD ⟨0, 0⟩).x + r) / 2))))).segment = some (a, b) ∧
      Neighbours h a b ∧ a.x < cast (((h.headD ⟨0, 0⟩).x + r) / 2) ∧ cast (((h.headD ⟨0, 0⟩).x + r) / 2) ≤ b.x := by
  obtain ⟨p, hp, rfl⟩ := hr
  have hinc : h.Pairwise fun a b => a.x < b.x := hi.incr.sublist hi.sub
  have hlt : ∀ i j (hi : i < h.length) (hj : j < h.length), i < j → h[i].x < h[j].x := by
    intro i j hi hj hij; exact List.pairwise_iff_getElem.1 hinc i j hi hj hij
  have hlast : h[h.length - 1] = p := by
    rw [List.getLast?_eq_some_getLast (by rintro rfl; simp at hl)] at hp
    rw [← Option.some.inj hp, List.getLast_eq_getElem]
  have hhead : h.headD ⟨0, 0⟩ = h[0] := by
    cases h with
    | nil => simp at hl
    | cons => rfl
  have htime : ∀ i (hi' : i < h.length), isTime h[i].x := fun i hi' => ht _ (hi.sub.subset (List.getElem_mem hi'))
  set m := cast (((h.headD ⟨0, 0⟩).x + p.x) / 2) with hm
  have hm1 : h[0].x < m := by
    have := tc.mid h[0].x h[1].x h[h.length - 1].x (htime _ _) (htime _ _) (htime _ _)
      (hlt 0 1 (by omega) (by omega) (by omega)) (hlt 1 _ (by omega) (by omega) (by omega))
    rw [hm, hhead]
    rwa [hlast] at this
  have hm2 : m ≤ p.x := by
    have h0 : h[0].x < p.x := by rw [← hlast]; exact hlt 0 _ (by omega) (by omega) (by omega)
    have : m ≤ cast p.x := tc.mono (by rw [hhead]; linarith)
    rwa [tc.fix _ (by rw [← hlast]; exact htime _ _)] at this
  have hidx : lowerBound h m < h.length := by
    unfold lowerBound
    rw [List.findIdx_lt_length]
    exact ⟨h[h.length - 1], List.getElem_mem _, by rw [hlast]; simpa using hm2⟩
  have hpos : 0 < lowerBound h m := by
    by_contra hc
    have h0 : lowerBound h m = 0 := by omega
    have := List.findIdx_getElem (w := hidx)
    simp only [decide_eq_true_eq] at this
    have e : h[h.findIdx fun q => decide (m ≤ q.x)] = h[0] := by
      congr 1
    rw [e] at this
    linarith
  have hk := predWrap_pos hpos
  generalize hg : predWrap (lowerBound h m) = k at hk
  have hk1 : k < h.length := by omega
  have hk2 : k + 1 < h.length := by omega
  refine ⟨h[k], h[k + 1], ?_, ⟨k, List.getElem?_eq_getElem hk1, List.getElem?_eq_getElem hk2⟩, ?_, ?_⟩
  rotate_left
  · have := List.not_of_lt_findIdx (xs := h) (p := fun q : Point => decide (m ≤ q.x)) (i := k)
      (by unfold lowerBound at hk; omega)
    simpa using this
  · have := List.findIdx_getElem (w := hidx)
    simp only [decide_eq_true_eq] at this
    have e : h[h.findIdx fun q => decide (m ≤ q.x)] = h[k + 1] := by
      congr 1; exact hk.symm
    rwa [e] at this
  simp only [Corr.segment, List.getElem?_eq_getElem hk1, List.getElem?_eq_getElem hk2]

theorem push_last (h : List Point) (p : Point) : (pushHull h p).getLast? = some p := by
  unfold pushHull; simp

theorem accepted_sub (inputs : List Point) : (accepted inputs).Sublist inputs := by
  induction inputs using List.reverseRecOn with
  | nil => exact List.Sublist.refl _
  | append_singleton inputs p ih =>
    rw [accepted_snoc]
    split
    · exact ih.append_right _
    · exact ih.trans (List.sublist_append_left _ _)

/-- after any history with at least three hull points, the segment index is in range -/
theorem segment_valid {isTime : ℚ → Prop} {cast : ℚ → ℚ} (tc : TimeCast isTime cast) (inputs : List Point)
    (ht : ∀ o ∈ inputs, isTime o.x) (hl : 3 ≤ (feed cast .fresh inputs).hull.length) :
    ∃ a b, (feed cast .fresh inputs).segment = some (a, b) ∧ Neighbours (feed cast .fresh inputs).hull a b := by
  induction inputs using List.reverseRecOn with
  | nil => simp [feed, Corr.fresh] at hl
  | append_singleton inputs p ih =>
    have hi := feed_inv cast inputs
    rw [feed_snoc] at hl ⊢
    by_cases hacc : ∀ o ∈ accepted inputs, o.x < p.x
    · obtain ⟨h1, h2⟩ := (correct_hull cast hi p).1 hacc
      have hr : ¬ rejects (feed cast .fresh inputs).hull p.x = true := by
        rw [rejects_iff hi]; exact not_not.2 hacc
      rw [h1] at hl h2
      have hc : (correct cast (feed cast .fresh inputs) p.x p.y).2 =
          ⟨pushHull (feed cast .fresh inputs).hull p, predWrap (lowerBound (pushHull (feed cast .fresh inputs).hull p)
            (cast ((((pushHull (feed cast .fresh inputs).hull p).headD ⟨0, 0⟩).x + p.x) / 2)))⟩ := by
        unfold correct
        rw [if_neg hr, if_pos hl]
      rw [hc]
      have hall : ∀ o ∈ accepted inputs ++ [p], isTime o.x := by
        intro o ho
        rcases List.mem_append.1 ho with ho | ho
        · exact ht o (by simp [(accepted_sub inputs).subset ho])
        · exact ht o (by simp [List.mem_singleton.1 ho])
      obtain ⟨a, b, h3, h4, _⟩ := segment_exists tc h2 hall hl p.x ⟨p, push_last _ _, rfl⟩
      exact ⟨a, b, h3, h4⟩
    · rw [(correct_hull cast hi p).2 hacc] at hl ⊢
      exact ih (fun o ho => ht o (by simp [ho])) hl

/-- **C43** While the hull has at least three points: the corrector's time is given by the line through two
neighbouring hull points — its slope and offset are the ones `getSlope` and `getOffset` return — and no
observation ever accepted lies below that line; so the corrected time of a fed remote time is never after
its recorded local time.  The line is strictly increasing if the accepted local times were. -/
theorem C43_line {isTime : ℚ → Prop} {cast : ℚ → ℚ} (tc : TimeCast isTime cast) (inputs : List Point)
    (ht : ∀ o ∈ inputs, isTime o.x ∧ isTime o.y)
    (hl : 3 ≤ (feed cast .fresh inputs).hull.length) :
    ∃ a b, Neighbours (feed cast .fresh inputs).hull a b ∧
      (∀ r, getLocalTime cast (feed cast .fresh inputs) r = .value (cast (lineAt a b r))) ∧
      (∃ s o, getSlope (feed cast .fresh inputs) = .value s ∧ getOffset (feed cast .fresh inputs) = .value o ∧
        ∀ r, lineAt a b r = o + s * r) ∧
      (∀ o ∈ accepted inputs, lineAt a b o.x ≤ o.y ∧ cast (lineAt a b o.x) ≤ o.y) ∧
      ((accepted inputs).Pairwise (fun o o' => o.y < o'.y) → StrictMono (lineAt a b)) := by
  obtain ⟨a, b, hs, hn⟩ := segment_valid tc inputs (fun o ho => (ht o ho).1) hl
  have hi := (feed_inv cast inputs)
  have hh := hi.isLowerHull
  have hlen : ¬ (feed cast .fresh inputs).hull.length < 2 := by omega
  obtain ⟨hab, _⟩ := sup_neighbours (st := (feed cast .fresh inputs).hull.reverse) hi.sup a b
    (by rwa [List.reverse_reverse])
  refine ⟨a, b, hn, ?_, ?_, ?_, ?_⟩
  · intro r
    simp only [getLocalTime, if_neg hlen, hs, lineAt]
  · refine ⟨_, _, by simp only [getSlope, if_neg hlen, hs]; rfl,
      by simp only [getOffset, if_neg hlen, hs]; rfl, ?_⟩
    intro r
    have : b.x - a.x ≠ 0 := by linarith
    unfold lineAt
    field_simp
    ring
  · intro o ho
    have h1 := hh.below a b hn o ho
    refine ⟨h1, ?_⟩
    have h2 := tc.mono h1
    rwa [tc.fix _ (ht o ((accepted_sub inputs).subset ho)).2] at h2
  · intro hy x y hxy
    have hy' : a.y < b.y := by
      obtain ⟨i, h1, h2⟩ := hn
      obtain ⟨l1, e1⟩ := List.getElem?_eq_some_iff.1 h1
      obtain ⟨l2, e2⟩ := List.getElem?_eq_some_iff.1 h2
      have := List.pairwise_iff_getElem.1 (hy.sublist hi.sub) i (i + 1) l1 l2 (by omega)
      rwa [e1, e2] at this
    have : 0 < (b.y - a.y) / (b.x - a.x) := div_pos (by linarith) (by linarith)
    unfold lineAt
    have := mul_lt_mul_of_pos_left (show x - a.x < y - a.x by linarith) this
    linarith

/-- **C43** Every accepted call returns a time not after the local time it was given (and reads only
existing points). -/
theorem C43_returned {isTime : ℚ → Prop} {cast : ℚ → ℚ} (tc : TimeCast isTime cast) (inputs : List Point)
    (ht : ∀ o ∈ inputs, isTime o.x ∧ isTime o.y) (p : Point) (hp : isTime p.x ∧ isTime p.y)
    (hacc : ∀ o ∈ accepted inputs, o.x < p.x) :
    ∃ v, (correct cast (feed cast .fresh inputs) p.x p.y).1 = .value v ∧ v ≤ p.y := by
  have hi := feed_inv cast inputs
  have hr : ¬ rejects (feed cast .fresh inputs).hull p.x = true := by
    rw [rejects_iff hi]; exact not_not.2 hacc
  obtain ⟨h1, _⟩ := (correct_hull cast hi p).1 hacc
  by_cases hl : 3 ≤ (pushHull (feed cast .fresh inputs).hull p).length
  · have hl' : 3 ≤ (feed cast .fresh (inputs ++ [p])).hull.length := by rw [feed_snoc, h1]; exact hl
    have ht' : ∀ o ∈ inputs ++ [p], isTime o.x ∧ isTime o.y := by
      intro o ho
      rcases List.mem_append.1 ho with ho | ho
      · exact ht o ho
      · rw [List.mem_singleton.1 ho]; exact hp
    obtain ⟨a, b, _, hv, _, hle, _⟩ := C43_line tc (inputs ++ [p]) ht' hl'
    refine ⟨_, ?_, (hle p (by rw [accepted_snoc, if_pos hacc]; simp)).2⟩
    rw [← hv p.x, feed_snoc]
    unfold correct
    rw [if_neg hr, if_pos hl]
  · refine ⟨p.y, ?_, le_refl _⟩
    unfold correct
    rw [if_neg hr, if_neg hl]

example : let inputs : List Point := [⟨0, 0⟩, ⟨1, 1⟩, ⟨2, 5⟩, ⟨4, 8⟩]
    3 ≤ (feed (fun x => (trunc x : ℚ)) .fresh inputs).hull.length ∧
    getLocalTime (fun x => (trunc x : ℚ)) (feed (fun x => (trunc x : ℚ)) .fresh inputs) 4 = .value 8 := by
  decide +kernel

/-- what users expect of the queries -/
def C44_claim : Prop :=
  ∀ (inputs : List Point) (r : ℚ), getLocalTime id (feed id .fresh inputs) r ≠ .ub

/-- **C44** is false: when an observation pops the hull down to two points the segment index is not
updated, and the next query reads past the end of the hull. -/
theorem C44_negation : ¬ C44_claim := by
  intro h
  exact absurd (h [⟨0, 0⟩, ⟨1, 1⟩, ⟨10, 100⟩, ⟨11, 0⟩] 0) (by decide +kernel)

theorem push_length_pos (h : List Point) (p : Point) : 1 ≤ (pushHull h p).length := by
  unfold pushHull; simp

/-- **C44, what holds**: a query throws exactly while the hull has fewer than two points; with three or
more it reads only existing points; with exactly two it does iff the segment index is 0, which is so as long
as the hull has never had three points. -/
theorem C44_partial {isTime : ℚ → Prop} {cast : ℚ → ℚ} (tc : TimeCast isTime cast) (inputs : List Point)
    (ht : ∀ o ∈ inputs, isTime o.x) (r : ℚ) :
    let c := feed cast .fresh inputs
    (getLocalTime cast c r = .threw ↔ c.hull.length < 2) ∧
    (3 ≤ c.hull.length → getLocalTime cast c r ≠ .ub ∧ getSlope c ≠ .ub ∧ getOffset c ≠ .ub) ∧
    (c.hull.length = 2 → ((getLocalTime cast c r ≠ .ub ↔ c.mid = 0) ∧ (getSlope c ≠ .ub ↔ c.mid = 0) ∧
      (getOffset c ≠ .ub ↔ c.mid = 0))) ∧
    ((∀ pre, pre <+: inputs → (feed cast .fresh pre).hull.length < 3) → c.mid = 0) := by
  intro c
  refine ⟨?_, ?_, ?_, ?_⟩
  · unfold getLocalTime
    split
    · simp [*]
    · rename_i h; simp only [h, iff_false]; split <;> simp
  · intro hl
    obtain ⟨a, b, hs, _⟩ := segment_valid tc inputs ht hl
    have hlen : ¬ c.hull.length < 2 := by omega
    simp [getLocalTime, getSlope, getOffset, hlen, show c.segment = some (a, b) from hs]
  · intro hl
    have hlen : ¬ c.hull.length < 2 := by omega
    have hseg : c.segment = none ↔ c.mid ≠ 0 := by
      unfold Corr.segment
      rcases Nat.eq_zero_or_pos c.mid with h0 | h0
      · have h1 : 0 < c.hull.length := by omega
        have h2 : 1 < c.hull.length := by omega
        simp [h0, List.getElem?_eq_getElem h1, List.getElem?_eq_getElem h2]
      · rw [List.getElem?_eq_none (show c.hull.length ≤ c.mid + 1 by omega)]
        cases c.hull[c.mid]? <;> simp <;> omega
    unfold getLocalTime getSlope getOffset
    simp only [if_neg hlen]
    cases hs : c.segment with
    | none => have := hseg.1 hs; simp [this]
    | some ab =>
      have : c.mid = 0 := by
        by_contra hc; rw [hseg.2 hc] at hs; simp at hs
      simp [this]
  · intro hpre
    show (feed cast .fresh inputs).mid = 0
    induction inputs using List.reverseRecOn with
    | nil => rfl
    | append_singleton inputs p ih =>
      have ih' := ih (fun o ho => ht o (by simp [ho])) (fun pre hp => hpre pre (hp.trans (List.prefix_append _ _)))
      have hl := hpre (inputs ++ [p]) List.prefix_rfl
      rw [feed_snoc] at hl ⊢
      unfold correct at hl ⊢
      by_cases h1 : rejects (feed cast .fresh inputs).hull p.x = true
      · rw [if_pos h1] at hl ⊢; exact ih'
      · rw [if_neg h1] at hl ⊢
        by_cases h2 : 3 ≤ (pushHull (feed cast .fresh inputs).hull p).length
        · simp only [show (⟨p.x, p.y⟩ : Point) = p from rfl, if_pos h2] at hl; omega
        · simp only [show (⟨p.x, p.y⟩ : Point) = p from rfl, if_neg h2]; exact ih'

/-! ## C64 -/

/-- a run of three-argument calls with one switching period: the outcomes and the final state -/
def run3 (cast : ℚ → ℚ) (period : ℚ) (d : Dual) : List Point → List Res × Dual
  | [] => ([], d)
  | p :: ps => ((correct3 cast d p.x p.y period).1 :: (run3 cast period (correct3 cast d p.x p.y period).2 ps).1,
      (run3 cast period (correct3 cast d p.x p.y period).2 ps).2)

theorem accepted_of_increasing {l : List Point} (h : l.Pairwise fun a b => a.x < b.x) : accepted l = l := by
  induction l using List.reverseRecOn with
  | nil => rfl
  | append_singleton l p ih =>
    rw [List.pairwise_append] at h
    rw [accepted_snoc, ih h.1, if_pos fun q hq => h.2.2 q hq p (by simp)]

/-- state after some accepted observations: main and pending correctors have been fed recent stretches -/
structure DualInv (cast : ℚ → ℚ) (obs : List Point) (d : Dual) : Prop where
  incr : obs.Pairwise fun a b => a.x < b.x
  main : ∃ s, s <:+ obs ∧ (s = [] → obs = []) ∧ d.main = feed cast .fresh s
  pend : ∀ p, d.pending = some p → ∃ s, s <:+ obs ∧ p = feed cast .fresh s

theorem correct3_spec {isTime : ℚ → Prop} {cast : ℚ → ℚ} (tc : TimeCast isTime cast) {period : ℚ}
    (hper : 0 ≤ period) {obs : List Point} (ht : ∀ o ∈ obs, isTime o.x ∧ isTime o.y) {d : Dual}
    (hi : DualInv cast obs d) (p : Point) (hp : isTime p.x ∧ isTime p.y) :
    ((∀ o ∈ obs, o.x < p.x) → (∃ v, (correct3 cast d p.x p.y period).1 = .value v ∧ v ≤ p.y) ∧
      DualInv cast (obs ++ [p]) (correct3 cast d p.x p.y period).2) ∧
    ((¬ ∀ o ∈ obs, o.x < p.x) → correct3 cast d p.x p.y period = (.threw, d)) := by
  obtain ⟨s, hs, hse, hm⟩ := hi.main
  have hsinc : s.Pairwise fun a b => a.x < b.x := hi.incr.sublist hs.sublist
  have hsacc := accepted_of_increasing hsinc
  constructor
  · intro hacc
    have hincr : (obs ++ [p]).Pairwise fun a b => a.x < b.x := by
      rw [List.pairwise_append]
      exact ⟨hi.incr, by simp, fun a ha b hb => by rw [List.mem_singleton.1 hb]; exact hacc a ha⟩
    have step : ∀ s', s' <:+ obs → (∃ v, (correct cast (feed cast .fresh s') p.x p.y).1 = .value v ∧ v ≤ p.y) ∧
        (correct cast (feed cast .fresh s') p.x p.y).2 = feed cast .fresh (s' ++ [p]) := by
      intro s' hs'
      have hinc' : s'.Pairwise fun a b => a.x < b.x := hi.incr.sublist hs'.sublist
      refine ⟨C43_returned tc s' (fun o ho => ht o (hs'.subset ho)) p hp ?_, (feed_snoc _ _ _ _).symm⟩
      rw [accepted_of_increasing hinc']
      exact fun o ho => hacc o (hs'.subset ho)
    have suf : ∀ s', s' <:+ obs → s' ++ [p] <:+ obs ++ [p] := by
      rintro s' ⟨t, rfl⟩; exact ⟨t, by simp⟩
    obtain ⟨⟨v, hv, hle⟩, hmain⟩ := step s hs
    have hm' : correct cast d.main p.x p.y = (.value v, feed cast .fresh (s ++ [p])) := by
      rw [hm]; exact Prod.ext hv hmain
    have mainInv : ∀ s', s' <:+ obs → ∃ s'', s'' <:+ obs ++ [p] ∧ (s'' = [] → obs ++ [p] = []) ∧
        feed cast .fresh (s' ++ [p]) = feed cast .fresh s'' :=
      fun s' h => ⟨s' ++ [p], suf s' h, by simp, rfl⟩
    have freshInv : ∃ s'', s'' <:+ obs ++ [p] ∧ Corr.fresh = feed cast .fresh s'' :=
      ⟨[], List.nil_suffix, rfl⟩
    -- with a pending corrector that has been fed `sp`
    have withPending : ∀ sp, sp <:+ obs → ∀ out d', (match correct cast (feed cast .fresh sp) p.x p.y with
        | (.value _, p') =>
          if period < span (feed cast .fresh (s ++ [p])) then (Res.value v, (⟨p', some .fresh⟩ : Dual))
          else (.value v, ⟨feed cast .fresh (s ++ [p]), some p'⟩)
        | (.threw, _) => (.threw, ⟨feed cast .fresh (s ++ [p]), some (feed cast .fresh sp)⟩)
        | (.ub, p') => (.ub, ⟨feed cast .fresh (s ++ [p]), some p'⟩)) = (out, d') →
        out = .value v ∧ DualInv cast (obs ++ [p]) d' := by
      intro sp hsp out d' e
      obtain ⟨⟨v', hv', _⟩, hpend⟩ := step sp hsp
      have : correct cast (feed cast .fresh sp) p.x p.y = (.value v', feed cast .fresh (sp ++ [p])) :=
        Prod.ext hv' hpend
      rw [this] at e
      simp only at e
      split at e
      · cases e
        refine ⟨rfl, hincr, mainInv sp hsp, ?_⟩
        intro q hq; cases hq; exact freshInv
      · cases e
        refine ⟨rfl, hincr, mainInv s hs, ?_⟩
        intro q hq; cases hq; exact ⟨sp ++ [p], suf sp hsp, rfl⟩
    unfold correct3
    rw [hm']
    dsimp only
    cases hp' : d.pending with
    | some pc =>
      obtain ⟨sp, hsp, rfl⟩ := hi.pend pc hp'
      obtain ⟨h1, h2⟩ := withPending sp hsp _ _ (Prod.mk.eta).symm
      exact ⟨⟨v, h1, hle⟩, h2⟩
    | none =>
      dsimp only
      by_cases hspan : period / 2 < span (feed cast .fresh (s ++ [p]))
      · rw [if_pos hspan]
        obtain ⟨h1, h2⟩ := withPending [] List.nil_suffix _ _ (Prod.mk.eta).symm
        exact ⟨⟨v, h1, hle⟩, h2⟩
      · rw [if_neg hspan]
        dsimp only
        rw [if_neg (by linarith)]
        exact ⟨⟨v, rfl, hle⟩, hincr, mainInv s hs, by simp⟩
  · intro hno
    have hno' : ¬ ∀ o ∈ s, o.x < p.x := by
      intro h
      apply hno
      intro o ho
      have hsne : s ≠ [] := by
        intro e; rw [hse e] at ho; simp at ho
      obtain ⟨t, hte⟩ := hs
      obtain ⟨l, hl⟩ : ∃ l, s.getLast? = some l := ⟨_, List.getLast?_eq_some_getLast hsne⟩
      have hl' : obs.getLast? = some l := by rw [← hte, List.getLast?_append, hl]; rfl
      exact lt_of_le_of_lt (last_max hi.incr hl' o ho).1 (h l (List.mem_of_getLast? hl))
    have hinv := feed_inv cast s
    rw [hsacc] at hinv
    have := (correct_hull cast hinv p).2 hno'
    unfold correct3
    rw [hm, this]

/-- **C64, memory safety, acceptance and hull.** Every run of three-argument calls with a non-negative switching period: no call has undefined
behaviour; a call throws, changing nothing, exactly if its remote time is not after all accepted ones,
and otherwise returns a time not after its local time; and at the end the corrector's hull is the convex
lower hull of a most recent contiguous stretch of the accepted observations (non-empty if there are any). -/
theorem C64_switching {isTime : ℚ → Prop} {cast : ℚ → ℚ} (tc : TimeCast isTime cast) {period : ℚ}
    (hper : 0 ≤ period) (inputs : List Point) (ht : ∀ o ∈ inputs, isTime o.x ∧ isTime o.y) :
    Res.ub ∉ (run3 cast period .fresh inputs).1 ∧
    (∀ p : Point, (isTime p.x ∧ isTime p.y) →
      ((¬ ∀ o ∈ accepted inputs, o.x < p.x) →
        correct3 cast (run3 cast period .fresh inputs).2 p.x p.y period =
          (.threw, (run3 cast period .fresh inputs).2)) ∧
      ((∀ o ∈ accepted inputs, o.x < p.x) →
        ∃ v, (correct3 cast (run3 cast period .fresh inputs).2 p.x p.y period).1 = .value v ∧ v ≤ p.y)) ∧
    ∃ recent, recent <:+ accepted inputs ∧ (recent = [] → accepted inputs = []) ∧
      IsLowerHull recent (run3 cast period .fresh inputs).2.main.hull := by
  have run_snoc : ∀ (d : Dual) (l : List Point) (p : Point), run3 cast period d (l ++ [p]) =
      ((run3 cast period d l).1 ++ [(correct3 cast (run3 cast period d l).2 p.x p.y period).1],
        (correct3 cast (run3 cast period d l).2 p.x p.y period).2) := by
    intro d l p
    induction l generalizing d with
    | nil => simp [run3]
    | cons a l ih => simp only [List.cons_append, run3, ih]
  have main : Res.ub ∉ (run3 cast period .fresh inputs).1 ∧
      DualInv cast (accepted inputs) (run3 cast period .fresh inputs).2 := by
    induction inputs using List.reverseRecOn with
    | nil => exact ⟨by simp [run3], List.Pairwise.nil, ⟨[], by simp [accepted], fun _ => rfl, rfl⟩, by simp [run3, Dual.fresh]⟩
    | append_singleton l p ih =>
      obtain ⟨h1, h2⟩ := ih fun o ho => ht o (by simp [ho])
      have ht' : ∀ o ∈ accepted l, isTime o.x ∧ isTime o.y := fun o ho =>
        ht o (by simp [(accepted_sub l).subset ho])
      have h3 := correct3_spec tc hper ht' h2 p (ht p (by simp))
      rw [run_snoc, accepted_snoc]
      by_cases hacc : ∀ o ∈ accepted l, o.x < p.x
      · obtain ⟨⟨v, hv, _⟩, h4⟩ := h3.1 hacc
        rw [if_pos hacc]
        refine ⟨?_, h4⟩
        rw [hv]; simp [h1]
      · rw [if_neg hacc, h3.2 hacc]
        exact ⟨by simp [h1], h2⟩
  have ht' : ∀ o ∈ accepted inputs, isTime o.x ∧ isTime o.y := fun o ho =>
    ht o ((accepted_sub inputs).subset ho)
  refine ⟨main.1, fun p hp => ?_, ?_⟩
  · have h3 := correct3_spec tc hper ht' main.2 p hp
    exact ⟨h3.2, fun h => (h3.1 h).1⟩
  · obtain ⟨s, hs, hse, hm⟩ := main.2.main
    refine ⟨s, hs, hse, ?_⟩
    have := (feed_inv cast s).isLowerHull
    rw [accepted_of_increasing (main.2.incr.sublist hs.sublist)] at this
    rw [hm]; exact this

/-- Concrete: a run in which the correctors are switched. -/
example : (run3 id 2 .fresh [⟨0, 0⟩, ⟨1, 1⟩, ⟨2, 2⟩, ⟨3, 3⟩, ⟨4, 4⟩]).2.main.hull =
    [⟨2, 2⟩, ⟨3, 3⟩, ⟨4, 4⟩] := by decide +kernel

end Verif.Timing.Corrector
