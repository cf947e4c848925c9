import Verif.Timing.CorrectorProps

/-!
# Corrected times do not go backwards — with one corrector; they can when the correctors are switched (C64)
-/

namespace Verif.Timing.Corrector

theorem popLoop_suffix (p : Point) : ∀ st, popLoop p st <:+ st
  | [] => by simp [popLoop]
  | [t] => by simp [popLoop]
  | t :: a :: r => by
    unfold popLoop
    split
    · exact (popLoop_suffix p (a :: r)).trans (List.suffix_cons _ _)
    · exact List.suffix_rfl

/-- pushing removes points from the end and adds the new one -/
theorem push_form (h : List Point) (p : Point) : ∃ pre, pre <+: h ∧ pushHull h p = pre ++ [p] := by
  unfold pushHull
  split
  · exact ⟨h, List.prefix_rfl, rfl⟩
  · refine ⟨_, ?_, rfl⟩
    have := popLoop_suffix p h.reverse
    rw [← List.reverse_prefix, List.reverse_reverse] at this
    exact this

theorem popLoop_ne_nil (p : Point) : ∀ st, st ≠ [] → popLoop p st ≠ []
  | [], h => h
  | [t], _ => by simp [popLoop]
  | t :: a :: r, _ => by
    unfold popLoop
    split
    · exact popLoop_ne_nil p (a :: r) (by simp)
    · simp

theorem push_head (h : List Point) (hne : h ≠ []) (p : Point) : (pushHull h p).headD ⟨0, 0⟩ = h.headD ⟨0, 0⟩ := by
  have : ∃ pre, pre ≠ [] ∧ pre <+: h ∧ pushHull h p = pre ++ [p] := by
    unfold pushHull
    split
    · exact ⟨h, hne, List.prefix_rfl, rfl⟩
    · refine ⟨_, ?_, ?_, rfl⟩
      · have := popLoop_ne_nil p h.reverse (by simpa using hne)
        simpa using this
      have := popLoop_suffix p h.reverse
      rw [← List.reverse_prefix, List.reverse_reverse] at this
      exact this
  obtain ⟨pre, h1, ⟨t, rfl⟩, h3⟩ := this
  rw [h3]
  cases pre with
  | nil => exact absurd rfl h1
  | cons a l => rfl

/-- what an accepted call returns -/
theorem correct_value {isTime : ℚ → Prop} {cast : ℚ → ℚ} (tc : TimeCast isTime cast) (inputs : List Point)
    (ht : ∀ o ∈ inputs, isTime o.x) (p : Point) (hp : isTime p.x)
    (hacc : ∀ o ∈ accepted inputs, o.x < p.x) :
    let h := pushHull (feed cast .fresh inputs).hull p
    let m := cast (((h.headD ⟨0, 0⟩).x + p.x) / 2)
    (h.length < 3 ∧ (correct cast (feed cast .fresh inputs) p.x p.y).1 = .value p.y) ∨
    (3 ≤ h.length ∧ ∃ a b, Neighbours h a b ∧ a.x < m ∧ m ≤ b.x ∧
      (correct cast (feed cast .fresh inputs) p.x p.y).1 = .value (cast (lineAt a b p.x))) := by
  intro h m
  have hi := feed_inv cast inputs
  have hr : ¬ rejects (feed cast .fresh inputs).hull p.x = true := by
    rw [rejects_iff hi]; exact not_not.2 hacc
  by_cases hl : 3 ≤ h.length
  · right
    refine ⟨hl, ?_⟩
    have h2 := push_inv hi p hacc
    obtain ⟨a, b, h3, h4, h5, h6⟩ := segment_exists tc h2 (by
      intro o ho
      rcases List.mem_append.1 ho with ho | ho
      · exact ht o ((accepted_sub inputs).subset ho)
      · rw [List.mem_singleton.1 ho]; exact hp) hl p.x ⟨p, push_last _ _, rfl⟩
    refine ⟨a, b, h4, h5, h6, ?_⟩
    unfold correct
    rw [if_neg hr, if_pos hl]
    have hlen : ¬ (pushHull (feed cast .fresh inputs).hull p).length < 2 := by
      have : 3 ≤ (pushHull (feed cast .fresh inputs).hull p).length := hl
      omega
    simp only [getLocalTime, show (⟨p.x, p.y⟩ : Point) = p from rfl]
    rw [if_neg hlen, h3]
    rfl
  · left
    refine ⟨by omega, ?_⟩
    unfold correct
    rw [if_neg hr, if_neg hl]

theorem lineAt_right {a b : Point} (h : a.x < b.x) : lineAt a b b.x = b.y := by
  unfold lineAt
  rw [div_mul_cancel₀ _ (by linarith)]; ring

theorem lineAt_left (a b : Point) : lineAt a b a.x = a.y := by
  unfold lineAt; ring

theorem lineAt_mono {a b : Point} (h : a.x < b.x) (hy : a.y ≤ b.y) : Monotone (lineAt a b) := by
  intro x y hxy
  have : 0 ≤ (b.y - a.y) / (b.x - a.x) := div_nonneg (by linarith) (by linarith)
  unfold lineAt
  have := mul_le_mul_of_nonneg_left (show x - a.x ≤ y - a.x by linarith) this
  linarith

/-- a line that starts not above another and is not below it at a later point stays not below it -/
theorem lineAt_le {a b c d : Point} {s t u : ℚ} (hst : s < t) (htu : t ≤ u)
    (h1 : lineAt c d s ≤ lineAt a b s) (h2 : lineAt a b t ≤ lineAt c d t) : lineAt a b u ≤ lineAt c d u := by
  unfold lineAt at *
  generalize (b.y - a.y) / (b.x - a.x) = k at *
  generalize (d.y - c.y) / (d.x - c.x) = l at *
  have : 0 ≤ (l - k) * (t - s) := by nlinarith
  have hlk : 0 ≤ l - k := by
    by_contra hn
    have := mul_neg_of_neg_of_pos (not_le.1 hn) (by linarith : 0 < t - s)
    linarith
  nlinarith [mul_nonneg hlk (by linarith : 0 ≤ u - t)]

/-- one step: two accepted observations in a row -/
theorem step_monotone {isTime : ℚ → Prop} {cast : ℚ → ℚ} (tc : TimeCast isTime cast) (inputs : List Point)
    (p q : Point) (ht : ∀ o ∈ inputs ++ [p, q], isTime o.x ∧ isTime o.y)
    (hp : ∀ o ∈ accepted inputs, o.x < p.x) (hpq : p.x < q.x)
    (hy : (accepted inputs ++ [p, q]).Pairwise fun o o' => o.y < o'.y) (v : ℚ)
    (hv : (correct cast (feed cast .fresh inputs) p.x p.y).1 = .value v) :
    ∃ w, (correct cast (feed cast .fresh (inputs ++ [p])) q.x q.y).1 = .value w ∧ v ≤ w := by
  have htp := ht p (by simp)
  have htq := ht q (by simp)
  have hti : ∀ o ∈ inputs, isTime o.x ∧ isTime o.y := fun o ho => ht o (by simp [ho])
  have hacc' : accepted (inputs ++ [p]) = accepted inputs ++ [p] := by rw [accepted_snoc, if_pos hp]
  have hq : ∀ o ∈ accepted (inputs ++ [p]), o.x < q.x := by
    rw [hacc']
    intro o ho
    rcases List.mem_append.1 ho with ho | ho
    · exact (hp o ho).trans hpq
    · rw [List.mem_singleton.1 ho]; exact hpq
  have hpqy : p.y < q.y := by
    have := (List.pairwise_append.1 hy).2.1
    simpa using this
  have hvp : v ≤ p.y := by
    obtain ⟨v', h1, h2⟩ := C43_returned tc inputs hti p htp hp
    rw [hv] at h1; cases h1; exact h2
  have hi := feed_inv cast inputs
  obtain ⟨hh1, hinv1⟩ := (correct_hull cast hi p).1 hp
  rw [← feed_snoc] at hh1 hinv1
  have hinv1' := hinv1
  rw [hh1] at hinv1'
  have hV := correct_value tc inputs (fun o ho => (hti o ho).1) p htp.1 hp
  have hW := correct_value tc (inputs ++ [p]) (by
    intro o ho
    rcases List.mem_append.1 ho with ho | ho
    · exact (hti o ho).1
    · rw [List.mem_singleton.1 ho]; exact htp.1) q htq.1 hq
  simp only at hV hW
  rcases hW with ⟨_, hW⟩ | ⟨hl2, a, b, hab, ham, hmb, hW⟩
  · exact ⟨q.y, hW, by linarith⟩
  refine ⟨_, hW, ?_⟩
  rw [hh1] at hab ham hmb hl2
  set h1 := pushHull (feed cast .fresh inputs).hull p with hh1def
  have hne1 : h1 ≠ [] := by
    intro e; have := push_length_pos (feed cast .fresh inputs).hull p; rw [← hh1def, e] at this; simp at this
  have hinc1 : h1.Pairwise fun a b => a.x < b.x := hinv1'.incr.sublist hinv1'.sub
  have hyp1 : h1.Pairwise fun a b => a.y < b.y := by
    refine List.Pairwise.sublist hinv1'.sub ?_
    refine List.Pairwise.sublist (?_ : List.Sublist _ (accepted inputs ++ [p, q])) hy
    exact (List.Sublist.refl _).append (by simp)
  have hinv2 := push_inv hinv1' q (by rw [← hacc']; exact hq)
  obtain ⟨pre, ⟨t, hpre⟩, hform⟩ := push_form h1 q
  rw [push_head h1 hne1] at ham hmb
  -- is b the new point?
  rcases eq_or_ne b q with rfl | hbq
  · obtain ⟨i, e1, e2⟩ := hab
    have habx : a.x < b.x := by linarith
    rw [lineAt_right habx, tc.fix _ htq.2]
    linarith
  -- otherwise a, b are neighbours in the previous hull
  have habN : Neighbours h1 a b := by
    obtain ⟨i, e1, e2⟩ := hab
    rw [hform] at e1 e2
    have hi2 : i + 1 < pre.length := by
      by_contra hc
      rw [List.getElem?_append_right (by omega)] at e2
      have : i + 1 - pre.length = 0 := by
        by_contra h0
        rw [List.getElem?_eq_none (by simp; omega)] at e2; simp at e2
      rw [this] at e2
      exact hbq (by simpa using e2.symm)
    rw [List.getElem?_append_left (by omega)] at e1 e2
    refine ⟨i, ?_, ?_⟩
    · rw [← hpre, List.getElem?_append_left (by omega)]; exact e1
    · rw [← hpre, List.getElem?_append_left (by omega)]; exact e2
  obtain ⟨j, f1, f2⟩ := habN
  obtain ⟨l1, g1⟩ := List.getElem?_eq_some_iff.1 f1
  obtain ⟨l2, g2⟩ := List.getElem?_eq_some_iff.1 f2
  have habx : a.x < b.x := by
    have := List.pairwise_iff_getElem.1 hinc1 j (j + 1) l1 l2 (by omega); rwa [g1, g2] at this
  have haby : a.y < b.y := by
    have := List.pairwise_iff_getElem.1 hyp1 j (j + 1) l1 l2 (by omega); rwa [g1, g2] at this
  have hlastx : ∀ o ∈ h1, o.x ≤ p.x := fun o ho =>
    (last_max hinc1 (push_last _ _) o ho).1
  have hup : cast (lineAt a b p.x) ≤ cast (lineAt a b q.x) := tc.mono (lineAt_mono habx haby.le hpq.le)
  refine le_trans ?_ hup
  rcases hV with ⟨hl1, hV⟩ | ⟨hl1, a', b', hab', ham', hmb', hV⟩
  · -- two points
    rw [hV] at hv; cases hv
    have hb : b = p := by
      have e : j + 1 = h1.length - 1 := by omega
      have := push_last (feed cast .fresh inputs).hull p
      rw [← hh1def, List.getLast?_eq_getElem?, ← e, f2] at this
      exact Option.some.inj this
    subst hb
    rw [lineAt_right habx, tc.fix _ htp.2]
  · rw [hV] at hv; cases hv
    apply tc.mono
    obtain ⟨i, e1, e2⟩ := hab'
    obtain ⟨k1, d1⟩ := List.getElem?_eq_some_iff.1 e1
    obtain ⟨k2, d2⟩ := List.getElem?_eq_some_iff.1 e2
    have hmm : cast (((h1.headD ⟨0, 0⟩).x + p.x) / 2) ≤ cast (((h1.headD ⟨0, 0⟩).x + q.x) / 2) :=
      tc.mono (by linarith)
    have ha'b : a'.x < b.x := by linarith
    have hij : i ≤ j := by
      by_contra hc
      rcases Nat.lt_or_ge (j + 1) i with h | h
      · have := List.pairwise_iff_getElem.1 hinc1 (j + 1) i l2 k1 h
        rw [g2, d1] at this; linarith
      · have : i = j + 1 := by omega
        subst this
        rw [g2] at d1; rw [d1] at ha'b; exact lt_irrefl _ ha'b
    rcases Nat.eq_or_lt_of_le hij with rfl | hlt
    · have ea : a' = a := by rw [← d1, ← g1]
      have eb : b' = b := by rw [← d2, ← g2]
      rw [ea, eb]
    · have hsub := hinv1'.isLowerHull
      have ha'a : a'.x < a.x := by
        have := List.pairwise_iff_getElem.1 hinc1 i j k1 l1 hlt; rwa [d1, g1] at this
      have hmem : ∀ o ∈ h1, o ∈ accepted inputs ++ [p] := fun o ho => hinv1'.sub.subset ho
      refine lineAt_le ha'a (hlastx a (List.mem_of_getElem? f1)) ?_ ?_
      · rw [lineAt_left a' b']
        exact hsub.below a b ⟨j, f1, f2⟩ a' (hmem a' (List.mem_of_getElem? e1))
      · rw [lineAt_left a b]
        exact hsub.below a' b' ⟨i, e1, e2⟩ a (hmem a (List.mem_of_getElem? f1))

/-- the values returned by a run of two-argument calls -/
def run2 (cast : ℚ → ℚ) (c : Corr) : List Point → List Res
  | [] => []
  | p :: ps => (correct cast c p.x p.y).1 :: run2 cast (correct cast c p.x p.y).2 ps

/-- **C64, one corrector.** Fed observations whose remote and local times both increase, every call returns
a time and the returned times never go backwards. -/
theorem C64_monotone_partial {isTime : ℚ → Prop} {cast : ℚ → ℚ} (tc : TimeCast isTime cast) (inputs : List Point)
    (ht : ∀ o ∈ inputs, isTime o.x ∧ isTime o.y)
    (hx : inputs.Pairwise fun o o' => o.x < o'.x) (hy : inputs.Pairwise fun o o' => o.y < o'.y) :
    ∃ vs : List ℚ, run2 cast .fresh inputs = vs.map .value ∧ vs.Pairwise (· ≤ ·) := by
  have run_snoc : ∀ (c : Corr) (l : List Point) (p : Point), run2 cast c (l ++ [p]) =
      run2 cast c l ++ [(correct cast (feed cast c l) p.x p.y).1] := by
    intro c l p
    induction l generalizing c with
    | nil => simp [run2, feed]
    | cons a l ih =>
      have : feed cast c (a :: l) = feed cast (correct cast c a.x a.y).2 l := rfl
      simp only [List.cons_append, run2, ih, this]
  induction inputs using List.reverseRecOn with
  | nil => exact ⟨[], rfl, List.Pairwise.nil⟩
  | append_singleton l q ih =>
    have hx' := (List.pairwise_append.1 hx).1
    obtain ⟨vs, h1, h2⟩ := ih (fun o ho => ht o (by simp [ho])) hx' (List.pairwise_append.1 hy).1
    have hacc : ∀ o ∈ accepted l, o.x < q.x := by
      rw [accepted_of_increasing hx']
      exact fun o ho => (List.pairwise_append.1 hx).2.2 o ho q (by simp)
    obtain ⟨w0, hw0, _⟩ := C43_returned tc l (fun o ho => ht o (by simp [ho])) q (ht q (by simp)) hacc
    refine ⟨vs ++ [w0], ?_, ?_⟩
    · rw [run_snoc, h1, hw0]; simp
    rw [List.pairwise_append]
    refine ⟨h2, by simp, ?_⟩
    -- compare with the last value returned before
    rcases List.eq_nil_or_concat l with rfl | ⟨l', p, rfl⟩
    · have : vs = [] := by simpa [run2] using h1.symm
      simp [this]
    rw [List.concat_eq_append] at *
    have hx'' := (List.pairwise_append.1 hx').1
    have haccp : ∀ o ∈ accepted l', o.x < p.x := by
      rw [accepted_of_increasing hx'']
      exact fun o ho => (List.pairwise_append.1 hx').2.2 o ho p (by simp)
    rw [run_snoc] at h1
    obtain ⟨v, hv, _⟩ := C43_returned tc l' (fun o ho => ht o (by simp [ho])) p (ht p (by simp)) haccp
    rw [hv] at h1
    obtain ⟨vs', hvs⟩ : ∃ vs', vs = vs' ++ [v] := by
      rcases List.eq_nil_or_concat vs with rfl | ⟨vs', u, rfl⟩
      · simp at h1
      · rw [List.concat_eq_append] at h1 ⊢
        rw [List.map_append] at h1
        have := List.append_inj_right' h1 (by simp)
        simp only [List.map_cons, List.map_nil, List.cons.injEq, Res.value.injEq, and_true] at this
        exact ⟨vs', by rw [this]⟩
    obtain ⟨w, hw, hle⟩ := step_monotone tc l' p q (by simpa using ht) haccp
      ((List.pairwise_append.1 hx).2.2 p (by simp) q (by simp))
      (by rw [accepted_of_increasing hx'']; simpa using hy) v hv
    rw [hw0] at hw; cases hw
    intro u hu b hb
    rw [List.mem_singleton.1 hb]
    rw [hvs] at hu h2
    rcases List.mem_append.1 hu with hu | hu
    · exact ((List.pairwise_append.1 h2).2.2 u hu v (by simp)).trans hle
    · rw [List.mem_singleton.1 hu]; exact hle

example : run2 (fun x => (trunc x : ℚ)) .fresh [⟨0, 0⟩, ⟨1, 1⟩, ⟨2, 5⟩, ⟨4, 8⟩, ⟨5, 9⟩] =
    [0, 1, 2, 8, 9].map .value := by decide +kernel

/-- what a user of the switching corrector expects: increasing observations never make time run backwards -/
def C64_claim : Prop :=
  ∀ (period : ℚ) (inputs : List Point), 0 ≤ period → inputs.Pairwise (fun o o' => o.x < o'.x) →
    inputs.Pairwise (fun o o' => o.y < o'.y) →
    ∃ vs : List ℚ, (run3 id period .fresh inputs).1 = vs.map .value ∧ vs.Pairwise (· ≤ ·)

/-- **C64** that last expectation is false: when the pending corrector takes over, its line can be lower. -/
theorem C64_negation : ¬ C64_claim := by
  intro h
  obtain ⟨vs, h1, h2⟩ := h 12 [⟨3, 2⟩, ⟨4, 3⟩, ⟨5, 12⟩, ⟨10, 13⟩, ⟨11, 19⟩, ⟨12, 25⟩] (by norm_num)
    (by decide +kernel) (by decide +kernel)
  have e : (run3 id 12 .fresh [⟨3, 2⟩, ⟨4, 3⟩, ⟨5, 12⟩, ⟨10, 13⟩, ⟨11, 19⟩, ⟨12, 25⟩]).1 =
      [2, 3, 4, 13, 44 / 3, 67 / 5].map .value := by decide +kernel
  rw [e] at h1
  have : vs = [2, 3, 4, 13, 44 / 3, 67 / 5] := by
    have inj : Function.Injective Res.value := fun _ _ h => by cases h; rfl
    exact (List.map_injective_iff.2 inj h1).symm
  rw [this] at h2
  revert h2
  decide +kernel

end Verif.Timing.Corrector
