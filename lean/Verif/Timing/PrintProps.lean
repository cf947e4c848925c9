import Verif.Timing.PrintSpec
import Verif.Timing.Props
import Mathlib.Data.List.Sort

/-! # C141: the table of timers -/

namespace Verif.Timing.Table

open Verif.Timing

/-! ## the width of the tag column -/

/-- the recorded maximum is the length of the longest tag -/
def MaxOk (s : Sys) : Prop := (∀ e ∈ s.tagMap, e.1.length ≤ s.maxLen) ∧ ((s.tagMap = [] ∧ s.maxLen = 0) ∨ ∃ e ∈ s.tagMap, e.1.length = s.maxLen)

theorem maxOk_getHandle {s : Sys} (h : MaxOk s) (t : Tag) : MaxOk (getHandle s t).2 := by
  unfold getHandle
  cases hl : lookup s.tagMap t with
  | some i => simpa [hl] using h
  | none =>
    simp only
    refine ⟨?_, Or.inr ?_⟩
    · intro e he
      rcases List.mem_append.1 he with he | he
      · exact (h.1 e he).trans (Nat.le_max_left _ _)
      · simp only [List.mem_singleton] at he
        subst he; exact Nat.le_max_right _ _
    · rcases Nat.le_total s.maxLen t.length with hle | hle
      · exact ⟨(t, s.accs.length), by simp, (Nat.max_eq_right hle).symm⟩
      · rcases h.2 with ⟨_, h0⟩ | ⟨e, he, h2⟩
        · refine ⟨(t, s.accs.length), by simp, ?_⟩
          show t.length = Nat.max s.maxLen t.length
          rw [h0] at hle ⊢
          exact (Nat.max_eq_right (Nat.zero_le _)).symm
        · exact ⟨e, List.mem_append_left _ he, by rw [h2]; exact (Nat.max_eq_left hle).symm⟩

theorem maxOk_step {s : Sys} (h : MaxOk s) (o : Op) : MaxOk (step s o).2 := by
  have key : ∀ s' : Sys, s'.tagMap = s.tagMap → s'.maxLen = s.maxLen → MaxOk s' := by
    intro s' h1 h2; unfold MaxOk; rw [h1, h2]; exact h
  have key' : ∀ (t : Tag) (s' : Sys), s'.tagMap = (getHandle s t).2.tagMap → s'.maxLen = (getHandle s t).2.maxLen → MaxOk s' := by
    intro t s' h1 h2
    have := maxOk_getHandle h t
    unfold MaxOk at this ⊢; rw [h1, h2]; exact this
  cases o with
  | getHandle t => exact maxOk_getHandle h t
  | query t => exact maxOk_getHandle h t
  | resetTag t => exact key' t _ rfl rfl
  | newTag id t st now =>
    simp only [step]
    split
    · exact h
    · exact key' t _ rfl rfl
  | newHandle id k st now =>
    simp only [step]
    split
    · exact h
    · split
      · exact key _ rfl rfl
      · exact h
  | start id now =>
    simp only [step]
    split
    · exact h
    · split
      · exact h
      · exact key _ rfl rfl
  | stop id now =>
    simp only [step]
    split
    · exact h
    · split
      · exact h
      · exact key _ rfl rfl
  | destroy id now =>
    simp only [step]
    split
    · exact h
    · split
      · exact key _ rfl rfl
      · exact key _ rfl rfl
  | resetHandle k =>
    simp only [step]
    split
    · exact key _ rfl rfl
    · exact h

theorem maxOk_run {s : Sys} (h : MaxOk s) (os : List Op) : MaxOk (run s os).2 := by
  induction os generalizing s with
  | nil => exact h
  | cons o os ih => exact ih (maxOk_step h o)

/-! ## one line -/

theorem stat_total (xs : List ℚ) : IsStat xs .total ((accOf xs).total : ℝ) := by
  obtain ⟨_, b2, _⟩ := acc_basic xs
  simp only [IsStat, Acc.total, b2]

theorem stat_mean (xs : List ℚ) (hx : xs ≠ []) : IsStat xs .mean (((accOf xs).mean.getD 0 : ℚ) : ℝ) := by
  obtain ⟨b1, b2, _⟩ := acc_basic xs
  have : ¬ xs.length = 0 := by simpa using hx
  simp only [IsStat, Acc.mean, b1, b2, if_neg this, Option.getD_some]

theorem stat_std (xs : List ℚ) (hx : xs ≠ []) : IsStat xs .std (stddev (accOf xs)) := by
  obtain ⟨b1, b2, b3, _⟩ := acc_basic xs
  have h0 : ¬ xs.length = 0 := by simpa using hx
  simp only [IsStat, stddev, Acc.variance, b1, b2, b3, if_neg h0, Option.getD_some]
  congr 2
  rw [sum_sq_dev]
  have : (xs.length : ℚ) ≠ 0 := by exact_mod_cast h0
  field_simp
  ring

theorem stat_min (xs : List ℚ) (hx : xs ≠ []) : IsStat xs .min (((accOf xs).min.getD 0 : ℚ) : ℝ) := by
  obtain ⟨_, _, _, b4, _⟩ := acc_basic xs
  cases hm : (accOf xs).min with
  | none => rw [hm] at b4; exact absurd b4 hx
  | some m => rw [hm] at b4; exact ⟨m, b4, rfl⟩

theorem stat_max (xs : List ℚ) (hx : xs ≠ []) : IsStat xs .max (((accOf xs).max.getD 0 : ℚ) : ℝ) := by
  obtain ⟨_, _, _, _, b5, _⟩ := acc_basic xs
  cases hm : (accOf xs).max with
  | none => rw [hm] at b5; exact absurd b5 hx
  | some m => rw [hm] at b5; exact ⟨m, b5, rfl⟩

theorem line_of (ts : ℝ → List Char) (w : ℕ) (t : Tag) (xs : List ℚ) (hw : t.length ≤ w) :
    IsLine ts w t xs (padRight w t ++ ['\t'] ++ cells ts (accOf xs)) := by
  have b1 := (acc_basic xs).1
  refine ⟨List.replicate (w - t.length) ' ', List.replicate (7 - (Nat.toDigits 10 xs.length).length) ' ', ?_, ?_, ?_, ?_, ?_⟩
  · intro c hc; exact (List.mem_replicate.1 hc).2
  · intro c hc; exact (List.mem_replicate.1 hc).2
  · simp only [List.length_append, List.length_replicate]; omega
  · simp only [List.length_append, List.length_replicate]
    show _ = max 7 (Nat.toDigits 10 xs.length).length
    omega
  · by_cases hx : xs = []
    · left
      subst hx
      refine ⟨rfl, ?_⟩
      simp [cells, padRight, padLeft, b1, Nat.toDigits, Nat.toDigitsCore, Nat.digitChar]
    · right
      have hp : 0 < xs.length := List.length_pos_iff.2 hx
      refine ⟨_, _, _, _, _, stat_total xs, stat_mean xs hx, stat_std xs hx, stat_min xs hx, stat_max xs hx, ?_⟩
      simp only [cells, padRight, padLeft, b1, if_pos hp, List.append_assoc]
      rfl

/-! ## the unsorted table -/

theorem lines_of {s : Sys} {a : Abs} (hi : Inv s a) (hm : MaxOk s) (ts : ℝ → List Char) :
    ∀ order : List (Tag × ℕ), (∀ e ∈ order, e ∈ s.tagMap) →
      ∃ text, lines ts s order = some text ∧ IsTable ts s.maxLen a.samples (order.map Prod.fst) text := by
  intro order
  induction order with
  | nil => intro _; exact ⟨[], rfl, .nil⟩
  | cons e rest ih =>
    intro he
    obtain ⟨t, i⟩ := e
    obtain ⟨r, h1, h2⟩ := ih fun e h => he e (List.mem_cons_of_mem _ h)
    have hmem := he (t, i) (by simp)
    have hlen := hm.1 _ hmem
    rw [hi.map, List.mk_mem_zipIdx_iff_getElem?] at hmem
    have hacc : timerAt s i = some (accOf (a.samples t)) := by
      unfold timerAt; rw [hi.accs, List.getElem?_map, hmem]; rfl
    refine ⟨padRight s.maxLen t ++ ['\t'] ++ cells ts (accOf (a.samples t)) ++ r, by simp only [lines, hacc, h1], ?_⟩
    exact .cons (line_of ts _ t _ hlen) h2

theorem tags_of_map {s : Sys} {a : Abs} (hi : Inv s a) : s.tagMap.map Prod.fst = a.tags := by
  rw [hi.map]; exact List.zipIdx_map_fst 0 a.tags

theorem width_of {s : Sys} {a : Abs} (hi : Inv s a) (hm : MaxOk s) :
    (∀ t ∈ a.tags, t.length ≤ s.maxLen) ∧ (a.tags ≠ [] → ∃ t ∈ a.tags, t.length = s.maxLen) := by
  rw [← tags_of_map hi]
  refine ⟨?_, ?_⟩
  · intro t ht
    obtain ⟨e, he, rfl⟩ := List.mem_map.1 ht
    exact hm.1 e he
  · intro hne
    rcases hm.2 with ⟨h0, _⟩ | ⟨e, he, h⟩
    · rw [h0] at hne; exact absurd rfl hne
    · exact ⟨e.1, List.mem_map_of_mem he, h⟩

theorem maxOk_init : MaxOk Sys.init := ⟨by simp [Sys.init], Or.inl ⟨rfl, rfl⟩⟩

/-- **C141** After any history, `print` shows every registered tag on exactly one line, in whatever order the hash map is traversed, with the statistics of the samples recorded since the tag's last reset; the tag column is as wide as the longest tag. -/
theorem C141_print (ts : ℝ → List Char) (ops : List Op) (order : List (Tag × ℕ)) (ho : order.Perm (run Sys.init ops).2.tagMap) :
    ∃ tags text w, print ts order (run Sys.init ops).2 = some ("SM Timing\n-----------\n".toList ++ text) ∧
      tags.Perm (Abs.run Abs.init ops).2.tags ∧ tags.Nodup ∧
      IsTable ts w (Abs.run Abs.init ops).2.samples tags text ∧
      (∀ t ∈ tags, t.length ≤ w) ∧ (tags ≠ [] → ∃ t ∈ tags, t.length = w) := by
  obtain ⟨_, hi⟩ := inv_run inv_init ops
  have hm := maxOk_run maxOk_init ops
  obtain ⟨text, h1, h2⟩ := lines_of hi hm ts order fun e he => ho.mem_iff.1 he
  have hp : (order.map Prod.fst).Perm (Abs.run Abs.init ops).2.tags := by
    rw [← tags_of_map hi]; exact ho.map _
  obtain ⟨w1, w2⟩ := width_of hi hm
  refine ⟨order.map Prod.fst, text, _, (by simp only [print, h1, Option.map_some]; rfl), hp, hp.nodup_iff.2 hi.nodup, h2, ?_, ?_⟩
  · intro t ht; exact w1 t (hp.mem_iff.1 ht)
  · intro hne
    obtain ⟨t, ht, h⟩ := w2 (fun e => hne (List.perm_nil.1 (e ▸ hp)))
    exact ⟨t, hp.mem_iff.2 ht, h⟩

/-! ## the sorted table -/

theorem insert_perm (k : ℝ) (t : Tag) (l : List (ℝ × Tag)) : (insert k t l).Perm ((k, t) :: l) := by
  induction l with
  | nil => exact List.Perm.refl _
  | cons e rest ih =>
    obtain ⟨k', t'⟩ := e
    simp only [insert]
    split
    · exact List.Perm.refl _
    · exact (ih.cons _).trans (List.Perm.swap _ _ _)

theorem insert_sorted (k : ℝ) (t : Tag) (l : List (ℝ × Tag)) (h : l.Pairwise fun x y => y.1 ≤ x.1) :
    (insert k t l).Pairwise fun x y => y.1 ≤ x.1 := by
  induction l with
  | nil => simp [insert]
  | cons e rest ih =>
    obtain ⟨k', t'⟩ := e
    have hr := List.pairwise_cons.1 h
    simp only [insert]
    split
    · rename_i hk
      refine List.pairwise_cons.2 ⟨?_, h⟩
      intro y hy
      rcases List.mem_cons.1 hy with rfl | hy
      · exact hk.le
      · exact (hr.1 y hy).trans hk.le
    · rename_i hk
      refine List.pairwise_cons.2 ⟨?_, ih hr.2⟩
      intro y hy
      rcases List.mem_cons.1 ((insert_perm k t rest).mem_iff.1 hy) with rfl | hy
      · exact not_lt.1 hk
      · exact hr.1 y hy

/-- the multimap after the loop -/
theorem fill_of {s : Sys} {a : Abs} (hi : Inv s a) (c : SortType) : ∀ (order : List (Tag × ℕ)) (acc : List (ℝ × Tag)), (∀ e ∈ order, e ∈ s.tagMap) →
    acc.Pairwise (fun x y => y.1 ≤ x.1) →
    ∃ m, fill c s order acc = some m ∧ m.Pairwise (fun x y => y.1 ≤ x.1) ∧
      m.Perm (acc ++ (order.map fun e => (sortKey c (accOf (a.samples e.1)), e.1))) := by
  intro order
  induction order with
  | nil => intro acc _ hs; exact ⟨acc, rfl, hs, by simp⟩
  | cons e rest ih =>
    intro acc he hs
    obtain ⟨t, i⟩ := e
    have hmem := he (t, i) (by simp)
    rw [hi.map, List.mk_mem_zipIdx_iff_getElem?] at hmem
    have hacc : timerAt s i = some (accOf (a.samples t)) := by
      unfold timerAt; rw [hi.accs, List.getElem?_map, hmem]; rfl
    obtain ⟨m, h1, h2, h3⟩ := ih (insert (sortKey c (accOf (a.samples t))) t acc) (fun e h => he e (List.mem_cons_of_mem _ h)) (insert_sorted _ _ _ hs)
    refine ⟨m, by simp only [fill, hacc, h1], h2, h3.trans ?_⟩
    refine ((insert_perm _ _ acc).append_right _).trans ?_
    simp only [List.map_cons, List.cons_append]
    exact (List.perm_middle).symm

theorem sortedLines_of {s : Sys} {a : Abs} (hi : Inv s a) (hm : MaxOk s) (ts : ℝ → List Char) :
    ∀ m : List (ℝ × Tag), (∀ e ∈ m, e.2 ∈ a.tags) →
      ∃ text, sortedLines ts s m = some (text, s) ∧ IsTable ts s.maxLen a.samples (m.map Prod.snd) text := by
  intro m
  induction m with
  | nil => intro _; exact ⟨[], rfl, .nil⟩
  | cons e rest ih =>
    intro he
    obtain ⟨k, t⟩ := e
    obtain ⟨r, h1, h2⟩ := ih fun e h => he e (List.mem_cons_of_mem _ h)
    have ht : t ∈ a.tags := he (k, t) (by simp)
    have hsub : subscript s.tagMap t = (a.tags.idxOf t, s.tagMap) := by
      unfold subscript
      rw [hi.map, lookup_zipIdx, if_pos ht]; rfl
    have hacc : timerAt s (a.tags.idxOf t) = some (accOf (a.samples t)) := by
      unfold timerAt
      rw [hi.accs, List.getElem?_map, List.getElem?_eq_getElem (List.idxOf_lt_length_iff.2 ht), List.getElem_idxOf]; rfl
    refine ⟨padRight s.maxLen t ++ ['\t'] ++ cells ts (accOf (a.samples t)) ++ r, ?_, .cons (line_of ts _ t _ ((width_of hi hm).1 t ht)) h2⟩
    simp only [sortedLines, hsub, hacc, h1]

theorem isStat_unique {xs : List ℚ} {c : SortType} {v w : ℝ} (hv : IsStat xs c v) (hw : IsStat xs c w) : v = w := by
  cases c with
  | min =>
    obtain ⟨m, ⟨h1, h2⟩, rfl⟩ := hv
    obtain ⟨n, ⟨g1, g2⟩, rfl⟩ := hw
    rw [le_antisymm (h2 n g1) (g2 m h1)]
  | max =>
    obtain ⟨m, ⟨h1, h2⟩, rfl⟩ := hv
    obtain ⟨n, ⟨g1, g2⟩, rfl⟩ := hw
    rw [le_antisymm (g2 m h1) (h2 n g1)]
  | _ => exact Eq.trans hv (Eq.symm hw)

theorem key_stat (c : SortType) (xs : List ℚ) (hx : xs ≠ []) : IsStat xs c (sortKey c (accOf xs)) := by
  have hp : 0 < (accOf xs).count := by rw [(acc_basic xs).1]; exact List.length_pos_iff.2 hx
  unfold sortKey
  rw [if_pos hp]
  cases c with
  | total => exact stat_total xs
  | mean => exact stat_mean xs hx
  | std => exact stat_std xs hx
  | min => exact stat_min xs hx
  | max => exact stat_max xs hx
  | numSamples =>
    show ((accOf xs).count : ℝ) = (xs.length : ℝ)
    rw [(acc_basic xs).1]

theorem key_empty (c : SortType) : sortKey c (accOf []) = dblMax := by
  simp [sortKey, accOf, Acc.init]

/-- **C141** The sorted table: after any history and for every criterion it shows every registered tag on exactly one line, those with samples in the order of decreasing values of the criterion; printing changes nothing in the registry. -/
theorem C141_sorted (ts : ℝ → List Char) (c : SortType) (ops : List Op) (order : List (Tag × ℕ)) (ho : order.Perm (run Sys.init ops).2.tagMap) :
    let samples := (Abs.run Abs.init ops).2.samples
    ∃ tags text w, printSorted ts c order (run Sys.init ops).2 = some ("SM Timing\n-----------\n".toList ++ text, (run Sys.init ops).2) ∧
      tags.Perm (Abs.run Abs.init ops).2.tags ∧ tags.Nodup ∧
      IsTable ts w samples tags text ∧
      (∀ t ∈ tags, t.length ≤ w) ∧ (tags ≠ [] → ∃ t ∈ tags, t.length = w) ∧
      tags.Pairwise (fun t u => ∀ v v', samples t ≠ [] → samples u ≠ [] → IsStat (samples t) c v → IsStat (samples u) c v' → v' ≤ v) ∧
      ((∀ t v, samples t ≠ [] → IsStat (samples t) c v → v < dblMax) → tags.Pairwise fun t u => samples u = [] → samples t = []) := by
  intro samples
  obtain ⟨_, hi⟩ := inv_run inv_init ops
  have hm := maxOk_run maxOk_init ops
  obtain ⟨m, f1, f2, f3⟩ := fill_of hi c order [] (fun e he => ho.mem_iff.1 he) List.Pairwise.nil
  rw [List.nil_append] at f3
  have hp : (m.map Prod.snd).Perm (Abs.run Abs.init ops).2.tags := by
    refine (f3.map Prod.snd).trans ?_
    rw [List.map_map, ← tags_of_map hi]
    exact ho.map _
  obtain ⟨text, h1, h2⟩ := sortedLines_of hi hm ts m fun e he => hp.mem_iff.1 (List.mem_map_of_mem he)
  obtain ⟨w1, w2⟩ := width_of hi hm
  have hkey : ∀ e ∈ m, e.1 = sortKey c (accOf (samples e.2)) := by
    intro e he
    obtain ⟨e', _, rfl⟩ := List.mem_map.1 (f3.mem_iff.1 he)
    rfl
  have hpw : m.Pairwise fun x y => sortKey c (accOf (samples y.2)) ≤ sortKey c (accOf (samples x.2)) :=
    f2.imp_of_mem fun hx hy h => by rwa [hkey _ hx, hkey _ hy] at h
  refine ⟨m.map Prod.snd, text, _, (by simp only [printSorted, f1, h1, Option.map_some]; rfl), hp, hp.nodup_iff.2 hi.nodup, h2, ?_, ?_, ?_, ?_⟩
  · intro t ht; exact w1 t (hp.mem_iff.1 ht)
  · intro hne
    obtain ⟨t, ht, h⟩ := w2 (fun e => hne (List.perm_nil.1 (e ▸ hp)))
    exact ⟨t, hp.mem_iff.2 ht, h⟩
  · rw [List.pairwise_map]
    refine hpw.imp fun {x y} h v v' hx hy hv hv' => ?_
    rwa [isStat_unique hv (key_stat c _ hx), isStat_unique hv' (key_stat c _ hy)]
  · intro hmax
    rw [List.pairwise_map]
    refine hpw.imp fun {x y} h hy => ?_
    rw [hy, key_empty] at h
    rcases Classical.em (samples x.2 = []) with hx | hx
    · exact hx
    · exact absurd (hmax _ _ hx (key_stat c _ hx)) (not_lt.2 h)

/-- a history with three tags: `a` with one lap of 1 s, `bb` with one of 3 s, `c` without samples -/
def threeTags : List Op := [.newTag 0 ['a'] false 1, .stop 0 2, .getHandle ['c'], .newTag 1 ['b', 'b'] false 4, .stop 1 7]

/-- Concrete: the hypotheses are met with the entries in any order, e.g. the order of registration. -/
example (ts : ℝ → List Char) (c : SortType) : ∃ r, printSorted ts c (run Sys.init threeTags).2.tagMap (run Sys.init threeTags).2 = some r :=
  let ⟨_, _, _, h, _⟩ := C141_sorted ts c threeTags _ (List.Perm.refl _)
  ⟨_, h⟩

/-- Concrete: by total time, the timer without samples comes first, then `bb`, then `a`. -/
example : (fill .total (run Sys.init threeTags).2 (run Sys.init threeTags).2.tagMap []).map (List.map Prod.snd) = some [['c'], ['b', 'b'], ['a']] := by
  have hd : (3 : ℝ) < dblMax := by
    unfold dblMax
    have h1 : (2 : ℝ) ^ 2 ≤ 2 ^ 1023 := pow_le_pow_right₀ (by norm_num) (by norm_num)
    have h2 : (1 : ℝ) ≤ 2 - 1 / 2 ^ 52 := by norm_num
    exact lt_of_lt_of_le (by norm_num) (mul_le_mul h2 h1 (by norm_num) (by linarith))
  have h2 : ¬ (3 : ℝ) > dblMax := by linarith
  have h3 : dblMax > (1 : ℝ) := by linarith
  have e1 : ((2 : ℚ) - 1 : ℚ) = 1 := by norm_num
  have e2 : ((7 : ℚ) - 4 : ℚ) = 3 := by norm_num
  simp [threeTags, run, step, Sys.init, getHandle, lookup, Sys.setTimer, Sys.stopTimer, Sys.addTime, Acc.push, Acc.init, fill, timerAt, sortKey, insert,
    Acc.total, List.modify, e1, e2, h2, h3]

end Verif.Timing.Table
