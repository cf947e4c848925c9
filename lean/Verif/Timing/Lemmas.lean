import Verif.Timing.Spec
import Mathlib.Tactic.Ring
import Mathlib.Tactic.FieldSimp
import Mathlib.Tactic.Linarith
import Mathlib.Algebra.BigOperators.Group.List.Basic
import Mathlib.Data.List.Induction

namespace Verif.Timing

/-! ## accumulators -/

def accOf (xs : List ℚ) : Acc := xs.foldl Acc.push Acc.init

theorem accOf_append (xs : List ℚ) (x : ℚ) : accOf (xs ++ [x]) = (accOf xs).push x := by
  simp [accOf, List.foldl_append]

theorem accOf_nil : accOf [] = Acc.init := rfl

theorem acc_basic (xs : List ℚ) :
    (accOf xs).count = xs.length ∧ (accOf xs).sum = xs.sum ∧
    (accOf xs).sumSq = (xs.map fun x => x * x).sum ∧
    IsMin xs (accOf xs).min ∧ IsMax xs (accOf xs).max ∧
    (accOf xs).window = xs.drop (xs.length - 50) ∧
    (accOf xs).windowSum = (xs.drop (xs.length - 50)).sum := by
  induction xs using List.reverseRecOn with
  | nil => simp [accOf, Acc.init, IsMin, IsMax]
  | append_singleton xs x ih =>
    obtain ⟨h1, h2, h3, h4, h5, h6, h7⟩ := ih
    rw [accOf_append]
    refine ⟨by simp [Acc.push, h1], by simp [Acc.push, h2], by simp [Acc.push, h3], ?_, ?_, ?_⟩
    · simp only [Acc.push]
      cases hm : (accOf xs).min with
      | none => rw [hm] at h4; simp only [IsMin] at h4; subst h4; simp [IsMin]
      | some m =>
        rw [hm] at h4
        obtain ⟨ha, hb⟩ := h4
        by_cases hx : x < m
        · simp only [hx, if_true]
          refine ⟨by simp, fun y hy => ?_⟩
          rcases List.mem_append.1 hy with hy | hy
          · exact hx.le.trans (hb y hy)
          · simp at hy; rw [hy]
        · simp only [hx, if_false]
          refine ⟨by simp [ha], fun y hy => ?_⟩
          rcases List.mem_append.1 hy with hy | hy
          · exact hb y hy
          · simp at hy; rw [hy]; exact not_lt.1 hx
    · simp only [Acc.push]
      cases hm : (accOf xs).max with
      | none => rw [hm] at h5; simp only [IsMax] at h5; subst h5; simp [IsMax]
      | some m =>
        rw [hm] at h5
        obtain ⟨ha, hb⟩ := h5
        by_cases hx : m < x
        · simp only [hx, if_true]
          refine ⟨by simp, fun y hy => ?_⟩
          rcases List.mem_append.1 hy with hy | hy
          · exact (hb y hy).trans hx.le
          · simp at hy; rw [hy]
        · simp only [hx, if_false]
          refine ⟨by simp [ha], fun y hy => ?_⟩
          rcases List.mem_append.1 hy with hy | hy
          · exact hb y hy
          · simp at hy; rw [hy]; exact not_lt.1 hx
    · simp only [Acc.push, h6, h7, windowSize, List.length_drop]
      by_cases hlen : xs.length < 50
      · rw [if_pos (by omega), if_pos (by omega)]
        have e1 : xs.length - 50 = 0 := by omega
        have e2 : (xs ++ [x]).length - 50 = 0 := by simp; omega
        rw [e1, e2]; simp
      · rw [if_neg (by omega), if_neg (by omega)]
        have e2 : (xs ++ [x]).length - 50 = xs.length - 50 + 1 := by simp; omega
        rw [e2, List.drop_append_of_le_length (by omega), List.tail_drop]
        refine ⟨rfl, ?_⟩
        rw [List.sum_append, List.sum_singleton, ← List.tail_drop]
        cases hd : xs.drop (xs.length - 50) with
        | nil =>
          have := congrArg List.length hd
          simp at this; omega
        | cons y ys => simp

theorem sum_sq_dev (xs : List ℚ) (m : ℚ) :
    (xs.map fun x => (x - m) ^ 2).sum = (xs.map fun x => x * x).sum - 2 * m * xs.sum + xs.length * m ^ 2 := by
  induction xs with
  | nil => simp
  | cons x xs ih => simp only [List.map_cons, List.sum_cons, ih, List.length_cons]; push_cast; ring

/-! ## the registry -/

theorem lookup_zipIdx (l : List Tag) (t : Tag) : ∀ k,
    lookup (l.zipIdx k) t = if t ∈ l then some (l.idxOf t + k) else none := by
  induction l with
  | nil => intro k; simp [lookup]
  | cons a l ih =>
    intro k
    rw [List.zipIdx_cons, lookup, ih]
    by_cases h : a = t
    · subst h; simp
    · have h' : ¬ t = a := fun e => h e.symm
      rw [if_neg h, List.idxOf_cons_ne _ h]
      simp only [List.mem_cons, h', false_or]
      split <;> simp; omega

theorem getElem_tags {l : List Tag} {h : ℕ} {t : Tag} (hn : l.Nodup) (hh : l[h]? = some t) :
    l.idxOf t = h := by
  obtain ⟨hlt, rfl⟩ := List.getElem?_eq_some_iff.1 hh
  exact hn.idxOf_getElem h hlt

/-- model state and abstract state correspond -/
structure Inv (s : Sys) (a : Abs) : Prop where
  nodup : a.tags.Nodup
  map : s.tagMap = a.tags.zipIdx
  accs : s.accs = a.tags.map fun t => accOf (a.samples t)
  unreg : ∀ t, t ∉ a.tags → a.samples t = []
  timers : ∀ id, s.timers id = (a.timers id).map fun p => ⟨a.tags.idxOf p.1, p.2⟩
  owner : ∀ id t o, a.timers id = some (t, o) → t ∈ a.tags

theorem inv_init : Inv Sys.init Abs.init :=
  ⟨by simp [Abs.init], rfl, rfl, fun _ _ => rfl, fun _ => rfl, by simp [Abs.init]⟩

theorem inv_lookup {s : Sys} {a : Abs} (h : Inv s a) (t : Tag) :
    lookup s.tagMap t = if t ∈ a.tags then some (a.tags.idxOf t) else none := by
  rw [h.map, lookup_zipIdx]; rfl

theorem inv_len {s : Sys} {a : Abs} (h : Inv s a) : s.accs.length = a.tags.length := by
  rw [h.accs, List.length_map]

theorem register_mem (a : Abs) (t : Tag) : t ∈ (a.register t).tags := by
  unfold Abs.register; split
  · assumption
  · simp

theorem inv_getHandle {s : Sys} {a : Abs} (h : Inv s a) (t : Tag) :
    (getHandle s t).1 = (a.register t).tags.idxOf t ∧ Inv (getHandle s t).2 (a.register t) := by
  unfold getHandle Abs.register
  rw [inv_lookup h]
  by_cases ht : t ∈ a.tags
  · simp only [ht, if_true]; exact ⟨trivial, h⟩
  · simp only [ht, if_false]
    refine ⟨?_, ?_⟩
    · rw [List.idxOf_append_of_notMem ht, inv_len h]; simp
    · constructor
      · rw [List.nodup_append]; refine ⟨h.nodup, by simp, ?_⟩; intro x hx y hy e; simp at hy; exact ht (hy ▸ e ▸ hx)
      · simp only [h.map, inv_len h, List.zipIdx_append]; simp
      · simp only [h.accs, List.map_append, List.map_cons, List.map_nil, h.unreg t ht, accOf_nil]
      · intro t' ht'; exact h.unreg t' fun hm => ht' (by simp [hm])
      · intro id
        simp only [h.timers id]
        cases hid : a.timers id with
        | none => rfl
        | some p =>
          have := h.owner id p.1 p.2 hid
          simp [List.idxOf_append_of_mem this]
      · intro id t' o ho; simp [h.owner id t' o ho]

theorem modify_map (l : List Tag) (hn : l.Nodup) (t : Tag) (ht : t ∈ l) (f : Tag → Acc) (g : Acc → Acc) :
    (l.map f).modify (l.idxOf t) g = l.map fun t' => if t' = t then g (f t') else f t' := by
  apply List.ext_getElem?
  intro i
  rw [List.getElem?_modify, List.getElem?_map, List.getElem?_map]
  cases hi : l[i]? with
  | none => simp
  | some t' =>
    have hidx := getElem_tags hn hi
    simp only [Option.map_some]
    by_cases h : t' = t
    · subst h; simp [hidx]
    · have : ¬ l.idxOf t = i := by
        intro e
        obtain ⟨hlt, e'⟩ := List.getElem?_eq_some_iff.1 hi
        apply h
        rw [← e']
        have := List.getElem_idxOf (List.idxOf_lt_length_of_mem ht)
        simp only [e] at this
        exact this
      simp [this, h]

theorem inv_addTime {s : Sys} {a : Abs} (h : Inv s a) (t : Tag) (ht : t ∈ a.tags) (dt : ℚ) :
    Inv (s.addTime (a.tags.idxOf t) dt) (a.record t dt) := by
  constructor
  · exact h.nodup
  · exact h.map
  · simp only [Sys.addTime, Abs.record, h.accs]
    rw [modify_map a.tags h.nodup t ht]
    apply List.map_congr_left
    intro t' _
    by_cases e : t' = t
    · simp [e, accOf_append]
    · simp [e]
  · intro t' ht'
    simp only [Abs.record] at ht' ⊢
    have : t' ≠ t := fun e => ht' (e ▸ ht)
    simp [this, h.unreg t' ht']
  · exact h.timers
  · exact h.owner

theorem inv_clear {s : Sys} {a : Abs} (h : Inv s a) (t : Tag) (ht : t ∈ a.tags) :
    Inv { s with accs := s.accs.modify (a.tags.idxOf t) fun _ => Acc.init } (a.clear t) := by
  constructor
  · exact h.nodup
  · exact h.map
  · simp only [Abs.clear, h.accs]
    rw [modify_map a.tags h.nodup t ht]
    apply List.map_congr_left
    intro t' _
    by_cases e : t' = t
    · simp [e, accOf_nil]
    · simp [e]
  · intro t' ht'
    simp only [Abs.clear] at ht' ⊢
    split
    · rfl
    · exact h.unreg t' ht'
  · exact h.timers
  · exact h.owner

theorem inv_setTimer {s : Sys} {a : Abs} (h : Inv s a) (id : ℕ) (v : Option (Tag × Option ℚ))
    (hv : ∀ t o, v = some (t, o) → t ∈ a.tags) :
    Inv (s.setTimer id (v.map fun p => ⟨a.tags.idxOf p.1, p.2⟩)) (a.setTimer id v) := by
  refine ⟨h.nodup, h.map, h.accs, h.unreg, ?_, ?_⟩
  · intro i
    simp only [Sys.setTimer, Abs.setTimer]
    split
    · rfl
    · exact h.timers i
  · intro i t o
    simp only [Abs.setTimer]
    split
    · exact hv t o
    · exact h.owner i t o

theorem inv_step {s : Sys} {a : Abs} (h : Inv s a) (o : Op) :
    (step s o).1 = (a.step o).1 ∧ Inv (step s o).2 (a.step o).2 := by
  cases o with
  | getHandle t =>
    obtain ⟨h1, h2⟩ := inv_getHandle h t
    exact ⟨by simp [step, Abs.step, h1], h2⟩
  | newTag id t stopped now =>
    obtain ⟨h1, h2⟩ := inv_getHandle h t
    simp only [step, Abs.step, h.timers id]
    cases hid : a.timers id with
    | some p => exact ⟨rfl, h⟩
    | none =>
      refine ⟨rfl, ?_⟩
      have := inv_setTimer h2 id (some (t, if stopped then none else some now))
        (by intro t' o e; cases e; exact register_mem a t)
      simpa [h1] using this
  | newHandle id hd stopped now =>
    simp only [step, Abs.step, h.timers id]
    cases hid : a.timers id with
    | some p => exact ⟨rfl, h⟩
    | none =>
      simp only [Option.map_none]
      cases ht : a.tags[hd]? with
      | none =>
        rw [List.getElem?_eq_none_iff, ← inv_len h] at ht
        rw [if_neg (by omega)]; exact ⟨rfl, h⟩
      | some t =>
        obtain ⟨hlt, e⟩ := List.getElem?_eq_some_iff.1 ht
        rw [if_pos (by rw [inv_len h]; exact hlt)]
        refine ⟨rfl, ?_⟩
        have := inv_setTimer h id (some (t, if stopped then none else some now))
          (by intro t' o e'; cases e'; exact e ▸ List.getElem_mem hlt)
        simpa [getElem_tags h.nodup ht] using this
  | start id now =>
    simp only [step, Abs.step, h.timers id]
    cases hid : a.timers id with
    | none => exact ⟨rfl, h⟩
    | some p =>
      obtain ⟨t, o⟩ := p
      cases o with
      | some _ => exact ⟨rfl, h⟩
      | none =>
        refine ⟨rfl, ?_⟩
        exact inv_setTimer h id (some (t, some now)) (by intro t' o e; cases e; exact h.owner id t _ hid)
  | stop id now =>
    simp only [step, Abs.step, h.timers id]
    cases hid : a.timers id with
    | none => exact ⟨rfl, h⟩
    | some p =>
      obtain ⟨t, o⟩ := p
      cases o with
      | none => exact ⟨rfl, h⟩
      | some t0 =>
        refine ⟨rfl, ?_⟩
        have ht := h.owner id t _ hid
        exact inv_setTimer (inv_addTime h t ht (now - t0)) id (some (t, none))
          (by intro t' o e; cases e; exact ht)
  | destroy id now =>
    simp only [step, Abs.step, h.timers id]
    cases hid : a.timers id with
    | none => exact ⟨rfl, h⟩
    | some p =>
      obtain ⟨t, o⟩ := p
      have ht := h.owner id t _ hid
      cases o with
      | none => exact ⟨rfl, inv_setTimer h id none (by simp)⟩
      | some t0 =>
        refine ⟨rfl, ?_⟩
        have h1 := inv_setTimer (inv_addTime h t ht (now - t0)) id (some (t, none))
          (by intro t' o e; cases e; exact ht)
        have h2 := inv_setTimer h1 id none (by simp)
        have e : ((a.record t (now - t0)).setTimer id (some (t, none))).setTimer id none =
            (a.record t (now - t0)).setTimer id none := by
          simp only [Abs.setTimer, Abs.record, Abs.mk.injEq, true_and]
          funext i; split <;> simp_all
        rw [e] at h2
        exact h2
  | resetHandle hd =>
    simp only [step, Abs.step]
    cases ht : a.tags[hd]? with
    | none =>
      rw [List.getElem?_eq_none_iff, ← inv_len h] at ht
      rw [if_neg (by omega)]; exact ⟨rfl, h⟩
    | some t =>
      obtain ⟨hlt, e⟩ := List.getElem?_eq_some_iff.1 ht
      rw [if_pos (by rw [inv_len h]; exact hlt)]
      refine ⟨rfl, ?_⟩
      have := inv_clear h t (e ▸ List.getElem_mem hlt)
      simpa [getElem_tags h.nodup ht] using this
  | resetTag t =>
    obtain ⟨h1, h2⟩ := inv_getHandle h t
    refine ⟨rfl, ?_⟩
    simp only [step, Abs.step]
    rw [h1]
    exact inv_clear h2 t (register_mem a t)
  | query t => exact ⟨rfl, (inv_getHandle h t).2⟩

theorem inv_run {s : Sys} {a : Abs} (h : Inv s a) (os : List Op) :
    (run s os).1 = (a.run os).1 ∧ Inv (run s os).2 (a.run os).2 := by
  induction os generalizing s a with
  | nil => exact ⟨rfl, h⟩
  | cons o os ih =>
    obtain ⟨h1, h2⟩ := inv_step h o
    obtain ⟨h3, h4⟩ := ih h2
    exact ⟨by simp [run, Abs.run, h1, h3], h4⟩

/-- registered tags stay, in their place -/
theorem abs_step_tags (a : Abs) (o : Op) : a.tags <+: (a.step o).2.tags := by
  have hr : ∀ t, a.tags <+: (a.register t).tags := by
    intro t; unfold Abs.register; split <;> simp
  cases o <;> simp only [Abs.step] <;> (try split) <;> (try split) <;> (try split) <;>
    first | exact hr _ | exact List.prefix_rfl

theorem abs_run_tags (a : Abs) (os : List Op) : a.tags <+: (a.run os).2.tags := by
  induction os generalizing a with
  | nil => exact List.prefix_rfl
  | cons o os ih => exact (abs_step_tags a o).trans (ih _)

end Verif.Timing
