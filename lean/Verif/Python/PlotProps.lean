import Verif.Python.Plot
import Mathlib.Data.List.Induction
import Mathlib.Data.List.Nodup

/-! # C142: the tabs of a `PlotCollection` -/

namespace Verif.Python.Plot

variable {N F : Type} [DecidableEq N]

/-! ## specification: in terms of the calls alone -/

/-- the call is about the tab `n` -/
def Call.about (n : N) : Call N F → Prop
  | .add m _ => m = n
  | .delete m => m = n

/-- after the calls the tab `n` holds the figure `f`: the last call about `n` added `f` -/
def Holds (calls : List (Call N F)) (n : N) (f : F) : Prop :=
  ∃ before after, calls = before ++ .add n f :: after ∧ ∀ c ∈ after, ¬ c.about n

/-- the present tab `n` was opened by call number `i`: it was added then, not deleted since, and was not there before -/
def OpenedAt (calls : List (Call N F)) (n : N) (i : Nat) : Prop :=
  ∃ before f after, calls = before ++ .add n f :: after ∧ before.length = i ∧
    (∀ c ∈ after, c ≠ .delete n) ∧ ¬ ∃ g, Holds before n g

/-! ## the ordered dictionary -/

theorem mem_setItem {d : List (N × F)} (hd : (d.map Prod.fst).Nodup) (k : N) (v : F) (n : N) (f : F) :
    (n, f) ∈ setItem d k v ↔ (n = k ∧ f = v) ∨ (n ≠ k ∧ (n, f) ∈ d) := by
  induction d with
  | nil => simp [setItem]
  | cons e rest ih =>
    obtain ⟨k', v'⟩ := e
    simp only [List.map_cons, List.nodup_cons] at hd
    simp only [setItem]
    split
    · rename_i h
      subst h
      simp only [List.mem_cons, Prod.mk.injEq]
      constructor
      · rintro (h | h)
        · exact Or.inl h
        · refine Or.inr ⟨?_, Or.inr h⟩
          rintro rfl
          exact hd.1 (List.mem_map_of_mem (f := Prod.fst) h)
      · rintro (h | ⟨h1, h2 | h2⟩)
        · exact Or.inl h
        · exact absurd h2.1 h1
        · exact Or.inr h2
    · rename_i h
      simp only [List.mem_cons, Prod.mk.injEq, ih hd.2]
      constructor
      · rintro (⟨rfl, rfl⟩ | h1 | ⟨h1, h2⟩)
        · exact Or.inr ⟨h, Or.inl ⟨rfl, rfl⟩⟩
        · exact Or.inl h1
        · exact Or.inr ⟨h1, Or.inr h2⟩
      · rintro (h1 | ⟨h1, h2 | h2⟩)
        · exact Or.inr (Or.inl h1)
        · exact Or.inl h2
        · exact Or.inr (Or.inr ⟨h1, h2⟩)

theorem keys_setItem (d : List (N × F)) (k : N) (v : F) :
    (setItem d k v).map Prod.fst = if k ∈ d.map Prod.fst then d.map Prod.fst else d.map Prod.fst ++ [k] := by
  induction d with
  | nil => simp [setItem]
  | cons e rest ih =>
    obtain ⟨k', v'⟩ := e
    simp only [setItem]
    by_cases h : k' = k
    · subst h; simp
    · rw [if_neg h]
      simp only [List.map_cons, ih, List.mem_cons, fun e : k = k' => h e.symm, false_or]
      have h' : ¬ k = k' := fun e => h e.symm
      split <;> simp [*]

theorem keys_pop {d : List (N × F)} (hd : (d.map Prod.fst).Nodup) (k : N) : (pop d k).map Prod.fst = (d.map Prod.fst).filter (· ≠ k) := by
  induction d with
  | nil => rfl
  | cons e rest ih =>
    obtain ⟨k', v'⟩ := e
    simp only [List.map_cons, List.nodup_cons] at hd
    simp only [pop]
    by_cases h : k' = k
    · subst h
      rw [if_pos rfl, List.map_cons, List.filter_cons, if_neg (by simp)]
      symm
      rw [List.filter_eq_self]
      intro a ha
      simp only [decide_eq_true_eq]
      rintro rfl
      exact hd.1 ha
    · rw [if_neg h, List.map_cons, List.map_cons, List.filter_cons, if_pos (by simpa using h), ih hd.2]

theorem mem_pop {d : List (N × F)} (hd : (d.map Prod.fst).Nodup) (k : N) (n : N) (f : F) : (n, f) ∈ pop d k ↔ n ≠ k ∧ (n, f) ∈ d := by
  induction d with
  | nil => simp [pop]
  | cons e rest ih =>
    obtain ⟨k', v'⟩ := e
    simp only [List.map_cons, List.nodup_cons] at hd
    simp only [pop]
    by_cases h : k' = k
    · subst h
      rw [if_pos rfl]
      simp only [List.mem_cons, Prod.mk.injEq]
      constructor
      · intro hm
        refine ⟨?_, Or.inr hm⟩
        rintro rfl
        exact hd.1 (List.mem_map_of_mem (f := Prod.fst) hm)
      · rintro ⟨h1, h2 | h2⟩
        · exact absurd h2.1 h1
        · exact h2
    · rw [if_neg h]
      simp only [List.mem_cons, Prod.mk.injEq, ih hd.2]
      constructor
      · rintro (⟨rfl, rfl⟩ | ⟨h1, h2⟩)
        · exact ⟨h, Or.inl ⟨rfl, rfl⟩⟩
        · exact ⟨h1, Or.inr h2⟩
      · rintro ⟨h1, h2 | h2⟩
        · exact Or.inl h2
        · exact Or.inr ⟨h1, h2⟩

theorem getItem_of_mem {d : List (N × F)} (hd : (d.map Prod.fst).Nodup) {n : N} {f : F} (h : (n, f) ∈ d) : getItem d n = some f := by
  induction d with
  | nil => exact absurd h (by simp)
  | cons e rest ih =>
    obtain ⟨k', v'⟩ := e
    simp only [List.map_cons, List.nodup_cons] at hd
    simp only [getItem]
    rcases List.mem_cons.1 h with h | h
    · simp only [Prod.mk.injEq] at h; rw [if_pos h.1.symm, h.2]
    · have : k' ≠ n := by
        rintro rfl
        exact hd.1 (List.mem_map_of_mem (f := Prod.fst) h)
      rw [if_neg this]; exact ih hd.2 h

theorem pages_eq (d : List (N × F)) (hd : (d.map Prod.fst).Nodup) : ∀ l : List (N × F), (∀ e ∈ l, e ∈ d) → pages d (l.map Prod.fst) = some l := by
  intro l
  induction l with
  | nil => intro _; rfl
  | cons e rest ih =>
    intro h
    obtain ⟨n, f⟩ := e
    simp only [List.map_cons, pages]
    rw [getItem_of_mem hd (h (n, f) (by simp)), ih fun e he => h e (List.mem_cons_of_mem _ he)]

/-! ## histories -/

theorem run_snoc (c : Collection N F) (calls : List (Call N F)) (x : Call N F) : run c (calls ++ [x]) = step (run c calls) x := by
  simp [run]

theorem holds_snoc (calls : List (Call N F)) (x : Call N F) (n : N) (f : F) :
    Holds (calls ++ [x]) n f ↔ x = .add n f ∨ (¬ x.about n ∧ Holds calls n f) := by
  constructor
  · rintro ⟨b, a, h, ha⟩
    rcases List.eq_nil_or_concat a with rfl | ⟨a', y, rfl⟩
    · have := List.append_inj' h (by simp)
      simp only [List.cons.injEq, and_true] at this
      exact Or.inl this.2
    · have h' : calls ++ [x] = (b ++ .add n f :: a') ++ [y] := by rw [h]; simp
      have := List.append_inj' h' (by simp)
      simp only [List.cons.injEq, and_true] at this
      refine Or.inr ⟨this.2 ▸ ha y (by simp), b, a', this.1, fun c hc => ha c (by simp [hc])⟩
  · rintro (rfl | ⟨hx, b, a, h, ha⟩)
    · exact ⟨calls, [], by simp, by simp⟩
    · refine ⟨b, a ++ [x], by rw [h]; simp, fun c hc => ?_⟩
      rcases List.mem_append.1 hc with hc | hc
      · exact ha c hc
      · simp only [List.mem_singleton] at hc; exact hc ▸ hx

theorem openedAt_lt {calls : List (Call N F)} {n : N} {i : Nat} (h : OpenedAt calls n i) : i < calls.length := by
  obtain ⟨b, f, a, rfl, rfl, _⟩ := h
  simp

theorem openedAt_snoc (calls : List (Call N F)) (x : Call N F) (n : N) (i : Nat) (h : OpenedAt (calls ++ [x]) n i) :
    (OpenedAt calls n i ∧ x ≠ .delete n) ∨ (i = calls.length ∧ (∃ f, x = .add n f) ∧ ¬ ∃ g, Holds calls n g) := by
  obtain ⟨b, f, a, h, hl, ha, hb⟩ := h
  rcases List.eq_nil_or_concat a with rfl | ⟨a', y, rfl⟩
  · have := List.append_inj' h (by simp)
    simp only [List.cons.injEq, and_true] at this
    exact Or.inr ⟨by rw [← hl, this.1], ⟨f, this.2⟩, this.1 ▸ hb⟩
  · have h' : calls ++ [x] = (b ++ .add n f :: a') ++ [y] := by rw [h]; simp
    have := List.append_inj' h' (by simp)
    simp only [List.cons.injEq, and_true] at this
    exact Or.inl ⟨⟨b, f, a', this.1, hl, fun c hc => ha c (by simp [hc]), hb⟩, this.2 ▸ ha y (by simp)⟩

theorem openedAt_holds (calls : List (Call N F)) (n : N) (i : Nat) (h : OpenedAt calls n i) : ∃ f, Holds calls n f := by
  obtain ⟨b, f, a, rfl, _, ha, _⟩ := h
  induction a using List.reverseRecOn with
  | nil => exact ⟨f, b, [], rfl, by simp⟩
  | append_singleton a y ih =>
    obtain ⟨g, hg⟩ := ih fun c hc => ha c (by simp [hc])
    have e : b ++ Call.add n f :: (a ++ [y]) = (b ++ Call.add n f :: a) ++ [y] := by simp
    rw [e]
    cases y with
    | add m g' =>
      by_cases hm : m = n
      · subst hm; exact ⟨g', (holds_snoc _ _ _ _).2 (Or.inl rfl)⟩
      · exact ⟨g, (holds_snoc _ _ _ _).2 (Or.inr ⟨hm, hg⟩)⟩
    | delete m =>
      have hm : m ≠ n := by rintro rfl; exact ha (.delete m) (by simp) rfl
      exact ⟨g, (holds_snoc _ _ _ _).2 (Or.inr ⟨hm, hg⟩)⟩

/-- every present tab was opened by some call -/
theorem holds_opened (calls : List (Call N F)) (n : N) : (∃ f, Holds calls n f) → ∃ i, OpenedAt calls n i := by
  induction calls using List.reverseRecOn with
  | nil =>
    rintro ⟨f, b, a, h, _⟩
    simp at h
  | append_singleton calls x ih =>
    rintro ⟨f, hf⟩
    by_cases hp : ∃ g, Holds calls n g
    · obtain ⟨i, b, g, a, h1, h2, h3, h4⟩ := ih hp
      refine ⟨i, b, g, a ++ [x], by rw [h1]; simp, h2, ?_, h4⟩
      intro c hc
      rcases List.mem_append.1 hc with hc | hc
      · exact h3 c hc
      · simp only [List.mem_singleton] at hc
        subst hc
        rintro rfl
        rcases (holds_snoc _ _ _ _).1 hf with h | h
        · cases h
        · exact h.1 rfl
    · rcases (holds_snoc _ _ _ _).1 hf with rfl | h
      · exact ⟨calls.length, calls, f, [], by simp, rfl, by simp, hp⟩
      · exact absurd ⟨f, h.2⟩ hp

theorem run_state (name : String) (size : Nat × Nat) (calls : List (Call N F)) :
    let d := (run (create name size) calls).figureList
    (d.map Prod.fst).Nodup ∧ (∀ n f, (n, f) ∈ d ↔ Holds calls n f) ∧
    (d.map Prod.fst).Pairwise (fun n m => ∀ i j, OpenedAt calls n i → OpenedAt calls m j → i < j) ∧
    (run (create name size) calls).frameName = name ∧ (run (create name size) calls).windowSize = size := by
  induction calls using List.reverseRecOn with
  | nil =>
    refine ⟨List.nodup_nil, ?_, List.Pairwise.nil, rfl, rfl⟩
    intro n f
    refine ⟨fun h => absurd h (by simp [run, create]), ?_⟩
    rintro ⟨b, a, h, _⟩
    simp at h
  | append_singleton calls x ih =>
    obtain ⟨h1, h2, h3, h4, h5⟩ := ih
    rw [run_snoc]
    set c := run (create name size) calls with hc
    have hkey : ∀ n, n ∈ c.figureList.map Prod.fst ↔ ∃ f, Holds calls n f := by
      intro n
      constructor
      · intro h
        obtain ⟨⟨n', f⟩, he, rfl⟩ := List.mem_map.1 h
        exact ⟨f, (h2 _ _).1 he⟩
      · rintro ⟨f, hf⟩
        exact List.mem_map_of_mem (f := Prod.fst) ((h2 _ _).2 hf)
    cases x with
    | add k v =>
      simp only [step, addFigure]
      refine ⟨?_, ?_, ?_, h4, h5⟩
      · rw [keys_setItem]
        split
        · exact h1
        · rename_i hk
          exact List.Nodup.append h1 (List.nodup_singleton k) (by simpa using hk)
      · intro n f
        rw [mem_setItem h1, holds_snoc, h2]
        simp only [Call.add.injEq, Call.about]
        constructor
        · rintro (⟨rfl, rfl⟩ | ⟨h, h'⟩)
          · exact Or.inl ⟨rfl, rfl⟩
          · exact Or.inr ⟨fun e => h e.symm, h'⟩
        · rintro (⟨rfl, rfl⟩ | ⟨h, h'⟩)
          · exact Or.inl ⟨rfl, rfl⟩
          · exact Or.inr ⟨fun e => h e.symm, h'⟩
      · rw [keys_setItem]
        split
        · rename_i hk
          refine h3.imp_of_mem fun {n m} hn hm h i j hi hj => ?_
          refine h i j ?_ ?_
          · rcases openedAt_snoc _ _ _ _ hi with h | h
            · exact h.1
            · exact absurd ((hkey _).1 hn) h.2.2
          · rcases openedAt_snoc _ _ _ _ hj with h | h
            · exact h.1
            · exact absurd ((hkey _).1 hm) h.2.2
        · rename_i hk
          refine List.pairwise_append.2 ⟨?_, List.pairwise_singleton _ _, ?_⟩
          · refine h3.imp_of_mem fun {n m} hn hm h i j hi hj => ?_
            refine h i j ?_ ?_
            · rcases openedAt_snoc _ _ _ _ hi with h | h
              · exact h.1
              · exact absurd ((hkey _).1 hn) h.2.2
            · rcases openedAt_snoc _ _ _ _ hj with h | h
              · exact h.1
              · exact absurd ((hkey _).1 hm) h.2.2
          · intro n hn m hm i j hi hj
            simp only [List.mem_singleton] at hm
            subst hm
            rcases openedAt_snoc _ _ _ _ hj with h | h
            · exact absurd ((hkey _).2 (openedAt_holds _ _ _ h.1)) hk
            · rw [h.1]
              rcases openedAt_snoc _ _ _ _ hi with h' | h'
              · exact openedAt_lt h'.1
              · exact absurd ((hkey _).1 hn) h'.2.2
    | delete k =>
      simp only [step, deleteFigure]
      refine ⟨?_, ?_, ?_, h4, h5⟩
      · rw [keys_pop h1]; exact h1.filter _
      · intro n f
        rw [mem_pop h1, holds_snoc, h2]
        simp only [Call.about]
        constructor
        · rintro ⟨h, h'⟩; exact Or.inr ⟨fun e => h e.symm, h'⟩
        · rintro (h | ⟨h, h'⟩)
          · cases h
          · exact ⟨fun e => h e.symm, h'⟩
      · rw [keys_pop h1]
        refine (h3.filter _).imp fun {n m} h i j hi hj => ?_
        refine h i j ?_ ?_
        · rcases openedAt_snoc _ _ _ _ hi with h | h
          · exact h.1
          · obtain ⟨_, ⟨f, hf⟩, _⟩ := h; cases hf
        · rcases openedAt_snoc _ _ _ _ hj with h | h
          · exact h.1
          · obtain ⟨_, ⟨f, hf⟩, _⟩ := h; cases hf

/-- **C142** After any history of calls, `show` shows nothing if no tab is left, and otherwise one window with the given title and size whose tabs are exactly the names added and not deleted since, each once, with the figure added last, in the order in which they were opened. -/
theorem C142_show (name : String) (size : Nat × Nat) (calls : List (Call N F)) :
    ((∀ n f, ¬ Holds calls n f) → «show» (run (create name size) calls) = some .nothing) ∧
    ((∃ n f, Holds calls n f) → ∃ tabs, «show» (run (create name size) calls) = some (.window name size tabs) ∧
      (tabs.map Prod.fst).Nodup ∧ (∀ n f, (n, f) ∈ tabs ↔ Holds calls n f) ∧
      (tabs.map Prod.fst).Pairwise (fun n m => ∃ i j, OpenedAt calls n i ∧ OpenedAt calls m j ∧ i < j)) := by
  obtain ⟨h1, h2, h3, h4, h5⟩ := run_state name size calls
  constructor
  · intro h
    have : (run (create name size) calls).figureList = [] := List.eq_nil_iff_forall_not_mem.2 fun e he => h e.1 e.2 ((h2 _ _).1 he)
    simp [«show», this]
  · rintro ⟨n, f, hf⟩
    have hm := (h2 n f).2 hf
    have hlen : ¬ ((run (create name size) calls).figureList.map Prod.fst).length = 0 := by
      intro h
      rw [List.length_map, List.length_eq_zero_iff] at h
      rw [h] at hm; simp at hm
    refine ⟨(run (create name size) calls).figureList, ?_, h1, h2, ?_⟩
    · unfold «show»
      rw [if_neg hlen, pages_eq _ h1 _ fun _ h => h, h4, h5]; rfl
    · refine h3.imp_of_mem fun {n m} hn hm h => ?_
      have key : ∀ n, n ∈ (run (create name size) calls).figureList.map Prod.fst → ∃ i, OpenedAt calls n i := by
        intro n hn
        obtain ⟨⟨n', f⟩, he, rfl⟩ := List.mem_map.1 hn
        exact holds_opened _ _ ⟨f, (h2 _ _).1 he⟩
      obtain ⟨i, hi⟩ := key n hn
      obtain ⟨j, hj⟩ := key m hm
      exact ⟨i, j, hi, hj, h i j hi hj⟩

/-- Concrete: a replaced figure keeps its tab's place, a deleted and re-added one moves to the end. -/
example : «show» (run (create "w" (800, 600)) [Call.add 1 'a', .add 2 'b', .add 3 'c', .add 1 'd', .delete 2, .delete 7, .add 2 'e']) =
    some (.window "w" (800, 600) [(1, 'd'), (3, 'c'), (2, 'e')]) := by decide

example : «show» (run (create (N := Nat) (F := Char) "w" (1, 1)) [Call.add 1 'a', .delete 1]) = some .nothing := by decide

end Verif.Python.Plot
