import Verif.PTree.IniGrammar
import Mathlib.Data.List.Basic

/-!
# C165: every INI file is loaded as what it says
-/

namespace Verif.PTree.IniFile

open Verif.PTree

/-! ## Lemmas: lines -/

theorem blank_ws {w : Str} (h : Blank w) : ∀ c ∈ w, isSpaceC c = true := fun c hc => (isSpaceC_iff c).2 (h c hc)

theorem notSpace {c : Char} (h : ¬ Space c) : isSpaceC c = false := by
  rw [Bool.eq_false_iff]; exact fun h' => h ((isSpaceC_iff c).1 h')

theorem dropBlank : ∀ {w : Str} (_ : Blank w) (s : Str), (w ++ s).dropWhile isSpaceC = s.dropWhile isSpaceC
  | [], _, s => rfl
  | c :: w, h, s => by
    rw [List.cons_append, List.dropWhile_cons, if_pos (blank_ws h c (by simp))]
    exact dropBlank (fun d hd => h d (by simp [hd])) s

theorem trim_around {a x b : Str} (ha : Blank a) (hx : Trimmed x) (hb : Blank b) : trim (a ++ (x ++ b)) = x := by
  unfold trim
  rw [dropBlank ha]
  have hrev : ∀ y : Str, Blank y → Blank y.reverse := fun y hy c hc => hy c (by simpa using hc)
  by_cases h0 : x = []
  · subst h0
    have : ([] ++ b).dropWhile isSpaceC = [] := by
      have := dropBlank hb []
      simpa using this
    rw [this]; rfl
  · have h1 : (x ++ b).dropWhile isSpaceC = x ++ b := by
      apply dropWhile_id
      intro c hc
      obtain ⟨d, y, rfl⟩ := List.exists_cons_of_ne_nil h0
      simp at hc; subst hc
      exact notSpace (hx.1 _ (by simp))
    rw [h1, List.reverse_append, dropBlank (hrev b hb), dropWhile_id, List.reverse_reverse]
    intro c hc
    rw [List.head?_reverse] at hc
    exact notSpace (hx.2 c hc)

theorem trim_split (l : Str) : ∃ a b, Blank a ∧ Blank b ∧ l = a ++ (trim l ++ b) ∧ Trimmed (trim l) := by
  have tw : ∀ s : Str, Blank (s.takeWhile isSpaceC) := fun s c hc => (isSpaceC_iff c).1 (List.all_eq_true.1 List.all_takeWhile c hc)
  refine ⟨l.takeWhile isSpaceC, ((l.dropWhile isSpaceC).reverse.takeWhile isSpaceC).reverse, tw l, ?_, ?_, ?_, ?_⟩
  · intro c hc
    exact tw _ c (by simpa using hc)
  · unfold trim
    rw [← List.reverse_append, List.takeWhile_append_dropWhile, List.reverse_reverse, List.takeWhile_append_dropWhile]
  · intro c hc
    have := trim_head l c hc
    exact fun h => by rw [(isSpaceC_iff c).2 h] at this; simp at this
  · intro c hc
    have := trim_last l c hc
    exact fun h => by rw [(isSpaceC_iff c).2 h] at this; simp at this

/-- what an item does to the state -/
def itemStep (p : RS) : Item → Option RS
  | .nothing => some p
  | .sec n => if has n p.flush then none else some ⟨p.flush, some (n, [])⟩
  | .entry k v => if has k p.container then none else some (p.push k v)

theorem trimmed_ends {c : Char} {y : Str} (hc : ¬ Space c) : ∃ y' b, Blank b ∧ y = y' ++ b ∧ Trimmed (c :: y') := by
  obtain ⟨a, b, ha, hb, he, ht⟩ := trim_split (c :: y)
  cases a with
  | nil =>
    rw [List.nil_append] at he
    cases hx : trim (c :: y) with
    | nil =>
      rw [hx, List.nil_append] at he
      exact absurd (hb c (by rw [← he]; simp)) hc
    | cons d y' =>
      rw [hx] at he ht
      obtain ⟨rfl, rfl⟩ := List.cons.inj he
      exact ⟨y', b, hb, rfl, ht⟩
  | cons d a =>
    obtain ⟨rfl, -⟩ := List.cons.inj he
    exact absurd (ha _ (by simp)) hc

theorem lineStep_of {l : Str} {it : Item} (h : LineMeans l it) (p : RS) : lineStep p l = itemStep p it := by
  cases h with
  | blank hw =>
    have : trim l = [] := by
      have := trim_around hw (x := []) (b := []) ⟨by simp, by simp⟩ (by simp [Blank])
      simpa using this
    simp [lineStep, this, itemStep]
  | @comment w r c hw hc =>
    have hns : ¬ Space c := by rcases hc with rfl | rfl <;> simp [Space] <;> decide
    obtain ⟨r', b, hb, rfl, ht⟩ := trimmed_ends (y := r) hns
    have : trim (w ++ c :: (r' ++ b)) = c :: r' := trim_around hw ht hb
    simp [lineStep, this, itemStep, hc]
  | @sec w a n b r hw ha hn hno hb =>
    have hns : ¬ Space '[' := by simp [Space]
    have hbn : ']' ∉ b := fun h => absurd (hb _ h) (by simp [Space])
    have han : ']' ∉ a := fun h => absurd (ha _ h) (by simp [Space])
    obtain ⟨r', e, he, hr', ht⟩ := trimmed_ends (c := '[') (y := a ++ (n ++ (b ++ ']' :: r))) hns
    have h1 : trim (w ++ '[' :: (r' ++ e)) = '[' :: r' := trim_around hw ht he
    obtain ⟨r2, hr2⟩ : ∃ r2, r' = a ++ (n ++ b) ++ ']' :: r2 := by
      have hmem : ']' ∈ r' := by
        have : ']' ∈ r' ++ e := by rw [← hr']; simp
        rcases List.mem_append.1 this with h | h
        · exact h
        · exact absurd (he _ h) (by simp [Space])
      obtain ⟨x, y, rfl, hx⟩ := List.eq_append_cons_of_mem hmem
      have hx' : ']' ∉ a ++ (n ++ b) := by simp [han, hno, hbn]
      have e1 := takeWhile_stop (a ++ (n ++ b)) r hx'
      have e2 := takeWhile_stop x (y ++ e) hx
      have : a ++ (n ++ b) ++ ']' :: r = x ++ ']' :: (y ++ e) := by
        have := hr'
        simp only [List.append_assoc, List.cons_append] at this ⊢
        exact this
      rw [this, e2.1] at e1
      exact ⟨y, by rw [e1.1]⟩
    have h2 : ']' ∈ r' := by rw [hr2]; simp
    have h3 : trim (r'.takeWhile (fun c => decide (c ≠ ']'))) = n := by
      rw [hr2, (takeWhile_stop _ _ (by simp [han, hno, hbn])).1]
      exact trim_around ha hn hb
    rw [hr']
    simp only [lineStep, h1, h2, if_true, h3, itemStep]
    simp
  | @entry w k a b v e c hw hk hne h1 h2 h3 ha hb hv he =>
    have hns : ¬ Space c := hk.1 c (by simp)
    have hce : c ≠ '=' := fun h => hne (by simp [h])
    obtain ⟨r', e', he', hr', ht⟩ := trimmed_ends (c := c) (y := k ++ (a ++ '=' :: (b ++ (v ++ e)))) hns
    have t1 : trim (w ++ (c :: k ++ (a ++ '=' :: (b ++ (v ++ e))))) = c :: r' := by
      rw [List.cons_append, hr']; exact trim_around hw ht he'
    have han : '=' ∉ a := fun h => absurd (ha _ h) (by simp [Space])
    have hx' : '=' ∉ c :: k ++ a := by simp only [List.mem_append, not_or]; exact ⟨hne, han⟩
    obtain ⟨r2, hr2, hrr⟩ : ∃ r2, c :: r' = (c :: k ++ a) ++ '=' :: r2 ∧ b ++ (v ++ e) = r2 ++ e' := by
      have hmem : '=' ∈ c :: r' := by
        have : '=' ∈ r' ++ e' := by rw [← hr']; simp
        rcases List.mem_append.1 this with h | h
        · simp [h]
        · exact absurd (he' _ h) (by simp [Space])
      obtain ⟨x, y, hxy, hx⟩ := List.eq_append_cons_of_mem hmem
      have e1 := takeWhile_stop (c :: k ++ a) (b ++ (v ++ e)) hx'
      have e2 := takeWhile_stop x (y ++ e') hx
      have : c :: k ++ a ++ '=' :: (b ++ (v ++ e)) = x ++ '=' :: (y ++ e') := by
        have h5 : c :: (r' ++ e') = x ++ '=' :: (y ++ e') := by
          rw [← List.cons_append, hxy]; simp
        rw [← h5, ← hr']; simp
      rw [this, e2.1, e2.2] at e1
      refine ⟨y, by rw [hxy, e1.1], ?_⟩
      exact (List.cons.inj e1.2).2.symm
    have h4 : '=' ∈ r' := by
      have : '=' ∈ c :: r' := by rw [hr2]; simp
      rcases List.mem_cons.1 this with h | h
      · exact absurd h.symm hce
      · exact h
    have h5 := takeWhile_stop (c :: k ++ a) r2 hx'
    have h6 : trim ((c :: r').takeWhile (fun c => decide (c ≠ '='))) = c :: k := by
      rw [hr2, h5.1]
      have := trim_around (a := []) (by simp [Blank]) hk ha
      simpa using this
    have h7 : trim ((c :: r').dropWhile (fun c => decide (c ≠ '='))).tail = v := by
      rw [hr2, h5.2, List.tail_cons]
      obtain ⟨a2, b2, ha2, hb2, hs2, ht2⟩ := trim_split r2
      have hbe : Blank (b2 ++ e') := by
        intro d hd
        rcases List.mem_append.1 hd with h | h
        · exact hb2 d h
        · exact he' d h
      have g1 : trim (r2 ++ e') = trim r2 := by
        conv => lhs; rw [hs2]
        rw [List.append_assoc, List.append_assoc]
        exact trim_around ha2 ht2 hbe
      rw [← g1, ← hrr]
      exact trim_around hb hv he
    simp only [lineStep, t1, h1, h2, h3, hce, h4, if_false, if_true, h6, h7, itemStep, or_self]

theorem lineStep_some {l : Str} {p q : RS} (h : lineStep p l = some q) : ∃ it, LineMeans l it := by
  obtain ⟨a, b, ha, hb, he, ht⟩ := trim_split l
  unfold lineStep at h
  split at h
  · rename_i h0
    refine ⟨.nothing, .blank ?_⟩
    rw [he, h0]
    intro c hc
    rcases List.mem_append.1 hc with h | h
    · exact ha c h
    · exact hb c (by simpa using h)
  · rename_i c r h0
    rw [h0] at he ht
    have hbr : ∀ x : Char, x ∈ r → ∃ u w, r = u ++ x :: w ∧ x ∉ u := fun x hx => by
      obtain ⟨u, w, h1, h2⟩ := List.eq_append_cons_of_mem hx
      exact ⟨u, w, h1, h2⟩
    split at h
    · rename_i hc
      refine ⟨.nothing, ?_⟩
      rw [he, List.cons_append]
      exact .comment ha hc
    rename_i hc
    rw [not_or] at hc
    split at h
    · rename_i hc2
      subst hc2
      split at h
      · rename_i hm
        obtain ⟨u, w, rfl, hu⟩ := hbr ']' hm
        obtain ⟨x, y, hx, hy, hu2, ht2⟩ := trim_split u
        refine ⟨.sec (trim u), ?_⟩
        have e1 : l = a ++ '[' :: (x ++ (trim u ++ (y ++ ']' :: (w ++ b)))) := by
          rw [he]
          conv => lhs; rw [hu2]
          simp
        rw [e1]
        exact .sec ha hx ht2 (fun hh => hu (trim_mem hh)) hy
      · simp at h
    rename_i hc3
    split at h
    · simp at h
    rename_i hc4
    split at h
    · rename_i hm
      obtain ⟨u, w, rfl, hu⟩ := hbr '=' hm
      obtain ⟨u', y, hy, rfl, ht2⟩ := trimmed_ends (c := c) (y := u) (ht.1 c (by simp))
      obtain ⟨x2, y2, hx2, hy2, hw2, ht3⟩ := trim_split (w ++ b)
      refine ⟨.entry (c :: u') (trim (w ++ b)), ?_⟩
      have e1 : l = a ++ (c :: u' ++ (y ++ '=' :: (x2 ++ (trim (w ++ b) ++ y2)))) := by
        rw [he, ← hw2]; simp
      rw [e1]
      refine .entry ha ht2 ?_ hc.1 hc.2 hc3 hy hx2 ht3 hy2
      intro hh
      rcases List.mem_cons.1 hh with h1 | h1
      · exact hc4 h1.symm
      · exact hu (List.mem_append_left _ h1)
    · simp at h

/-! ## Lemmas: files -/

/-- all items -/
def itemsStep : RS → List Item → Option RS
  | p, [] => some p
  | p, i :: r => (itemStep p i).bind fun q => itemsStep q r

theorem linesStep_items : ∀ {ls : List Str} {its : List Item}, List.Forall₂ LineMeans ls its → ∀ p, linesStep p ls = itemsStep p its
  | _, _, .nil, _ => rfl
  | _, _, .cons h hr, p => by
    rw [linesStep, itemsStep, lineStep_of h p]
    congr 1
    funext q
    exact linesStep_items hr q

theorem linesStep_means : ∀ {ls : List Str} {p q : RS}, linesStep p ls = some q → ∃ its, List.Forall₂ LineMeans ls its
  | [], _, _, _ => ⟨[], .nil⟩
  | l :: ls, p, q, h => by
    rw [linesStep, Option.bind_eq_some_iff] at h
    obtain ⟨p', h1, h2⟩ := h
    obtain ⟨it, hi⟩ := lineStep_some h1
    obtain ⟨its, hs⟩ := linesStep_means h2
    exact ⟨it :: its, .cons hi hs⟩

/-- many entries -/
def RS.pushAll (p : RS) (es : List (Key × Str)) : RS :=
  match p.cur with
  | none => ⟨p.top ++ leaves es, none⟩
  | some (n, ks) => ⟨p.top, some (n, ks ++ leaves es)⟩

/-- the conditions on items, from a state on -/
def Cond (p : RS) (its : List Item) : Prop :=
  NoDup (groups its).1 ∧ (∀ k ∈ (groups its).1.map Prod.fst, k ∉ p.container.map Prod.fst) ∧
    SectionsOk ((p.pushAll (groups its).1).flush.map Prod.fst) (groups its).2

theorem leaves_isEmpty (es : List (Key × Str)) : (leaves es).isEmpty = es.isEmpty := by cases es <;> rfl

theorem pushAll_push (p : RS) (k : Key) (v : Str) (es : List (Key × Str)) : (p.push k v).pushAll es = p.pushAll ((k, v) :: es) := by
  unfold RS.push RS.pushAll
  cases p.cur <;> simp [leaves]

theorem container_push (p : RS) (k : Key) (v : Str) : (p.push k v).container.map Prod.fst = p.container.map Prod.fst ++ [k] := by
  unfold RS.push RS.container
  cases p.cur <;> simp

theorem pushAll_nil (p : RS) : p.pushAll [] = p := by
  unfold RS.pushAll
  obtain ⟨t, c⟩ := p
  cases c <;> simp [leaves]

theorem itemsStep_iff : ∀ (its : List Item) (p : RS), (∀ q, itemsStep p its = some q → Cond p its) ∧
    (Cond p its → ∃ q, itemsStep p its = some q ∧ q.flush = (p.pushAll (groups its).1).flush ++ sectionKids (groups its).2)
  | [], p => by
    refine ⟨fun q _ => ⟨by simp [NoDup, groups], by simp [groups], by simp [groups, SectionsOk]⟩, fun _ => ⟨p, rfl, ?_⟩⟩
    simp [groups, sectionKids, pushAll_nil]
  | .nothing :: r, p => by
    have ih := itemsStep_iff r p
    simpa [itemsStep, itemStep, Cond, groups] using ih
  | .entry k v :: r, p => by
    have ih := itemsStep_iff r (p.push k v)
    have hc : Cond p (.entry k v :: r) ↔ k ∉ p.container.map Prod.fst ∧ Cond (p.push k v) r := by
      unfold Cond
      rw [container_push, pushAll_push]
      simp only [groups, NoDup, List.map_cons, List.nodup_cons, List.mem_cons, List.mem_append, List.not_mem_nil, or_false]
      constructor
      · rintro ⟨⟨h1, h2⟩, h3, h4⟩
        refine ⟨h3 k (.inl rfl), h2, fun x hx hh => ?_, h4⟩
        rcases hh with hh | rfl
        · exact h3 x (.inr hx) hh
        · exact h1 hx
      · rintro ⟨h0, h2, h3, h4⟩
        refine ⟨⟨fun h => h3 k h (.inr rfl), h2⟩, fun x hx hh => ?_, h4⟩
        rcases hx with rfl | hx
        · exact h0 hh
        · exact h3 x hx (.inl hh)
    constructor
    · intro q h
      rw [itemsStep, itemStep, Option.bind_eq_some_iff] at h
      obtain ⟨p', h1, h2⟩ := h
      split at h1
      · simp at h1
      · rename_i hh
        simp only [Option.some.injEq] at h1
        subst h1
        exact hc.2 ⟨has_false.1 (by simpa using hh), ih.1 q h2⟩
    · intro h
      obtain ⟨h0, h1⟩ := hc.1 h
      obtain ⟨q, h2, h3⟩ := ih.2 h1
      refine ⟨q, ?_, ?_⟩
      · rw [itemsStep, itemStep, has_false.2 h0, if_neg (by simp), Option.bind_some, h2]
      · rw [h3, pushAll_push]; rfl
  | .sec n :: r, p => by
    have ih := itemsStep_iff r ⟨p.flush, some (n, [])⟩
    have hf : ∀ es, (RS.pushAll ⟨p.flush, some (n, [])⟩ es).flush = if es = [] then p.flush else p.flush ++ [(n, .node [] (leaves es))] := by
      intro es
      unfold RS.pushAll RS.flush
      cases es <;> simp [leaves]
    have hc : Cond p (.sec n :: r) ↔ n ∉ p.flush.map Prod.fst ∧ Cond ⟨p.flush, some (n, [])⟩ r := by
      unfold Cond
      rw [hf]
      have e : (if (groups r).1 = [] then p.flush else p.flush ++ [(n, Tree.node [] (leaves (groups r).1))]).map Prod.fst =
          (if (groups r).1 = [] then p.flush.map Prod.fst else p.flush.map Prod.fst ++ [n]) := by
        split <;> simp
      rw [e]
      simp only [groups, pushAll_nil, SectionsOk, NoDup, RS.container, List.map_nil, List.nodup_nil, List.not_mem_nil, not_false_iff, implies_true, true_and, false_implies]
    constructor
    · intro q h
      rw [itemsStep, itemStep, Option.bind_eq_some_iff] at h
      obtain ⟨p', h1, h2⟩ := h
      split at h1
      · simp at h1
      · rename_i hh
        simp only [Option.some.injEq] at h1
        subst h1
        exact hc.2 ⟨has_false.1 (by simpa using hh), ih.1 q h2⟩
    · intro h
      obtain ⟨h0, h1⟩ := hc.1 h
      obtain ⟨q, h2, h3⟩ := ih.2 h1
      refine ⟨q, ?_, ?_⟩
      · rw [itemsStep, itemStep, has_false.2 h0, if_neg (by simp), Option.bind_some, h2]
      · rw [h3, hf]
        simp only [groups, pushAll_nil, sectionKids]
        cases hg : (groups r).1 <;> simp

theorem cond_start (its : List Item) : Cond ⟨[], none⟩ its ↔ NoDup (groups its).1 ∧ SectionsOk ((groups its).1.map Prod.fst) (groups its).2 := by
  have : (RS.pushAll ⟨[], none⟩ (groups its).1).flush.map Prod.fst = (groups its).1.map Prod.fst := by
    simp [RS.pushAll, RS.flush, leaves, Function.comp_def]
  unfold Cond
  rw [this]
  simp [RS.container]

/-! ## C165 -/

/-- **C165** The reader accepts exactly the INI files, and gives each one its tree. -/
theorem C165_read (s : Str) (t : Tree) : readIni s = some t ↔ IniText s t := by
  unfold readIni
  rw [Option.map_eq_some_iff]
  constructor
  · rintro ⟨p, hp, rfl⟩
    obtain ⟨its, hits⟩ := linesStep_means hp
    rw [linesStep_items hits] at hp
    have hc := (itemsStep_iff its _).1 p hp
    obtain ⟨q, hq, hf⟩ := (itemsStep_iff its _).2 hc
    rw [hp, Option.some.injEq] at hq
    subst hq
    rw [cond_start] at hc
    refine ⟨s.splitOn '\n', its, ?_, ?_, fun l hl => splitOn_noNl _ s (Nat.le_refl _) l hl, hits, hc.1, hc.2, ?_⟩
    · exact (List.intercalate_splitOn '\n').symm
    · exact List.splitOn_ne_nil _ _
    · rw [hf]; simp [RS.pushAll, RS.flush]
  · rintro ⟨ls, its, rfl, h0, hnl, hits, h1, h2, rfl⟩
    obtain ⟨q, hq, hf⟩ := (itemsStep_iff its ⟨[], none⟩).2 ((cond_start its).2 ⟨h1, h2⟩)
    refine ⟨q, ?_, ?_⟩
    · rw [List.splitOn_intercalate '\n' hnl h0, linesStep_items hits, hq]
    · rw [hf]; simp [RS.pushAll, RS.flush]

/-- **C165** An INI file stands for one tree only. -/
theorem C165_unique (s : Str) (t t' : Tree) (h : IniText s t) (h' : IniText s t') : t = t' := by
  rw [← C165_read] at h h'
  exact Option.some.inj (h.symm.trans h')

/-- **C165** `load` of a file whose name ends in `.ini`: an INI file gives its tree, anything else is refused and leaves the tree as it was. -/
theorem C165_load (F : Formats) (hr : F.read .ini = readIni) (d : Disk) (path : Str) (hp : ".ini".toList <:+ path) (s : Str) (hd : d.content path = some s) (t0 : Tree) :
    (∀ t, IniText s t → load F d path t0 = (none, t)) ∧ ((∀ t, ¬ IniText s t) → load F d path t0 = (some .parser, t0)) := by
  obtain ⟨-, h2, h3, -⟩ := C95_errors F [] d path t0 .ini hp
  refine ⟨fun t ht => h3 s t hd (by rw [hr]; exact (C165_read s t).2 ht), fun h => h2 s hd ?_⟩
  rw [hr]
  cases hc : readIni s with
  | none => rfl
  | some t => exact absurd ((C165_read s t).1 hc) (h t)

/-- a file in a style of its own -/
def iniSample : Str := "; a comment\n  rate =  12 Hz  \n\n[empty]\n [ camera ] left\n topic=/cam0\nmodel = a=b\n".toList

/-- a comment, an entry with blanks around it, a section without entries, a section with two entries (one value contains `=`) -/
example : IniText iniSample (.node [] [("rate".toList, .node "12 Hz".toList []),
    ("camera".toList, .node [] [("topic".toList, .node "/cam0".toList []), ("model".toList, .node "a=b".toList [])])]) := by
  rw [← C165_read]
  rfl

/-- an entry without `=` and a key that occurs twice are refused -/
example : ∀ t, ¬ IniText "a = 1\nb".toList t := by
  intro t h
  rw [← C165_read, show readIni "a = 1\nb".toList = none by decide] at h
  cases h

example : ∀ t, ¬ IniText "a = 1\na = 2".toList t := by
  intro t h
  rw [← C165_read, show readIni "a = 1\na = 2".toList = none by decide] at h
  cases h

end Verif.PTree.IniFile
