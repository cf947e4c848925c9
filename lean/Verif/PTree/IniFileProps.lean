import Verif.PTree.IniFile
import Verif.PTree.FilesProps

/-!
# C159: a tree saved as an INI file is loaded back
-/

namespace Verif.PTree.IniFile

open Verif.PTree

/-! ## Specification -/

/-- white space -/
def Space (c : Char) : Prop := c ∈ [' ', '\t', '\n', Char.ofNat 11, Char.ofNat 12, '\r']

/-- no white space at the beginning and at the end, and one line -/
def OneLine (s : Str) : Prop := (∀ c ∈ s.head?, ¬ Space c) ∧ (∀ c ∈ s.getLast?, ¬ Space c) ∧ '\n' ∉ s

/-- an entry of an INI file: a key without `=` that does not begin like a comment or a section, and a value -/
def LeafOk (e : Key × Tree) : Prop :=
  (e.1 ≠ [] ∧ OneLine e.1 ∧ '=' ∉ e.1 ∧ ∀ c ∈ e.1.head?, c ∉ [';', '#', '[']) ∧ OneLine e.2.data ∧ e.2.kids = []

/-- a section: a name, no value, at least one entry, no repeated keys -/
def SectionOk (e : Key × Tree) : Prop :=
  (OneLine e.1 ∧ ']' ∉ e.1) ∧ e.2.data = [] ∧ e.2.kids ≠ [] ∧ (e.2.kids.map Prod.fst).Nodup ∧ ∀ f ∈ e.2.kids, LeafOk f

/-- what an INI file can hold: entries, then sections, without repeated keys -/
def Canonical (t : Tree) : Prop :=
  t.data = [] ∧ (t.kids.map Prod.fst).Nodup ∧
    ∃ leaves secs, t.kids = leaves ++ secs ∧ (∀ e ∈ leaves, LeafOk e) ∧ ∀ e ∈ secs, SectionOk e

/-! ## Lemmas: trimming -/

theorem isSpaceC_iff (c : Char) : isSpaceC c = true ↔ Space c := by
  simp [isSpaceC, Space, or_assoc]

theorem dropWhile_head {p : Char → Bool} : ∀ s : Str, ∀ c ∈ (s.dropWhile p).head?, p c = false
  | [] => by simp
  | a :: s => by
    intro c hc
    rw [List.dropWhile_cons] at hc
    split at hc
    · exact dropWhile_head s c hc
    · rename_i h
      simp at hc; subst hc; simpa using h

theorem trim_head (s : Str) : ∀ c ∈ (trim s).head?, isSpaceC c = false := by
  intro c hc
  have h1 : ∃ b, trim s ++ b = s.dropWhile isSpaceC := by
    obtain ⟨b, hb⟩ := List.dropWhile_suffix (p := isSpaceC) (l := (s.dropWhile isSpaceC).reverse)
    refine ⟨b.reverse, ?_⟩
    unfold trim
    rw [← List.reverse_append, hb, List.reverse_reverse]
  obtain ⟨b, hb⟩ := h1
  refine dropWhile_head s c ?_
  rw [← hb]
  cases h : trim s with
  | nil => rw [h] at hc; simp at hc
  | cons x y => rw [h] at hc; simpa using hc

theorem trim_last (s : Str) : ∀ c ∈ (trim s).getLast?, isSpaceC c = false := by
  intro c hc
  unfold trim at hc
  rw [List.getLast?_reverse] at hc
  exact dropWhile_head _ c hc

theorem trim_mem {s : Str} {c : Char} (h : c ∈ trim s) : c ∈ s := by
  unfold trim at h
  rw [List.mem_reverse] at h
  have h1 := (List.dropWhile_suffix (p := isSpaceC)).subset h
  rw [List.mem_reverse] at h1
  exact (List.dropWhile_suffix (p := isSpaceC)).subset h1

theorem dropWhile_id {p : Char → Bool} {s : Str} (h : ∀ c ∈ s.head?, p c = false) : s.dropWhile p = s := by
  cases s with
  | nil => rfl
  | cons a s => rw [List.dropWhile_cons, if_neg (by simp [h a (by simp)])]

theorem trim_id {s : Str} (h1 : ∀ c ∈ s.head?, isSpaceC c = false) (h2 : ∀ c ∈ s.getLast?, isSpaceC c = false) : trim s = s := by
  unfold trim
  rw [dropWhile_id h1, dropWhile_id (by rw [List.head?_reverse]; exact h2), List.reverse_reverse]

theorem oneLine_trim {s : Str} (h : '\n' ∉ s) : OneLine (trim s) :=
  ⟨fun c hc => by rw [← isSpaceC_iff, trim_head s c hc]; simp, fun c hc => by rw [← isSpaceC_iff, trim_last s c hc]; simp, fun h0 => h (trim_mem h0)⟩

theorem trim_oneLine {s : Str} (h : OneLine s) : trim s = s :=
  trim_id (fun c hc => by rw [← Bool.not_eq_true, isSpaceC_iff]; exact h.1 c hc) (fun c hc => by rw [← Bool.not_eq_true, isSpaceC_iff]; exact h.2.1 c hc)

theorem takeWhile_stop {x : Char} : ∀ (a b : Str), x ∉ a → (a ++ x :: b).takeWhile (fun c => decide (c ≠ x)) = a ∧ (a ++ x :: b).dropWhile (fun c => decide (c ≠ x)) = x :: b
  | [], b, _ => by simp
  | c :: a, b, h => by
    have h1 : c ≠ x := fun h0 => h (by simp [h0])
    have h2 := takeWhile_stop a b (fun h0 => h (List.mem_cons_of_mem c h0))
    simp only [ne_eq, decide_not] at h2
    simp [h1, h2]

theorem takeWhile_ne {y : Char} : ∀ {s : Str} {x : Char}, x ∈ s.takeWhile (fun c => decide (c ≠ y)) → x ≠ y
  | [], x, h => by simp at h
  | c :: s, x, h => by
    rw [List.takeWhile_cons] at h
    split at h
    · rename_i hc
      rcases List.mem_cons.1 h with rfl | h
      · simpa using hc
      · exact takeWhile_ne h
    · simp at h

theorem splitOn_noNl : ∀ (n : Nat) (s : Str), s.length ≤ n → ∀ l ∈ s.splitOn '\n', '\n' ∉ l := by
  intro n
  induction n with
  | zero =>
    intro s hs l hl
    have : s = [] := List.length_eq_zero_iff.1 (by omega)
    subst this
    rw [List.splitOn_eq_singleton (by simp)] at hl
    simp at hl; subst hl; simp
  | succ n ih =>
    intro s hs l hl
    by_cases h : '\n' ∈ s
    · obtain ⟨a, b, rfl⟩ := List.append_of_mem h
      rw [List.splitOn_append_cons_self] at hl
      simp only [List.length_append, List.length_cons] at hs
      rcases List.mem_append.1 hl with hl | hl
      · exact ih a (by omega) l hl
      · exact ih b (by omega) l hl
    · rw [List.splitOn_eq_singleton h] at hl
      simp at hl; subst hl; exact h

/-! ## Lemmas: the reader on written lines -/

theorem has_false {k : Key} {ks : List (Key × Tree)} : has k ks = false ↔ k ∉ ks.map Prod.fst := by
  rw [← Bool.not_eq_true, has, List.any_eq_true, List.mem_map]
  simp

theorem trim_line {k v : Str} (hk : k ≠ []) (h1 : OneLine k) (h2 : OneLine v) : ∃ w, trim (k ++ '=' :: v) = k ++ '=' :: w ∧ trim w = v := by
  refine ⟨v, trim_id ?_ ?_, trim_oneLine h2⟩
  · intro c hc
    obtain ⟨x, y, hxy⟩ := List.exists_cons_of_ne_nil hk
    rw [hxy] at hc h1
    simp at hc
    rw [← Bool.not_eq_true, isSpaceC_iff]; exact h1.1 c (by simp [hc])
  · intro c hc
    rw [← Bool.not_eq_true, isSpaceC_iff]
    cases v with
    | nil => simp at hc; subst hc; simp [Space]
    | cons x y =>
      refine h2.2.1 c ?_
      simpa [List.getLast?_append, List.getLast?_cons_cons] using hc

/-- a written entry is read -/
theorem lineStep_leaf (p : RS) (e : Key × Tree) (h : LeafOk e) (hn : e.1 ∉ p.container.map Prod.fst) :
    lineStep p (e.1 ++ '=' :: e.2.data) = some (p.push e.1 e.2.data) := by
  obtain ⟨⟨hk, hk1, hk2, hk3⟩, hv, _⟩ := h
  obtain ⟨w, hw, hwv⟩ := trim_line hk hk1 hv
  obtain ⟨t1, t2⟩ := takeWhile_stop e.1 w hk2
  have ht := trim_oneLine hk1
  obtain ⟨c, k', hck⟩ := List.exists_cons_of_ne_nil hk
  unfold lineStep
  rw [hw]
  rw [hck] at t1 t2 hk3 hk2 ht hn ⊢
  simp only [List.cons_append] at t1 t2 ⊢
  have hc := hk3 c (by simp)
  simp only [List.mem_cons, List.not_mem_nil, or_false, not_or] at hc hk2
  have hno : has (trim (c :: k')) p.container = false := by rw [ht]; exact has_false.2 hn
  simp only [t1, t2, List.tail_cons]
  rw [if_neg (by simp [hc]), if_neg hc.2.2, if_neg (fun h => hk2.1 h.symm), if_pos (by simp), if_neg (by simp [hno]), ht, hwv]

theorem linesStep_append (p : RS) : ∀ (a b : List Str), linesStep p (a ++ b) = (linesStep p a).bind fun q => linesStep q b := by
  intro a
  induction a generalizing p with
  | nil => intro b; rfl
  | cons l a ih =>
    intro b
    simp only [List.cons_append, linesStep]
    cases lineStep p l with
    | none => rfl
    | some q => simp [ih]

/-- a text of lines -/
def feed (p : RS) (s : Str) : Option RS := linesStep p (s.splitOn '\n')

theorem feed_nil (p : RS) : feed p [] = some p := by
  unfold feed
  rw [List.splitOn_eq_singleton (by simp)]
  simp [linesStep, lineStep, trim]

theorem feed_line (p : RS) (a b : Str) (h : '\n' ∉ a) : feed p (a ++ '\n' :: b) = (lineStep p a).bind fun q => feed q b := by
  unfold feed
  rw [List.splitOn_append_cons_self, linesStep_append, List.splitOn_eq_singleton h]
  simp only [linesStep]
  cases lineStep p a <;> rfl

theorem keyLine_line (e : Key × Tree) (r : Str) : keyLine e ++ r = (e.1 ++ '=' :: e.2.data) ++ '\n' :: r := by
  simp [keyLine]

theorem leaf_noNl {e : Key × Tree} (h : LeafOk e) : '\n' ∉ e.1 ++ '=' :: e.2.data := by
  intro h0
  rcases List.mem_append.1 h0 with h0 | h0
  · exact h.1.2.1.2.2 h0
  · rcases List.mem_cons.1 h0 with h0 | h0
    · exact absurd h0 (by decide)
    · exact h.2.1.2.2 h0

theorem leaf_eq {e : Key × Tree} (h : LeafOk e) : (e.1, Tree.node e.2.data []) = e := by
  obtain ⟨k, d, ks⟩ := e
  have := h.2.2
  simp only [Tree.kids] at this
  subst this; rfl

/-- written entries are read into the section that is open, or at the top -/
theorem feed_leaves (r : Str) : ∀ (es : List (Key × Tree)) (p : RS), (∀ e ∈ es, LeafOk e) → ((p.container ++ es).map Prod.fst).Nodup →
    feed p (es.flatMap keyLine ++ r) = feed (match p.cur with
      | none => ⟨p.top ++ es, none⟩
      | some (n, ks) => ⟨p.top, some (n, ks ++ es)⟩) r
  | [], p, _, _ => by
    rcases p with ⟨top, _ | ⟨n, ks⟩⟩ <;> simp
  | e :: es, p, h, hn => by
    have hne : e.1 ∉ p.container.map Prod.fst := by
      rw [List.map_append, List.nodup_append] at hn
      exact fun h0 => hn.2.2 e.1 h0 e.1 (by simp) rfl
    rw [List.flatMap_cons, List.append_assoc, keyLine_line, feed_line _ _ _ (leaf_noNl (h e (by simp))), lineStep_leaf p e (h e (by simp)) hne]
    have hp : (p.push e.1 e.2.data).container = p.container ++ [e] := by
      have := leaf_eq (h e (by simp))
      rcases p with ⟨top, _ | ⟨n, ks⟩⟩ <;> simp [RS.push, RS.container, this]
    rw [Option.bind_some, feed_leaves r es _ (fun e' he' => h e' (by simp [he'])) (by rw [hp]; simpa using hn)]
    have := leaf_eq (h e (by simp))
    rcases p with ⟨top, _ | ⟨n, ks⟩⟩ <;> simp [RS.push, this]

theorem trim_section {n : Str} (h : OneLine n) : trim ('[' :: (n ++ [']'])) = '[' :: (n ++ [']']) := by
  refine trim_id ?_ ?_
  · intro c hc; simp at hc; subst hc; decide
  · intro c hc
    rw [← List.cons_append, List.getLast?_append] at hc
    simp at hc; subst hc; decide

/-- a written section line is read -/
theorem lineStep_section (p : RS) (n : Key) (h : OneLine n) (h2 : ']' ∉ n) (hn : n ∉ p.flush.map Prod.fst) :
    lineStep p ('[' :: (n ++ [']'])) = some ⟨p.flush, some (n, [])⟩ := by
  unfold lineStep
  rw [trim_section h]
  have t1 := (takeWhile_stop n [] h2).1
  have hno : has n p.flush = false := has_false.2 hn
  simp only [t1, trim_oneLine h, hno]
  rw [if_neg (by decide), if_pos trivial, if_pos (by simp)]
  simp

/-- the text of a section -/
def secText (e : Key × Tree) : Str := '[' :: (e.1 ++ (']' :: '\n' :: e.2.kids.flatMap keyLine))

theorem sec_eq {e : Key × Tree} (h : e.2.data = []) : (e.1, Tree.node [] e.2.kids) = e := by
  obtain ⟨k, d, ks⟩ := e
  simp only [Tree.data] at h
  subst h; rfl

/-- written sections are read -/
theorem feed_sections : ∀ (es : List (Key × Tree)) (p : RS), (∀ e ∈ es, SectionOk e) → ((p.flush ++ es).map Prod.fst).Nodup →
    ∃ q, feed p (es.flatMap secText) = some q ∧ q.flush = p.flush ++ es
  | [], p, _, _ => ⟨p, by simp [feed_nil], by simp⟩
  | e :: es, p, h, hn => by
    have he := h e (by simp)
    have hne : e.1 ∉ p.flush.map Prod.fst := by
      rw [List.map_append, List.nodup_append] at hn
      exact fun h0 => hn.2.2 e.1 h0 e.1 (by simp) rfl
    have htext : (e :: es).flatMap secText = ('[' :: (e.1 ++ [']'])) ++ '\n' :: (e.2.kids.flatMap keyLine ++ es.flatMap secText) := by
      simp [secText]
    have hnl : '\n' ∉ '[' :: (e.1 ++ [']']) := by
      simp only [List.mem_cons, List.mem_append, List.not_mem_nil, or_false, not_or]
      exact ⟨by decide, he.1.1.2.2, by decide⟩
    let q : RS := ⟨p.flush, some (e.1, e.2.kids)⟩
    have hq : q.flush = p.flush ++ [e] := by
      have h0 : e.2.kids.isEmpty = false := by
        rw [← Bool.not_eq_true, List.isEmpty_iff]; exact he.2.2.1
      simp only [q, RS.flush, h0, Bool.false_eq_true, if_false, sec_eq he.2.1]
    obtain ⟨q', h1, h2⟩ := feed_sections es q (fun e' he' => h e' (by simp [he'])) (by rw [hq]; simpa using hn)
    refine ⟨q', ?_, by rw [h2, hq]; simp⟩
    rw [htext, feed_line _ _ _ hnl, lineStep_section p e.1 he.1.1 he.1.2 hne, Option.bind_some]
    rw [feed_leaves _ _ _ he.2.2.2.2 (by simpa [RS.container] using he.2.2.2.1)]
    simpa [q] using h1

/-! ## Lemmas: the writer -/

theorem sectionKeys_eq : ∀ (es : List (Key × Tree)) (s : Str), sectionKeys es = some s ↔ (∀ e ∈ es, e.2.kids = []) ∧ s = es.flatMap keyLine
  | [], s => by simp only [sectionKeys, Option.some.injEq, List.not_mem_nil, false_imp_iff, implies_true, true_and, List.flatMap_nil]; exact eq_comm
  | e :: es, s => by
    unfold sectionKeys
    by_cases h : e.2.kids = []
    · rw [if_pos (by simp [h])]
      cases h1 : sectionKeys es with
      | none =>
        simp only [Option.map_none, List.mem_cons, forall_eq_or_imp, List.flatMap_cons]
        constructor
        · intro h; simp at h
        · intro ⟨⟨_, h2⟩, _⟩
          have := (sectionKeys_eq es _).2 ⟨h2, rfl⟩
          rw [h1] at this; simp at this
      | some x =>
        obtain ⟨h2, h3⟩ := (sectionKeys_eq es x).1 h1
        subst h3
        simp only [Option.map_some, Option.some.injEq, List.mem_cons, forall_eq_or_imp, List.flatMap_cons, h, true_and]
        exact ⟨fun h => ⟨h2, h.symm⟩, fun h => h.2.symm⟩
    · rw [if_neg (by simpa using h)]
      simp only [List.mem_cons, forall_eq_or_imp, h, false_and]
      simp

/-- a child that can be written as a section -/
def SecShape (e : Key × Tree) : Prop := e.2.data = [] ∧ (e.2.kids.map Prod.fst).Nodup ∧ ∀ f ∈ e.2.kids, f.2.kids = []

theorem sections_eq : ∀ (es : List (Key × Tree)) (s : Str), sections es = some s ↔
    (∀ e ∈ es, e.2.kids ≠ [] → SecShape e) ∧ s = (es.filter fun e => !e.2.kids.isEmpty).flatMap secText
  | [], s => by simp only [sections, Option.some.injEq, List.not_mem_nil, false_imp_iff, implies_true, true_and, List.filter_nil, List.flatMap_nil]; exact eq_comm
  | e :: es, s => by
    unfold sections
    by_cases h : e.2.kids = []
    · rw [if_pos (by simp [h]), sections_eq es s]
      simp [h]
    · have h0 : e.2.kids.isEmpty = false := by
        rw [← Bool.not_eq_true, List.isEmpty_iff]; exact h
      simp only [h0, Bool.false_eq_true, if_false, List.filter_cons, Bool.not_false, if_true, List.flatMap_cons]
      by_cases hd : dupes e.2.kids = true
      · rw [if_pos hd]
        have : ¬ (e.2.kids.map Prod.fst).Nodup := by simpa [dupes] using hd
        constructor
        · intro h; simp at h
        · intro ⟨h2, _⟩; exact absurd (h2 e (by simp) h).2.1 this
      rw [if_neg hd]
      have hd' : (e.2.kids.map Prod.fst).Nodup := by simpa [dupes] using hd
      by_cases hx : e.2.data = []
      · rw [if_neg (by simp [hx])]
        cases h1 : sectionKeys e.2.kids with
        | none =>
          constructor
          · intro h; simp at h
          · intro ⟨h2, _⟩
            have := (sectionKeys_eq e.2.kids _).2 ⟨(h2 e (by simp) h).2.2, rfl⟩
            rw [h1] at this; simp at this
        | some a =>
          obtain ⟨ha, rfl⟩ := (sectionKeys_eq e.2.kids a).1 h1
          cases h2 : sections es with
          | none =>
            constructor
            · intro h; simp at h
            · intro ⟨h3, _⟩
              have := (sections_eq es _).2 ⟨fun e' he' => h3 e' (by simp [he']), rfl⟩
              rw [h2] at this; simp at this
          | some b =>
            obtain ⟨hb, rfl⟩ := (sections_eq es b).1 h2
            simp only [Option.some.injEq]
            constructor
            · intro h4
              refine ⟨?_, by rw [← h4]; simp [secText]⟩
              intro e' he'
              rcases List.mem_cons.1 he' with rfl | he'
              · exact fun _ => ⟨hx, hd', ha⟩
              · exact hb e' he'
            · rintro ⟨_, rfl⟩; simp [secText]
      · rw [if_pos (by simp [hx])]
        constructor
        · intro h; simp at h
        · intro ⟨h2, _⟩; exact absurd (h2 e (by simp) h).1 hx

theorem topKeys_eq : ∀ (es : List (Key × Tree)), topKeys es = (es.filter fun e => e.2.kids.isEmpty).flatMap keyLine
  | [] => rfl
  | e :: es => by
    have := topKeys_eq es
    unfold topKeys at this ⊢
    rw [List.flatMap_cons, this, List.filter_cons]
    split <;> simp

theorem writeIni_eq (t : Tree) (s : Str) : writeIni t = some s ↔
    (t.data = [] ∧ (t.kids.map Prod.fst).Nodup ∧ ∀ e ∈ t.kids, e.2.kids ≠ [] → SecShape e) ∧
      s = (t.kids.filter fun e => e.2.kids.isEmpty).flatMap keyLine ++ (t.kids.filter fun e => !e.2.kids.isEmpty).flatMap secText := by
  unfold writeIni
  by_cases h0 : t.data = []
  · rw [if_neg (by simp [h0])]
    by_cases h1 : dupes t.kids = true
    · rw [if_pos h1]
      have : ¬ (t.kids.map Prod.fst).Nodup := by simpa [dupes] using h1
      simp [this]
    · rw [if_neg h1, topKeys_eq]
      have h1' : (t.kids.map Prod.fst).Nodup := by simpa [dupes] using h1
      simp only [h0, h1', true_and]
      cases h2 : sections t.kids with
      | none =>
        constructor
        · intro h; simp at h
        · intro ⟨h3, _⟩
          have := (sections_eq t.kids _).2 ⟨h3, rfl⟩
          rw [h2] at this; simp at this
      | some b =>
        obtain ⟨hb, rfl⟩ := (sections_eq t.kids b).1 h2
        simp only [Option.map_some, Option.some.injEq]
        exact ⟨fun h => ⟨hb, h.symm⟩, fun h => h.2.symm⟩
  · rw [if_pos (by simp [h0])]
    simp [h0]

/-! ## Lemmas: what the reader gives -/

/-- what has been read is canonical so far -/
structure Inv (p : RS) : Prop where
  nodup : (p.top.map Prod.fst).Nodup
  split : ∃ leaves secs, p.top = leaves ++ secs ∧ (∀ e ∈ leaves, LeafOk e) ∧ (∀ e ∈ secs, SectionOk e) ∧ (p.cur = none → secs = [])
  cur : ∀ n ks, p.cur = some (n, ks) → (OneLine n ∧ ']' ∉ n) ∧ n ∉ p.top.map Prod.fst ∧ (ks.map Prod.fst).Nodup ∧ ∀ e ∈ ks, LeafOk e

theorem inv_flush {p : RS} (h : Inv p) : (p.flush.map Prod.fst).Nodup ∧
    ∃ leaves secs, p.flush = leaves ++ secs ∧ (∀ e ∈ leaves, LeafOk e) ∧ ∀ e ∈ secs, SectionOk e := by
  obtain ⟨hn, ⟨leaves, secs, h1, h2, h3, h4⟩, hc⟩ := h
  rcases p with ⟨top, _ | ⟨n, ks⟩⟩
  · exact ⟨hn, leaves, secs, h1, h2, h3⟩
  · simp only at h1 hn hc
    obtain ⟨c1, c2, c3, c4⟩ := hc n ks rfl
    by_cases hk : ks = []
    · subst hk; exact ⟨hn, leaves, secs, h1, h2, h3⟩
    · have h0 : ks.isEmpty = false := by
        rw [← Bool.not_eq_true, List.isEmpty_iff]; exact hk
      simp only [RS.flush, h0, Bool.false_eq_true, if_false]
      refine ⟨?_, leaves, secs ++ [(n, .node [] ks)], by rw [h1]; simp, h2, ?_⟩
      · rw [List.map_append, List.nodup_append]
        refine ⟨hn, by simp, ?_⟩
        intro a ha b hb
        simp at hb; subst hb
        exact fun h => c2 (h ▸ ha)
      · intro e he
        rcases List.mem_append.1 he with he | he
        · exact h3 e he
        · simp at he; subst he
          exact ⟨c1, rfl, hk, c3, c4⟩

theorem inv_push {p : RS} (h : Inv p) {k v : Str} (hk : LeafOk (k, .node v [])) (hn : k ∉ p.container.map Prod.fst) : Inv (p.push k v) := by
  obtain ⟨hd, ⟨leaves, secs, h1, h2, h3, h4⟩, hc⟩ := h
  have happ : ∀ l : List (Key × Tree), (l.map Prod.fst).Nodup → k ∉ l.map Prod.fst → ((l ++ [(k, Tree.node v [])]).map Prod.fst).Nodup := by
    intro l hl hkl
    rw [List.map_append, List.nodup_append]
    refine ⟨hl, by simp, ?_⟩
    intro a ha b hb
    simp at hb; subst hb
    exact fun h => hkl (h ▸ ha)
  rcases p with ⟨top, _ | ⟨n, ks⟩⟩
  · have hs := h4 rfl
    subst hs
    simp only [List.append_nil] at h1
    refine ⟨happ _ hd hn, ⟨leaves ++ [(k, .node v [])], [], by simp [RS.push, h1], ?_, by simp, fun _ => rfl⟩, by simp [RS.push]⟩
    intro e he
    rcases List.mem_append.1 he with he | he
    · exact h2 e he
    · simp at he; subst he; exact hk
  · obtain ⟨c1, c2, c3, c4⟩ := hc n ks rfl
    refine ⟨hd, ⟨leaves, secs, h1, h2, h3, by simp [RS.push]⟩, ?_⟩
    intro n' ks' hcur
    simp only [RS.push, Option.some.injEq, Prod.mk.injEq] at hcur
    obtain ⟨rfl, rfl⟩ := hcur
    refine ⟨c1, c2, happ _ c3 hn, ?_⟩
    intro e he
    rcases List.mem_append.1 he with he | he
    · exact c4 e he
    · simp at he; subst he; exact hk

theorem lineStep_inv {p q : RS} {l : Str} (hl : '\n' ∉ l) (h : Inv p) (hs : lineStep p l = some q) : Inv q := by
  unfold lineStep at hs
  have htl : '\n' ∉ trim l := fun h0 => hl (trim_mem h0)
  have hth := trim_head l
  have htt := trim_last l
  cases hc : trim l with
  | nil => rw [hc] at hs; simp at hs; subst hs; exact h
  | cons c r =>
    rw [hc] at hs htl hth htt
    simp only at hs
    by_cases h1 : c = ';' ∨ c = '#'
    · rw [if_pos h1] at hs; simp at hs; subst hs; exact h
    rw [if_neg h1] at hs
    by_cases h2 : c = '['
    · rw [if_pos h2] at hs
      by_cases h3 : ']' ∈ r
      · rw [if_pos h3] at hs
        by_cases h4 : has (trim (r.takeWhile (· ≠ ']'))) p.flush = true
        · rw [if_pos h4] at hs; simp at hs
        · rw [if_neg h4] at hs
          simp only [Option.some.injEq] at hs
          subst hs
          obtain ⟨f1, leaves, secs, f2, f3, f4⟩ := inv_flush h
          refine ⟨f1, ⟨leaves, secs, f2, f3, f4, by simp⟩, ?_⟩
          intro n ks hcur
          simp only [Option.some.injEq, Prod.mk.injEq] at hcur
          obtain ⟨rfl, rfl⟩ := hcur
          have hmem : ∀ x ∈ r.takeWhile (fun c => decide (c ≠ ']')), x ∈ r ∧ x ≠ ']' := by
            intro x hx
            exact ⟨(List.takeWhile_prefix _).subset hx, takeWhile_ne hx⟩
          refine ⟨⟨oneLine_trim fun h0 => htl (List.mem_cons_of_mem c (hmem _ h0).1), fun h0 => (hmem _ (trim_mem h0)).2 rfl⟩, ?_, by simp, by simp⟩
          exact has_false.1 (by simpa using h4)
      · rw [if_neg h3] at hs; simp at hs
    rw [if_neg h2] at hs
    by_cases h3 : c = '='
    · rw [if_pos h3] at hs; simp at hs
    rw [if_neg h3] at hs
    by_cases h4 : '=' ∈ r
    · rw [if_pos h4] at hs
      by_cases h5 : has (trim ((c :: r).takeWhile (· ≠ '='))) p.container = true
      · rw [if_pos h5] at hs; simp at hs
      · rw [if_neg h5] at hs
        simp only [Option.some.injEq] at hs
        subst hs
        have hmem : ∀ x ∈ (c :: r).takeWhile (fun c => decide (c ≠ '=')), x ∈ c :: r ∧ x ≠ '=' := by
          intro x hx
          exact ⟨(List.takeWhile_prefix _).subset hx, takeWhile_ne hx⟩
        have hhead : ∃ y, trim ((c :: r).takeWhile (fun c => decide (c ≠ '='))) = c :: y := by
          have hcs : isSpaceC c = false := hth c (by simp)
          rw [List.takeWhile_cons, if_pos (by simpa using h3)]
          unfold trim
          rw [dropWhile_id (s := c :: _) (by intro x hx; simp at hx; subst hx; exact hcs), List.reverse_cons, List.dropWhile_append]
          split
          · rw [dropWhile_id (s := [c]) (by intro x hx; simp at hx; subst hx; exact hcs)]; exact ⟨[], rfl⟩
          · exact ⟨_, by rw [List.reverse_append]; rfl⟩
        refine inv_push h ⟨⟨?_, oneLine_trim fun h0 => htl (hmem _ h0).1, fun h0 => (hmem _ (trim_mem h0)).2 rfl, ?_⟩, oneLine_trim fun h0 => htl ?_, rfl⟩
          (has_false.1 (by simpa using h5))
        · obtain ⟨y, hy⟩ := hhead
          simp only; rw [hy]; simp
        · obtain ⟨y, hy⟩ := hhead
          simp only; rw [hy]
          intro x hx; simp at hx; subst hx
          simp only [List.mem_cons, List.not_mem_nil, or_false, not_or]
          exact ⟨fun h => h1 (Or.inl h), fun h => h1 (Or.inr h), h2⟩
        · exact (List.dropWhile_suffix _).subset (List.mem_of_mem_tail h0)
    · rw [if_neg h4] at hs; simp at hs

theorem linesStep_inv : ∀ (ls : List Str) (p q : RS), (∀ l ∈ ls, '\n' ∉ l) → Inv p → linesStep p ls = some q → Inv q
  | [], p, q, _, h, hs => by simp [linesStep] at hs; subst hs; exact h
  | l :: ls, p, q, hl, h, hs => by
    simp only [linesStep, Option.bind_eq_some_iff] at hs
    obtain ⟨p', h1, h2⟩ := hs
    exact linesStep_inv ls p' q (fun l' hl' => hl l' (by simp [hl'])) (lineStep_inv (hl l (by simp)) h h1) h2

theorem inv_start : Inv ⟨[], none⟩ := ⟨by simp, ⟨[], [], by simp⟩, by simp⟩

theorem leaf_isEmpty {e : Key × Tree} (h : LeafOk e) : e.2.kids.isEmpty = true := by simp [h.2.2]
theorem sec_isEmpty {e : Key × Tree} (h : SectionOk e) : e.2.kids.isEmpty = false := by
  rw [← Bool.not_eq_true, List.isEmpty_iff]; exact h.2.2.1

/-- reading what was written: the entries come first, then the sections -/
theorem read_written (t : Tree) (s : Str) (hw : writeIni t = some s) (hl : ∀ e ∈ t.kids, e.2.kids = [] → LeafOk e)
    (hs : ∀ e ∈ t.kids, e.2.kids ≠ [] → SectionOk e) :
    readIni s = some (.node [] ((t.kids.filter fun e => e.2.kids.isEmpty) ++ t.kids.filter fun e => !e.2.kids.isEmpty)) := by
  obtain ⟨⟨_, hn, _⟩, rfl⟩ := (writeIni_eq t s).1 hw
  generalize hA : (t.kids.filter fun e => e.2.kids.isEmpty) = A
  generalize hB : (t.kids.filter fun e => !e.2.kids.isEmpty) = B
  have hA1 : ∀ e ∈ A, LeafOk e := by
    intro e he
    rw [← hA, List.mem_filter] at he
    exact hl e he.1 (by simpa using he.2)
  have hB1 : ∀ e ∈ B, SectionOk e := by
    intro e he
    rw [← hB, List.mem_filter] at he
    exact hs e he.1 (by simpa using he.2)
  have hAB : ((A ++ B).map Prod.fst).Nodup := by
    have hp : (A ++ B).Perm t.kids := by rw [← hA, ← hB]; exact List.filter_append_perm _ _
    exact (hp.map Prod.fst).nodup_iff.2 hn
  have hA2 : (A.map Prod.fst).Nodup := by
    rw [List.map_append, List.nodup_append] at hAB; exact hAB.1
  have h1 := feed_leaves (B.flatMap secText) A ⟨[], none⟩ hA1 (by simpa [RS.container] using hA2)
  simp only [List.nil_append] at h1
  obtain ⟨q, h2, h3⟩ := feed_sections B ⟨A, none⟩ hB1 (by simpa [RS.flush] using hAB)
  rw [h2] at h1
  unfold readIni
  unfold feed at h1
  rw [h1]
  rw [Option.map_some, h3]; rfl

/-! ## C159 -/

/-- **C159, as claimed**: a tree that could be saved as an INI file is loaded back as it was. -/
def C159_claim : Prop := ∀ (t : Tree) (s : Str), writeIni t = some s → readIni s = some t

/-- **C159, what holds** Exactly the canonical trees — entries, then sections of entries, with keys, names and values that need no
protection — can be saved and come back as they were. -/
theorem C159_iff_partial (t : Tree) : (∃ s, writeIni t = some s ∧ readIni s = some t) ↔ Canonical t := by
  constructor
  · rintro ⟨s, _, hr⟩
    unfold readIni at hr
    cases h : linesStep ⟨[], none⟩ (s.splitOn '\n') with
    | none => rw [h] at hr; simp at hr
    | some q =>
      rw [h] at hr
      simp only [Option.map_some, Option.some.injEq] at hr
      subst hr
      have := inv_flush (linesStep_inv _ _ _ (splitOn_noNl _ s (Nat.le_refl _)) inv_start h)
      exact ⟨rfl, this⟩
  · rintro ⟨h0, hn, leaves, secs, h1, h2, h3⟩
    have hw := (writeIni_eq t _).2 ⟨⟨h0, hn, ?_⟩, rfl⟩
    · refine ⟨_, hw, ?_⟩
      rw [read_written t _ hw]
      · have f1 : (t.kids.filter fun e => e.2.kids.isEmpty) = leaves := by
          rw [h1, List.filter_append, List.filter_eq_self.2 fun e he => leaf_isEmpty (h2 e he),
            List.filter_eq_nil_iff.2 (fun e he => by simp [sec_isEmpty (h3 e he)]), List.append_nil]
        have f2 : (t.kids.filter fun e => !e.2.kids.isEmpty) = secs := by
          rw [h1, List.filter_append, List.filter_eq_nil_iff.2 (fun e he => by simp [(h2 e he).2.2]),
            List.filter_eq_self.2 fun e he => by simp [sec_isEmpty (h3 e he)], List.nil_append]
        rw [f1, f2, ← h1]
        obtain ⟨d, ks⟩ := t
        simp only [Tree.data] at h0
        subst h0; rfl
      · intro e he hk
        rw [h1] at he
        rcases List.mem_append.1 he with he | he
        · exact h2 e he
        · exact absurd hk (h3 e he).2.2.1
      · intro e he hk
        rw [h1] at he
        rcases List.mem_append.1 he with he | he
        · exact absurd (h2 e he).2.2 hk
        · exact h3 e he
    · intro e he hk
      rw [h1] at he
      rcases List.mem_append.1 he with he | he
      · exact absurd (h2 e he).2.2 hk
      · have := h3 e he
        exact ⟨this.2.1, this.2.2.2.1, fun f hf => (this.2.2.2.2 f hf).2.2⟩

/-- **C159, what holds** Every tree that was loaded from an INI file can be saved, and comes back as it was. -/
theorem C159_reload_partial (s : Str) (t : Tree) (h : readIni s = some t) : ∃ s', writeIni t = some s' ∧ readIni s' = some t := by
  rw [C159_iff_partial]
  unfold readIni at h
  cases h1 : linesStep ⟨[], none⟩ (s.splitOn '\n') with
  | none => rw [h1] at h; simp at h
  | some q =>
    rw [h1] at h
    simp only [Option.map_some, Option.some.injEq] at h
    subst h
    exact ⟨rfl, inv_flush (linesStep_inv _ _ _ (splitOn_noNl _ s (Nat.le_refl _)) inv_start h1)⟩

/-- **C159, what holds** Exactly when saving succeeds: the root has no value, the children of the root have different keys, and a child with
children has no value, its children have different keys and no children of their own. -/
theorem C159_saved_partial (t : Tree) : (∃ s, writeIni t = some s) ↔
    t.data = [] ∧ (t.kids.map Prod.fst).Nodup ∧
      ∀ e ∈ t.kids, e.2.kids ≠ [] → e.2.data = [] ∧ (e.2.kids.map Prod.fst).Nodup ∧ ∀ f ∈ e.2.kids, f.2.kids = [] := by
  constructor
  · rintro ⟨s, hs⟩; exact ((writeIni_eq t s).1 hs).1
  · intro h; exact ⟨_, (writeIni_eq t _).2 ⟨h, rfl⟩⟩

/-- **C159, what holds** If the keys, names and values need no protection, saving and loading only moves the entries in front of the
sections. -/
theorem C159_order_partial (t : Tree) (s : Str) (hw : writeIni t = some s) (hl : ∀ e ∈ t.kids, e.2.kids = [] → LeafOk e)
    (hs : ∀ e ∈ t.kids, e.2.kids ≠ [] → SectionOk e) :
    readIni s = some (.node [] ((t.kids.filter fun e => e.2.kids.isEmpty) ++ t.kids.filter fun e => !e.2.kids.isEmpty)) :=
  read_written t s hw hl hs

/-- **C159, what holds** `save` to a file whose name ends in `.ini` and `load` of that file give a canonical tree back. -/
theorem C159_save_load_partial (F : Formats) (hw : F.write .ini = writeIni) (hr : F.read .ini = readIni)
    (junk : Str) (d : Disk) (path : Str) (hp : ".ini".toList <:+ path) (hd : d.writable path = true) (t t0 : Tree) (h : Canonical t) :
    (save F junk d path t).1 = none ∧ load F (save F junk d path t).2 path t0 = (none, t) := by
  obtain ⟨s, h1, h2⟩ := (C159_iff_partial t).2 h
  exact (C95_save_load F junk d path t t0).1 .ini s hp hd (by rw [hw, h1]) (by rw [hr, h2])

/-- **C159, what goes wrong** An entry whose key begins with `#` or `;` is saved without complaint and lost silently. -/
theorem C159_comment_lost (c : Char) (k v : Str) (hc : c = ';' ∨ c = '#') (hk : '\n' ∉ k) (hv : '\n' ∉ v) :
    ∃ s, writeIni (.node [] [(c :: k, .node v [])]) = some s ∧ readIni s = some (.node [] []) := by
  have hw := (writeIni_eq (.node [] [(c :: k, .node v [])]) _).2 ⟨⟨rfl, by simp [Tree.kids], by simp [Tree.kids]⟩, rfl⟩
  refine ⟨_, hw, ?_⟩
  have htext : ((Tree.node [] [(c :: k, .node v [])]).kids.filter fun e => e.2.kids.isEmpty).flatMap keyLine ++
      ((Tree.node [] [(c :: k, .node v [])]).kids.filter fun e => !e.2.kids.isEmpty).flatMap secText = (c :: (k ++ '=' :: v)) ++ '\n' :: [] := by
    simp [Tree.kids, keyLine, Tree.data]
  have hnl : '\n' ∉ c :: (k ++ '=' :: v) := by
    intro h
    rcases List.mem_cons.1 h with h | h
    · rcases hc with rfl | rfl <;> exact absurd h (by decide)
    · rcases List.mem_append.1 h with h | h
      · exact hk h
      · rcases List.mem_cons.1 h with h | h
        · exact absurd h (by decide)
        · exact hv h
  have hcs : isSpaceC c = false := by rcases hc with rfl | rfl <;> decide
  have htrim : ∃ r, trim (c :: (k ++ '=' :: v)) = c :: r := by
    unfold trim
    rw [dropWhile_id (s := c :: _) (by intro x hx; simp at hx; subst hx; exact hcs), List.reverse_cons, List.dropWhile_append]
    split
    · rw [dropWhile_id (s := [c]) (by intro x hx; simp at hx; subst hx; exact hcs)]; exact ⟨[], rfl⟩
    · exact ⟨_, by rw [List.reverse_append]; rfl⟩
  obtain ⟨r, hr⟩ := htrim
  have hstep : lineStep ⟨[], none⟩ (c :: (k ++ '=' :: v)) = some ⟨[], none⟩ := by
    unfold lineStep
    rw [hr]
    simp only
    rw [if_pos hc]
  have := feed_line ⟨[], none⟩ _ [] hnl
  rw [hstep, Option.bind_some, feed_nil] at this
  unfold readIni
  rw [htext]
  unfold feed at this
  rw [this]
  rfl

/-- **C159, as claimed, is false**: an entry behind a section moves, blanks around a value and a `#` entry are lost, an `=` in a key moves
to the value. -/
theorem C159_negation : ¬ C159_claim ∧
    ((writeIni (.node [] [("s".toList, .node [] [("a".toList, .node [] [])]), ("b".toList, .node [] [])])).bind readIni =
      some (.node [] [("b".toList, .node [] []), ("s".toList, .node [] [("a".toList, .node [] [])])])) ∧
    ((writeIni (.node [] [("a".toList, .node " v".toList [])])).bind readIni = some (.node [] [("a".toList, .node "v".toList [])])) ∧
    ((writeIni (.node [] [("a=b".toList, .node "c".toList [])])).bind readIni = some (.node [] [("a".toList, .node "b=c".toList [])])) := by
  refine ⟨fun h => ?_, rfl, rfl, rfl⟩
  obtain ⟨s, h1, h2⟩ := C159_comment_lost '#' "x".toList "1".toList (Or.inr rfl) (by decide) (by decide)
  have := h _ _ h1
  rw [h2] at this
  simp at this

/-- the hypotheses of C159 are met -/
def exIni : Tree := .node [] [("a".toList, .node "x = [1]; y".toList []), ("b c".toList, .node [] []),
  ("s".toList, .node [] [("a".toList, .node "1".toList []), ("k]".toList, .node "#".toList [])]), ("".toList, .node [] [("z".toList, .node [] [])])]

theorem exIni_ok : Canonical exIni := by
  have h1 : ∀ k v : String, (k.toList ≠ [] ∧ ((∀ c ∈ k.toList.head?, c ∉ [' ', '\t', '\n', Char.ofNat 11, Char.ofNat 12, '\r']) ∧
      (∀ c ∈ k.toList.getLast?, c ∉ [' ', '\t', '\n', Char.ofNat 11, Char.ofNat 12, '\r']) ∧ '\n' ∉ k.toList) ∧ '=' ∉ k.toList ∧
      ∀ c ∈ k.toList.head?, c ∉ [';', '#', '[']) → ((∀ c ∈ v.toList.head?, c ∉ [' ', '\t', '\n', Char.ofNat 11, Char.ofNat 12, '\r']) ∧
      (∀ c ∈ v.toList.getLast?, c ∉ [' ', '\t', '\n', Char.ofNat 11, Char.ofNat 12, '\r']) ∧ '\n' ∉ v.toList) → LeafOk (k.toList, .node v.toList []) :=
    fun k v h1 h2 => ⟨h1, h2, rfl⟩
  refine ⟨rfl, by decide, [("a".toList, .node "x = [1]; y".toList []), ("b c".toList, .node "".toList [])], _, rfl, ?_, ?_⟩
  · intro e he
    simp only [List.mem_cons, List.not_mem_nil, or_false] at he
    rcases he with rfl | rfl
    · exact h1 "a" "x = [1]; y" (by decide) (by decide)
    · exact h1 "b c" "" (by decide) (by decide)
  · intro e he
    simp only [List.mem_cons, List.not_mem_nil, or_false] at he
    rcases he with rfl | rfl
    · refine ⟨by unfold OneLine Space; decide, rfl, by simp [Tree.kids], by simp only [Tree.kids]; decide, ?_⟩
      intro f hf
      simp only [Tree.kids, List.mem_cons, List.not_mem_nil, or_false] at hf
      rcases hf with rfl | rfl
      · exact h1 "a" "1" (by decide) (by decide)
      · exact h1 "k]" "#" (by decide) (by decide)
    · refine ⟨by unfold OneLine Space; decide, rfl, by simp [Tree.kids], by simp only [Tree.kids]; decide, ?_⟩
      intro f hf
      simp only [Tree.kids, List.mem_cons, List.not_mem_nil, or_false] at hf
      subst hf
      exact h1 "z" "" (by decide) (by decide)

example : ∃ s, writeIni exIni = some s ∧ readIni s = some exIni := (C159_iff_partial exIni).2 exIni_ok

example : writeIni exIni = some "a=x = [1]; y\nb c=\n[s]\na=1\nk]=#\n[]\nz=\n".toList := rfl

example : ∃ t, readIni " ; c\n [ s ] x\n a = b = c \n[e]\n".toList = some t ∧ t.kids.length = 1 := ⟨_, rfl, rfl⟩

end Verif.PTree.IniFile
