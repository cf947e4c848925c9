import Verif.PTree.InfoFile
import Verif.PTree.InfoProps
import Verif.PTree.FilesProps

/-!
# C157: a tree saved as an INFO file is loaded back
-/

namespace Verif.PTree.InfoFile

open Verif.PTree

/-! ## Specification -/

/-- the entry with key `k` and subtree `t` occurs somewhere in the tree -/
inductive Inside (k : Key) (t : Tree) : Tree → Prop
  | child {r : Tree} : (k, t) ∈ r.kids → Inside k t r
  | deeper {r t' : Tree} {k' : Key} : (k', t') ∈ r.kids → Inside k t t' → Inside k t r

/-- a text that is written without quotation marks -/
def Bare (s : Str) : Prop := s ≠ [] ∧ ∀ c ∈ s, c ∉ [' ', '\t', '{', '}', ';', '"']

instance (s : Str) : Decidable (Bare s) := inferInstanceAs (Decidable (_ ∧ _))

/-- the text begins with a backslash, a single quotation mark or a control character that has an escape sequence -/
def EscapedFirst (s : Str) : Prop :=
  ∃ c ∈ s.head?, c ∈ ['\\', '\'', '\n', '\r', Char.ofNat 0, Char.ofNat 7, Char.ofNat 8, Char.ofNat 11, Char.ofNat 12]

instance (s : Str) : Decidable (EscapedFirst s) := by
  unfold EscapedFirst
  cases h : s.head? with
  | none => exact isFalse (by simp)
  | some c => exact decidable_of_iff (c ∈ ['\\', '\'', '\n', '\r', Char.ofNat 0, Char.ofNat 7, Char.ofNat 8, Char.ofNat 11, Char.ofNat 12]) (by simp)

/-- an entry that survives: a bare key does not begin with `#`, and a key in quotation marks does not stand before a bare datum that
begins with an escape sequence -/
def EntryOk (k : Key) (d : Str) : Prop :=
  ¬ (Bare k ∧ k.head? = some '#') ∧ ¬ (¬ Bare k ∧ Bare d ∧ EscapedFirst d)

instance (k : Key) (d : Str) : Decidable (EntryOk k d) := inferInstanceAs (Decidable (_ ∧ _))

/-- all entries survive -/
def EntriesOk (t : Tree) : Prop := ∀ k s, Inside k s t → EntryOk k s.data

/-! ## Lemmas -/

theorem expand_escapeChar (c : Char) (r : Str) : expandEscapes (escapeChar c ++ r) = (expandEscapes r).map (c :: ·) := by
  unfold escapeChar
  repeat' split
  all_goals first
    | (subst_vars; simp [expandEscapes]; done)
    | skip
  rename_i hb
  simp only [List.cons_append, List.nil_append]
  conv => lhs; unfold expandEscapes
  split <;> simp_all

theorem expand_create (s : Str) : expandEscapes (createEscapes s) = some s := by
  induction s with
  | nil => rfl
  | cons c s ih =>
    have : createEscapes (c :: s) = escapeChar c ++ createEscapes s := by simp [createEscapes]
    rw [this, expand_escapeChar, ih]; rfl

theorem scan_escapeChar (c : Char) (r : Str) :
    scanString false (escapeChar c ++ r) = (scanString false r).map fun x => (escapeChar c ++ x.1, x.2) := by
  unfold escapeChar
  repeat' split
  all_goals
    simp_all [scanString, Option.map_map, Function.comp_def]

theorem scan_create (s r : Str) : scanString false (createEscapes s ++ '"' :: r) = some (createEscapes s, r) := by
  induction s with
  | nil => simp [createEscapes, scanString]
  | cons c s ih =>
    have : createEscapes (c :: s) = escapeChar c ++ createEscapes s := by simp [createEscapes]
    rw [this, List.append_assoc, scan_escapeChar, ih]; rfl

/-- the characters of an escaped text -/
theorem escapeChar_mem {c d : Char} (h : d ∈ escapeChar c) :
    d ≠ '\n' ∧ d ≠ Char.ofNat 0 ∧ d ≠ '\r' ∧ d ≠ Char.ofNat 11 ∧ d ≠ Char.ofNat 12 := by
  unfold escapeChar at h
  repeat' split at h
  all_goals
    simp only [List.mem_cons, List.not_mem_nil, or_false] at h
    first
    | (rcases h with rfl | rfl <;> decide)
    | (subst h; refine ⟨?_, ?_, ?_, ?_, ?_⟩ <;> assumption)

theorem create_mem {s : Str} {d : Char} (h : d ∈ createEscapes s) :
    d ≠ '\n' ∧ d ≠ Char.ofNat 0 ∧ d ≠ '\r' ∧ d ≠ Char.ofNat 11 ∧ d ≠ Char.ofNat 12 := by
  obtain ⟨c, _, hc⟩ := List.mem_flatMap.1 h
  exact escapeChar_mem hc

/-- a bare character is bare behind its escape -/
theorem escapeChar_bare (c : Char) :
    (∀ d ∈ escapeChar c, (!(d = ' ' || d = '\t' || d = '{' || d = '}' || d = ';' || d = '\n' || d = '"')) = true) ↔
      c ∉ [' ', '\t', '{', '}', ';', '"'] := by
  by_cases hq : c = '"'
  · subst hq; decide
  by_cases h0 : c = Char.ofNat 0
  · subst h0; decide
  by_cases h7 : c = Char.ofNat 7
  · subst h7; decide
  by_cases h8 : c = Char.ofNat 8
  · subst h8; decide
  by_cases h12 : c = Char.ofNat 12
  · subst h12; decide
  by_cases hn : c = '\n'
  · subst hn; decide
  by_cases hr : c = '\r'
  · subst hr; decide
  by_cases h11 : c = Char.ofNat 11
  · subst h11; decide
  by_cases hs : c = '\''
  · subst hs; decide
  by_cases hb : c = '\\'
  · subst hb; decide
  have : escapeChar c = [c] := by
    unfold escapeChar
    rw [if_neg h0, if_neg h7, if_neg h8, if_neg h12, if_neg hn, if_neg hr, if_neg h11, if_neg hq, if_neg hs, if_neg hb]
  rw [this]
  simp [hq, hn, and_assoc]

theorem escapeChar_ne (c : Char) : escapeChar c ≠ [] := by
  unfold escapeChar
  repeat' split
  all_goals simp

theorem create_nil {s : Str} : createEscapes s = [] ↔ s = [] := by
  cases s with
  | nil => simp [createEscapes]
  | cons c s => simp [createEscapes, escapeChar_ne]

theorem simple_create (s : Str) : isSimple (createEscapes s) = true ↔ Bare s := by
  unfold isSimple Bare
  rw [Bool.and_eq_true, List.all_eq_true]
  have h1 : (!(createEscapes s).isEmpty) = true ↔ s ≠ [] := by
    rw [Bool.not_eq_true', ← Bool.not_eq_true, List.isEmpty_iff, create_nil]
  rw [h1]
  apply and_congr Iff.rfl
  constructor
  · intro h c hc
    rw [← escapeChar_bare]
    intro d hd
    exact h d (List.mem_flatMap.2 ⟨c, hc, hd⟩)
  · intro h d hd
    obtain ⟨c, hc, hd⟩ := List.mem_flatMap.1 hd
    exact (escapeChar_bare c).2 (h c hc) d hd

/-- the first character of an escaped text -/
theorem create_head (c : Char) (s : Str) : ∃ d r, createEscapes (c :: s) = d :: r ∧
    ((d = '\\' ∧ EscapedFirst (c :: s)) ∨ (d = c ∧ c ≠ '\\' ∧ ¬ EscapedFirst (c :: s)) ∨ c = '"') := by
  have : createEscapes (c :: s) = escapeChar c ++ createEscapes s := by simp [createEscapes]
  rw [this]
  unfold escapeChar EscapedFirst
  repeat' split
  all_goals
    refine ⟨_, _, rfl, ?_⟩
    simp_all

theorem bare_word {s : Str} (h : Bare s) : ∀ d ∈ createEscapes s, endsWord d = false := by
  intro d hd
  have hm := create_mem hd
  have hsim := (simple_create s).2 h
  unfold isSimple at hsim
  rw [Bool.and_eq_true, List.all_eq_true] at hsim
  have := hsim.2 d hd
  simp at this
  simp [endsWord, isSpaceC, this, hm]

theorem readWord_bare {s : Str} (h : Bare s) (r : Str) (hr : ∀ c ∈ r.head?, endsWord c = true) :
    readWord (createEscapes s ++ r) = some (s, r) := by
  obtain ⟨h1, h2⟩ := takeWhile_word (createEscapes s) r (bare_word h) hr
  unfold readWord
  rw [h1, h2, expand_create]; rfl

theorem readString_key (s r : Str) : readString false (createEscapes s ++ '"' :: r) =
    if (r.dropWhile isSpaceC).head? = some '\\' then none else some (s, false, r.dropWhile isSpaceC) := by
  unfold readString
  rw [scan_create]
  simp only [expand_create]
  cases h : r.dropWhile isSpaceC with
  | nil => rfl
  | cons c r' =>
    by_cases hc : c = '\\'
    · subst hc; simp
    · rw [if_neg (by simpa using hc)]
      split <;> simp_all

theorem readString_data (s : Str) : readString true (createEscapes s ++ ['"']) = some (s, false, []) := by
  unfold readString
  rw [scan_create]
  simp [expand_create]

theorem readLine_end {s : Str} (h : s.dropWhile isSpaceC = []) (n : Nat) (p : RS) (hp : p.st ≠ .data) :
    readLine n p s = some p := by
  unfold readLine
  simp [h, hp]

theorem readLine_end' {s : Str} (h : s.dropWhile isSpaceC = []) (n : Nat) (p : RS) (hp : p.st = .data) :
    readLine n p s = some { p with st := .key } := by
  unfold readLine
  simp [h, hp]

theorem readLine_tok {s r : Str} {c : Char} (h : s.dropWhile isSpaceC = c :: r) (hc : c ≠ ';') (n : Nat) (p : RS) :
    readLine (n + 1) p s = (token p c r).bind fun x => readLine n x.1 x.2 := by
  conv => lhs; unfold readLine
  simp only [h, hc, if_false]

theorem readLine_space (n : Nat) (p : RS) (a s : Str) (ha : ∀ c ∈ a, c = ' ') : readLine n p (a ++ s) = readLine n p s := by
  have : (a ++ s).dropWhile isSpaceC = s.dropWhile isSpaceC := by
    induction a with
    | nil => rfl
    | cons c a ih =>
      have hc := ha c (by simp); subst hc
      rw [List.cons_append, List.dropWhile_cons, if_pos (by decide)]
      exact ih fun d hd => ha d (by simp [hd])
  unfold readLine
  rw [this]

theorem indent_mem (n : Nat) : ∀ c ∈ indent n, c = ' ' := fun c hc => (List.mem_replicate.1 hc).2

/-- the reader after a finished entry -/
def RS.added (p : RS) (cs : List (Key × Tree)) (l : Option Nat) : RS :=
  ⟨{ p.top with kids := p.top.kids ++ cs }, p.below, l, .key⟩

theorem push_setData (p : RS) (k : Key) (d : Str) :
    (p.push k).setData (fun _ => d) false = p.added [(k, .node d [])] (some p.top.kids.length) := by
  have : ∀ (l : List (Key × Tree)) (x : Key × Tree) (f : Key × Tree → Key × Tree), (l ++ [x]).modify l.length f = l ++ [f x] := by
    intro l x f
    induction l with
    | nil => rfl
    | cons a l ih => simp [ih]
  simp [RS.push, RS.setData, RS.added, Tree.kids, this]

theorem push_end (p : RS) (k : Key) : { p.push k with st := .key } = p.added [(k, .node [] [])] (some p.top.kids.length) := by
  simp [RS.push, RS.added]

/-- the datum on a key's line -/
theorem readLine_data (p : RS) (k : Key) (d : Str) (leaf : Bool) (n : Nat) :
    readLine (n + 1) (p.push k) (dataPart d leaf) = some (p.added [(k, .node d [])] (some p.top.kids.length)) := by
  unfold dataPart
  by_cases hd : d = []
  · subst hd
    simp only [ne_eq, not_true_eq_false, if_false]
    cases leaf with
    | false =>
      rw [if_neg (by simp), readLine_end' (by rfl) _ _ rfl, push_end]
    | true =>
      rw [if_pos rfl]
      have h1 : ([' ', '"', '"'] : Str).dropWhile isSpaceC = '"' :: ['"'] := by decide
      rw [readLine_tok h1 (by decide)]
      have h2 : token (p.push k) '"' ['"'] = some ((p.push k).setData (fun _ => []) false, []) := by
        have := readString_data []
        simp only [createEscapes, List.flatMap_nil, List.nil_append] at this
        simp [token, RS.push, this]
      rw [h2, Option.bind_some, push_setData, readLine_end (by rfl) _ _ (by simp [RS.added])]
  · rw [if_pos hd]
    unfold quoted
    by_cases hs : isSimple (createEscapes d) = true
    · have hb := (simple_create d).1 hs
      rw [if_pos hs]
      have hw := bare_word hb
      have hsim := hs
      unfold isSimple at hsim
      rw [Bool.and_eq_true, List.all_eq_true] at hsim
      have hrw := readWord_bare hb [] (by simp)
      rw [List.append_nil] at hrw
      cases he : createEscapes d with
      | nil => exact absurd (create_nil.1 he) hd
      | cons c e =>
        rw [he] at hw hrw hsim
        have hc := hw c (by simp)
        have hc' := hsim.2 c (by simp)
        simp only [endsWord, Bool.or_eq_false_iff, decide_eq_false_iff_not] at hc
        simp at hc'
        have h1 : (' ' :: c :: e).dropWhile isSpaceC = c :: e := by
          rw [List.dropWhile_cons, if_pos (by decide), List.dropWhile_cons, hc.1]; simp
        rw [readLine_tok h1 hc.2]
        have h2 : token (p.push k) c e = some ((p.push k).setData (fun _ => d) false, []) := by
          simp [token, RS.push, hc', hrw]
        rw [h2, Option.bind_some, push_setData, readLine_end (by rfl) _ _ (by simp [RS.added])]
    · rw [if_neg hs]
      have h1 : (' ' :: '"' :: (createEscapes d ++ ['"'])).dropWhile isSpaceC = '"' :: (createEscapes d ++ ['"']) := by
        rw [List.dropWhile_cons, if_pos (by decide), List.dropWhile_cons, if_neg (by decide)]
      rw [readLine_tok h1 (by decide)]
      have h2 : token (p.push k) '"' (createEscapes d ++ ['"']) = some ((p.push k).setData (fun _ => d) false, []) := by
        simp [token, RS.push, readString_data]
      rw [h2, Option.bind_some, push_setData, readLine_end (by rfl) _ _ (by simp [RS.added])]

theorem dataPart_head (d : Str) (leaf : Bool) : ∀ c ∈ (dataPart d leaf).head?, c = ' ' := by
  unfold dataPart
  split
  · simp
  · split <;> simp

/-- the first character of the datum on a key's line -/
theorem dataPart_first (d : Str) (leaf : Bool) :
    ((dataPart d leaf).dropWhile isSpaceC).head? = some '\\' ↔ Bare d ∧ EscapedFirst d := by
  unfold dataPart
  cases d with
  | nil =>
    have hb : ¬ Bare [] := fun h => h.1 rfl
    cases leaf <;> simp [hb, List.dropWhile, isSpaceC]
  | cons c d =>
    rw [if_pos (by simp)]
    unfold quoted
    by_cases hs : isSimple (createEscapes (c :: d)) = true
    · have hb := (simple_create _).1 hs
      rw [if_pos hs]
      obtain ⟨e, r, he, hcase⟩ := create_head c d
      have hw := bare_word hb e (by rw [he]; simp)
      simp only [endsWord, Bool.or_eq_false_iff] at hw
      rw [he, List.dropWhile_cons, if_pos (by decide), List.dropWhile_cons, hw.1]
      have hq : c ≠ '"' := by rintro rfl; exact absurd (hb.2 '"' (by simp)) (by simp)
      simp only [Bool.false_eq_true, if_false, List.head?_cons, Option.some.injEq]
      rcases hcase with ⟨h1, h2⟩ | ⟨h1, h2, h3⟩ | h
      · simp [h1, h2, hb]
      · subst h1; simp [h2, h3]
      · exact absurd h hq
    · have hb : ¬ Bare (c :: d) := fun h => hs ((simple_create _).2 h)
      rw [if_neg hs, List.dropWhile_cons, if_pos (by decide), List.dropWhile_cons, if_neg (by decide)]
      simp [hb]

theorem dropWhile_twice (s : Str) : (s.dropWhile isSpaceC).dropWhile isSpaceC = s.dropWhile isSpaceC := by
  induction s with
  | nil => rfl
  | cons c s ih =>
    by_cases hc : isSpaceC c = true
    · rw [List.dropWhile_cons, if_pos hc, ih]
    · rw [List.dropWhile_cons, if_neg hc, List.dropWhile_cons, if_neg hc]

/-- the tokens of a key's line -/
theorem readLine_key (p : RS) (hp : p.st = .key) (k : Key) (d : Str) (leaf : Bool) (n : Nat) (hh : ¬ (Bare k ∧ k.head? = some '#')) :
    readLine (n + 2) p (quoted (createEscapes k) ++ dataPart d leaf) =
      if EntryOk k d then some (p.added [(k, .node d [])] (some p.top.kids.length)) else none := by
  have hsp : ∀ s : Str, readLine (n + 1) (p.push k) (s.dropWhile isSpaceC) = readLine (n + 1) (p.push k) s := by
    intro s
    unfold readLine
    rw [dropWhile_twice]
  unfold quoted
  by_cases hs : isSimple (createEscapes k) = true
  · have hb := (simple_create k).1 hs
    have hok : EntryOk k d := ⟨hh, fun h => h.1 hb⟩
    rw [if_pos hs, if_pos hok]
    have hrw := readWord_bare hb (dataPart d leaf) (fun c hc => by rw [dataPart_head d leaf c hc]; decide)
    have hw := bare_word hb
    have hsim := hs
    unfold isSimple at hsim
    rw [Bool.and_eq_true, List.all_eq_true] at hsim
    cases he : createEscapes k with
    | nil => exact absurd (create_nil.1 he) hb.1
    | cons c e =>
      rw [he] at hw hrw hsim
      have hc := hw c (by simp)
      have hc' := hsim.2 c (by simp)
      simp only [endsWord, Bool.or_eq_false_iff, decide_eq_false_iff_not] at hc
      simp at hc'
      have h1 : (c :: e ++ dataPart d leaf).dropWhile isSpaceC = c :: (e ++ dataPart d leaf) := by
        rw [List.cons_append, List.dropWhile_cons, hc.1]; simp
      rw [readLine_tok h1 hc.2]
      have h2 : token p c (e ++ dataPart d leaf) = some (p.push k, dataPart d leaf) := by
        rw [List.cons_append] at hrw
        simp [token, hp, hc', hrw]
      rw [h2, Option.bind_some]
      exact readLine_data p k d leaf n
  · have hb : ¬ Bare k := fun h => hs ((simple_create _).2 h)
    rw [if_neg hs]
    have h1 : ('"' :: (createEscapes k ++ ['"']) ++ dataPart d leaf).dropWhile isSpaceC =
        '"' :: (createEscapes k ++ '"' :: dataPart d leaf) := by
      rw [List.cons_append, List.dropWhile_cons, if_neg (by decide)]; simp
    rw [readLine_tok h1 (by decide)]
    have h2 : token p '"' (createEscapes k ++ '"' :: dataPart d leaf) =
        if Bare d ∧ EscapedFirst d then none else some (p.push k, (dataPart d leaf).dropWhile isSpaceC) := by
      have h3 := readString_key k (dataPart d leaf)
      simp only [dataPart_first] at h3
      simp only [token, hp]
      rw [if_neg (by decide), if_neg (by decide), if_neg (by decide), if_pos trivial, h3]
      split <;> rfl
    rw [h2]
    by_cases hbad : Bare d ∧ EscapedFirst d
    · rw [if_pos hbad, if_neg (fun h : EntryOk k d => h.2 ⟨hb, hbad⟩)]; rfl
    · have hok : EntryOk k d := ⟨hh, fun h => hbad h.2⟩
      rw [if_neg hbad, if_pos hok, Option.bind_some, hsp]
      exact readLine_data p k d leaf n

/-- a line as it is written: no zero character -/
theorem takeWhile_nonul : ∀ l : Str, (∀ c ∈ l, c ≠ Char.ofNat 0) → l.takeWhile (· ≠ Char.ofNat 0) = l
  | [], _ => rfl
  | c :: l, h => by
    have h1 := h c (by simp)
    rw [List.takeWhile_cons, if_pos (by simpa using h1), takeWhile_nonul l fun d hd => h d (by simp [hd])]

theorem quoted_mem {s : Str} {c : Char} (h : c ∈ quoted (createEscapes s)) : c ≠ '\n' ∧ c ≠ Char.ofNat 0 := by
  unfold quoted at h
  split at h
  · exact ⟨(create_mem h).1, (create_mem h).2.1⟩
  · simp only [List.mem_cons, List.mem_append, List.not_mem_nil, or_false] at h
    rcases h with rfl | h | rfl
    · decide
    · exact ⟨(create_mem h).1, (create_mem h).2.1⟩
    · decide

theorem dataPart_mem {d : Str} {leaf : Bool} {c : Char} (h : c ∈ dataPart d leaf) : c ≠ '\n' ∧ c ≠ Char.ofNat 0 := by
  unfold dataPart at h
  split at h
  · rcases List.mem_cons.1 h with rfl | h
    · decide
    · exact quoted_mem h
  · split at h
    · simp at h; rcases h with rfl | rfl <;> decide
    · simp at h

theorem quoted_ne (s : Str) : quoted (createEscapes s) ≠ [] := by
  unfold quoted
  split
  · rename_i h
    intro h0
    rw [h0] at h
    simp [isSimple] at h
  · simp

theorem dropWhile_indent (n : Nat) (s : Str) : (indent n ++ s).dropWhile isSpaceC = s.dropWhile isSpaceC := by
  have : ∀ a : Str, (∀ c ∈ a, c = ' ') → (a ++ s).dropWhile isSpaceC = s.dropWhile isSpaceC := by
    intro a
    induction a with
    | nil => intro _; rfl
    | cons c a ih =>
      intro ha
      have hc := ha c (by simp); subst hc
      rw [List.cons_append, List.dropWhile_cons, if_pos (by decide)]
      exact ih fun d hd => ha d (by simp [hd])
  exact this _ (indent_mem n)

/-- the first character of a key -/
theorem quoted_first (k : Key) (s : Str) :
    ((quoted (createEscapes k) ++ s).dropWhile isSpaceC).head? = some '#' ↔ Bare k ∧ k.head? = some '#' := by
  unfold quoted
  by_cases hs : isSimple (createEscapes k) = true
  · have hb := (simple_create _).1 hs
    rw [if_pos hs]
    cases k with
    | nil => exact absurd rfl hb.1
    | cons c k =>
      obtain ⟨e, r, he, hcase⟩ := create_head c k
      have hw := bare_word hb e (by rw [he]; simp)
      simp only [endsWord, Bool.or_eq_false_iff] at hw
      rw [he, List.cons_append, List.dropWhile_cons, hw.1]
      have hq : c ≠ '"' := by rintro rfl; exact absurd (hb.2 '"' (by simp)) (by simp)
      simp only [Bool.false_eq_true, if_false, List.head?_cons, Option.some.injEq]
      rcases hcase with ⟨h1, h2⟩ | ⟨h1, h2, h3⟩ | h
      · subst h1
        obtain ⟨c', hc', hm⟩ := h2
        simp at hc'; subst hc'
        constructor
        · intro h; exact absurd h (by decide)
        · rintro ⟨_, rfl⟩; simp at hm
      · subst h1; simp [hb]
      · exact absurd h hq
  · have hb : ¬ Bare k := fun h => hs ((simple_create _).2 h)
    rw [if_neg hs, List.cons_append, List.dropWhile_cons, if_neg (by decide)]
    simp [hb]

theorem lineStep_plain (inc : Str → Option (List (Key × Tree))) (p : RS) (l : Str) (hn : ∀ c ∈ l, c ≠ Char.ofNat 0)
    (hh : (l.dropWhile isSpaceC).head? ≠ some '#') : lineStep inc p l = readLine l.length p l := by
  unfold lineStep
  rw [takeWhile_nonul l hn]
  simp only
  split
  · rename_i r h; rw [h] at hh; exact absurd rfl hh
  · rfl

/-- a key's line -/
def keyLine (n : Nat) (k : Key) (d : Str) (leaf : Bool) : Str := indent n ++ (quoted (createEscapes k) ++ dataPart d leaf)

theorem keyLine_mem {n : Nat} {k : Key} {d : Str} {leaf : Bool} {c : Char} (h : c ∈ keyLine n k d leaf) : c ≠ '\n' ∧ c ≠ Char.ofNat 0 := by
  rcases List.mem_append.1 h with h | h
  · rw [indent_mem n c h]; decide
  · rcases List.mem_append.1 h with h | h
    · exact quoted_mem h
    · exact dataPart_mem h

theorem lineStep_key (inc : Str → Option (List (Key × Tree))) (p : RS) (hp : p.st = .key) (n : Nat) (k : Key) (d : Str) (leaf : Bool) :
    (EntryOk k d → lineStep inc p (keyLine n k d leaf) = some (p.added [(k, .node d [])] (some p.top.kids.length))) ∧
    (¬ EntryOk k d → (∀ f, inc f = none) → lineStep inc p (keyLine n k d leaf) = none) := by
  have hd : (keyLine n k d leaf).dropWhile isSpaceC = (quoted (createEscapes k) ++ dataPart d leaf).dropWhile isSpaceC :=
    dropWhile_indent n _
  by_cases hh : Bare k ∧ k.head? = some '#'
  · refine ⟨fun h => absurd hh h.1, fun _ hinc => ?_⟩
    have h1 := (quoted_first k (dataPart d leaf)).2 hh
    rw [← hd] at h1
    unfold lineStep
    rw [takeWhile_nonul _ fun c hc => (keyLine_mem hc).2]
    simp only
    split
    · rename_i r _
      cases includeName r with
      | none => rfl
      | some f => simp [hinc]
    · rename_i hx
      cases hl : (keyLine n k d leaf).dropWhile isSpaceC with
      | nil => rw [hl] at h1; simp at h1
      | cons c r => rw [hl] at h1; simp at h1; subst h1; exact absurd hl (hx r)
  · have hlen : ∃ m, (keyLine n k d leaf).length = m + 1 := by
      have : 0 < (quoted (createEscapes k)).length := List.length_pos_iff.2 (quoted_ne k)
      exact ⟨(keyLine n k d leaf).length - 1, by simp only [keyLine, List.length_append]; omega⟩
    have h1 : lineStep inc p (keyLine n k d leaf) =
        readLine (keyLine n k d leaf).length p (quoted (createEscapes k) ++ dataPart d leaf) := by
      rw [lineStep_plain inc p _ (fun c hc => (keyLine_mem hc).2)]
      · exact readLine_space _ p _ _ (indent_mem n)
      · rw [hd]
        exact fun h => hh ((quoted_first k _).1 h)
    -- one more unit of fuel does not matter
    have hfuel : ∃ m, readLine (keyLine n k d leaf).length p (quoted (createEscapes k) ++ dataPart d leaf) =
        readLine (m + 2) p (quoted (createEscapes k) ++ dataPart d leaf) := by
      by_cases h2 : 2 ≤ (keyLine n k d leaf).length
      · exact ⟨(keyLine n k d leaf).length - 2, by rw [Nat.sub_add_cancel h2]⟩
      · obtain ⟨m, hm⟩ := hlen
        have hm0 : m = 0 := by omega
        subst hm0
        have hq : 0 < (quoted (createEscapes k)).length := List.length_pos_iff.2 (quoted_ne k)
        have hlen1 : (keyLine n k d leaf).length = (indent n).length + ((quoted (createEscapes k)).length + (dataPart d leaf).length) := by
          simp [keyLine]
        have hd0 : dataPart d leaf = [] := List.length_eq_zero_iff.1 (by omega)
        have hq1 : (quoted (createEscapes k)).length = 1 := by omega
        refine ⟨0, ?_⟩
        rw [hm, hd0, List.append_nil]
        have hs : isSimple (createEscapes k) = true := by
          refine Decidable.byContradiction fun hs => ?_
          unfold quoted at hq1
          rw [if_neg hs] at hq1
          simp at hq1
        have hb := (simple_create k).1 hs
        have hrw := readWord_bare hb [] (by simp)
        have hw := bare_word hb
        have hqe : quoted (createEscapes k) = createEscapes k := if_pos hs
        rw [hqe]
        have hsim := hs
        unfold isSimple at hsim
        rw [Bool.and_eq_true, List.all_eq_true] at hsim
        rw [List.append_nil] at hrw
        cases he : createEscapes k with
        | nil => exact absurd (create_nil.1 he) hb.1
        | cons c e =>
          rw [he] at hw hrw hsim
          have hc := hw c (by simp)
          have hc' := hsim.2 c (by simp)
          simp only [endsWord, Bool.or_eq_false_iff, decide_eq_false_iff_not] at hc
          simp at hc'
          have h1 : (c :: e).dropWhile isSpaceC = c :: e := by
            rw [List.dropWhile_cons, hc.1]; simp
          rw [show 0 + 2 = 1 + 1 from rfl, readLine_tok h1 hc.2, readLine_tok h1 hc.2]
          have h2 : token p c e = some (p.push k, []) := by simp [token, hp, hc', hrw]
          rw [h2, Option.bind_some, Option.bind_some, readLine_end' (by rfl) _ _ rfl, readLine_end' (by rfl) _ _ rfl]
    obtain ⟨m, hm⟩ := hfuel
    rw [h1, hm, readLine_key p hp k d leaf m hh]
    exact ⟨fun h => if_pos h, fun h _ => if_neg h⟩

/-- the reader on a text -/
def feed (inc : Str → Option (List (Key × Tree))) (p : RS) (s : Str) : Option RS := linesStep inc p (s.splitOn '\n')

theorem linesStep_append (inc : Str → Option (List (Key × Tree))) (p : RS) :
    ∀ (a b : List Str), linesStep inc p (a ++ b) = (linesStep inc p a).bind fun q => linesStep inc q b := by
  intro a
  induction a generalizing p with
  | nil => intro b; rfl
  | cons l a ih =>
    intro b
    simp only [List.cons_append, linesStep]
    cases lineStep inc p l with
    | none => rfl
    | some q => simpa using ih q b

theorem feed_line (inc : Str → Option (List (Key × Tree))) (p : RS) (a b : Str) (h : '\n' ∉ a) :
    feed inc p (a ++ '\n' :: b) = (lineStep inc p a).bind fun q => feed inc q b := by
  unfold feed
  rw [show (a ++ '\n' :: b).splitOn '\n' = a.splitOn '\n' ++ b.splitOn '\n' from List.splitOn_append_cons_self .., linesStep_append,
    List.splitOn_eq_singleton h]
  simp only [linesStep]
  cases lineStep inc p a <;> rfl

theorem lineStep_open (inc : Str → Option (List (Key × Tree))) (p : RS) (n : Nat) (k : Key) (d : Str) :
    lineStep inc (p.added [(k, .node d [])] (some p.top.kids.length)) (indent n ++ ['{']) =
      some ⟨⟨k, d, [], []⟩, p.top :: p.below, none, .key⟩ := by
  rw [lineStep_plain]
  · rw [readLine_space _ _ _ _ (indent_mem n)]
    have : (indent n ++ ['{']).length = (indent n).length + 1 := by simp
    rw [this, readLine_tok (c := '{') (r := []) (by decide) (by decide)]
    have h2 : token (p.added [(k, .node d [])] (some p.top.kids.length)) '{' [] =
        some (⟨⟨k, d, [], []⟩, p.top :: p.below, none, .key⟩, []) := by
      simp [token, RS.added, RS.open, Tree.data, Tree.kids]
    rw [h2, Option.bind_some, readLine_end (by rfl) _ _ (by simp)]
  · intro c hc
    rcases List.mem_append.1 hc with h | h
    · rw [indent_mem n c h]; decide
    · simp at h; subst h; decide
  · rw [dropWhile_indent]; decide

theorem lineStep_close (inc : Str → Option (List (Key × Tree))) (p : RS) (n : Nat) (k : Key) (d : Str) (ks : List (Key × Tree)) (l : Option Nat) :
    lineStep inc ⟨⟨k, d, ks, []⟩, p.top :: p.below, l, .key⟩ (indent n ++ ['}']) = some (p.added [(k, .node d ks)] none) := by
  rw [lineStep_plain]
  · rw [readLine_space _ _ _ _ (indent_mem n)]
    have : (indent n ++ ['}']).length = (indent n).length + 1 := by simp
    rw [this, readLine_tok (c := '}') (r := []) (by decide) (by decide)]
    have h2 : token ⟨⟨k, d, ks, []⟩, p.top :: p.below, l, .key⟩ '}' [] = some (p.added [(k, .node d ks)] none, []) := by
      simp [token, RS.added, RS.close]
    rw [h2, Option.bind_some, readLine_end (by rfl) _ _ (by simp [RS.added])]
  · intro c hc
    rcases List.mem_append.1 hc with h | h
    · rw [indent_mem n c h]; decide
    · simp at h; subst h; decide
  · rw [dropWhile_indent]; decide

mutual
/-- all entries survive, by recursion -/
def okKids : List (Key × Tree) → Prop
  | [] => True
  | (k, t) :: r => EntryOk k t.data ∧ okTree t ∧ okKids r
def okTree : Tree → Prop
  | .node _ ks => okKids ks
end

theorem okKids_iff : ∀ ks : List (Key × Tree), okKids ks ↔ ∀ k t, (k, t) ∈ ks → EntryOk k t.data ∧ okTree t
  | [] => by simp [okKids]
  | (k, t) :: r => by
    simp only [okKids, okKids_iff r, List.mem_cons, Prod.mk.injEq]
    constructor
    · rintro ⟨h1, h2, h3⟩ k' t' (⟨rfl, rfl⟩ | h)
      · exact ⟨h1, h2⟩
      · exact h3 k' t' h
    · intro h
      exact ⟨(h k t (.inl ⟨rfl, rfl⟩)).1, (h k t (.inl ⟨rfl, rfl⟩)).2, fun k' t' hm => h k' t' (.inr hm)⟩

theorem okTree_kids (t : Tree) : okTree t ↔ okKids t.kids := by cases t; simp [okTree, Tree.kids]

theorem okTree_inside {t : Tree} (h : okTree t) {k : Key} {s : Tree} (hi : Inside k s t) : EntryOk k s.data := by
  induction hi with
  | child hm => exact ((okKids_iff _).1 ((okTree_kids _).1 h) _ _ hm).1
  | deeper hm _ ih => exact ih ((okKids_iff _).1 ((okTree_kids _).1 h) _ _ hm).2

mutual
theorem okTree_of : ∀ t : Tree, EntriesOk t → okTree t
  | .node d ks, h => by
    rw [okTree]
    refine okKids_of ks fun k t hm => ⟨h k t (.child hm), fun k' s hi => h k' s (.deeper hm hi)⟩
theorem okKids_of : ∀ ks : List (Key × Tree), (∀ k t, (k, t) ∈ ks → EntryOk k t.data ∧ EntriesOk t) → okKids ks
  | [], _ => by simp [okKids]
  | (k, t) :: r, h => by
    rw [okKids]
    exact ⟨(h k t (by simp)).1, okTree_of t (h k t (by simp)).2, okKids_of r fun k' t' hm => h k' t' (by simp [hm])⟩
end

theorem okTree_iff (t : Tree) : okTree t ↔ EntriesOk t := ⟨fun h _ _ hi => okTree_inside h hi, okTree_of t⟩

theorem added_added (p : RS) (a b : List (Key × Tree)) (l m : Option Nat) : (p.added a l).added b m = p.added (a ++ b) m := by
  simp [RS.added]

/-- what the reader does with written children -/
theorem feed_kids (inc : Str → Option (List (Key × Tree))) : ∀ (ks : List (Key × Tree)) (n : Nat) (p : RS) (rest : Str), p.st = .key →
    (okKids ks → ∃ l, feed inc p (writeKids n ks ++ rest) = feed inc (p.added ks l) rest) ∧
    (¬ okKids ks → (∀ f, inc f = none) → feed inc p (writeKids n ks ++ rest) = none)
  | [], n, p, rest, hp => by
    refine ⟨fun _ => ⟨p.last, ?_⟩, fun h => absurd (by simp [okKids]) h⟩
    have : p.added [] p.last = p := by
      cases p; simp only at hp; subst hp; simp [RS.added]
    rw [this]; simp [writeKids]
  | (k, .node d ks) :: r, n, p, rest, hp => by
    have hl := lineStep_key inc p hp n k d ks.isEmpty
    have hnl : '\n' ∉ keyLine n k d ks.isEmpty := fun h => (keyLine_mem h).1 rfl
    have hr := fun l => feed_kids inc r n (p.added [(k, .node d ks)] l) rest rfl
    have hadd : ∀ l m, (p.added [(k, .node d ks)] l).added r m = p.added ((k, .node d ks) :: r) m := by
      intro l m; rw [added_added]; rfl
    by_cases hks : ks = []
    · subst hks
      simp only [List.isEmpty_nil] at hl hnl
      have htext : writeKids n ((k, .node d []) :: r) ++ rest = keyLine n k d true ++ '\n' :: (writeKids n r ++ rest) := by
        simp [writeKids, writeNode, keyLine]
      rw [htext, feed_line _ _ _ _ hnl]
      simp only [okKids, okTree, true_and]
      constructor
      · rintro ⟨h1, h2⟩
        obtain ⟨l, hl'⟩ := (hr (some p.top.kids.length)).1 h2
        refine ⟨l, ?_⟩
        rw [hl.1 h1, Option.bind_some, hl', hadd]
      · intro h hinc
        by_cases h1 : EntryOk k d
        · rw [hl.1 h1, Option.bind_some]
          exact (hr _).2 (fun h2 => h ⟨h1, h2⟩) hinc
        · rw [hl.2 h1 hinc]; rfl
    · have hemp : ks.isEmpty = false := by simpa using hks
      have htext : writeKids n ((k, .node d ks) :: r) ++ rest = keyLine n k d false ++ '\n' ::
          ((indent n ++ ['{']) ++ '\n' :: (writeKids (n + 1) ks ++ ((indent n ++ ['}']) ++ '\n' :: (writeKids n r ++ rest)))) := by
        simp [writeKids, writeNode, keyLine, hemp]
      rw [hemp] at hl hnl
      have hno : '\n' ∉ indent n ++ ['{'] := by
        intro h
        rcases List.mem_append.1 h with h | h
        · exact absurd (indent_mem n _ h) (by decide)
        · simp at h
      have hnc : '\n' ∉ indent n ++ ['}'] := by
        intro h
        rcases List.mem_append.1 h with h | h
        · exact absurd (indent_mem n _ h) (by decide)
        · simp at h
      rw [htext, feed_line _ _ _ _ hnl]
      have hin := feed_kids inc ks (n + 1) ⟨⟨k, d, [], []⟩, p.top :: p.below, none, .key⟩
        ((indent n ++ ['}']) ++ '\n' :: (writeKids n r ++ rest)) rfl
      have hstep : EntryOk k d → okKids ks → ∃ l, (lineStep inc p (keyLine n k d false)).bind (fun q => feed inc q
          ((indent n ++ ['{']) ++ '\n' :: (writeKids (n + 1) ks ++ ((indent n ++ ['}']) ++ '\n' :: (writeKids n r ++ rest))))) =
          feed inc (p.added [(k, .node d ks)] l) (writeKids n r ++ rest) := by
        intro h1 h2
        obtain ⟨l, hl'⟩ := hin.1 h2
        refine ⟨none, ?_⟩
        rw [hl.1 h1, Option.bind_some, feed_line _ _ _ _ hno, lineStep_open, Option.bind_some, hl', feed_line _ _ _ _ hnc]
        have := lineStep_close inc p n k d ks l
        simp only [RS.added, List.nil_append] at this ⊢
        rw [this, Option.bind_some]
      simp only [okKids, okTree, Tree.data]
      constructor
      · rintro ⟨h1, h2, h3⟩
        obtain ⟨l, hl'⟩ := hstep h1 h2
        obtain ⟨m, hm⟩ := (hr l).1 h3
        exact ⟨m, by rw [hl', hm, hadd]⟩
      · intro h hinc
        by_cases h1 : EntryOk k d
        · by_cases h2 : okKids ks
          · obtain ⟨l, hl'⟩ := hstep h1 h2
            rw [hl']
            exact (hr l).2 (fun h3 => h ⟨h1, h2, h3⟩) hinc
          · rw [hl.1 h1, Option.bind_some, feed_line _ _ _ _ hno, lineStep_open, Option.bind_some]
            exact hin.2 h2 hinc
        · rw [hl.2 h1 hinc]; rfl

theorem readText_write (inc : Str → Option (List (Key × Tree))) (ks : List (Key × Tree)) :
    (okKids ks → readText inc (writeKids 0 ks) = some ks) ∧
    (¬ okKids ks → (∀ f, inc f = none) → readText inc (writeKids 0 ks) = none) := by
  unfold readText
  have h := feed_kids inc ks 0 ⟨⟨[], [], [], []⟩, [], none, .key⟩ [] rfl
  simp only [List.append_nil, feed] at h
  constructor
  · intro hok
    obtain ⟨l, hl⟩ := h.1 hok
    rw [hl]
    simp [linesStep, lineStep, readLine, RS.added]
  · intro hok hf
    rw [h.2 hok hf]

theorem readKids_write (files : Str → Option Str) (depth : Nat) (ks : List (Key × Tree)) :
    (okKids ks → readKids files depth (writeKids 0 ks) = some ks) ∧
    (¬ okKids ks → (∀ f, files f = none) → readKids files depth (writeKids 0 ks) = none) := by
  cases depth with
  | zero =>
    rw [readKids]
    exact ⟨(readText_write _ ks).1, fun h _ => (readText_write _ ks).2 h fun _ => rfl⟩
  | succ m =>
    rw [readKids]
    exact ⟨(readText_write _ ks).1, fun h hf => (readText_write _ ks).2 h fun f => by simp [hf]⟩

/-! ## C157 -/

/-- **C157, as claimed** Loading an INFO text that was written from a tree gives that tree. -/
def C157_claim : Prop := ∀ (files : Str → Option Str) (t : Tree), readInfo files (writeInfo t) = some t

/-- **C157, what holds** Exactly what becomes of a tree that is written and read: if every entry survives — no bare key begins with `#`,
no bare datum behind a quoted key begins with an escape sequence — all entries come back with their keys, data and order, and only the
datum of the root is lost, whatever files there are; otherwise, if there is no file to include, the text is refused. -/
theorem C157_read_written_partial (t : Tree) :
    (EntriesOk t → ∀ files, readInfo files (writeInfo t) = some (.node [] t.kids)) ∧
    (¬ EntriesOk t → ∀ files : Str → Option Str, (∀ f, files f = none) → readInfo files (writeInfo t) = none) := by
  have hk : okKids t.kids ↔ EntriesOk t := by rw [← okTree_kids, okTree_iff]
  constructor
  · intro h files
    unfold readInfo writeInfo
    rw [(readKids_write files 101 t.kids).1 (hk.2 h)]; rfl
  · intro h files hf
    unfold readInfo writeInfo
    rw [(readKids_write files 101 t.kids).2 (fun h' => h (hk.1 h')) hf]; rfl

/-- **C157, what holds** `save` to a file whose name ends in `.info` and `load` of that file give the tree back if its root has no datum
and its entries survive; if an entry does not survive (and there are no files to include) `save` succeeds and `load` throws, leaving the tree that
is loaded into as it was. -/
theorem C157_save_load_partial (F : Formats) (files : Str → Option Str) (hw : F.write .info = fun t => some (writeInfo t))
    (hr : F.read .info = readInfo files) (junk : Str) (d : Disk) (path : Str) (hp : ".info".toList <:+ path) (hd : d.writable path = true)
    (t t0 : Tree) :
    (EntriesOk t → t.data = [] → (save F junk d path t).1 = none ∧ load F (save F junk d path t).2 path t0 = (none, t)) ∧
    (¬ EntriesOk t → (∀ f, files f = none) →
      (save F junk d path t).1 = none ∧ load F (save F junk d path t).2 path t0 = (some .parser, t0)) := by
  have hroot : t.data = [] → Tree.node [] t.kids = t := by
    cases t; intro h; simp only [Tree.data] at h; subst h; rfl
  constructor
  · intro h h0
    refine (C95_save_load F junk d path t t0).1 .info (writeInfo t) hp hd (by rw [hw]) ?_
    rw [hr, (C157_read_written_partial t).1 h files, hroot h0]
  · intro h hf
    have hfm : formatOf path = some .info := ((C95_format path).1 .info).2 hp
    have hrn : F.read .info (writeInfo t) = none := by rw [hr]; exact (C157_read_written_partial t).2 h files hf
    have hwn : F.write .info t = some (writeInfo t) := by rw [hw]
    simp [save, load, hfm, hd, hwn, hrn]

/-- the line of a key `#include` whose datum needs quotation marks is the directive -/
theorem lineStep_include (name : Str) (h0 : name ≠ []) (hq : ¬ Bare name) (leaf : Bool) (inc : Str → Option (List (Key × Tree))) (p : RS)
    (ks : List (Key × Tree)) (hi : inc name = some ks) :
    lineStep inc p (keyLine 0 "#include".toList name leaf) = some { p with top := { p.top with kids := p.top.kids ++ ks } } := by
  have hs : isSimple (createEscapes name) = false := by
    rw [← Bool.not_eq_true, simple_create]; exact hq
  have hline : keyLine 0 "#include".toList name leaf = '#' :: ("include".toList ++ ' ' :: '"' :: (createEscapes name ++ ['"'])) := by
    have h1 : quoted (createEscapes "#include".toList) = "#include".toList := by decide
    simp only [keyLine, h1, dataPart, if_pos h0, quoted, hs]
    rfl
  have hinc : includeName ("include".toList ++ ' ' :: '"' :: (createEscapes name ++ ['"'])) = some name := by
    have hrw := readWord_bare (s := "include".toList) (by decide) (' ' :: '"' :: (createEscapes name ++ ['"'])) (by simp; decide)
    have h1 : createEscapes "include".toList = "include".toList := by decide
    rw [h1] at hrw
    unfold includeName
    have h2 : ("include".toList ++ ' ' :: '"' :: (createEscapes name ++ ['"'])).dropWhile isSpaceC =
        "include".toList ++ ' ' :: '"' :: (createEscapes name ++ ['"']) := by
      rw [show "include".toList = 'i' :: "nclude".toList from by decide, List.cons_append, List.dropWhile_cons, if_neg (by decide)]
    rw [h2, hrw]
    simp only [if_true]
    rw [List.dropWhile_cons, if_pos (by decide), List.dropWhile_cons, if_neg (by decide)]
    simp only
    rw [readString_key name []]
    simp
  unfold lineStep
  rw [takeWhile_nonul _ fun c hc => (keyLine_mem hc).2]
  have : (keyLine 0 "#include".toList name leaf).dropWhile isSpaceC =
      '#' :: ("include".toList ++ ' ' :: '"' :: (createEscapes name ++ ['"'])) := by
    rw [hline, List.dropWhile_cons, if_neg (by decide)]
  simp only [this, hinc, Option.bind_some, hi, Option.map_some]

/-- **C157, what goes wrong** A key `#include` is read as the directive: if its datum needs quotation marks and names a readable file, the
entries of that file appear instead of the entry that was saved. -/
theorem C157_include (files : Str → Option Str) (name content : Str) (h0 : name ≠ []) (hq : ¬ Bare name) (hf : files name = some content)
    (ks : List (Key × Tree)) (hr : readKids files 100 content = some ks) :
    readInfo files (writeInfo (.node [] [("#include".toList, .node name [])])) = some (.node [] ks) := by
  have htext : writeInfo (.node [] [("#include".toList, .node name [])]) =
      keyLine 0 "#include".toList name true ++ '\n' :: [] := by
    simp [writeInfo, Tree.kids, writeKids, writeNode, keyLine]
  have hnl : '\n' ∉ keyLine 0 "#include".toList name true := fun h => (keyLine_mem h).1 rfl
  unfold readInfo
  rw [htext, show (101 : Nat) = 100 + 1 from rfl, readKids, readText]
  have := feed_line (fun n => (files n).bind (readKids files 100)) ⟨⟨[], [], [], []⟩, [], none, .key⟩
    (keyLine 0 "#include".toList name true) [] hnl
  unfold feed at this
  rw [this, lineStep_include name h0 hq true _ _ ks (by simp [hf, hr])]
  simp [linesStep, lineStep, readLine]

/-- **C157, what goes wrong** If the key `#include` has children and an entry precedes it, these children are read as children of that
entry, and the entries of the file follow it. -/
theorem C157_include_children (files : Str → Option Str) (name content : Str) (h0 : name ≠ []) (hq : ¬ Bare name)
    (hf : files name = some content) (ks : List (Key × Tree)) (hr : readKids files 100 content = some ks)
    (k : Key) (d : Str) (hk : EntryOk k d) (cs : List (Key × Tree)) (hc : cs ≠ []) (hcs : EntriesOk (.node [] cs)) :
    readInfo files (writeInfo (.node [] [(k, .node d []), ("#include".toList, .node name cs)])) =
      some (.node [] ((k, .node d cs) :: ks)) := by
  have hcs' : okKids cs := by
    have := (okTree_iff (.node [] cs)).2 hcs
    rwa [okTree_kids] at this
  have hemp : cs.isEmpty = false := by cases cs <;> simp_all
  have htext : writeInfo (.node [] [(k, .node d []), ("#include".toList, .node name cs)]) =
      keyLine 0 k d true ++ '\n' :: (keyLine 0 "#include".toList name false ++ '\n' :: (indent 0 ++ ['{'] ++ '\n' ::
        (writeKids 1 cs ++ (indent 0 ++ ['}'] ++ '\n' :: [])))) := by
    cases cs with
    | nil => exact absurd rfl hc
    | cons c cs => simp [writeInfo, Tree.kids, writeKids, writeNode, keyLine]
  have hnl : ∀ k d leaf, '\n' ∉ keyLine 0 k d leaf := fun _ _ _ h => (keyLine_mem h).1 rfl
  have hno : '\n' ∉ indent 0 ++ ['{'] := by decide
  have hnc : '\n' ∉ indent 0 ++ ['}'] := by decide
  unfold readInfo
  rw [htext, show (101 : Nat) = 100 + 1 from rfl, readKids, readText]
  generalize hinc : (fun n => (files n).bind (readKids files 100)) = inc
  have hi : inc name = some ks := by rw [← hinc]; simp [hf, hr]
  have e1 := feed_line inc ⟨⟨[], [], [], []⟩, [], none, .key⟩ (keyLine 0 k d true) (keyLine 0 "#include".toList name false ++ '\n' ::
    (indent 0 ++ ['{'] ++ '\n' :: (writeKids 1 cs ++ (indent 0 ++ ['}'] ++ '\n' :: [])))) (hnl _ _ _)
  rw [(lineStep_key inc ⟨⟨[], [], [], []⟩, [], none, .key⟩ rfl 0 k d true).1 hk, Option.bind_some] at e1
  have e2 := feed_line inc (RS.added ⟨⟨[], [], [], []⟩, [], none, .key⟩ [(k, .node d [])] (some 0))
    (keyLine 0 "#include".toList name false)
    (indent 0 ++ ['{'] ++ '\n' :: (writeKids 1 cs ++ (indent 0 ++ ['}'] ++ '\n' :: []))) (hnl _ _ _)
  rw [lineStep_include name h0 hq false _ _ ks hi, Option.bind_some] at e2
  have hopen : lineStep inc ⟨⟨[], [], (k, .node d []) :: ks, []⟩, [], some 0, .key⟩ (indent 0 ++ ['{']) =
      some ⟨⟨k, d, [], ks⟩, [⟨[], [], [], []⟩], none, .key⟩ := by
    simp [lineStep, indent, readLine, token, RS.open, isSpaceC, Tree.data, Tree.kids]
  have hst : ({ (RS.added ⟨⟨[], [], [], []⟩, [], none, .key⟩ [(k, .node d [])] (some 0)) with
      top := { (RS.added ⟨⟨[], [], [], []⟩, [], none, .key⟩ [(k, .node d [])] (some 0)).top with
        kids := (RS.added ⟨⟨[], [], [], []⟩, [], none, .key⟩ [(k, .node d [])] (some 0)).top.kids ++ ks } } : RS) =
      ⟨⟨[], [], (k, .node d []) :: ks, []⟩, [], some 0, .key⟩ := by simp [RS.added]
  rw [hst] at e2
  have e3 := feed_line inc ⟨⟨[], [], (k, .node d []) :: ks, []⟩, [], some 0, .key⟩ (indent 0 ++ ['{'])
    (writeKids 1 cs ++ (indent 0 ++ ['}'] ++ '\n' :: [])) hno
  rw [hopen, Option.bind_some] at e3
  obtain ⟨l, hl⟩ := (feed_kids inc cs 1 ⟨⟨k, d, [], ks⟩, [⟨[], [], [], []⟩], none, .key⟩ (indent 0 ++ ['}'] ++ '\n' :: []) rfl).1 hcs'
  have e4 := feed_line inc (RS.added ⟨⟨k, d, [], ks⟩, [⟨[], [], [], []⟩], none, .key⟩ cs l) (indent 0 ++ ['}']) [] hnc
  have hclose : lineStep inc (RS.added ⟨⟨k, d, [], ks⟩, [⟨[], [], [], []⟩], none, .key⟩ cs l) (indent 0 ++ ['}']) =
      some ⟨⟨[], [], (k, .node d cs) :: ks, []⟩, [], none, .key⟩ := by
    simp [lineStep, indent, readLine, token, RS.close, RS.added, isSpaceC]
  rw [hclose, Option.bind_some] at e4
  have e := (((e1.trans e2).trans e3).trans hl).trans e4
  unfold feed at e
  rw [e]
  simp [linesStep, lineStep, readLine]

/-- `# comment`-like key -/
def exHash : Tree := .node [] [("#x".toList, .node "1".toList [])]
/-- a quoted key before an escape -/
def exEscape : Tree := .node [] [("my key".toList, .node "\\\\server\\share".toList [])]

theorem exHash_bad : ¬ EntriesOk exHash := fun h =>
  absurd (h "#x".toList (.node "1".toList []) (.child (by simp [exHash, Tree.kids]))) (by simp only [Tree.data]; decide)

theorem exEscape_bad : ¬ EntriesOk exEscape := fun h =>
  absurd (h "my key".toList (.node "\\\\server\\share".toList []) (.child (by simp [exEscape, Tree.kids]))) (by simp only [Tree.data]; decide)

/-- **C157, as claimed, is false**: a key `#x`, a datum `\\server\share` behind the key `my key`, and the datum of the root are lost. -/
theorem C157_negation : ¬ C157_claim ∧ readInfo (fun _ => none) (writeInfo exHash) = none ∧
    readInfo (fun _ => none) (writeInfo exEscape) = none ∧
    readInfo (fun _ => none) (writeInfo (.node "v".toList [])) = some (.node [] []) := by
  refine ⟨fun h => ?_, (C157_read_written_partial exHash).2 exHash_bad _ fun _ => rfl,
    (C157_read_written_partial exEscape).2 exEscape_bad _ fun _ => rfl, ?_⟩
  · have h1 := h (fun _ => none) exHash
    rw [(C157_read_written_partial exHash).2 exHash_bad _ fun _ => rfl] at h1
    exact absurd h1 (by simp)
  · have : EntriesOk (.node "v".toList []) := by
      rw [← okTree_iff]; simp [okTree, okKids]
    exact (C157_read_written_partial _).1 this _

/-- the hypotheses of C157 are met: nested entries, blanks, quotation marks, line breaks and repeated keys come back -/
def exGood : Tree :=
  .node [] [("a".toList, .node "x y".toList [("b c".toList, .node "q\"\n".toList []), ("".toList, .node [] [])]), ("a".toList, .node "\\n".toList [])]

theorem exGood_ok : EntriesOk exGood := by
  rw [← okTree_iff]
  simp only [exGood, okTree, okKids, Tree.data]
  decide

example : exGood.kids.length = 2 ∧ readInfo (fun _ => none) (writeInfo exGood) = some exGood :=
  ⟨rfl, (C157_read_written_partial exGood).1 exGood_ok _⟩

example : writeInfo exGood = "a \"x y\"\n{\n    \"b c\" \"q\\\"\\n\"\n    \"\" \"\"\n}\na \\\\n\n".toList := by decide

/-- an included file: the file `my file` -/
example : readInfo (fun f => if f = "my file".toList then some "secret 1\n".toList else none)
    (writeInfo (.node [] [("#include".toList, .node "my file".toList [])])) = some (.node [] [("secret".toList, .node "1".toList [])]) := by
  have h1 : "secret 1\n".toList = writeKids 0 [("secret".toList, .node "1".toList [])] := by decide
  refine C157_include _ "my file".toList "secret 1\n".toList (by simp) (by decide) (by simp) _ ?_
  rw [h1]
  refine (readKids_write _ 100 _).1 ?_
  simp only [okKids, okTree, Tree.data]
  decide

/-- the children of the key `#include` become those of `a` -/
example : readInfo (fun f => if f = "my file".toList then some "secret 1\n".toList else none)
    (writeInfo (.node [] [("a".toList, .node "x".toList []), ("#include".toList, .node "my file".toList [("b".toList, .node "2".toList [])])])) =
    some (.node [] [("a".toList, .node "x".toList [("b".toList, .node "2".toList [])]), ("secret".toList, .node "1".toList [])]) := by
  have h1 : "secret 1\n".toList = writeKids 0 [("secret".toList, .node "1".toList [])] := by decide
  refine C157_include_children _ "my file".toList "secret 1\n".toList (by simp) (by decide) (by simp) _ ?_ _ _ (by decide) _ (by simp) ?_
  · rw [h1]
    refine (readKids_write _ 100 _).1 ?_
    simp only [okKids, okTree, Tree.data]
    decide
  · rw [← okTree_iff]
    simp only [okTree, okKids, Tree.data]
    decide

/-! ## The reader for texts without quotation marks (C94) -/

/-- the state of the reader for texts without quotation marks as a state of the full reader -/
def ofPS (p : PS) : RS :=
  ⟨⟨p.top.key, p.top.data, p.top.kids, []⟩, p.below.map fun f => ⟨f.key, f.data, f.kids, []⟩,
    if p.last then some (p.top.kids.length - 1) else none, if p.expectData then .data else .key⟩

/-- `last` points to a child, and data can only follow a key -/
def PSok (p : PS) : Prop := (p.last = true → p.top.kids ≠ []) ∧ (p.expectData = true → p.last = true)

theorem ofPS_push (p : PS) (k : Key) (hp : p.expectData = false) : (ofPS p).push k = ofPS (p.push k) ∧ PSok (p.push k) := by
  constructor
  · simp [ofPS, RS.push, PS.push]
  · simp [PSok, PS.push]

theorem ofPS_setData (p : PS) (d : Str) (hi : PSok p) (hp : p.expectData = true) :
    (ofPS p).setData (fun _ => d) false = ofPS (p.setData d) ∧ PSok (p.setData d) := by
  have hl := hi.2 hp
  have hk := hi.1 hl
  obtain ⟨a, x, hx⟩ : ∃ a x, p.top.kids = a ++ [x] := ⟨p.top.kids.dropLast, p.top.kids.getLast hk, (List.dropLast_concat_getLast hk).symm⟩
  have hm : ∀ (l : List (Key × Tree)) (x : Key × Tree) (f : Key × Tree → Key × Tree), (l ++ [x]).modify l.length f = l ++ [f x] := by
    intro l x f
    induction l with
    | nil => rfl
    | cons a l ih => simp [ih]
  obtain ⟨k, t⟩ := x
  constructor
  · simp [ofPS, RS.setData, PS.setData, hl, hx, hm]
  · simp [PSok, PS.setData, hx]

theorem ofPS_open (p : PS) (hi : PSok p) : (ofPS p).open = p.openLast.map ofPS ∧ ∀ q, p.openLast = some q → PSok q := by
  by_cases hl : p.last = true
  · have hk := hi.1 hl
    obtain ⟨a, x, hx⟩ : ∃ a x, p.top.kids = a ++ [x] := ⟨p.top.kids.dropLast, p.top.kids.getLast hk, (List.dropLast_concat_getLast hk).symm⟩
    obtain ⟨k, t⟩ := x
    constructor
    · simp [ofPS, RS.open, PS.openLast, hl, hx]
    · intro q hq
      simp [PS.openLast, hl, hx] at hq
      subst hq
      simp [PSok]
  · rw [Bool.not_eq_true] at hl
    constructor
    · simp [ofPS, RS.open, PS.openLast, hl]
    · intro q hq; simp [PS.openLast, hl] at hq

theorem ofPS_close (p : PS) : (ofPS p).close = p.close.map ofPS ∧ ∀ q, p.close = some q → PSok q := by
  cases hb : p.below with
  | nil => simp [ofPS, RS.close, PS.close, hb]
  | cons f fs =>
    constructor
    · simp [ofPS, RS.close, PS.close, hb]
    · intro q hq
      simp [PS.close, hb] at hq
      subst hq
      simp [PSok]

theorem readLine_ofPS : ∀ (n : Nat) (p : PS) (s : Str), PSok p → '"' ∉ s → s.length ≤ n →
    readLine n (ofPS p) s = (parseLine p s).map ofPS ∧ ∀ q, parseLine p s = some q → PSok q := by
  have hend : ∀ p : PS, PSok p → ({ ofPS p with st := if (ofPS p).st = .data then .key else (ofPS p).st } : RS) =
      ofPS { p with expectData := false } ∧ PSok { p with expectData := false } := by
    intro p hp
    refine ⟨?_, hp.1, by simp⟩
    by_cases h : p.expectData = true <;> simp [ofPS, h]
  intro n
  induction n with
  | zero =>
    intro p s hp _ hl
    have : s = [] := List.length_eq_zero_iff.1 (by omega)
    subst this
    rw [parseLine_blank, readLine]
    simp only [List.dropWhile_nil, (hend p hp).1, Option.map_some, true_and]
    intro q hq; cases hq; exact (hend p hp).2
  | succ n ih =>
    intro p s hp hq hl
    cases hs : s.dropWhile isSpaceC with
    | nil =>
      rw [parseLine_end hs, readLine]
      simp only [hs, (hend p hp).1, Option.map_some, true_and]
      intro q hq; cases hq; exact (hend p hp).2
    | cons c r =>
      have hsuf : (c :: r) <:+ s := hs ▸ List.dropWhile_suffix isSpaceC
      have hlen : r.length + 1 ≤ s.length := by simpa using hsuf.length_le
      have hrq : '"' ∉ r := fun h => hq (hsuf.subset (by simp [h]))
      have hcq : c ≠ '"' := by rintro rfl; exact hq (hsuf.subset (by simp))
      have hcs : isSpaceC c = false := by
        have := List.head_dropWhile_not isSpaceC (l := s) (by rw [hs]; simp)
        simpa [hs] using this
      rw [parseLine_tok hs]
      by_cases hc : c = ';'
      · subst hc
        rw [readLine]
        simp only [hs, if_true, (hend p hp).1, Option.map_some, true_and]
        intro q hq; cases hq; exact (hend p hp).2
      · rw [readLine_tok hs hc, if_neg hc]
        have hst : (ofPS p).st = .data ∨ (ofPS p).st = .key := by
          by_cases h : p.expectData = true <;> simp [ofPS, h]
        by_cases ho : c = '{'
        · subst ho
          have htok : token (ofPS p) '{' r = (ofPS p).open.map fun q => (q, r) := by
            rcases hst with h | h <;> simp [token, h]
          rw [htok, (ofPS_open p hp).1, if_pos rfl]
          cases hop : p.openLast with
          | none => simp
          | some q =>
            simp only [Option.map_some, Option.bind_some]
            exact ih q r ((ofPS_open p hp).2 q hop) hrq (by omega)
        · rw [if_neg ho]
          by_cases hcl : c = '}'
          · subst hcl
            have htok : token (ofPS p) '}' r = (ofPS p).close.map fun q => (q, r) := by
              rcases hst with h | h <;> simp [token, h]
            rw [htok, (ofPS_close p).1, if_pos rfl]
            cases hop : p.close with
            | none => simp
            | some q =>
              simp only [Option.map_some, Option.bind_some]
              exact ih q r ((ofPS_close p).2 q hop) hrq (by omega)
          · rw [if_neg hcl]
            have hwc : (!endsWord c) = true := by simp [endsWord, hcs, hc]
            have hword : readWord (c :: r) = (expandEscapes (c :: r.takeWhile (!endsWord ·))).map fun w => (w, r.dropWhile (!endsWord ·)) := by
              unfold readWord
              rw [List.takeWhile_cons, if_pos hwc, List.dropWhile_cons, if_pos hwc]
            have hrest : (r.dropWhile (!endsWord ·)) <:+ r := List.dropWhile_suffix _
            have hrest2 := hrest.length_le
            have hrest3 : '"' ∉ r.dropWhile (!endsWord ·) := fun h => hrq (hrest.subset h)
            by_cases hex : p.expectData = true
            · have htok : token (ofPS p) c r = (readWord (c :: r)).map fun x => ((ofPS p).setData (fun _ => x.1) false, x.2) := by
                have : (ofPS p).st = .data := by simp [ofPS, hex]
                simp [token, this, ho, hcl, hcq]
              rw [htok, hword]
              cases hw : expandEscapes (c :: r.takeWhile (!endsWord ·)) with
              | none => simp
              | some w =>
                simp only [Option.map_some, Option.bind_some, hex, if_true]
                rw [(ofPS_setData p w hp hex).1]
                exact ih _ _ (ofPS_setData p w hp hex).2 hrest3 (by omega)
            · rw [Bool.not_eq_true] at hex
              have htok : token (ofPS p) c r = (readWord (c :: r)).map fun x => ((ofPS p).push x.1, x.2) := by
                have : (ofPS p).st = .key := by simp [ofPS, hex]
                simp [token, this, ho, hcl, hcq]
              rw [htok, hword]
              cases hw : expandEscapes (c :: r.takeWhile (!endsWord ·)) with
              | none => simp
              | some w =>
                simp only [Option.map_some, Option.bind_some, hex, Bool.false_eq_true, if_false]
                rw [(ofPS_push p w hex).1]
                exact ih _ _ (ofPS_push p w hex).2 hrest3 (by omega)

theorem includeName_noquote (r : Str) (h : '"' ∉ r) : includeName r = none := by
  unfold includeName readWord
  cases hw : expandEscapes ((r.dropWhile isSpaceC).takeWhile (!endsWord ·)) with
  | none => rfl
  | some w =>
    simp only [Option.map_some]
    split
    · have hsuf : (((r.dropWhile isSpaceC).dropWhile (!endsWord ·)).dropWhile isSpaceC) <:+ r :=
        (List.dropWhile_suffix _).trans ((List.dropWhile_suffix _).trans (List.dropWhile_suffix _))
      split
      · rename_i r2 heq
        rw [heq] at hsuf
        exact absurd (hsuf.subset (by simp)) h
      · rfl
    · rfl

theorem lineStep_ofPS (inc : Str → Option (List (Key × Tree))) (p : PS) (l : Str) (hp : PSok p) (hq : '"' ∉ l) :
    lineStep inc (ofPS p) l = (parseOne p l).map ofPS ∧ ∀ q, parseOne p l = some q → PSok q := by
  have hsub : '"' ∉ l.takeWhile (· ≠ Char.ofNat 0) := fun h => hq ((List.takeWhile_prefix _).subset h)
  unfold lineStep parseOne
  simp only
  generalize l.takeWhile (· ≠ Char.ofNat 0) = m at hsub
  cases hm : m.dropWhile isSpaceC with
  | nil =>
    simp only [List.head?_nil, reduceCtorEq, if_false]
    exact readLine_ofPS _ p m hp hsub (Nat.le_refl _)
  | cons c r =>
    by_cases hc : c = '#'
    · subst hc
      have : '"' ∉ r := by
        have hsuf : ('#' :: r) <:+ m := hm ▸ List.dropWhile_suffix isSpaceC
        exact fun h => hsub (hsuf.subset (by simp [h]))
      simp [includeName_noquote r this]
    · simp only [List.head?_cons, Option.some.injEq, hc, if_false]
      split
      · simp_all
      · exact readLine_ofPS _ p m hp hsub (Nat.le_refl _)

theorem linesStep_ofPS (inc : Str → Option (List (Key × Tree))) : ∀ (ls : List Str) (p : PS), PSok p → (∀ l ∈ ls, '"' ∉ l) →
    linesStep inc (ofPS p) ls = (parseLines p ls).map ofPS
  | [], p, _, _ => rfl
  | l :: ls, p, hp, h => by
    have h1 := lineStep_ofPS inc p l hp (h l (by simp))
    simp only [linesStep, parseLines, h1.1]
    cases hl : parseOne p l with
    | none => rfl
    | some q => exact linesStep_ofPS inc ls q (h1.2 q hl) fun m hm => h m (by simp [hm])

theorem splitOn_mem : ∀ (n : Nat) (s : Str), s.length ≤ n → ∀ l ∈ s.splitOn '\n', ∀ c ∈ l, c ∈ s := by
  intro n
  induction n with
  | zero =>
    intro s hs l hl c hc
    have : s = [] := List.length_eq_zero_iff.1 (by omega)
    subst this
    rw [List.splitOn_eq_singleton (by simp)] at hl
    simp at hl; subst hl; exact hc
  | succ n ih =>
    intro s hs l hl c hc
    by_cases h : '\n' ∈ s
    · obtain ⟨a, b, rfl⟩ := List.append_of_mem h
      rw [List.splitOn_append_cons_self] at hl
      rw [List.length_append, List.length_cons] at hs
      rcases List.mem_append.1 hl with hl | hl
      · exact List.mem_append_left _ (ih a (by omega) l hl c hc)
      · exact List.mem_append_right _ (List.mem_cons_of_mem _ (ih b (by omega) l hl c hc))
    · rw [List.splitOn_eq_singleton h] at hl
      simp at hl; subst hl; exact hc

/-- **C94** The reader that C94 is stated with is boost's: for texts without quotation marks — the only ones `loadString` passes on — both
give the same result, whatever files there are. -/
theorem C94_reader (files : Str → Option Str) (s : Str) (h : '"' ∉ s) : readInfo files s = Verif.PTree.readInfo s := by
  have key : ∀ inc : Str → Option (List (Key × Tree)), readText inc s = (Verif.PTree.readInfo s).map Tree.kids := by
    intro inc
    unfold readText Verif.PTree.readInfo
    have h1 := linesStep_ofPS inc (s.splitOn '\n') ⟨⟨[], [], []⟩, [], false, false⟩ (by simp [PSok])
      (fun l hl hc => h (splitOn_mem _ s (Nat.le_refl _) l hl _ hc))
    have h2 : ofPS ⟨⟨[], [], []⟩, [], false, false⟩ = ⟨⟨[], [], [], []⟩, [], none, .key⟩ := rfl
    rw [h2] at h1
    rw [h1]
    cases parseLines ⟨⟨[], [], []⟩, [], false, false⟩ (s.splitOn '\n') with
    | none => rfl
    | some q =>
      obtain ⟨f, b, l, e⟩ := q
      cases b <;> simp [ofPS, Tree.kids]
  unfold readInfo
  rw [show (101 : Nat) = 100 + 1 from rfl, readKids, key]
  unfold Verif.PTree.readInfo
  split <;> simp [Tree.kids]

example : readInfo (fun _ => some "x".toList) "a 1\n{ b 2\n}".toList = Verif.PTree.readInfo "a 1\n{ b 2\n}".toList :=
  C94_reader _ _ (by decide)

end Verif.PTree.InfoFile
