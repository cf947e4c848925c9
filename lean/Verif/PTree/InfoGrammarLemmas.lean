import Verif.PTree.InfoGrammar
import Mathlib.Data.List.TakeWhile

/-!
# The lexical part of the INFO reader and the grammar
-/

namespace Verif.PTree.InfoFile

open Verif.PTree

theorem white_iff (c : Char) : isSpaceC c = true ↔ White c := by
  unfold isSpaceC White
  simp only [Bool.or_eq_true, decide_eq_true_eq]
  tauto

theorem ends_iff (c : Char) : endsWord c = true ↔ White c ∨ c = ';' := by
  unfold endsWord
  rw [Bool.or_eq_true, white_iff, decide_eq_true_eq]

theorem not_white {c : Char} (h : ¬ White c) : isSpaceC c = false := by
  rw [← white_iff] at h; simpa using h

theorem skip_blank : ∀ {w : Str} (_ : Blank w) (s : Str), (w ++ s).dropWhile isSpaceC = s.dropWhile isSpaceC
  | [], _, s => rfl
  | c :: w, h, s => by
    have hc : isSpaceC c = true := (white_iff c).2 (h c (by simp))
    rw [List.cons_append, List.dropWhile_cons_of_pos hc]
    exact skip_blank (fun d hd => h d (by simp [hd])) s

theorem skip_stop {w : Str} (hw : Blank w) {c : Char} (hc : ¬ White c) (s : Str) : (w ++ c :: s).dropWhile isSpaceC = c :: s := by
  rw [skip_blank hw, List.dropWhile_cons_of_neg (by rw [not_white hc]; simp)]

theorem skip_all {w : Str} (hw : Blank w) : w.dropWhile isSpaceC = [] := by
  have := skip_blank hw []
  rw [List.append_nil] at this
  rw [this]; rfl

/-- splitting off the blanks -/
theorem blank_split (s : Str) : ∃ w r, Blank w ∧ s = w ++ r ∧ s.dropWhile isSpaceC = r ∧ (∀ c ∈ r.head?, ¬ White c) := by
  refine ⟨s.takeWhile isSpaceC, s.dropWhile isSpaceC, ?_, (List.takeWhile_append_dropWhile).symm, rfl, ?_⟩
  · intro c hc
    exact (white_iff c).1 (List.mem_takeWhile_imp hc)
  · intro c hc h
    have := List.head?_dropWhile_not isSpaceC s
    rw [Option.mem_def] at hc
    rw [hc] at this
    simp only [] at this
    rw [(white_iff c).2 h] at this
    simp at this

theorem rest_skip {s : Str} (h : Rest s) : s.dropWhile isSpaceC = [] ∨ ∃ r, s.dropWhile isSpaceC = ';' :: r := by
  rcases h with h | ⟨w, r, hw, rfl⟩
  · exact Or.inl (skip_all h)
  · exact Or.inr ⟨r, skip_stop hw (by simp [White]) r⟩

theorem rest_of_skip {s : Str} (h : s.dropWhile isSpaceC = [] ∨ ∃ r, s.dropWhile isSpaceC = ';' :: r) : Rest s := by
  obtain ⟨w, r, hw, hs, hr, -⟩ := blank_split s
  rcases h with h | ⟨r', h⟩
  · rw [hr] at h; subst h; rw [List.append_nil] at hs; exact Or.inl (hs ▸ hw)
  · rw [hr] at h; subst h; exact Or.inr ⟨w, r', hw, hs⟩

/-! ## escapes -/

theorem expand_spells {ok : Char → Prop} {raw v : Str} (h : Spells ok raw v) : expandEscapes raw = some v := by
  induction h with
  | nil => rfl
  | @plain c r v hc _ _ ih => rw [expandEscapes.eq_4 c r (by intro d r' h; exact absurd h hc) (by intro h; exact absurd h hc)]; rw [ih]; rfl
  | @esc d c r v hd _ ih =>
    simp only [escapes, List.mem_cons, Prod.mk.injEq, List.not_mem_nil, or_false] at hd
    rcases hd with h | h | h | h | h | h | h | h | h | h | h <;> obtain ⟨rfl, rfl⟩ := h <;> simp [expandEscapes, ih]

/-- the code's table of escapes -/
theorem escape_table {d e : Char} (h : (if d = '0' then some (Char.ofNat 0) else if d = 'a' then some (Char.ofNat 7) else if d = 'b' then some (Char.ofNat 8)
      else if d = 'f' then some (Char.ofNat 12) else if d = 'n' then some '\n' else if d = 'r' then some '\r'
      else if d = 't' then some '\t' else if d = 'v' then some (Char.ofNat 11) else if d = '"' then some '"'
      else if d = '\'' then some '\'' else if d = '\\' then some '\\' else none) = some e) : (d, e) ∈ escapes := by
  simp only [escapes, List.mem_cons, Prod.mk.injEq, List.not_mem_nil, or_false]
  repeat' (split at h; · (simp only [Option.some.injEq] at h; subst h; simp_all))
  cases h

theorem spells_word : ∀ (n : Nat) {raw v : Str} {ok : Char → Prop}, raw.length ≤ n → (∀ c ∈ raw, ok c) → expandEscapes raw = some v → Spells ok raw v
  | _, [], v, ok, _, _, h => by
    simp only [expandEscapes, Option.some.injEq] at h
    subst h; exact .nil
  | 0, _ :: _, _, _, hl, _, _ => by simp at hl
  | n + 1, c :: r, v, ok, hl, ho, h => by
    simp only [List.length_cons] at hl
    by_cases hc : c = '\\'
    · subst hc
      cases r with
      | nil => simp [expandEscapes] at h
      | cons d r =>
        rw [expandEscapes, Option.bind_eq_some_iff] at h
        obtain ⟨e, h1, h2⟩ := h
        rw [Option.map_eq_some_iff] at h2
        obtain ⟨v', h2, rfl⟩ := h2
        simp only [List.length_cons] at hl
        exact .esc (escape_table h1) (spells_word n (by omega) (fun c hc => ho c (by simp [hc])) h2)
    · rw [expandEscapes.eq_4 c r (by intro d r' h; exact absurd h hc) (by intro h; exact absurd h hc), Option.map_eq_some_iff] at h
      obtain ⟨v', h2, rfl⟩ := h
      exact .plain hc (ho c (by simp)) (spells_word n (by omega) (fun c hc => ho c (by simp [hc])) h2)

theorem spells_mem {ok : Char → Prop} (hok : ∀ p ∈ escapes, ok p.1) (hb : ok '\\') {raw v : Str} (h : Spells ok raw v) : ∀ c ∈ raw, ok c := by
  induction h with
  | nil => simp
  | plain _ ho _ ih => intro c hc; rcases List.mem_cons.1 hc with rfl | hc; exacts [ho, ih c hc]
  | @esc d c r v hd _ ih =>
    intro x hx
    rcases List.mem_cons.1 hx with rfl | hx
    · exact hb
    · rcases List.mem_cons.1 hx with rfl | hx
      exacts [hok _ hd, ih x hx]

theorem scan_spells {raw v : Str} (h : Spells (· ≠ '"') raw v) (s : Str) : scanString false (raw ++ '"' :: s) = some (raw, s) := by
  induction h with
  | nil => simp [scanString]
  | @plain c r v hc ho _ ih => simp [scanString, hc, ho, ih]
  | @esc d c r v hd _ ih => simp [scanString, ih]

theorem scan_some : ∀ (n : Nat) {t e r v : Str}, t.length ≤ n → scanString false t = some (e, r) → expandEscapes e = some v → t = e ++ '"' :: r ∧ Spells (· ≠ '"') e v
  | _, [], _, _, _, _, h, _ => by simp [scanString] at h
  | 0, _ :: _, _, _, _, hl, _, _ => by simp at hl
  | n + 1, c :: t, e, r, v, hl, h, hv => by
    simp only [List.length_cons] at hl
    by_cases hq : c = '"'
    · subst hq
      simp only [scanString, Bool.not_false, Bool.true_and, decide_true, if_true, Option.some.injEq, Prod.mk.injEq] at h
      obtain ⟨rfl, rfl⟩ := h
      simp only [expandEscapes, Option.some.injEq] at hv
      subst hv
      exact ⟨rfl, .nil⟩
    · rw [scanString, if_neg (by simp [hq]), Option.map_eq_some_iff] at h
      obtain ⟨⟨e', r'⟩, h, he⟩ := h
      simp only [Prod.mk.injEq] at he
      obtain ⟨rfl, rfl⟩ := he
      by_cases hc : c = '\\'
      · subst hc
        cases t with
        | nil => simp [scanString] at h
        | cons d t =>
          simp only [Bool.not_false, Bool.true_and, decide_true] at h
          rw [scanString, if_neg (by simp), Option.map_eq_some_iff] at h
          obtain ⟨⟨e'', r''⟩, h, he⟩ := h
          simp only [Prod.mk.injEq] at he
          obtain ⟨rfl, rfl⟩ := he
          rw [expandEscapes, Option.bind_eq_some_iff] at hv
          obtain ⟨x, h1, h2⟩ := hv
          rw [Option.map_eq_some_iff] at h2
          obtain ⟨v', h2, rfl⟩ := h2
          simp only [List.length_cons] at hl
          obtain ⟨k1, k2⟩ := scan_some n (t := t) (by omega) (by simpa using h) h2
          exact ⟨by rw [k1]; rfl, .esc (escape_table h1) k2⟩
      · rw [expandEscapes.eq_4 c e' (by intro d r' h; exact absurd h hc) (by intro h; exact absurd h hc), Option.map_eq_some_iff] at hv
        obtain ⟨v', h2, rfl⟩ := hv
        obtain ⟨k1, k2⟩ := scan_some n (t := t) (by omega) (by simpa [hc] using h) h2
        exact ⟨by rw [k1]; rfl, .plain hc hq k2⟩

/-! ## words -/

theorem spells_notEnds {raw v : Str} (h : Spells (fun c => ¬ White c ∧ c ≠ ';') raw v) : ∀ c ∈ raw, endsWord c = false := by
  intro c hc
  have := spells_mem (by simp only [escapes]; intro p hp; simp only [List.mem_cons, List.not_mem_nil, or_false] at hp
                         rcases hp with rfl | rfl | rfl | rfl | rfl | rfl | rfl | rfl | rfl | rfl | rfl <;> simp [White]) (by simp [White]) h c hc
  have h' := (not_congr (ends_iff c)).2 (by tauto)
  simpa using h'

theorem takeWhile_word {raw s : Str} (h : ∀ c ∈ raw, endsWord c = false) (hs : ∀ c ∈ s.head?, White c ∨ c = ';') :
    (raw ++ s).takeWhile (!endsWord ·) = raw ∧ (raw ++ s).dropWhile (!endsWord ·) = s := by
  induction raw with
  | nil =>
    cases s with
    | nil => simp
    | cons c s =>
      have := (ends_iff c).2 (hs c (by simp))
      simp [this]
  | cons c r ih =>
    have hc := h c (by simp)
    obtain ⟨i1, i2⟩ := ih (fun d hd => h d (by simp [hd]))
    simp [hc, i1, i2]

theorem readWord_spells {raw v s : Str} (h : Spells (fun c => ¬ White c ∧ c ≠ ';') raw v) (hs : ∀ c ∈ s.head?, White c ∨ c = ';') :
    readWord (raw ++ s) = some (v, s) := by
  obtain ⟨h1, h2⟩ := takeWhile_word (spells_notEnds h) hs
  rw [readWord, h1, h2, expand_spells h]
  rfl

theorem readWord_some {t v s : Str} (h : readWord t = some (v, s)) :
    ∃ raw, t = raw ++ s ∧ Spells (fun c => ¬ White c ∧ c ≠ ';') raw v ∧ (∀ c ∈ s.head?, White c ∨ c = ';') ∧ (∀ c ∈ t.head?, endsWord c = false → raw ≠ []) := by
  rw [readWord, Option.map_eq_some_iff] at h
  obtain ⟨w, h, he⟩ := h
  simp only [Prod.mk.injEq] at he
  obtain ⟨rfl, rfl⟩ := he
  refine ⟨t.takeWhile (!endsWord ·), (List.takeWhile_append_dropWhile).symm, spells_word _ (Nat.le_refl _) ?_ h, ?_, ?_⟩
  · intro c hc
    have := List.mem_takeWhile_imp hc
    have h2 := (not_congr (ends_iff c)).1 (by simpa using this)
    tauto
  · intro c hc
    have := List.head?_dropWhile_not (!endsWord ·) t
    rw [Option.mem_def] at hc
    rw [hc] at this
    exact (ends_iff c).1 (by simpa using this)
  · intro c hc he
    cases t with
    | nil => simp at hc
    | cons d t =>
      simp only [List.head?_cons, Option.mem_def, Option.some.injEq] at hc
      subst hc
      simp [he]

/-! ## strings -/

theorem readString_str (m : Bool) {raw v s : Str} (h : Spells (· ≠ '"') raw v) (hs : ∀ b r, Blank b → s ≠ b ++ '\\' :: r) :
    readString m (raw ++ '"' :: s) = some (v, false, s.dropWhile isSpaceC) := by
  rw [readString, scan_spells h s]
  simp only [expand_spells h]
  split
  · rename_i r' he
    obtain ⟨w, r, hw, h1, h2, -⟩ := blank_split s
    rw [h2] at he
    subst he
    exact absurd h1 (hs w r' hw)
  · rfl

theorem readString_part {raw v b s : Str} (h : Spells (· ≠ '"') raw v) (hb : Blank b) (hs : Rest s) :
    ∃ r, Rest r ∧ readString true (raw ++ '"' :: (b ++ '\\' :: s)) = some (v, true, r) ∧ readString false (raw ++ '"' :: (b ++ '\\' :: s)) = none := by
  have h1 : (b ++ '\\' :: s).dropWhile isSpaceC = '\\' :: s := skip_stop hb (by simp [White]) s
  rcases rest_skip hs with h2 | ⟨r, h2⟩
  · refine ⟨[], Or.inl (by simp [Blank]), ?_, ?_⟩
    · simp only [readString, scan_spells h, expand_spells h, h1, if_true, h2]
    · simp [readString, scan_spells h, expand_spells h, h1]
  · refine ⟨';' :: r, Or.inr ⟨[], r, by simp [Blank], rfl⟩, ?_, ?_⟩
    · simp only [readString, scan_spells h, expand_spells h, h1, if_true, h2]
    · simp [readString, scan_spells h, expand_spells h, h1]

theorem readString_some {m more : Bool} {t v r : Str} (h : readString m t = some (v, more, r)) :
    ∃ raw s, t = raw ++ '"' :: s ∧ Spells (· ≠ '"') raw v ∧
      ((more = false ∧ r = s.dropWhile isSpaceC ∧ ∀ b r, Blank b → s ≠ b ++ '\\' :: r) ∨
       (m = true ∧ more = true ∧ Rest r ∧ ∃ b s', Blank b ∧ s = b ++ '\\' :: s' ∧ Rest s')) := by
  unfold readString at h
  split at h
  · cases h
  · rename_i e s hsc
    split at h
    · cases h
    · rename_i w hw
      obtain ⟨h1, h2⟩ := scan_some _ (Nat.le_refl _) hsc hw
      obtain ⟨b, u, hb, hs, hd, hu⟩ := blank_split s
      split at h
      · rename_i s' hs'
        split at h
        · rename_i hm
          subst hm
          rw [hd] at hs'
          subst hs'
          split at h
          · rename_i h0
            simp only [Option.some.injEq, Prod.mk.injEq] at h
            obtain ⟨rfl, rfl, rfl⟩ := h
            exact ⟨e, s, h1, h2, Or.inr ⟨rfl, rfl, Or.inl (by simp [Blank]), b, s', hb, hs, rest_of_skip (Or.inl h0)⟩⟩
          · rename_i c r'' h0
            split at h
            · rename_i hc
              subst hc
              simp only [Option.some.injEq, Prod.mk.injEq] at h
              obtain ⟨rfl, rfl, rfl⟩ := h
              exact ⟨e, s, h1, h2, Or.inr ⟨rfl, rfl, Or.inr ⟨[], r'', by simp [Blank], rfl⟩, b, s', hb, hs, rest_of_skip (Or.inr ⟨_, h0⟩)⟩⟩
            · cases h
        · cases h
      · rename_i hne
        simp only [Option.some.injEq, Prod.mk.injEq] at h
        obtain ⟨rfl, rfl, rfl⟩ := h
        refine ⟨e, s, h1, h2, Or.inl ⟨rfl, rfl, ?_⟩⟩
        intro b' r' hb' he
        refine hne r' ?_
        rw [he]
        exact skip_stop hb' (by simp [White]) r'

/-! ## tokens -/

/-- one token -/
def tstep (p : RS) : Tok → Option RS
  | .nl => some { p with st := if p.st = .data then .key else p.st }
  | .inc ks => some { p with top := { p.top with kids := p.top.kids ++ ks }, st := if p.st = .data then .key else p.st }
  | .lbrace => if p.st = .cont then none else p.open
  | .rbrace => if p.st = .cont then none else p.close
  | .word v => match p.st with
    | .key => some (p.push v)
    | .data => some (p.setData (fun _ => v) false)
    | .cont => none
  | .str v => match p.st with
    | .key => some (p.push v)
    | .data => some (p.setData (fun _ => v) false)
    | .cont => some (p.setData (· ++ v) false)
  | .part v => match p.st with
    | .key => none
    | .data => some (p.setData (fun _ => v) true)
    | .cont => some (p.setData (· ++ v) true)

/-- all tokens -/
def trun (p : RS) : List Tok → Option RS
  | [] => some p
  | t :: ts => (tstep p t).bind fun q => trun q ts

theorem trun_append (p : RS) : ∀ (a b : List Tok), trun p (a ++ b) = (trun p a).bind fun q => trun q b := by
  intro a
  induction a generalizing p with
  | nil => intro b; rfl
  | cons t a ih =>
    intro b
    simp only [List.cons_append, trun]
    cases tstep p t with
    | none => rfl
    | some q => simp [ih]

theorem readLine_skip (n : Nat) (p : RS) (s : Str) : readLine n p (s.dropWhile isSpaceC) = readLine n p s := by
  rw [readLine.eq_def, readLine.eq_def n p s]
  simp only [dropWhile_twice]

theorem readLine_rest {s : Str} (h : Rest s) (n : Nat) (p : RS) : readLine n p s = tstep p .nl := by
  rcases rest_skip h with h | ⟨r, h⟩
  · rw [readLine.eq_def]; simp only [h]; rfl
  · rw [readLine.eq_def]; simp only [h]; simp [tstep]

theorem readLine_toks {s : Str} {ts : List Tok} (h : LineToks s ts) : ∀ (n : Nat) (p : RS), s.length ≤ n → readLine n p s = trun p (ts ++ [.nl]) := by
  induction h with
  | @done s h =>
    intro n p _
    rw [readLine_rest h]
    simp [trun]
  | @lbrace w s ts hw _ ih =>
    intro n p hn
    cases n with
    | zero => simp at hn
    | succ n =>
      simp only [List.length_append, List.length_cons] at hn
      rw [readLine_tok (skip_stop hw (by simp [White]) s) (by decide)]
      cases hp : p.st <;> simp [token, hp, trun, tstep] <;> cases p.open <;> simp [ih n _ (by omega)]
  | @rbrace w s ts hw _ ih =>
    intro n p hn
    cases n with
    | zero => simp at hn
    | succ n =>
      simp only [List.length_append, List.length_cons] at hn
      rw [readLine_tok (skip_stop hw (by simp [White]) s) (by decide)]
      cases hp : p.st <;> simp [token, hp, trun, tstep] <;> cases p.close <;> simp [ih n _ (by omega)]
  | @word w s raw v ts hw h0 hh hr hs _ ih =>
    intro n p hn
    cases raw with
    | nil => exact absurd rfl h0
    | cons c raw =>
    cases n with
    | zero => simp at hn
    | succ n =>
      simp only [List.length_append, List.length_cons] at hn
      have hc := spells_notEnds hr c (by simp)
      have hc' := (not_congr (ends_iff c)).1 (by simpa using hc)
      have hx := hh c (by simp)
      rw [List.cons_append, readLine_tok (skip_stop hw (by tauto) _) (by tauto)]
      have hwd := readWord_spells hr hs
      rw [List.cons_append] at hwd
      cases hp : p.st <;> simp [token, hp, trun, tstep, hx, hwd, ih n _ (show s.length ≤ n by omega)]
  | @str w s raw v ts hw hr hs _ ih =>
    intro n p hn
    cases n with
    | zero => simp at hn
    | succ n =>
      simp only [List.length_append, List.length_cons] at hn
      rw [readLine_tok (skip_stop hw (by simp [White]) _) (by decide)]
      have h1 := readString_str true hr hs
      have h2 := readString_str false hr hs
      cases hp : p.st <;> simp [token, hp, trun, tstep, h1, h2, readLine_skip, ih n _ (show s.length ≤ n by omega)]
  | @part w b s raw v hw hr hb hs =>
    intro n p hn
    cases n with
    | zero => simp at hn
    | succ n =>
      rw [readLine_tok (skip_stop hw (by simp [White]) _) (by decide)]
      obtain ⟨r, h0, h1, h2⟩ := readString_part hr hb hs
      cases hp : p.st <;> simp [token, hp, trun, tstep, h1, h2, readLine_rest h0]

theorem readLine_some : ∀ (n : Nat) (p q : RS) (s : Str), readLine n p s = some q → ∃ ts, LineToks s ts := by
  intro n
  induction n with
  | zero =>
    intro p q s h
    obtain ⟨w, u, hw, hs, hd, hu⟩ := blank_split s
    rw [readLine.eq_def] at h
    refine ⟨[], .done (rest_of_skip ?_)⟩
    cases hr : s.dropWhile isSpaceC with
    | nil => exact Or.inl rfl
    | cons c r =>
      simp only [hr] at h
      by_cases hc : c = ';'
      · subst hc; exact Or.inr ⟨r, rfl⟩
      · simp [hc] at h
  | succ n ih =>
    intro p q s h
    obtain ⟨w, u, hw, hs, hd, hu⟩ := blank_split s
    cases u with
    | nil => exact ⟨[], .done (rest_of_skip (Or.inl hd))⟩
    | cons c r =>
      by_cases hc : c = ';'
      · subst hc; exact ⟨[], .done (rest_of_skip (Or.inr ⟨r, hd⟩))⟩
      · rw [readLine_tok hd hc, Option.bind_eq_some_iff] at h
        obtain ⟨⟨p', s'⟩, h1, h2⟩ := h
        obtain ⟨ts, hts⟩ := ih p' q s' h2
        have hstr : ∀ m more v, c = '"' → readString m r = some (v, more, s') → ∃ ts, LineToks s ts := by
          intro m more v hq hrs
          subst hq
          obtain ⟨raw, t, ht, hsp, hor⟩ := readString_some hrs
          rcases hor with ⟨-, rfl, hno⟩ | ⟨-, -, -, b, t', hb, rfl, hr'⟩
          · have : ∃ ts, LineToks t ts := ih p' q t (by rw [← readLine_skip]; exact h2)
            obtain ⟨ts', hts'⟩ := this
            exact ⟨_, by rw [hs, ht]; exact .str hw hsp hno hts'⟩
          · exact ⟨_, by rw [hs, ht]; exact .part hw hsp hb hr'⟩
        have hword : ∀ v, c ≠ '{' → c ≠ '}' → c ≠ '"' → readWord (c :: r) = some (v, s') → ∃ ts, LineToks s ts := by
          intro v h3 h4 h5 hrw
          obtain ⟨raw, ht, hsp, hst, hne⟩ := readWord_some hrw
          have hcw := hu c (by simp)
          have hce : endsWord c = false := by
            have := (not_congr (ends_iff c)).2 (by tauto)
            simpa using this
          have h0 := hne c (by simp) hce
          refine ⟨.word v :: ts, ?_⟩
          rw [hs, ht]
          refine .word hw h0 ?_ hsp hst hts
          cases raw with
          | nil => exact absurd rfl h0
          | cons d raw =>
            simp only [List.cons_append, List.cons.injEq] at ht
            intro x hx
            simp only [List.head?_cons, Option.mem_def, Option.some.injEq] at hx
            subst hx
            rw [← ht.1]
            exact ⟨h3, h4, h5⟩
        have hbr : c = '{' → s' = r → ∃ ts, LineToks s ts := by
          rintro rfl rfl
          exact ⟨_, by rw [hs]; exact .lbrace hw hts⟩
        have hbr' : c = '}' → s' = r → ∃ ts, LineToks s ts := by
          rintro rfl rfl
          exact ⟨_, by rw [hs]; exact .rbrace hw hts⟩
        unfold token at h1
        split at h1
        · split at h1
          · rename_i hq
            rw [Option.map_eq_some_iff] at h1
            obtain ⟨⟨v, more, u⟩, hrs, he⟩ := h1
            simp only [Prod.mk.injEq] at he
            obtain ⟨-, rfl⟩ := he
            exact hstr _ _ _ hq hrs
          · cases h1
        · split at h1
          · rename_i hb
            rw [Option.map_eq_some_iff] at h1
            obtain ⟨u, -, he⟩ := h1
            simp only [Prod.mk.injEq] at he
            exact hbr hb he.2.symm
          · rename_i hb
            split at h1
            · rename_i hb'
              rw [Option.map_eq_some_iff] at h1
              obtain ⟨u, -, he⟩ := h1
              simp only [Prod.mk.injEq] at he
              exact hbr' hb' he.2.symm
            · rename_i hb'
              split at h1 <;> split at h1
              all_goals
                rename_i hq
                rw [Option.map_eq_some_iff] at h1
              · obtain ⟨⟨v, more, u⟩, hrs, he⟩ := h1
                simp only [Prod.mk.injEq] at he
                obtain ⟨-, rfl⟩ := he
                exact hstr _ _ _ hq hrs
              · obtain ⟨⟨v, u⟩, hrs, he⟩ := h1
                simp only [Prod.mk.injEq] at he
                obtain ⟨-, rfl⟩ := he
                exact hword _ hb hb' hq hrs
              · obtain ⟨⟨v, more, u⟩, hrs, he⟩ := h1
                simp only [Prod.mk.injEq] at he
                obtain ⟨-, rfl⟩ := he
                exact hstr _ _ _ hq hrs
              · obtain ⟨⟨v, u⟩, hrs, he⟩ := h1
                simp only [Prod.mk.injEq] at he
                obtain ⟨-, rfl⟩ := he
                exact hword _ hb hb' hq hrs

end Verif.PTree.InfoFile
