import Verif.PTree.XmlFile
import Verif.PTree.InfoFileProps

/-!
# C158: a tree saved as an XML file is loaded back
-/

namespace Verif.PTree.XmlFile

open Verif.PTree
open Verif.PTree.InfoFile (Inside)

/-! ## Specification -/

/-- the content of an XML document: elements with a name, attributes, a text and content, and comments -/
inductive Node where
  | elem (name : Key) (attrs : List (Key × Str)) (text : Str) (kids : List Node)
  | comment (c : Str)

mutual
/-- the entry of a property tree that stands for it -/
def Node.entry : Node → Key × Tree
  | .elem name attrs text kids => (name, .node text (attrKids attrs ++ entries kids))
  | .comment c => (xmlComment, .node c [])
def entries : List Node → List (Key × Tree)
  | [] => []
  | n :: r => n.entry :: entries r
end

/-- without comments -/
def uncommented : List Node → List Node
  | [] => []
  | .comment _ :: r => uncommented r
  | .elem name attrs text kids :: r => .elem name attrs text (uncommented kids) :: uncommented r

/-- no zero character -/
def NoZero (s : Str) : Prop := Char.ofNat 0 ∉ s

/-- a name of an element: not empty, no white space, none of `/>?`, no `!` at the beginning -/
def ElemName (k : Key) : Prop := k ≠ [] ∧ k.head? ≠ some '!' ∧ NoZero k ∧ ∀ c ∈ k, c ∉ [' ', '\n', '\r', '\t', '/', '>', '?']

/-- a name of an attribute -/
def AttrName (k : Key) : Prop := k ≠ [] ∧ NoZero k ∧ ∀ c ∈ k, c ∉ [' ', '\n', '\r', '\t', '/', '<', '>', '=', '?', '!']

/-- words with single blanks between them -/
def joinWords : List Str → Str
  | [] => []
  | [w] => w
  | w :: r => w ++ ' ' :: joinWords r

/-- a text made of words with single blanks between them -/
def Words (d : Str) : Prop := ∃ ws : List Str, (∀ w ∈ ws, w ≠ [] ∧ ∀ c ∈ w, c ∉ [' ', '\n', '\r', '\t']) ∧ d = joinWords ws

/-- a text that is not only white space, or only blanks -/
def Visible (d : Str) : Prop := (∃ c ∈ d, c ∉ [' ', '\n', '\r', '\t']) ∨ ∀ c ∈ d, c = ' '

/-- the texts that survive: read with `trim_whitespace`, words with single blanks between them; otherwise anything but white space that is
not only blanks; and written over several lines (`pretty`, and there are children) it must be read with `trim_whitespace` -/
def TextOk (pretty trim : Bool) (d : Str) (hasKids : Bool) : Prop :=
  NoZero d ∧ (if trim = true then Words d else Visible d) ∧ (pretty = true → trim = false → hasKids = true → d = [])

/-- a comment -/
def CommentOk (c : Str) : Prop := NoZero c ∧ ¬ "-->".toList <:+: c

mutual
/-- a document that survives -/
def Node.Ok (pretty trim : Bool) : Node → Prop
  | .elem name attrs text kids => ElemName name ∧ (∀ a ∈ attrs, AttrName a.1 ∧ NoZero a.2) ∧ TextOk pretty trim text (!kids.isEmpty) ∧ OkL pretty trim kids
  | .comment c => CommentOk c
def OkL (pretty trim : Bool) : List Node → Prop
  | [] => True
  | n :: r => n.Ok pretty trim ∧ OkL pretty trim r
end

/-! ## Lemmas: characters -/

theorem isWs_iff (c : Char) : isWs c = true ↔ c ∈ [' ', '\n', '\r', '\t'] := by
  simp [isWs, or_assoc]

theorem isName_of {c : Char} (h : c ∉ [' ', '\n', '\r', '\t', '/', '>', '?']) : isName c = true := by
  simp at h
  simp [isName, isWs, h]

theorem isAttrName_of {c : Char} (h : c ∉ [' ', '\n', '\r', '\t', '/', '<', '>', '=', '?', '!']) : isAttrName c = true := by
  simp at h
  simp [isAttrName, isWs, h]

theorem takeWhile_app {p : Char → Bool} : ∀ (w s : Str), (∀ c ∈ w, p c = true) → (∀ c ∈ s.head?, p c = false) →
    (w ++ s).takeWhile p = w ∧ (w ++ s).dropWhile p = s
  | [], s, _, h => by
    cases s with
    | nil => simp
    | cons d s => simp [h d (by simp)]
  | c :: w, s, hw, h => by
    have := takeWhile_app w s (fun d hd => hw d (by simp [hd])) h
    simp [hw c (by simp), this]

theorem dropWhile_app {p : Char → Bool} : ∀ (w s : Str), (∀ c ∈ w, p c = true) → (w ++ s).dropWhile p = s.dropWhile p
  | [], _, _ => rfl
  | c :: w, s, hw => by
    rw [List.cons_append, List.dropWhile_cons, if_pos (hw c (by simp))]
    exact dropWhile_app w s fun d hd => hw d (by simp [hd])

theorem encodeChar_cases (c : Char) : (encodeChar c = [c] ∧ c ∉ ['<', '>', '&', '"', '\'']) ∨
    (encodeChar c = '&' :: (encodeChar c).tail ∧ c ∈ ['<', '>', '&', '"', '\'']) := by
  unfold encodeChar
  by_cases h1 : c = '<'
  · right; subst h1; decide
  by_cases h2 : c = '>'
  · right; subst h2; decide
  by_cases h3 : c = '&'
  · right; subst h3; decide
  by_cases h4 : c = '"'
  · right; subst h4; decide
  by_cases h5 : c = '\''
  · right; subst h5; decide
  left
  rw [if_neg h1, if_neg h2, if_neg h3, if_neg h4, if_neg h5]
  simp [h1, h2, h3, h4, h5]

theorem encodeChar_mem {c d : Char} (h : d ∈ encodeChar c) : d ≠ '<' ∧ d ≠ '"' ∧ (d = Char.ofNat 0 → c = Char.ofNat 0) := by
  have small : ∀ l : Str, (∀ e ∈ l, e ≠ '<' ∧ e ≠ '"' ∧ e ≠ Char.ofNat 0) → ∀ e ∈ l, e ≠ '<' ∧ e ≠ '"' ∧ (e = Char.ofNat 0 → c = Char.ofNat 0) :=
    fun l hl e he => ⟨(hl e he).1, (hl e he).2.1, fun h0 => absurd h0 (hl e he).2.2⟩
  unfold encodeChar at h
  by_cases h1 : c = '<'
  · rw [if_pos h1] at h
    exact small _ (by decide) d h
  rw [if_neg h1] at h
  by_cases h2 : c = '>'
  · rw [if_pos h2] at h
    exact small _ (by decide) d h
  rw [if_neg h2] at h
  by_cases h3 : c = '&'
  · rw [if_pos h3] at h
    exact small _ (by decide) d h
  rw [if_neg h3] at h
  by_cases h4 : c = '"'
  · rw [if_pos h4] at h
    exact small _ (by decide) d h
  rw [if_neg h4] at h
  by_cases h5 : c = '\''
  · rw [if_pos h5] at h
    exact small _ (by decide) d h
  rw [if_neg h5] at h
  simp at h
  subst h
  exact ⟨h1, h4, id⟩

theorem encode_mem {s : Str} {d : Char} (h : d ∈ encode s) : d ≠ '<' ∧ d ≠ '"' ∧ (d = Char.ofNat 0 → Char.ofNat 0 ∈ s) := by
  unfold encode at h
  split at h
  · simp at h
  · rename_i c r
    split at h
    · rename_i hall
      rcases List.mem_append.1 h with h | h
      · have : ∀ d ∈ "&#32;".toList, d ≠ '<' ∧ d ≠ '"' ∧ d ≠ Char.ofNat 0 := by decide
        exact ⟨(this d h).1, (this d h).2.1, fun h0 => absurd h0 (this d h).2.2⟩
      · rw [List.all_eq_true] at hall
        have hd : d = ' ' := by simpa using hall d (by simp [h])
        subst hd
        exact ⟨by decide, by decide, fun h0 => absurd h0 (by decide)⟩
    · obtain ⟨e, he, hd⟩ := List.mem_flatMap.1 h
      have := encodeChar_mem hd
      refine ⟨this.1, this.2.1, fun h0 => ?_⟩
      rw [← this.2.2 h0]; exact he

theorem encode_ne {s : Str} (h : s ≠ []) : encode s ≠ [] := by
  unfold encode
  cases s with
  | nil => exact absurd rfl h
  | cons c r =>
    simp only
    split
    · simp
    · rcases encodeChar_cases c with h | h <;> rw [List.flatMap_cons, h.1] <;> simp

/-! ## Lemmas: character references -/

theorem expand_char (norm : Bool) (n : Nat) (c : Char) (r : Str) (h : ¬ (norm = true ∧ isWs c = true)) :
    expand norm (n + 1) (encodeChar c ++ r) = (expand norm n r).map (c :: ·) := by
  by_cases h1 : c = '<'
  · subst h1; rfl
  by_cases h2 : c = '>'
  · subst h2; rfl
  by_cases h3 : c = '&'
  · subst h3; rfl
  by_cases h4 : c = '"'
  · subst h4; rfl
  by_cases h5 : c = '\''
  · subst h5; rfl
  have : encodeChar c = [c] := by
    unfold encodeChar
    rw [if_neg h1, if_neg h2, if_neg h3, if_neg h4, if_neg h5]
  rw [this, List.cons_append, List.nil_append, expand, if_neg h3, if_neg]
  simpa using h

theorem expand_flat (norm : Bool) : ∀ (s : Str) (n : Nat) (r : Str), (∀ c ∈ s, ¬ (norm = true ∧ isWs c = true)) →
    expand norm (n + s.length) (s.flatMap encodeChar ++ r) = (expand norm n r).map (s ++ ·)
  | [], n, r, _ => by simp
  | c :: s, n, r, h => by
    rw [List.flatMap_cons, List.append_assoc, List.length_cons, ← Nat.add_assoc, expand_char norm _ c _ (h c (by simp)),
      expand_flat norm s n r fun d hd => h d (by simp [hd]), Option.map_map]
    rfl

theorem expand_blanks : ∀ (s : Str) (n : Nat), (∀ c ∈ s, c = ' ') → expand false (n + s.length) s = some s
  | [], n, _ => by cases n <;> rfl
  | c :: s, n, h => by
    have hc := h c (by simp)
    subst hc
    rw [List.length_cons, ← Nat.add_assoc, expand, if_neg (by decide), if_neg (by simp), expand_blanks s n fun d hd => h d (by simp [hd])]
    rfl

theorem expand_encode (s : Str) (n : Nat) : expand false (n + s.length) (encode s) = some s := by
  unfold encode
  cases s with
  | nil => cases n <;> rfl
  | cons c r =>
    simp only
    split
    · rename_i hall
      rw [List.all_eq_true] at hall
      have hc : c = ' ' := by simpa using hall c (by simp)
      have hr : ∀ d ∈ r, d = ' ' := fun d hd => by simpa using hall d (by simp [hd])
      have : expand false (n + (c :: r).length) ("&#32;".toList ++ r) = (expand false (n + r.length) r).map (' ' :: ·) := by
        rw [List.length_cons, ← Nat.add_assoc]; rfl
      rw [this, expand_blanks r n hr, hc]; rfl
    · have := expand_flat false (c :: r) n [] (by simp)
      rw [List.append_nil] at this
      rw [this]
      cases n <;> simp [expand]

theorem expand_nil (norm : Bool) (n : Nat) : expand norm n [] = some [] := by cases n <;> rfl

theorem encodeChar_head {c : Char} (h : isWs c = false) (r : Str) : (encodeChar c ++ r).dropWhile isWs = encodeChar c ++ r := by
  rcases encodeChar_cases c with hc | hc
  · rw [hc.1, List.cons_append, List.dropWhile_cons, h]; simp
  · rw [hc.1, List.cons_append, List.dropWhile_cons, if_neg (by decide)]

/-- texts of words: normalising changes nothing, and white space behind the text becomes one blank -/
theorem expand_words : ∀ (ws : List Str), (∀ w ∈ ws, w ≠ [] ∧ ∀ c ∈ w, isWs c = false) → ws ≠ [] → ∀ (n : Nat) (w2 : Str), (∀ c ∈ w2, isWs c = true) →
    expand true (n + (joinWords ws).length + 1) ((joinWords ws).flatMap encodeChar ++ w2) =
      some (joinWords ws ++ if w2 = [] then [] else [' '])
  | [], _, hne, _, _, _ => absurd rfl hne
  | [w], h, _, n, w2, hw2 => by
    have hw := h w (by simp)
    simp only [joinWords]
    rw [show n + w.length + 1 = (n + 1) + w.length from by omega, expand_flat true w (n + 1) w2 (fun c hc => by simp [hw.2 c hc])]
    cases w2 with
    | nil => simp [expand_nil]
    | cons c r =>
      have hc := hw2 c (by simp)
      have hr : r.dropWhile isWs = [] := by
        have := dropWhile_app (p := isWs) r [] fun d hd => hw2 d (by simp [hd])
        simpa using this
      have hca : c ≠ '&' := by rintro rfl; simp [isWs] at hc
      rw [expand, if_neg hca, if_pos (by simp [hc]), hr, expand_nil]
      simp
  | w :: w' :: ws, h, _, n, w2, hw2 => by
    have hw := h w (by simp)
    have ih := expand_words (w' :: ws) (fun v hv => h v (by simp [hv])) (by simp) n w2 hw2
    have hj : joinWords (w :: w' :: ws) = w ++ ' ' :: joinWords (w' :: ws) := rfl
    rw [hj]
    generalize hd : joinWords (w' :: ws) = d at ih
    have hfirst : ∃ c d', d = c :: d' ∧ isWs c = false := by
      have hw' := h w' (by simp)
      obtain ⟨c, v, hv⟩ := List.exists_cons_of_ne_nil hw'.1
      cases ws with
      | nil => exact ⟨c, v, by rw [← hd, joinWords, hv], hw'.2 c (by simp [hv])⟩
      | cons a b => exact ⟨c, v ++ ' ' :: joinWords (a :: b), by rw [← hd, hv]; rfl, hw'.2 c (by simp [hv])⟩
    obtain ⟨c, d', hdc, hcw⟩ := hfirst
    have hlen : n + (w ++ ' ' :: d).length + 1 = (n + d.length + 1 + 1) + w.length := by simp; omega
    rw [List.flatMap_append, List.flatMap_cons, List.append_assoc, hlen, expand_flat true w _ _ (fun c hc => by simp [hw.2 c hc])]
    have hb : encodeChar ' ' = [' '] := by decide
    rw [hb, List.append_assoc, List.cons_append, List.nil_append, expand, if_neg (by decide), if_pos (by decide)]
    have hdrop : (d.flatMap encodeChar ++ w2).dropWhile isWs = d.flatMap encodeChar ++ w2 := by
      rw [hdc, List.flatMap_cons, List.append_assoc]
      exact encodeChar_head hcw _
    rw [hdrop, ih]
    simp

theorem encode_length (s : Str) : s.length ≤ (encode s).length := by
  have hflat : ∀ l : Str, l.length ≤ (l.flatMap encodeChar).length := by
    intro l
    induction l with
    | nil => simp
    | cons c l ih =>
      have : 1 ≤ (encodeChar c).length := by
        rcases encodeChar_cases c with h | h <;> rw [h.1] <;> simp
      simp only [List.flatMap_cons, List.length_append, List.length_cons]
      omega
  unfold encode
  cases s with
  | nil => simp
  | cons c r =>
    simp only
    split
    · simp
    · exact hflat _

/-! ## Lemmas: tokens -/

theorem attrs_read (rest : Str) (hrest : ∀ c ∈ rest.head?, c = '>' ∨ c = '/') (hne : rest ≠ []) : ∀ (as : List (Key × Str)) (n : Nat),
    (∀ a ∈ as, AttrName a.1) → as.length ≤ n →
    attributes n (((as.flatMap fun a => ' ' :: (a.1 ++ ('=' :: '"' :: (encode a.2 ++ ['"'])))) ++ rest).dropWhile isWs) = some (as, rest)
  | [], n, _, _ => by
    cases rest with
    | nil => exact absurd rfl hne
    | cons c r =>
      have hc := hrest c (by simp)
      have h1 : isWs c = false := by rcases hc with rfl | rfl <;> decide
      have h2 : isAttrName c = false := by rcases hc with rfl | rfl <;> decide
      rw [List.flatMap_nil, List.nil_append, List.dropWhile_cons, h1]
      simp only [Bool.false_eq_true, if_false]
      cases n <;> simp [attributes, h2]
  | (k, v) :: as, n, h, hn => by
    obtain ⟨hk0, _, hk⟩ : AttrName k := h (k, v) (by simp)
    obtain ⟨m, rfl⟩ : ∃ m, n = m + 1 := ⟨n - 1, by simp at hn; omega⟩
    have ih := attrs_read rest hrest hne as m (fun a ha => h a (by simp [ha])) (by simpa using hn)
    rw [List.flatMap_cons]
    generalize (as.flatMap fun a => ' ' :: (a.1 ++ ('=' :: '"' :: (encode a.2 ++ ['"'])))) = more at ih ⊢
    have htext : ((' ' :: (k ++ ('=' :: '"' :: (encode v ++ ['"'])))) ++ more) ++ rest =
        ' ' :: (k ++ ('=' :: '"' :: (encode v ++ ('"' :: (more ++ rest))))) := by simp
    obtain ⟨c, k', hck⟩ := List.exists_cons_of_ne_nil hk0
    have hkn : ∀ d ∈ k, isAttrName d = true := fun d hd => isAttrName_of (hk d hd)
    have hcw : isWs c = false := by
      have := hk c (by simp [hck])
      simp at this
      simp [isWs, this]
    have hdrop : (' ' :: (k ++ ('=' :: '"' :: (encode v ++ ('"' :: (more ++ rest)))))).dropWhile isWs =
        k ++ ('=' :: '"' :: (encode v ++ ('"' :: (more ++ rest)))) := by
      rw [List.dropWhile_cons, if_pos (by decide), hck, List.cons_append, List.dropWhile_cons, hcw]; simp
    obtain ⟨t1, t2⟩ := takeWhile_app (p := isAttrName) k ('=' :: '"' :: (encode v ++ ('"' :: (more ++ rest)))) hkn (by
      intro d hd; simp at hd; subst hd; decide)
    obtain ⟨t3, t4⟩ := takeWhile_app (p := fun x => decide (x ≠ '"')) (encode v) ('"' :: (more ++ rest))
      (fun d hd => by simpa using (encode_mem hd).2.1) (by intro d hd; simp at hd; subst hd; decide)
    have hex : expand false (encode v ++ ('"' :: (more ++ rest))).length (encode v) = some v := by
      obtain ⟨m', hm'⟩ : ∃ m', (encode v ++ ('"' :: (more ++ rest))).length = m' + v.length := by
        have := encode_length v
        exact ⟨(encode v ++ ('"' :: (more ++ rest))).length - v.length, by simp only [List.length_append]; omega⟩
      rw [hm']; exact expand_encode v m'
    rw [htext, hdrop]
    have hone : oneAttr (k ++ ('=' :: '"' :: (encode v ++ ('"' :: (more ++ rest))))) = some (k, v, (more ++ rest).dropWhile isWs) := by
      unfold oneAttr
      rw [t2, t1, List.dropWhile_cons, if_neg (by decide)]
      simp only
      rw [List.dropWhile_cons, if_neg (by decide)]
      simp only [true_or, if_true]
      rw [t3, t4, hex]
    have hhead : (k ++ ('=' :: '"' :: (encode v ++ ('"' :: (more ++ rest))))).head?.any isAttrName = true := by
      rw [hck]; simpa using hkn c (by simp [hck])
    rw [attributes, if_pos hhead, hone, Option.bind_some, ih]
    rfl

/-- the attributes in an opening tag -/
def attrText (as : List (Key × Str)) : Str := as.flatMap fun a => ' ' :: (a.1 ++ ('=' :: '"' :: (encode a.2 ++ ['"'])))

theorem attrText_head (as : List (Key × Str)) (rest : Str) (hrest : ∀ c ∈ rest.head?, isName c = false) :
    ∀ c ∈ (attrText as ++ rest).head?, isName c = false := by
  cases as with
  | nil => simpa [attrText] using hrest
  | cons a as =>
    intro c hc
    simp [attrText] at hc
    subst hc; decide

theorem attrText_length (as : List (Key × Str)) : as.length ≤ (attrText as).length := by
  induction as with
  | nil => simp
  | cons a as ih =>
    simp only [attrText, List.flatMap_cons, List.length_append, List.length_cons] at ih ⊢
    omega

theorem node_elem (o : Opts) (top : Elem) (below : List Elem) (key : Key) (hk : ElemName key) (as : List (Key × Str)) (ha : ∀ a ∈ as, AttrName a.1) (r : Str) :
    node o top below (key ++ (attrText as ++ '>' :: r)) = some (.go ⟨key, [], attrKids as⟩ (top :: below) r) ∧
    node o top below (key ++ (attrText as ++ '/' :: '>' :: r)) = some (.go { top with kids := top.kids ++ [(key, .node [] (attrKids as))] } below r) := by
  obtain ⟨h0, hx, _, hc⟩ := hk
  obtain ⟨c, k', hck⟩ := List.exists_cons_of_ne_nil h0
  have hnm : ∀ d ∈ key, isName d = true := fun d hd => isName_of (hc d hd)
  have hq : c ≠ '?' := by
    rintro rfl; have := hc '?' (by simp [hck]); simp at this
  have hb : c ≠ '!' := by
    rintro rfl; exact hx (by simp [hck])
  have key1 : ∀ rest : Str, (∀ d ∈ rest.head?, d = '>' ∨ d = '/') → rest ≠ [] →
      node o top below (key ++ (attrText as ++ rest)) = (match rest with
        | '>' :: r' => some (.go ⟨key, [], attrKids as⟩ (top :: below) r')
        | '/' :: '>' :: r' => some (.go { top with kids := top.kids ++ [(key, .node [] (attrKids as))] } below r')
        | _ => none) := by
    intro rest hrest hne
    obtain ⟨t1, t2⟩ := takeWhile_app (p := isName) key (attrText as ++ rest) hnm (attrText_head as rest fun d hd => by
      rcases hrest d hd with rfl | rfl <;> decide)
    have hlen : as.length ≤ (key ++ (attrText as ++ rest)).length := by
      have := attrText_length as
      simp only [List.length_append]; omega
    have hat := attrs_read rest hrest hne as _ ha hlen
    have hS : key ++ (attrText as ++ rest) = c :: (k' ++ (attrText as ++ rest)) := by rw [hck]; rfl
    generalize key ++ (attrText as ++ rest) = S at *
    unfold node
    split
    · exact absurd (List.cons.inj hS).1.symm hq
    · exact absurd (List.cons.inj hS).1.symm hb
    · simp only [t1, t2, h0, if_false]
      have : attributes S.length ((attrText as ++ rest).dropWhile isWs) = some (as, rest) := hat
      rw [this]
      rfl
  constructor
  · exact key1 ('>' :: r) (by simp) (by simp)
  · exact key1 ('/' :: '>' :: r) (by simp) (by simp)

/-- white space before a tag is skipped -/
theorem tok_ws (o : Opts) (top : Elem) (below : List Elem) (w s : Str) (hw : ∀ c ∈ w, isWs c = true) (hs : ∀ c ∈ (s.dropWhile isWs).head?, c = '<') :
    tok o top below (w ++ s) = tok o top below s := by
  unfold tok
  rw [dropWhile_app w s hw]
  cases h : s.dropWhile isWs with
  | nil => rfl
  | cons c r =>
    have hc : c = '<' := hs c (by simp [h])
    subst hc
    rfl

theorem run_ws (o : Opts) (n : Nat) (top : Elem) (below : List Elem) (w s : Str) (hw : ∀ c ∈ w, isWs c = true) (hs : ∀ c ∈ (s.dropWhile isWs).head?, c = '<') :
    run o n top below (w ++ s) = run o n top below s := by
  cases n with
  | zero => rfl
  | succ n => rw [run, run, tok_ws o top below w s hw hs]

theorem tok_node (o : Opts) (top : Elem) (below : List Elem) (s : Str) (hs : s.head? ≠ some '/') : tok o top below ('<' :: s) = node o top below s := by
  unfold tok
  rw [List.dropWhile_cons, if_neg (by decide)]
  simp [hs]

theorem tok_close (o : Opts) (top p : Elem) (below : List Elem) (r : Str) (hk : ElemName top.name) :
    tok o top (p :: below) ('<' :: '/' :: (top.name ++ '>' :: r)) = some (.go { p with kids := p.kids ++ [(top.name, .node top.data top.kids)] } below r) := by
  unfold tok
  rw [List.dropWhile_cons, if_neg (by decide)]
  have hnm : ∀ d ∈ top.name, isName d = true := fun d hd => isName_of (hk.2.2.2 d hd)
  obtain ⟨t1, t2⟩ := takeWhile_app (p := isName) top.name ('>' :: r) hnm (by intro d hd; simp at hd; subst hd; decide)
  have h3 : ('>' :: r).dropWhile isWs = '>' :: r := by rw [List.dropWhile_cons, if_neg (by decide)]
  simp [closing, t1, t2, h3]

theorem trimEnd_words {d : Str} {ws : List Str} (hd : d = joinWords ws) (h : ∀ w ∈ ws, w ≠ [] ∧ ∀ c ∈ w, isWs c = false) (hne : ws ≠ []) :
    (d.getLast?).all (fun c => !isWs c) ∧ d ≠ [] := by
  subst hd
  induction ws with
  | nil => exact absurd rfl hne
  | cons w ws ih =>
    have hw := h w (by simp)
    cases ws with
    | nil =>
      simp only [joinWords]
      refine ⟨?_, hw.1⟩
      cases hl : w.getLast? with
      | none => rfl
      | some c => simp [hw.2 c (List.mem_of_getLast? hl)]
    | cons v ws =>
      have := ih (fun x hx => h x (by simp [hx])) (by simp)
      have hj : joinWords (w :: v :: ws) = w ++ ' ' :: joinWords (v :: ws) := rfl
      rw [hj]
      refine ⟨?_, by simp⟩
      have h2 : (w ++ ' ' :: joinWords (v :: ws)).getLast? = (joinWords (v :: ws)).getLast? := by
        rw [List.getLast?_append, List.getLast?_cons_of_ne_nil this.2]
        cases hl : (joinWords (v :: ws)).getLast? with
        | none => simp [List.getLast?_eq_none_iff] at hl; exact absurd hl this.2
        | some c => simp
      rw [h2]; exact this.1

/-- the text of an element -/
theorem tok_text (o : Opts) (top p : Elem) (below : List Elem) (d w1 w2 r : Str) (hd : d ≠ []) (hw1 : ∀ c ∈ w1, isWs c = true) (hw2 : ∀ c ∈ w2, isWs c = true)
    (hok : if o.trim = true then Words d else Visible d) (hsep : o.trim = false → w1 = [] ∧ w2 = []) :
    tok o top (p :: below) (w1 ++ (encode d ++ (w2 ++ '<' :: r))) = some (.go { top with data := top.data ++ d } (p :: below) ('<' :: r)) := by
  by_cases ht : o.trim = true
  · rw [if_pos ht] at hok
    obtain ⟨ws, hws, hj⟩ := hok
    have hws' : ∀ w ∈ ws, w ≠ [] ∧ ∀ c ∈ w, isWs c = false := fun w hw => ⟨(hws w hw).1, fun c hc => by
      rw [← Bool.not_eq_true, isWs_iff]; exact (hws w hw).2 c hc⟩
    have hne : ws ≠ [] := by rintro rfl; exact hd hj
    obtain ⟨c, d', hdc, hcw⟩ : ∃ c d', d = c :: d' ∧ isWs c = false := by
      cases ws with
      | nil => exact absurd rfl hne
      | cons w ws =>
        obtain ⟨c, v, hv⟩ := List.exists_cons_of_ne_nil (hws' w (by simp)).1
        cases ws with
        | nil => exact ⟨c, v, by rw [hj, joinWords, hv], (hws' w (by simp)).2 c (by simp [hv])⟩
        | cons a b => exact ⟨c, v ++ ' ' :: joinWords (a :: b), by rw [hj, hv]; rfl, (hws' w (by simp)).2 c (by simp [hv])⟩
    have henc : encode d = d.flatMap encodeChar := by
      rw [hdc]
      unfold encode
      simp only
      rw [if_neg]
      intro hall
      rw [List.all_eq_true] at hall
      have := hall c (by simp)
      simp at this; subst this; simp [isWs] at hcw
    have hfirst : (encode d ++ (w2 ++ '<' :: r)).dropWhile isWs = encode d ++ (w2 ++ '<' :: r) := by
      rw [henc, hdc, List.flatMap_cons, List.append_assoc]
      exact encodeChar_head hcw _
    obtain ⟨e, f, hef⟩ := List.exists_cons_of_ne_nil (encode_ne hd)
    have he : e ≠ '<' := (encode_mem (s := d) (d := e) (by simp [hef])).1
    obtain ⟨t1, t2⟩ := takeWhile_app (p := fun x => decide (x ≠ '<')) (encode d ++ w2) ('<' :: r) (by
        intro x hx
        rcases List.mem_append.1 hx with hx | hx
        · simpa using (encode_mem hx).1
        · have := hw2 x hx
          rw [decide_eq_true_iff]; rintro rfl; simp [isWs] at this) (by intro x hx; simp at hx; subst hx; decide)
    rw [List.append_assoc] at t1 t2
    have hexp : ∀ n, d.length + 1 ≤ n → expand true n (encode d ++ w2) = some (d ++ if w2 = [] then [] else [' ']) := by
      intro n hn
      obtain ⟨m, rfl⟩ : ∃ m, n = m + d.length + 1 := ⟨n - (d.length + 1), by omega⟩
      rw [henc, hj]
      exact expand_words ws hws' hne m w2 hw2
    have hlen : d.length + 1 ≤ (encode d ++ (w2 ++ '<' :: r)).length := by
      have := encode_length d
      simp only [List.length_append, List.length_cons]; omega
    have htrim : trimEnd (d ++ if w2 = [] then [] else [' ']) = d := by
      by_cases h2 : w2 = []
      · rw [if_pos h2, List.append_nil]
        have := (trimEnd_words hj hws' hne).1
        unfold trimEnd
        rw [if_neg]
        intro hl
        rw [hl] at this
        simp [isWs] at this
      · rw [if_neg h2]
        simp [trimEnd]
    unfold tok
    rw [dropWhile_app _ _ hw1, hfirst]
    have hexp' := hexp _ hlen
    rw [hef] at t1 t2 hexp' ⊢
    simp only [List.cons_append] at t1 t2 hexp' ⊢
    simp only [he, if_false, List.isEmpty_cons, Bool.false_eq_true, ht, if_true, t1, t2, hexp', htrim]
  · rw [if_neg ht] at hok
    rw [Bool.not_eq_true] at ht
    obtain ⟨rfl, rfl⟩ := hsep ht
    simp only [List.nil_append]
    have hvis : ∃ c s, (encode d ++ '<' :: r).dropWhile isWs = c :: s ∧ c ≠ '<' := by
      have hen : ∃ x ∈ encode d, isWs x = false := by
        rcases hok with ⟨c, hc, hcw⟩ | hall
        · obtain ⟨a, d', hdc⟩ := List.exists_cons_of_ne_nil hd
          have henc : encode d = d.flatMap encodeChar := by
            rw [hdc]
            unfold encode
            simp only
            rw [if_neg]
            intro hall
            rw [List.all_eq_true] at hall
            have := hall c (by rw [← hdc]; exact hc)
            simp at this; subst this; simp at hcw
          rw [henc]
          rcases encodeChar_cases c with h | h
          · exact ⟨c, List.mem_flatMap.2 ⟨c, hc, by rw [h.1]; simp⟩, by rw [← Bool.not_eq_true, isWs_iff]; exact hcw⟩
          · exact ⟨'&', List.mem_flatMap.2 ⟨c, hc, by rw [h.1]; simp⟩, by decide⟩
        · obtain ⟨a, d', hdc⟩ := List.exists_cons_of_ne_nil hd
          refine ⟨'&', ?_, by decide⟩
          rw [hdc]
          unfold encode
          simp only
          rw [if_pos (by rw [List.all_eq_true]; intro x hx; simpa using hall x (by rw [hdc]; exact hx))]
          simp
      obtain ⟨x, hx, hxw⟩ := hen
      have hgen : ∀ l : Str, (∀ y ∈ l, y ≠ '<') → x ∈ l → ∃ c s, (l ++ '<' :: r).dropWhile isWs = c :: s ∧ c ≠ '<' := by
        intro l
        induction l with
        | nil => intro _ h; simp at h
        | cons a l ih =>
          intro hl hx
          by_cases ha : isWs a = true
          · rw [List.cons_append, List.dropWhile_cons, if_pos ha]
            refine ih (fun y hy => hl y (by simp [hy])) ?_
            rcases List.mem_cons.1 hx with rfl | h
            · rw [hxw] at ha; exact absurd ha (by simp)
            · exact h
          · rw [List.cons_append, List.dropWhile_cons, if_neg ha]
            exact ⟨a, _, rfl, hl a (by simp)⟩
      exact hgen (encode d) (fun y hy => (encode_mem hy).1) hx
    obtain ⟨c, s, hcs, hc⟩ := hvis
    obtain ⟨t1, t2⟩ := takeWhile_app (p := fun x => decide (x ≠ '<')) (encode d) ('<' :: r) (fun x hx => by simpa using (encode_mem hx).1)
      (by intro x hx; simp at hx; subst hx; decide)
    have hexp : expand false (encode d ++ '<' :: r).length (encode d) = some d := by
      obtain ⟨m', hm'⟩ : ∃ m', (encode d ++ '<' :: r).length = m' + d.length := by
        have := encode_length d
        exact ⟨(encode d ++ '<' :: r).length - d.length, by simp only [List.length_append]; omega⟩
      rw [hm']; exact expand_encode d m'
    unfold tok
    rw [hcs]
    simp only [hc, if_false, List.isEmpty_cons, Bool.false_eq_true, ht, t1, t2, hexp]

theorem cutAt_first (pat : Str) : ∀ (c r : Str), (∀ a b, a ++ b = c → b ≠ [] → ¬ pat <+: b ++ (pat ++ r)) → cutAt pat (c ++ (pat ++ r)) = some (c, r)
  | [], r, _ => by
    rw [List.nil_append]
    cases hp : pat ++ r with
    | nil =>
      have h1 : pat = [] := (List.append_eq_nil_iff.1 hp).1
      have h2 : r = [] := (List.append_eq_nil_iff.1 hp).2
      subst h1; subst h2; rfl
    | cons x y =>
      rw [cutAt, ← hp, if_pos (by rw [List.isPrefixOf_iff_prefix]; exact List.prefix_append _ _)]
      simp
  | a :: c, r, h => by
    have h1 : ¬ pat <+: a :: (c ++ (pat ++ r)) := h [] (a :: c) rfl (by simp)
    rw [List.cons_append, cutAt, if_neg (by rw [List.isPrefixOf_iff_prefix]; exact h1),
      cutAt_first pat c r fun x y hxy hy => h (a :: x) y (by rw [List.cons_append, hxy]) hy]
    rfl

/-- a comment ends where it was written to end -/
theorem cutAt_comment (c r : Str) (hc : ¬ "-->".toList <:+: c) : cutAt "-->".toList (c ++ ("-->".toList ++ r)) = some (c, r) := by
  refine cutAt_first _ c r fun a b hab hb hpre => ?_
  obtain ⟨x, b1, rfl⟩ := List.exists_cons_of_ne_nil hb
  have hs : "-->".toList = ['-', '-', '>'] := by decide
  rw [hs] at hpre hc
  obtain ⟨t, ht⟩ := hpre
  cases b1 with
  | nil => simp at ht
  | cons y b2 =>
    cases b2 with
    | nil => simp at ht
    | cons z b3 =>
      simp at ht
      obtain ⟨rfl, rfl, rfl, _⟩ := ht
      exact hc ⟨a, b3, by rw [← hab]; simp⟩

theorem tok_comment (o : Opts) (top : Elem) (below : List Elem) (c r : Str) (hc : CommentOk c) :
    tok o top below ("<!--".toList ++ (c ++ ("-->".toList ++ r))) =
      some (.go (if o.noComments then top else { top with kids := top.kids ++ [(xmlComment, .node c [])] }) below r) := by
  have h1 : "<!--".toList ++ (c ++ ("-->".toList ++ r)) = '<' :: ('!' :: '-' :: '-' :: (c ++ ("-->".toList ++ r))) := rfl
  rw [h1, tok_node o top below _ (by simp)]
  have h2 : ("--".toList).isPrefixOf ('-' :: '-' :: (c ++ ("-->".toList ++ r))) = true := by
    rw [List.isPrefixOf_iff_prefix]; exact ⟨_, rfl⟩
  have h3 := cutAt_comment c r hc.2
  unfold node
  simp only [h2, if_true, List.drop_succ_cons, List.drop_zero, h3, Option.map_some]

/-! ## Lemmas: the writer on documents -/

theorem elemName_ne {k : Key} (h : ElemName k) : k ≠ xmlAttr ∧ k ≠ xmlText ∧ k ≠ xmlComment := by
  refine ⟨?_, ?_, ?_⟩ <;>
  · rintro rfl
    exact absurd (h.2.2.2 '>' (by decide)) (by simp)

theorem entries_keys (pretty trim : Bool) : ∀ (ns : List Node), OkL pretty trim ns → ∀ e ∈ entries ns, e.1 ≠ xmlAttr ∧ e.1 ≠ xmlText
  | [], _, e, he => by simp [entries] at he
  | n :: r, h, e, he => by
    simp only [OkL] at h
    simp only [entries, List.mem_cons] at he
    rcases he with rfl | he
    · cases n with
      | elem name attrs text kids =>
        simp only [Node.Ok] at h
        simp only [Node.entry]
        exact ⟨(elemName_ne h.1.1).1, (elemName_ne h.1.1).2.1⟩
      | comment c => simp only [Node.entry]; decide
    · exact entries_keys pretty trim r h.2 e he

theorem entries_isEmpty (ns : List Node) : (entries ns).isEmpty = ns.isEmpty := by
  cases ns <;> simp [entries]

theorem writeAttrs_eq (as : List (Key × Str)) (es : List (Key × Tree)) (h : ∀ e ∈ es, e.1 ≠ xmlAttr) : writeAttrs (attrKids as ++ es) = attrText as := by
  unfold writeAttrs attrKids
  cases as with
  | nil =>
    have : es.find? (fun c => decide (c.1 = xmlAttr)) = none := by
      rw [List.find?_eq_none]; intro e he; simpa using h e he
    simp [this, attrText]
  | cons a as => simp [Tree.kids, Tree.data, attrText, List.flatMap_map]

theorem hasElements_eq (as : List (Key × Str)) (es : List (Key × Tree)) (h : ∀ e ∈ es, e.1 ≠ xmlAttr ∧ e.1 ≠ xmlText) :
    hasElements (attrKids as ++ es) = !es.isEmpty := by
  unfold hasElements
  rw [List.any_append]
  have h1 : (attrKids as).any (fun c => decide (c.1 ≠ xmlAttr) && decide (c.1 ≠ xmlText)) = false := by
    unfold attrKids; split <;> simp
  rw [h1, Bool.false_or]
  cases es with
  | nil => rfl
  | cons e es =>
    have := h e (by simp)
    simp [this]

theorem attrsOnly_eq (d : Str) (as : List (Key × Str)) (es : List (Key × Tree)) (h : ∀ e ∈ es, e.1 ≠ xmlAttr) :
    attrsOnly d (attrKids as ++ es) = (d.isEmpty && es.isEmpty) := by
  unfold attrsOnly
  rw [List.all_append]
  have h1 : (attrKids as).all (fun c => decide (c.1 = xmlAttr)) = true := by
    unfold attrKids; split <;> simp
  rw [h1, Bool.true_and]
  cases es with
  | nil => rfl
  | cons e es =>
    have := h e (by simp)
    simp [this]

theorem writeKids_attrs (pretty sep : Bool) (n : Nat) (as : List (Key × Str)) (es : List (Key × Tree)) :
    writeKids pretty sep n (attrKids as ++ es) = writeKids pretty sep n es := by
  unfold attrKids
  split
  · rfl
  · simp [writeKids]

/-- an element as it is written -/
theorem writeElem_eq (pretty : Bool) (n : Nat) (name : Key) (as : List (Key × Str)) (d : Str) (es : List (Key × Tree)) (h : ∀ e ∈ es, e.1 ≠ xmlAttr ∧ e.1 ≠ xmlText) :
    writeElem pretty n name (.node d (attrKids as ++ es)) =
      if d = [] ∧ es = [] then indent pretty n ++ ('<' :: (name ++ (attrText as ++ ('/' :: '>' :: nl pretty))))
      else indent pretty n ++ ('<' :: (name ++ (attrText as ++ ('>' :: (nl (!es.isEmpty && pretty) ++
        ((if d = [] then [] else writeText pretty (!es.isEmpty && pretty) (n + 1) d) ++
          (writeKids pretty (!es.isEmpty && pretty) (n + 1) es ++
            ((if es = [] then [] else indent pretty n) ++ ('<' :: '/' :: (name ++ ('>' :: nl pretty))))))))))) := by
  rw [writeElem]
  rw [attrsOnly_eq d as es fun e he => (h e he).1, hasElements_eq as es h, writeAttrs_eq as es fun e he => (h e he).1, writeKids_attrs]
  by_cases hd : d = []
  · subst hd
    by_cases he : es = []
    · subst he
      simp only [List.isEmpty_nil, Bool.true_and, Bool.and_self, if_true, and_self]
      split
      · rename_i h1
        have : as = [] := by
          cases as with
          | nil => rfl
          | cons a as => simp [attrKids] at h1
        subst this; simp [attrText]
      · rfl
    · have h1 : es.isEmpty = false := by simpa using he
      have h2 : (attrKids as ++ es).isEmpty = false := by
        rw [← Bool.not_eq_true, List.isEmpty_iff]; simp [he]
      simp [h1, h2, he]
  · have h1 : d.isEmpty = false := by simpa using hd
    cases es with
    | nil => simp [h1, hd]
    | cons e es => simp [h1, hd]

theorem indent_ws (pretty : Bool) (n : Nat) : ∀ c ∈ indent pretty n, isWs c = true := by
  intro c hc
  unfold indent at hc
  split at hc
  · rw [(List.mem_replicate.1 hc).2]; decide
  · simp at hc

theorem nl_ws (b : Bool) : ∀ c ∈ nl b, isWs c = true := by
  intro c hc
  unfold nl at hc
  split at hc
  · simp at hc; subst hc; decide
  · simp at hc

/-- nothing but white space before the next tag (or the end) -/
def StartsTag (s : Str) : Prop := ∀ c ∈ (s.dropWhile isWs).head?, c = '<'

theorem startsTag_ws (w s : Str) (hw : ∀ c ∈ w, isWs c = true) (hs : StartsTag s) : StartsTag (w ++ s) := by
  unfold StartsTag
  rw [dropWhile_app w s hw]; exact hs

theorem startsTag_lt (s : Str) : StartsTag ('<' :: s) := by
  unfold StartsTag
  rw [List.dropWhile_cons, if_neg (by decide)]; simp

theorem writeKids_comment (pretty sep : Bool) (n : Nat) (c : Str) (ns : List Node) :
    writeKids pretty sep n (entries (.comment c :: ns)) =
      (if pretty then indent pretty n else []) ++ ('<' :: ('!' :: '-' :: '-' :: (c ++ ("-->".toList ++ (nl pretty ++ writeKids pretty sep n (entries ns)))))) := by
  have h1 : xmlComment ≠ xmlAttr := by decide
  simp only [entries, Node.entry, writeKids, writeComment, Tree.data, if_neg h1, if_true, List.append_assoc]
  rfl

/-- children as they are written begin with white space — none unless `pretty` — and a tag -/
theorem kids_start (pretty trim sep : Bool) (n : Nat) : ∀ (ns : List Node), OkL pretty trim ns → ns ≠ [] →
    ∃ w r, writeKids pretty sep n (entries ns) = w ++ '<' :: r ∧ (∀ c ∈ w, isWs c = true) ∧ (pretty = false → w = [])
  | [], _, hne => absurd rfl hne
  | .comment c :: ns, _, _ => by
    refine ⟨if pretty then indent pretty n else [], _, writeKids_comment pretty sep n c ns, ?_, ?_⟩
    · intro c hc
      split at hc
      · exact indent_ws _ _ c hc
      · simp at hc
    · intro h; simp [h]
  | .elem name as d ks :: ns, h, _ => by
    simp only [OkL, Node.Ok] at h
    refine ⟨indent pretty n, ?_⟩
    have hk := elemName_ne h.1.1
    have hes := entries_keys pretty trim ks h.1.2.2.2
    simp only [entries, Node.entry, writeKids]
    rw [if_neg hk.1, if_neg hk.2.2, if_neg hk.2.1, writeElem_eq pretty n name as d _ hes]
    split
    · exact ⟨_, by rw [List.append_assoc, List.cons_append], indent_ws _ _, by intro h; simp [h, indent]⟩
    · exact ⟨_, by rw [List.append_assoc, List.cons_append], indent_ws _ _, by intro h; simp [h, indent]⟩

theorem run_step {o : Opts} {top t : Elem} {below b : List Elem} {s r : Str} (h : tok o top below s = some (.go t b r)) (n : Nat) :
    run o (n + 1) top below s = run o n t b r := by
  rw [run, h]

/-- the document as it is read: without comments if they are ignored -/
def seen (o : Opts) (ns : List Node) : List Node := if o.noComments then uncommented ns else ns

theorem seen_elem (o : Opts) (name : Key) (as : List (Key × Str)) (d : Str) (ks r : List Node) :
    entries (seen o (.elem name as d ks :: r)) = (name, .node d (attrKids as ++ entries (seen o ks))) :: entries (seen o r) := by
  unfold seen
  split <;> simp [uncommented, entries, Node.entry]

/-- what the reader does with a written document -/
theorem feed_nodes (o : Opts) (pretty : Bool) : ∀ (ns : List Node) (sep : Bool) (n : Nat) (top : Elem) (below : List Elem) (rest : Str),
    OkL pretty o.trim ns → StartsTag rest →
    ∃ k, k ≤ (writeKids pretty sep n (entries ns)).length ∧ ∀ fuel, run o (fuel + k) top below (writeKids pretty sep n (entries ns) ++ rest) =
      run o fuel { top with kids := top.kids ++ entries (seen o ns) } below rest
  | [], sep, n, top, below, rest, _, _ => by
    refine ⟨0, by simp, fun fuel => ?_⟩
    have : seen o [] = [] := by unfold seen; split <;> simp [uncommented]
    simp [entries, writeKids, this]
  | .comment c :: ns, sep, n, top, below, rest, h, hrest => by
    simp only [OkL, Node.Ok] at h
    have hst : StartsTag (writeKids pretty sep n (entries ns) ++ rest) := by
      by_cases hns : ns = []
      · subst hns; simpa [entries, writeKids] using hrest
      · obtain ⟨w, r, hw, hws, _⟩ := kids_start pretty o.trim sep n ns h.2 hns
        rw [hw, List.append_assoc]
        exact startsTag_ws w _ hws (startsTag_lt _)
    have htext : writeKids pretty sep n (entries (.comment c :: ns)) ++ rest =
        (if pretty then indent pretty n else []) ++ ('<' :: ('!' :: '-' :: '-' :: (c ++ ("-->".toList ++ (nl pretty ++ (writeKids pretty sep n (entries ns) ++ rest)))))) := by
      rw [writeKids_comment]
      simp only [List.append_assoc, List.cons_append]
    have hlen : (writeKids pretty sep n (entries (.comment c :: ns))).length ≥ 1 + (writeKids pretty sep n (entries ns)).length := by
      rw [writeKids_comment]
      simp only [List.length_append, List.length_cons]; omega
    obtain ⟨k, hk, hrun⟩ := feed_nodes o pretty ns sep n (if o.noComments then top else { top with kids := top.kids ++ [(xmlComment, .node c [])] }) below rest h.2 hrest
    refine ⟨k + 1, by omega, fun fuel => ?_⟩
    rw [htext, run_ws o _ top below _ _ (by
      intro d hd
      split at hd
      · exact indent_ws _ _ d hd
      · simp at hd) (startsTag_lt _), ← Nat.add_assoc,
      run_step (show tok o top below ('<' :: ('!' :: '-' :: '-' :: (c ++ ("-->".toList ++ (nl pretty ++ (writeKids pretty sep n (entries ns) ++ rest)))))) = _ from
        tok_comment o top below c _ h.1), run_ws o _ _ below _ _ (nl_ws _) hst, hrun]
    unfold seen
    by_cases hc : o.noComments = true
    · simp [hc, uncommented]
    · simp [hc, entries, Node.entry]
  | .elem name as d ks :: ns, sep, n, top, below, rest, h, hrest => by
    simp only [OkL, Node.Ok] at h
    obtain ⟨⟨hname, has, htx, hks⟩, hns⟩ := h
    have has' : ∀ a ∈ as, AttrName a.1 := fun a ha => (has a ha).1
    have hst : StartsTag (writeKids pretty sep n (entries ns) ++ rest) := by
      by_cases hns' : ns = []
      · subst hns'; simpa [entries, writeKids] using hrest
      · obtain ⟨w, r, hw, hws, _⟩ := kids_start pretty o.trim sep n ns hns hns'
        rw [hw, List.append_assoc]
        exact startsTag_ws w _ hws (startsTag_lt _)
    have hkey := elemName_ne hname
    have hes := entries_keys pretty o.trim ks hks
    have hnr : ∀ s : Str, (name ++ s).head? ≠ some '/' := by
      intro s
      obtain ⟨c, k', hck⟩ := List.exists_cons_of_ne_nil hname.1
      rw [hck]
      have := hname.2.2.2 c (by simp [hck])
      simp at this
      simpa using this.2.2.2.2.1
    have hw0 : writeKids pretty sep n (entries (.elem name as d ks :: ns)) =
        writeElem pretty n name (.node d (attrKids as ++ entries ks)) ++ writeKids pretty sep n (entries ns) := by
      simp only [entries, Node.entry, writeKids]
      rw [if_neg hkey.1, if_neg hkey.2.2, if_neg hkey.2.1]
    have hel := writeElem_eq pretty n name as d (entries ks) hes
    obtain ⟨kr, hkr, hrr⟩ := feed_nodes o pretty ns sep n { top with kids := top.kids ++ [(name, .node d (attrKids as ++ entries (seen o ks)))] } below rest hns hrest
    have hres : ∀ fuel, run o fuel { top with kids := (top.kids ++ [(name, .node d (attrKids as ++ entries (seen o ks)))]) ++ entries (seen o ns) } below rest =
        run o fuel { top with kids := top.kids ++ entries (seen o (.elem name as d ks :: ns)) } below rest := by
      intro fuel; rw [seen_elem, List.append_assoc]; rfl
    have hent : entries ks = [] ↔ ks = [] := by
      rw [← List.isEmpty_iff, entries_isEmpty, List.isEmpty_iff]
    by_cases hempty : d = [] ∧ ks = []
    · rw [if_pos ⟨hempty.1, hent.2 hempty.2⟩] at hel
      obtain ⟨rfl, rfl⟩ := hempty
      refine ⟨kr + 1, ?_, fun fuel => ?_⟩
      · rw [hw0, hel]; simp only [List.length_append, List.length_cons]; omega
      · have htext : writeKids pretty sep n (entries (.elem name as [] [] :: ns)) ++ rest =
            indent pretty n ++ ('<' :: (name ++ (attrText as ++ '/' :: '>' :: (nl pretty ++ (writeKids pretty sep n (entries ns) ++ rest))))) := by
          rw [hw0, hel]; simp
        rw [htext, run_ws o _ top below _ _ (indent_ws _ _) (startsTag_lt _), ← Nat.add_assoc]
        have ht : tok o top below ('<' :: (name ++ (attrText as ++ '/' :: '>' :: (nl pretty ++ (writeKids pretty sep n (entries ns) ++ rest))))) =
            some (.go { top with kids := top.kids ++ [(name, .node [] (attrKids as))] } below (nl pretty ++ (writeKids pretty sep n (entries ns) ++ rest))) := by
          rw [tok_node o top below _ (hnr _)]
          exact (node_elem o top below name hname as has' _).2
        have hs0 : entries (seen o []) = [] := by unfold seen; split <;> simp [uncommented, entries]
        rw [run_step ht, run_ws o _ _ below _ _ (nl_ws _) hst]
        have := hrr fuel
        simp only [hs0, List.append_nil] at this hres
        rw [this]
        simpa using hres fuel
    · rw [if_neg (fun h => hempty ⟨h.1, hent.1 h.2⟩)] at hel
      generalize hsep : (!(entries ks).isEmpty && pretty) = sp at hel
      have hspks : sp = (!ks.isEmpty && pretty) := by rw [← hsep, entries_isEmpty]
      -- the closing tag and what follows
      let R := nl pretty ++ (writeKids pretty sep n (entries ns) ++ rest)
      let I := if entries ks = [] then [] else indent pretty n
      let C := I ++ ('<' :: '/' :: (name ++ '>' :: R))
      let K := writeKids pretty sp (n + 1) (entries ks)
      let T := if d = [] then [] else writeText pretty sp (n + 1) d
      have hI : ∀ c ∈ I, isWs c = true := by
        intro c hc
        simp only [I] at hc
        split at hc
        · simp at hc
        · exact indent_ws _ _ c hc
      have hCst : StartsTag C := startsTag_ws I _ hI (startsTag_lt _)
      have htext : writeKids pretty sep n (entries (.elem name as d ks :: ns)) ++ rest =
          indent pretty n ++ ('<' :: (name ++ (attrText as ++ '>' :: (nl sp ++ (T ++ (K ++ C)))))) := by
        rw [hw0, hel]
        simp [T, K, C, I, R]
      have hlen : (writeKids pretty sep n (entries (.elem name as d ks :: ns))).length ≥ 3 + K.length + T.length + (writeKids pretty sep n (entries ns)).length := by
        rw [hw0, hel]
        simp only [List.length_append, List.length_cons, T, K]; omega
      -- white space and a tag follow the text
      have hZ : ∃ w r, K ++ C = w ++ '<' :: r ∧ (∀ c ∈ w, isWs c = true) ∧ (sp = false → w = []) := by
        by_cases hk0 : ks = []
        · refine ⟨[], '/' :: (name ++ '>' :: R), ?_, by simp, by simp⟩
          simp [K, C, I, hk0, entries, writeKids]
        · obtain ⟨w, r, hw, hws, hp⟩ := kids_start pretty o.trim sp (n + 1) ks hks hk0
          refine ⟨w, r ++ C, by simp [K, hw], hws, fun hs => hp ?_⟩
          have : ks.isEmpty = false := by simpa using hk0
          simpa [hspks, this] using hs
      obtain ⟨w, r, hwr, hww, hwsp⟩ := hZ
      have hKC : StartsTag (K ++ C) := by rw [hwr]; exact startsTag_ws w _ hww (startsTag_lt _)
      -- the text
      have hT : ∃ kt, kt ≤ T.length ∧ ∀ fuel, run o (fuel + kt) ⟨name, [], attrKids as⟩ (top :: below) (nl sp ++ (T ++ (K ++ C))) =
          run o fuel ⟨name, d, attrKids as⟩ (top :: below) (K ++ C) := by
        by_cases hd : d = []
        · refine ⟨0, by simp, fun fuel => ?_⟩
          have hT0 : T = [] := by simp [T, hd]
          rw [hT0, List.nil_append, run_ws o _ _ _ _ _ (nl_ws _) hKC, hd]
          rfl
        · have hT1 : T = writeText pretty sp (n + 1) d := by simp [T, hd]
          refine ⟨1, ?_, fun fuel => ?_⟩
          · rw [hT1]
            have := List.length_pos_iff.2 (encode_ne hd)
            simp only [writeText, List.length_append]; omega
          · have hform : nl sp ++ (T ++ (K ++ C)) = (nl sp ++ (if sp then indent pretty (n + 1) else [])) ++ (encode d ++ ((nl sp ++ w) ++ '<' :: r)) := by
              rw [hT1, hwr]; simp [writeText]
            have htok : tok o ⟨name, [], attrKids as⟩ (top :: below) (nl sp ++ (T ++ (K ++ C))) =
                some (.go ⟨name, d, attrKids as⟩ (top :: below) ('<' :: r)) := by
              rw [hform]
              have := tok_text o ⟨name, [], attrKids as⟩ top below d (nl sp ++ (if sp then indent pretty (n + 1) else [])) (nl sp ++ w) r hd
                (by
                  intro c hc
                  rcases List.mem_append.1 hc with hc | hc
                  · exact nl_ws _ c hc
                  · split at hc
                    · exact indent_ws _ _ c hc
                    · simp at hc)
                (by
                  intro c hc
                  rcases List.mem_append.1 hc with hc | hc
                  · exact nl_ws _ c hc
                  · exact hww c hc)
                htx.2.1
                (by
                  intro htrim
                  have hsp0 : sp = false := by
                    rw [hspks]
                    by_cases hp : pretty = true
                    · by_cases hk0 : ks.isEmpty = true
                      · simp [hk0]
                      · exact absurd (htx.2.2 hp htrim (by simpa using hk0)) hd
                    · simp [hp]
                  rw [hwsp hsp0, hsp0]
                  simp [nl])
              rw [this]
              rfl
            rw [run_step htok, hwr, run_ws o _ _ _ _ _ hww (startsTag_lt _)]
      obtain ⟨kt, hkt, hrt⟩ := hT
      obtain ⟨kk, hkk, hrk⟩ := feed_nodes o pretty ks sp (n + 1) ⟨name, d, attrKids as⟩ (top :: below) C hks hCst
      refine ⟨kr + 1 + kk + kt + 1, ?_, fun fuel => ?_⟩
      · have : kk ≤ K.length := hkk
        omega
      · rw [htext, run_ws o _ top below _ _ (indent_ws _ _) (startsTag_lt _)]
        have ht : tok o top below ('<' :: (name ++ (attrText as ++ '>' :: (nl sp ++ (T ++ (K ++ C)))))) =
            some (.go ⟨name, [], attrKids as⟩ (top :: below) (nl sp ++ (T ++ (K ++ C)))) := by
          rw [tok_node o top below _ (hnr _)]
          exact (node_elem o top below name hname as has' _).1
        have hclose := tok_close o ⟨name, d, attrKids as ++ entries (seen o ks)⟩ top below R hname
        rw [show fuel + (kr + 1 + kk + kt + 1) = (fuel + kr + 1 + kk + kt) + 1 from by omega, run_step ht, hrt]
        have hrk' := hrk (fuel + kr + 1)
        rw [hrk', run_ws o _ _ _ _ _ hI (startsTag_lt _), run_step hclose, run_ws o _ _ below _ _ (nl_ws _) hst, hrr]
        exact hres fuel

/-! ## Lemmas: no zero characters -/

theorem noZero_append {a b : Str} (ha : NoZero a) (hb : NoZero b) : NoZero (a ++ b) := by
  intro h
  rcases List.mem_append.1 h with h | h
  · exact ha h
  · exact hb h

theorem noZero_encode {s : Str} (h : NoZero s) : NoZero (encode s) := fun h0 => h ((encode_mem h0).2.2 rfl)

theorem noZero_ws {w : Str} (h : ∀ c ∈ w, isWs c = true) : NoZero w := fun h0 => absurd (h _ h0) (by decide)

theorem noZero_cons {c : Char} {s : Str} (hc : c ≠ Char.ofNat 0) (h : NoZero s) : NoZero (c :: s) := by
  intro h0
  rcases List.mem_cons.1 h0 with h0 | h0
  · exact hc h0.symm
  · exact h h0

theorem noZero_attrs {as : List (Key × Str)} (h : ∀ a ∈ as, AttrName a.1 ∧ NoZero a.2) : NoZero (attrText as) := by
  intro h0
  obtain ⟨a, ha, h1⟩ := List.mem_flatMap.1 h0
  have : NoZero (' ' :: (a.1 ++ ('=' :: '"' :: (encode a.2 ++ ['"'])))) :=
    noZero_cons (by decide) (noZero_append (h a ha).1.2.1 (noZero_cons (by decide) (noZero_cons (by decide)
      (noZero_append (noZero_encode (h a ha).2) (noZero_cons (by decide) (by simp [NoZero]))))))
  exact this h1

theorem noZero_kids (pretty trim : Bool) : ∀ (ns : List Node) (sep : Bool) (n : Nat), OkL pretty trim ns → NoZero (writeKids pretty sep n (entries ns))
  | [], _, _, _ => by simp [entries, writeKids, NoZero]
  | .comment c :: ns, sep, n, h => by
    simp only [OkL, Node.Ok] at h
    rw [writeKids_comment]
    refine noZero_append ?_ (noZero_append (a := "<!--".toList) ?_ (noZero_append h.1.1 (noZero_append ?_ (noZero_append (noZero_ws (nl_ws _)) (noZero_kids pretty trim ns sep n h.2)))))
    · split
      · exact noZero_ws (indent_ws _ _)
      · simp [NoZero]
    · unfold NoZero; decide
    · unfold NoZero; decide
  | .elem name as d ks :: ns, sep, n, h => by
    simp only [OkL, Node.Ok] at h
    obtain ⟨⟨hname, has, htx, hks⟩, hns⟩ := h
    have hkey := elemName_ne hname
    have hes := entries_keys pretty trim ks hks
    have hnil : NoZero [] := by simp [NoZero]
    simp only [entries, Node.entry, writeKids]
    rw [if_neg hkey.1, if_neg hkey.2.2, if_neg hkey.2.1, writeElem_eq pretty n name as d _ hes]
    refine noZero_append ?_ (noZero_kids pretty trim ns sep n hns)
    have hclose : NoZero ('<' :: '/' :: (name ++ ('>' :: nl pretty))) :=
      noZero_cons (by decide) (noZero_cons (by decide) (noZero_append hname.2.2.1 (noZero_cons (by decide) (noZero_ws (nl_ws _)))))
    split
    · exact noZero_append (noZero_ws (indent_ws _ _)) (noZero_cons (by decide) (noZero_append hname.2.2.1 (noZero_append (noZero_attrs has)
        (noZero_cons (by decide) (noZero_cons (by decide) (noZero_ws (nl_ws _)))))))
    · refine noZero_append (noZero_ws (indent_ws _ _)) (noZero_cons (by decide) (noZero_append hname.2.2.1 (noZero_append (noZero_attrs has)
        (noZero_cons (by decide) (noZero_append (noZero_ws (nl_ws _)) (noZero_append ?_ (noZero_append (noZero_kids pretty trim ks _ _ hks) (noZero_append ?_ hclose))))))))
      · split
        · exact hnil
        · unfold writeText
          refine noZero_append ?_ (noZero_append (noZero_encode htx.1) (noZero_ws (nl_ws _)))
          split
          · exact noZero_ws (indent_ws _ _)
          · exact hnil
      · split
        · exact hnil
        · exact noZero_ws (indent_ws _ _)

theorem cutAt_decl (r : Str) : cutAt "?>".toList ("xml version=\"1.0\" encoding=\"utf-8\"?>\n".toList ++ r) =
    some ("xml version=\"1.0\" encoding=\"utf-8\"".toList, '\n' :: r) := by
  rfl

theorem read_document (o : Opts) (pretty : Bool) (ns : List Node) (h : OkL pretty o.trim ns) :
    readXml o (writeXml pretty (.node [] (entries ns))) = some (.node [] (entries (seen o ns))) := by
  obtain ⟨k, hk, hrun⟩ := feed_nodes o pretty ns (hasElements (entries ns) && pretty) 0 ⟨[], [], []⟩ [] [] h (by simp [StartsTag])
  have hz := noZero_kids pretty o.trim ns (hasElements (entries ns) && pretty) 0 h
  have hst : StartsTag (writeKids pretty (hasElements (entries ns) && pretty) 0 (entries ns)) := by
    by_cases hns : ns = []
    · subst hns; simp [entries, writeKids, StartsTag]
    · obtain ⟨w, r, hw, hws, _⟩ := kids_start pretty o.trim (hasElements (entries ns) && pretty) 0 ns h hns
      rw [hw]
      exact startsTag_ws w _ hws (startsTag_lt _)
  have hw : writeXml pretty (.node [] (entries ns)) =
      '<' :: '?' :: ("xml version=\"1.0\" encoding=\"utf-8\"?>\n".toList ++ writeKids pretty (hasElements (entries ns) && pretty) 0 (entries ns)) := by
    rfl
  generalize writeKids pretty (hasElements (entries ns) && pretty) 0 (entries ns) = W at *
  have hnz : NoZero (writeXml pretty (.node [] (entries ns))) := by
    rw [hw]
    refine noZero_cons (by decide) (noZero_cons (by decide) (noZero_append ?_ hz))
    unfold NoZero; decide
  have hcut : (writeXml pretty (.node [] (entries ns))).takeWhile (· ≠ Char.ofNat 0) = writeXml pretty (.node [] (entries ns)) :=
    Verif.PTree.InfoFile.takeWhile_nonul _ fun c hc h0 => hnz (h0 ▸ hc)
  have hbom : skipBom (writeXml pretty (.node [] (entries ns))) = writeXml pretty (.node [] (entries ns)) := by
    rw [hw]
    unfold skipBom
    rw [if_neg]
    rw [List.isPrefixOf_iff_prefix]
    rintro ⟨t, ht⟩
    exact absurd (List.cons.inj ht).1 (by decide)
  unfold readXml
  simp only [hcut, hbom]
  have htok : tok o ⟨[], [], []⟩ [] (writeXml pretty (.node [] (entries ns))) = some (.go ⟨[], [], []⟩ [] ('\n' :: W)) := by
    rw [hw, tok_node o _ _ _ (by simp)]
    unfold node
    simp only [cutAt_decl, Option.map_some]
  have hlen : ∃ f, (writeXml pretty (.node [] (entries ns))).length = f + 1 + k := by
    refine ⟨(writeXml pretty (.node [] (entries ns))).length - (1 + k), ?_⟩
    rw [hw]
    simp only [List.length_cons, List.length_append]; omega
  obtain ⟨f, hf⟩ := hlen
  rw [hf, run_step htok]
  have := run_ws o (f + 1 + k) ⟨[], [], []⟩ [] ['\n'] W (by intro c hc; simp at hc; subst hc; decide) hst
  rw [List.cons_append, List.nil_append] at this
  rw [this]
  have h2 := hrun (f + 1)
  rw [List.append_nil] at h2
  rw [h2, run]
  simp [tok]

/-! ## Lemmas: trees without attributes and comments -/

mutual
def ofTree (k : Key) : Tree → Node
  | .node d ks => .elem k [] d (ofKids ks)
def ofKids : List (Key × Tree) → List Node
  | [] => []
  | (k, t) :: r => ofTree k t :: ofKids r
end

mutual
theorem entry_ofTree (k : Key) : ∀ t : Tree, (ofTree k t).entry = (k, t)
  | .node d ks => by simp [ofTree, Node.entry, attrKids, entries_ofKids ks]
theorem entries_ofKids : ∀ ks : List (Key × Tree), entries (ofKids ks) = ks
  | [] => by simp [ofKids, entries]
  | (k, t) :: r => by simp [ofKids, entries, entry_ofTree k t, entries_ofKids r]
end

mutual
theorem uncommented_ofTree (k : Key) : ∀ (t : Tree) (r : List Node), uncommented (ofTree k t :: r) = ofTree k t :: uncommented r
  | .node d ks, r => by simp [ofTree, uncommented, uncommented_ofKids ks]
theorem uncommented_ofKids : ∀ ks : List (Key × Tree), uncommented (ofKids ks) = ofKids ks
  | [] => by simp [ofKids, uncommented]
  | (k, t) :: r => by simp only [ofKids]; rw [uncommented_ofTree k t, uncommented_ofKids r]
end

theorem ofKids_isEmpty (ks : List (Key × Tree)) : (ofKids ks).isEmpty = ks.isEmpty := by
  cases ks <;> simp [ofKids]

mutual
theorem ok_ofTree (pretty trim : Bool) (k : Key) : ∀ t : Tree, ElemName k ∧ TextOk pretty trim t.data (!t.kids.isEmpty) →
    (∀ k s, Inside k s t → ElemName k ∧ TextOk pretty trim s.data (!s.kids.isEmpty)) → (ofTree k t).Ok pretty trim
  | .node d ks, h0, h => by
    simp only [ofTree, Node.Ok, ofKids_isEmpty]
    refine ⟨h0.1, by simp, h0.2, ok_ofKids pretty trim ks fun k t ht => ⟨h k t (.child ht), fun k' s hs => h k' s (.deeper ht hs)⟩⟩
theorem ok_ofKids (pretty trim : Bool) : ∀ ks : List (Key × Tree), (∀ k t, (k, t) ∈ ks → (ElemName k ∧ TextOk pretty trim t.data (!t.kids.isEmpty)) ∧
    ∀ k s, Inside k s t → ElemName k ∧ TextOk pretty trim s.data (!s.kids.isEmpty)) → OkL pretty trim (ofKids ks)
  | [], _ => by simp [ofKids, OkL]
  | (k, t) :: r, h => by
    simp only [ofKids, OkL]
    exact ⟨ok_ofTree pretty trim k t (h k t (by simp)).1 (h k t (by simp)).2, ok_ofKids pretty trim r fun k t ht => h k t (by simp [ht])⟩
end

/-! ## Lemmas: a datum of the root -/

theorem encode_visible {d : Str} (hd : d ≠ []) (hv : Visible d) : ∃ x ∈ encode d, isWs x = false := by
  obtain ⟨a, d', hdc⟩ := List.exists_cons_of_ne_nil hd
  rcases hv with ⟨c, hc, hcw⟩ | hall
  · have henc : encode d = d.flatMap encodeChar := by
      rw [hdc]
      unfold encode
      simp only
      rw [if_neg]
      intro hall
      rw [List.all_eq_true] at hall
      have := hall c (by rw [← hdc]; exact hc)
      simp at this; subst this; simp at hcw
    rw [henc]
    rcases encodeChar_cases c with h | h
    · exact ⟨c, List.mem_flatMap.2 ⟨c, hc, by rw [h.1]; simp⟩, by rw [← Bool.not_eq_true, isWs_iff]; exact hcw⟩
    · exact ⟨'&', List.mem_flatMap.2 ⟨c, hc, by rw [h.1]; simp⟩, by decide⟩
  · refine ⟨'&', ?_, by decide⟩
    rw [hdc]
    unfold encode
    simp only
    rw [if_pos (by rw [List.all_eq_true]; intro x hx; simpa using hall x (by rw [hdc]; exact hx))]
    simp

theorem dropWhile_visible (x : Char) (hxw : isWs x = false) (q : Str) : ∀ l : Str, (∀ y ∈ l, y ≠ '<') → x ∈ l → ∃ c s, (l ++ q).dropWhile isWs = c :: s ∧ c ≠ '<'
  | [], _, h => by simp at h
  | a :: l, hl, hx => by
    by_cases ha : isWs a = true
    · rw [List.cons_append, List.dropWhile_cons, if_pos ha]
      refine dropWhile_visible x hxw q l (fun y hy => hl y (by simp [hy])) ?_
      rcases List.mem_cons.1 hx with rfl | h
      · rw [hxw] at ha; exact absurd ha (by simp)
      · exact h
    · rw [List.cons_append, List.dropWhile_cons, if_neg ha]
      exact ⟨a, _, rfl, hl a (by simp)⟩

theorem writeXml_nil (pretty : Bool) (ks : List (Key × Tree)) : writeXml pretty (.node [] ks) =
    "<?xml version=\"1.0\" encoding=\"utf-8\"?>\n".toList ++ writeKids pretty (hasElements ks && pretty) 0 ks := rfl

/-- the reader behind the declaration -/
theorem readXml_decl (o : Opts) (W : Str) : readXml o ("<?xml version=\"1.0\" encoding=\"utf-8\"?>\n".toList ++ W) =
    (run o (39 + (W.takeWhile (· ≠ Char.ofNat 0)).length) ⟨[], [], []⟩ [] ('\n' :: W.takeWhile (· ≠ Char.ofNat 0))).map (fun e => Tree.node e.data e.kids) := by
  have h1 : ("<?xml version=\"1.0\" encoding=\"utf-8\"?>\n".toList ++ W).takeWhile (· ≠ Char.ofNat 0) =
      "<?xml version=\"1.0\" encoding=\"utf-8\"?>\n".toList ++ W.takeWhile (· ≠ Char.ofNat 0) :=
    List.takeWhile_append_of_pos (by decide)
  generalize hV : W.takeWhile (· ≠ Char.ofNat 0) = V at h1
  unfold readXml
  simp only [h1]
  have hbom : skipBom ("<?xml version=\"1.0\" encoding=\"utf-8\"?>\n".toList ++ V) = "<?xml version=\"1.0\" encoding=\"utf-8\"?>\n".toList ++ V := by
    unfold skipBom
    rw [if_neg]
    rw [List.isPrefixOf_iff_prefix]
    rintro ⟨t, ht⟩
    exact absurd (List.cons.inj ht).1 (by decide)
  rw [hbom]
  have htok : tok o ⟨[], [], []⟩ [] ("<?xml version=\"1.0\" encoding=\"utf-8\"?>\n".toList ++ V) = some (.go ⟨[], [], []⟩ [] ('\n' :: V)) := by
    show tok o ⟨[], [], []⟩ [] ('<' :: ('?' :: ("xml version=\"1.0\" encoding=\"utf-8\"?>\n".toList ++ V))) = _
    rw [tok_node o _ _ _ (by simp)]
    unfold node
    simp only [cutAt_decl, Option.map_some]
  have hlen : ("<?xml version=\"1.0\" encoding=\"utf-8\"?>\n".toList ++ V).length = 39 + V.length := by
    rw [List.length_append]; rfl
  rw [hlen, run_step htok]

/-! ## C158 -/

/-- the trees that survive as XML: no datum at the root, keys that are names of elements, data that survive -/
def EntriesOk (pretty trim : Bool) (t : Tree) : Prop := t.data = [] ∧ ∀ k s, Inside k s t → ElemName k ∧ TextOk pretty trim s.data (!s.kids.isEmpty)

/-- **C158, as claimed**: a tree written as XML is read back as it was, whatever the flags `human readable` and `ignore comments` are (the same
for both) and whether or not closing tags are compared. -/
def C158_claim : Prop := ∀ (human ignoreComments validate : Bool) (t : Tree),
  readXml (readOptions human ignoreComments validate) (writeXml human t) = some t

/-- **C158, what holds** A document of elements with attributes, texts and comments that is written with one setting of the flag `human
readable` and read with any settings comes back, with its order, repeated names and attributes — without its comments if they are ignored —
if its names are names and its texts survive. -/
theorem C158_document_partial (writtenHuman readHuman ignoreComments validate : Bool) (ns : List Node) (h : OkL writtenHuman readHuman ns) :
    readXml (readOptions readHuman ignoreComments validate) (writeXml writtenHuman (.node [] (entries ns))) =
      some (.node [] (entries (if ignoreComments then uncommented ns else ns))) :=
  read_document (readOptions readHuman ignoreComments validate) writtenHuman ns h

/-- **C158, what holds** Every tree of entries — no attributes, no comments — whose keys are names and whose data survive comes back. -/
theorem C158_tree_partial (writtenHuman readHuman ignoreComments validate : Bool) (t : Tree) (h : EntriesOk writtenHuman readHuman t) :
    readXml (readOptions readHuman ignoreComments validate) (writeXml writtenHuman t) = some t := by
  obtain ⟨d, ks⟩ := t
  obtain ⟨h0, h1⟩ := h
  simp only [Tree.data] at h0
  subst h0
  have hok : OkL writtenHuman readHuman (ofKids ks) :=
    ok_ofKids _ _ ks fun k t ht => ⟨h1 k t (.child ht), fun k' s hs => h1 k' s (.deeper ht hs)⟩
  have := C158_document_partial writtenHuman readHuman ignoreComments validate (ofKids ks) hok
  rw [uncommented_ofKids, ite_self, entries_ofKids] at this
  exact this

/-- **C158, what holds** `save` to a file whose name ends in `.xml` and `load` of that file give such a tree back. -/
theorem C158_save_load_partial (F : Formats) (writtenHuman readHuman ignoreComments validate : Bool)
    (hw : F.write .xml = fun t => some (writeXml writtenHuman t)) (hr : F.read .xml = readXml (readOptions readHuman ignoreComments validate))
    (junk : Str) (d : Disk) (path : Str) (hp : ".xml".toList <:+ path) (hd : d.writable path = true)
    (t t0 : Tree) (h : EntriesOk writtenHuman readHuman t) :
    (save F junk d path t).1 = none ∧ load F (save F junk d path t).2 path t0 = (none, t) := by
  refine (C95_save_load F junk d path t t0).1 .xml (writeXml writtenHuman t) hp hd (by rw [hw]) ?_
  rw [hr]
  exact C158_tree_partial writtenHuman readHuman ignoreComments validate t h

/-- **C158, what goes wrong** A tree whose root has a datum that is not only white space (or is only blanks) is written, but the file is
refused by every reader. -/
theorem C158_root_datum (human : Bool) (o : Opts) (d : Str) (ks : List (Key × Tree)) (hd : d ≠ []) (hv : Visible d) (hz : NoZero d) :
    readXml o (writeXml human (.node d ks)) = none := by
  have he : d.isEmpty = false := by simpa using hd
  obtain ⟨Q, hQ⟩ : ∃ Q, writeXml human (.node d ks) = "<?xml version=\"1.0\" encoding=\"utf-8\"?>\n".toList ++ (encode d ++ Q) := by
    unfold writeXml
    simp only [he, Bool.false_eq_true, if_false, writeText]
    refine ⟨nl (hasElements ks && human) ++ writeKids human (hasElements ks && human) 0 ks, ?_⟩
    have : (if (hasElements ks && human) = true then indent human 0 else []) = ([] : Str) := by
      split <;> simp [indent]
    rw [this]; simp
  rw [hQ, readXml_decl, List.takeWhile_append_of_pos (by
    intro c hc
    have := noZero_encode hz
    simp only [ne_eq, decide_not, Bool.not_eq_eq_eq_not, Bool.not_true, decide_eq_false_iff_not]
    rintro rfl; exact this hc)]
  obtain ⟨x, hx, hxw⟩ := encode_visible hd hv
  generalize Q.takeWhile (· ≠ Char.ofNat 0) = R
  obtain ⟨c, s, hcs, hc⟩ := dropWhile_visible x hxw R (encode d) (fun y hy => (encode_mem hy).1) hx
  have hcs' : ('\n' :: (encode d ++ R)).dropWhile isWs = c :: s := by
    rw [List.dropWhile_cons, if_pos (by decide), hcs]
  have htok : tok o ⟨[], [], []⟩ [] ('\n' :: (encode d ++ R)) = none := by
    unfold tok
    rw [hcs']
    simp [hc]
  rw [show 39 + (encode d ++ R).length = (38 + (encode d ++ R).length) + 1 from by omega, run, htok]
  rfl

/-- **C158, what goes wrong** A value that is only white space, and not only blanks, is lost silently: the element is read back empty. -/
theorem C158_blank_lost (human : Bool) (o : Opts) (k : Key) (d : Str) (hk : ElemName k) (hd : ∀ c ∈ d, c ∈ [' ', '\n', '\r', '\t'])
    (hn : ∃ c ∈ d, c ≠ ' ') :
    readXml o (writeXml human (.node [] [(k, .node d [])])) = some (.node [] [(k, .node [] [])]) := by
  obtain ⟨x, hx, hxb⟩ := hn
  have hne : d ≠ [] := by rintro rfl; simp at hx
  have hde : d.isEmpty = false := by simpa using hne
  have hws : ∀ c ∈ d, isWs c = true := fun c hc => (isWs_iff c).2 (hd c hc)
  have henc : encode d = d := by
    obtain ⟨a, d', hdc⟩ := List.exists_cons_of_ne_nil hne
    rw [hdc]
    unfold encode
    simp only
    rw [if_neg]
    · rw [← hdc]
      have : ∀ l : Str, (∀ c ∈ l, isWs c = true) → l.flatMap encodeChar = l := by
        intro l
        induction l with
        | nil => simp
        | cons c l ih =>
          intro hl
          rw [List.flatMap_cons, ih fun c hc => hl c (by simp [hc])]
          rcases encodeChar_cases c with h | h
          · rw [h.1]; rfl
          · have h1 := (isWs_iff c).1 (hl c (by simp))
            have h2 := h.2
            simp at h1 h2
            rcases h1 with rfl | rfl | rfl | rfl <;> simp at h2
      exact this d hws
    · intro hall
      rw [List.all_eq_true] at hall
      have := hall x (by rw [← hdc]; exact hx)
      simp at this; exact hxb this
  have hkey := elemName_ne hk
  have htext : writeXml human (.node [] [(k, .node d [])]) = "<?xml version=\"1.0\" encoding=\"utf-8\"?>\n".toList ++
      ('<' :: (k ++ (attrText [] ++ '>' :: (d ++ ('<' :: '/' :: (k ++ '>' :: nl human)))))) := by
    have h1 : writeElem human 0 k (.node d []) = '<' :: (k ++ (attrText [] ++ '>' :: (d ++ ('<' :: '/' :: (k ++ '>' :: nl human))))) := by
      have h1 := writeElem_eq human 0 k [] d [] (by simp)
      rw [if_neg (fun h => hne h.1), if_neg hne] at h1
      simp only [attrKids, List.isEmpty_nil, if_true, List.nil_append] at h1
      rw [h1]
      cases human <;> simp [indent, nl, writeText, henc, writeKids]
    have h2 : writeKids human (hasElements [(k, Tree.node d [])] && human) 0 [(k, .node d [])] = writeElem human 0 k (.node d []) := by
      simp only [writeKids, List.append_nil]
      rw [if_neg hkey.1, if_neg hkey.2.2, if_neg hkey.2.1]
    rw [writeXml_nil, h2, h1]
  have hz : NoZero ('<' :: (k ++ (attrText [] ++ '>' :: (d ++ ('<' :: '/' :: (k ++ '>' :: nl human)))))) := by
    refine noZero_cons (by decide) (noZero_append hk.2.2.1 (noZero_append (by simp [attrText, NoZero]) (noZero_cons (by decide)
      (noZero_append (noZero_ws hws) (noZero_cons (by decide) (noZero_cons (by decide) (noZero_append hk.2.2.1
      (noZero_cons (by decide) (noZero_ws (nl_ws _))))))))))
  rw [htext, readXml_decl, Verif.PTree.InfoFile.takeWhile_nonul _ (fun c hc h0 => hz (h0 ▸ hc))]
  have hnr : ∀ s : Str, (k ++ s).head? ≠ some '/' := by
    intro s
    obtain ⟨c, k', hck⟩ := List.exists_cons_of_ne_nil hk.1
    rw [hck]
    have := hk.2.2.2 c (by simp [hck])
    simp at this
    simpa using this.2.2.2.2.1
  have ht1 : ∀ q, tok o ⟨[], [], []⟩ [] ('<' :: (k ++ (attrText [] ++ '>' :: q))) = some (.go ⟨k, [], []⟩ [⟨[], [], []⟩] q) := by
    intro q
    rw [tok_node o _ _ _ (hnr _)]
    exact (node_elem o _ _ k hk [] (by simp) _).1
  have ht2 := tok_close o ⟨k, [], []⟩ ⟨[], [], []⟩ [] (nl human) hk
  generalize hL : ('<' :: (k ++ (attrText [] ++ '>' :: (d ++ ('<' :: '/' :: (k ++ '>' :: nl human)))))).length = L
  rw [show 39 + L = (36 + L) + 1 + 1 + 1 from by omega]
  have hr := run_ws o ((36 + L) + 1 + 1 + 1) ⟨[], [], []⟩ [] ['\n'] ('<' :: (k ++ (attrText [] ++ '>' :: (d ++ ('<' :: '/' :: (k ++ '>' :: nl human))))))
    (by intro c hc; simp at hc; subst hc; decide) (startsTag_lt _)
  rw [List.cons_append, List.nil_append] at hr
  rw [hr, run_step (ht1 _), run_ws o _ _ _ d _ hws (startsTag_lt _), run_step ht2, run]
  have : tok o ⟨[], [], [] ++ [(k, .node [] [])]⟩ [] (nl human) = some .done := by
    unfold tok
    have : (nl human).dropWhile isWs = [] := by cases human <;> decide
    rw [this]; rfl
  simp only [this]
  rfl

/-- **C158, as claimed, is false**: the datum of the root makes the file unreadable, a line break is lost, two blanks become one in human
readable mode, and a key with a blank makes the file unreadable. -/
theorem C158_negation : ¬ C158_claim ∧
    (∀ human o, readXml o (writeXml human (.node "v".toList [])) = none) ∧
    (∀ human o, readXml o (writeXml human (.node [] [("k".toList, .node "\n".toList [])])) = some (.node [] [("k".toList, .node [] [])])) ∧
    readXml (readOptions true false true) (writeXml true (.node [] [("k".toList, .node "a  b".toList [])])) =
      some (.node [] [("k".toList, .node "a b".toList [])]) ∧
    readXml (readOptions false false true) (writeXml false (.node [] [("a b".toList, .node "v".toList [])])) = none := by
  have h1 : ∀ human o, readXml o (writeXml human (.node "v".toList [])) = none := fun human o =>
    C158_root_datum human o "v".toList [] (by simp) (Or.inl ⟨'v', by simp, by simp⟩) (by unfold NoZero; decide)
  refine ⟨fun h => ?_, h1, fun human o => C158_blank_lost human o _ _ (by unfold ElemName NoZero; decide) (by simp) ⟨'\n', by simp, by decide⟩, rfl, rfl⟩
  have := h false false false (.node "v".toList [])
  rw [h1] at this
  exact absurd this (by simp)

/-- the hypotheses of C158 are met: attributes, nested elements with texts, special characters, repeated names and comments come back -/
def exDoc : List Node :=
  [.comment " a - b ".toList,
   .elem "a".toList [("x".toList, "1 <2> \"".toList), ("y".toList, [])] "t & u".toList [.elem "b".toList [] [] [], .comment [], .elem "b".toList [] "v".toList []]]

theorem commentOk_of {c : Str} (hz : NoZero c) (h : '>' ∉ c) : CommentOk c := by
  refine ⟨hz, ?_⟩
  rintro ⟨a, b, rfl⟩
  exact h (by simp)

theorem exDoc_ok : OkL true true exDoc := by
  simp only [exDoc, OkL, Node.Ok, and_true]
  have ha : ElemName "a".toList := by unfold ElemName NoZero; decide
  have hb : ElemName "b".toList := by unfold ElemName NoZero; decide
  have hx : AttrName "x".toList := by unfold AttrName NoZero; decide
  have hy : AttrName "y".toList := by unfold AttrName NoZero; decide
  have hv : NoZero "1 <2> \"".toList := by unfold NoZero; decide
  refine ⟨commentOk_of (by unfold NoZero; decide) (by decide), ha, ?_, ?_, ⟨hb, by simp, ?_⟩, commentOk_of (by simp [NoZero]) (by simp), hb, by simp, ?_⟩
  · intro a h
    rcases List.mem_cons.1 h with rfl | h
    · exact ⟨hx, hv⟩
    · rw [List.mem_singleton.1 h]; exact ⟨hy, by simp [NoZero]⟩
  · exact ⟨by unfold NoZero; decide, by simpa using ⟨["t".toList, "&".toList, "u".toList], by decide, rfl⟩, by simp⟩
  · exact ⟨by unfold NoZero; decide, by simpa using ⟨[], by simp, rfl⟩, by simp⟩
  · exact ⟨by unfold NoZero; decide, by simpa using ⟨["v".toList], by decide, rfl⟩, by simp⟩

example (ignoreComments validate : Bool) : readXml (readOptions true ignoreComments validate) (writeXml true (.node [] (entries exDoc))) =
    some (.node [] (entries (if ignoreComments then uncommented exDoc else exDoc))) :=
  C158_document_partial true true ignoreComments validate exDoc exDoc_ok

example : writeXml true (.node [] (entries exDoc)) =
    ("<?xml version=\"1.0\" encoding=\"utf-8\"?>\n<!-- a - b -->\n<a x=\"1 &lt;2&gt; &quot;\" y=\"\">\n\tt &amp; u\n\t<b/>\n\t<!---->\n\t<b>v</b>\n</a>\n").toList := by
  set_option maxRecDepth 4000 in decide

/-- a tree with a text of two lines, written and read plainly -/
example : EntriesOk false false (.node [] [("p".toList, .node "x\n y ".toList [("q".toList, .node "  ".toList [])]), ("p".toList, .node [] [])]) := by
  refine ⟨rfl, ?_⟩
  have hq : ∀ k s, ¬ Inside k s (.node "  ".toList []) := by
    intro k s h
    cases h with
    | child h => simp [Tree.kids] at h
    | deeper h _ => simp [Tree.kids] at h
  have hq' : ∀ k s, ¬ Inside k s (.node [] []) := by
    intro k s h
    cases h with
    | child h => simp [Tree.kids] at h
    | deeper h _ => simp [Tree.kids] at h
  have hn : ∀ k : Key, k = "p".toList ∨ k = "q".toList → ElemName k := by
    rintro k (rfl | rfl) <;> (unfold ElemName NoZero; decide)
  have c1 : ElemName "q".toList ∧ TextOk false false "  ".toList false := ⟨hn _ (Or.inr rfl), by unfold NoZero; decide, by simp [Visible], by simp⟩
  have c2 : ElemName "p".toList ∧ TextOk false false "x\n y ".toList true := ⟨hn _ (Or.inl rfl), by unfold NoZero; decide, by simp [Visible], by simp⟩
  have c3 : ElemName "p".toList ∧ TextOk false false [] false := ⟨hn _ (Or.inl rfl), by simp [NoZero], by simp [Visible], by simp⟩
  intro k s h
  cases h with
  | child h =>
    simp only [Tree.kids, List.mem_cons, Prod.mk.injEq, List.not_mem_nil, or_false] at h
    rcases h with ⟨rfl, rfl⟩ | ⟨rfl, rfl⟩
    · exact c2
    · exact c3
  | deeper h1 h2 =>
    simp only [Tree.kids, List.mem_cons, Prod.mk.injEq, List.not_mem_nil, or_false] at h1
    rcases h1 with ⟨rfl, rfl⟩ | ⟨rfl, rfl⟩
    · cases h2 with
      | child h =>
        simp only [Tree.kids, List.mem_cons, Prod.mk.injEq, List.not_mem_nil, or_false] at h
        obtain ⟨rfl, rfl⟩ := h
        exact c1
      | deeper h1 h2 =>
        simp only [Tree.kids, List.mem_cons, Prod.mk.injEq, List.not_mem_nil, or_false] at h1
        obtain ⟨rfl, rfl⟩ := h1
        exact absurd h2 (hq _ _)
    · exact absurd h2 (hq' _ _)

end Verif.PTree.XmlFile
