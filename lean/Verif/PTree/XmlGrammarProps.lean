import Verif.PTree.XmlGrammar
import Verif.PTree.JsonGrammarProps
import Mathlib.Tactic.Tauto

/-!
# C164: every XML file is loaded as what it says
-/

namespace Verif.PTree.XmlFile

open Verif.PTree
open Verif.PTree.JsonFile (HexDigit utf8Bytes bom)

/-! ## Lemmas: characters and names -/

theorem space_ws {w : Str} (h : Space w) : ∀ c ∈ w, isWs c = true := by
  intro c hc
  have := h c hc
  rw [isWs_iff]
  simp at this ⊢
  rcases this with h | h | h | h <;> simp [h]

theorem isSpace_char (c : Char) : (Piece.char c).isSpace = isWs c := by
  rw [Bool.eq_iff_iff, isWs_iff]
  unfold Piece.isSpace
  simp
  constructor <;> rintro (h | h | h | h) <;> simp [h]

theorem nameStart_not {c : Char} (h : NameStart c) : c ∉ [' ', '\n', '\r', '\t', '/', '<', '>', '=', '?', '!', '-', '.'] := by
  intro hm
  simp only [List.mem_cons, List.not_mem_nil, or_false] at hm
  rcases hm with rfl | rfl | rfl | rfl | rfl | rfl | rfl | rfl | rfl | rfl | rfl | rfl <;> exact absurd h (by unfold NameStart; decide)

theorem nameChar_not {c : Char} (h : NameChar c) : c ∉ [' ', '\n', '\r', '\t', '/', '<', '>', '=', '?', '!'] := by
  intro hm
  simp only [List.mem_cons, List.not_mem_nil, or_false] at hm
  rcases hm with rfl | rfl | rfl | rfl | rfl | rfl | rfl | rfl | rfl | rfl <;> exact absurd h (by unfold NameChar NameStart; decide)

theorem name_all {k : Str} (h : Name k) : ∀ c ∈ k, isAttrName c = true ∧ isName c = true := by
  obtain ⟨c, r, rfl, hc, hr⟩ := h
  intro d hd
  have hn : NameChar d := by
    rcases List.mem_cons.1 hd with rfl | h
    · exact .inl hc
    · exact hr d h
  have := nameChar_not hn
  refine ⟨isAttrName_of this, isName_of ?_⟩
  simp at this ⊢
  tauto

theorem name_head {k : Str} (h : Name k) : ∃ c r, k = c :: r ∧ c ≠ '?' ∧ c ≠ '!' ∧ c ≠ '/' ∧ isWs c = false := by
  obtain ⟨c, r, rfl, hc, -⟩ := h
  have := nameStart_not hc
  simp at this
  refine ⟨c, r, rfl, by tauto, by tauto, by tauto, ?_⟩
  rw [Bool.eq_false_iff, Ne, isWs_iff]
  simp
  tauto

/-! ## Lemmas: references -/

theorem digit_of {c : Char} {n : Nat} (h : HexDigit c n) : digit? c = some n := by
  have hn : n < 16 := by
    rcases h with h | h
    all_goals
      refine Nat.lt_of_not_le fun hc => ?_
      rw [List.getElem?_eq_none (by exact hc)] at h
      simp at h
  have all : ∀ m : Fin 16, ∀ d : Char, ("0123456789abcdef".toList[m.val]? = some d ∨ "0123456789ABCDEF".toList[m.val]? = some d) → digit? d = some m.val := by
    intro m d hd
    simp at hd
    rcases hd with rfl | rfl
    · revert m; decide
    · revert m; decide
  exact all ⟨n, hn⟩ c h

theorem code_of {base : Nat} {s : Str} {n : Nat} (h : Numeral base s n) : ∀ t, code base 0 (s ++ t) = code base n t := by
  induction h with
  | one hd _ => intro t; rw [List.singleton_append, code, digit_of hd]; simp
  | snoc _ hd _ ih =>
    intro t
    rw [List.append_assoc, ih, List.singleton_append, code, digit_of hd]

theorem code_stop (base n : Nat) (t : Str) : code base n (';' :: t) = (n, ';' :: t) := rfl

theorem utf8_of (c : Char) : utf8 c.toNat = some (utf8Bytes c) := by
  have hc : c.toNat < 0x110000 := by
    rcases c.valid with h | h
    · have : c.toNat < 0xD800 := h
      omega
    · exact h.2
  rw [← JsonFile.utf8_eq]
  unfold utf8 JsonFile.utf8
  split
  · rfl
  split
  · rename_i h1 h2
    rw [show c.toNat / 64 % 32 = c.toNat / 64 by omega]
  split
  · rw [show c.toNat / 4096 % 16 = c.toNat / 4096 by omega]
  · rw [show c.toNat / 262144 % 8 = c.toNat / 262144 by omega]

theorem numeral_head {base : Nat} {s : Str} {n : Nat} (h : Numeral base s n) : ∃ c r m, s = c :: r ∧ HexDigit c m := by
  induction h with
  | one hd _ => exact ⟨_, _, _, rfl, hd⟩
  | snoc _ _ _ ih => obtain ⟨c, r, m, rfl, hm⟩ := ih; exact ⟨c, _, m, rfl, hm⟩

theorem charRef_of {r v : Str} (h : RefText r v) (t : Str) : ∃ r', r = '&' :: r' ∧ charRef (r' ++ t) = .is v t := by
  cases h with
  | entity h =>
    refine ⟨_, rfl, ?_⟩
    simp only [predefined, List.mem_cons, Prod.mk.injEq, List.not_mem_nil, or_false] at h
    rcases h with ⟨rfl, rfl⟩ | ⟨rfl, rfl⟩ | ⟨rfl, rfl⟩ | ⟨rfl, rfl⟩ | ⟨rfl, rfl⟩ <;> rfl
  | @decimal ds c h =>
    refine ⟨_, rfl, ?_⟩
    obtain ⟨x, y, m, hx, hm⟩ := numeral_head h
    have hne : x ≠ 'x' := by
      rintro rfl
      have h1 := digit_of hm
      rw [show digit? 'x' = none from by decide] at h1
      simp at h1
    have e : charRef ('#' :: (ds ++ [';']) ++ t) = numeric (code 10 0 (ds ++ ';' :: t)) := by
      rw [hx]
      simp only [List.cons_append, List.append_assoc, List.nil_append]
      unfold charRef
      split <;> simp_all
    rw [e, code_of h, code_stop, numeric, utf8_of]
    rfl
  | @hexadecimal ds c h =>
    refine ⟨_, rfl, ?_⟩
    have e : charRef ('#' :: 'x' :: (ds ++ [';']) ++ t) = numeric (code 16 0 (ds ++ ';' :: t)) := by
      simp only [List.cons_append, List.append_assoc, List.nil_append]
      rfl
    rw [e, code_of h, code_stop, numeric, utf8_of]
    rfl

theorem ref_length {r v : Str} (h : RefText r v) : 1 ≤ r.length := by
  obtain ⟨r', rfl, -⟩ := charRef_of h []
  simp

/-! ## Lemmas: texts -/

theorem pieces_drop {q : Option Char} {s : Str} {ps : List Piece} (h : Pieces q s ps) : Pieces q (s.dropWhile isWs) (ps.dropWhile Piece.isSpace) := by
  induction h with
  | nil => exact .nil
  | @char c s ps h1 h2 h3 h ih =>
    by_cases hc : isWs c = true
    · rw [List.dropWhile_cons, if_pos hc, List.dropWhile_cons, if_pos (by rw [isSpace_char]; exact hc)]; exact ih
    · rw [List.dropWhile_cons, if_neg hc, List.dropWhile_cons, if_neg (by rw [isSpace_char]; exact hc)]
      exact .char h1 h2 h3 h
  | @ref r v s ps hr h ih =>
    have e : (r ++ s).dropWhile isWs = r ++ s := by
      obtain ⟨r', rfl, -⟩ := charRef_of hr []
      rw [List.cons_append, List.dropWhile_cons, if_neg (by decide)]
    rw [e, List.dropWhile_cons, if_neg (by simp [Piece.isSpace])]
    exact .ref hr h

theorem collapse_true (ps : List Piece) : collapse true ps = collapse false (ps.dropWhile Piece.isSpace) := by
  induction ps with
  | nil => rfl
  | cons p ps ih =>
    by_cases hp : p.isSpace = true
    · rw [collapse, if_pos hp, if_pos rfl, List.nil_append, ih, List.dropWhile_cons, if_pos hp]
    · rw [collapse, if_neg hp, List.dropWhile_cons, if_neg hp, collapse, if_neg hp]

theorem dropWhile_len (p : Char → Bool) (s : Str) : (s.dropWhile p).length ≤ s.length := (List.dropWhile_sublist p).length_le

theorem expand_pieces (norm : Bool) {q : Option Char} : ∀ (n : Nat) (s : Str) (ps : List Piece), s.length ≤ n → Pieces q s ps →
    expand norm n s = some (if norm then collapse false ps else plain ps)
  | n, s, ps, hn, h => by
    cases h with
    | nil => rw [expand_nil]; cases norm <;> rfl
    | @char c s ps h1 h2 h3 h =>
      obtain ⟨n, rfl⟩ : ∃ m, n = m + 1 := ⟨n - 1, by simp at hn; omega⟩
      have hs : s.length ≤ n := by simpa using hn
      rw [expand, if_neg h2]
      by_cases hw : norm = true ∧ isWs c = true
      · obtain ⟨rfl, hw⟩ := hw
        have hp := pieces_drop h
        rw [if_pos (by simp [hw]), expand_pieces true n _ _ (Nat.le_trans (dropWhile_len _ _) hs) hp]
        simp only [if_true, Option.map_some]
        rw [collapse, if_pos (by rw [isSpace_char]; exact hw), collapse_true]
        simp
      · rw [if_neg (by simpa using hw), expand_pieces norm n s ps hs h, Option.map_some]
        cases norm with
        | false => rfl
        | true =>
          simp only [if_true]
          rw [collapse, if_neg (by rw [isSpace_char]; simpa using hw)]
          rfl
    | @ref r v s ps hr h =>
      obtain ⟨r', rfl, hc⟩ := charRef_of hr s
      obtain ⟨n, rfl⟩ : ∃ m, n = m + 1 := ⟨n - 1, by simp at hn; omega⟩
      have hs : s.length ≤ n := by simp at hn; omega
      rw [List.cons_append, expand, if_pos rfl, hc]
      simp only
      rw [expand_pieces norm n s ps hs h, Option.map_some]
      cases norm with
      | false => rfl
      | true =>
        simp only [if_true]
        rw [collapse, if_neg (by simp [Piece.isSpace])]
        rfl

theorem ref_no {r v : Str} (h : RefText r v) : ∀ c ∈ r, c ≠ '<' ∧ c ≠ '"' ∧ c ≠ '\'' := by
  have num : ∀ (base : Nat) (s : Str) (n : Nat), Numeral base s n → ∀ c ∈ s, c ≠ '<' ∧ c ≠ '"' ∧ c ≠ '\'' := by
    intro base s n h
    have dig : ∀ c m, HexDigit c m → c ≠ '<' ∧ c ≠ '"' ∧ c ≠ '\'' := by
      intro c m hm
      have := digit_of hm
      refine ⟨?_, ?_, ?_⟩ <;> rintro rfl <;> exact absurd this (by rw [show digit? _ = none from by decide]; simp)
    induction h with
    | one hd _ => intro c hc; simp at hc; subst hc; exact dig _ _ hd
    | snoc _ hd _ ih =>
      intro c hc
      rcases List.mem_append.1 hc with h | h
      · exact ih c h
      · simp at h; subst h; exact dig _ _ hd
  cases h with
  | entity h =>
    simp only [predefined, List.mem_cons, Prod.mk.injEq, List.not_mem_nil, or_false] at h
    rcases h with ⟨rfl, rfl⟩ | ⟨rfl, rfl⟩ | ⟨rfl, rfl⟩ | ⟨rfl, rfl⟩ | ⟨rfl, rfl⟩ <;> decide
  | decimal h =>
    intro c hc
    simp at hc
    rcases hc with rfl | rfl | hc | rfl
    · decide
    · decide
    · exact num _ _ _ h c hc
    · decide
  | hexadecimal h =>
    intro c hc
    simp at hc
    rcases hc with rfl | rfl | rfl | hc | rfl
    · decide
    · decide
    · decide
    · exact num _ _ _ h c hc
    · decide

theorem pieces_no {q : Option Char} (hq : q = none ∨ q = some '"' ∨ q = some '\'') {s : Str} {ps : List Piece} (h : Pieces q s ps) :
    ∀ c ∈ s, c ≠ '<' ∧ some c ≠ q := by
  induction h with
  | nil => simp
  | char h1 h2 h3 _ ih =>
    intro c hc
    rcases List.mem_cons.1 hc with rfl | hc
    · exact ⟨h1, h3⟩
    · exact ih c hc
  | ref hr _ ih =>
    intro c hc
    rcases List.mem_append.1 hc with hc | hc
    · have := ref_no hr c hc
      rcases hq with rfl | rfl | rfl <;> simp [this]
    · exact ih c hc

theorem pieces_all {q : Option Char} {s : Str} {ps : List Piece} (h : Pieces q s ps) : ps.all Piece.isSpace = true → ∀ c ∈ s, isWs c = true := by
  induction h with
  | nil => simp
  | @char c s ps _ _ _ _ ih =>
    intro ha d hd
    rw [List.all_cons, Bool.and_eq_true] at ha
    rcases List.mem_cons.1 hd with rfl | hd
    · rw [← isSpace_char]; exact ha.1
    · exact ih ha.2 d hd
  | ref _ _ _ => intro ha; simp [Piece.isSpace] at ha

/-- a text that is not only white space -/
theorem pieces_visible {q : Option Char} {s : Str} {ps : List Piece} (h : Pieces q s ps) : ps.all Piece.isSpace = false → s.dropWhile isWs ≠ [] := by
  induction h with
  | nil => simp
  | @char c s ps _ _ _ _ ih =>
    intro ha
    by_cases hc : isWs c = true
    · rw [List.dropWhile_cons, if_pos hc]
      refine ih ?_
      rw [List.all_cons, isSpace_char, hc, Bool.true_and] at ha
      exact ha
    · rw [List.dropWhile_cons, if_neg hc]; simp
  | @ref r v s ps hr _ _ =>
    intro _
    obtain ⟨r', rfl, -⟩ := charRef_of hr []
    rw [List.cons_append, List.dropWhile_cons, if_neg (by decide)]; simp

/-! ## Lemmas: attributes -/

theorem attributesOf_eq (as : List (Key × Str)) : attributesOf as = attrKids as := by
  unfold attributesOf attrKids
  cases as <;> rfl

theorem dropWs_of {w : Str} (h : Space w) {c : Char} (hc : isWs c = false) (r : Str) : (w ++ c :: r).dropWhile isWs = c :: r := by
  rw [dropWhile_app w _ (space_ws h), List.dropWhile_cons, if_neg (by simp [hc])]

theorem oneAttr_of {k a b v s : Str} {q : Char} {ps : List Piece} (hk : Name k) (ha : Space a) (hb : Space b) (hq : q = '"' ∨ q = '\'')
    (hv : Pieces (some q) v ps) : oneAttr (k ++ (a ++ '=' :: (b ++ q :: (v ++ q :: s)))) = some (k, plain ps, s.dropWhile isWs) := by
  have hst : ∀ c ∈ (a ++ '=' :: (b ++ q :: (v ++ q :: s))).head?, isAttrName c = false := by
    cases a with
    | nil => intro c hc; simp at hc; subst hc; decide
    | cons d a =>
      intro c hc
      simp at hc
      subst hc
      have := space_ws ha d (by simp)
      simp [isAttrName, this]
  obtain ⟨t1, t2⟩ := takeWhile_app (p := isAttrName) k _ (fun c hc => (name_all hk c hc).1) hst
  have hqw : isWs q = false := by rcases hq with rfl | rfl <;> decide
  have hno : ∀ c ∈ v, decide (c ≠ q) = true := by
    intro c hc
    have := (pieces_no (by rcases hq with rfl | rfl <;> simp) hv c hc).2
    simpa using this
  obtain ⟨u1, u2⟩ := takeWhile_app (p := fun c => decide (c ≠ q)) v (q :: s) hno (by intro c hc; simp at hc; subst hc; simp)
  have he := expand_pieces false (v ++ q :: s).length v ps (by simp) hv
  unfold oneAttr
  rw [t1, t2, dropWs_of ha (by decide)]
  simp only
  rw [dropWs_of hb hqw]
  simp only
  rw [if_pos hq, u1, u2, he]
  rfl

theorem attributes_of {a : Str} {as : List (Key × Str)} (h : Attrs a as) : ∀ {w : Str} (_ : Space w) {c : Char} (_ : c = '>' ∨ c = '/') (r : Str) (n : Nat),
    a.length ≤ n → attributes n ((a ++ (w ++ c :: r)).dropWhile isWs) = some (as, c :: r) := by
  induction h with
  | nil =>
    intro w hw c hc r n _
    have h1 : isWs c = false := by rcases hc with rfl | rfl <;> decide
    have h2 : isAttrName c = false := by rcases hc with rfl | rfl <;> decide
    rw [List.nil_append, dropWs_of hw h1]
    cases n <;> simp [attributes, h2]
  | @cons w0 k a b v s q ps as hw0 hne hk ha hb hq hv hs ih =>
    intro w hw c hc r n hn
    obtain ⟨n, rfl⟩ : ∃ m, n = m + 1 := ⟨n - 1, by simp at hn; omega⟩
    obtain ⟨x, k', rfl, -, -, -, hx⟩ := name_head hk
    have e : w0 ++ (x :: k' ++ (a ++ '=' :: (b ++ q :: (v ++ q :: s)))) ++ (w ++ c :: r) =
        w0 ++ x :: (k' ++ (a ++ '=' :: (b ++ q :: (v ++ q :: (s ++ (w ++ c :: r)))))) := by simp
    have o := oneAttr_of (s := s ++ (w ++ c :: r)) hk ha hb hq hv
    rw [e, dropWs_of hw0 hx, attributes, List.head?_cons, Option.any_some, if_pos ((name_all hk x (by simp)).1)]
    rw [List.cons_append] at o
    rw [o, Option.bind_some]
    simp only
    rw [ih hw hc r n (by simp at hn; omega)]
    rfl

/-! ## Lemmas: tags -/

theorem node_tag (o : Opts) (top : Elem) (below : List Elem) {k a w : Str} {as : List (Key × Str)} (hk : Name k) (ha : Attrs a as) (hw : Space w) (r : Str) :
    node o top below (k ++ (a ++ (w ++ '>' :: r))) = some (.go ⟨k, [], attrKids as⟩ (top :: below) r) ∧
    node o top below (k ++ (a ++ (w ++ '/' :: '>' :: r))) = some (.go { top with kids := top.kids ++ [(k, .node [] (attrKids as))] } below r) := by
  obtain ⟨x, k', hxk, hq, hb, -, -⟩ := name_head hk
  have hk0 : k ≠ [] := by rw [hxk]; simp
  have key1 : ∀ (c : Char) (rest : Str), c = '>' ∨ c = '/' →
      node o top below (k ++ (a ++ (w ++ c :: rest))) = (match c :: rest with
        | '>' :: r' => some (.go ⟨k, [], attrKids as⟩ (top :: below) r')
        | '/' :: '>' :: r' => some (.go { top with kids := top.kids ++ [(k, .node [] (attrKids as))] } below r')
        | _ => none) := by
    intro c rest hc
    have hst : ∀ d ∈ (a ++ (w ++ c :: rest)).head?, isName d = false := by
      have ws : ∀ d, isWs d = true → isName d = false := fun d hd => by simp [isName, hd]
      have hcn : isName c = false := by rcases hc with rfl | rfl <;> decide
      have hwn : ∀ d ∈ (w ++ c :: rest).head?, isName d = false := by
        cases w with
        | nil => intro d hd; simp at hd; subst hd; exact hcn
        | cons y w => intro d hd; simp at hd; subst hd; exact ws _ (space_ws hw _ (by simp))
      cases ha with
      | nil => exact hwn
      | @cons w0 =>
        rename_i hw0 hne _ _ _ _ _ _
        cases w0 with
        | nil => exact absurd rfl hne
        | cons y w0 => intro d hd; simp at hd; subst hd; exact ws _ (space_ws hw0 _ (by simp))
    obtain ⟨t1, t2⟩ := takeWhile_app (p := isName) k (a ++ (w ++ c :: rest)) (fun d hd => (name_all hk d hd).2) hst
    have hat := attributes_of ha hw hc rest (k ++ (a ++ (w ++ c :: rest))).length (by simp; omega)
    have hS : k ++ (a ++ (w ++ c :: rest)) = x :: (k' ++ (a ++ (w ++ c :: rest))) := by rw [hxk]; rfl
    generalize k ++ (a ++ (w ++ c :: rest)) = S at *
    unfold node
    split
    · exact absurd (List.cons.inj hS).1.symm hq
    · exact absurd (List.cons.inj hS).1.symm hb
    · simp only [t1, t2, hk0, if_false]
      rw [hat]
      rfl
  exact ⟨key1 '>' r (.inl rfl), key1 '/' ('>' :: r) (.inr rfl)⟩

theorem tok_end (o : Opts) (top p : Elem) (below : List Elem) (w r : Str) (hk : Name top.name) (hw : Space w) :
    tok o top (p :: below) ('<' :: '/' :: (top.name ++ (w ++ '>' :: r))) = some (.go { p with kids := p.kids ++ [(top.name, .node top.data top.kids)] } below r) := by
  unfold tok
  rw [List.dropWhile_cons, if_neg (by decide)]
  have hst : ∀ d ∈ (w ++ '>' :: r).head?, isName d = false := by
    cases w with
    | nil => intro d hd; simp at hd; subst hd; decide
    | cons y w =>
      intro d hd; simp at hd; subst hd
      have := space_ws hw y (by simp)
      simp [isName, this]
  obtain ⟨t1, t2⟩ := takeWhile_app (p := isName) top.name (w ++ '>' :: r) (fun d hd => (name_all hk d hd).2) hst
  have h3 := dropWs_of hw (c := '>') (by decide) r
  simp [closing, t1, t2, h3]

/-! ## Lemmas: comments, instructions, CDATA and document types -/

theorem cutAt_cdata (c r : Str) (hc : ¬ "]]>".toList <:+: c) : cutAt "]]>".toList (c ++ ("]]>".toList ++ r)) = some (c, r) := by
  refine cutAt_first _ c r fun a b hab hb hpre => ?_
  obtain ⟨x, b1, rfl⟩ := List.exists_cons_of_ne_nil hb
  have hs : "]]>".toList = [']', ']', '>'] := by decide
  rw [hs] at hpre hc
  obtain ⟨t, ht⟩ := hpre
  cases b1 with
  | nil => simp at ht
  | cons y b2 =>
    cases b2 with
    | nil => simp at ht
    | cons z b3 =>
      simp at ht
      obtain ⟨rfl, rfl, rfl, _⟩ := ht
      exact hc ⟨a, b3, by rw [← hab]; simp⟩

theorem cutAt_instruction (c r : Str) (hc : ¬ "?>".toList <:+: c) : cutAt "?>".toList (c ++ ("?>".toList ++ r)) = some (c, r) := by
  refine cutAt_first _ c r fun a b hab hb hpre => ?_
  obtain ⟨x, b1, rfl⟩ := List.exists_cons_of_ne_nil hb
  have hs : "?>".toList = ['?', '>'] := by decide
  rw [hs] at hpre hc
  obtain ⟨t, ht⟩ := hpre
  cases b1 with
  | nil => simp at ht
  | cons y b2 =>
    simp at ht
    obtain ⟨rfl, rfl, _⟩ := ht
    exact hc ⟨a, b2, by rw [← hab]; simp⟩

theorem tok_comment' (o : Opts) (top : Elem) (below : List Elem) (c r : Str) (hc : ¬ "-->".toList <:+: c) :
    tok o top below ("<!--".toList ++ (c ++ ("-->".toList ++ r))) =
      some (.go (if o.noComments then top else { top with kids := top.kids ++ [(xmlComment, .node c [])] }) below r) := by
  have h1 : "<!--".toList ++ (c ++ ("-->".toList ++ r)) = '<' :: ('!' :: '-' :: '-' :: (c ++ ("-->".toList ++ r))) := rfl
  rw [h1, tok_node o top below _ (by simp)]
  have h2 : ("--".toList).isPrefixOf ('-' :: '-' :: (c ++ ("-->".toList ++ r))) = true := by
    rw [List.isPrefixOf_iff_prefix]; exact ⟨_, rfl⟩
  have h3 := cutAt_comment c r hc
  unfold node
  simp only [h2, if_true, List.drop_succ_cons, List.drop_zero, h3, Option.map_some]

theorem tok_instruction (o : Opts) (top : Elem) (below : List Elem) (c r : Str) (hc : ¬ "?>".toList <:+: c) :
    tok o top below ("<?".toList ++ (c ++ ("?>".toList ++ r))) = some (.go top below r) := by
  have h1 : "<?".toList ++ (c ++ ("?>".toList ++ r)) = '<' :: ('?' :: (c ++ ("?>".toList ++ r))) := rfl
  rw [h1, tok_node o top below _ (by simp)]
  unfold node
  simp only [cutAt_instruction c r hc, Option.map_some]

theorem tok_cdata (o : Opts) (top : Elem) (below : List Elem) (c r : Str) (hc : ¬ "]]>".toList <:+: c) :
    tok o top below ("<![CDATA[".toList ++ (c ++ ("]]>".toList ++ r))) = some (.go { top with data := top.data ++ c } below r) := by
  have h1 : "<![CDATA[".toList ++ (c ++ ("]]>".toList ++ r)) = '<' :: ('!' :: ("[CDATA[".toList ++ (c ++ ("]]>".toList ++ r)))) := rfl
  rw [h1, tok_node o top below _ (by simp)]
  have h2 : ("--".toList).isPrefixOf ("[CDATA[".toList ++ (c ++ ("]]>".toList ++ r))) = false := rfl
  have h3 : ("[CDATA[".toList).isPrefixOf ("[CDATA[".toList ++ (c ++ ("]]>".toList ++ r))) = true := by
    rw [List.isPrefixOf_iff_prefix]; exact ⟨_, rfl⟩
  have h4 : ("[CDATA[".toList ++ (c ++ ("]]>".toList ++ r))).drop 7 = c ++ ("]]>".toList ++ r) := rfl
  unfold node
  simp only [h2, h3, h4, if_true, cutAt_cdata c r hc, Option.map_some, Bool.false_eq_true, if_false]

theorem doctype_balanced {s : Str} (h : Balanced s) : ∀ (d : Nat) (r : Str), doctype (d + 1) (s ++ r) = doctype (d + 1) r := by
  induction h with
  | nil => intro d r; rfl
  | @char c s h1 h2 _ ih =>
    intro d r
    rw [List.cons_append, doctype, if_neg h1, if_neg (by simp [h2]), if_neg (by simp), ih]
  | @nest s s' _ _ ih ih' =>
    intro d r
    have e : '[' :: (s ++ ']' :: s') ++ r = '[' :: (s ++ ']' :: (s' ++ r)) := by simp
    rw [e, doctype, if_pos rfl, ih, doctype, if_neg (by decide), if_pos (by simp), Nat.add_sub_cancel, ih']

theorem doctype_body {s : Str} (h : TypeBody s) (r : Str) : doctype 0 (s ++ '>' :: r) = some r := by
  induction h with
  | nil => simp [doctype]
  | @char c s h1 h2 h3 _ ih => rw [List.cons_append, doctype, if_neg h1, if_neg (by simp [h2]), if_neg (by simp [h3]), ih]
  | @nest s s' hs _ ih =>
    have e : '[' :: (s ++ ']' :: s') ++ '>' :: r = '[' :: (s ++ ']' :: (s' ++ '>' :: r)) := by simp
    rw [e, doctype, if_pos rfl, doctype_balanced hs, doctype, if_neg (by decide), if_pos (by simp), Nat.add_sub_cancel, ih]

theorem tok_doctype (o : Opts) (top : Elem) (below : List Elem) (w : Char) (b r : Str) (hw : Space [w]) (hb : TypeBody b) :
    tok o top below ("<!DOCTYPE".toList ++ (w :: (b ++ '>' :: r))) = some (.go top below r) := by
  have h1 : "<!DOCTYPE".toList ++ (w :: (b ++ '>' :: r)) = '<' :: ('!' :: ("DOCTYPE".toList ++ (w :: (b ++ '>' :: r)))) := rfl
  rw [h1, tok_node o top below _ (by simp)]
  have h2 : ("--".toList).isPrefixOf ("DOCTYPE".toList ++ (w :: (b ++ '>' :: r))) = false := rfl
  have h3 : ("[CDATA[".toList).isPrefixOf ("DOCTYPE".toList ++ (w :: (b ++ '>' :: r))) = false := rfl
  have h5 : ("DOCTYPE".toList).isPrefixOf ("DOCTYPE".toList ++ (w :: (b ++ '>' :: r))) = true := by
    rw [List.isPrefixOf_iff_prefix]; exact ⟨_, rfl⟩
  have h4 : ("DOCTYPE".toList ++ (w :: (b ++ '>' :: r))).drop 7 = w :: (b ++ '>' :: r) := rfl
  have h6 : ("DOCTYPE".toList ++ (w :: (b ++ '>' :: r))).drop 8 = b ++ '>' :: r := rfl
  have hw' : isWs w = true := space_ws hw w (by simp)
  unfold node
  simp only [h2, h3, h4, h5, h6, if_true, Bool.false_eq_true, if_false, List.head?_cons, Option.any_some, hw', Bool.and_self, doctype_body hb, Option.map_some]

/-! ## Lemmas: from state to state -/

/-- whatever the reader makes of the second state, it makes of the first -/
def Leads (o : Opts) (t : Elem) (b : List Elem) (s : Str) (t' : Elem) (b' : List Elem) (s' : Str) : Prop :=
  ∀ e, (∀ f, s'.length < f → run o f t' b' s' = some e) → ∀ f, s.length < f → run o f t b s = some e

theorem Leads.trans {o : Opts} {t1 t2 t3 : Elem} {b1 b2 b3 : List Elem} {s1 s2 s3 : Str} (h : Leads o t1 b1 s1 t2 b2 s2) (h' : Leads o t2 b2 s2 t3 b3 s3) :
    Leads o t1 b1 s1 t3 b3 s3 := fun e he => h e (h' e he)

theorem Leads.refl (o : Opts) (t : Elem) (b : List Elem) (s : Str) : Leads o t b s t b s := fun _ he => he

theorem Leads.step {o : Opts} {t t' : Elem} {b b' : List Elem} {s s' : Str} (h : tok o t b s = some (.go t' b' s')) (hl : s'.length < s.length) :
    Leads o t b s t' b' s' := by
  intro e he f hf
  obtain ⟨f, rfl⟩ : ∃ g, f = g + 1 := ⟨f - 1, by omega⟩
  rw [run_step h]
  exact he f (by omega)

theorem Leads.space (o : Opts) (t : Elem) (b : List Elem) {w s : Str} (hw : ∀ c ∈ w, isWs c = true) (hs : s = [] ∨ s.head? = some '<') : Leads o t b (w ++ s) t b s := by
  intro e he f hf
  rw [run_ws o f t b w s hw]
  · exact he f (by simp at hf; omega)
  · rcases hs with rfl | hs
    · simp
    · cases s with
      | nil => simp at hs
      | cons c s =>
        simp at hs; subst hs
        rw [List.dropWhile_cons, if_neg (by decide)]; simp

/-- a text between two tags -/
theorem Leads.text (f : Flags) (v : Bool) (top : Elem) (p : Elem) (below : List Elem) {s : Str} {ps : List Piece} (h : Pieces none s ps) (r : Str) :
    Leads (readOptions f.human f.ignoreComments v) top (p :: below) (s ++ '<' :: r) { top with data := top.data ++ textOf f ps } (p :: below) ('<' :: r) := by
  by_cases ha : ps.all Piece.isSpace = true
  · have := Leads.space (readOptions f.human f.ignoreComments v) top (p :: below) (s := '<' :: r) (pieces_all h ha) (.inr rfl)
    simpa [textOf, ha] using this
  · have ha' : ps.all Piece.isSpace = false := by simpa using ha
    have hno : ∀ c ∈ s, decide (c ≠ '<') = true := fun c hc => by simpa using (pieces_no (.inl rfl) h c hc).1
    have hlt : ∀ c ∈ ('<' :: r).head?, decide (c ≠ '<') = false := by intro c hc; simp at hc; subst hc; simp
    have hd := pieces_drop h
    obtain ⟨c, s1, hc⟩ := List.exists_cons_of_ne_nil (pieces_visible h ha')
    have hsuf : ∃ w, s = w ++ c :: s1 ∧ ∀ d ∈ w, isWs d = true :=
      ⟨s.takeWhile isWs, by rw [← hc, List.takeWhile_append_dropWhile], fun d hd => List.all_eq_true.1 List.all_takeWhile d hd⟩
    obtain ⟨w, hw1, hw2⟩ := hsuf
    have hcne : c ≠ '<' := by simpa using hno c (by rw [hw1]; simp)
    have hcw : isWs c = false := by
      have := List.head?_dropWhile_not (p := isWs) (l := s)
      rw [hc] at this
      simpa using this
    have hdw : (s ++ '<' :: r).dropWhile isWs = c :: (s1 ++ '<' :: r) := by
      rw [hw1, List.append_assoc, List.cons_append, dropWhile_app w _ hw2, List.dropWhile_cons, if_neg (by simp [hcw])]
    apply Leads.step
    · cases hh : f.human with
      | true =>
        obtain ⟨t1, t2⟩ := takeWhile_app (p := fun x => decide (x ≠ '<')) (c :: s1) ('<' :: r) (fun d hd => hno d (by rw [hw1]; exact List.mem_append_right _ hd)) hlt
        rw [hc] at hd
        have he := expand_pieces true (c :: (s1 ++ '<' :: r)).length (c :: s1) _ (by simp) hd
        rw [List.cons_append] at t1 t2
        unfold tok
        rw [hdw]
        simp only [hcne, if_false, List.isEmpty_cons, Bool.false_eq_true, readOptions, if_true, t1, t2, he]
        have : trimEnd (collapse false (ps.dropWhile Piece.isSpace)) = textOf f ps := by
          rw [textOf, if_neg (by simp [ha']), if_pos hh, collapse_true]; rfl
        rw [this]
      | false =>
        obtain ⟨t1, t2⟩ := takeWhile_app (p := fun x => decide (x ≠ '<')) s ('<' :: r) hno hlt
        have he := expand_pieces false (s ++ '<' :: r).length s _ (by simp) h
        unfold tok
        rw [hdw]
        simp only [hcne, if_false, List.isEmpty_cons, Bool.false_eq_true, readOptions, t1, t2, he]
        have : plain ps = textOf f ps := by
          rw [textOf, if_neg (by simp [ha']), if_neg (by simp [hh])]
        rw [this]
    · rw [hw1]; simp; omega

/-! ## Lemmas: documents -/

theorem addKids (t : Elem) (k1 k2 : List (Key × Tree)) : ({ t with kids := t.kids ++ (k1 ++ k2) } : Elem) =
    { ({ t with kids := t.kids ++ k1 } : Elem) with kids := ({ t with kids := t.kids ++ k1 } : Elem).kids ++ k2 } := by
  simp

theorem element_start {f : Flags} {e : Str} {k : Key} {t : Tree} (h : Element f e k t) : e.head? = some '<' := by
  cases h <;> rfl

theorem comment_elem (f : Flags) (v : Bool) (top : Elem) (c : Str) :
    (if (readOptions f.human f.ignoreComments v).noComments = true then top else { top with kids := top.kids ++ [(xmlComment, .node c [])] }) =
      { top with kids := top.kids ++ commentOf f c } := by
  cases h : f.ignoreComments with
  | true => rw [if_pos (by simp [readOptions]), commentOf, if_pos h, List.append_nil]
  | false =>
    rw [if_neg (by simp [readOptions]), commentOf, if_neg (by simp [h])]
    rfl

/-- a tag or the end, after white space -/
def Tagged (r : Str) : Prop := ∃ w x, (∀ c ∈ w, isWs c = true) ∧ r = w ++ x ∧ (x = [] ∨ x.head? = some '<')

mutual
theorem Leads.element (f : Flags) (v : Bool) {e : Str} {k : Key} {t : Tree} (h : Element f e k t) : ∀ (top : Elem) (below : List Elem) (r : Str),
    Leads (readOptions f.human f.ignoreComments v) top below (e ++ r) { top with kids := top.kids ++ [(k, t)] } below r := by
  intro top below r
  match h with
  | @Element.empty _ k a w as hk ha hw =>
    obtain ⟨x, k', hxk, -, -, hx, -⟩ := name_head hk
    have e1 : '<' :: (k ++ (a ++ (w ++ ['/', '>']))) ++ r = '<' :: (k ++ (a ++ (w ++ '/' :: '>' :: r))) := by simp
    rw [e1]
    apply Leads.step
    · rw [tok_node _ _ _ _ (by rw [hxk]; simpa using hx), (node_tag _ top below hk ha hw r).2, attributesOf_eq]
    · simp; omega
  | @Element.full _ k a w c d w' as ks hk ha hw hc hw' =>
    obtain ⟨x, k', hxk, -, -, hx, -⟩ := name_head hk
    have e1 : '<' :: (k ++ (a ++ (w ++ '>' :: (c ++ '<' :: '/' :: (k ++ (w' ++ ['>'])))))) ++ r =
        '<' :: (k ++ (a ++ (w ++ '>' :: (c ++ '<' :: '/' :: (k ++ (w' ++ '>' :: r)))))) := by simp
    rw [e1]
    refine Leads.trans (t2 := ⟨k, [], attrKids as⟩) (b2 := top :: below) (s2 := c ++ '<' :: '/' :: (k ++ (w' ++ '>' :: r))) ?_ ?_
    · apply Leads.step
      · rw [tok_node _ _ _ _ (by rw [hxk]; simpa using hx), (node_tag _ top below hk ha hw _).1]
      · simp; omega
    refine Leads.trans (Leads.content f v hc ⟨k, [], attrKids as⟩ top below ('/' :: (k ++ (w' ++ '>' :: r)))) ?_
    apply Leads.step
    · have := tok_end (readOptions f.human f.ignoreComments v) ⟨k, [] ++ d, attrKids as ++ ks⟩ top below w' r hk hw'
      rw [this, List.nil_append, attributesOf_eq]
    · simp; omega
theorem Leads.content (f : Flags) (v : Bool) {c d : Str} {ks : List (Key × Tree)} (h : Content f c d ks) : ∀ (top p : Elem) (below : List Elem) (r : Str),
    Leads (readOptions f.human f.ignoreComments v) top (p :: below) (c ++ '<' :: r) { top with data := top.data ++ d, kids := top.kids ++ ks } (p :: below) ('<' :: r) := by
  intro top p below r
  match h with
  | .nil =>
    simpa using Leads.refl _ top (p :: below) ('<' :: r)
  | @Content.text _ s s' d ps ks hp hs hc =>
    have ih := Leads.content f v hc { top with data := top.data ++ textOf f ps } p below r
    obtain ⟨r', hr'⟩ : ∃ r', s' ++ '<' :: r = '<' :: r' := by
      rcases hs with rfl | hs
      · exact ⟨r, rfl⟩
      · cases s' with
        | nil => simp at hs
        | cons x s' => simp at hs; subst hs; exact ⟨_, rfl⟩
    have h1 := Leads.text f v top p below hp r'
    rw [← hr'] at h1
    have := h1.trans ih
    simpa [List.append_assoc] using this
  | @Content.elem _ e s' d k t ks he hc =>
    have ih := Leads.content f v hc { top with kids := top.kids ++ [(k, t)] } p below r
    have h1 := Leads.element f v he top (p :: below) (s' ++ '<' :: r)
    have := h1.trans ih
    simpa [List.append_assoc] using this
  | @Content.cdata _ c s' d ks hn hc =>
    have ih := Leads.content f v hc { top with data := top.data ++ c } p below r
    have h1 := Leads.step (tok_cdata (readOptions f.human f.ignoreComments v) top (p :: below) c (s' ++ '<' :: r) hn) (by simp; omega)
    have := h1.trans ih
    simpa [List.append_assoc] using this
  | @Content.instruction _ c s' d ks hn hc =>
    have ih := Leads.content f v hc top p below r
    have h1 := Leads.step (tok_instruction (readOptions f.human f.ignoreComments v) top (p :: below) c (s' ++ '<' :: r) hn) (by simp; omega)
    have := h1.trans ih
    simpa [List.append_assoc] using this
  | @Content.comment _ c s' d ks hn hc =>
    have ih := Leads.content f v hc { top with kids := top.kids ++ commentOf f c } p below r
    have h1 := Leads.step (tok_comment' (readOptions f.human f.ignoreComments v) top (p :: below) c (s' ++ '<' :: r) hn) (by simp; omega)
    rw [comment_elem] at h1
    have := h1.trans ih
    simpa [List.append_assoc] using this
end

theorem Leads.misc (f : Flags) (v : Bool) {s : Str} {ks : List (Key × Tree)} (h : Misc f s ks) : ∀ (top : Elem) (r : Str), Tagged r →
    Leads (readOptions f.human f.ignoreComments v) top [] (s ++ r) { top with kids := top.kids ++ ks } [] r ∧ Tagged (s ++ r) := by
  induction h with
  | nil => intro top r hr; exact ⟨by simpa using Leads.refl _ top [] r, hr⟩
  | @space w s ks hw _ ih =>
    intro top r hr
    obtain ⟨i1, w', x, i2, i3, i4⟩ := ih top r hr
    have hww : ∀ c ∈ w ++ w', isWs c = true := by
      intro c hc
      rcases List.mem_append.1 hc with h | h
      · exact space_ws hw c h
      · exact i2 c h
    refine ⟨?_, w ++ w', x, hww, by rw [List.append_assoc, i3, List.append_assoc], i4⟩
    intro e he g hg
    rw [List.append_assoc] at hg ⊢
    have hsx := i3
    have st : ∀ c ∈ ((s ++ r).dropWhile isWs).head?, c = '<' := by
      rw [i3, dropWhile_app w' x i2]
      rcases i4 with rfl | i4
      · simp
      · cases x with
        | nil => simp at i4
        | cons c x =>
          simp at i4; subst i4
          rw [List.dropWhile_cons, if_neg (by decide)]; simp
    rw [run_ws _ g top [] w (s ++ r) (space_ws hw) st]
    exact i1 e he g (by simp at hg ⊢; omega)
  | @instruction c s ks hn _ ih =>
    intro top r hr
    obtain ⟨i1, -⟩ := ih top r hr
    have e : "<?".toList ++ (c ++ ("?>".toList ++ s)) ++ r = "<?".toList ++ (c ++ ("?>".toList ++ (s ++ r))) := by simp
    refine ⟨?_, [], _, by simp, rfl, .inr rfl⟩
    rw [e]
    exact (Leads.step (tok_instruction (readOptions f.human f.ignoreComments v) top [] c (s ++ r) hn) (by simp; omega)).trans i1
  | @comment c s ks hn _ ih =>
    intro top r hr
    obtain ⟨i1, -⟩ := ih { top with kids := top.kids ++ commentOf f c } r hr
    have e : "<!--".toList ++ (c ++ ("-->".toList ++ s)) ++ r = "<!--".toList ++ (c ++ ("-->".toList ++ (s ++ r))) := by simp
    refine ⟨?_, [], _, by simp, rfl, .inr rfl⟩
    rw [e]
    have h1 := Leads.step (tok_comment' (readOptions f.human f.ignoreComments v) top [] c (s ++ r) hn) (by simp; omega)
    rw [comment_elem] at h1
    have := h1.trans i1
    simpa [List.append_assoc] using this

theorem skipBom_tagged {s : Str} (h : Tagged s) : skipBom s = s := by
  obtain ⟨w, x, hw, rfl, hx⟩ := h
  unfold skipBom
  rw [if_neg]
  rw [List.isPrefixOf_iff_prefix]
  rintro ⟨t, ht⟩
  cases w with
  | nil =>
    rw [List.nil_append] at ht
    rw [← ht] at hx
    simp at hx
  | cons c w =>
    have hc := hw c (by simp)
    rw [← (List.cons.inj ht).1] at hc
    exact absurd hc (by decide)

/-! ## C164 -/

/-- **C164** Every XML file, by whatever program, is read as the tree it stands for, whatever the settings are, and whether or not the reader compares
closing tags. -/
theorem C164_read_partial (f : Flags) (validate : Bool) (s : Str) (t : Tree) (h : XmlText f s t) :
    readXml (readOptions f.human f.ignoreComments validate) s = some t := by
  obtain ⟨b, m1, y, m2, e, m3, k, u, k1, k2, k3, hs, hb, hm1, hy, hm2, he, hm3, rfl, hz⟩ := h
  have T3 : Tagged [] := ⟨[], [], by simp, rfl, .inl rfl⟩
  have Te : Tagged (e ++ m3) := by
    have he0 := element_start he
    refine ⟨[], e ++ m3, by simp, rfl, .inr ?_⟩
    cases e with
    | nil => simp at he0
    | cons c e => simpa using he0
  obtain ⟨l2, T2⟩ := Leads.misc f validate hm2 ⟨[], [], k1⟩ (e ++ m3) Te
  have le := Leads.element f validate he ⟨[], [], k1 ++ k2⟩ [] m3
  have l3 := (Leads.misc f validate hm3 ⟨[], [], k1 ++ k2 ++ [(k, u)]⟩ [] T3).1
  rw [List.append_nil] at l3
  have hd : Leads (readOptions f.human f.ignoreComments validate) ⟨[], [], k1⟩ [] (y ++ (m2 ++ (e ++ m3))) ⟨[], [], k1⟩ [] (m2 ++ (e ++ m3)) ∧
      Tagged (y ++ (m2 ++ (e ++ m3))) := by
    rcases hy with rfl | ⟨c, b, rfl, hc, hb⟩
    · exact ⟨Leads.refl _ _ _ _, T2⟩
    · refine ⟨?_, [], _, by simp, rfl, .inr rfl⟩
      have e1 : "<!DOCTYPE".toList ++ (c :: (b ++ ['>'])) ++ (m2 ++ (e ++ m3)) = "<!DOCTYPE".toList ++ (c :: (b ++ '>' :: (m2 ++ (e ++ m3)))) := by simp
      rw [e1]
      exact Leads.step (tok_doctype _ _ _ c b _ hc hb) (by simp; omega)
  obtain ⟨l1, T1⟩ := Leads.misc f validate hm1 ⟨[], [], []⟩ (y ++ (m2 ++ (e ++ m3))) hd.2
  rw [List.nil_append] at l1
  have all := (((l1.trans hd.1).trans l2).trans le).trans l3
  have hdone := all ⟨[], [], k1 ++ k2 ++ [(k, u)] ++ k3⟩ fun g hg => by
    obtain ⟨g, rfl⟩ : ∃ g', g = g' + 1 := ⟨g - 1, by simp at hg; omega⟩
    rw [run]; rfl
  have hcut : s.takeWhile (· ≠ Char.ofNat 0) = s := Verif.PTree.InfoFile.takeWhile_nonul _ fun c hc h0 => hz (h0 ▸ hc)
  have hbm : skipBom s = m1 ++ (y ++ (m2 ++ (e ++ m3))) := by
    rw [hs]
    rcases hb with rfl | rfl
    · rw [List.nil_append]; exact skipBom_tagged T1
    · rfl
  unfold readXml
  rw [hcut, hbm]
  simp only
  rw [hdone _ (Nat.lt_succ_self _)]
  simp

/-- **C164** in full: every XML file is read as the tree it stands for, and nothing else is accepted.  The second part is false. -/
def C164_claim : Prop := ∀ (f : Flags) (validate : Bool) (s : Str),
  (∀ t, XmlText f s t → readXml (readOptions f.human f.ignoreComments validate) s = some t) ∧
    ((¬ ∃ t, XmlText f s t) → readXml (readOptions f.human f.ignoreComments validate) s = none)

theorem misc_ignored {f : Flags} (hf : f.ignoreComments = true) {s : Str} {ks : List (Key × Tree)} (h : Misc f s ks) : ks = [] := by
  induction h with
  | nil => rfl
  | space _ _ ih => exact ih
  | instruction _ _ ih => exact ih
  | comment _ _ ih => rw [ih, commentOf, if_pos hf]; rfl

/-- **C164** Files that are no XML are accepted: with two elements, without white space between attributes, with a lone `&`; and, if the
reader does not compare closing tags, with a wrong closing tag. -/
theorem C164_negation : ¬ C164_claim ∧
    (∀ validate, readXml (readOptions true true validate) "<a/><b/>".toList = some (.node [] [("a".toList, .node [] []), ("b".toList, .node [] [])])) ∧
    (∀ validate, readXml (readOptions true true validate) "<a x='1'y='2'>&</a>".toList =
      some (.node [] [("a".toList, .node "&".toList [(xmlAttr, .node [] [("x".toList, .node "1".toList []), ("y".toList, .node "2".toList [])])])])) ∧
    readXml (readOptions true true false) "<a></b>".toList = some (.node [] [("a".toList, .node [] [])]) ∧
    readXml (readOptions true true true) "<a></b>".toList = none := by
  have h1 : ∀ validate, readXml (readOptions true true validate) "<a/><b/>".toList = some (.node [] [("a".toList, .node [] []), ("b".toList, .node [] [])]) := by
    intro validate; cases validate <;> rfl
  refine ⟨fun h => ?_, h1, fun validate => by cases validate <;> rfl, rfl, rfl⟩
  obtain ⟨p1, p2⟩ := h ⟨true, true⟩ true "<a/><b/>".toList
  have : ¬ ∃ t, XmlText ⟨true, true⟩ "<a/><b/>".toList t := by
    rintro ⟨t, ht⟩
    have h2 := p1 t ht
    obtain ⟨b, m1, y, m2, e, m3, k, u, k1, k2, k3, hs, hb, hm1, hy, hm2, he, hm3, rfl, hz⟩ := ht
    have h3 := h1 true
    simp only at h2
    rw [h3, misc_ignored rfl hm1, misc_ignored rfl hm2, misc_ignored rfl hm3] at h2
    simp at h2
  have h4 := p2 this
  simp only at h4
  rw [h1] at h4
  simp at h4

/-- **C164** An XML file stands for one tree only. -/
theorem C164_unique (f : Flags) (s : Str) (t t' : Tree) (h : XmlText f s t) (h' : XmlText f s t') : t = t' :=
  Option.some.inj ((C164_read_partial f true s t h).symm.trans (C164_read_partial f true s t' h'))

/-- **C164** `load` of a file whose name ends in `.xml`. -/
theorem C164_load_partial (F : Formats) (f : Flags) (validate : Bool) (hr : F.read .xml = readXml (readOptions f.human f.ignoreComments validate)) (d : Disk) (path : Str)
    (hp : ".xml".toList <:+ path) (s : Str) (hd : d.content path = some s) (t0 t : Tree) (h : XmlText f s t) : load F d path t0 = (none, t) := by
  obtain ⟨-, -, h3, -⟩ := C95_errors F [] d path t0 .xml hp
  exact h3 s t hd (by rw [hr]; exact C164_read_partial f validate s t h)

set_option maxRecDepth 4000 in
/-- a text in the style of another program: a document type with brackets, attributes in single quotes with white space around the `=`, references, CDATA,
comments, an instruction, white space in tags -/
example : XmlText ⟨true, false⟩ "<?xml version='1.0'?>\n<!DOCTYPE a [<!ELEMENT a ANY>]><a x = 'v&#65;' ><!--c-->t &lt;\n u <![CDATA[<&]]><?p?><b/></a >\n".toList
    (.node [] [("a".toList, .node "t < u<&".toList [("<xmlattr>".toList, .node [] [("x".toList, .node "vA".toList [])]), ("<xmlcomment>".toList, .node "c".toList []), ("b".toList, .node [] [])])]) := by
  have sp : ∀ w : Str, (∀ c ∈ w, c ∈ [' ', '\t', '\r', '\n']) → Space w := fun _ h => h
  have na : Name "a".toList := ⟨'a', [], rfl, by unfold NameStart; decide, by simp⟩
  have nx : Name "x".toList := ⟨'x', [], rfl, by unfold NameStart; decide, by simp⟩
  have nb : Name "b".toList := ⟨'b', [], rfl, by unfold NameStart; decide, by simp⟩
  have six : Numeral 10 "6".toList 6 := .one (.inl rfl) (by decide)
  have num : Numeral 10 "65".toList 'A'.toNat := six.snoc (n := 5) (.inl rfl) (by decide)
  have val : Pieces (some '\'') "v&#65;".toList [.char 'v', .ref (utf8Bytes 'A')] := .char (by decide) (by decide) (by decide) (.ref (s := []) (.decimal num) .nil)
  have at1 : Attrs " x = 'v&#65;'".toList [("x".toList, "vA".toList)] :=
    .cons (w := [' ']) (a := [' ']) (b := [' ']) (s := []) (sp _ (by decide)) (by simp) nx (sp _ (by decide)) (sp _ (by decide)) (.inr rfl) val .nil
  have tx : Pieces none "t &lt;\n u ".toList [.char 't', .char ' ', .ref ['<'], .char '\n', .char ' ', .char 'u', .char ' '] :=
    .char (by decide) (by decide) (by decide) (.char (by decide) (by decide) (by decide) (.ref (r := "&lt;".toList) (.entity (n := "lt".toList) (by decide)) (.char (by decide) (by decide) (by decide)
      (.char (by decide) (by decide) (by decide) (.char (by decide) (by decide) (by decide) (.char (by decide) (by decide) (by decide) .nil))))))
  have no : ∀ p c : Str, (∀ x ∈ p, x ∉ c) → p ≠ [] → ¬ p <:+: c := by
    rintro p c h hp ⟨x, y, rfl⟩
    obtain ⟨a, r, rfl⟩ := List.exists_cons_of_ne_nil hp
    exact h a (by simp) (by simp)
  have c1 : Content ⟨true, false⟩ "<b/>".toList [] [("b".toList, .node [] [])] := .elem (e := "<b/>".toList) (s' := []) (.empty (w := []) nb .nil (sp _ (by decide))) .nil
  have c2 := Content.instruction (f := ⟨true, false⟩) (c := "p".toList) (no _ _ (by decide) (by decide)) c1
  have c3 := Content.cdata (f := ⟨true, false⟩) (c := "<&".toList) (no _ _ (by decide) (by decide)) c2
  have c4 := Content.text tx (.inr rfl) c3
  have c5 := Content.comment (f := ⟨true, false⟩) (c := "c".toList) (no _ _ (by decide) (by decide)) c4
  have el := Element.full (w := [' ']) (w' := [' ']) na at1 (sp _ (by decide)) c5 (sp _ (by decide))
  refine ⟨[], "<?xml version='1.0'?>\n".toList, "<!DOCTYPE a [<!ELEMENT a ANY>]>".toList, [], _, "\n".toList, _, _, [], [], [], rfl, .inl rfl, ?_, .inr ⟨' ', "a [<!ELEMENT a ANY>]".toList, rfl, sp _ (by decide), ?_⟩,
    .nil, el, .space (w := "\n".toList) (s := []) (sp _ (by decide)) .nil, rfl, by decide⟩
  · refine .instruction (c := "xml version='1.0'".toList) (s := "\n".toList) ?_ (.space (w := "\n".toList) (s := []) (sp _ (by decide)) .nil)
    exact no _ _ (by decide) (by decide)
  · refine .char (by decide) (by decide) (by decide) (.char (by decide) (by decide) (by decide) (.nest (s := "<!ELEMENT a ANY>".toList) (s' := []) ?_ .nil))
    have bal : ∀ s : Str, (∀ c ∈ s, c ≠ '[' ∧ c ≠ ']') → Balanced s := by
      intro s
      induction s with
      | nil => intro _; exact .nil
      | cons c s ih => intro h; exact .char (h c (by simp)).1 (h c (by simp)).2 (ih fun d hd => h d (by simp [hd]))
    exact bal _ (by decide)

end Verif.PTree.XmlFile
