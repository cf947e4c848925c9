import Verif.PTree.Info
import Verif.PTree.LoadStringProps
import Verif.PTree.ChildrenProps

/-!
# C94: `loadString` and `loadStrings` build the tree that is written down
-/

namespace Verif.PTree

/-! ## Specification -/

/-- a character that means itself in keys and values: no white space, no comment sign, no escape, no quotation mark, none of
`,/={}` -/
def Ordinary (c : Char) : Prop :=
  isSpaceC c = false ∧ c ≠ ';' ∧ c ≠ '\\' ∧ c ≠ '"' ∧ c ≠ Char.ofNat 0 ∧ isSpecial c = false

instance (c : Char) : Decidable (Ordinary c) := inferInstanceAs (Decidable (_ ∧ _))

/-- keys: not empty, ordinary, without `#` at the beginning -/
def OrdinaryKey (k : Str) : Prop := k ≠ [] ∧ k.head? ≠ some '#' ∧ ∀ c ∈ k, Ordinary c

/-- values: ordinary characters (in particular no blanks) -/
def OrdinaryValue (v : Str) : Prop := ∀ c ∈ v, Ordinary c

mutual
/-- all keys and values are ordinary -/
def Entry.Ordinary : Entry → Prop
  | .leaf k v => OrdinaryKey k ∧ ∀ s ∈ v, OrdinaryValue s
  | .slash k e => OrdinaryKey k ∧ e.Ordinary
  | .block k v es => OrdinaryKey k ∧ (∀ s ∈ v, OrdinaryValue s) ∧ Entry.OrdinaryL es
def Entry.OrdinaryL : List Entry → Prop
  | [] => True
  | e :: es => e.Ordinary ∧ Entry.OrdinaryL es
end

mutual
/-- the child an entry stands for -/
def Entry.child : Entry → Key × Tree
  | .leaf k v => (k, .node (v.getD []) [])
  | .slash k e => (k, .node [] [e.child])
  | .block k v es => (k, .node (v.getD []) (Entry.children es))
def Entry.children : List Entry → List (Key × Tree)
  | [] => []
  | e :: es => e.child :: Entry.children es
end

/-! ## Lemmas -/

theorem expandEscapes_ordinary : ∀ (w : Str), (∀ c ∈ w, c ≠ '\\') → expandEscapes w = some w
  | [], _ => rfl
  | c :: r, h => by
    have hc : c ≠ '\\' := h c (by simp)
    have ih := expandEscapes_ordinary r fun d hd => h d (by simp [hd])
    unfold expandEscapes
    split
    · simp_all
    · simp_all
    · simp_all
    · simp_all

theorem parseLine_blank (p : PS) : parseLine p [] = some { p with expectData := false } := by
  unfold parseLine; rfl

theorem parseLine_end {s : Str} (h : s.dropWhile isSpaceC = []) (p : PS) : parseLine p s = some { p with expectData := false } := by
  rw [parseLine.eq_def]
  split
  · rfl
  · rename_i h'; rw [h] at h'; exact absurd h' (by simp)

theorem parseLine_tok {s r : Str} {c : Char} (h : s.dropWhile isSpaceC = c :: r) (p : PS) :
    parseLine p s = if c = ';' then some { p with expectData := false }
    else if c = '{' then (p.openLast).bind fun p' => parseLine p' r
    else if c = '}' then (p.close).bind fun p' => parseLine p' r
    else
      match expandEscapes (c :: r.takeWhile (!endsWord ·)) with
      | none => none
      | some w => parseLine (if p.expectData then p.setData w else p.push w) (r.dropWhile (!endsWord ·)) := by
  rw [parseLine.eq_def]
  split
  · rename_i h'; rw [h] at h'; exact absurd h' (by simp)
  · rename_i c' r' h'
    rw [h] at h'
    obtain ⟨rfl, rfl⟩ := List.cons.inj h'
    rfl

theorem parseLine_space (p : PS) (c : Char) (hc : isSpaceC c = true) (s : Str) : parseLine p (c :: s) = parseLine p s := by
  have : (c :: s).dropWhile isSpaceC = s.dropWhile isSpaceC := by simp [hc]
  cases h : s.dropWhile isSpaceC with
  | nil => rw [parseLine_end h, parseLine_end (this.trans h)]
  | cons d r => rw [parseLine_tok h, parseLine_tok (this.trans h)]

theorem parseLine_open (p : PS) (s : Str) : parseLine p ('{' :: s) = (p.openLast).bind fun p' => parseLine p' s := by
  rw [parseLine_tok (c := '{') (r := s) (by simp [isSpaceC])]
  simp

theorem parseLine_close (p : PS) (s : Str) : parseLine p ('}' :: s) = (p.close).bind fun p' => parseLine p' s := by
  rw [parseLine_tok (c := '}') (r := s) (by simp [isSpaceC])]
  simp

theorem takeWhile_word : ∀ (w s : Str), (∀ c ∈ w, endsWord c = false) → (∀ c ∈ s.head?, endsWord c = true) →
    (w ++ s).takeWhile (!endsWord ·) = w ∧ (w ++ s).dropWhile (!endsWord ·) = s
  | [], s, _, h => by
    cases s with
    | nil => simp
    | cons d s => simp [h d (by simp)]
  | c :: w, s, hw, h => by
    have := takeWhile_word w s (fun d hd => hw d (by simp [hd])) h
    simp [hw c (by simp), this]

theorem endsWord_ordinary {c : Char} (h : Ordinary c) : endsWord c = false := by
  simp [endsWord, h.1, h.2.1]

theorem parseLine_word (p : PS) (w s : Str) (hne : w ≠ []) (hw : ∀ c ∈ w, Ordinary c) (hs : ∀ c ∈ s.head?, endsWord c = true) :
    parseLine p (w ++ s) = parseLine (if p.expectData then p.setData w else p.push w) s := by
  cases w with
  | nil => exact absurd rfl hne
  | cons c r =>
    have hc := hw c (by simp)
    have hr : ∀ d ∈ r, Ordinary d := fun d hd => hw d (by simp [hd])
    have h1 : (c :: r ++ s).dropWhile isSpaceC = c :: (r ++ s) := by simp [hc.1]
    obtain ⟨t1, t2⟩ := takeWhile_word r s (fun d hd => endsWord_ordinary (hr d hd)) hs
    have hsp := hc.2.2.2.2.2
    have e1 : c ≠ '{' := by rintro rfl; simp [isSpecial] at hsp
    have e2 : c ≠ '}' := by rintro rfl; simp [isSpecial] at hsp
    have e3 := expandEscapes_ordinary (c :: r) fun d hd => (hw d hd).2.2.1
    rw [parseLine_tok h1]
    simp only [t1, t2, e3, hc.2.1, e1, e2, if_false]

/-- no zero character -/
def NoNul (s : Str) : Prop := ∀ c ∈ s, c ≠ Char.ofNat 0

theorem parseOne_eq (p : PS) (s : Str) (hn : NoNul s) (hh : (s.dropWhile isSpaceC).head? ≠ some '#') :
    parseOne p s = parseLine p s := by
  have : s.takeWhile (· ≠ Char.ofNat 0) = s := by
    have : ∀ l : Str, NoNul l → l.takeWhile (· ≠ Char.ofNat 0) = l := by
      intro l
      induction l with
      | nil => intro _; rfl
      | cons c l ih =>
        intro h
        have h1 := h c (by simp)
        rw [List.takeWhile_cons, if_pos (by simpa using h1), ih fun d hd => h d (by simp [hd])]
    exact this s hn
  unfold parseOne
  simp only [this, hh, if_false]

theorem parseLines_append (p : PS) : ∀ (a b : List Str), parseLines p (a ++ b) = (parseLines p a).bind fun p' => parseLines p' b := by
  intro a
  induction a generalizing p with
  | nil => intro b; rfl
  | cons l a ih =>
    intro b
    simp only [List.cons_append, parseLines]
    cases parseOne p l with
    | none => rfl
    | some p' => simpa using ih p' b

/-- the parser on a text -/
def feed (p : PS) (s : Str) : Option PS := parseLines p (s.splitOn '\n')

theorem feed_append (p : PS) (a b : Str) : feed p (a ++ '\n' :: b) = (feed p a).bind fun p' => feed p' b := by
  unfold feed
  rw [← parseLines_append]
  congr 1
  exact List.splitOn_append_cons_self ..

theorem feed_line (p : PS) (a : Str) (h : '\n' ∉ a) : feed p a = parseOne p a := by
  unfold feed
  have : a.splitOn '\n' = [a] := List.splitOn_eq_singleton h
  rw [this]
  simp only [parseLines]
  cases parseOne p a <;> rfl

theorem ordinary_no_newline {c : Char} (h : Ordinary c) : c ≠ '\n' := by
  rintro rfl
  have := h.1
  simp [isSpaceC] at this

/-- the parser after a finished entry -/
def PS.added (p : PS) (c : Key × Tree) (last : Bool) : PS :=
  { p with top := { p.top with kids := p.top.kids ++ [c] }, last := last, expectData := false }

theorem feed_keyline (p : PS) (hp : p.expectData = false) (k : Str) (hk : OrdinaryKey k) (v : Option Str)
    (hv : ∀ s ∈ v, OrdinaryValue s) :
    feed p (k ++ infoValue v) = some (p.added (k, .node (v.getD []) []) true) := by
  obtain ⟨hne, hh, hc⟩ := hk
  have hval : ∀ c ∈ infoValue v, c = ' ' ∨ Ordinary c := by
    intro c hcm
    cases v with
    | none => simp [infoValue] at hcm
    | some w =>
      simp only [infoValue, List.mem_cons] at hcm
      rcases hcm with h | h
      · exact .inl h
      · exact .inr (hv w rfl c h)
  rw [feed_line]
  · rw [parseOne_eq]
    · have hs : ∀ c ∈ (infoValue v).head?, endsWord c = true := by
        intro c hcm
        cases v with
        | none => simp [infoValue] at hcm
        | some w => simp [infoValue] at hcm; subst hcm; decide
      rw [parseLine_word p k (infoValue v) hne hc hs, hp]
      simp only [Bool.false_eq_true, if_false]
      cases v with
      | none =>
        simp only [infoValue, parseLine_blank]
        rfl
      | some w =>
        simp only [infoValue]
        rw [parseLine_space _ ' ' (by decide)]
        cases hw : w with
        | nil =>
          rw [parseLine_blank]
          rfl
        | cons d w' =>
          have := parseLine_word (p.push k) w [] (by simp [hw]) (hv w rfl) (by simp)
          rw [List.append_nil] at this
          rw [← hw, this]
          have he : (p.push k).expectData = true := rfl
          rw [he, if_pos rfl, parseLine_blank]
          simp [PS.setData, PS.push, PS.added, Tree.kids]
    · intro c hcm
      rcases List.mem_append.1 hcm with h | h
      · exact (hc c h).2.2.2.2.1
      · rcases hval c h with rfl | h
        · decide
        · exact h.2.2.2.2.1
    · cases k with
      | nil => exact absurd rfl hne
      | cons a k' =>
        have ha := hc a (by simp)
        simpa [ha.1] using hh
  · intro h
    rcases List.mem_append.1 h with h | h
    · exact ordinary_no_newline (hc _ h) rfl
    · rcases hval _ h with h | h
      · simp at h
      · exact ordinary_no_newline h rfl

theorem feed_open (p : PS) (k : Key) (d : Str) :
    feed (p.added (k, .node d []) true) ['{'] = some ⟨⟨k, d, []⟩, p.top :: p.below, false, false⟩ := by
  rw [feed_line _ _ (by simp), parseOne_eq _ _ (by intro c hc; simp at hc; subst hc; decide) (by decide), parseLine_open]
  simp [PS.openLast, PS.added, parseLine_blank, Tree.data, Tree.kids]

theorem feed_close (p : PS) (k : Key) (d : Str) (ks : List (Key × Tree)) (l : Bool) :
    feed ⟨⟨k, d, ks⟩, p.top :: p.below, l, false⟩ ['}'] = some (p.added (k, .node d ks) false) := by
  rw [feed_line _ _ (by simp), parseOne_eq _ _ (by intro c hc; simp at hc; subst hc; decide) (by decide), parseLine_close]
  simp [PS.close, PS.added, parseLine_blank]

/-- the flag `last` after an entry: set exactly after a line with a key -/
def Entry.isLeaf : Entry → Bool
  | .leaf _ _ => true
  | _ => false

/-- what the parser does for several entries -/
def PS.addedL (p : PS) (es : List Entry) : PS :=
  { p with top := { p.top with kids := p.top.kids ++ Entry.children es },
           last := match es.getLast? with | some e => e.isLeaf | none => p.last }

mutual
theorem feed_entry : ∀ (e : Entry), e.Ordinary → ∀ p : PS, p.expectData = false → feed p e.info = some (p.added e.child e.isLeaf)
  | .leaf k v, h, p, hp => by
    unfold Entry.Ordinary at h
    unfold Entry.info Entry.child
    exact feed_keyline p hp k h.1 v h.2
  | .slash k e, h, p, hp => by
    unfold Entry.Ordinary at h
    unfold Entry.info Entry.child
    have e1 : k ++ "\n{\n".toList ++ e.info ++ "\n}".toList = (k ++ infoValue none) ++ '\n' :: (['{'] ++ '\n' :: (e.info ++ '\n' :: ['}'])) := by
      simp [infoValue]
    rw [e1, feed_append, feed_keyline p hp k h.1 none (by simp), Option.bind_some, feed_append, Option.getD_none, feed_open,
      Option.bind_some, feed_append, feed_entry e h.2 _ rfl, Option.bind_some]
    exact feed_close p k [] [e.child] e.isLeaf
  | .block k v es, h, p, hp => by
    unfold Entry.Ordinary at h
    unfold Entry.info Entry.child
    have e1 : k ++ infoValue v ++ "\n{\n".toList ++ Entry.infos es ++ "}".toList =
        (k ++ infoValue v) ++ '\n' :: (['{'] ++ '\n' :: (Entry.infos es ++ ['}'])) := by
      simp
    rw [e1, feed_append, feed_keyline p hp k h.1 v h.2.1, Option.bind_some, feed_append, feed_open,
      Option.bind_some, feed_entries es h.2.2 _ rfl]
    have := feed_close p k (v.getD []) (Entry.children es)
    simpa [PS.addedL, Entry.isLeaf] using this _
theorem feed_entries : ∀ (es : List Entry), Entry.OrdinaryL es → ∀ p : PS, p.expectData = false → ∀ s : Str,
    feed p (Entry.infos es ++ s) = feed (p.addedL es) s
  | [], _, p, hp, s => by
    unfold Entry.infos
    have e1 : "\n".toList ++ s = [] ++ '\n' :: s := rfl
    rw [e1, feed_append, feed_line _ _ (by simp), parseOne_eq _ _ (by simp [NoNul]) (by simp), parseLine_blank, Option.bind_some]
    congr 1
    cases p; cases hp
    simp [PS.addedL, Entry.children]
  | [e], h, p, hp, s => by
    unfold Entry.OrdinaryL at h
    unfold Entry.infos
    have e1 : e.info ++ "\n".toList ++ s = e.info ++ '\n' :: s := by simp
    rw [e1, feed_append, feed_entry e h.1 p hp, Option.bind_some]
    congr 1
    cases p; cases hp
    simp [PS.addedL, PS.added, Entry.children]
  | e :: e' :: es, h, p, hp, s => by
    unfold Entry.OrdinaryL at h
    unfold Entry.infos
    have e1 : e.info ++ '\n' :: Entry.infos (e' :: es) ++ s = e.info ++ '\n' :: (Entry.infos (e' :: es) ++ s) := by simp
    rw [e1, feed_append, feed_entry e h.1 p hp, Option.bind_some, feed_entries (e' :: es) h.2 _ rfl]
    congr 1
    cases p; cases hp
    obtain ⟨x, hx⟩ : ∃ x, (e' :: es).getLast? = some x := ⟨_, List.getLast?_eq_some_getLast (by simp)⟩
    simp [PS.addedL, PS.added, Entry.children, hx]
end

theorem readInfo_entries (es : List Entry) (h : Entry.OrdinaryL es) : readInfo (Entry.infos es) = some (.node [] (Entry.children es)) := by
  have := feed_entries es h ⟨⟨[], [], []⟩, [], false, false⟩ rfl []
  rw [List.append_nil] at this
  unfold readInfo
  unfold feed at this
  rw [this]
  simp [parseLines, parseOne, parseLine_blank, PS.addedL]

mutual
theorem Entry.Ordinary.ok : ∀ (e : Entry), e.Ordinary → e.Ok
  | .leaf k v, h => by
    unfold Entry.Ordinary at h
    unfold Entry.Ok
    exact ⟨fun c hc => (h.1.2.2 c hc).2.2.2.2.2, fun s hs c hc => (h.2 s hs c hc).2.2.2.2.2⟩
  | .slash k e, h => by
    unfold Entry.Ordinary at h
    unfold Entry.Ok
    exact ⟨fun c hc => (h.1.2.2 c hc).2.2.2.2.2, Entry.Ordinary.ok e h.2⟩
  | .block k v es, h => by
    unfold Entry.Ordinary at h
    unfold Entry.Ok
    exact ⟨fun c hc => (h.1.2.2 c hc).2.2.2.2.2, fun s hs c hc => (h.2.1 s hs c hc).2.2.2.2.2, Entry.OrdinaryL.ok es h.2.2⟩
theorem Entry.OrdinaryL.ok : ∀ (es : List Entry), Entry.OrdinaryL es → Entry.OkL es
  | [], _ => by unfold Entry.OkL; trivial
  | e :: es, h => by
    unfold Entry.OrdinaryL at h
    unfold Entry.OkL
    exact ⟨Entry.Ordinary.ok e h.1, Entry.OrdinaryL.ok es h.2⟩
end

theorem no_quote_value {v : Option Str} (h : ∀ s ∈ v, OrdinaryValue s) : '"' ∉ valueText v := by
  cases v with
  | none => simp [valueText]
  | some w =>
    simp only [valueText, List.mem_cons]
    rintro (h' | h')
    · simp at h'
    · exact (h w rfl _ h').2.2.2.1 rfl

mutual
theorem Entry.Ordinary.no_quote : ∀ (e : Entry), e.Ordinary → '"' ∉ e.compact
  | .leaf k v, h => by
    unfold Entry.Ordinary at h
    unfold Entry.compact
    rw [List.mem_append]
    rintro (h' | h')
    · exact (h.1.2.2 _ h').2.2.2.1 rfl
    · exact no_quote_value h.2 h'
  | .slash k e, h => by
    unfold Entry.Ordinary at h
    unfold Entry.compact
    rw [List.mem_append, List.mem_cons]
    rintro (h' | h' | h')
    · exact (h.1.2.2 _ h').2.2.2.1 rfl
    · simp at h'
    · exact Entry.Ordinary.no_quote e h.2 h'
  | .block k v es, h => by
    unfold Entry.Ordinary at h
    unfold Entry.compact
    simp only [List.mem_append, List.mem_cons, List.not_mem_nil, or_false]
    rintro (((h' | h') | (h' | h')) | h')
    · exact (h.1.2.2 _ h').2.2.2.1 rfl
    · exact no_quote_value h.2.1 h'
    · simp at h'
    · exact Entry.OrdinaryL.no_quote es h.2.2 h'
    · simp at h'
theorem Entry.OrdinaryL.no_quote : ∀ (es : List Entry), Entry.OrdinaryL es → '"' ∉ Entry.compacts es
  | [], _ => by unfold Entry.compacts; simp
  | [e], h => by
    unfold Entry.OrdinaryL at h
    unfold Entry.compacts
    exact Entry.Ordinary.no_quote e h.1
  | e :: e' :: es, h => by
    unfold Entry.OrdinaryL at h
    unfold Entry.compacts
    rw [List.mem_append, List.mem_cons]
    rintro (h' | h' | h')
    · exact Entry.Ordinary.no_quote e h.1 h'
    · simp at h'
    · exact Entry.OrdinaryL.no_quote (e' :: es) h.2 h'
end

theorem joinComma_compact : ∀ es : List Entry, joinComma (es.map Entry.compact) = Entry.compacts es
  | [] => by simp [joinComma, Entry.compacts]
  | [e] => by simp [joinComma, Entry.compacts]
  | e :: e' :: es => by
    have := joinComma_compact (e' :: es)
    simp only [List.map_cons] at this
    simp only [List.map_cons, joinComma, Entry.compacts, this]

/-! ## C94 -/

/-- **C94** The compact notation of any configuration with ordinary keys and values is loaded as exactly this configuration, given
in one string or entry by entry (as command line arguments). -/
theorem C94_tree (es : List Entry) (h : Entry.OrdinaryL es) :
    loadFromString (Entry.compacts es) = .ok (.node [] (Entry.children es)) ∧
    loadStrings (es.map Entry.compact) = .ok (.node [] (Entry.children es)) ∧
    ∀ more, loadArgs es.length (es.map Entry.compact ++ more) = .ok (.node [] (Entry.children es)) := by
  have h1 : loadFromString (Entry.compacts es) = .ok (.node [] (Entry.children es)) := by
    unfold loadFromString
    rw [C29_nesting es (Entry.OrdinaryL.ok es h) (Entry.OrdinaryL.no_quote es h)]
    simp only [readInfo_entries es h]
  have h2 : loadStrings (es.map Entry.compact) = .ok (.node [] (Entry.children es)) := by
    unfold loadStrings
    rw [joinComma_compact, h1]
  refine ⟨h1, h2, fun more => ?_⟩
  unfold loadArgs
  have : (es.map Entry.compact ++ more).take es.length = es.map Entry.compact := by
    have := List.take_left' (l₁ := es.map Entry.compact) (l₂ := more) (i := es.length) (by simp)
    exact this
  rw [this, h2]

/-- an assignment `a/b/c=value` -/
structure Assign where
  first : Key
  more : List Key
  value : Str

/-- its keys from the root -/
def Assign.path (a : Assign) : List Key := a.first :: a.more

/-- its text -/
def Assign.text (a : Assign) : Str := List.intercalate ['/'] a.path ++ '=' :: a.value

/-- ordinary keys and value -/
def Assign.Ordinary (a : Assign) : Prop := (∀ k ∈ a.path, OrdinaryKey k) ∧ OrdinaryValue a.value

/-- the entry -/
def mkEntry (v : Str) : Key → List Key → Entry
  | k, [] => .leaf k (some v)
  | k, k' :: r => .slash k (mkEntry v k' r)

theorem mkEntry_compact (v : Str) : ∀ (k : Key) (r : List Key),
    (mkEntry v k r).compact = List.intercalate ['/'] (k :: r) ++ '=' :: v
  | k, [] => by simp [mkEntry, Entry.compact, valueText, List.intercalate]
  | k, k' :: r => by
    have := mkEntry_compact v k' r
    simp only [mkEntry, Entry.compact, this]
    simp [List.intercalate, List.intersperse]

theorem mkEntry_ordinary (v : Str) (hv : OrdinaryValue v) : ∀ (k : Key) (r : List Key), (∀ x ∈ k :: r, OrdinaryKey x) → (mkEntry v k r).Ordinary
  | k, [], h => by
    simp only [mkEntry, Entry.Ordinary]
    exact ⟨h k (by simp), by simpa using hv⟩
  | k, k' :: r, h => by
    simp only [mkEntry, Entry.Ordinary]
    exact ⟨h k (by simp), mkEntry_ordinary v hv k' r fun x hx => h x (List.mem_cons_of_mem _ hx)⟩

/-- what is found under a path, seen from the node of the first key -/
theorem getData_mkEntry (v : Str) : ∀ (k : Key) (r p : List Key),
    getData (mkEntry v k r).child.2 p = if p = r then some v else if p <+: r then some [] else none
  | k, [], p => by
    cases p with
    | nil => simp [mkEntry, Entry.child, getData, getChild, Tree.data]
    | cons x p => simp [mkEntry, Entry.child, getData, getChild, findKid, Tree.kids]
  | k, k' :: r, p => by
    cases p with
    | nil => simp [mkEntry, Entry.child, getData, getChild, Tree.data]
    | cons x p =>
      have ih := getData_mkEntry v k' r p
      have hk : (mkEntry v k' r).child.1 = k' := by cases r <;> simp [mkEntry, Entry.child]
      simp only [mkEntry, Entry.child, getData_cons, Tree.kids, findKid, hk]
      by_cases hx : x = k'
      · subst hx
        simp [ih, List.cons_prefix_cons]
      · simp [hx, List.cons_prefix_cons]

theorem getData_children (as : List Assign) (x : Key) (p : List Key) :
    getData (.node [] (Entry.children (as.map fun a => mkEntry a.value a.first a.more))) (x :: p) =
      (as.find? fun a => a.first = x).bind fun a =>
        if p = a.more then some a.value else if p <+: a.more then some [] else none := by
  rw [getData_cons]
  simp only [Tree.kids]
  induction as with
  | nil => simp [Entry.children, findKid]
  | cons a as ih =>
    have hk : (mkEntry a.value a.first a.more).child.1 = a.first := by cases a.more <;> simp [mkEntry, Entry.child]
    simp only [List.map_cons, Entry.children]
    rw [findKid.eq_def]
    have hp : (mkEntry a.value a.first a.more).child = (a.first, (mkEntry a.value a.first a.more).child.2) := Prod.ext hk rfl
    rw [hp]
    simp only
    by_cases hx : x = a.first
    · simp [hx, getData_mkEntry]
    · have hx' : ¬ a.first = x := fun h => hx h.symm
      simp [hx, hx', ih]

/-- the full claim: every assignment given to `loadStrings` can be read back (if it is the last one for its key) -/
def C94_claim : Prop :=
  ∀ (as : List Assign) (t : Tree), (∀ a ∈ as, ∀ k ∈ a.path, OrdinaryKey k) →
    (∀ a ∈ as, ∀ c ∈ a.value, isSpecial c = false ∧ c ≠ '"') → loadStrings (as.map Assign.text) = .ok t →
    ∀ a ∈ as, (∀ b ∈ as, b.path = a.path → b = a) → getData t a.path = some a.value

/-- **C94** What is found after `loadStrings` of assignments, for every path: the first assignment with the same first key decides,
its value under its path and empty values at the nodes above; nothing else is found. -/
theorem C94_assignments (as : List Assign) (h : ∀ a ∈ as, a.Ordinary) :
    ∃ t, loadStrings (as.map Assign.text) = .ok t ∧
      ∀ (x : Key) (p : List Key), getData t (x :: p) =
        (as.find? fun a => a.first = x).bind fun a =>
          if p = a.more then some a.value else if p <+: a.more then some [] else none := by
  have e : as.map Assign.text = (as.map fun a => mkEntry a.value a.first a.more).map Entry.compact := by
    rw [List.map_map]
    apply List.map_congr_left
    intro a _
    simp [Assign.text, Assign.path, mkEntry_compact]
  have ho : ∀ l : List Assign, (∀ a ∈ l, a.Ordinary) → Entry.OrdinaryL (l.map fun a => mkEntry a.value a.first a.more) := by
    intro l
    induction l with
    | nil => intro _; simp [Entry.OrdinaryL]
    | cons a l ih =>
      intro hl
      simp only [List.map_cons, Entry.OrdinaryL]
      exact ⟨mkEntry_ordinary a.value (hl a (by simp)).2 _ _ (hl a (by simp)).1, ih fun b hb => hl b (by simp [hb])⟩
  refine ⟨_, by rw [e]; exact (C94_tree _ (ho as h)).2.1, fun x p => getData_children as x p⟩

/-- **C94** The part of the claim that holds: if no two assignments begin with the same key, every one is read back. -/
theorem C94_partial (as : List Assign) (h : ∀ a ∈ as, a.Ordinary) (hd : (as.map Assign.first).Nodup) :
    ∃ t, loadStrings (as.map Assign.text) = .ok t ∧ ∀ a ∈ as, getData t a.path = some a.value := by
  obtain ⟨t, ht, hg⟩ := C94_assignments as h
  refine ⟨t, ht, fun a ha => ?_⟩
  rw [Assign.path, hg]
  have : as.find? (fun b => b.first = a.first) = some a := by
    clear hg ht h t
    induction as with
    | nil => simp at ha
    | cons b as ih =>
      simp only [List.map_cons, List.nodup_cons, List.mem_map, not_exists, not_and] at hd
      rcases List.mem_cons.1 ha with rfl | ha
      · simp
      · have : ¬ b.first = a.first := fun h => hd.1 a ha h.symm
        simp [this, ih hd.2 ha]
  simp [this]

/-- **C94** The full claim is false: of two assignments below one key (`a/b=1`, `a/c=2`) the second is lost for every getter, because the
tree gets two children `a`. -/
theorem C94_negation : ¬ C94_claim ∧
    ∀ (a b : Assign), a.Ordinary → b.Ordinary → a.first = b.first → ¬ b.more <+: a.more →
      ∃ t, loadStrings [a.text, b.text] = .ok t ∧ getData t b.path = none := by
  have key : ∀ (a b : Assign), a.Ordinary → b.Ordinary → a.first = b.first → ¬ b.more <+: a.more →
      ∃ t, loadStrings [a.text, b.text] = .ok t ∧ getData t b.path = none := by
    intro a b ha hb hab hp
    obtain ⟨t, ht, hg⟩ := C94_assignments [a, b] (by simp [ha, hb])
    refine ⟨t, by simpa using ht, ?_⟩
    rw [Assign.path, hg, ← hab]
    have : b.more ≠ a.more := fun h => hp (h ▸ List.prefix_rfl)
    simp [this, hp]
  have hord : ∀ c : Char, c ∈ ['a', 'b', 'c', '1', '2'] → Ordinary c := by
    intro c hc
    simp only [List.mem_cons, List.not_mem_nil, or_false] at hc
    rcases hc with rfl | rfl | rfl | rfl | rfl <;> (refine ⟨?_, ?_, ?_, ?_, ?_, ?_⟩ <;> decide)
  have ha : (⟨['a'], [['b']], ['1']⟩ : Assign).Ordinary := by
    constructor
    · intro k hk
      simp only [Assign.path, List.mem_cons, List.not_mem_nil, or_false] at hk
      rcases hk with rfl | rfl <;> exact ⟨by simp, by simp, fun c hc => hord c (by simp at hc; simp [hc])⟩
    · exact fun c hc => hord c (by simp at hc; simp [hc])
  have hb : (⟨['a'], [['c']], ['2']⟩ : Assign).Ordinary := by
    constructor
    · intro k hk
      simp only [Assign.path, List.mem_cons, List.not_mem_nil, or_false] at hk
      rcases hk with rfl | rfl <;> exact ⟨by simp, by simp, fun c hc => hord c (by simp at hc; simp [hc])⟩
    · exact fun c hc => hord c (by simp at hc; simp [hc])
  refine ⟨fun hc => ?_, key⟩
  obtain ⟨t, ht, hn⟩ := key _ _ ha hb rfl (by simp)
  have := hc [⟨['a'], [['b']], ['1']⟩, ⟨['a'], [['c']], ['2']⟩] t
    (by intro a hm; simp only [List.mem_cons, List.not_mem_nil, or_false] at hm; rcases hm with rfl | rfl
        · exact ha.1
        · exact hb.1)
    (by
      intro a hm c hcm
      simp only [List.mem_cons, List.not_mem_nil, or_false] at hm
      rcases hm with rfl | rfl
      · exact ⟨(ha.2 c hcm).2.2.2.2.2, (ha.2 c hcm).2.2.2.1⟩
      · exact ⟨(hb.2 c hcm).2.2.2.2.2, (hb.2 c hcm).2.2.2.1⟩)
    (by simpa using ht) ⟨['a'], [['c']], ['2']⟩ (by simp)
    (by
      intro b hm hp
      simp only [List.mem_cons, List.not_mem_nil, or_false] at hm
      rcases hm with rfl | rfl
      · simp [Assign.path] at hp
      · rfl)
  rw [hn] at this
  simp at this

/-- **C94** A value with a blank is cut at it, without an error: the rest becomes a key of its own. -/
theorem C94_blank_cuts (k v w : Str) (hk : OrdinaryKey k) (hv : OrdinaryValue v) (hv0 : v ≠ []) (hw : OrdinaryValue w) (hw0 : w ≠ []) :
    loadStrings [k ++ '=' :: (v ++ ' ' :: w)] = .ok (.node [] [(k, .node v []), (w, .node [] [])]) := by
  have hsp : ∀ c ∈ v ++ ' ' :: w, isSpecial c = false := by
    intro c hc
    rcases List.mem_append.1 hc with h | h
    · exact (hv c h).2.2.2.2.2
    · rcases List.mem_cons.1 h with rfl | h
      · decide
      · exact (hw c h).2.2.2.2.2
  have hq : '"' ∉ v ++ ' ' :: w := by
    intro hc
    rcases List.mem_append.1 hc with h | h
    · exact (hv _ h).2.2.2.1 rfl
    · rcases List.mem_cons.1 h with h | h
      · simp at h
      · exact (hw _ h).2.2.2.1 rfl
  have h1 := C29_nesting [.leaf k (some (v ++ ' ' :: w))]
    (by
      simp only [Entry.OkL, Entry.Ok, and_true]
      exact ⟨fun c hc => (hk.2.2 c hc).2.2.2.2.2, fun s hs c hc => by simp at hs; subst hs; exact hsp c hc⟩)
    (by
      simp only [Entry.compacts, Entry.compact, valueText, List.mem_append, List.mem_cons]
      rintro (h | h | h)
      · exact (hk.2.2 _ h).2.2.2.1 rfl
      · simp at h
      · exact hq (by simpa [List.mem_append] using h))
  simp only [Entry.compacts, Entry.compact, valueText, Entry.infos, Entry.info, infoValue] at h1
  unfold loadStrings loadFromString
  simp only [joinComma]
  rw [h1]
  have hl : k ++ ' ' :: (v ++ ' ' :: w) ++ "\n".toList = (k ++ ' ' :: (v ++ ' ' :: w)) ++ '\n' :: [] := by simp
  have hf : feed ⟨⟨[], [], []⟩, [], false, false⟩ (k ++ ' ' :: (v ++ ' ' :: w) ++ "\n".toList) =
      some ⟨⟨[], [], [(k, .node v []), (w, .node [] [])]⟩, [], true, false⟩ := by
    rw [hl, feed_append, feed_line, parseOne_eq, parseLine_word _ k _ hk.1 hk.2.2 (by simp; decide),
      parseLine_space _ ' ' (by decide), parseLine_word _ v _ hv0 hv (by simp; decide), parseLine_space _ ' ' (by decide)]
    · have := fun p => parseLine_word p w [] hw0 hw (by simp)
      simp only [List.append_nil] at this
      rw [this, parseLine_blank]
      simp only [Option.bind_some]
      rw [feed_line _ _ (by simp), parseOne_eq _ _ (by simp [NoNul]) (by simp), parseLine_blank]
      simp [PS.push, PS.setData, Tree.kids]
    · intro c hc
      rcases List.mem_append.1 hc with h | h
      · exact (hk.2.2 c h).2.2.2.2.1
      · rcases List.mem_cons.1 h with rfl | h
        · decide
        · rcases List.mem_append.1 h with h | h
          · exact (hv c h).2.2.2.2.1
          · rcases List.mem_cons.1 h with rfl | h
            · decide
            · exact (hw c h).2.2.2.2.1
    · obtain ⟨hne, hh, hc⟩ := hk
      cases k with
      | nil => exact absurd rfl hne
      | cons a k' =>
        have ha := hc a (by simp)
        simpa [ha.1] using hh
    · intro hc
      rcases List.mem_append.1 hc with h | h
      · exact ordinary_no_newline (hk.2.2 _ h) rfl
      · rcases List.mem_cons.1 h with h | h
        · simp at h
        · rcases List.mem_append.1 h with h | h
          · exact ordinary_no_newline (hv _ h) rfl
          · rcases List.mem_cons.1 h with h | h
            · simp at h
            · exact ordinary_no_newline (hw _ h) rfl
  unfold feed at hf
  simp only [readInfo, hf]

example : loadStrings ["a=hello world".toList] = .ok (.node [] [(['a'], .node "hello".toList []), ("world".toList, .node [] [])]) := by
  exact C94_blank_cuts ['a'] "hello".toList "world".toList ⟨by simp, by simp, by decide⟩ (by unfold OrdinaryValue; decide) (by simp)
    (by unfold OrdinaryValue; decide) (by simp)

/-- **C94** What follows a `;` in a value is a comment: it is dropped, without an error. -/
theorem C94_comment (k v w : Str) (hk : OrdinaryKey k) (hv : OrdinaryValue v) (hv0 : v ≠ []) (hw : OrdinaryValue w) :
    loadStrings [k ++ '=' :: (v ++ ';' :: w)] = .ok (.node [] [(k, .node v [])]) := by
  have hmem : ∀ c ∈ v ++ ';' :: w, isSpecial c = false ∧ c ≠ '"' ∧ c ≠ Char.ofNat 0 ∧ c ≠ '\n' := by
    intro c hc
    rcases List.mem_append.1 hc with h | h
    · exact ⟨(hv c h).2.2.2.2.2, (hv c h).2.2.2.1, (hv c h).2.2.2.2.1, ordinary_no_newline (hv c h)⟩
    · rcases List.mem_cons.1 h with rfl | h
      · decide
      · exact ⟨(hw c h).2.2.2.2.2, (hw c h).2.2.2.1, (hw c h).2.2.2.2.1, ordinary_no_newline (hw c h)⟩
  have h1 := C29_nesting [.leaf k (some (v ++ ';' :: w))]
    (by
      simp only [Entry.OkL, Entry.Ok, and_true]
      exact ⟨fun c hc => (hk.2.2 c hc).2.2.2.2.2, fun s hs c hc => by simp at hs; subst hs; exact (hmem c hc).1⟩)
    (by
      simp only [Entry.compacts, Entry.compact, valueText, List.mem_append, List.mem_cons]
      rintro (h | h | h)
      · exact (hk.2.2 _ h).2.2.2.1 rfl
      · simp at h
      · exact (hmem _ (by simpa [List.mem_append] using h)).2.1 rfl)
  simp only [Entry.compacts, Entry.compact, valueText, Entry.infos, Entry.info, infoValue] at h1
  unfold loadStrings loadFromString
  simp only [joinComma]
  rw [h1]
  have hl : k ++ ' ' :: (v ++ ';' :: w) ++ "\n".toList = (k ++ ' ' :: (v ++ ';' :: w)) ++ '\n' :: [] := by simp
  have hc : ∀ p : PS, parseLine p (';' :: w) = some { p with expectData := false } := by
    intro p
    rw [parseLine_tok (s := ';' :: w) (c := ';') (r := w) (by simp [List.dropWhile, isSpaceC])]
    simp
  have hf : feed ⟨⟨[], [], []⟩, [], false, false⟩ (k ++ ' ' :: (v ++ ';' :: w) ++ "\n".toList) =
      some ⟨⟨[], [], [(k, .node v [])]⟩, [], true, false⟩ := by
    rw [hl, feed_append, feed_line, parseOne_eq, parseLine_word _ k _ hk.1 hk.2.2 (by simp; decide),
      parseLine_space _ ' ' (by decide), parseLine_word _ v _ hv0 hv (by simp; decide), hc]
    · simp only [Option.bind_some]
      rw [feed_line _ _ (by simp), parseOne_eq _ _ (by simp [NoNul]) (by simp), parseLine_blank]
      simp [PS.push, PS.setData, Tree.kids]
    · intro c hc
      rcases List.mem_append.1 hc with h | h
      · exact (hk.2.2 c h).2.2.2.2.1
      · rcases List.mem_cons.1 h with rfl | h
        · decide
        · exact (hmem c h).2.2.1
    · obtain ⟨hne, hh, hc⟩ := hk
      cases k with
      | nil => exact absurd rfl hne
      | cons a k' =>
        have ha := hc a (by simp)
        simpa [ha.1] using hh
    · intro hc
      rcases List.mem_append.1 hc with h | h
      · exact ordinary_no_newline (hk.2.2 _ h) rfl
      · rcases List.mem_cons.1 h with h | h
        · simp at h
        · exact (hmem _ h).2.2.2 rfl
  unfold feed at hf
  simp only [readInfo, hf]

example : loadStrings ["a=1;2".toList] = .ok (.node [] [(['a'], .node ['1'] [])]) :=
  C94_comment ['a'] ['1'] ['2'] ⟨by simp, by simp, by decide⟩ (by unfold OrdinaryValue; decide) (by simp) (by unfold OrdinaryValue; decide)

/-- **C94** A brace that is not closed is an error, whatever stands in it; the tree is not replaced. -/
theorem C94_unclosed (k : Str) (v : Option Str) (es : List Entry) (hk : OrdinaryKey k) (hv : ∀ s ∈ v, OrdinaryValue s) (h : Entry.OrdinaryL es) :
    loadFromString (k ++ valueText v ++ '{' :: Entry.compacts es) = .threw := by
  have hq : '"' ∉ k ++ valueText v ++ '{' :: Entry.compacts es := by
    simp only [List.mem_append, List.mem_cons]
    rintro ((h' | h') | h' | h')
    · exact (hk.2.2 _ h').2.2.2.1 rfl
    · exact no_quote_value hv h'
    · simp at h'
    · exact Entry.OrdinaryL.no_quote es h h'
  have hpv : PlainV v := fun s hs c hc => (hv s hs c hc).2.2.2.2.2
  have h1 : loadString (k ++ valueText v ++ '{' :: Entry.compacts es) = .info ((k ++ infoValue v) ++ "\n{\n".toList ++ Entry.infos es) := by
    unfold loadString
    rw [if_neg hq, List.append_assoc, loadLoop_plain (fun c hc => (hk.2.2 c hc).2.2.2.2.2), loadLoop_value hpv,
      loadLoop_special (by decide)]
    simp [loadLoop_entries_end es (Entry.OrdinaryL.ok es h), LoadRes.pre]
  unfold loadFromString
  rw [h1]
  have e1 : (k ++ infoValue v) ++ "\n{\n".toList ++ Entry.infos es = (k ++ infoValue v) ++ '\n' :: (['{'] ++ '\n' :: (Entry.infos es ++ [])) := by
    simp
  have h2 := feed_append ⟨⟨[], [], []⟩, [], false, false⟩ (k ++ infoValue v) (['{'] ++ '\n' :: (Entry.infos es ++ []))
  rw [← e1, feed_keyline _ rfl k hk v hv, Option.bind_some, feed_append, feed_open, Option.bind_some, feed_entries es h _ rfl] at h2
  unfold feed at h2
  simp only [readInfo, h2]
  simp [parseLines, parseOne, parseLine_blank, PS.addedL]

example : loadFromString "a{b=1".toList = .threw :=
  C94_unclosed ['a'] none [.leaf ['b'] (some ['1'])] ⟨by simp, by simp, by decide⟩ (by simp)
    (by simp [Entry.OrdinaryL, Entry.Ordinary, OrdinaryKey, OrdinaryValue]; decide)

/-- Concrete: the notation of the examples. -/
example : loadStrings ["a/b=1".toList, "c{d=2,e/f=3}".toList] =
    .ok (.node [] [(['a'], .node [] [(['b'], .node ['1'] [])]),
      (['c'], .node [] [(['d'], .node ['2'] []), (['e'], .node [] [(['f'], .node ['3'] [])])])]) :=
  (C94_tree [.slash ['a'] (.leaf ['b'] (some ['1'])),
      .block ['c'] none [.leaf ['d'] (some ['2']), .slash ['e'] (.leaf ['f'] (some ['3']))]]
    (by simp [Entry.OrdinaryL, Entry.Ordinary, OrdinaryKey, OrdinaryValue]; decide)).2.1

end Verif.PTree
