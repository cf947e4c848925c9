import Verif.PTree.LoadString

/-!
# C29: `loadString` translates the compact notation faithfully
-/

namespace Verif.PTree

/-! ## specification -/

/-- A configuration written compactly: `key`, `key=value`, `key/entry`, `key{entries}`,
`key=value{entries}`. -/
inductive Entry where
  | leaf (key : Str) (value : Option Str)
  | slash (key : Str) (sub : Entry)
  | block (key : Str) (value : Option Str) (subs : List Entry)

def valueText : Option Str → Str
  | none => []
  | some v => '=' :: v

def infoValue : Option Str → Str
  | none => []
  | some v => ' ' :: v

mutual
/-- the compact text of an entry -/
def Entry.compact : Entry → Str
  | .leaf k v => k ++ valueText v
  | .slash k e => k ++ '/' :: e.compact
  | .block k v es => k ++ valueText v ++ '{' :: Entry.compacts es ++ ['}']
/-- entries are separated by commas -/
def Entry.compacts : List Entry → Str
  | [] => []
  | [e] => e.compact
  | e :: es => e.compact ++ ',' :: Entry.compacts es
end

mutual
/-- the INFO text of an entry: a line `key value`, the entries below it between lines `{` and `}` -/
def Entry.info : Entry → Str
  | .leaf k v => k ++ infoValue v
  | .slash k e => k ++ "\n{\n".toList ++ e.info ++ "\n}".toList
  | .block k v es => k ++ infoValue v ++ "\n{\n".toList ++ Entry.infos es ++ "}".toList
/-- one entry per line -/
def Entry.infos : List Entry → Str
  | [] => "\n".toList
  | [e] => e.info ++ "\n".toList
  | e :: es => e.info ++ '\n' :: Entry.infos es
end

def Plain (s : Str) : Prop := ∀ c ∈ s, isSpecial c = false

def PlainV (v : Option Str) : Prop := ∀ s ∈ v, Plain s

mutual
/-- keys and values contain none of `,/={}` -/
def Entry.Ok : Entry → Prop
  | .leaf k v => Plain k ∧ PlainV v
  | .slash k e => Plain k ∧ e.Ok
  | .block k v es => Plain k ∧ PlainV v ∧ Entry.OkL es
def Entry.OkL : List Entry → Prop
  | [] => True
  | e :: es => e.Ok ∧ Entry.OkL es
end

/-- the brace depth of a text, as an integer -/
def depth (s : Str) : Int := (s.count '{' : Int) - (s.count '}' : Int)

/-! ## steps of the loop -/

theorem pre_pre (a b : Str) (r : LoadRes) : LoadRes.pre a (.pre b r) = .pre (a ++ b) r := by
  cases r <;> simp [LoadRes.pre]

theorem pre_nil (r : LoadRes) : LoadRes.pre [] r = r := by cases r <;> simp [LoadRes.pre]

theorem loadLoop_nil (b : Nat) (bl : List Nat) : loadLoop b bl [] = .info (closers b ++ ['\n']) := by
  unfold loadLoop; rfl

theorem loadLoop_end {s : Str} (h : s.dropWhile (fun c => !isSpecial c) = []) (b : Nat) (bl : List Nat) :
    loadLoop b bl s = .pre (s.takeWhile (fun c => !isSpecial c)) (.info (closers b ++ ['\n'])) := by
  conv => lhs; unfold loadLoop
  split
  · rfl
  · rename_i h'; rw [h] at h'; cases h'

theorem loadLoop_tok {s rest : Str} {c : Char} (h : s.dropWhile (fun c => !isSpecial c) = c :: rest)
    (b : Nat) (bl : List Nat) :
    loadLoop b bl s = .pre (s.takeWhile (fun c => !isSpecial c)) (
      if c = '=' then .pre [' '] (loadLoop b bl rest)
      else if c = '/' then .pre "\n{\n".toList (loadLoop (b + 1) bl rest)
      else if c = '{' then .pre "\n{\n".toList (loadLoop 0 (b :: bl) rest)
      else if c = '}' then
        match bl with
        | [] => .unmatched
        | x :: xs => .pre (closers b ++ "\n}".toList) (loadLoop x xs rest)
      else .pre (closers b ++ ['\n']) (loadLoop 0 bl rest)) := by
  conv => lhs; unfold loadLoop
  split
  · rename_i h'; rw [h] at h'; cases h'
  · rename_i h'; rw [h] at h'; cases h'; rfl

theorem loadLoop_char {c : Char} (hc : isSpecial c = false) (b : Nat) (bl : List Nat) (s : Str) :
    loadLoop b bl (c :: s) = .pre [c] (loadLoop b bl s) := by
  have hd : List.dropWhile (fun c => !isSpecial c) (c :: s) = List.dropWhile (fun c => !isSpecial c) s := by
    simp [hc]
  have ht : List.takeWhile (fun c => !isSpecial c) (c :: s) = c :: List.takeWhile (fun c => !isSpecial c) s := by
    simp [hc]
  cases h : List.dropWhile (fun c => !isSpecial c) s with
  | nil => rw [loadLoop_end (hd.trans h), loadLoop_end h, ht, pre_pre]; rfl
  | cons x rest => rw [loadLoop_tok (hd.trans h), loadLoop_tok h, ht, pre_pre]; rfl

theorem loadLoop_plain {t : Str} (ht : Plain t) (b : Nat) (bl : List Nat) (s : Str) :
    loadLoop b bl (t ++ s) = .pre t (loadLoop b bl s) := by
  induction t with
  | nil => simp [pre_nil]
  | cons c t ih =>
    rw [List.cons_append, loadLoop_char (ht c (by simp)), ih (fun x hx => ht x (by simp [hx])), pre_pre]
    rfl

theorem loadLoop_special {c : Char} (hc : isSpecial c = true) (b : Nat) (bl : List Nat) (s : Str) :
    loadLoop b bl (c :: s) =
      if c = '=' then .pre [' '] (loadLoop b bl s)
      else if c = '/' then .pre "\n{\n".toList (loadLoop (b + 1) bl s)
      else if c = '{' then .pre "\n{\n".toList (loadLoop 0 (b :: bl) s)
      else if c = '}' then
        match bl with
        | [] => .unmatched
        | x :: xs => .pre (closers b ++ "\n}".toList) (loadLoop x xs s)
      else .pre (closers b ++ ['\n']) (loadLoop 0 bl s) := by
  have hd : List.dropWhile (fun c => !isSpecial c) (c :: s) = c :: s := by simp [hc]
  have ht : List.takeWhile (fun c => !isSpecial c) (c :: s) = [] := by simp [hc]
  rw [loadLoop_tok hd, ht, pre_nil]

/-! ## nesting -/

/-- the part of an entry's INFO text written before the separator after it is read -/
def Entry.opened : Entry → Str
  | .leaf k v => k ++ infoValue v
  | .slash k e => k ++ "\n{\n".toList ++ e.opened
  | .block k v es => k ++ infoValue v ++ "\n{\n".toList ++ Entry.infos es ++ "}".toList

def Entry.slashes : Entry → Nat
  | .leaf _ _ => 0
  | .slash _ e => e.slashes + 1
  | .block _ _ _ => 0

theorem closers_comm (n : Nat) : closers n ++ "\n}".toList = closers (n + 1) := by
  induction n with
  | zero => rfl
  | succ n ih =>
    have : closers (n + 1) = '\n' :: '}' :: closers n := rfl
    rw [this, List.cons_append, List.cons_append, ih]; rfl

theorem Entry.info_eq : ∀ e : Entry, e.info = e.opened ++ closers e.slashes
  | .leaf k v => by simp [Entry.info, Entry.opened, Entry.slashes, closers]
  | .slash k e => by
    simp only [Entry.info, Entry.opened, Entry.slashes, ← closers_comm, Entry.info_eq e, List.append_assoc]
  | .block k v es => by simp [Entry.info, Entry.opened, Entry.slashes, closers]

theorem loadLoop_value {v : Option Str} (hv : PlainV v) (b : Nat) (bl : List Nat) (s : Str) :
    loadLoop b bl (valueText v ++ s) = .pre (infoValue v) (loadLoop b bl s) := by
  cases v with
  | none => simp [valueText, infoValue, pre_nil]
  | some v =>
    simp only [valueText, infoValue, List.cons_append]
    rw [loadLoop_special rfl, if_pos rfl, loadLoop_plain (hv v rfl), pre_pre]
    rfl

mutual
theorem loadLoop_entry : ∀ (e : Entry), e.Ok → ∀ (b : Nat) (bl : List Nat) (s : Str),
    loadLoop b bl (e.compact ++ s) = .pre e.opened (loadLoop (b + e.slashes) bl s)
  | .leaf k v, h, b, bl, s => by
    unfold Entry.Ok at h
    unfold Entry.compact Entry.opened Entry.slashes
    rw [List.append_assoc, loadLoop_plain h.1, loadLoop_value h.2, pre_pre]; rfl
  | .slash k e, h, b, bl, s => by
    unfold Entry.Ok at h
    unfold Entry.compact Entry.opened Entry.slashes
    rw [List.append_assoc, loadLoop_plain h.1, List.cons_append, loadLoop_special rfl, if_neg (by decide), if_pos rfl,
      loadLoop_entry e h.2, pre_pre, pre_pre, List.append_assoc]
    congr 2; omega
  | .block k v es, h, b, bl, s => by
    unfold Entry.Ok at h
    unfold Entry.compact Entry.opened Entry.slashes
    have : k ++ valueText v ++ '{' :: Entry.compacts es ++ ['}'] ++ s =
        k ++ (valueText v ++ ('{' :: (Entry.compacts es ++ ('}' :: s)))) := by simp
    rw [this, loadLoop_plain h.1, loadLoop_value h.2.1, loadLoop_special rfl, if_neg (by decide),
      if_neg (by decide), if_pos rfl, loadLoop_entries es h.2.2 (b :: bl) '}' rfl s
        (.pre "}".toList (loadLoop b bl s))]
    · simp [pre_pre]
    · intro n
      rw [loadLoop_special rfl, if_neg (by decide), if_neg (by decide), if_neg (by decide), if_pos rfl, pre_pre]
      simp
theorem loadLoop_entries : ∀ (es : List Entry), Entry.OkL es → ∀ (bl : List Nat) (c : Char), isSpecial c = true →
    ∀ (s : Str) (r : LoadRes), (∀ n, loadLoop n bl (c :: s) = .pre (closers n ++ ['\n']) r) →
    loadLoop 0 bl (Entry.compacts es ++ c :: s) = .pre (Entry.infos es) r
  | [], _, bl, c, hc, s, r, hr => by
    unfold Entry.compacts Entry.infos
    rw [List.nil_append, hr 0]; rfl
  | [e], h, bl, c, hc, s, r, hr => by
    unfold Entry.OkL at h
    unfold Entry.compacts Entry.infos
    rw [loadLoop_entry e h.1, hr, pre_pre, Entry.info_eq]; simp
  | e :: e' :: es, h, bl, c, hc, s, r, hr => by
    unfold Entry.OkL at h
    unfold Entry.compacts Entry.infos
    rw [List.append_assoc, List.cons_append, loadLoop_entry e h.1, loadLoop_special rfl, if_neg (by decide),
      if_neg (by decide), if_neg (by decide), if_neg (by decide), loadLoop_entries (e' :: es) h.2 bl c hc s r hr,
      pre_pre, pre_pre, Entry.info_eq]
    simp
end

theorem loadLoop_entries_end : ∀ (es : List Entry), Entry.OkL es → ∀ (bl : List Nat),
    loadLoop 0 bl (Entry.compacts es) = .info (Entry.infos es)
  | [], _, bl => by
    unfold Entry.compacts Entry.infos
    rw [loadLoop_nil]; rfl
  | [e], h, bl => by
    unfold Entry.OkL at h
    unfold Entry.compacts Entry.infos
    have := loadLoop_entry e h.1 0 bl []
    rw [List.append_nil] at this
    rw [this, loadLoop_nil, Entry.info_eq]; simp [LoadRes.pre]
  | e :: e' :: es, h, bl => by
    unfold Entry.OkL at h
    unfold Entry.compacts Entry.infos
    rw [loadLoop_entry e h.1, loadLoop_special rfl, if_neg (by decide),
      if_neg (by decide), if_neg (by decide), if_neg (by decide), loadLoop_entries_end (e' :: es) h.2 bl,
      pre_pre, Entry.info_eq]
    simp [LoadRes.pre]

/-- **C29** The compact text of any list of entries (keys and values without the characters `,/={}"`) is
translated into the INFO text of the same entries, with the same nesting. -/
theorem C29_nesting (es : List Entry) (h : Entry.OkL es) (hq : '"' ∉ Entry.compacts es) :
    loadString (Entry.compacts es) = .info (Entry.infos es) := by
  unfold loadString
  rw [if_neg hq, loadLoop_entries_end es h]

/-- the example of the property: `a/b=v,c{d=w}` -/
example : Entry.compacts [.slash ['a'] (.leaf ['b'] (some ['v'])), .block ['c'] none [.leaf ['d'] (some ['w'])]] =
      "a/b=v,c{d=w}".toList ∧
    Entry.infos [.slash ['a'] (.leaf ['b'] (some ['v'])), .block ['c'] none [.leaf ['d'] (some ['w'])]] =
      "a\n{\nb v\n}\nc\n{\nd w\n}\n".toList ∧
    Entry.OkL [.slash ['a'] (.leaf ['b'] (some ['v'])), .block ['c'] none [.leaf ['d'] (some ['w'])]] := by
  refine ⟨by decide, by decide, ?_⟩
  simp [Entry.OkL, Entry.Ok, Plain, PlainV, isSpecial]

/-! ## failure and balance for every input -/

theorem closers_count (n : Nat) : (closers n).count '{' = 0 ∧ (closers n).count '}' = n := by
  induction n with
  | zero => simp [closers]
  | succ n ih => simp [closers, ih]

theorem loadLoop_total (s : Str) : ∀ (b : Nat) (bl : List Nat),
    (loadLoop b bl s ≠ .quote) ∧
    (loadLoop b bl s = .unmatched ↔ ∃ p, p <+: s ∧ (bl.length : Int) + depth p < 0) := by
  induction s with
  | nil =>
    intro b bl
    rw [loadLoop_nil]
    simp [depth]
  | cons c s ih =>
    intro b bl
    have pre_q : ∀ (a : Str) (r : LoadRes), (LoadRes.pre a r ≠ .quote ↔ r ≠ .quote) ∧
        (LoadRes.pre a r = .unmatched ↔ r = .unmatched) := by
      intro a r; cases r <;> simp [LoadRes.pre]
    have ex : ∀ (n : Int), 0 ≤ n → ((∃ p, p <+: c :: s ∧ n + depth p < 0) ↔
        ∃ p, p <+: s ∧ n + depth [c] + depth p < 0) := by
      intro n hn
      constructor
      · rintro ⟨p, hp, hd⟩
        cases p with
        | nil => simp [depth] at hd; omega
        | cons x p =>
          rw [List.cons_prefix_cons] at hp
          obtain ⟨rfl, hp⟩ := hp
          refine ⟨p, hp, ?_⟩
          simp only [depth, List.count_cons, List.count_nil] at hd ⊢
          omega
      · rintro ⟨p, hp, hd⟩
        refine ⟨c :: p, by simpa using hp, ?_⟩
        simp only [depth, List.count_cons, List.count_nil] at hd ⊢
        omega
    by_cases hc : isSpecial c = true
    · rw [loadLoop_special hc]
      by_cases h1 : c = '='
      · subst h1
        rw [if_pos rfl, (pre_q _ _).1, (pre_q _ _).2, ex _ (by omega)]
        refine ⟨(ih b bl).1, ?_⟩
        rw [(ih b bl).2]
        have : depth ['='] = 0 := by decide
        simp [this]
      rw [if_neg h1]
      by_cases h2 : c = '/'
      · subst h2
        rw [if_pos rfl, (pre_q _ _).1, (pre_q _ _).2, ex _ (by omega)]
        refine ⟨(ih _ bl).1, ?_⟩
        rw [(ih _ bl).2]
        have : depth ['/'] = 0 := by decide
        simp [this]
      rw [if_neg h2]
      by_cases h3 : c = '{'
      · subst h3
        rw [if_pos rfl, (pre_q _ _).1, (pre_q _ _).2, ex _ (by omega)]
        refine ⟨(ih _ _).1, ?_⟩
        rw [(ih _ _).2]
        have : depth ['{'] = 1 := by decide
        simp [this]
      rw [if_neg h3]
      by_cases h4 : c = '}'
      · subst h4
        rw [if_pos rfl, ex _ (by omega)]
        have : depth ['}'] = -1 := by decide
        cases bl with
        | nil =>
          simp only [this]
          refine ⟨by simp, ⟨fun _ => ⟨[], by simp, by simp [depth]⟩, fun _ => by simp⟩⟩
        | cons x xs =>
          simp only [this]
          rw [(pre_q _ _).1, (pre_q _ _).2]
          refine ⟨(ih _ _).1, ?_⟩
          rw [(ih _ _).2]
          simp only [List.length_cons]
          constructor <;> rintro ⟨p, hp, hd⟩ <;> exact ⟨p, hp, by omega⟩
      rw [if_neg h4, (pre_q _ _).1, (pre_q _ _).2, ex _ (by omega)]
      refine ⟨(ih _ _).1, ?_⟩
      rw [(ih _ _).2]
      have : depth [c] = 0 := by simp [depth, List.count_cons, h3, h4]
      simp [this]
    · have hc : isSpecial c = false := by simpa using hc
      rw [loadLoop_char hc, (pre_q _ _).1, (pre_q _ _).2, ex _ (by omega)]
      refine ⟨(ih _ _).1, ?_⟩
      rw [(ih _ _).2]
      have : depth [c] = 0 := by
        have h3 : c ≠ '{' := by rintro rfl; simp [isSpecial] at hc
        have h4 : c ≠ '}' := by rintro rfl; simp [isSpecial] at hc
        simp [depth, List.count_cons, h3, h4]
      simp [this]

/-- **C29** The translation fails exactly on a quotation mark or on a closing brace without a matching
opening one. -/
theorem C29_fails_iff (s : Str) :
    (∃ t, loadString s = .info t) ↔ ¬ ('"' ∈ s) ∧ ∀ p, p <+: s → 0 ≤ depth p := by
  unfold loadString
  by_cases hq : '"' ∈ s
  · simp [hq]
  · rw [if_neg hq]
    have h := loadLoop_total s 0 []
    simp only [hq, not_false_eq_true, true_and]
    constructor
    · rintro ⟨t, ht⟩ p hp
      rw [ht] at h
      rcases Int.lt_or_le (depth p) 0 with hd | hd
      · have := h.2.2 ⟨p, hp, by simpa using hd⟩
        cases this
      · exact hd
    · intro hp
      cases hr : loadLoop 0 [] s with
      | info t => exact ⟨t, rfl⟩
      | quote => exact absurd hr h.1
      | unmatched =>
        obtain ⟨p, h1, h2⟩ := h.2.1 hr
        have := hp p h1
        simp at h2
        omega

theorem depth_append (a b : Str) : depth (a ++ b) = depth a + depth b := by
  simp [depth, List.count_append]; omega

theorem prefix_append_cases {α} : ∀ (p a b : List α), p <+: a ++ b → p <+: a ∨ ∃ q, p = a ++ q ∧ q <+: b
  | [], a, b, _ => .inl (List.nil_prefix)
  | x :: p, [], b, h => .inr ⟨x :: p, rfl, h⟩
  | x :: p, y :: a, b, h => by
    rw [List.cons_append, List.cons_prefix_cons] at h
    obtain ⟨rfl, h⟩ := h
    rcases prefix_append_cases p a b h with h | ⟨q, rfl, h⟩
    · exact .inl (by simpa using h)
    · exact .inr ⟨q, rfl, by simpa using h⟩

theorem pre_info {a : Str} {r : LoadRes} {t : Str} (h : LoadRes.pre a r = .info t) :
    ∃ t', r = .info t' ∧ t = a ++ t' := by
  cases r <;> simp_all [LoadRes.pre]

/-- all prefixes of `closers n` have depth at least `-n` -/
theorem closers_prefix (n : Nat) (p : Str) (h : p <+: closers n) : -(n : Int) ≤ depth p := by
  obtain ⟨q, hq⟩ := h
  have h1 := closers_count n
  rw [← hq] at h1
  simp [List.count_append] at h1
  simp [depth]; omega

theorem closers_depth (n : Nat) : depth (closers n) = -(n : Int) := by
  have h1 := closers_count n
  simp [depth, h1]

/-- one emitted chunk: from `D` open braces to `D'` -/
theorem chunk_balance {a t' : Str} {D D' : Int} (ha : ∀ p, p <+: a → 0 ≤ D + depth p) (hD : D' = D + depth a)
    (ht : ∀ p, p <+: t' → 0 ≤ D' + depth p) (p : Str) (hp : p <+: a ++ t') : 0 ≤ D + depth p := by
  rcases prefix_append_cases p a t' hp with h | ⟨q, rfl, h⟩
  · exact ha p h
  · rw [depth_append]
    have := ht q h
    omega

theorem prefix_noBrace {a : Str} (h : '}' ∉ a) (p : Str) (hp : p <+: a) : 0 ≤ depth p := by
  have : p.count '}' = 0 := List.count_eq_zero.2 (fun hm => h (hp.subset hm))
  simp [depth, this]

theorem loadLoop_balance (s : Str) : ∀ (b : Nat) (bl : List Nat) (t : Str), loadLoop b bl s = .info t →
    (∀ p, p <+: t → 0 ≤ ((b + bl.sum + bl.length : Nat) : Int) + depth p) ∧
    ∃ fin : List Nat, (fin.length : Int) = bl.length + depth s ∧
      ((fin.sum + fin.length : Nat) : Int) = (b + bl.sum + bl.length : Nat) + depth t := by
  induction s with
  | nil =>
    intro b bl t h
    rw [loadLoop_nil] at h
    cases h
    have hd : depth (closers b ++ ['\n']) = -(b : Int) := by
      rw [depth_append, closers_depth]; simp [depth]
    refine ⟨fun p hp => ?_, bl, by simp [depth], by rw [hd]; omega⟩
    have := chunk_balance (a := closers b) (t' := ['\n']) (D := (b + bl.sum + bl.length : Nat)) (D' := (bl.sum + bl.length : Nat))
      (fun p hp => by have := closers_prefix b p hp; omega) (by rw [closers_depth]; omega)
      (fun p hp => by have := prefix_noBrace (by decide) p hp; omega) p hp
    exact this
  | cons c s ih =>
    intro b bl t h
    have hdc : depth (c :: s) = depth [c] + depth s := depth_append [c] s
    by_cases hc : isSpecial c = true
    · rw [loadLoop_special hc] at h
      by_cases h1 : c = '='
      · subst h1
        rw [if_pos rfl] at h
        obtain ⟨t', ht', rfl⟩ := pre_info h
        obtain ⟨i1, fin, i2, i3⟩ := ih _ _ _ ht'
        have e1 : depth ['='] = 0 := by decide
        have e2 : depth [' '] = 0 := by decide
        refine ⟨chunk_balance (fun p hp => ?_) ?_ i1, fin, ?_, ?_⟩
        · have := prefix_noBrace (by decide) p hp; omega
        · omega
        · omega
        · rw [depth_append]; omega
      rw [if_neg h1] at h
      by_cases h2 : c = '/'
      · subst h2
        rw [if_pos rfl] at h
        obtain ⟨t', ht', rfl⟩ := pre_info h
        obtain ⟨i1, fin, i2, i3⟩ := ih _ _ _ ht'
        have e1 : depth ['/'] = 0 := by decide
        have e2 : depth "\n{\n".toList = 1 := by decide
        refine ⟨chunk_balance (fun p hp => ?_) ?_ i1, fin, ?_, ?_⟩
        · have := prefix_noBrace (by decide) p hp; omega
        · omega
        · omega
        · rw [depth_append]; omega
      rw [if_neg h2] at h
      by_cases h3 : c = '{'
      · subst h3
        rw [if_pos rfl] at h
        obtain ⟨t', ht', rfl⟩ := pre_info h
        obtain ⟨i1, fin, i2, i3⟩ := ih _ _ _ ht'
        have e1 : depth ['{'] = 1 := by decide
        have e2 : depth "\n{\n".toList = 1 := by decide
        simp only [List.sum_cons, List.length_cons] at i1 i2 i3
        refine ⟨chunk_balance (fun p hp => ?_) ?_ i1, fin, ?_, ?_⟩
        · have := prefix_noBrace (by decide) p hp; omega
        · omega
        · omega
        · rw [depth_append]; omega
      rw [if_neg h3] at h
      by_cases h4 : c = '}'
      · subst h4
        rw [if_pos rfl] at h
        cases bl with
        | nil => cases h
        | cons x xs =>
          simp only [closers_comm] at h
          obtain ⟨t', ht', rfl⟩ := pre_info h
          obtain ⟨i1, fin, i2, i3⟩ := ih _ _ _ ht'
          have e1 : depth ['}'] = -1 := by decide
          have e2 := closers_depth (b + 1)
          simp only [List.sum_cons, List.length_cons]
          refine ⟨chunk_balance (fun p hp => ?_) ?_ i1, fin, ?_, ?_⟩
          · have := closers_prefix _ p hp; omega
          · omega
          · omega
          · rw [depth_append]; omega
      rw [if_neg h4] at h
      obtain ⟨t', ht', rfl⟩ := pre_info h
      obtain ⟨i1, fin, i2, i3⟩ := ih _ _ _ ht'
      have e1 : depth [c] = 0 := by simp [depth, h3, h4]
      have e2 : depth (closers b ++ ['\n']) = -(b : Int) := by
        rw [depth_append, closers_depth]; simp [depth]
      refine ⟨chunk_balance (fun p hp => ?_) ?_ i1, fin, ?_, ?_⟩
      · rcases prefix_append_cases p _ _ hp with h | ⟨q, rfl, h⟩
        · have := closers_prefix _ p h; omega
        · rw [depth_append, closers_depth]
          have := prefix_noBrace (by decide) q h; omega
      · omega
      · omega
      · rw [depth_append]; omega
    · have hc : isSpecial c = false := by simpa using hc
      rw [loadLoop_char hc] at h
      have h3 : c ≠ '{' := by rintro rfl; simp [isSpecial] at hc
      have h4 : c ≠ '}' := by rintro rfl; simp [isSpecial] at hc
      obtain ⟨t', ht', rfl⟩ := pre_info h
      obtain ⟨i1, fin, i2, i3⟩ := ih _ _ _ ht'
      have e1 : depth [c] = 0 := by simp [depth, h3, h4]
      refine ⟨chunk_balance (fun p hp => ?_) ?_ i1, fin, ?_, ?_⟩
      · have := prefix_noBrace (a := [c]) (by simpa using h4.symm) p hp; omega
      · omega
      · omega
      · rw [depth_append]; omega

/-- **C29** Whatever the input, the INFO text produced never closes a brace it has not opened, and it is
balanced exactly if the braces of the input are. -/
theorem C29_balanced (s t : Str) (h : loadString s = .info t) :
    (∀ p, p <+: t → 0 ≤ depth p) ∧ 0 ≤ depth s ∧ (depth t = 0 ↔ depth s = 0) := by
  unfold loadString at h
  split at h
  · cases h
  · obtain ⟨h1, fin, h2, h3⟩ := loadLoop_balance s 0 [] t h
    simp at h1 h2 h3
    refine ⟨h1, by omega, ?_⟩
    constructor
    · intro h; omega
    · intro h
      have : fin = [] := List.length_eq_zero_iff.1 (by omega)
      subst this
      simpa using h3.symm

/-- a slash pending at an unclosed brace: still accepted by the translation, left to `read_info` -/
example : loadString "a/b{c".toList = .info "a\n{\nb\n{\nc\n".toList := by
  unfold loadString
  rw [if_neg (by decide)]
  rw [show "a/b{c".toList = ['a', '/', 'b', '{', 'c'] from rfl]
  simp only [loadLoop_char (c := 'a') rfl, loadLoop_char (c := 'b') rfl, loadLoop_char (c := 'c') rfl,
    loadLoop_special (c := '/') rfl, loadLoop_special (c := '{') rfl, loadLoop_nil]
  decide

end Verif.PTree
