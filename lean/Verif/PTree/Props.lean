import Verif.PTree.Lemmas

/-!
# C25–C27: keys, reading and writing through views of a property tree
-/

namespace Verif.PTree

open Verif.Strings (ensureTrailingBackslash)

theorem ensure_eq (s : Str) :
    ensureTrailingBackslash s = if s.getLast? = some '/' then s else s ++ ['/'] := by
  unfold ensureTrailingBackslash
  cases s with
  | nil => simp
  | cons a as => simp [List.getLast?_eq_getElem?]

theorem ensure_last (s : Str) : (ensureTrailingBackslash s).getLast? = some '/' := by
  rw [ensure_eq]; split <;> simp_all

theorem ensure_head (s : Str) (h : s ≠ []) : (ensureTrailingBackslash s).head? = s.head? := by
  rw [ensure_eq]; split <;> cases s <;> simp_all

theorem ensure_id (s : Str) (h : s.getLast? = some '/') : ensureTrailingBackslash s = s := by
  rw [ensure_eq, if_pos h]

theorem fix_head (n : Str) (h : n.getLast? = some '/') :
    (if n.head? = some '/' then n else '/' :: n).head? = some '/' ∧
      (if n.head? = some '/' then n else '/' :: n).getLast? = some '/' := by
  split
  · exact ⟨‹_›, h⟩
  · cases n <;> simp_all [List.getLast?_cons_cons]

/-- every view's namespace begins and ends with a slash -/
theorem namespace_slashes {ns : Str} (h : Namespace ns) :
    ns.head? = some '/' ∧ ns.getLast? = some '/' := by
  cases h with
  | root base => exact fix_head _ (ensure_last base)
  | child ns c _ =>
    unfold childNamespace
    refine fix_head _ ?_
    split <;> exact ensure_last _

theorem absKey_abs {ns key : Str} (h : isAbsolute key) : absKey ns key = key := if_pos h
theorem absKey_rel {ns key : Str} (h : ¬ isAbsolute key) : absKey ns key = ns ++ key := if_neg h

theorem childNamespace_eq {ns : Str} (h : Namespace ns) (c : Str) :
    childNamespace ns c = ensureTrailingBackslash (absKey ns c) := by
  have hs := namespace_slashes h
  unfold childNamespace absKey isAbsolute
  by_cases hc : c.head? = some '/'
  · simp only [hc, if_true]
    have : c ≠ [] := by rintro rfl; simp at hc
    simp [ensure_head c this, hc]
  · simp only [hc, if_false]
    have h1 : ns ≠ [] := by rintro rfl; simp at hs
    have : ns ++ c ≠ [] := by simp [h1]
    have h2 : (ns ++ c).head? = some '/' := by
      cases ns with
      | nil => exact absurd rfl h1
      | cons a as => simpa using hs.1
    rw [ensure_head _ this, h2, if_pos rfl]

theorem qualify_eq (ns key : Str) :
    qualify ns key = if 1 < (absKey ns key).length ∧ (absKey ns key).getLast? = some '/'
      then (absKey ns key).dropLast else absKey ns key := by
  unfold qualify absKey isAbsolute; rfl

theorem absKey_absolute {ns : Str} (h : Namespace ns) (key : Str) : isAbsolute (absKey ns key) := by
  have hs := namespace_slashes h
  unfold absKey
  split
  · assumption
  · unfold isAbsolute at *
    cases ns <;> simp_all

theorem absKey_absKey {ns ns' : Str} (h : Namespace ns) (key : Str) :
    absKey ns' (absKey ns key) = absKey ns key := absKey_abs (absKey_absolute h key)

theorem concat_cases (s : Str) : s = [] ∨ ∃ t c, s = t ++ [c] := by
  rcases List.eq_nil_or_concat s with h | ⟨t, c, h⟩
  · exact .inl h
  · exact .inr ⟨t, c, by simpa using h⟩

theorem keyPath_qualify {ns : Str} (hns : Namespace ns) (key : Str) (hc : CleanEnd ns key) :
    keyPath (qualify ns key) = ⟨entryPath ns key, false⟩ := by
  have ha := absKey_absolute hns key
  rw [qualify_eq]
  unfold keyPath mkPath entryPath
  unfold CleanEnd at hc
  revert ha hc
  generalize absKey ns key = q
  intro hc ha
  unfold isAbsolute at ha
  cases q with
  | nil => simp at ha
  | cons a x =>
    simp at ha; subst ha
    rw [reduceAll_eq]
    rcases concat_cases x with rfl | ⟨y, c, rfl⟩
    · simp [names]
    · have hl : ('/' :: (y ++ [c])).getLast? = some c := by
        rw [← List.cons_append, List.getLast?_concat]
      have hd : ('/' :: (y ++ [c])).dropLast = '/' :: y := by
        rw [← List.cons_append, List.dropLast_concat]
      rw [hl, hd]
      by_cases h : c = '/'
      · subst h
        simp only [List.length_cons, List.length_append, List.length_nil, and_true]
        rw [if_pos (by omega)]
        simp only [List.tail_cons]
        have hy : y ≠ [] := by
          rintro rfl; exact hc (by simp)
        have hy2 : y.getLast? ≠ some '/' := by
          intro h
          rcases concat_cases y with rfl | ⟨z, d, rfl⟩
          · simp at h
          · simp at h; subst h
            exact hc ⟨'/' :: z, by simp⟩
        rw [names_append]
        simp only [names_append, splitOn_eq_names _ _ hy hy2, hy2]
        simp [names]
      · simp [h]

theorem keyPath_frags {ns : Str} (hns : Namespace ns) (key : Str) (hc : CleanEnd ns key) :
    (keyPath (qualify ns key)).frags = entryPath ns key := by rw [keyPath_qualify hns key hc]

theorem qualify_head {ns : Str} (hns : Namespace ns) (key : Str) (hc : CleanEnd ns key) :
    (qualify ns key).head? = some '/' := by
  have ha := absKey_absolute hns key
  rw [qualify_eq]
  revert ha
  generalize absKey ns key = q
  intro ha
  unfold isAbsolute at ha
  split
  · rcases q with _ | ⟨a, _ | ⟨b, l⟩⟩ <;> simp_all
  · exact ha

theorem doesKeyExist_eq {ns : Str} (hns : Namespace ns) (key : Str) (hc : CleanEnd ns key) (t : Tree) :
    doesKeyExist t ns key = (getData t (entryPath ns key)).isSome := by
  unfold doesKeyExist
  simp only [qualify_head hns key hc, if_true]
  have := keyPath_frags hns key hc
  unfold keyPath at this
  rw [this]

theorem get_eq {T} (c : Codec T) {ns : Str} (hns : Namespace ns) (key : Str) (hc : CleanEnd ns key)
    (t : Tree) : get c t ns key = match getData t (entryPath ns key) with
      | none => .badKey
      | some d => readAs c d := by
  unfold get
  rw [keyPath_frags hns key hc]
  rfl

theorem put_ok (t : Tree) (p : List Key) (v : Str) : put t ⟨p, false⟩ v = some (putFrags t p v) := by
  unfold put; split <;> simp

theorem set_eq {T} (c : Codec T) {ns : Str} (hns : Namespace ns) (key : Str) (hc : CleanEnd ns key)
    (t : Tree) (v : T) : set c t ns key v = some (putFrags t (entryPath ns key) (c.print v)) := by
  unfold set
  rw [keyPath_qualify hns key hc, put_ok]

/-! ## C25 -/

/-- **C25** A key used through a view denotes the same entry as its absolute spelling through any view
— for reading, reading with a default, writing and existence.  (The absolute spelling of a relative key
`k` in namespace `n` is `n ++ k`, that of an absolute key is itself.) -/
theorem C25_qualified {ns : Str} (hns : Namespace ns) (ns' key : Str) {T} (c : Codec T) (t : Tree) :
    get c t ns key = get c t ns' (absKey ns key) ∧
    (∀ d, getDefault c t ns key d = getDefault c t ns' (absKey ns key) d) ∧
    (∀ d, getDefaultMut c t ns key d = getDefaultMut c t ns' (absKey ns key) d) ∧
    (∀ v, set c t ns key v = set c t ns' (absKey ns key) v) ∧
    doesKeyExist t ns key = doesKeyExist t ns' (absKey ns key) := by
  have : qualify ns key = qualify ns' (absKey ns key) := by
    rw [qualify_eq, qualify_eq, absKey_absKey hns]
  unfold get getDefault getDefaultMut set doesKeyExist
  simp only [← this, implies_true, and_self]

/-- **C25** A view's namespace begins and ends with a slash; child views compose, so a key used through
the child view of a child view is the joined key used through the outer view. -/
theorem C25_child_views {ns : Str} (hns : Namespace ns) (a b : Str) :
    ns.head? = some '/' ∧ ns.getLast? = some '/' ∧
    childNamespace (childNamespace ns a) b = childNamespace ns (joinKey a b) ∧
    absKey (childNamespace ns a) b = absKey ns (joinKey a b) := by
  have hs := namespace_slashes hns
  have key : absKey (childNamespace ns a) b = absKey ns (joinKey a b) := by
    rw [childNamespace_eq hns]
    unfold joinKey
    by_cases hb : isAbsolute b
    · simp only [hb, if_true, absKey_abs]
    · simp only [hb, if_false, absKey_rel hb, not_false_eq_true]
      by_cases ha : a = []
      · subst ha
        have : ¬ isAbsolute [] := by simp [isAbsolute]
        simp only [if_true, absKey_rel this, absKey_rel hb, List.append_nil]
        rw [ensure_id _ hs.2]
      · simp only [ha, if_false]
        have hh : ∀ l : Str, isAbsolute (a ++ l) ↔ isAbsolute a := by
          intro l; unfold isAbsolute; cases a <;> simp_all
        have hlast : (absKey ns a).getLast? = a.getLast? := by
          unfold absKey
          split
          · rfl
          · rw [List.getLast?_append, List.getLast?_eq_some_getLast ha]; rfl
        rw [ensure_eq, hlast]
        by_cases hab : isAbsolute a
        · split <;> rw [absKey_abs hab, absKey_abs ((hh _).2 hab)] <;> simp
        · split <;> rw [absKey_rel hab, absKey_rel (fun h => hab ((hh _).1 h))] <;> simp
  refine ⟨hs.1, hs.2, ?_, key⟩
  rw [childNamespace_eq (.child _ _ hns), key, childNamespace_eq hns]

/-- **C25** One trailing slash after a non-empty key (that does not already end in one) is
insignificant. -/
theorem C25_trailing_slash {ns : Str} (hns : Namespace ns) (key : Str) (hk : key ≠ [])
    (hl : key.getLast? ≠ some '/') {T} (c : Codec T) (t : Tree) :
    get c t ns (key ++ ['/']) = get c t ns key ∧
    (∀ d, getDefault c t ns (key ++ ['/']) d = getDefault c t ns key d) ∧
    (∀ v, set c t ns (key ++ ['/']) v = set c t ns key v) ∧
    doesKeyExist t ns (key ++ ['/']) = doesKeyExist t ns key := by
  have : qualify ns (key ++ ['/']) = qualify ns key := by
    have h1 : absKey ns (key ++ ['/']) = absKey ns key ++ ['/'] := by
      unfold absKey isAbsolute
      cases key with
      | nil => simp at hk
      | cons a as => by_cases h : a = '/' <;> simp [h]
    have h2 : (absKey ns key).getLast? = key.getLast? := by
      unfold absKey
      split
      · rfl
      · rw [List.getLast?_append, List.getLast?_eq_some_getLast hk]; rfl
    have h3 : absKey ns key ≠ [] := by
      intro h; rw [h] at h2; rw [List.getLast?_eq_some_getLast hk] at h2; simp at h2
    rw [qualify_eq, qualify_eq, h1, h2]
    simp only [List.length_append, List.getLast?_append, hl]
    have := List.length_pos_iff.2 h3
    simp; omega
  unfold get getDefault set doesKeyExist
  simp only [this, implies_true, and_self]

/-- **C25** The entry a relative key denotes lies below the entry of its namespace: its path is the
namespace's names followed by the key's names. -/
theorem C25_below_namespace {ns : Str} (hns : Namespace ns) (key : Str) (hr : ¬ isAbsolute key) :
    entryPath ns key = names '/' ns.tail ++ names '/' key := by
  obtain ⟨h1, h2⟩ := namespace_slashes hns
  unfold entryPath absKey
  rw [if_neg hr]
  cases ns with
  | nil => simp at h1
  | cons a m =>
    rcases concat_cases m with rfl | ⟨y, c, rfl⟩
    · simp only [List.tail_cons, List.cons_append, List.nil_append]; rfl
    · have : c = '/' := by
        rw [← List.cons_append, List.getLast?_concat] at h2; simpa using h2
      subst this
      simp only [List.cons_append, List.tail_cons, List.append_assoc, List.nil_append]
      rw [names_append, names_append]
      simp [names]

/-- **C25** Opening child view `a` and using key `k` there is using the key `a/k` here. -/
theorem C25_child_get {ns : Str} (hns : Namespace ns) (a k : Str) {T} (c : Codec T) (t : Tree) :
    get c t (childNamespace ns a) k = get c t ns (joinKey a k) ∧
    (∀ v, set c t (childNamespace ns a) k v = set c t ns (joinKey a k) v) ∧
    doesKeyExist t (childNamespace ns a) k = doesKeyExist t ns (joinKey a k) := by
  have h := (C25_child_views hns a k).2.2.2
  have h1 := C25_qualified (Namespace.child ns a hns) ns k c t
  have h2 := C25_qualified hns ns (joinKey a k) c t
  rw [h] at h1
  refine ⟨h1.1.trans h2.1.symm, fun v => (h1.2.2.2.1 v).trans (h2.2.2.2.1 v).symm,
    h1.2.2.2.2.trans h2.2.2.2.2.symm⟩

/-! ## C26 -/

/-- **C26** Writing a key and reading it back: the write succeeds, and reading the key gives exactly
what converting the written text gives (the value itself for any type whose conversion round-trips);
every other key that existed reads as before, every key that did not exist still does not, except that
the ancestors of the written key now exist (with empty text). -/
theorem C26_set_get {T} (c : Codec T) (t : Tree) {ns : Str} (hns : Namespace ns) (key : Str)
    (hc : CleanEnd ns key) (v : T) :
    ∃ t', set c t ns key v = some t' ∧
      doesKeyExist t' ns key = true ∧
      get c t' ns key = readAs c (c.print v) ∧
      (c.parse (c.print v) = some v → get c t' ns key = .value v) ∧
      ∀ {U} (c' : Codec U) (ns' : Str), Namespace ns' → ∀ key', CleanEnd ns' key' →
        entryPath ns' key' ≠ entryPath ns key →
        (doesKeyExist t ns' key' = true → get c' t' ns' key' = get c' t ns' key') ∧
        (doesKeyExist t ns' key' = false → entryPath ns' key' <+: entryPath ns key →
          get c' t' ns' key' = readAs c' []) ∧
        (doesKeyExist t' ns' key' = true ↔
          doesKeyExist t ns' key' = true ∨ entryPath ns' key' <+: entryPath ns key) := by
  refine ⟨_, set_eq c hns key hc t v, ?_, ?_, ?_, ?_⟩
  · rw [doesKeyExist_eq hns key hc, getData_putFrags]; simp
  · rw [get_eq c hns key hc, getData_putFrags]; simp
  · intro h
    rw [get_eq c hns key hc, getData_putFrags]; simp [readAs, h]
  · intro U c' ns' hns' key' hc' hne
    simp only [doesKeyExist_eq hns' key' hc', get_eq c' hns' key' hc', getData_putFrags, if_neg hne]
    cases getData t (entryPath ns' key') with
    | some d => simp
    | none => simp; intro h; simp [h]

/-- a concrete instance: below `/cam/`, writing `size/w` creates `size`, keeps `name` -/
example : Namespace (childNamespace (rootNamespace []) "cam".toList) ∧
    CleanEnd (childNamespace (rootNamespace []) "cam".toList) "size/w".toList ∧
    entryPath (childNamespace (rootNamespace []) "cam".toList) "size/w".toList =
      ["cam".toList, "size".toList, "w".toList] ∧
    entryPath (childNamespace (rootNamespace []) "cam".toList) "size".toList <+:
      ["cam".toList, "size".toList, "w".toList] := by
  refine ⟨.child _ _ (.root _), ?_, ?_, ?_⟩
  · decide
  · rw [C25_below_namespace (.child _ _ (.root _)) _ (by decide), ← reduceAll_eq, ← reduceAll_eq]; decide
  · rw [C25_below_namespace (.child _ _ (.root _)) _ (by decide), ← reduceAll_eq, ← reduceAll_eq]; decide

/-- **C26, the boundary**: creating an entry under a key whose absolute spelling ends in two slashes is
the only write that fails. -/
theorem C26_set_fails_iff {T} (c : Codec T) (t : Tree) {ns : Str} (hns : Namespace ns) (key : Str) (v : T) :
    set c t ns key v = none ↔
      ¬ CleanEnd ns key ∧ doesKeyExist t ns key = false := by
  by_cases hc : CleanEnd ns key
  · rw [set_eq c hns key hc]; simp [hc]
  · simp only [hc, not_false_eq_true, true_and]
    have ha := absKey_absolute hns key
    unfold CleanEnd at hc
    rw [Classical.not_not] at hc
    unfold set doesKeyExist
    rw [qualify_eq]
    revert ha hc
    generalize absKey ns key = q
    rintro ⟨s, rfl⟩ ha
    unfold isAbsolute at ha
    have : s ++ ['/', '/'] = (s ++ ['/']) ++ ['/'] := by simp
    rw [this] at ha ⊢
    rw [if_pos (by simp)]
    simp only [List.dropLast_concat]
    cases s with
    | nil => simp [keyPath, mkPath, put, reduceAll, getData]
    | cons a as =>
      simp at ha; subst ha
      simp [keyPath, mkPath, put, getData]

/-! ## C27 -/

/-- **C27** The getter with a default: it returns the stored value if the entry exists and converts, else
the default; on a const tree nothing changes (the tree is not part of the result); on a non-const tree it
leaves an entry that converts untouched, and otherwise writes the default, so that — for a type whose
conversion round-trips — reading the key without a default then returns the default, as does asking again
with any other default. -/
theorem C27_defaults {T} (c : Codec T) (t : Tree) {ns : Str} (hns : Namespace ns) (key : Str)
    (hc : CleanEnd ns key) (d : T) :
    (∀ v, get c t ns key = .value v →
      getDefault c t ns key d = v ∧ getDefaultMut c t ns key d = some (v, t)) ∧
    ((∀ v, get c t ns key ≠ .value v) →
      getDefault c t ns key d = d ∧
      ∃ t', getDefaultMut c t ns key d = some (d, t') ∧ set c t ns key d = some t' ∧
        (c.parse (c.print d) = some d →
          get c t' ns key = .value d ∧ ∀ d', getDefault c t' ns key d' = d)) := by
  have hs := set_eq c hns key hc t d
  unfold getDefaultMut getDefault get
  rw [keyPath_frags hns key hc, hs]
  cases hd : getData t (entryPath ns key) with
  | none =>
    simp only [reduceCtorEq, false_implies, implies_true, true_and, ne_eq, not_false_eq_true,
      forall_const, Option.bind_none, Option.map_some]
    refine ⟨_, rfl, rfl, fun h => ?_⟩
    simp [getData_putFrags, h]
  | some s =>
    cases hp : c.parse s with
    | none =>
      simp only [Option.bind_some, hp, reduceCtorEq, false_implies, implies_true, true_and, ne_eq,
        not_false_eq_true, forall_const, Option.map_some]
      refine ⟨_, rfl, rfl, fun h => ?_⟩
      simp [getData_putFrags, h]
    | some v => simp [hp]

/-- strings are stored as they are -/
def strCodec : Codec Str := ⟨id, some⟩

/-- both cases of C27 occur -/
example : (∀ v, get strCodec .empty "/".toList "a".toList ≠ .value v) ∧
    get strCodec (.node [] [("a".toList, .node "x".toList [])]) "/".toList "a".toList = .value "x".toList := by
  constructor
  · intro v; simp [get, qualify, keyPath, mkPath, reduceAll, getData, getChild, Tree.empty, Tree.kids, findKid]
  · decide

end Verif.PTree
