import Verif.ValueStore.SharingProps

/-!
# C109, C110: verbose stores; adding, saving, emptiness
-/

namespace Verif.ValueStore

open Verif.PTree (Str Key Tree Codec childNamespace doesKeyExist qualify keyPath getData Namespace CleanEnd rootNamespace joinKey entryPath strCodec)

/-! ## C109 -/

/-- the line a verbose store writes for a getter -/
def getLine (tag fn path : Str) (marked : Bool) (value : Str) : Str :=
  tag ++ fn ++ "(\"".toList ++ path ++ "\")->".toList ++ (if marked then "DEFAULT:".toList else []) ++ value

/-- **C109** (claim) A verbose store reads like the store it wraps and writes one line for each getter that succeeds, with the value, marked as the default if and only if there was nothing
to read (the getter without default fails). -/
def C109_claim : Prop := ∀ (T : Type) (_ : Inhabited T) (K : Kind T) (h : Heap) (k : Nat) (tag : Str) (s : HStore) (p : Str) (d : Option T) (hd : Handle T) (v : T), s.Ok →
  (s.handle K h p d).1 = .val hd → hd.get K.codec h = .val v →
  ∃ l m, (HStore.verbose k tag s).handle K h p d = (.val hd, l ++ [(k, getLine tag K.getter p m (K.shown v))]) ∧ (m = true ↔ (s.handle K h p none).1 = .threw)

theorem quoted_line (tag fn path x : Str) : tag ++ fn ++ ['('] ++ quoted path ++ ")->".toList ++ x = tag ++ fn ++ "(\"".toList ++ path ++ "\")->".toList ++ x := by
  simp [quoted]

/-- **C109** exactly: the wrapped getter runs first (with what it logs), then, if there is a default, the wrapped `hasKey`; then the line.  The mark says that the key is
missing.  A getter that fails writes nothing of its own. -/
theorem C109_get_partial {T} (K : Kind T) [Inhabited T] (h : Heap) (k : Nat) (tag : Str) (s : HStore) (p : Str) (d : Option T) :
    (∀ hd v, (s.handle K h p d).1 = .val hd → hd.get K.codec h = .val v →
      (d = none → (HStore.verbose k tag s).handle K h p d = (.val hd, (s.handle K h p d).2 ++ [(k, getLine tag K.getter p false (K.shown v))])) ∧
      (∀ x b, d = some x → (s.hasKey h p).1 = .val b → (HStore.verbose k tag s).handle K h p d =
        (.val hd, (s.handle K h p d).2 ++ ((s.hasKey h p).2 ++ [(k, getLine tag K.getter p (!b) (K.shown v))])))) ∧
    ((∀ hd, (s.handle K h p d).1 ≠ .val hd) → ((HStore.verbose k tag s).handle K h p d).2 = (s.handle K h p d).2 ∧
      ∀ hd, ((HStore.verbose k tag s).handle K h p d).1 ≠ .val hd) ∧
    (HStore.verboseExt k tag s).handle K h p d = (HStore.verbose k tag s).handle K h p d := by
  refine ⟨?_, ?_, by simp only [HStore.handle]⟩
  · intro hd v e hv
    refine ⟨?_, ?_⟩
    · rintro rfl
      rw [HStore.handle]
      generalize s.handle K h p none = y at *
      obtain ⟨r, l⟩ := y
      simp only at e
      subst e
      simp only [W.bind, logGet, hv, getLine, quoted_line]
      simp
    · rintro x b rfl hb
      rw [HStore.handle]
      generalize s.handle K h p (some x) = y at *
      generalize s.hasKey h p = z at *
      obtain ⟨r, l⟩ := y
      obtain ⟨r2, l2⟩ := z
      simp only at e hb
      subst e hb
      simp only [W.bind, logGet, hv, getLine, quoted]
      cases b <;> simp
  · intro hn
    rw [HStore.handle]
    generalize s.handle K h p d = y at *
    obtain ⟨r, l⟩ := y
    cases r with
    | val hd => exact absurd rfl (hn hd)
    | threw => exact ⟨rfl, fun hd e => by cases e⟩
    | ub => exact ⟨rfl, fun hd e => by cases e⟩

/-- **C109** `hasKey` and `getChild` are logged once each and give what the wrapped store gives; the lines of a child are tagged with its key. -/
theorem C109_others_partial (h : Heap) (k : Nat) (tag : Str) (s : HStore) (p : Str) :
    ((HStore.verbose k tag s).hasKey h p).1 = (s.hasKey h p).1 ∧
    (∀ b, (s.hasKey h p).1 = .val b → ((HStore.verbose k tag s).hasKey h p).2 =
      (s.hasKey h p).2 ++ [(k, tag ++ "hasKey(\"".toList ++ p ++ "\")->".toList ++ (if b then ['1'] else ['0']))]) ∧
    (∀ c l h', s.getChild h p = ((.val c, l), h') → (HStore.verbose k tag s).getChild h p =
      ((.val (.verbose k (tag ++ "child(".toList ++ p ++ "):".toList) c), (k, tag ++ "getChild(".toList ++ p ++ [')']) :: l), h')) ∧
    (HStore.verbose k tag s).at h = .verbose (s.at h) := by
  refine ⟨?_, ?_, ?_, by simp only [HStore.at]⟩
  · simp only [HStore.hasKey, W.bind_fst]
    cases (s.hasKey h p).1 <;> rfl
  · intro b hb
    rw [HStore.hasKey]
    generalize s.hasKey h p = y at *
    obtain ⟨r, l⟩ := y
    simp only at hb
    subst hb
    simp [W.bind, quoted, showBool]
  · intro c l h' e
    rw [HStore.getChild, e]
    simp [W.bind]

/-- **C109** the extendible verbose store does the same; `getChildren` starts with a line, whatever comes of it. -/
theorem C109_children_partial (h : Heap) (k : Nat) (tag : Str) (s : HStore) (p : Str) :
    (HStore.verboseExt k tag s).hasKey h p = (HStore.verbose k tag s).hasKey h p ∧
    (HStore.verboseExt k tag s).getChild h p = (HStore.verbose k tag s).getChild h p ∧
    ∃ rest, ((HStore.verbose k tag s).getChildren h).1.2 = (k, tag ++ "getChildren()".toList) :: ((s.getChildren h).1.2 ++ rest) := by
  refine ⟨by simp only [HStore.hasKey], by simp only [HStore.getChild], ?_⟩
  rw [HStore.getChildren]
  generalize s.getChildren h = y
  obtain ⟨⟨r, l⟩, h'⟩ := y
  cases r with
  | val cs =>
    simp only
    generalize HStore.childrenOneByOne h' (HStore.verbose k tag s) (List.map Prod.fst cs) = z
    exact ⟨z.1.2, rfl⟩
  | threw => exact ⟨[], by simp⟩
  | ub => exact ⟨[], by simp⟩

/-- going down through children of a verbose store -/
def descend (h : Heap) : HStore → List Str → Option (HStore × Lines)
  | s, [] => some (s, [])
  | s, k :: ks => match s.getChild h k with
    | ((.val c, l), _) => (descend h c ks).map fun r => (r.1, l ++ r.2)
    | _ => none

/-- **C109** through any number of children the tags add up, outermost first, so that each line names the whole way to its store. -/
theorem C109_tags (h : Heap) (k : Nat) (i : Nat) : ∀ (keys : List Str) (tag : Str) (ns : Str),
    ∃ ns' l, descend h (.verbose k tag (.tree i ns)) keys =
      some (.verbose k (tag ++ (keys.map fun key => "child(".toList ++ key ++ "):".toList).flatten) (.tree i ns'), l) ∧ l.length = keys.length
  | [], tag, ns => ⟨ns, [], by simp [descend], rfl⟩
  | key :: keys, tag, ns => by
    obtain ⟨ns', l, h1, h2⟩ := C109_tags h k i keys (tag ++ "child(".toList ++ key ++ "):".toList) (childNamespace ns key)
    have e := (C109_others_partial h k tag (.tree i ns) key).2.2.1 (.tree i (childNamespace ns key)) [] h (by simp only [HStore.getChild])
    refine ⟨ns', (k, tag ++ "getChild(".toList ++ key ++ [')']) :: l, ?_, by simp [h2]⟩
    simp only [descend, e, h1, Option.map_some]
    simp

/-- the kind of flags: `1` and `0` -/
def boolKind : Kind Bool := ⟨⟨fun b => if b then ['1'] else ['0'], fun s => if s = ['1'] then some true else if s = ['0'] then some false else none⟩,
  "getBool".toList, "addBool".toList, showBool⟩

/-- **C109** a value that cannot be read is replaced by the default without the mark. -/
theorem C109_negation : ¬ C109_claim := by
  intro H
  obtain ⟨l, m, hl, hm⟩ := H Bool inferInstance boolKind ⟨fun _ => treeA ['x'], 1⟩ 0 [] (.tree 0 ['/']) ['a'] (some true) (.const true) true
    (.tree 0 _ (.root [])) (by simp only [HStore.handle]; decide) rfl
  have e := ((C109_get_partial boolKind ⟨fun _ => treeA ['x'], 1⟩ 0 [] (.tree 0 ['/']) ['a'] (some true)).1 (.const true) true
    (by simp only [HStore.handle]; decide) rfl).2 true true rfl (by simp only [HStore.hasKey]; decide)
  have hm' : m = true := hm.2 (by simp only [HStore.handle]; decide)
  rw [e, hm'] at hl
  have h1 := congrArg (fun x : W (Handle Bool) => x.2.getLast?) hl
  simp only [HStore.handle, List.nil_append] at h1
  rw [List.getLast?_concat, List.getLast?_concat] at h1
  revert h1
  decide

/-- Concrete: the two lines of a verbose store over a tree with the entry `a`. -/
example : (HStore.verbose 3 [] (.tree 0 ['/'])).handle strKind heapA ['a'] none = (.val (.live 0 ['/'] ['a']), [(3, "getString(\"a\")->\"1\"".toList)]) ∧
    (HStore.verbose 3 [] (.tree 0 ['/'])).handle strKind heapA ['b'] (some ['z']) = (.val (.const ['z']), [(3, "getString(\"b\")->DEFAULT:\"z\"".toList)]) := by
  simp only [HStore.handle, HStore.hasKey]
  decide

/-! ## C110 -/

/-- a property tree store, possibly inside verbose extendible ones (whose sinks and tags are given, outermost first) -/
inductive HStore.Over : HStore → Nat → Str → List (Nat × Str) → Prop
  | tree (i ns) : Over (.tree i ns) i ns []
  | verboseExt (k t s i ns l) : Over s i ns l → Over (.verboseExt k t s) i ns ((k, t) :: l)

/-- **C110** an added key is read back, through any verbose stores, and each of these writes one line, the innermost first; no other tree is touched.  The handle holds the value but is not updateable: later changes of the
entry do not show in it. -/
theorem C110_add {T} (K : Kind T) [Inhabited T] (h : Heap) {s : HStore} {i : Nat} {ns : Str} {l : List (Nat × Str)} (hs : s.Over i ns l) (hns : Namespace ns) (p : Str)
    (hc : CleanEnd ns p) (v : T) (hv : K.codec.parse (K.codec.print v) = some v) :
    s.isExtendible = true ∧ ∃ h', s.add K h p v = some (.val (.const v, h'), (l.map fun x =>
        (x.1, x.2 ++ K.adder ++ "(\"".toList ++ p ++ "\")->INITIAL:".toList ++ K.shown v)).reverse) ∧
      (s.at h').get K.codec p none = .val v ∧ (s.at h').hasKey p = .val true ∧ (∀ j, j ≠ i → h'.trees j = h.trees j) ∧
      (Handle.const v).isUpdateable = false := by
  induction hs with
  | tree i ns =>
    obtain ⟨t', h1, h2, -, h3, -⟩ := Verif.PTree.C26_set_get K.codec (h.trees i) hns p hc v
    refine ⟨rfl, h.set i t', ?_, ?_, ?_, fun j hj => by simp [Heap.set, hj], rfl⟩
    · simp only [HStore.add, h1]; rfl
    · simp only [HStore.at, Store.get, treeGet, Heap.set, if_true, h3 hv]
    · simp only [HStore.at, Store.hasKey, Heap.set, if_true, h2]
  | verboseExt k t s i ns l _ ih =>
    obtain ⟨-, h', h1, h2, h3, h4, h5⟩ := ih hns hc
    refine ⟨rfl, h', ?_, ?_, ?_, h4, h5⟩
    · rw [HStore.add, h1]
      simp [W.bind, Handle.get, quoted]
    · simp only [HStore.at, Store.get, h2, R.bind]
    · simp only [HStore.at, Store.hasKey, h3]

/-- **C110** an extendible child is extendible and a part of the store, now and later: it reads `key/k`, and keys can be added to it; each verbose store writes a line,
the outermost first, and tags the lines of the child. -/
theorem C110_extendible_child {s : HStore} {i : Nat} {ns : Str} {l : List (Nat × Str)} (hs : s.Over i ns l) (hns : Namespace ns) (key : Str) :
    ∃ c, s.getExtendibleChild key = some (c, l.map fun x => (x.1, x.2 ++ "getExtendibleChild(".toList ++ key ++ ")".toList)) ∧
      c.isExtendible = true ∧ Namespace (childNamespace ns key) ∧
      c.Over i (childNamespace ns key) (l.map fun x => (x.1, x.2 ++ "EC(".toList ++ key ++ "):".toList)) ∧
      ∀ (later : Heap) {T : Type} [Inhabited T] (cd : Codec T) (k : Str),
        (c.at later).hasKey k = (s.at later).hasKey (joinKey key k) ∧
        (c.at later).get cd k none = (s.at later).get cd (joinKey key k) none := by
  have hnc : Namespace (childNamespace ns key) := .child ns key hns
  induction hs with
  | tree i ns =>
    obtain ⟨c, h0, -, hv⟩ := C108_getChild_partial ⟨fun _ => .empty, 0⟩ i hns key
    simp only [HStore.getChild, Prod.mk.injEq, R.val.injEq, and_true] at h0
    subst h0
    exact ⟨_, rfl, rfl, hnc, .tree _ _, fun later T _ cd k => ⟨(hv later cd k).1, (hv later cd k).2 none⟩⟩
  | verboseExt k t s i ns l _ ih =>
    obtain ⟨c, h1, h2, -, h3, h4⟩ := ih hns hnc
    refine ⟨.verboseExt k (t ++ "EC(".toList ++ key ++ "):".toList) c, ?_, rfl, hnc, .verboseExt _ _ _ _ _ _ h3, ?_⟩
    · rw [HStore.getExtendibleChild, h1]
      rfl
    · intro later T _ cd k'
      obtain ⟨e1, e2⟩ := h4 later cd k'
      simp only [HStore.at, Store.hasKey, Store.get]
      rw [e1, e2]
      exact ⟨rfl, rfl⟩

/-- Concrete: the extendible child of a verbose store. -/
example : (HStore.verboseExt 5 ['t'] (.tree 0 ['/'])).getExtendibleChild ['b'] =
    some (.verboseExt 5 "tEC(b):".toList (.tree 0 ['/', 'b', '/']), [(5, "tgetExtendibleChild(b)".toList)]) := rfl

/-- **C110** (claim) What a store saves is what it contains: the entries of a child, for a child; and a store is empty if and only if it has no keys. -/
def C110_claim : Prop :=
  (∀ (h : Heap) (i : Nat) (ns : Str) (t : Tree), Namespace ns → (HStore.tree i ns).saved h = some t →
    ∀ k : Str, ¬ Verif.PTree.isAbsolute k → ((HStore.tree i ns).at h).hasKey k = .val (doesKeyExist t ['/'] k)) ∧
  (∀ (h : Heap) (s : HStore), s.Ok → (s.isEmpty h = true ↔ ∀ k : Str, k ≠ [] → ¬ Verif.PTree.isAbsolute k → (s.at h).hasKey k = .val false))

theorem getData_noKids (t : Tree) (ht : t.kids = []) (q : List Key) (hq : q ≠ []) : getData t q = none := by
  cases q with
  | nil => exact absurd rfl hq
  | cons f fs => rw [Verif.PTree.getData_cons, ht]; rfl

/-- **C110** exactly: only property tree stores can be saved, and they save their whole tree, whatever part of it they show; so a store that shows all saves what it contains.
`isEmpty` looks at the whole tree, too: if it says so, no key below the root exists. -/
theorem C110_exact_partial (h : Heap) :
    (∀ s : HStore, s.canSave = (s.saved h).isSome) ∧
    (∀ i ns ns', (HStore.tree i ns).saved h = (HStore.tree i ns').saved h ∧ (HStore.tree i ns).saved h = some (h.trees i)) ∧
    (∀ i k t, (HStore.tree i ['/']).saved h = some t → ((HStore.tree i ['/']).at h).hasKey k = .val (doesKeyExist t ['/'] k)) ∧
    (∀ s : HStore, s.Ok → s.isEmpty h = true → ∃ i ns, s = .tree i ns ∧ Namespace ns ∧
      ∀ k, CleanEnd ns k → entryPath ns k ≠ [] → (s.at h).hasKey k = .val false) ∧
    (∀ i, (∀ k : Str, k ≠ [] → ¬ Verif.PTree.isAbsolute k → '/' ∉ k → ((HStore.tree i ['/']).at h).hasKey k = .val false) →
      (∀ x ∈ (h.trees i).kids, x.1 ≠ [] ∧ '/' ∉ x.1) → (HStore.tree i ['/']).isEmpty h = true) := by
  refine ⟨fun s => by cases s <;> rfl, fun i ns ns' => ⟨rfl, rfl⟩, ?_, ?_, ?_⟩
  · intro i k t e
    cases e
    simp only [HStore.at, Store.hasKey]
  · intro s hs he
    cases s with
    | tree i ns =>
      cases hs with
      | tree _ _ hn =>
        refine ⟨i, ns, rfl, hn, fun k hc hk => ?_⟩
        simp only [HStore.isEmpty, List.isEmpty_iff] at he
        simp only [HStore.at, Store.hasKey, R.val.injEq]
        rw [Verif.PTree.doesKeyExist_eq hn k hc, getData_noKids _ he _ hk]
        rfl
    | layered ls => cases he
    | prefixed m p s => cases he
    | verbose k t s => cases he
    | verboseExt k t s => cases he
  · intro i hk hg
    simp only [HStore.isEmpty, List.isEmpty_iff]
    refine Classical.byContradiction fun hne => ?_
    obtain ⟨⟨k, t⟩, rest, hkids⟩ := List.exists_cons_of_ne_nil hne
    have hx := hg (k, t) (by rw [hkids]; simp)
    have hnabs : ¬ Verif.PTree.isAbsolute k := by
      intro ha
      cases k with
      | nil => simp [Verif.PTree.isAbsolute] at ha
      | cons c cs =>
        simp only [Verif.PTree.isAbsolute, List.head?_cons, Option.some.injEq] at ha
        exact hx.2 (by simp [ha])
    have hroot : Namespace ['/'] := .root []
    have hlast : k.getLast? ≠ some '/' := fun e => hx.2 (List.mem_of_getLast? e)
    have habs : Verif.PTree.absKey ['/'] k = '/' :: k := by rw [Verif.PTree.absKey_rel hnabs]; rfl
    have hce : CleanEnd ['/'] k := by
      rw [CleanEnd, habs]
      rintro ⟨u, hu⟩
      have h1 := congrArg List.getLast? hu
      rw [show (u ++ ['/', '/']).getLast? = some '/' by simp] at h1
      cases k with
      | nil => exact hx.1 rfl
      | cons c cs =>
        rw [List.getLast?_cons_cons] at h1
        exact hlast h1.symm
    have h1 := hk k hx.1 hnabs hx.2
    simp only [HStore.at, Store.hasKey, R.val.injEq] at h1
    have hep : entryPath ['/'] k = [k] := by
      rw [entryPath, habs, List.tail_cons, Verif.PTree.names_single '/' k hx.1 hx.2]
    rw [Verif.PTree.doesKeyExist_eq hroot k hce, hep, Verif.PTree.getData_cons, hkids] at h1
    simp [Verif.PTree.findKid, Verif.PTree.getData_nil] at h1

/-- **C110** the child `b` of a store saves the entry `a`; a child without keys is not empty; and a verbose store over an empty one is not empty. -/
theorem C110_negation : ¬ C110_claim ∧
    (HStore.verbose 0 [] (.tree 0 ['/'])).isEmpty ⟨fun _ => .empty, 1⟩ = false ∧ (HStore.layered [.tree 0 ['/']]).isEmpty ⟨fun _ => .empty, 1⟩ = false := by
  refine ⟨fun H => ?_, rfl, rfl⟩
  have h1 := H.1 heapA 0 (childNamespace ['/'] ['b']) _ (.child _ _ (.root [])) rfl ['a'] (by decide)
  simp only [HStore.at, Store.hasKey] at h1
  revert h1
  decide

/-- Concrete: adding `b` through a verbose store. -/
example : ∃ h', (HStore.verboseExt 5 ['t'] (.tree 0 ['/'])).add strKind heapA ['b'] ['2'] =
      some (.val (.const ['2'], h'), [(5, "taddString(\"b\")->INITIAL:\"2\"".toList)]) ∧
    CleanEnd ['/'] ['b'] ∧ ((HStore.tree 0 ['/']).at h').get strCodec ['b'] none = .val ['2'] := by
  obtain ⟨-, h', h1, h2, -⟩ := C110_add strKind heapA (.verboseExt 5 ['t'] _ _ _ _ (.tree 0 ['/'])) (.root []) ['b'] (by decide) ['2'] rfl
  refine ⟨h', ?_, by decide, ?_⟩
  · rw [h1]; rfl
  · simp only [HStore.at, Store.get] at h2 ⊢
    obtain ⟨v, hv, e⟩ := bind_val h2
    cases e
    exact hv

end Verif.ValueStore
