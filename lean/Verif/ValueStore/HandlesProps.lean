import Verif.ValueStore.Handles
import Verif.ValueStore.Props

/-!
# Value handles, sharing, logging (C107–C110)
-/

namespace Verif.ValueStore

open Verif.PTree (Str Key Tree Codec childNamespace doesKeyExist qualify keyPath getData Namespace CleanEnd rootNamespace joinKey entryPath
  getData_putFrags getData_isSome strCodec)

/-! ## specification vocabulary -/

/-- the implementations a store can reach -/
inductive HStore.Touches : HStore → Nat → Prop
  | tree (i ns) : Touches (.tree i ns) i
  | layered (ls) (s : HStore) (j) : s ∈ ls → Touches s j → Touches (.layered ls) j
  | prefixed (m p) (s : HStore) (j) : Touches s j → Touches (.prefixed m p s) j
  | verbose (k t) (s : HStore) (j) : Touches s j → Touches (.verbose k t s) j
  | verboseExt (k t) (s : HStore) (j) : Touches s j → Touches (.verboseExt k t s) j

/-- stores as programs build them: the namespaces of trees are those of views, and layerings have layers -/
inductive HStore.Ok : HStore → Prop
  | tree (i ns) : Namespace ns → Ok (.tree i ns)
  | layered (s : HStore) (ls) : (∀ x ∈ s :: ls, Ok x) → Ok (.layered (s :: ls))
  | prefixed (m p) (s : HStore) : Ok s → Ok (.prefixed m p s)
  | verbose (k t) (s : HStore) : Ok s → Ok (.verbose k t s)
  | verboseExt (k t) (s : HStore) : Ok s → Ok (.verboseExt k t s)

/-- the entry of a tree a live handle stands for -/
def Handle.entry {T} : Handle T → Option (Nat × List Key)
  | .const _ => none
  | .live i ns path => some (i, (keyPath (qualify ns path)).frags)

/-! ## lemmas -/

theorem W.bind_fst {T U} (x : W T) (f : T → W U) : (x.bind f).1 = x.1.bind fun v => (f v).1 := by
  obtain ⟨r, l⟩ := x
  cases r <;> rfl

mutual
theorem hasKey_at (h : Heap) : ∀ (s : HStore) (p : Str), (s.hasKey h p).1 = (s.at h).hasKey p
  | .tree i ns, p => by simp only [HStore.hasKey, HStore.at, Store.hasKey]
  | .layered ls, p => by simp only [HStore.hasKey, HStore.at, Store.hasKey]; exact hasAny_at h ls p
  | .prefixed mode pre s, p => by
    simp only [HStore.hasKey, HStore.at, Store.hasKey]
    cases (applyPrefix mode pre p).2 with
    | none => rfl
    | some b => cases b with
      | false => rfl
      | true => exact hasKey_at h s _
  | .verbose k t s, p => by
    simp only [HStore.hasKey, HStore.at, Store.hasKey, W.bind_fst, hasKey_at h s p]
    cases (s.at h).hasKey p <;> rfl
  | .verboseExt k t s, p => by
    simp only [HStore.hasKey, HStore.at, Store.hasKey, W.bind_fst, hasKey_at h s p]
    cases (s.at h).hasKey p <;> rfl
theorem hasAny_at (h : Heap) : ∀ (ls : List HStore) (p : Str), (hasAny h ls p).1 = anyHasKey (atAll h ls) p
  | [], p => by simp only [hasAny, atAll, anyHasKey]
  | s :: ls, p => by
    simp only [hasAny, atAll, anyHasKey, W.bind_fst, hasKey_at h s p]
    congr 1
    funext b
    cases b
    · simpa using hasAny_at h ls p
    · rfl
end

theorem logGet_fst {T} {K : Kind T} {h : Heap} {sink tag path} {d : Option T} {has : W Bool} {hd : Handle T} {v : T}
    (hv : hd.get K.codec h = .val v) :
    (logGet K h sink tag path d has hd).1 = (match d with | none => .val hd | some _ => has.1.bind fun _ => .val hd) := by
  unfold logGet
  cases d with
  | none => simp only [hv]
  | some d =>
    simp only [hv, W.bind_fst]

theorem treeGet_none {T} (c : Codec T) (t : Tree) (ns path : Str) :
    treeGet c t ns path none = (match Verif.PTree.get c t ns path with | .value v => .val v | .badValue => .threw | .badKey => .threw) := rfl

mutual
theorem handle_at {T} (K : Kind T) [Inhabited T] (h : Heap) : ∀ (s : HStore) (p : Str) (d : Option T),
    ((s.handle K h p d).1.bind (Handle.get K.codec h) = (s.at h).get K.codec p d) ∧
    (∀ hd, (s.handle K h p d).1 = .val hd → ∃ v, hd.get K.codec h = .val v)
  | .tree i ns, p, some d => by
    simp only [HStore.handle, HStore.at, Store.get, treeGet]
    exact ⟨rfl, fun hd e => by cases e; exact ⟨_, rfl⟩⟩
  | .tree i ns, p, none => by
    simp only [HStore.handle, HStore.at, Store.get, treeGet]
    cases hg : Verif.PTree.get K.codec (h.trees i) ns p with
    | value v =>
      have : (Handle.live i ns p : Handle T).get K.codec h = .val v := by simp only [Handle.get, treeGet_none, hg]
      exact ⟨this, fun hd e => by cases e; exact ⟨v, this⟩⟩
    | badValue => exact ⟨rfl, fun hd e => by cases e⟩
    | badKey => exact ⟨rfl, fun hd e => by cases e⟩
  | .layered ls, p, d => by
    simp only [HStore.handle, HStore.at, Store.get]
    exact handleLayers_at K h ls p d
  | .prefixed mode pre s, p, d => by
    simp only [HStore.handle, HStore.at, Store.get]
    cases applyPrefixOrThrow mode pre p with
    | val q => exact handle_at K h s q d
    | threw => exact ⟨rfl, fun hd e => by cases e⟩
    | ub => exact ⟨rfl, fun hd e => by cases e⟩
  | .verbose k t s, p, d => verbose_at K h k t s p d (handle_at K h s p d)
  | .verboseExt k t s, p, d => verbose_at K h k t s p d (handle_at K h s p d)
theorem handleLayers_at {T} (K : Kind T) [Inhabited T] (h : Heap) : ∀ (ls : List HStore) (p : Str) (d : Option T),
    ((handleLayers K h ls p d).1.bind (Handle.get K.codec h) = getFromLayers K.codec (atAll h ls) p d) ∧
    (∀ hd, (handleLayers K h ls p d).1 = .val hd → ∃ v, hd.get K.codec h = .val v)
  | [], p, d => by
    simp only [handleLayers, atAll, getFromLayers]
    exact ⟨rfl, fun hd e => by cases e; exact ⟨_, rfl⟩⟩
  | [s], p, d => by
    simp only [handleLayers, atAll, getFromLayers]
    exact handle_at K h s p d
  | s :: s' :: ls, p, d => by
    rw [handleLayers, atAll, atAll, getFromLayers]
    simp only [W.bind_fst, hasKey_at]
    cases (s.at h).hasKey p with
    | val b =>
      cases b with
      | true => exact handle_at K h s p none
      | false => have := handleLayers_at K h (s' :: ls) p d; simp only [atAll] at this; exact this
    | threw => exact ⟨rfl, fun hd e => by cases e⟩
    | ub => exact ⟨rfl, fun hd e => by cases e⟩
theorem verbose_at {T} (K : Kind T) [Inhabited T] (h : Heap) (k : Nat) (t : Str) (s : HStore) (p : Str) (d : Option T)
    (ih : ((s.handle K h p d).1.bind (Handle.get K.codec h) = (s.at h).get K.codec p d) ∧
      (∀ hd, (s.handle K h p d).1 = .val hd → ∃ v, hd.get K.codec h = .val v)) :
    (((s.handle K h p d).bind fun hd => logGet K h k t p d (s.hasKey h p) hd).1.bind (Handle.get K.codec h) =
      (Store.verbose (s.at h)).get K.codec p d) ∧
    (∀ hd, ((s.handle K h p d).bind fun hd => logGet K h k t p d (s.hasKey h p) hd).1 = .val hd → ∃ v, hd.get K.codec h = .val v) := by
  obtain ⟨ih, ih2⟩ := ih
  rw [Store.get, ← ih, W.bind_fst]
  cases hr : (s.handle K h p d).1 with
  | val hd =>
    obtain ⟨v, hv⟩ := ih2 hd hr
    have e := logGet_fst (sink := k) (tag := t) (path := p) (d := d) (has := s.hasKey h p) hv
    simp only [R.bind, hv, e, hasKey_at]
    cases d with
    | none => exact ⟨hv, fun hd' e => by cases e; exact ⟨v, hv⟩⟩
    | some d =>
      simp only
      cases (s.at h).hasKey p with
      | val b => exact ⟨hv, fun hd' e => by cases e; exact ⟨v, hv⟩⟩
      | threw => exact ⟨rfl, fun hd' e => by cases e⟩
      | ub => exact ⟨rfl, fun hd' e => by cases e⟩
  | threw => exact ⟨rfl, fun hd' e => by cases e⟩
  | ub => exact ⟨rfl, fun hd' e => by cases e⟩
end
/-- writing an entry that exists keeps the set of entries and every other entry -/
theorem set_existing {T} (c : Codec T) (t : Tree) (ns path : Str) (v : T) (h : (getData t (keyPath (qualify ns path)).frags).isSome) :
    ∃ t', Verif.PTree.set c t ns path v = some t' ∧
      getData t' (keyPath (qualify ns path)).frags = some (c.print v) ∧
      (∀ q, q ≠ (keyPath (qualify ns path)).frags → getData t' q = getData t q) := by
  refine ⟨Verif.PTree.putFrags t (keyPath (qualify ns path)).frags (c.print v), ?_, ?_, ?_⟩
  · unfold Verif.PTree.set Verif.PTree.put
    rw [if_pos (by rw [← getData_isSome]; exact h)]
  · rw [getData_putFrags, if_pos rfl]
  · intro q hq
    rw [getData_putFrags, if_neg hq]
    cases hg : getData t q with
    | some d => rfl
    | none =>
      have : ¬ q <+: (keyPath (qualify ns path)).frags := by
        rintro ⟨r, hr⟩
        rw [← hr] at h
        have : ∀ (q r : List Key) (t : Tree), getData t q = none → getData t (q ++ r) = none := by
          intro q r
          induction q with
          | nil => intro t ht; simp [Verif.PTree.getData_nil] at ht
          | cons f fs ih =>
            intro t ht
            rw [List.cons_append, Verif.PTree.getData_cons]
            rw [Verif.PTree.getData_cons] at ht
            cases hf : Verif.PTree.findKid t.kids f with
            | none => rfl
            | some x => rw [hf] at ht; exact ih x ht
        rw [this q r t hg] at h
        cases h
      simp [this]

/-- two heaps with the same entries in all trees -/
def SameKeys (h h' : Heap) : Prop := ∀ i q, (getData (h'.trees i) q).isSome = (getData (h.trees i) q).isSome

mutual
theorem hasKey_sameKeys {h h' : Heap} (H : SameKeys h h') : ∀ (s : HStore) (p : Str), (s.at h').hasKey p = (s.at h).hasKey p
  | .tree i ns, p => by simp only [HStore.at, Store.hasKey, doesKeyExist, H i]
  | .layered ls, p => by simp only [HStore.at, Store.hasKey]; exact hasAny_sameKeys H ls p
  | .prefixed mode pre s, p => by simp only [HStore.at, Store.hasKey, hasKey_sameKeys H s]
  | .verbose k t s, p => by simp only [HStore.at, Store.hasKey, hasKey_sameKeys H s]
  | .verboseExt k t s, p => by simp only [HStore.at, Store.hasKey, hasKey_sameKeys H s]
theorem hasAny_sameKeys {h h' : Heap} (H : SameKeys h h') : ∀ (ls : List HStore) (p : Str),
    anyHasKey (atAll h' ls) p = anyHasKey (atAll h ls) p
  | [], p => by simp only [atAll]
  | s :: ls, p => by simp only [atAll, anyHasKey, hasKey_sameKeys H s, hasAny_sameKeys H ls]
end

theorem bind_val {T U} {r : R T} {f : T → R U} {u : U} (h : r.bind f = .val u) : ∃ v, r = .val v ∧ f v = .val u := by
  cases r with
  | val v => exact ⟨v, rfl, h⟩
  | threw => cases h
  | ub => cases h

theorem logGet_val {T} {K : Kind T} {h : Heap} {sink tag path} {d : Option T} {has : W Bool} {hd hd' : Handle T}
    (e : (logGet K h sink tag path d has hd).1 = .val hd') : hd' = hd := by
  unfold logGet at e
  cases d with
  | none =>
    simp only at e
    split at e <;> cases e
    rfl
  | some d =>
    simp only [W.bind_fst] at e
    obtain ⟨b, -, e⟩ := bind_val e
    split at e <;> cases e
    rfl

mutual
/-- a getter without default gives a live handle, whose tree the store reaches; reading the same store on a heap with the same keys is reading that handle -/
theorem handle_route {T} (K : Kind T) [Inhabited T] (h : Heap) : ∀ (s : HStore) (p : Str) (hd : Handle T), s.Ok →
    (s.handle K h p none).1 = .val hd → ∃ i ns q, hd = .live i ns q ∧ Namespace ns ∧ s.Touches i ∧
      ∀ h', SameKeys h h' → (∃ v, hd.get K.codec h' = .val v) → (s.at h').get K.codec p none = hd.get K.codec h'
  | .tree i ns, p, hd, ho, e => by
    simp only [HStore.handle] at e
    split at e <;> cases e
    cases ho with
    | tree _ _ hn => exact ⟨i, ns, p, rfl, hn, .tree i ns, fun h' _ _ => by simp only [HStore.at, Store.get, Handle.get]⟩
  | .layered ls, p, hd, ho, e => by
    simp only [HStore.handle] at e
    cases ho with
    | layered s ls hall =>
      obtain ⟨i, ns, q, h1, h2, h3, h4⟩ := handleLayers_route K h (s :: ls) p hd (by simp) hall e
      refine ⟨i, ns, q, h1, h2, ?_, ?_⟩
      · obtain ⟨x, hx, ht⟩ := h3
        exact .layered _ x i hx ht
      · intro h' H hv
        simp only [HStore.at, Store.get]
        exact h4 h' H hv
  | .prefixed mode pre s, p, hd, ho, e => by
    simp only [HStore.handle] at e
    cases ho with
    | prefixed _ _ _ ho =>
      cases hp : applyPrefixOrThrow mode pre p with
      | val q =>
        rw [hp] at e
        obtain ⟨i, ns, q', h1, h2, h3, h4⟩ := handle_route K h s q hd ho e
        refine ⟨i, ns, q', h1, h2, .prefixed _ _ s i h3, ?_⟩
        intro h' H hv
        simp only [HStore.at, Store.get, hp]
        exact h4 h' H hv
      | threw => rw [hp] at e; cases e
      | ub => rw [hp] at e; cases e
  | .verbose k t s, p, hd, ho, e => by
    simp only [HStore.handle, W.bind_fst] at e
    obtain ⟨hd', e1, e2⟩ := bind_val e
    cases logGet_val e2
    cases ho with
    | verbose _ _ _ ho =>
      obtain ⟨i, ns, q', h1, h2, h3, h4⟩ := handle_route K h s p _ ho e1
      refine ⟨i, ns, q', h1, h2, .verbose _ _ s i h3, ?_⟩
      intro h' H hv
      obtain ⟨v, hv'⟩ := hv
      simp only [HStore.at, Store.get, h4 h' H ⟨v, hv'⟩, hv', R.bind]
  | .verboseExt k t s, p, hd, ho, e => by
    simp only [HStore.handle, W.bind_fst] at e
    obtain ⟨hd', e1, e2⟩ := bind_val e
    cases logGet_val e2
    cases ho with
    | verboseExt _ _ _ ho =>
      obtain ⟨i, ns, q', h1, h2, h3, h4⟩ := handle_route K h s p _ ho e1
      refine ⟨i, ns, q', h1, h2, .verboseExt _ _ s i h3, ?_⟩
      intro h' H hv
      obtain ⟨v, hv'⟩ := hv
      simp only [HStore.at, Store.get, h4 h' H ⟨v, hv'⟩, hv', R.bind]
theorem handleLayers_route {T} (K : Kind T) [Inhabited T] (h : Heap) : ∀ (ls : List HStore) (p : Str) (hd : Handle T), ls ≠ [] → (∀ x ∈ ls, x.Ok) →
    (handleLayers K h ls p none).1 = .val hd → ∃ i ns q, hd = .live i ns q ∧ Namespace ns ∧ (∃ x ∈ ls, HStore.Touches x i) ∧
      ∀ h', SameKeys h h' → (∃ v, hd.get K.codec h' = .val v) → getFromLayers K.codec (atAll h' ls) p none = hd.get K.codec h'
  | [], p, hd, hne, ho, e => absurd rfl hne
  | [s], p, hd, hne, ho, e => by
    simp only [handleLayers] at e
    obtain ⟨i, ns, q, h1, h2, h3, h4⟩ := handle_route K h s p hd (ho s (by simp)) e
    refine ⟨i, ns, q, h1, h2, ⟨s, by simp, h3⟩, fun h' H hv => ?_⟩
    simp only [atAll, getFromLayers]
    exact h4 h' H hv
  | s :: s' :: ls, p, hd, hne, ho, e => by
    rw [handleLayers] at e
    simp only [W.bind_fst, hasKey_at] at e
    obtain ⟨b, hb, e⟩ := bind_val e
    cases b with
    | true =>
      obtain ⟨i, ns, q, h1, h2, h3, h4⟩ := handle_route K h s p hd (ho s (by simp)) e
      refine ⟨i, ns, q, h1, h2, ⟨s, by simp, h3⟩, fun h' H hv => ?_⟩
      rw [atAll, atAll, getFromLayers]
      simp only [hasKey_sameKeys H s p, hb]
      exact h4 h' H hv
    | false =>
      obtain ⟨i, ns, q, h1, h2, ⟨x, hx, h3⟩, h4⟩ := handleLayers_route K h (s' :: ls) p hd (by simp) (fun y hy => ho y (by simp [hy])) e
      refine ⟨i, ns, q, h1, h2, ⟨x, by simp [hx], h3⟩, fun h' H hv => ?_⟩
      have := h4 h' H hv
      rw [atAll] at this
      rw [atAll, atAll, getFromLayers]
      simp only [hasKey_sameKeys H s p, hb]
      exact this
end

/-! ## C107: handles -/

/-- the heap after an update through a live handle to an entry that exists -/
theorem update_live {T} (c : Codec T) (nd : Bool) (h : Heap) (i : Nat) (ns q : Str) (v : T)
    (hx : (getData (h.trees i) (keyPath (qualify ns q)).frags).isSome) :
    ∃ h', (Handle.live i ns q : Handle T).update c nd h v = .done h' ∧ h'.next = h.next ∧ SameKeys h h' ∧
      getData (h'.trees i) (keyPath (qualify ns q)).frags = some (c.print v) ∧
      ∀ j r, ¬ (j = i ∧ r = (keyPath (qualify ns q)).frags) → getData (h'.trees j) r = getData (h.trees j) r := by
  obtain ⟨t', h1, h2, h3⟩ := set_existing c (h.trees i) ns q v hx
  refine ⟨h.set i t', by simp only [Handle.update, h1], rfl, ?_, ?_, ?_⟩
  · intro j r
    simp only [Heap.set]
    split
    · rename_i e; subst e
      by_cases hr : r = (keyPath (qualify ns q)).frags
      · rw [hr, h2, hx]; rfl
      · rw [h3 r hr]
    · rfl
  · simpa [Heap.set] using h2
  · intro j r hn
    simp only [Heap.set]
    split
    · rename_i e; subst e
      exact h3 r fun e => hn ⟨rfl, e⟩
    · rfl

theorem live_get {T} (c : Codec T) (h : Heap) (i : Nat) (ns q : Str) :
    (Handle.live i ns q : Handle T).get c h = (match getData (h.trees i) (keyPath (qualify ns q)).frags with
      | none => .threw
      | some d => match c.parse d with | some v => .val v | none => .threw) := by
  simp only [Handle.get, treeGet, Verif.PTree.get]
  cases getData (h.trees i) (keyPath (qualify ns q)).frags with
  | none => rfl
  | some d => simp only; cases c.parse d <;> rfl

theorem live_exists {T} {c : Codec T} {h : Heap} {i : Nat} {ns q : Str} {v : T} (e : (Handle.live i ns q : Handle T).get c h = .val v) :
    (getData (h.trees i) (keyPath (qualify ns q)).frags).isSome := by
  rw [live_get] at e
  cases hg : getData (h.trees i) (keyPath (qualify ns q)).frags with
  | none => rw [hg] at e; cases e
  | some d => rfl

/-- **C107** (claim) A handle to a key that exists can be updated, and then the store that gave it reads the new value. -/
def C107_claim : Prop := ∀ (T : Type) (_ : Inhabited T) (K : Kind T) (h : Heap) (s : HStore) (p : Str) (d : Option T) (hd : Handle T) (v : T), s.Ok →
  (s.at h).hasKey p = .val true → (s.handle K h p d).1 = .val hd → K.codec.parse (K.codec.print v) = some v →
  ∃ h', hd.update K.codec true h v = .done h' ∧ (s.at h').get K.codec p none = .val v

/-- **C107** a handle holds what the store reads, whatever the store. -/
theorem C107_reads {T} (K : Kind T) [Inhabited T] (h : Heap) (s : HStore) (p : Str) (d : Option T) :
    (s.handle K h p d).1.bind (Handle.get K.codec h) = (s.at h).get K.codec p d ∧
    (∀ hd, (s.handle K h p d).1 = .val hd → ∃ v, hd.get K.codec h = .val v ∧ (s.at h).get K.codec p d = .val v) := by
  refine ⟨(handle_at K h s p d).1, fun hd e => ?_⟩
  obtain ⟨v, hv⟩ := (handle_at K h s p d).2 hd e
  refine ⟨v, hv, ?_⟩
  rw [← (handle_at K h s p d).1, e]
  exact hv

/-- **C107** a handle taken without a default is updateable, through any layers, prefixes and verbose stores: after the update it and the store read the new value; every store has exactly the keys
it had, and every handle to another entry reads what it read before. -/
theorem C107_update_partial {T} (K : Kind T) [Inhabited T] (nd : Bool) (h : Heap) (s : HStore) (p : Str) (hd : Handle T) (v : T) (hs : s.Ok)
    (e : (s.handle K h p none).1 = .val hd) (hc : K.codec.parse (K.codec.print v) = some v) :
    hd.isUpdateable = true ∧ ∃ h', hd.update K.codec nd h v = .done h' ∧
      hd.get K.codec h' = .val v ∧ (s.at h').get K.codec p none = .val v ∧
      (∀ (r : HStore) k, (r.at h').hasKey k = (r.at h).hasKey k) ∧
      (∀ {U : Type} (c : Codec U) (x : Handle U), x.entry ≠ hd.entry → x.get c h' = x.get c h) := by
  obtain ⟨i, ns, q, rfl, hn, ht, hr⟩ := handle_route K h s p hd hs e
  obtain ⟨w, hw⟩ := (handle_at K h s p none).2 _ e
  obtain ⟨h', h1, -, h2, h3, h4⟩ := update_live K.codec nd h i ns q v (live_exists hw)
  have hg : (Handle.live i ns q : Handle T).get K.codec h' = .val v := by rw [live_get, h3]; simp only [hc]
  refine ⟨rfl, h', h1, hg, (hr h' h2 ⟨v, hg⟩).trans hg, fun r k => hasKey_sameKeys h2 r k, ?_⟩
  intro U c x hx
  cases x with
  | const u => rfl
  | live j ns' q' =>
    rw [live_get, live_get, h4]
    rintro ⟨rfl, hq⟩
    exact hx (by simp only [Handle.entry, hq])

/-- **C107** later on, whatever happened to the trees, a live handle reads the current contents, and an update through it is read back (also by other
views of the entry); if the entry is gone it is created again. -/
theorem C107_later_partial {T} (K : Kind T) [Inhabited T] (nd : Bool) (h : Heap) (s : HStore) (p : Str) (hd : Handle T) (v : T) (hs : s.Ok)
    (e : (s.handle K h p none).1 = .val hd) (hc : K.codec.parse (K.codec.print v) = some v) :
    ∃ i ns q, s.Touches i ∧ ∀ later : Heap, hd.get K.codec later = ((HStore.tree i ns).at later).get K.codec q none ∧
      (CleanEnd ns q → ∃ h', hd.update K.codec nd later v = .done h' ∧ hd.get K.codec h' = .val v ∧
        ∀ j, j ≠ i → h'.trees j = later.trees j) := by
  obtain ⟨i, ns, q, rfl, hn, ht, hr⟩ := handle_route K h s p hd hs e
  refine ⟨i, ns, q, ht, fun later => ⟨by simp only [Handle.get, HStore.at, Store.get], fun hcl => ?_⟩⟩
  obtain ⟨t', h1, -, -, h3, -⟩ := Verif.PTree.C26_set_get K.codec (later.trees i) hn q hcl v
  refine ⟨later.set i t', by simp only [Handle.update, h1], ?_, fun j hj => by simp [Heap.set, hj]⟩
  have := h3 hc
  simp only [Handle.get, treeGet, Heap.set, if_true, this]

/-- **C107** a handle that is not updateable always reads the value it was made with, and an update changes nothing (and ends the program when
assertions are on). -/
theorem C107_const_partial {T} (c : Codec T) (hd : Handle T) (hu : hd.isUpdateable = false) (h : Heap) (v : T) :
    (∀ h', hd.get c h' = hd.get c h) ∧ hd.update c true h v = .done h ∧ hd.update c false h v = .assertion := by
  cases hd with
  | const w => exact ⟨fun _ => rfl, rfl, rfl⟩
  | live i ns q => cases hu

/-- **C107** with a default, the handle of a tree is never updateable, even when the key exists; of a layering it is updateable exactly when the key
was found in a layer before the last. -/
theorem C107_default_partial {T} (K : Kind T) [Inhabited T] (h : Heap) (d : T) :
    (∀ i ns p hd, ((HStore.tree i ns).handle K h p (some d)).1 = .val hd → hd.isUpdateable = false) ∧
    (∀ (pre : List HStore) (i : Nat) (ns : Str) (p : Str) (hd : Handle T), (∀ x ∈ pre, x.Ok) →
      ((HStore.layered (pre ++ [.tree i ns])).handle K h p (some d)).1 = .val hd →
      (hd.isUpdateable = true ↔ ∃ x ∈ pre, (x.at h).hasKey p = .val true)) := by
  have one : ∀ i ns p hd, ((HStore.tree i ns).handle K h p (some d)).1 = .val hd → hd.isUpdateable = false := by
    intro i ns p hd e
    simp only [HStore.handle] at e
    cases e; rfl
  refine ⟨one, ?_⟩
  intro pre i ns p hd hok e
  simp only [HStore.handle] at e
  induction pre with
  | nil =>
    simp only [List.nil_append, handleLayers] at e
    simp [one i ns p hd e]
  | cons s pre ih =>
    have hne : ∃ y ys, pre ++ [HStore.tree i ns] = y :: ys := by
      cases pre with
      | nil => exact ⟨_, _, rfl⟩
      | cons y ys => exact ⟨y, _, rfl⟩
    obtain ⟨y, ys, hy⟩ := hne
    rw [List.cons_append, hy, handleLayers] at e
    simp only [W.bind_fst, hasKey_at] at e
    obtain ⟨b, hb, e⟩ := bind_val e
    cases b with
    | true =>
      obtain ⟨j, ns', q, h1, -⟩ := handle_route K h s p hd (hok s (by simp)) e
      rw [h1]
      exact ⟨fun _ => ⟨s, by simp, hb⟩, fun _ => rfl⟩
    | false =>
      rw [← hy] at e
      rw [ih (fun x hx => hok x (by simp [hx])) e]
      constructor
      · rintro ⟨x, hx, h1⟩; exact ⟨x, by simp [hx], h1⟩
      · rintro ⟨x, hx, h1⟩
        rcases List.mem_cons.1 hx with rfl | hx
        · rw [hb] at h1; cases h1
        · exact ⟨x, hx, h1⟩

/-- the kind of strings -/
def strKind : Kind Str := ⟨strCodec, "getString".toList, "addString".toList, quoted⟩

/-- a tree with the entry `a` -/
def treeA (v : Str) : Tree := .node [] [(['a'], .node v [])]
def heapA : Heap := ⟨fun _ => treeA ['1'], 1⟩

/-- **C107** a handle taken with a default cannot be updated although the key exists: the update does nothing. -/
theorem C107_negation : ¬ C107_claim := by
  intro h
  have h1 := h Str ⟨[]⟩ strKind heapA (.tree 0 ['/']) ['a'] (some ['0']) (.const ['1']) ['2'] (.tree 0 _ (.root []))
    (by simp only [HStore.at, Store.hasKey]; decide) (by simp only [HStore.handle]; rfl) rfl
  obtain ⟨h', e1, e2⟩ := h1
  simp only [Handle.update, if_true, UpdateRes.done.injEq] at e1
  subst e1
  simp only [HStore.at, Store.get] at e2
  revert e2
  decide

/-- Concrete: a verbose store over two layers, the key in the second one; the update through the handle is read by the store. -/
example : ∃ (s : HStore) (hd : Handle Str), s.Ok ∧ (s.handle strKind heapA ['a'] none).1 = .val hd ∧ hd.isUpdateable = true ∧
    hd.get strCodec heapA = .val ['1'] := by
  refine ⟨.verbose 7 [] (.layered [.prefixed .remove ['x'] (.tree 0 ['/']), .tree 0 ['/']]), .live 0 ['/'] ['a'], ?_, ?_, rfl, by decide⟩
  · refine .verbose _ _ _ (.layered _ _ ?_)
    intro x hx
    simp only [List.mem_cons, List.not_mem_nil, or_false] at hx
    rcases hx with rfl | rfl
    · exact .prefixed _ _ _ (.tree 0 _ (.root []))
    · exact .tree 0 _ (.root [])
  · simp only [HStore.handle, handleLayers, HStore.hasKey]
    decide

end Verif.ValueStore
