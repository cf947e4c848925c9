import Verif.ValueStore.HandlesProps

/-!
# C108: which stores share their contents
-/

namespace Verif.ValueStore

open Verif.PTree (Str Key Tree Codec childNamespace doesKeyExist qualify keyPath getData Namespace CleanEnd rootNamespace joinKey entryPath strCodec)

mutual
theorem at_congr {h h' : Heap} : ∀ s : HStore, (∀ j, s.Touches j → h'.trees j = h.trees j) → s.at h' = s.at h
  | .tree i ns, H => by simp only [HStore.at, H i (.tree i ns)]
  | .layered ls, H => by simp only [HStore.at, atAll_congr ls fun x hx j hj => H j (.layered ls x j hx hj)]
  | .prefixed m p s, H => by simp only [HStore.at, at_congr s fun j hj => H j (.prefixed m p s j hj)]
  | .verbose k t s, H => by simp only [HStore.at, at_congr s fun j hj => H j (.verbose k t s j hj)]
  | .verboseExt k t s, H => by simp only [HStore.at, at_congr s fun j hj => H j (.verboseExt k t s j hj)]
theorem atAll_congr {h h' : Heap} : ∀ ls : List HStore, (∀ x ∈ ls, ∀ j, HStore.Touches x j → h'.trees j = h.trees j) → atAll h' ls = atAll h ls
  | [], _ => by simp only [atAll]
  | s :: ls, H => by
    simp only [atAll, at_congr s (H s (by simp)), atAll_congr ls fun x hx => H x (by simp [hx])]
end

mutual
theorem handle_touches {T} (K : Kind T) [Inhabited T] (h : Heap) : ∀ (s : HStore) (p : Str) (d : Option T) (i : Nat) (ns q : Str),
    (s.handle K h p d).1 = .val (.live i ns q) → s.Touches i
  | .tree i ns, p, some d, j, ns', q, e => by simp only [HStore.handle] at e; cases e
  | .tree i ns, p, none, j, ns', q, e => by
    simp only [HStore.handle] at e
    split at e <;> cases e
    exact .tree _ _
  | .layered ls, p, d, j, ns', q, e => by
    simp only [HStore.handle] at e
    obtain ⟨x, hx, ht⟩ := handleLayers_touches K h ls p d j ns' q e
    exact .layered ls x j hx ht
  | .prefixed m pre s, p, d, j, ns', q, e => by
    simp only [HStore.handle] at e
    split at e
    · exact .prefixed _ _ _ _ (handle_touches K h s _ d j ns' q e)
    · cases e
    · cases e
  | .verbose k t s, p, d, j, ns', q, e => by
    simp only [HStore.handle, W.bind_fst] at e
    obtain ⟨hd', e1, e2⟩ := bind_val e
    cases logGet_val e2
    exact .verbose _ _ _ _ (handle_touches K h s p d j ns' q e1)
  | .verboseExt k t s, p, d, j, ns', q, e => by
    simp only [HStore.handle, W.bind_fst] at e
    obtain ⟨hd', e1, e2⟩ := bind_val e
    cases logGet_val e2
    exact .verboseExt _ _ _ _ (handle_touches K h s p d j ns' q e1)
theorem handleLayers_touches {T} (K : Kind T) [Inhabited T] (h : Heap) : ∀ (ls : List HStore) (p : Str) (d : Option T) (i : Nat) (ns q : Str),
    (handleLayers K h ls p d).1 = .val (.live i ns q) → ∃ x ∈ ls, HStore.Touches x i
  | [], p, d, j, ns', q, e => by simp only [handleLayers] at e; cases e
  | [s], p, d, j, ns', q, e => by
    simp only [handleLayers] at e
    exact ⟨s, by simp, handle_touches K h s p d j ns' q e⟩
  | s :: s' :: ls, p, d, j, ns', q, e => by
    rw [handleLayers] at e
    simp only [W.bind_fst] at e
    obtain ⟨b, -, e⟩ := bind_val e
    cases b with
    | true => exact ⟨s, by simp, handle_touches K h s p none j ns' q e⟩
    | false =>
      obtain ⟨x, hx, ht⟩ := handleLayers_touches K h (s' :: ls) p d j ns' q e
      exact ⟨x, by simp [hx], ht⟩
end

theorem update_others {T} {c : Codec T} {nd : Bool} {h h' : Heap} {v : T} {i : Nat} {ns q : Str}
    (e : (Handle.live i ns q : Handle T).update c nd h v = .done h') : h'.next = h.next ∧ ∀ j, j ≠ i → h'.trees j = h.trees j := by
  simp only [Handle.update] at e
  split at e
  · cases e
    exact ⟨rfl, fun j hj => by simp [Heap.set, hj]⟩
  · cases e

/-- **C108** (claim) A child of a store is a part of it: what is updated through a child, from `getChild` or from `getChildren`, is read by the store. -/
def C108_claim : Prop := ∀ (T : Type) (_ : Inhabited T) (K : Kind T) (h : Heap) (i : Nat) (ns : Str) (key : Str) (child : HStore) (h1 : Heap), Namespace ns → i < h.next →
  (((HStore.tree i ns).getChild h key = ((.val child, []), h1)) ∨
    ∃ cs l, (HStore.tree i ns).getChildren h = ((.val cs, l), h1) ∧ (key, child) ∈ cs) →
  ∀ (p : Str) (hd : Handle T) (v : T), (child.handle K h1 p none).1 = .val hd → K.codec.parse (K.codec.print v) = some v →
  ∃ h', hd.update K.codec true h1 v = .done h' ∧ ((HStore.tree i ns).at h').get K.codec (joinKey key p) none = .val v

/-- **C108** a child from `getChild` is a part: now and after any later change it reads `key/k`, so changes of either are seen by the other. -/
theorem C108_getChild_partial (h : Heap) (i : Nat) {ns : Str} (hns : Namespace ns) (key : Str) :
    ∃ child, (HStore.tree i ns).getChild h key = ((.val child, []), h) ∧ child.Ok ∧
      ∀ (later : Heap) {T : Type} [Inhabited T] (c : Codec T) (k : Str),
        (child.at later).hasKey k = ((HStore.tree i ns).at later).hasKey (joinKey key k) ∧
        ∀ d, (child.at later).get c k d = ((HStore.tree i ns).at later).get c (joinKey key k) d := by
  refine ⟨.tree i (childNamespace ns key), by simp only [HStore.getChild], .tree _ _ (.child ns key hns), ?_⟩
  intro later T _ c k
  obtain ⟨-, -, -, h4, -⟩ := C35_reads c (later.trees i) hns
  obtain ⟨r, hr, h5⟩ := h4 key
  simp only [Store.getChild, R.val.injEq] at hr
  subst hr
  simp only [HStore.at]
  refine ⟨(h5 k).1, fun d => ?_⟩
  cases d with
  | none => exact (h5 k).2.1
  | some d => exact (h5 k).2.2 d

/-- **C108** in particular an update through it is read by the store. -/
theorem C108_getChild_update_partial {T} (K : Kind T) [Inhabited T] (nd : Bool) (h h1 : Heap) (i : Nat) {ns : Str} (hns : Namespace ns) (key : Str) (child : HStore)
    (e : (HStore.tree i ns).getChild h key = ((.val child, []), h1)) (p : Str) (hd : Handle T) (v : T)
    (eh : (child.handle K h1 p none).1 = .val hd) (hc : K.codec.parse (K.codec.print v) = some v) :
    ∃ h', hd.update K.codec nd h1 v = .done h' ∧ ((HStore.tree i ns).at h').get K.codec (joinKey key p) none = .val v := by
  obtain ⟨ch, h0, hok, hv⟩ := C108_getChild_partial h i hns key
  rw [h0] at e
  simp only [Prod.mk.injEq, R.val.injEq, and_true] at e
  obtain ⟨rfl, rfl⟩ := e
  obtain ⟨-, h', h1, -, h3, -⟩ := C107_update_partial K nd h ch p hd v hok eh hc
  exact ⟨h', h1, by rw [← ((hv h' K.codec p).2 none), h3]⟩

theorem allocAll_spec : ∀ (ks : List (Key × Tree)) (h : Heap),
    (allocAll h ks).1 = (ks.zipIdx).map (fun x => (x.1.1, HStore.tree (h.next + x.2) ['/'])) ∧
    (allocAll h ks).2.next = h.next + ks.length ∧
    (∀ j, j < h.next → (allocAll h ks).2.trees j = h.trees j) ∧
    (∀ n (hn : n < ks.length), (allocAll h ks).2.trees (h.next + n) = (ks[n]).2)
  | [], h => by simp [allocAll]
  | (k, t) :: rest, h => by
    obtain ⟨h1, h2, h3, h4⟩ := allocAll_spec rest { h.set h.next t with next := h.next + 1 }
    simp only at h1 h2 h3 h4
    refine ⟨?_, ?_, ?_, ?_⟩
    · simp only [allocAll, h1, List.zipIdx_cons, List.map_cons, Nat.zero_add, List.cons.injEq, Prod.mk.injEq, HStore.tree.injEq, and_true, true_and, Nat.add_zero]
      rw [show (1 : Nat) = 0 + 1 from rfl, List.zipIdx_succ, List.map_map]
      apply List.map_congr_left
      intro x _
      simp [Function.comp, Nat.add_assoc, Nat.add_comm 1]
    · simp only [allocAll, h2, List.length_cons]; omega
    · intro j hj
      simp only [allocAll]
      rw [h3 j (by omega)]
      simp [Heap.set, Nat.ne_of_lt hj]
    · intro n hn
      simp only [allocAll]
      cases n with
      | zero => rw [h3 _ (by omega)]; simp [Heap.set]
      | succ n =>
        have := h4 n (by simp at hn; omega)
        rw [show h.next + (n + 1) = h.next + 1 + n by omega, this]
        rfl

/-- **C108** the children from `getChildren` of a property tree store are copies made at the call: nothing that is done through them, at any later time, changes a store that existed before. -/
theorem C108_getChildren_partial (h h1 : Heap) (i : Nat) (ns : Str) (cs : List (Str × HStore)) (l : Lines)
    (e : (HStore.tree i ns).getChildren h = ((.val cs, l), h1)) :
    (∀ j, j < h.next → h1.trees j = h.trees j) ∧
    (∀ n key child, cs[n]? = some (key, child) → child = .tree (h.next + n) ['/'] ∧ h.next + n < h1.next) ∧
    (∀ {T : Type} [Inhabited T] (K : Kind T) (nd : Bool) (at1 later h' : Heap) (x : Str × HStore) (p : Str) (d : Option T) (hd : Handle T) (v : T), x ∈ cs →
      (x.2.handle K at1 p d).1 = .val hd → hd.update K.codec nd later v = .done h' →
      ∀ s : HStore, (∀ j, s.Touches j → j < h.next) → s.at h' = s.at later) := by
  simp only [HStore.getChildren, treeChildren] at e
  split at e
  · rename_i ks hk
    simp only [Prod.mk.injEq, R.val.injEq] at e
    obtain ⟨⟨rfl, rfl⟩, rfl⟩ := e
    obtain ⟨h1, h2, h3, h4⟩ := allocAll_spec ks h
    have hx : ∀ n key child, ((allocAll h ks).1)[n]? = some (key, child) → child = .tree (h.next + n) ['/'] ∧ h.next + n < (allocAll h ks).2.next := by
      intro n key child hn
      rw [h1, List.getElem?_map, List.getElem?_zipIdx] at hn
      simp only [Nat.zero_add, Option.map_map, Option.map_eq_some_iff, Function.comp, Prod.mk.injEq] at hn
      obtain ⟨a, ha, -, rfl⟩ := hn
      refine ⟨rfl, ?_⟩
      rw [h2]
      have := (List.getElem?_eq_some_iff.1 ha).1
      omega
    refine ⟨h3, hx, ?_⟩
    intro T _ K nd at1 later h' x p d hd v hm hh hu s hs
    obtain ⟨n, hn, hg⟩ := List.mem_iff_getElem.1 hm
    obtain ⟨e1, -⟩ := hx n x.1 x.2 (by rw [List.getElem?_eq_getElem hn, hg])
    apply at_congr
    intro j hj
    cases hd with
    | const w =>
      cases nd with
      | true => simp only [Handle.update, if_true, UpdateRes.done.injEq] at hu; rw [hu]
      | false => simp [Handle.update] at hu
    | live i' ns' q =>
      have ht := handle_touches K at1 _ p d _ _ _ hh
      rw [e1] at ht
      cases ht
      have := hs j hj
      exact (update_others hu).2 j (by omega)
  · simp at e

/-- **C108** whereas the children from `getChildren` of a verbose store over a property tree are parts of it. -/
theorem C108_verbose_children_partial (h h1 : Heap) (k : Nat) (tag : Str) (i : Nat) (ns : Str) (cs : List (Str × HStore)) (l : Lines)
    (e : (HStore.verbose k tag (.tree i ns)).getChildren h = ((.val cs, l), h1)) :
    (∀ x ∈ cs, ∃ tag', x.2 = .verbose k tag' (.tree i (childNamespace ns x.1))) ∧
    ∃ ks, Verif.PTree.getChildren (h.trees i) ns = some ks ∧ cs.map Prod.fst = ks.map Prod.fst := by
  have loop : ∀ (keys : List Str) (h0 : Heap), ∃ l, (HStore.verbose k tag (.tree i ns)).childrenOneByOne h0 keys =
      ((.val (keys.map fun key => (key, HStore.verbose k (tag ++ "child(".toList ++ key ++ "):".toList) (.tree i (childNamespace ns key)))), l), h0) := by
    intro keys
    induction keys with
    | nil => intro h0; exact ⟨[], rfl⟩
    | cons key keys ih =>
      intro h0
      obtain ⟨l, hl⟩ := ih h0
      exact ⟨_, by simp only [HStore.childrenOneByOne, HStore.getChild, W.bind, hl, List.map_cons]; rfl⟩
  rw [HStore.getChildren.eq_def] at e
  simp only at e
  simp only [HStore.getChildren, treeChildren] at e
  cases hk : Verif.PTree.getChildren (h.trees i) ns with
  | none => rw [hk] at e; simp at e
  | some ks =>
    rw [hk] at e
    obtain ⟨l', hl⟩ := loop ((allocAll h ks).1.map Prod.fst) (allocAll h ks).2
    simp only [hl, W.bind, Prod.mk.injEq, R.val.injEq] at e
    obtain ⟨⟨rfl, -⟩, -⟩ := e
    refine ⟨?_, ks, rfl, ?_⟩
    · intro x hx
      obtain ⟨key, -, rfl⟩ := List.mem_map.1 hx
      exact ⟨_, rfl⟩
    · rw [(allocAll_spec ks h).1, List.map_map, List.map_map, List.map_map]
      show List.map (Prod.fst ∘ Prod.fst) ks.zipIdx = _
      rw [← List.map_map, List.zipIdx_map_fst]

/-- **C108** updates through the handles of one store do not change what a store without common trees reads. -/
theorem C108_frame {T} (K : Kind T) [Inhabited T] (nd : Bool) (at1 later h' : Heap) (s r : HStore) (p : Str) (d : Option T) (hd : Handle T) (v : T)
    (hh : (s.handle K at1 p d).1 = .val hd) (hu : hd.update K.codec nd later v = .done h') (hdis : ∀ j, ¬ (s.Touches j ∧ r.Touches j)) :
    r.at h' = r.at later := by
  apply at_congr
  intro j hj
  cases hd with
  | const w =>
    cases nd with
    | true => simp only [Handle.update, if_true, UpdateRes.done.injEq] at hu; rw [hu]
    | false => simp [Handle.update] at hu
  | live i' ns' q =>
    have ht := handle_touches K at1 _ p d _ _ _ hh
    exact (update_others hu).2 j fun e => hdis j ⟨by rw [e]; exact ht, hj⟩

/-- **C108** an update through a child from `getChildren` is lost. -/
theorem C108_negation : ¬ C108_claim := by
  intro H
  obtain ⟨h1, e1⟩ : ∃ h1, (HStore.tree 0 ['/']).getChildren heapA = ((.val [(['a'], .tree 1 ['/'])], []), h1) := ⟨_, rfl⟩
  obtain ⟨e2, -, e3⟩ := C108_getChildren_partial _ _ _ _ _ _ e1
  have e4 : ((HStore.tree 1 ['/']).handle strKind h1 [] none).1 = .val (.live 1 ['/'] []) := by
    have : h1 = (allocAll heapA [(['a'], .node ['1'] [])]).2 := by
      have := congrArg Prod.snd e1
      exact this.symm
    rw [this]
    simp only [HStore.handle]
    decide
  obtain ⟨h', hu, hr⟩ := H Str ⟨[]⟩ strKind heapA 0 ['/'] ['a'] (.tree 1 ['/']) h1 (.root []) (by decide) (.inr ⟨_, _, e1, by simp⟩) [] _ ['2'] e4 rfl
  have e5 := @e3 Str ⟨[]⟩ strKind true h1 h1 h' _ _ _ _ _ (List.mem_singleton.2 rfl) e4 hu (.tree 0 ['/']) (fun j hj => by cases hj; decide)
  rw [e5] at hr
  simp only [HStore.at, Store.get, e2 0 (by decide)] at hr
  revert hr
  decide

/-- Concrete: the child `a` of a tree with the entry `a/b`, updated. -/
example : ∃ (h : Heap) (hd : Handle Str) (h' : Heap), ((HStore.tree 0 ['/', 'a', '/']).handle strKind h ['b'] none).1 = .val hd ∧
    (HStore.tree 0 ['/']).getChild h ['a'] = ((.val (.tree 0 ['/', 'a', '/']), []), h) ∧
    hd.update strCodec true h ['2'] = .done h' ∧ ((HStore.tree 0 ['/']).at h').get strCodec ['a', '/', 'b'] none = .val ['2'] := by
  refine ⟨⟨fun _ => .node [] [(['a'], .node [] [(['b'], .node ['1'] [])])], 1⟩, .live 0 ['/', 'a', '/'] ['b'], _, ?_, ?_, rfl, ?_⟩
  · simp only [HStore.handle]; decide
  · simp only [HStore.getChild, childNamespace]; rfl
  · simp only [HStore.at, Store.get]; decide

/-- every tree the store reads is on the heap -/
def HStore.Within (s : HStore) (h : Heap) : Prop := ∀ j, s.Touches j → j < h.next

/-- the second heap is the first with trees added -/
def Grows (h h' : Heap) : Prop := h.next ≤ h'.next ∧ ∀ j, j < h.next → h'.trees j = h.trees j

theorem Grows.refl (h : Heap) : Grows h h := ⟨Nat.le_refl _, fun _ _ => rfl⟩

theorem Grows.trans {a b c : Heap} (h1 : Grows a b) (h2 : Grows b c) : Grows a c :=
  ⟨Nat.le_trans h1.1 h2.1, fun j hj => by rw [h2.2 j (Nat.lt_of_lt_of_le hj h1.1), h1.2 j hj]⟩

theorem within_at {s : HStore} {h h' : Heap} (hw : s.Within h) (hg : Grows h h') : s.at h' = s.at h :=
  at_congr s fun j hj => hg.2 j (hw j hj)

theorem Within.grow {s : HStore} {h h' : Heap} (hw : s.Within h) (hg : Grows h h') : s.Within h' :=
  fun j hj => Nat.lt_of_lt_of_le (hw j hj) hg.1

mutual
theorem getChild_at : ∀ (s : HStore) (h : Heap) (key : Str), s.Within h →
    Grows h (s.getChild h key).2 ∧ (∀ c, (s.getChild h key).1.1 = .val c → c.Within (s.getChild h key).2) ∧
    ((s.getChild h key).1.1.bind fun c => R.val (c.at (s.getChild h key).2)) = (s.at h).getChild key
  | .tree i ns, h, key, hw => by
    simp only [HStore.getChild, HStore.at, Store.getChild, R.bind]
    refine ⟨Grows.refl h, fun c e => ?_, by simp only [HStore.at]⟩
    cases e
    intro j hj
    cases hj
    exact hw _ (.tree _ _)
  | .layered ls, h, key, hw => by
    obtain ⟨h1, h2, h3⟩ := getChildLayers_at ls h key fun x hx j hj => hw j (.layered ls x j hx hj)
    simp only [HStore.getChild, HStore.at, Store.getChild]
    rw [← h3]
    clear h3
    generalize getChildLayers h ls key = y at *
    obtain ⟨⟨r, l⟩, h'⟩ := y
    cases r with
    | val cs =>
      simp only [R.bind] at *
      refine ⟨h1, ?_, ?_⟩
      · intro c e
        match cs, e with
        | [], e => cases e; intro j hj; cases hj with | layered _ x _ hx _ => cases hx
        | [c'], e => cases e; exact h2 _ rfl _ (by simp)
        | c1 :: c2 :: cs, e =>
          cases e
          intro j hj
          cases hj with
          | layered _ x _ hx ht => exact h2 _ rfl x hx j ht
      · match cs with
        | [] => simp only [atAll, HStore.at]
        | [c'] => simp only [atAll]
        | c1 :: c2 :: cs => simp only [atAll, HStore.at]
    | threw => exact ⟨h1, (fun c e => by cases e), rfl⟩
    | ub => exact ⟨h1, (fun c e => by cases e), rfl⟩
  | .prefixed m pre s, h, key, hw => by
    simp only [HStore.getChild, HStore.at, Store.getChild]
    have hws : s.Within h := fun j hj => hw j (.prefixed _ _ _ _ hj)
    rcases hb : (applyPrefix m pre key).2 with _ | b
    · exact ⟨Grows.refl h, (fun c e => by cases e), rfl⟩
    cases b
    · refine ⟨⟨Nat.le_succ _, fun j hj => by simp [Heap.set, Nat.ne_of_lt hj]⟩, ?_, ?_⟩
      · intro c e; cases e; intro j hj; cases hj; exact Nat.lt_succ_self _
      · simp [R.bind, HStore.at, Heap.set, Store.fresh]
    · simp only
      by_cases hc : m = .remove ∧ ((applyPrefix m pre key).1 = [] ∨ (applyPrefix m pre key).1 = ['/'])
      · rw [if_pos hc, if_pos hc]
        exact ⟨Grows.refl h, (fun c e => by cases e; exact hws), rfl⟩
      · rw [if_neg hc, if_neg hc]
        refine ⟨Grows.refl h, fun c e => ?_, by simp only [R.bind, HStore.at]⟩
        cases e
        intro j hj
        cases hj with
        | prefixed _ _ _ _ ht => exact hws j ht
  | .verbose k t s, h, key, hw => by
    obtain ⟨h1, h2, h3⟩ := getChild_at s h key fun j hj => hw j (.verbose _ _ _ _ hj)
    simp only [HStore.getChild, HStore.at, Store.getChild]
    rw [← h3]
    clear h3
    generalize s.getChild h key = y at *
    obtain ⟨⟨r, l⟩, h'⟩ := y
    cases r with
    | val c =>
      refine ⟨h1, ?_, by simp only [W.bind, R.bind, HStore.at]⟩
      intro c' e
      simp only [W.bind] at e
      cases e
      intro j hj
      cases hj with
      | verbose _ _ _ _ ht => exact h2 c rfl j ht
    | threw => exact ⟨h1, (fun c e => by cases e), rfl⟩
    | ub => exact ⟨h1, (fun c e => by cases e), rfl⟩
  | .verboseExt k t s, h, key, hw => by
    obtain ⟨h1, h2, h3⟩ := getChild_at s h key fun j hj => hw j (.verboseExt _ _ _ _ hj)
    simp only [HStore.getChild, HStore.at, Store.getChild]
    rw [← h3]
    clear h3
    generalize s.getChild h key = y at *
    obtain ⟨⟨r, l⟩, h'⟩ := y
    cases r with
    | val c =>
      refine ⟨h1, ?_, by simp only [W.bind, R.bind, HStore.at]⟩
      intro c' e
      simp only [W.bind] at e
      cases e
      intro j hj
      cases hj with
      | verbose _ _ _ _ ht => exact h2 c rfl j ht
    | threw => exact ⟨h1, (fun c e => by cases e), rfl⟩
    | ub => exact ⟨h1, (fun c e => by cases e), rfl⟩
theorem getChildLayers_at : ∀ (ls : List HStore) (h : Heap) (key : Str), (∀ x ∈ ls, HStore.Within x h) →
    Grows h (getChildLayers h ls key).2 ∧ (∀ cs, (getChildLayers h ls key).1.1 = .val cs → ∀ c ∈ cs, HStore.Within c (getChildLayers h ls key).2) ∧
    ((getChildLayers h ls key).1.1.bind fun cs => R.val (atAll (getChildLayers h ls key).2 cs)) = childLayers (atAll h ls) key
  | [], h, key, _ => by
    simp only [getChildLayers, atAll, childLayers, R.bind]
    exact ⟨Grows.refl h, (fun cs e => by cases e; simp), trivial⟩
  | s :: ls, h, key, hw => by
    obtain ⟨h1, h2, h3⟩ := getChild_at s h key (hw s (by simp))
    simp only [getChildLayers, atAll, childLayers]
    rw [← h3]
    clear h3
    generalize s.getChild h key = y at *
    obtain ⟨⟨r, l⟩, h'⟩ := y
    cases r with
    | val c =>
      simp only [R.bind] at *
      have hw' : ∀ x ∈ ls, HStore.Within x h' := fun x hx => Within.grow (hw x (by simp [hx])) h1
      obtain ⟨g1, g2, g3⟩ := getChildLayers_at ls h' key hw'
      have e : atAll h ls = atAll h' ls := (atAll_congr ls fun x hx j hj => h1.2 j (hw x (by simp [hx]) j hj)).symm
      rw [e, ← g3]
      clear g3
      generalize getChildLayers h' ls key = z at *
      obtain ⟨⟨r2, l2⟩, h''⟩ := z
      have hc := h2 c rfl
      cases r2 with
      | val cs =>
        refine ⟨h1.trans g1, ?_, ?_⟩
        · intro cs' e'
          simp only [W.bind] at e'
          cases e'
          intro x hx
          rcases List.mem_cons.1 hx with rfl | hx
          · exact Within.grow hc g1
          · exact g2 cs rfl x hx
        · simp only [W.bind, R.bind, atAll]
          rw [within_at hc g1]
      | threw => exact ⟨h1.trans g1, (fun c e => by cases e), rfl⟩
      | ub => exact ⟨h1.trans g1, (fun c e => by cases e), rfl⟩
    | threw => exact ⟨h1, (fun c e => by cases e), rfl⟩
    | ub => exact ⟨h1, (fun c e => by cases e), rfl⟩
end

/-- **C108** of every store `getChild` gives what it gives in the model of one moment (about which C33 and C35 speak), and changes no store that existed before. -/
theorem C108_child_reads (s : HStore) (h : Heap) (key : Str) (hw : ∀ j, s.Touches j → j < h.next) :
    ((s.getChild h key).1.1.bind fun c => R.val (c.at (s.getChild h key).2)) = (s.at h).getChild key ∧
    ∀ r : HStore, (∀ j, r.Touches j → j < h.next) → r.at (s.getChild h key).2 = r.at h :=
  ⟨(getChild_at s h key hw).2.2, fun _ hr => within_at hr (getChild_at s h key hw).1⟩

/-- Concrete: the child of a store with two layers, one of them behind a prefix. -/
example : ((HStore.layered [.prefixed .remove ['p'] (.tree 0 ['/']), .tree 0 ['/']]).getChild heapA ['p', '/', 'k']).1.1 =
    .val (.layered [.prefixed .remove ['k'] (.tree 0 ['/']), .tree 0 ['/', 'p', '/', 'k', '/']]) ∧
    (HStore.layered [.prefixed .remove ['p'] (.tree 0 ['/']), .tree 0 ['/']]).Within heapA := by
  constructor
  · simp only [HStore.getChild, getChildLayers, applyPrefix]
    rfl
  · intro j hj
    cases hj with
    | layered _ x _ hx ht =>
      simp only [List.mem_cons, List.not_mem_nil, or_false] at hx
      rcases hx with rfl | rfl
      · cases ht with | prefixed _ _ _ _ ht => cases ht; decide
      · cases ht; decide

end Verif.ValueStore
