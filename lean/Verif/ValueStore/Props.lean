import Verif.ValueStore.Model
import Verif.PTree.ChildrenProps

/-!
# Value stores (C33–C36, C63)
-/

namespace Verif.ValueStore

open Verif.PTree (Str Key Tree Codec GetRes childNamespace qualify keyPath getData doesKeyExist Namespace
  joinKey rootNamespace isAbsolute absKey CleanEnd entryPath strCodec)

/-! ## specification vocabulary -/

/-- stores whose behaviour for one key is determined by "has it or not": property trees, user stores,
verbose wrappers and non-empty layerings of such stores -/
inductive Regular : Store → Prop
  | tree (t : Tree) (ns : Str) : Namespace ns → Regular (.tree t ns)
  | user (f : Str → Option Str) : Regular (.user f)
  | verbose (s : Store) : Regular s → Regular (.verbose s)
  | layered (s : Store) (ls : List Store) : (∀ x ∈ s :: ls, Regular x) → Regular (.layered (s :: ls))

/-- two stores no reader can tell apart by reading keys -/
def SameReads (a b : Store) : Prop :=
  (∀ k, a.hasKey k = b.hasKey k) ∧
  ∀ {T : Type} [Inhabited T] (c : Codec T) (k : Str) (d : Option T), a.get c k d = b.get c k d

/-! ## helper lemmas -/

theorem anyHasKey_append (pre post : List Store) (k : Str) (h : ∀ x ∈ pre, x.hasKey k = .val false) :
    anyHasKey (pre ++ post) k = anyHasKey post k := by
  induction pre with
  | nil => rfl
  | cons a pre ih =>
    simp only [List.mem_cons, forall_eq_or_imp] at h
    simp only [List.cons_append, anyHasKey, h.1, R.bind]
    simpa using ih h.2

theorem getFromLayers_append {T} (c : Codec T) [Inhabited T] (pre : List Store) (s : Store) (post : List Store)
    (k : Str) (d : Option T) (h : ∀ x ∈ pre, x.hasKey k = .val false) :
    getFromLayers c (pre ++ s :: post) k d = getFromLayers c (s :: post) k d := by
  induction pre with
  | nil => rfl
  | cons a pre ih =>
    simp only [List.mem_cons, forall_eq_or_imp] at h
    have ih' := ih h.2
    rw [← ih', List.cons_append]
    revert ih'
    cases hp : pre ++ s :: post with
    | nil => simp at hp
    | cons b r =>
      intro _
      rw [getFromLayers]
      simp only [h.1]

theorem qualify_abs {ns : Str} (hns : Namespace ns) (key : Str) : (qualify ns key).head? = some '/' := by
  have h := Verif.PTree.absKey_absolute hns key
  rw [Verif.PTree.qualify_eq]
  unfold isAbsolute at h
  cases hk : absKey ns key with
  | nil => rw [hk] at h; simp at h
  | cons a as =>
    rw [hk] at h
    split
    · rename_i h'
      cases as with
      | nil => simp at h'
      | cons b bs => simpa using h
    · exact h

theorem doesKeyExist_iff {ns : Str} (hns : Namespace ns) (t : Tree) (key : Str) :
    doesKeyExist t ns key = (getData t (keyPath (qualify ns key)).frags).isSome := by
  unfold doesKeyExist keyPath
  simp only [qualify_abs hns key, if_true]

theorem regular_hasKey {s : Store} (hs : Regular s) (k : Str) : ∃ b, s.hasKey k = .val b := by
  induction hs with
  | tree t ns _ => exact ⟨_, by simp only [Store.hasKey]; rfl⟩
  | user f => exact ⟨_, by simp only [Store.hasKey]; rfl⟩
  | verbose s _ ih => simpa only [Store.hasKey] using ih
  | layered s ls _ ih =>
    simp only [Store.hasKey]
    suffices ∀ l : List Store, (∀ x ∈ l, ∃ b, x.hasKey k = .val b) → ∃ b, anyHasKey l k = .val b from this _ ih
    intro l
    induction l with
    | nil => intro _; exact ⟨false, rfl⟩
    | cons a l ihl =>
      intro hl
      obtain ⟨b, hb⟩ := hl a (by simp)
      simp only [anyHasKey, hb, R.bind]
      cases b
      · simpa using ihl fun x hx => hl x (by simp [hx])
      · exact ⟨true, by simp⟩

theorem anyHasKey_false (l : List Store) (k : Str) (h : anyHasKey l k = .val false) :
    ∀ x ∈ l, x.hasKey k = .val false := by
  induction l with
  | nil => simp
  | cons a l ih =>
    simp only [anyHasKey] at h
    cases ha : a.hasKey k with
    | val b =>
      rw [ha] at h
      cases b
      · simp only [R.bind, Bool.false_eq_true, if_false] at h
        simp only [List.mem_cons, forall_eq_or_imp]
        exact ⟨ha, ih h⟩
      · simp [R.bind] at h
    | threw => rw [ha] at h; simp [R.bind] at h
    | ub => rw [ha] at h; simp [R.bind] at h

theorem concat_cases {α} (s : α) (l : List α) : ∃ m x, s :: l = m ++ [x] :=
  ⟨(s :: l).dropLast, (s :: l).getLast (by simp), (List.dropLast_concat_getLast (by simp)).symm⟩

/-- an absent key: the default, or an exception without one -/
theorem regular_absent {T} (c : Codec T) [Inhabited T] {s : Store} (hs : Regular s) (k : Str)
    (h : s.hasKey k = .val false) : (∀ d, s.get c k (some d) = .val d) ∧ s.get c k none = .threw := by
  induction hs with
  | tree t ns hns =>
    simp only [Store.hasKey, doesKeyExist_iff hns, R.val.injEq] at h
    have : getData t (keyPath (qualify ns k)).frags = none := by simpa using h
    simp [Store.get, treeGet, Verif.PTree.getDefault, Verif.PTree.get, this]
  | user f =>
    simp only [Store.hasKey, R.val.injEq] at h
    have : f k = none := by simpa using h
    simp [Store.get, this]
  | verbose s _ ih =>
    simp only [Store.hasKey] at h
    obtain ⟨h1, h2⟩ := ih h
    simp only [Store.get, h1, h2, R.bind, h]
    simp
  | layered s ls hr ih =>
    simp only [Store.hasKey] at h
    have h' := anyHasKey_false _ _ h
    obtain ⟨m, x, hm⟩ := concat_cases s ls
    simp only [Store.get]
    rw [hm] at h' ih ⊢
    rw [show m ++ [x] = m ++ x :: [] from rfl]
    have hx := ih x (by simp) (h' x (by simp))
    constructor
    · intro d
      rw [getFromLayers_append c m x [] k _ fun y hy => h' y (by simp [hy])]
      simpa only [getFromLayers] using hx.1 d
    · rw [getFromLayers_append c m x [] k _ fun y hy => h' y (by simp [hy])]
      simpa only [getFromLayers] using hx.2

/-- a readable value is read whatever the default -/
theorem regular_value {T} (c : Codec T) [Inhabited T] {s : Store} (hs : Regular s) (k : Str) (v : T)
    (h : s.get c k none = .val v) (d : Option T) : s.get c k d = .val v := by
  induction hs with
  | tree t ns hns =>
    cases d with
    | none => exact h
    | some d =>
      simp only [Store.get, treeGet, Verif.PTree.get, Verif.PTree.getDefault] at h ⊢
      cases hg : getData t (keyPath (qualify ns k)).frags with
      | none => rw [hg] at h; simp at h
      | some x =>
        rw [hg] at h
        simp only [Option.bind_some] at h ⊢
        cases hp : c.parse x with
        | none => simp only [hp] at h; simp at h
        | some w => simp only [hp] at h; simpa using h
  | user f =>
    simp only [Store.get] at h ⊢
    cases hf : f k with
    | none => rw [hf] at h; simp at h
    | some x => rw [hf] at h; simpa using h
  | verbose s hs ih =>
    simp only [Store.get] at h ⊢
    have : s.get c k none = .val v := by
      cases hg : s.get c k none with
      | val w => rw [hg] at h; simpa [R.bind] using h
      | threw => rw [hg] at h; simp [R.bind] at h
      | ub => rw [hg] at h; simp [R.bind] at h
    rw [ih this]
    obtain ⟨b, hb⟩ := regular_hasKey hs k
    simp only [hb, R.bind]
    cases d <;> rfl
  | layered s ls hr ih =>
    simp only [Store.get] at h ⊢
    generalize s :: ls = l at hr ih h
    induction l with
    | nil => simpa only [getFromLayers] using h
    | cons a l ihl =>
      cases l with
      | nil =>
        simp only [getFromLayers] at h ⊢
        exact ih a (by simp) h
      | cons b l =>
        rw [getFromLayers] at h ⊢
        cases ha : a.hasKey k with
        | val w =>
          rw [ha] at h
          cases w
          · exact ihl (fun x hx => hr x (by simp [hx])) (fun x hx => ih x (by simp [hx])) h
          · exact h
        | threw => rw [ha] at h; simp at h
        | ub => rw [ha] at h; simp at h

/-! ## C33 -/

/-- **C33** With the first layer that has the key preceded by layers that lack it, the layered store has
the key and reads that layer: without a default, unless that layer is the last one, which also gets the
caller's default (so that a value that exists but does not convert is replaced by the default exactly if
it sits in the last layer, and throws otherwise). -/
theorem C33_first_layer {T} (c : Codec T) [Inhabited T] (pre : List Store) (s : Store) (post : List Store)
    (k : Str) (hpre : ∀ x ∈ pre, x.hasKey k = .val false) (hs : s.hasKey k = .val true) (d : Option T) :
    (Store.layered (pre ++ s :: post)).hasKey k = .val true ∧
    (Store.layered (pre ++ s :: post)).get c k d = s.get c k (if post = [] then d else none) := by
  constructor
  · simp only [Store.hasKey]
    rw [anyHasKey_append _ _ _ hpre]
    simp [anyHasKey, hs, R.bind]
  · simp only [Store.get]
    rw [getFromLayers_append c pre s post k d hpre]
    cases post with
    | nil => simp [getFromLayers]
    | cons b post => simp [getFromLayers, hs]

/-- **C33** For regular layers: the layered store returns the value of the first layer that has the key,
whatever the default; it has a key iff some layer has it; and if no layer has it, it returns the default,
or throws without one. -/
theorem C33_layered_partial {T} (c : Codec T) [Inhabited T] (ls : List Store) (hne : ls ≠ [])
    (hr : ∀ x ∈ ls, Regular x) (k : Str) :
    (∀ pre s post v, ls = pre ++ s :: post → (∀ x ∈ pre, x.hasKey k = .val false) →
      s.hasKey k = .val true → s.get c k none = .val v → ∀ d, (Store.layered ls).get c k d = .val v) ∧
    ((Store.layered ls).hasKey k = .val true ↔ ∃ s ∈ ls, s.hasKey k = .val true) ∧
    ((∀ x ∈ ls, x.hasKey k = .val false) →
      (Store.layered ls).hasKey k = .val false ∧
      (∀ d, (Store.layered ls).get c k (some d) = .val d) ∧ (Store.layered ls).get c k none = .threw) := by
  refine ⟨?_, ?_, ?_⟩
  · rintro pre s post v rfl hpre hs hv d
    rw [(C33_first_layer c pre s post k hpre hs d).2]
    exact regular_value c (hr s (by simp)) k v hv _
  · obtain ⟨s, l, rfl⟩ := List.exists_cons_of_ne_nil hne
    obtain ⟨b, hb⟩ := regular_hasKey (.layered s l hr) k
    rw [hb]
    cases b with
    | false =>
      simp only [Store.hasKey] at hb
      have := anyHasKey_false _ _ hb
      constructor
      · simp
      · rintro ⟨x, hx, h⟩; rw [this x hx] at h; simp at h
    | true =>
      refine ⟨fun _ => ?_, fun _ => rfl⟩
      apply Classical.byContradiction
      intro hno
      have : ∀ x ∈ s :: l, x.hasKey k = .val false := by
        intro x hx
        obtain ⟨b, hb'⟩ := regular_hasKey (hr x hx) k
        cases b with
        | false => exact hb'
        | true => exact absurd ⟨x, hx, hb'⟩ hno
      have h2 := anyHasKey_append (s :: l) [] k this
      simp only [Store.hasKey] at hb
      rw [List.append_nil, hb] at h2
      simp [anyHasKey] at h2
  · intro h
    obtain ⟨s, l, rfl⟩ := List.exists_cons_of_ne_nil hne
    have h1 : (Store.layered (s :: l)).hasKey k = .val false := by
      simp only [Store.hasKey]
      have := anyHasKey_append (s :: l) [] k h
      rw [List.append_nil] at this; rw [this]; rfl
    exact ⟨h1, regular_absent c (.layered s l hr) k h1⟩

/-- the claim as documented, for every number of layers -/
def C33_claim : Prop :=
  ∀ (ls : List Store), (∀ x ∈ ls, Regular x) → ∀ k, (∀ x ∈ ls, x.hasKey k = .val false) →
    ∀ d, (Store.layered ls).get strCodec k (some d) = .val d

/-- **C33** is false for a layering of no stores, which returns an empty value and ignores the default. -/
theorem C33_negation : ¬ C33_claim := by
  intro h
  have := h [] (by simp) [] (by simp) ['d']
  simp only [Store.get, getFromLayers] at this
  exact absurd this (by decide)

/-- **C33** Child of a layered store: the layering of the layers' children. -/
theorem C33_child (ls : List Store) (key : Str) (f : Store → Store)
    (h : ∀ s ∈ ls, s.getChild key = .val (f s)) :
    ∃ r, (Store.layered ls).getChild key = .val r ∧ SameReads r (.layered (ls.map f)) := by
  have hc : ∀ l : List Store, (∀ s ∈ l, s.getChild key = .val (f s)) → childLayers l key = .val (l.map f) := by
    intro l
    induction l with
    | nil => intro _; rfl
    | cons a l ih =>
      intro h
      simp only [childLayers, h a (by simp), R.bind, ih fun s hs => h s (by simp [hs]), List.map_cons]
  simp only [Store.getChild, hc ls h, R.bind]
  match hm : ls.map f with
  | [] => exact ⟨_, rfl, fun _ => rfl, fun _ _ _ => rfl⟩
  | [x] =>
    refine ⟨x, rfl, fun k => ?_, fun c k d => ?_⟩
    · simp only [Store.hasKey, anyHasKey]
      cases x.hasKey k with
      | val b => cases b <;> rfl
      | threw => rfl
      | ub => rfl
    · simp only [Store.get, getFromLayers]
  | x :: y :: r => exact ⟨_, rfl, fun _ => rfl, fun _ _ _ => rfl⟩

mutual
/-- stores that can give children: trees, and wrappers of such stores; an ADD-prefixed store claims it always -/
def Supports : Store → Prop
  | .tree _ _ => True
  | .layered ls => AllSupport ls
  | .prefixed .add _ _ => True
  | .prefixed .remove _ s => Supports s
  | .verbose s => Supports s
  | .user _ => False
/-- all of them -/
def AllSupport : List Store → Prop
  | [] => True
  | s :: ls => Supports s ∧ AllSupport ls
end

mutual
theorem childSupported_iff : ∀ s : Store, s.childSupported = true ↔ Supports s
  | .tree _ _ => by simp [Store.childSupported, Supports]
  | .layered ls => by simp only [Store.childSupported, Supports]; exact allChildSupported_iff ls
  | .prefixed .add _ _ => by simp [Store.childSupported, Supports]
  | .prefixed .remove _ s => by simp only [Store.childSupported, Supports]; exact childSupported_iff s
  | .verbose s => by simp only [Store.childSupported, Supports]; exact childSupported_iff s
  | .user _ => by simp [Store.childSupported, Supports]
theorem allChildSupported_iff : ∀ ls : List Store, allChildSupported ls = true ↔ AllSupport ls
  | [] => by simp [allChildSupported, AllSupport]
  | s :: ls => by
    simp only [allChildSupported, AllSupport, Bool.and_eq_true]
    rw [childSupported_iff s, allChildSupported_iff ls]
end

mutual
theorem supported_child (key : Str) : ∀ s : Store, Supports s → s.getChild key ≠ .threw
  | .tree _ _, _ => by simp [Store.getChild]
  | .layered ls, h => by
    simp only [Store.getChild]
    have := supported_children key ls h
    cases hc : childLayers ls key with
    | val cs => simp only [R.bind]; split <;> simp
    | threw => exact absurd hc this
    | ub => simp [R.bind]
  | .prefixed m p s, _ => by
    simp only [Store.getChild]
    split
    · simp
    · simp
    · split <;> simp
  | .verbose s, h => by
    simp only [Store.getChild]
    have := supported_child key s h
    cases hc : s.getChild key with
    | val c => simp [R.bind]
    | threw => exact absurd hc this
    | ub => simp [R.bind]
theorem supported_children (key : Str) : ∀ ls : List Store, AllSupport ls → childLayers ls key ≠ .threw
  | [], _ => by simp [childLayers]
  | s :: ls, h => by
    simp only [childLayers]
    have h1 := supported_child key s h.1
    have h2 := supported_children key ls h.2
    cases hc : s.getChild key with
    | val c =>
      cases hcs : childLayers ls key with
      | val cs => simp [R.bind]
      | threw => exact absurd hcs h2
      | ub => simp [R.bind]
    | threw => exact absurd hc h1
    | ub => simp [R.bind]
end

/-- **C33** `isChildSupported` says whether children can be had: a layered store supports them iff all its
layers do, a REMOVE-prefixed and a verbose store iff the wrapped store does; and a store that says so never
refuses `getChild`. -/
theorem C33_child_supported :
    (∀ ls : List Store, (Store.layered ls).childSupported = true ↔ ∀ s ∈ ls, s.childSupported = true) ∧
    (∀ p s, (Store.prefixed .remove p s).childSupported = s.childSupported) ∧
    (∀ s, (Store.verbose s).childSupported = s.childSupported) ∧
    ∀ (s : Store) (key : Str), s.childSupported = true → s.getChild key ≠ .threw ∧ s.refChild key = s.getChild key := by
  refine ⟨fun ls => ?_, fun p s => by simp only [Store.childSupported], fun s => by simp only [Store.childSupported],
    fun s key h => ⟨supported_child key s ((childSupported_iff s).1 h), by simp [Store.refChild, h]⟩⟩
  simp only [Store.childSupported]
  induction ls with
  | nil => simp [allChildSupported]
  | cons s ls ih => simp [allChildSupported, ih]

example : (Store.layered [.tree .empty ['/'], .verbose (.tree .empty ['/'])]).childSupported = true ∧
    (Store.layered [.tree .empty ['/'], .user fun _ => none]).childSupported = false := by
  simp [Store.childSupported, allChildSupported]

theorem layered_single (x : Store) : SameReads x (.layered [x]) := by
  refine ⟨fun k => ?_, fun c k d => ?_⟩
  · simp only [Store.hasKey, anyHasKey]
    cases x.hasKey k with
    | val b => cases b <;> rfl
    | threw => rfl
    | ub => rfl
  · simp only [Store.get, getFromLayers]

theorem nodup_eraseDups (l : List Str) : l.eraseDups.Nodup := by
  generalize hn : l.length = n
  induction n using Nat.strongRecOn generalizing l with
  | _ n ih =>
    cases l with
    | nil => simp
    | cons a l =>
      rw [List.eraseDups_cons, List.nodup_cons]
      constructor
      · simp [List.mem_eraseDups]
      · refine ih _ ?_ _ rfl
        have := List.length_filter_le (fun b => !b == a) l
        simp only [List.length_cons] at hn; omega

/-- the children of the layers that carry key `k`, in layer order -/
def childrenNamed (k : Str) (css : List (List (Str × Store))) : List Store :=
  (css.flatten.filter fun c => c.1 = k).map Prod.snd

/-- **C33** Children of a layered store: one per key any layer has a child for, and it reads as the
layering of the layers' children with that key, in layer order. -/
theorem C33_children (ls : List Store) (css : List (List (Str × Store)))
    (h : ls.map Store.getChildren = css.map R.val) :
    ∃ r, (Store.layered ls).getChildren = .val r ∧
      (r.map Prod.fst).Nodup ∧
      (∀ k, k ∈ r.map Prod.fst ↔ ∃ cs ∈ css, k ∈ cs.map Prod.fst) ∧
      ∀ k s, (k, s) ∈ r → SameReads s (.layered (childrenNamed k css)) := by
  have hc : ∀ (l : List Store) (cs : List (List (Str × Store))), l.map Store.getChildren = cs.map R.val →
      allChildren l = .val cs.flatten := by
    intro l
    induction l with
    | nil => intro cs h; cases cs <;> simp_all [allChildren]
    | cons a l ih =>
      intro cs h
      cases cs with
      | nil => simp at h
      | cons c cs =>
        simp only [List.map_cons, List.cons.injEq] at h
        simp only [allChildren, h.1, R.bind, ih cs h.2, List.flatten_cons]
  refine ⟨(groupKeys css.flatten).map fun k => (k, groupStore css.flatten k),
    by simp only [Store.getChildren, hc ls css h, R.bind], ?_, ?_, ?_⟩
  · rw [List.map_map]
    have : (Prod.fst ∘ fun k => (k, groupStore css.flatten k)) = id := rfl
    rw [this, List.map_id]
    exact nodup_eraseDups _
  · intro k
    rw [List.map_map]
    have : (Prod.fst ∘ fun k => (k, groupStore css.flatten k)) = id := rfl
    rw [this, List.map_id, groupKeys, List.mem_eraseDups]
    simp only [List.mem_map, List.mem_flatten]
    constructor
    · rintro ⟨x, ⟨l, hl, hx⟩, rfl⟩; exact ⟨l, hl, x, hx, rfl⟩
    · rintro ⟨l, hl, x, hx, rfl⟩; exact ⟨x, ⟨l, hl, hx⟩, rfl⟩
  · intro k s hs
    simp only [List.mem_map, Prod.mk.injEq] at hs
    obtain ⟨k', _, rfl, rfl⟩ := hs
    unfold groupStore childrenNamed
    split
    · rename_i c hc'; rw [hc']; exact layered_single c
    · exact ⟨fun _ => rfl, fun _ _ _ => rfl⟩

/-- Concrete: two layers, the key only in the second; a key in neither. -/
example :
    let a := Store.user fun k => if k = ['x'] then some ['1'] else none
    let b := Store.user fun k => if k = ['y'] then some ['2'] else none
    Regular (.layered [a, b]) ∧ (Store.layered [a, b]).get strCodec ['y'] none = .val ['2'] ∧
    (Store.layered [a, b]).get strCodec ['z'] (some ['9']) = .val ['9'] ∧
    (∀ x ∈ [a], x.hasKey ['y'] = .val false) ∧ b.hasKey ['y'] = .val true := by
  refine ⟨.layered _ _ fun x hx => ?_, by decide, by decide, by decide, by decide⟩
  simp only [List.mem_cons, List.not_mem_nil, or_false] at hx
  rcases hx with rfl | rfl <;> exact .user _

/-! ## C34 -/

/-- **C34** ADD: reading `k` is reading `prefix/k`; REMOVE: reading or asking for `prefix/k` is reading or
asking for `k`, and every other key is refused: reading it throws (whatever the default) and it does not
exist, except the prefix itself, which exists iff the wrapped store has the empty key. -/
theorem C34_renaming_partial {T} (c : Codec T) [Inhabited T] (p : Str) (s : Store) :
    (∀ k d, (Store.prefixed .add p s).get c k d = s.get c (p ++ '/' :: k) d) ∧
    (∀ k d, (Store.prefixed .remove p s).get c (p ++ '/' :: k) d = s.get c k d) ∧
    (∀ k, (Store.prefixed .remove p s).hasKey (p ++ '/' :: k) = s.hasKey k) ∧
    (∀ k, (∀ k', k ≠ p ++ '/' :: k') →
      (∀ d, (Store.prefixed .remove p s).get c k d = .threw) ∧
      (k ≠ p → (Store.prefixed .remove p s).hasKey k = .val false)) ∧
    (Store.prefixed .remove p s).hasKey p = s.hasKey [] := by
  have hno : ∀ k : Str, (∀ k', k ≠ p ++ '/' :: k') →
      ¬ ((p ++ ['/']).length ≤ k.length ∧ k.take (p ++ ['/']).length = p ++ ['/']) := by
    rintro k hk ⟨_, h⟩
    apply hk (k.drop (p ++ ['/']).length)
    conv => lhs; rw [← List.take_append_drop (p ++ ['/']).length k, h]
    simp
  refine ⟨?_, ?_, ?_, ?_, ?_⟩
  · intro k d; simp [Store.get, applyPrefixOrThrow]
  · intro k d
    have h : (p ++ '/' :: k) = (p ++ ['/']) ++ k := by simp
    simp only [Store.get, applyPrefixOrThrow]
    rw [h, if_pos ⟨by simp, by rw [List.take_left]⟩, List.drop_left]
  · intro k
    have h : (p ++ '/' :: k) = (p ++ ['/']) ++ k := by simp
    simp only [Store.hasKey, applyPrefix]
    rw [h, if_pos ⟨by simp, by rw [List.take_left]⟩, List.drop_left]
  · intro k hk
    constructor
    · intro d
      simp only [Store.get, applyPrefixOrThrow]
      rw [if_neg (hno k hk)]
    · intro hkp
      simp only [Store.hasKey, applyPrefix]
      rw [if_neg (hno k hk)]
      have : decide (k.length = (p ++ ['/']).length - 1 ∧ k ++ ['/'] = p ++ ['/']) = false := by
        rw [decide_eq_false_iff_not]
        rintro ⟨_, h⟩; exact hkp (List.append_cancel_right h)
      rw [this]
  · simp only [Store.hasKey, applyPrefix]
    rw [if_neg (hno p (fun k' h => by
      have := congrArg List.length h; simp at this))]
    simp

/-- ADD, existence: what the documentation promises -/
def C34_exists_claim : Prop :=
  ∀ (p : Str) (s : Store) (k : Str), (Store.prefixed .add p s).hasKey k = s.hasKey (p ++ '/' :: k)

/-- **C34** is false for existence in ADD mode: the flag that decides the answer is never written, whatever
the wrapped store — `hasKey` and `getChild` have no defined result. -/
theorem C34_exists_negation : ¬ C34_exists_claim ∧
    ∀ (p : Str) (s : Store) (k : Str), (Store.prefixed .add p s).hasKey k = .ub ∧
      (Store.prefixed .add p s).getChild k = .ub := by
  constructor
  · intro h
    have := h [] (.user fun _ => none) []
    simp [Store.hasKey, applyPrefix] at this
  · intro p s k
    simp [Store.hasKey, Store.getChild, applyPrefix]

/-- REMOVE, children: opening child `prefix/c` and reading `k` should be reading `prefix/c/k` -/
def C34_child_claim : Prop :=
  ∀ (p : Str) (s : Store) (c k : Str) (r : Store),
    (Store.prefixed .remove p s).getChild (p ++ '/' :: c) = .val r →
    r.get strCodec k none = (Store.prefixed .remove p s).get strCodec (p ++ '/' :: (c ++ '/' :: k)) none

/-- **C34** is false for children in REMOVE mode: the child of `prefix/c` again removes a prefix (`c`)
instead of adding it. -/
theorem C34_child_negation : ¬ C34_child_claim := by
  intro h
  have := h ['p'] (.user fun k => if k = ['c', '/', 'k'] then some ['1'] else none) ['c'] ['k'] _
    (by simp only [Store.getChild]; rfl)
  exact absurd this (by decide)

/-- **C34, the part about children that holds**: in REMOVE mode the child named `prefix` (or `prefix/`) is
the wrapped store; of `prefix/c`, with `c` not empty and not `/`, only the keys `c/k` are readable, and
they are the wrapped store's `k`; anything else is an empty store. -/
theorem C34_child_partial {T} (cd : Codec T) [Inhabited T] (p : Str) (s : Store) :
    (Store.prefixed .remove p s).getChild p = .val s ∧
    (Store.prefixed .remove p s).getChild (p ++ ['/']) = .val s ∧
    (∀ c, c ≠ [] → c ≠ ['/'] → ∃ r, (Store.prefixed .remove p s).getChild (p ++ '/' :: c) = .val r ∧
      (∀ k d, r.get cd (c ++ '/' :: k) d = s.get cd k d) ∧
      ∀ k, (∀ k', k ≠ c ++ '/' :: k') → ∀ d, r.get cd k d = .threw) ∧
    (∀ c, c ≠ p → (∀ k', c ≠ p ++ '/' :: k') →
      (Store.prefixed .remove p s).getChild c = .val .fresh) := by
  have hno : ∀ k : Str, (∀ k', k ≠ p ++ '/' :: k') →
      ¬ ((p ++ ['/']).length ≤ k.length ∧ k.take (p ++ ['/']).length = p ++ ['/']) := by
    rintro k hk ⟨_, h⟩
    apply hk (k.drop (p ++ ['/']).length)
    conv => lhs; rw [← List.take_append_drop (p ++ ['/']).length k, h]
    simp
  have hyes : ∀ c : Str, applyPrefix .remove p (p ++ '/' :: c) = (c, some true) := by
    intro c
    have h : (p ++ '/' :: c) = (p ++ ['/']) ++ c := by simp
    simp only [applyPrefix]
    rw [h, if_pos ⟨by simp, by rw [List.take_left]⟩, List.drop_left]
  refine ⟨?_, ?_, ?_, ?_⟩
  · simp only [Store.getChild, applyPrefix]
    rw [if_neg (hno p (fun k' h => by have := congrArg List.length h; simp at this))]
    simp
  · have := hyes []
    simp only [Store.getChild, this]
    simp
  · intro c h1 h2
    refine ⟨_, by simp only [Store.getChild, hyes c]; rw [if_neg (by simp [h1, h2])], ?_, ?_⟩
    · exact (C34_renaming_partial cd c s).2.1
    · intro k hk; exact ((C34_renaming_partial cd c s).2.2.2.1 k hk).1
  · intro c hc hk
    simp only [Store.getChild, applyPrefix]
    rw [if_neg (hno c hk)]
    have : decide (c.length = (p ++ ['/']).length - 1 ∧ c ++ ['/'] = p ++ ['/']) = false := by
      rw [decide_eq_false_iff_not]
      rintro ⟨_, h⟩; exact hc (List.append_cancel_right h)
    rw [this]

/-- `ValueStoreRef::getChild` of a store without child support reads `key/k` of it — for values. -/
theorem C34_ref_child {T} (c : Codec T) [Inhabited T] (s : Store) (hs : s.childSupported = false) (key : Str) :
    ∃ r, s.refChild key = .val r ∧ ∀ k d, r.get c k d = s.get c (key ++ '/' :: k) d := by
  refine ⟨_, by simp only [Store.refChild, hs]; rfl, ?_⟩
  exact (C34_renaming_partial c key s).1

example : (Store.user fun _ => some ['1']).childSupported = false ∧
    (Store.prefixed .remove ['p'] (.user fun k => if k = ['k'] then some ['1'] else none)).get strCodec
      ['p', '/', 'k'] none = .val ['1'] := by
  exact ⟨rfl, by decide⟩

/-! ## C35 -/

/-- the outcome of a getter without default as a call result -/
def ofGet {T} : GetRes T → R T
  | .value v => .val v
  | _ => .threw

/-- **C35** A store over a tree reads exactly the tree; its child `a` reads key `a/k`; a verbose wrapper
reads the same. -/
theorem C35_reads {T} (c : Codec T) [Inhabited T] (t : Tree) {ns : Str} (hns : Namespace ns) :
    (∀ k, (Store.tree t ns).hasKey k = .val (doesKeyExist t ns k)) ∧
    (∀ k, (Store.tree t ns).get c k none = ofGet (Verif.PTree.get c t ns k)) ∧
    (∀ k d, (Store.tree t ns).get c k (some d) = .val (Verif.PTree.getDefault c t ns k d)) ∧
    (∀ a, ∃ r, (Store.tree t ns).getChild a = .val r ∧
      ∀ k, r.hasKey k = (Store.tree t ns).hasKey (joinKey a k) ∧
        r.get c k none = (Store.tree t ns).get c (joinKey a k) none ∧
        ∀ d, r.get c k (some d) = (Store.tree t ns).get c (joinKey a k) (some d)) ∧
    SameReads (.verbose (.tree t ns)) (.tree t ns) := by
  refine ⟨fun k => by simp only [Store.hasKey], ?_, fun k d => by simp only [Store.get, treeGet], ?_, ?_⟩
  · intro k
    simp only [Store.get, treeGet, ofGet]
    cases Verif.PTree.get c t ns k <;> rfl
  · intro a
    refine ⟨.tree t (childNamespace ns a), by simp only [Store.getChild], fun k => ?_⟩
    have h := Verif.PTree.C25_child_get hns a k c t
    have hd : ∀ d, Verif.PTree.getDefault c t (childNamespace ns a) k d =
        Verif.PTree.getDefault c t ns (joinKey a k) d := by
      intro d
      have h := (Verif.PTree.C25_child_views hns a k).2.2.2
      have h1 := (Verif.PTree.C25_qualified (Namespace.child ns a hns) ns k c t).2.1 d
      have h2 := (Verif.PTree.C25_qualified hns ns (joinKey a k) c t).2.1 d
      rw [h] at h1
      exact h1.trans h2.symm
    simp only [Store.hasKey, Store.get, treeGet, h.1, h.2.2, hd, implies_true, and_self]
  · refine ⟨fun k => by simp only [Store.hasKey], ?_⟩
    intro U _ cU k d
    simp only [Store.get, Store.hasKey]
    cases d <;> simp only [R.bind] <;> cases treeGet cU t ns k _ <;> rfl

/-- **C35** `add…(path, v)` on the store (which writes the tree) makes the key exist and readable, through
the store and through any handle to the key; the tree's other entries are unaffected (C26). -/
theorem C35_add {T} (c : Codec T) [Inhabited T] (t : Tree) {ns : Str} (hns : Namespace ns) (k : Str)
    (hk : CleanEnd ns k) (v : T) (hc : c.parse (c.print v) = some v) :
    ∃ t', Verif.PTree.set c t ns k v = some t' ∧ (Store.tree t' ns).hasKey k = .val true ∧
      (∀ d, (Store.tree t' ns).get c k d = .val v) ∧
      ∀ k', CleanEnd ns k' → entryPath ns k' ≠ entryPath ns k → ∀ d,
        doesKeyExist t ns k' = true → (Store.tree t' ns).get c k' d = (Store.tree t ns).get c k' d := by
  obtain ⟨t', h1, h2, _, h3, h4⟩ := Verif.PTree.C26_set_get c t hns k hk v
  have hv : (Store.tree t' ns).get c k none = .val v := by
    simp only [Store.get, treeGet, h3 hc]
  refine ⟨t', h1, by simp only [Store.hasKey, h2], regular_value c (.tree t' ns hns) k v hv, ?_⟩
  intro k' hk' hne d hex
  have hg := (h4 c ns hns k' hk' hne).1 hex
  have he := (h4 c ns hns k' hk' hne).2.2.2 (.inl hex)
  cases d with
  | none => simp only [Store.get, treeGet, hg]
  | some d =>
    have hd : ∀ t'' : Tree, doesKeyExist t'' ns k' = true → Verif.PTree.getDefault c t'' ns k' d =
        (match Verif.PTree.get c t'' ns k' with | .value v => v | _ => d) := by
      intro t'' hx
      unfold Verif.PTree.getDefault Verif.PTree.get
      cases getData t'' (keyPath (qualify ns k')).frags with
      | none => rfl
      | some x => simp only [Option.bind_some]; cases c.parse x <;> rfl
    simp only [Store.get, treeGet, hd t hex, hd t' he, hg]

example : Namespace (rootNamespace []) ∧ CleanEnd (rootNamespace []) ['a', '/', 'b'] ∧
    strCodec.parse (strCodec.print ['v']) = some ['v'] := by
  refine ⟨.root [], by decide, rfl⟩

/-- **C35** The children of a tree store whose namespace contains no dot are the tree's entries below it: a
name is listed iff that key exists, and the first child listed under a name reads key `k` as the store
reads `name/k`. -/
theorem C35_children_partial {T} (c : Codec T) [Inhabited T] (t : Tree) {ns : Str} (hns : Namespace ns) (hdot : '.' ∉ ns)
    (hc : CleanEnd ns []) :
    ((Store.tree t ns).getChildren = .threw ↔ (Store.tree t ns).hasKey [] = .val false) ∧
    ∀ cs, (Store.tree t ns).getChildren = .val cs →
      (∀ k, k ≠ [] → '/' ∉ k → (k ∈ cs.map Prod.fst ↔ (Store.tree t ns).hasKey k = .val true)) ∧
      ∀ pre k s post, cs = pre ++ (k, s) :: post → (∀ x ∈ pre, x.1 ≠ k) → k ≠ [] → '/' ∉ k →
        ∀ r, ¬ isAbsolute r → CleanEnd (rootNamespace []) r →
          s.get c r none = (Store.tree t ns).get c (joinKey k r) none ∧
          s.hasKey r = (Store.tree t ns).hasKey (joinKey k r) := by
  obtain ⟨h1, h2⟩ := Verif.PTree.C71_children_partial hns hdot hc t
  have hroot : rootNamespace [] = ['/'] := by decide
  constructor
  · simp only [Store.getChildren, Store.hasKey, R.val.injEq, ← h1]
    cases Verif.PTree.getChildren t ns <;> simp
  · intro cs hcs
    cases hk : Verif.PTree.getChildren t ns with
    | none => simp [Store.getChildren, hk] at hcs
    | some ks =>
      obtain ⟨_, h3, h4⟩ := h2 ks hk
      simp only [Store.getChildren, hk, R.val.injEq] at hcs
      constructor
      · intro k hk0 hks
        simp only [Store.hasKey, R.val.injEq]
        rw [← h3 k hk0 hks, ← hcs, List.map_map]
        simp [Function.comp_def]
      · intro pre k s post hsp hpre hk0 hks r hr hcr
        rw [hsp, List.map_eq_append_iff] at hcs
        obtain ⟨p1, p2, hp, hp1, hp2⟩ := hcs
        rw [List.map_eq_cons_iff] at hp2
        obtain ⟨⟨k', c'⟩, q, rfl, hq1, hq2⟩ := hp2
        simp only [Prod.mk.injEq] at hq1
        obtain ⟨rfl, rfl⟩ := hq1
        have h5 := h4 p1 k' c' q hp (fun x hx => hpre _ (by rw [← hp1]; exact List.mem_map_of_mem hx)) hk0 hks c r hr hcr
        rw [hroot] at h5
        simp only [Store.get, treeGet, Store.hasKey, h5.1, h5.2, and_self]

example : Namespace (rootNamespace []) ∧ '.' ∉ rootNamespace [] ∧ CleanEnd (rootNamespace []) [] ∧
    (Store.tree (.node [] [(['a'], .node ['1'] [])]) (rootNamespace [])).getChildren ≠ .threw := by
  refine ⟨.root [], by decide, by decide, ?_⟩
  rw [Ne, (C35_children_partial strCodec _ (.root []) (by decide) (by decide)).1]
  simp only [Store.hasKey]
  decide

/-! ## C36 -/

/-- a documented candidate: a path, or a deprecated path with its alert text -/
inductive Cand where
  | plain (p : Str)
  | deprecated (p msg : Str)

/-- how candidates are written in the argument: `p`, or `!p` followed by the message -/
def flat : List Cand → List Str
  | [] => []
  | .plain p :: cs => p :: flat cs
  | .deprecated p m :: cs => ('!' :: p) :: m :: flat cs

def Cand.path : Cand → Str
  | .plain p => p
  | .deprecated p _ => p

def Cand.alert : Cand → Option (Str × Str)
  | .plain _ => none
  | .deprecated p m => some (p, m)

/-- plain paths do not begin with `!` (that is the mark of a deprecated one) -/
def Cand.ok : Cand → Prop
  | .plain p => p.head? ≠ some '!'
  | .deprecated _ _ => True

/-- the documented behaviour -/
def C36_claim : Prop :=
  ∀ (has : Str → Bool) (pre : List Cand) (x : Cand) (post : List Cand),
    (∀ y ∈ pre ++ x :: post, y.ok) → (∀ y ∈ pre, has y.path = false) → has x.path = true →
    findPathAndAlert has (flat (pre ++ x :: post)) = some ⟨x.path, x.alert⟩

/-- **C36** is false: the message of an absent deprecated candidate is itself tried as a path. -/
theorem C36_negation : ¬ C36_claim := by
  intro h
  have := h (fun k => k = ['m'] ∨ k = ['b']) [.deprecated ['a'] ['m']] (.plain ['b']) []
    (by simp [Cand.ok]) (by simp [Cand.path]) (by simp [Cand.path])
  exact absurd this (by decide)

/-- a message that cannot be taken for a candidate -/
def Cand.messageHarmless (has : Str → Bool) : Cand → Prop
  | .plain _ => True
  | .deprecated _ m => has (if m.head? = some '!' then m.tail else m) = false

theorem findLoop_plain (has : Str → Bool) (first p : Str) (rest : List Str) (h : p.head? ≠ some '!') :
    findLoop has first (p :: rest) = if has p then some ⟨p, none⟩ else findLoop has first rest := by
  cases p with
  | nil => rw [findLoop]; intro pp h; cases h
  | cons a p =>
    rw [findLoop]
    rintro pp hp
    cases hp; simp at h

theorem findLoop_harmless (has : Str → Bool) (first m : Str) (rest : List Str)
    (h : (Cand.deprecated [] m).messageHarmless has) :
    findLoop has first (m :: rest) = findLoop has first rest := by
  simp only [Cand.messageHarmless] at h
  by_cases hm : m.head? = some '!'
  · cases m with
    | nil => simp at hm
    | cons a m =>
      simp only [List.head?_cons, Option.some.injEq] at hm
      subst hm
      simp only [List.head?_cons, List.tail_cons, if_true] at h
      simp [findLoop, h]
  · rw [if_neg hm] at h
    rw [findLoop_plain has first m rest hm]; simp [h]

/-- **C36** If no message of an absent candidate before it names an existing key, the first existing
candidate is found and the alert is raised, with its message, exactly if it is deprecated. -/
theorem C36_first_present_partial (has : Str → Bool) (pre : List Cand) (x : Cand) (post : List Cand)
    (hok : ∀ y ∈ pre ++ x :: post, y.ok) (hpre : ∀ y ∈ pre, has y.path = false) (hx : has x.path = true)
    (hm : ∀ y ∈ pre, y.messageHarmless has) :
    findPathAndAlert has (flat (pre ++ x :: post)) = some ⟨x.path, x.alert⟩ := by
  have key : ∀ first, findLoop has first (flat (pre ++ x :: post)) = some ⟨x.path, x.alert⟩ := by
    intro first
    induction pre with
    | nil =>
      cases x with
      | plain p =>
        have : p.head? ≠ some '!' := hok (.plain p) (by simp)
        simp only [List.nil_append, flat, findLoop_plain has first p _ this]
        simp only [Cand.path] at hx
        simp [hx, Cand.path, Cand.alert]
      | deprecated p m =>
        simp only [Cand.path] at hx
        simp [flat, findLoop, hx, Cand.path, Cand.alert]
    | cons y pre ih =>
      have ih' := ih (fun z hz => hok z (by simp at hz ⊢; grind)) (fun z hz => hpre z (by simp [hz]))
        (fun z hz => hm z (by simp [hz]))
      have hy := hpre y (by simp)
      have hmy := hm y (by simp)
      cases y with
      | plain p =>
        have : p.head? ≠ some '!' := hok (.plain p) (by simp)
        simp only [Cand.path] at hy
        simp only [List.cons_append, flat, findLoop_plain has first p _ this, hy]
        simpa using ih'
      | deprecated p m =>
        simp only [Cand.path] at hy
        have hmy' : (Cand.deprecated [] m).messageHarmless has := hmy
        simp only [List.cons_append, flat]
        rw [findLoop]
        simp only [hy, Bool.false_eq_true, if_false]
        rw [findLoop_harmless has first m _ hmy']
        exact ih'
  unfold findPathAndAlert
  rw [key]

/-- **C36** If no candidate exists (and no message names a key), the first string of the argument comes
back, with no alert: the first path, but with its `!` if it is a deprecated one.  An empty argument has no
defined result. -/
theorem C36_fallback_partial (has : Str → Bool) (cs : List Cand) (hok : ∀ y ∈ cs, y.ok)
    (hno : ∀ y ∈ cs, has y.path = false) (hm : ∀ y ∈ cs, y.messageHarmless has) :
    findPathAndAlert has (flat cs) = match cs with
      | [] => none
      | .plain p :: _ => some ⟨p, none⟩
      | .deprecated p _ :: _ => some ⟨'!' :: p, none⟩ := by
  have key : ∀ first, findLoop has first (flat cs) = none := by
    intro first
    induction cs with
    | nil => rfl
    | cons y cs ih =>
      have ih' := ih (fun z hz => hok z (by simp [hz])) (fun z hz => hno z (by simp [hz]))
        (fun z hz => hm z (by simp [hz]))
      have hy := hno y (by simp)
      have hmy := hm y (by simp)
      cases y with
      | plain p =>
        have : p.head? ≠ some '!' := hok (.plain p) (by simp)
        simp only [Cand.path] at hy
        simp only [flat, findLoop_plain has first p _ this, hy]
        simpa using ih'
      | deprecated p m =>
        simp only [Cand.path] at hy
        have hmy' : (Cand.deprecated [] m).messageHarmless has := hmy
        simp only [flat]
        rw [findLoop]
        simp only [hy, Bool.false_eq_true, if_false]
        rw [findLoop_harmless has first m _ hmy']
        exact ih'
  unfold findPathAndAlert
  rw [key]
  cases cs with
  | nil => rfl
  | cons y cs => cases y <;> rfl

/-- Concrete: the new name absent, the old one present. -/
example : findPathAndAlert (fun k => k = ['o', 'l', 'd']) (flat [.plain ['n', 'e', 'w'],
    .deprecated ['o', 'l', 'd'] ['m']]) = some ⟨['o', 'l', 'd'], some (['o', 'l', 'd'], ['m'])⟩ := by decide

/-- a deprecated path given last without message gets a generated one -/
theorem C36_missing_message (has : Str → Bool) (pre : List Cand) (p : Str)
    (hok : ∀ y ∈ pre, y.ok) (hpre : ∀ y ∈ pre, has y.path = false) (hp : has p = true)
    (hm : ∀ y ∈ pre, y.messageHarmless has) :
    ∃ msg, findPathAndAlert has (flat pre ++ ['!' :: p]) = some ⟨p, some (p, msg)⟩ := by
  have key : ∀ first, ∃ msg, findLoop has first (flat pre ++ ['!' :: p]) = some ⟨p, some (p, msg)⟩ := by
    intro first
    induction pre with
    | nil => exact ⟨deprecatedMessage p first, by simp [flat, findLoop, hp]⟩
    | cons y cs ih =>
      obtain ⟨msg, ih'⟩ := ih (fun z hz => hok z (by simp [hz])) (fun z hz => hpre z (by simp [hz]))
        (fun z hz => hm z (by simp [hz]))
      refine ⟨msg, ?_⟩
      have hy := hpre y (by simp)
      have hmy := hm y (by simp)
      cases y with
      | plain q =>
        have : q.head? ≠ some '!' := hok (.plain q) (by simp)
        simp only [Cand.path] at hy
        simp only [flat, List.cons_append, findLoop_plain has first q _ this, hy]
        simpa using ih'
      | deprecated q m =>
        simp only [Cand.path] at hy
        have hmy' : (Cand.deprecated [] m).messageHarmless has := hmy
        simp only [flat, List.cons_append]
        rw [findLoop]
        simp only [hy, Bool.false_eq_true, if_false]
        rw [findLoop_harmless has first m _ hmy']
        exact ih'
  obtain ⟨msg, h⟩ := key ((flat pre ++ ['!' :: p]).headD [])
  exact ⟨msg, by unfold findPathAndAlert; rw [h]⟩

/-! ## C63: a store as a property tree -/

/-- **C63** The property tree view of a store: through the root view, a key reads the store's key of the
same name (with or without a leading slash, one trailing slash dropped); through child view `a`, key `k`
reads the store's `a/k`. -/
theorem C63_as_tree {T} (c : Codec T) [Inhabited T] (s : Store) (k : Str) (d : Option T)
    (hk : ¬ isAbsolute k) (hl : k.getLast? ≠ some '/') :
    asTreeGet c s (rootNamespace []) k d = s.get c k d ∧
    asTreeGet c s (rootNamespace []) ('/' :: k) d = s.get c k d ∧
    asTreeHas s (rootNamespace []) k = s.hasKey k ∧
    (∀ a, ¬ isAbsolute a → a ≠ [] → k ≠ [] →
      asTreeGet c s (childNamespace (rootNamespace []) a) k d = s.get c (joinKey a k) d ∧
      asTreeHas s (childNamespace (rootNamespace []) a) k = s.hasKey (joinKey a k)) := by
  have hroot : rootNamespace [] = ['/'] := by decide
  have hq : ∀ x : Str, ¬ isAbsolute x → x.getLast? ≠ some '/' → translateKey (qualify ['/'] x) = x := by
    intro x h1 h2
    rw [Verif.PTree.qualify_eq, Verif.PTree.absKey_rel h1]
    cases x with
    | nil => simp [translateKey]
    | cons b bs =>
      have : (['/'] ++ b :: bs).getLast? ≠ some '/' := by
        rw [List.getLast?_append]
        rw [List.getLast?_cons] at h2 ⊢
        simpa using h2
      rw [if_neg (fun h => this h.2)]
      simp [translateKey]
  have hq' : translateKey (qualify ['/'] ('/' :: k)) = k := by
    refine Eq.trans ?_ (hq k hk hl)
    congr 1
    rw [Verif.PTree.qualify_eq, Verif.PTree.qualify_eq, Verif.PTree.absKey_rel hk,
      Verif.PTree.absKey_abs (by simp [isAbsolute])]
    rfl
  unfold asTreeGet asTreeHas
  rw [hroot, hq k hk hl, hq']
  refine ⟨rfl, rfl, rfl, fun a ha hane hkne => ?_⟩
  have hns : Namespace ['/'] := hroot ▸ Namespace.root []
  have h := (Verif.PTree.C25_child_views hns a k).2.2.2
  have hj : ¬ isAbsolute (joinKey a k) := by
    unfold joinKey isAbsolute at *
    cases a with
    | nil => exact absurd rfl hane
    | cons b bs => simp only [hk, if_false, hane]; split <;> simpa using ha
  have hjl : (joinKey a k).getLast? ≠ some '/' := by
    unfold joinKey
    rw [if_neg hk, if_neg hane]
    split
    · rw [List.getLast?_append, List.getLast?_eq_some_getLast hkne] 
      rw [List.getLast?_eq_some_getLast hkne] at hl; simpa using hl
    · rw [List.getLast?_append, List.getLast?_cons]
      rw [List.getLast?_eq_some_getLast hkne] at hl ⊢; simpa using hl
  have h2 : qualify (childNamespace ['/'] a) k = qualify ['/'] (joinKey a k) := by
    rw [Verif.PTree.qualify_eq, Verif.PTree.qualify_eq, h]
  rw [h2, hq _ hj hjl]
  exact ⟨rfl, rfl⟩

example : ¬ isAbsolute ['a', '/', 'b'] ∧ ['a', '/', 'b'].getLast? ≠ some '/' ∧
    asTreeGet strCodec (.user fun k => if k = ['a', '/', 'b'] then some ['1'] else none)
      (childNamespace (rootNamespace []) ['a']) ['b'] none = .val ['1'] := by
  refine ⟨by decide, by decide, by decide⟩

end Verif.ValueStore
