import Verif.Python.VsSet
import Verif.ValueStore.VerboseProps

/-!
# C111: setting values of value stores from Python
-/

namespace Verif.Python

open Verif.PTree (Str Namespace CleanEnd strCodec)
open Verif.ValueStore

/-- **C111** (claim) `store.set(key, value)` sets the value: afterwards the key exists and the getter for the value's type gives it. -/
def C111_claim : Prop := ∀ (T : Type) (_ : Inhabited T) (K : Kind T) (h : Heap) (s : HStore) (i : Nat) (ns : Str) (l : List (Nat × Str)) (p : Str) (v : T), s.Over i ns l → Namespace ns →
  CleanEnd ns p → K.codec.parse (K.codec.print v) = some v →
  ∃ h', pyStore K true h s p v true false = .done h' ∧ (s.at h').get K.codec p none = .val v

theorem over_ok {s : HStore} {i : Nat} {ns : Str} {l : List (Nat × Str)} (hs : s.Over i ns l) (hn : Namespace ns) : s.Ok := by
  induction hs with
  | tree i ns => exact .tree i ns hn
  | verboseExt k t s i ns l _ ih => exact .verboseExt k t s (ih hn)

theorem over_has {s : HStore} {i : Nat} {ns : Str} {l : List (Nat × Str)} (hs : s.Over i ns l) (h : Heap) (p : Str) :
    (s.at h).hasKey p = .val (Verif.PTree.doesKeyExist (h.trees i) ns p) := by
  induction hs with
  | tree i ns => simp only [HStore.at, Store.hasKey]
  | verboseExt k t s i ns l _ ih => simp only [HStore.at, Store.hasKey, ih]

theorem over_get {T} (K : Kind T) [Inhabited T] {s : HStore} {i : Nat} {ns : Str} {l : List (Nat × Str)} (hs : s.Over i ns l) (h : Heap) (p : Str) :
    (s.at h).get K.codec p none = treeGet K.codec (h.trees i) ns p none := by
  induction hs with
  | tree i ns => simp only [HStore.at, Store.get]
  | verboseExt k t s i ns l _ ih =>
    simp only [HStore.at, Store.get, ih]
    cases treeGet K.codec (h.trees i) ns p none <;> rfl

theorem pySet_eq {T} (K : Kind T) [Inhabited T] (nd : Bool) (h : Heap) {s : HStore} (hs : s.Ok) (p : Str) (v : T)
    (hv : K.codec.parse (K.codec.print v) = some v) :
    (∀ w, (s.at h).get K.codec p none = .val w → ∃ h', pySet K nd h s p v = .done h' ∧ (s.at h').get K.codec p none = .val v ∧
      ∀ (r : HStore) k, (r.at h').hasKey k = (r.at h).hasKey k) ∧
    ((s.at h).get K.codec p none = .threw → pySet K nd h s p v = .raised) := by
  have hr := C107_reads K h s p none
  constructor
  · intro w hw
    rw [← hr.1] at hw
    obtain ⟨hd, e, -⟩ := bind_val hw
    obtain ⟨-, h', h1, -, h3, h4, -⟩ := C107_update_partial K nd h s p hd v hs e hv
    exact ⟨h', by simp only [pySet, e, h1], h3, h4⟩
  · intro hw
    rw [← hr.1] at hw
    unfold pySet
    cases e : (s.handle K h p none).1 with
    | val hd =>
      obtain ⟨w, hw', -⟩ := hr.2 hd e
      rw [e] at hw
      simp only [R.bind, hw'] at hw
      cases hw
    | threw => rfl
    | ub => rw [e] at hw; cases hw

/-- **C111** exactly: a missing key is added; an existing key is replaced if its present value can be read with the type of the new one, and else an exception is
raised; with `force_add` it is always written.  With `add_if_missing=False` a missing key raises (whatever `force_add` is). -/
theorem C111_store_partial {T} (K : Kind T) [Inhabited T] (nd : Bool) (h : Heap) {s : HStore} {i : Nat} {ns : Str} {l : List (Nat × Str)} (hs : s.Over i ns l) (hn : Namespace ns) (p : Str)
    (hc : CleanEnd ns p) (v : T) (hv : K.codec.parse (K.codec.print v) = some v) :
    ((s.at h).hasKey p = .val false → ∀ f, ∃ h', pyStore K nd h s p v true f = .done h' ∧ (s.at h').get K.codec p none = .val v) ∧
    (∃ h', pyStore K nd h s p v true true = .done h' ∧ (s.at h').get K.codec p none = .val v) ∧
    (∀ w, (s.at h).get K.codec p none = .val w → ∀ a f, ∃ h', pyStore K nd h s p v a f = .done h' ∧ (s.at h').get K.codec p none = .val v) ∧
    ((s.at h).get K.codec p none = .threw → (s.at h).hasKey p = .val true → ∀ a, pyStore K nd h s p v a false = .raised) ∧
    ((s.at h).hasKey p = .val false → ∀ f, pyStore K nd h s p v false f = .raised) := by
  have ok := over_ok hs hn
  have hadd : ∃ h', pyAddKey K h s p v = .done h' ∧ (s.at h').get K.codec p none = .val v := by
    obtain ⟨-, h', h1, h2, -⟩ := C110_add K h hs hn p hc v hv
    exact ⟨h', by simp only [pyAddKey, h1], h2⟩
  have hset := pySet_eq K nd h ok p v hv
  have habs : (s.at h).hasKey p = .val false → (s.at h).get K.codec p none = .threw := by
    intro e
    rw [over_has hs h p, R.val.injEq, doesKeyExist_iff hn] at e
    rw [over_get K hs h p]
    simp only [treeGet, Verif.PTree.get]
    cases hg : Verif.PTree.getData (h.trees i) (Verif.PTree.keyPath (Verif.PTree.qualify ns p)).frags with
    | none => rfl
    | some x => rw [hg] at e; cases e
  refine ⟨?_, ?_, ?_, ?_, ?_⟩
  · intro e f
    simp only [pyStore, if_true, hasKey_at, e, Bool.not_false, Bool.true_or]
    exact hadd
  · simp only [pyStore, if_true, hasKey_at, over_has hs h p, Bool.or_true]
    exact hadd
  · intro w hw a f
    obtain ⟨h', h1, h2, -⟩ := hset.1 w hw
    cases a with
    | false => exact ⟨h', by simp [pyStore, h1], h2⟩
    | true =>
      simp only [pyStore, if_true, hasKey_at, over_has hs h p]
      cases (Verif.PTree.doesKeyExist (h.trees i) ns p) <;> cases f <;> simp only [Bool.not_true, Bool.not_false, Bool.or_true, Bool.or_false, if_true, Bool.false_eq_true, if_false]
      · exact hadd
      · exact hadd
      · exact ⟨h', h1, h2⟩
      · exact hadd
  · intro e ek a
    cases a with
    | false => simp [pyStore, hset.2 e]
    | true => simp [pyStore, hasKey_at, ek, hset.2 e]
  · intro e f
    simp [pyStore, hset.2 (habs e)]

/-- **C111** the type decides: text, flags, whole numbers and floating point numbers are stored as such (a flag is not stored as a number); whole numbers outside the range of `int`
raise; values of other types are ignored without an exception. -/
theorem C111_types_partial {D : Type} [Inhabited D] (Ks : Kinds D) (nd : Bool) (h : Heap) (s : HStore) (p : Str) (a f : Bool) :
    (∀ x, pySetValue Ks nd h s p (.str x) a f = pyStore Ks.s nd h s p x a f) ∧
    (∀ x, pySetValue Ks nd h s p (.bool x) a f = pyStore Ks.b nd h s p x a f) ∧
    (∀ x, pySetValue Ks nd h s p (.float x) a f = pyStore Ks.d nd h s p x a f) ∧
    (∀ n, -2 ^ 31 ≤ n → n < 2 ^ 31 → pySetValue Ks nd h s p (.int n) a f = pyStore Ks.i nd h s p n a f) ∧
    (∀ n, n < -2 ^ 31 ∨ 2 ^ 31 ≤ n → a = false ∨ (s.hasKey h p).1 ≠ .ub → pySetValue Ks nd h s p (.int n) a f = .raised) ∧
    (∀ n, n < -2 ^ 31 ∨ 2 ^ 31 ≤ n → ∀ h', pySetValue Ks nd h s p (.int n) a f ≠ .done h') ∧
    pySetValue Ks nd h s p .other a f = .ignored := by
  refine ⟨fun _ => rfl, fun _ => rfl, fun _ => rfl, ?_, ?_, ?_, rfl⟩
  · intro n h1 h2
    simp only [pySetValue]
    rw [if_pos ⟨by omega, by omega⟩]
  · intro n hn ha
    simp only [pySetValue]
    rw [if_neg (by omega)]
    split
    · rename_i ht
      split
      · rfl
      · rfl
      · rename_i hu
        rcases ha with ha | ha
        · rw [ha] at ht; cases ht
        · exact absurd hu ha
    · rfl
  · intro n hn h' e
    simp only [pySetValue] at e
    rw [if_neg (by omega)] at e
    split at e
    · split at e <;> cases e
    · cases e

/-- **C111** a key with the text `x` cannot be set to a flag: an exception, and the text stays. -/
theorem C111_negation : ¬ C111_claim := by
  intro H
  obtain ⟨h', h1, -⟩ := H Bool inferInstance boolKind ⟨fun _ => treeA ['x'], 1⟩ (.tree 0 ['/']) 0 ['/'] [] ['a'] true (.tree 0 ['/']) (.root []) (by decide) (by decide)
  have h2 := (C111_store_partial boolKind true ⟨fun _ => treeA ['x'], 1⟩ (.tree 0 ['/']) (.root []) ['a'] (by decide) true (by decide)).2.2.2.1
    (by simp only [HStore.at, Store.get]; decide) (by simp only [HStore.at, Store.hasKey]; decide) true
  rw [h2] at h1
  cases h1

/-- Concrete: setting the text `a` of a tree from `1` to `2`, and a new key. -/
example : (∃ h', pyStore strKind true heapA (.tree 0 ['/']) ['a'] ['2'] true false = .done h' ∧ ((HStore.tree 0 ['/']).at h').get strCodec ['a'] none = .val ['2']) ∧
    (∃ h', pyStore strKind true heapA (.tree 0 ['/']) ['b'] ['2'] true false = .done h' ∧ ((HStore.tree 0 ['/']).at h').get strCodec ['b'] none = .val ['2']) := by
  constructor
  · exact (C111_store_partial strKind true heapA (.tree 0 ['/']) (.root []) ['a'] (by decide) ['2'] rfl).2.2.1 ['1']
      (by simp only [HStore.at, Store.get]; decide) true false
  · exact (C111_store_partial strKind true heapA (.tree 0 ['/']) (.root []) ['b'] (by decide) ['2'] rfl).1
      (by simp only [HStore.at, Store.hasKey]; decide) false

end Verif.Python
