import Verif.PTree.Update

/-!
# C28: `update` merges one tree into another
-/

namespace Verif.PTree

/-- **C28** For a source whose keys boost can address, `update(src, true, ignoreEmpty)` succeeds, and
afterwards every transferred entry of `src` reads as in `src`, every other entry of the destination keeps
its value, and nothing else exists except (empty) ancestors of transferred entries.  Doing it again
changes nothing at all. -/
theorem C28_merge_partial (dest src : Tree) (hg : GoodKeys src) (ie : Bool) :
    ∃ t', update dest src true ie = .ok t' ∧
      (∀ p d, Transfers src ie p d → getData t' p = some d) ∧
      (∀ p, (∀ d, ¬ Transfers src ie p d) →
        (∀ x, getData dest p = some x → getData t' p = some x) ∧
        (getData dest p = none → (∃ q d, Transfers src ie q d ∧ p <+: q) → getData t' p = some []) ∧
        (getData dest p = none → (¬ ∃ q d, Transfers src ie q d ∧ p <+: q) → getData t' p = none)) ∧
      update t' src true ie = .ok t' := by
  refine ⟨_, by rw [update_eq dest src hg, updF_create], ?_⟩
  have hL : ∀ p d d', (p, d) ∈ writes ie (travF [] src) → (p, d') ∈ writes ie (travF [] src) → d = d' := by
    intro p d d' h h'
    rw [mem_writes hg] at h h'
    have := h.1.symm.trans h'.1
    simpa using this
  have hf := foldl_getData _ hL dest
  simp only [mem_writes hg] at hf
  refine ⟨fun p => (hf p).1, fun p => (hf p).2, ?_⟩
  rw [update_eq _ src hg, updF_create, foldl_same]
  intro p d h
  rw [mem_writes hg] at h
  exact (hf p).1 d h

/-- **C28** in its plain form (blanks are transferred too, the default): the merged tree has the value of
`src` where `src` has one, and otherwise the destination's. -/
theorem C28_plain_partial (dest src : Tree) (hg : GoodKeys src) :
    ∃ t', update dest src true false = .ok t' ∧
      ∀ p, getData t' p = (getData src p).or (getData dest p) := by
  obtain ⟨t', h1, h2, h3, _⟩ := C28_merge_partial dest src hg false
  refine ⟨t', h1, fun p => ?_⟩
  have hT : ∀ q d, Transfers src false q d ↔ getData src q = some d := by
    intro q d; simp [Transfers]
  simp only [hT] at h2 h3
  cases hs : getData src p with
  | some d => simp [h2 p d hs]
  | none =>
    have h3 := h3 p (fun d h => by simp [hs] at h)
    cases hd : getData dest p with
    | some x => simp [h3.1 x hd]
    | none =>
      refine (h3.2.2 hd ?_).trans rfl
      rintro ⟨q, d, hq, hp⟩
      have := getData_prefix q p hp src (by simp [hq])
      simp [hs] at this

/-- **C28** With `createIfNecessary = false`: if the destination has every transferred entry, the update
succeeds, the transferred entries read as in `src`, all others are untouched and no entry was added;
otherwise it throws, and no entry was added by the writes made before. -/
theorem C28_update_only_partial (dest src : Tree) (hg : GoodKeys src) (ie : Bool) :
    ((∀ p d, Transfers src ie p d → (getData dest p).isSome = true) →
      ∃ t', update dest src false ie = .ok t' ∧
        (∀ p d, Transfers src ie p d → getData t' p = some d) ∧
        (∀ p, (∀ d, ¬ Transfers src ie p d) → getData t' p = getData dest p) ∧
        (∀ p, (getData t' p).isSome = (getData dest p).isSome)) ∧
    ((∃ p d, Transfers src ie p d ∧ getData dest p = none) →
      ∃ t', update dest src false ie = .threw t' ∧
        ∀ p, (getData t' p).isSome = (getData dest p).isSome) := by
  have hL : ∀ p d d', (p, d) ∈ writes ie (travF [] src) → (p, d') ∈ writes ie (travF [] src) → d = d' := by
    intro p d d' h h'
    rw [mem_writes hg] at h h'
    have := h.1.symm.trans h'.1
    simpa using this
  have hf := foldl_getData _ hL dest
  have hu := updF_update ie (travF [] src) dest
  simp only [mem_writes hg] at hf hu
  rw [update_eq _ src hg]
  refine ⟨fun hall => ?_, hu.2⟩
  obtain ⟨h1, h2⟩ := hu.1 hall
  refine ⟨_, h1, fun p => (hf p).1, fun p hp => ?_, h2⟩
  cases hd : getData dest p with
  | some x => exact ((hf p).2 hp).1 x hd
  | none =>
    have := h2 p
    rw [hd] at this
    simpa using this

/-- a concrete pair of trees satisfying the hypotheses, where the merge both overwrites, keeps and adds -/
example :
    GoodKeys (.node [] [("a".toList, .node "1".toList [("x".toList, .node "2".toList [])])]) ∧
    (∃ t', update (.node [] [("a".toList, .node "0".toList [("y".toList, .node "9".toList [])])])
        (.node [] [("a".toList, .node "1".toList [("x".toList, .node "2".toList [])])]) true false = .ok t' ∧
      getData t' ["a".toList] = some "1".toList ∧
      getData t' ["a".toList, "x".toList] = some "2".toList ∧
      getData t' ["a".toList, "y".toList] = some "9".toList) := by
  refine ⟨?_, ⟨_, rfl, ?_, ?_, ?_⟩⟩
  · simp [GoodKeys, GoodKids]
  · decide
  · decide
  · decide

/-- The unrestricted claim: for every source, merging makes every entry of the source readable at its
place with its value. -/
def C28_claim : Prop := ∀ dest src : Tree, ∃ t', update dest src true false = .ok t' ∧
  ∀ p d, getData src p = some d → getData t' p = some d

/-- **C28 is false as stated**: for keys that are empty (such as the elements of a JSON array) the
destination path of the element is that of its parent, so the element is lost. -/
theorem C28_negation : ¬ C28_claim := by
  intro h
  obtain ⟨t', h1, h2⟩ := h .empty (.node [] [("a".toList, .node [] [([], .node "1".toList [])])])
  have hu : update .empty (.node [] [("a".toList, .node [] [([], .node "1".toList [])])]) true false =
      .ok (.node [] [("a".toList, .node "1".toList [])]) := rfl
  rw [hu] at h1
  cases h1
  have := h2 ["a".toList, []] "1".toList (by decide)
  revert this
  decide

/-- … and a key containing `.` is written to the nested path instead (the classic `0.5` key). -/
theorem C28_dotted_key : ∃ dest src : Tree, update dest src true false =
      .ok (.node [] [("a".toList, .node [] [("b".toList, .node "1".toList [])])]) ∧
    getData src ["a.b".toList] = some "1".toList ∧ getData src ["a".toList, "b".toList] = none :=
  ⟨.empty, .node [] [("a.b".toList, .node "1".toList [])], rfl, by decide, by decide⟩

end Verif.PTree
