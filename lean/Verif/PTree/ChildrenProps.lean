import Verif.PTree.Props

/-!
# C71: the children a view lists

The C++ function asks for the last character of the empty string when the view is the root view
(`k.back()`, BoostPropertyTreeImplementation.cpp:266), which the standard leaves undefined; the model takes
the answer "not a slash" there.
-/

namespace Verif.PTree

theorem splitOn_slashToDot (s : Str) (h : '.' ∉ s) : (slashToDot s).splitOn '.' = s.splitOn '/' := by
  induction s with
  | nil => simp [slashToDot]
  | cons a s ih =>
    simp only [List.mem_cons, not_or] at h
    have ih := ih h.2
    have e : slashToDot (a :: s) = (if a = '/' then '.' else a) :: slashToDot s := rfl
    rw [e, List.splitOn_cons_eq_if_modifyHead, List.splitOn_cons_eq_if_modifyHead, ih]
    by_cases ha : a = '/'
    · simp [ha]
    · have : a ≠ '.' := fun h' => h.1 h'.symm
      simp [ha, this]

theorem names_slashToDot (s : Str) (h : '.' ∉ s) : names '.' (slashToDot s) = names '/' s := by
  unfold names; rw [splitOn_slashToDot s h]

/-- the path of a view's own node -/
theorem entryPath_nil {ns : Str} (hns : Namespace ns) : entryPath ns [] = names '/' ns.tail := by
  rw [C25_below_namespace hns [] (by simp [isAbsolute])]; simp [names]

theorem getChildren_eq {ns : Str} (hns : Namespace ns) (hdot : '.' ∉ ns) (hc : CleanEnd ns []) (t : Tree) :
    getChildren t ns = (getChild t (names '/' ns.tail)).map Tree.kids := by
  obtain ⟨h1, h2⟩ := namespace_slashes hns
  unfold CleanEnd at hc
  rw [absKey_rel (by simp [isAbsolute]), List.append_nil] at hc
  unfold getChildren
  simp only [h1, if_true]
  cases ns with
  | nil => simp at h1
  | cons a m =>
    simp at h1; subst h1
    simp only [List.tail_cons]
    rcases concat_cases m with rfl | ⟨y, c, rfl⟩
    · simp [names]
    · have : c = '/' := by
        rw [← List.cons_append, List.getLast?_concat] at h2; simpa using h2
      subst this
      simp only [List.getLast?_concat, if_true, List.dropLast_concat]
      have hy : y ≠ [] := by
        rintro rfl; exact hc (by simp)
      have hy2 : y.getLast? ≠ some '/' := by
        intro h
        rcases concat_cases y with rfl | ⟨z, d, rfl⟩
        · simp at h
        · simp at h; subst h
          exact hc ⟨'/' :: z, by simp⟩
      rw [if_neg hy, mkPath]
      simp only [reduceAll_eq]
      have hd : '.' ∉ y := fun h => hdot (by simp [h])
      rw [names_slashToDot y hd, show y ++ ['/'] = y ++ '/' :: [] from rfl, names_append,
        splitOn_eq_names _ _ hy hy2]
      simp [names]

theorem getChild_append (t : Tree) (p q : List Key) :
    getChild t (p ++ q) = (getChild t p).bind fun c => getChild c q := by
  induction p generalizing t with
  | nil => rfl
  | cons a p ih =>
    rw [List.cons_append, getChild_cons, getChild_cons]
    cases findKid t.kids a with
    | none => rfl
    | some c => exact ih c

theorem findKid_isSome (ks : List (Key × Tree)) (k : Key) : (findKid ks k).isSome ↔ ∃ c, (k, c) ∈ ks := by
  induction ks with
  | nil => simp [findKid]
  | cons a ks ih =>
    obtain ⟨x, u⟩ := a
    unfold findKid
    by_cases h : k = x
    · subst h; simp
    · simp [h, ih]

theorem names_join {k r : Str} (hs : '/' ∉ k) : names '/' (k ++ '/' :: r) = k :: names '/' r := by
  rw [names_append, List.splitOn_eq_singleton hs]; rfl

theorem last_not_slash {k : Str} (hs : '/' ∉ k) : k.getLast? ≠ some '/' := by
  intro h
  obtain ⟨l, hl⟩ := List.getLast?_eq_some_iff.1 h
  exact hs (by rw [hl]; simp)

/-- **C71** Through a view whose namespace contains no dot (and does not end in two slashes), `getChildren`
throws exactly if the view's own entry does not exist; otherwise it lists the children of that entry, all of
them and in order: a name is listed iff the entry `name` exists below the view, and the first child listed
under a name reads, at its own root view, exactly as `name/…` reads through this view. -/
theorem C71_children_partial {ns : Str} (hns : Namespace ns) (hdot : '.' ∉ ns) (hc : CleanEnd ns []) (t : Tree) :
    (getChildren t ns = none ↔ doesKeyExist t ns [] = false) ∧
    ∀ ks, getChildren t ns = some ks →
      (∃ n, getChild t (entryPath ns []) = some n ∧ ks = n.kids) ∧
      (∀ k, k ≠ [] → '/' ∉ k → ((∃ c, (k, c) ∈ ks) ↔ doesKeyExist t ns k = true)) ∧
      ∀ pre k c post, ks = pre ++ (k, c) :: post → (∀ x ∈ pre, x.1 ≠ k) → k ≠ [] → '/' ∉ k →
        ∀ {T} (cd : Codec T) (r : Str), ¬ isAbsolute r → CleanEnd (rootNamespace []) r →
          get cd c (rootNamespace []) r = get cd t ns (joinKey k r) ∧
          doesKeyExist c (rootNamespace []) r = doesKeyExist t ns (joinKey k r) := by
  rw [getChildren_eq hns hdot hc, doesKeyExist_eq hns [] hc, entryPath_nil hns]
  constructor
  · cases h : getChild t (names '/' ns.tail) <;> simp [getData, h]
  · intro ks hks
    cases hn : getChild t (names '/' ns.tail) with
    | none => rw [hn] at hks; simp at hks
    | some n =>
      rw [hn] at hks
      have hks : n.kids = ks := by simpa using hks
      refine ⟨⟨n, rfl, hks.symm⟩, ?_, ?_⟩
      · intro k hk hs
        have hrel : ¬ isAbsolute k := by
          unfold isAbsolute
          cases k with
          | nil => simp
          | cons a as => simp at hs ⊢; exact fun h => hs.1 h.symm
        have hck : CleanEnd ns k := by
          unfold CleanEnd
          rw [absKey_rel hrel]
          rintro ⟨l, hl⟩
          have := congrArg List.getLast? hl
          rw [List.getLast?_append, List.getLast?_append, List.getLast?_eq_some_getLast hk] at this
          have h2 := last_not_slash hs
          rw [List.getLast?_eq_some_getLast hk] at h2
          simp at this; exact h2 (by rw [this])
        rw [doesKeyExist_eq hns k hck, C25_below_namespace hns k hrel, names_single '/' k hk hs, getData,
          getChild_append, hn, Option.bind_some, getChild_cons, hks, ← findKid_isSome]
        cases findKid ks k <;> simp
      · intro pre k c post hsplit hpre hk hs T cd r hr hcr
        have hfind : findKid ks k = some c := by
          rw [hsplit]
          clear hsplit
          induction pre with
          | nil => simp [findKid]
          | cons a pre ih =>
            obtain ⟨x, u⟩ := a
            have : k ≠ x := fun h => hpre (x, u) (by simp) h.symm
            rw [List.cons_append, findKid, if_neg this]
            exact ih fun y hy => hpre y (by simp [hy])
        have hk' : ¬ isAbsolute k := by
          unfold isAbsolute
          cases k with
          | nil => simp
          | cons a as => simp at hs ⊢; exact fun h => hs.1 h.symm
        have hj : joinKey k r = k ++ '/' :: r := by
          unfold joinKey
          rw [if_neg hr, if_neg hk, if_neg (last_not_slash hs)]
        have hjr : ¬ isAbsolute (joinKey k r) := by
          rw [hj]; unfold isAbsolute at *
          cases k with
          | nil => exact absurd rfl hk
          | cons a as => simpa using hk'
        have hjc : CleanEnd ns (joinKey k r) := by
          unfold CleanEnd
          rw [absKey_rel hjr, hj]
          rintro ⟨l, hl⟩
          unfold CleanEnd at hcr
          rw [absKey_rel hr] at hcr
          apply hcr
          have hroot : rootNamespace [] = ['/'] := by decide
          rw [hroot]
          rcases concat_cases r with rfl | ⟨y, d, rfl⟩
          · exfalso
            have e : ns ++ (k ++ '/' :: []) = (ns ++ k) ++ ['/'] := by simp
            rw [e, show l ++ ['/', '/'] = (l ++ ['/']) ++ ['/'] by simp] at hl
            have h3 := List.append_inj_left' hl rfl
            have := congrArg List.getLast? h3
            rw [List.getLast?_append, List.getLast?_append, List.getLast?_eq_some_getLast hk] at this
            have h2 := last_not_slash hs
            rw [List.getLast?_eq_some_getLast hk] at h2
            simp at this; exact h2 (by rw [this])
          · rcases concat_cases y with rfl | ⟨z, e, rfl⟩
            · have e : ns ++ (k ++ '/' :: ([] ++ [d])) = (ns ++ k) ++ ['/', d] := by simp
              rw [e] at hl
              have := List.append_inj_right' hl rfl
              exact ⟨[], by simpa using this⟩
            · have e' : ns ++ (k ++ '/' :: (z ++ [e] ++ [d])) = (ns ++ k ++ '/' :: z) ++ [e, d] := by simp
              rw [e'] at hl
              have := List.append_inj_right' hl rfl
              exact ⟨'/' :: z, by simp at this ⊢; exact this⟩
        have hroot : names '/' (rootNamespace []).tail = [] := by
          rw [← reduceAll_eq]; decide
        have hpath : ∀ p, getData c p = getData t (names '/' ns.tail ++ k :: p) := by
          intro p
          simp only [getData]
          rw [getChild_append, hn, Option.bind_some, getChild_cons, hks, hfind]
          rfl
        rw [get_eq cd (.root []) r hcr, get_eq cd hns _ hjc, doesKeyExist_eq (.root []) r hcr,
          doesKeyExist_eq hns _ hjc, C25_below_namespace (.root []) r hr, C25_below_namespace hns _ hjr,
          hroot, hj, names_join hs, List.nil_append, hpath]
        exact ⟨rfl, rfl⟩

/-- Concrete: a view `/cam/` on a tree with two children below `cam`. -/
example : Namespace (childNamespace (rootNamespace []) ['c', 'a', 'm']) ∧
    '.' ∉ childNamespace (rootNamespace []) ['c', 'a', 'm'] ∧
    CleanEnd (childNamespace (rootNamespace []) ['c', 'a', 'm']) [] ∧
    (getChildren (.node [] [(['c', 'a', 'm'], .node [] [(['w'], .node ['1'] []), (['h'], .node ['2'] [])])])
      (childNamespace (rootNamespace []) ['c', 'a', 'm'])).map (List.map Prod.fst) = some [['w'], ['h']] := by
  refine ⟨.child _ _ (.root _), by decide, by decide, by decide⟩

/-- the claim for every view -/
def C71_claim : Prop :=
  ∀ (ns : Str) (_ : Namespace ns) (t : Tree), CleanEnd ns [] → doesKeyExist t ns [] = true →
    getChildren t ns ≠ none

/-- **C71** fails for views whose namespace contains a dot: the entry exists, values below it can be read, but
`getChildren` looks for another path and throws. -/
theorem C71_negation : ¬ C71_claim := by
  intro h
  exact h (childNamespace (rootNamespace []) ['a', '.', 'b']) (.child _ _ (.root _))
    (.node [] [(['a', '.', 'b'], .node [] [(['k'], .node ['1'] [])])]) (by decide) (by decide) (by decide)

end Verif.PTree
