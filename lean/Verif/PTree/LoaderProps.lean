import Verif.PTree.LoaderLemmas

/-!
# C30–C32: loading configuration files with parents, and search paths
-/

namespace Verif.PTree.Loader

open Verif.PTree

attribute [local irreducible] parentsOf readParents update splitComma isUpdateOnly resolve bareName

/-! ## C30 -/

/-- a finite file system: the readable files and what they contain -/
abbrev Files := List (Str × Tree)

def Files.load (F : Files) (path : Str) : Option Tree := (F.find? (fun e => e.1 = path)).map Prod.snd

/-- all file names that can ever be asked for -/
def allNames (F : Files) (files : List Str) : List Str :=
  files ++ F.flatMap (fun e => splitComma (parentsOf e.2))

/-- **C30** For every finite set of files — whatever their `parents` say, cycles included — every list
of names and every search path configuration, loading ends: from some recursion depth on (no more than
the number of names that occur) the outcome is a definite one and does not depend on the depth allowed. -/
theorem C30_terminates (E : Env) (F : Files) (files : List Str) :
    ∃ r, r ≠ Res.outOfFuel ∧ ∀ fuel, (allNames F files).length ≤ fuel → readAll E F.load fuel files = r := by
  have hU : ∀ path t, F.load path = some t → ∀ n ∈ splitComma (parentsOf t), n ∈ allNames F files := by
    intro path t h n hn
    unfold Files.load at h
    simp only [Option.map_eq_some_iff] at h
    obtain ⟨e, he, rfl⟩ := h
    refine List.mem_append.2 (.inr (List.mem_flatMap.2 ⟨e, List.mem_of_find?_eq_some he, hn⟩))
  have h1 : readAll E F.load (allNames F files).length files ≠ .outOfFuel := by
    refine readList_fuel _ (allNames F files) _ (loadFile_grows E F.load _) (loadFile_fuel E F.load _ hU _) [] files _
      (fun f hf => List.mem_append.2 (.inl hf)) ?_
    unfold unseen
    exact List.length_filter_le _ _
  refine ⟨_, h1, fun fuel hf => ?_⟩
  obtain ⟨k, rfl⟩ := Nat.exists_eq_add_of_le hf
  exact readAll_mono E F.load files _ h1 k

/-- **C30** No file name is opened twice, whether loading ends normally or by an exception. -/
theorem C30_loaded_once (E : Env) (load : Str → Option Tree) (fuel : Nat) (files : List Str) :
    ∀ st, readAll E load fuel files = .ok st ∨ readAll E load fuel files = .threw st → st.loads.Nodup := by
  have h := readAll_inv E load (fun st => st.loads.Nodup ∧ ∀ n ∈ st.loads, n ∈ st.ignore)
    (fun st => st.loads.Nodup ∧ ∀ n ∈ st.loads, n ∈ st.ignore)
    (by
      rintro st f _ hf ⟨h1, h2⟩
      simp only [List.mem_append, List.mem_singleton, List.mem_cons]
      refine ⟨?_, ?_⟩
      · rw [List.nodup_append]
        refine ⟨h1, by simp, ?_⟩
        rintro a ha b hb rfl
        simp at hb
        exact hf (hb ▸ h2 _ ha)
      · rintro n (hn | hn)
        · exact .inr (h2 n hn)
        · exact .inl (by simpa using hn))
    (by
      intro st f rel t _ h
      unfold updateOrSet
      simp only
      split
      · split
        · exact h
        · exact h
        · trivial
      · exact h)
    (fun _ h => h) (by simp) fuel files
  rintro st (he | he) <;> rw [he] at h <;> exact h.1

/-! ## C31 -/

/-- the value of an entry in the last file of the list that has it -/
def lastValue (done : List Merged) (p : List Key) : Option Str :=
  done.reverse.findSome? (fun m => getData m.tree p)

theorem lastValue_snoc (done : List Merged) (m : Merged) (p : List Key) :
    lastValue (done ++ [m]) p = (getData m.tree p).or (lastValue done p) := by
  unfold lastValue
  rw [List.reverse_append, List.reverse_singleton, List.singleton_append, List.findSome?_cons]
  cases getData m.tree p <;> rfl

theorem lastValue_isSome (done : List Merged) (p : List Key) :
    (lastValue done p).isSome = true ↔ ∃ m ∈ done, (getData m.tree p).isSome = true := by
  unfold lastValue
  simp [List.findSome?_isSome_iff]

/-- what holds after merging the files of `st.done` in that order -/
structure Merging (E : Env) (load : Str → Option Tree) (st : St) : Prop where
  set_iff : st.confIsSet = true ↔ st.done ≠ []
  value : ∀ p, p ≠ [parentsKey] → st.done ≠ [] → getData st.pt p = lastValue st.done p
  parents : st.done ≠ [] → (getData st.pt [parentsKey]).isSome = true
  marked : ∀ d1 m d2, st.done = d1 ++ m :: d2 → m.updateOnly = true → d1 ≠ [] →
    ∀ p, (getData m.tree p).isSome = true → p ≠ [parentsKey] → ∃ m' ∈ d1, (getData m'.tree p).isSome = true
  real : ∀ m ∈ st.done, m.updateOnly = isUpdateOnly m.name ∧
    ∃ rel, load (resolve E (bareName m.name) rel) = some m.tree

theorem merging_step (E : Env) (load : Str → Option Tree) (hg : ∀ path t, load path = some t → GoodKeys t)
    (st : St) (f rel : Str) (t : Tree) (ht : load (resolve E (bareName f) rel) = some t) (hm : Merging E load st) :
    (updateOrSet st f t).Holds (Merging E load) (fun _ => True) := by
  have hgood := readParents_good t (hg _ _ ht)
  have key : ∀ (pt : Tree) (st' : St), st'.pt = pt → st'.confIsSet = true →
      st'.done = st.done ++ [⟨f, t, isUpdateOnly f⟩] →
      (∀ p, p ≠ [parentsKey] → getData pt p = (getData t p).or (lastValue st.done p)) →
      (getData pt [parentsKey]).isSome = true →
      (isUpdateOnly f = true → st.done ≠ [] → ∀ p, (getData t p).isSome = true → p ≠ [parentsKey] →
        ∃ m' ∈ st.done, (getData m'.tree p).isSome = true) → Merging E load st' := by
    intro pt st' h1 h2 h3 h4 h5 h6
    refine ⟨by simp [h2, h3], ?_, ?_, ?_, ?_⟩
    · intro p hp _
      rw [h1, h3, lastValue_snoc, h4 p hp]
    · intro _; rw [h1]; exact h5
    · intro d1 m d2 he hu hd p hp hpp
      rw [h3] at he
      rcases List.eq_nil_or_concat d2 with rfl | ⟨d2', x, rfl⟩
      · have := List.append_inj' he rfl
        obtain ⟨rfl, e2⟩ := this
        cases e2
        exact h6 hu hd p hp hpp
      · have he' : st.done ++ [⟨f, t, isUpdateOnly f⟩] = (d1 ++ m :: d2') ++ [x] := by rw [he]; simp
        have := List.append_inj' he' rfl
        exact hm.marked d1 m d2' this.1 hu hd p hp hpp
    · intro m hmem
      rw [h3] at hmem
      rcases List.mem_append.1 hmem with hmem | hmem
      · exact hm.real m hmem
      · simp at hmem; subst hmem; exact ⟨rfl, rel, ht⟩
  unfold updateOrSet
  simp only
  split
  · rename_i hset
    have hd := hm.set_iff.1 hset
    split
    · rename_i pt hu
      refine key pt _ rfl hset rfl ?_ ?_ ?_
      · intro p hp
        rw [update_ok_get _ _ hgood _ _ hu p, readParents_get t p hp, hm.value p hp hd]
      · rw [update_ok_get _ _ hgood _ _ hu]
        have := readParents_has t
        cases h : getData (readParents t).2 [parentsKey] with
        | none => rw [h] at this; cases this
        | some x => rfl
      · intro hf _ p hp hpp
        rw [hf] at hu
        have := update_only_sub _ _ hgood _ hu p (by rw [readParents_get t p hpp]; exact hp)
        rw [hm.value p hpp hd] at this
        exact (lastValue_isSome _ _).1 this
    · trivial
    · trivial
  · rename_i hset
    have hd : st.done = [] := Classical.byContradiction (fun h => hset (hm.set_iff.2 h))
    refine key (readParents t).2 _ rfl rfl rfl ?_ (readParents_has t) ?_
    · intro p hp
      rw [hd]
      simp [lastValue, readParents_get t p hp]
    · intro _ h; exact absurd hd h

theorem merging_all (E : Env) (load : Str → Option Tree) (hg : ∀ path t, load path = some t → GoodKeys t)
    (fuel : Nat) (files : List Str) : (readAll E load fuel files).Holds (Merging E load) (fun _ => True) := by
  refine readAll_inv E load _ _ ?_ ?_ (fun _ _ => trivial) ?_ fuel files
  · rintro st f _ _ ⟨h1, h2, h3, h4, h5⟩; exact ⟨h1, h2, h3, h4, h5⟩
  · exact fun st f rel t ht hm => merging_step E load hg st f rel t ht hm
  · exact ⟨by simp, by simp, by simp, by simp, by simp⟩

/-- **C31** After a successful load of files whose keys boost can address: every entry has the value it
has in the file merged last among those that contain it (files are listed in `done` in the order in which
they were merged); nothing else exists, except the key `parents`, which the loader itself adds. -/
theorem C31_last_file_wins (E : Env) (load : Str → Option Tree)
    (hg : ∀ path t, load path = some t → GoodKeys t) (fuel : Nat) (files : List Str) (st : St)
    (h : readAll E load fuel files = .ok st) (hd : st.done ≠ []) :
    (∀ p, p ≠ [parentsKey] → getData st.pt p = lastValue st.done p) ∧
    (getData st.pt [parentsKey]).isSome = true ∧
    (∀ m ∈ st.done, m.updateOnly = decide (m.name.getLast? = some '!') ∧
      ∃ rel, load (resolve E (bareName m.name) rel) = some m.tree) := by
  have hm := merging_all E load hg fuel files
  rw [h] at hm
  refine ⟨fun p hp => hm.value p hp hd, hm.parents hd, fun m hmem => ?_⟩
  have := hm.real m hmem
  unfold isUpdateOnly at this
  exact this

/-- **C31** A file marked with `!` (unless it comes first) contains only entries that some file merged
before it contains. -/
theorem C31_marked_files_add_nothing (E : Env) (load : Str → Option Tree)
    (hg : ∀ path t, load path = some t → GoodKeys t) (fuel : Nat) (files : List Str) (st : St)
    (h : readAll E load fuel files = .ok st) (d1 d2 : List Merged) (m : Merged) (he : st.done = d1 ++ m :: d2)
    (hu : m.name.getLast? = some '!') (hd : d1 ≠ []) (p : List Key) (hp : (getData m.tree p).isSome = true)
    (hpp : p ≠ [parentsKey]) : ∃ m' ∈ d1, (getData m'.tree p).isSome = true := by
  have hm := merging_all E load hg fuel files
  rw [h] at hm
  refine hm.marked d1 m d2 he ?_ hd p hp hpp
  rw [(hm.real m (by rw [he]; simp)).1]
  unfold isUpdateOnly
  simp [hu]

/-- **C31** The order of the merges: the files listed first (with everything they needed) come before
those listed later; every listed file is merged; and if the inheritance is acyclic, every file's parents are
merged before the file itself, so that the file overrides them. -/
theorem C31_order (E : Env) (load : Str → Option Tree) (rank : Str → Nat)
    (hrank : ∀ f rel t, load (resolve E (bareName f) rel) = some t →
      ∀ p ∈ splitComma (parentsOf t), p ≠ [] → rank p < rank f)
    (fuel : Nat) (files more : List Str) (st : St) (h : readAll E load fuel (files ++ more) = .ok st) :
    (∀ f ∈ files ++ more, f ≠ [] → f ∈ st.done.map Merged.name) ∧
    (∀ d1 m d2, st.done = d1 ++ m :: d2 → ∀ p ∈ splitComma (parentsOf m.tree), p ≠ [] →
      p ∈ d1.map Merged.name) ∧
    (∃ st1 d, readAll E load fuel files = .ok st1 ∧ st.done = st1.done ++ d ∧
      ∀ f ∈ files, f ≠ [] → f ∈ st1.done.map Merged.name) := by
  have hempty : splitComma [] = [[]] := by unfold splitComma; rfl
  have hlist : ∀ fs s s', ParentsFirst s.done → (∀ n ∈ names s, n ∈ s.ignore) → (∀ n, ¬ Open s n) →
      readList (loadFile E load fuel) s [] fs = .ok s' →
      ParentsFirst s'.done ∧ (∃ d, s'.done = s.done ++ d) ∧ (∀ n ∈ names s', n ∈ s'.ignore) ∧
        (∀ f ∈ fs, f ≠ [] → f ∈ names s') ∧ (∀ n, Open s' n ↔ Open s n) := by
    intro fs s s' h1 h2 h3 h4
    refine readList_order rank (loadFile E load fuel) (fs.foldr (fun f m => max (rank f + 1) m) 0)
      (fun st f rel st' _ a b c d e g => loadFile_order E load rank hrank hempty fuel st f rel st' a b c d e g)
      [] fs s s' ?_ h1 h2 (fun n hn => absurd hn (h3 n)) h4
    intro f hf _
    clear h4
    induction fs with
    | nil => simp at hf
    | cons a fs ih =>
      simp only [List.foldr_cons]
      rcases List.mem_cons.1 hf with rfl | hf
      · omega
      · have := ih hf; omega
  have hp0 : ParentsFirst [] := by intro d1 m d2 he; simp at he
  have hn0 : ∀ n, ¬ Open ⟨.empty, false, [], [], []⟩ n := by intro n h; simp [Open] at h
  have hfull := hlist (files ++ more) _ st hp0 (by simp [names]) hn0 h
  refine ⟨hfull.2.2.2.1, hfull.1, ?_⟩
  unfold readAll at h ⊢
  rw [readList_append] at h
  cases h1 : readList (loadFile E load fuel) ⟨.empty, false, [], [], []⟩ [] files with
  | ok st1 =>
    rw [h1] at h
    have hfirst := hlist files _ st1 hp0 (by simp [names]) hn0 h1
    have hsecond := hlist more st1 st hfirst.1 hfirst.2.2.1 (fun n hn => hn0 n ((hfirst.2.2.2.2 n).1 hn)) h
    obtain ⟨d, hd⟩ := hsecond.2.1
    exact ⟨st1, d, rfl, hd, hfirst.2.2.2.1⟩
  | threw s => rw [h1] at h; cases h
  | ub => rw [h1] at h; cases h
  | outOfFuel => rw [h1] at h; cases h

/-! ### a concrete file system: `a` and `b` inherit from each other, `c!` may only overwrite -/

attribute [local semireducible] parentsOf readParents update splitComma isUpdateOnly resolve bareName

/-- the text of a string entry, empty if there is none -/
def textOf (t : Tree) (key : Str) : Str :=
  match get strCodec t ['/'] key with
  | .value v => v
  | _ => []

/-- **C31** A file's parents are its entry `parents`; if that is absent or empty, the entry `parents` of its
first child; else there are none. -/
theorem C31_parents (t : Tree) :
    parentsOf t = if textOf t parentsKey ≠ [] then textOf t parentsKey
      else match t.kids with
        | [] => []
        | (_, c) :: _ => textOf c parentsKey := by
  have hd : ∀ u : Tree, getDefault strCodec u ['/'] parentsKey [] = textOf u parentsKey := by
    intro u
    unfold getDefault textOf get
    cases getData u (keyPath (qualify ['/'] parentsKey)).frags with
    | none => rfl
    | some d => rfl
  have hq : (keyPath (qualify ['/'] parentsKey)) = ⟨[parentsKey], false⟩ := by decide
  unfold parentsOf readParents
  simp only [hd]
  unfold getDefaultMut
  cases hg : getData t (keyPath (qualify ['/'] parentsKey)).frags with
  | some d =>
    have ht : textOf t parentsKey = d := by unfold textOf get; rw [hg]; rfl
    simp only [Option.bind_some, strCodec, ht]
    by_cases hd0 : d = []
    · simp only [hd0, if_true, ne_eq, not_true_eq_false, if_false]
      cases t.kids <;> rfl
    · simp [hd0]
  | none =>
    have ht : textOf t parentsKey = [] := by unfold textOf get; rw [hg]
    simp only [Option.bind_none, ht, ne_eq, not_true_eq_false, if_false]
    unfold set
    rw [hq] at hg ⊢
    have hc : getChild t [parentsKey] = none := by simpa [getData] using hg
    have hf : findKid t.kids parentsKey = none := by
      rw [getChild] at hc
      cases hk : findKid t.kids parentsKey with
      | none => rfl
      | some u => rw [hk] at hc; simp [getChild] at hc
    simp only [put, hc, Option.isSome_none, Bool.false_eq_true, if_false, Option.map_some, if_true, putFrags, hf,
      Option.getD_none, Tree.kids]
    cases t with
    | node d ks =>
      cases ks with
      | nil =>
        simp only [Tree.kids, setKid]
        decide
      | cons a rest =>
        obtain ⟨k', u⟩ := a
        have hne : ¬ parentsKey = k' := by
          intro h
          simp [Tree.kids, findKid, h] at hf
        simp only [Tree.kids, setKid, hne, if_false]

example : parentsOf (.node [] [(['r'], .node [] [(parentsKey, .node ['a', ',', 'b'] [])])]) = ['a', ',', 'b'] := by
  rw [C31_parents]; decide

def exEnv : Env := ⟨[], [], fun _ => true, fun _ => true, id⟩

def exFiles : Files :=
  [(['a'], .node [] [(parentsKey, .node ['b'] []), (['x'], .node ['1'] [])]),
   (['b'], .node [] [(parentsKey, .node ['a'] []), (['x'], .node ['0'] []), (['y'], .node ['2'] [])]),
   (['c'], .node [] [(['y'], .node ['3'] [])]),
   (['d'], .node [] [(['z'], .node ['4'] [])])]

/-- the cyclic pair loads, `a` overrides its parent `b`, and `c!` overrides `y` -/
example : (match readAll exEnv exFiles.load 5 [['a'], ['c', '!']] with
    | .ok st => decide (getData st.pt [['x']] = some ['1'] ∧ getData st.pt [['y']] = some ['3'] ∧
        st.loads = [['a'], ['b'], ['c', '!']] ∧ st.done.map Merged.name = [['b'], ['a'], ['c', '!']])
    | _ => false) = true := by decide

/-- `d!` would add an entry: exception -/
example : (match readAll exEnv exFiles.load 5 [['a'], ['d', '!']] with
    | .threw _ => true
    | _ => false) = true := by decide

example : ∀ path t, exFiles.load path = some t → GoodKeys t := by
  intro path t h
  unfold Files.load at h
  simp only [Option.map_eq_some_iff] at h
  obtain ⟨e, he, rfl⟩ := h
  have := List.mem_of_find?_eq_some he
  simp only [exFiles, List.mem_cons, List.not_mem_nil, or_false] at this
  rcases this with rfl | rfl | rfl | rfl <;> simp [GoodKeys, GoodKids, parentsKey]

/-! ## C32 -/

/-- the places searched, in order -/
def searchCandidates (E : Env) (path : Str) : List Str :=
  E.searchPaths.flatMap fun bp => (if E.infixes = [] then [[]] else E.infixes).map fun i =>
    bp ++ ['/'] ++ (if i = [] then [] else i ++ ['/']) ++ path

/-- a name that starts with `./` or `../` -/
def isDotPath (path : Str) : Prop := ['.', '/'] <+: path ∨ ['.', '.', '/'] <+: path

/-- The claim as one would like it: absolute names and names starting with `./` or `../` bypass the
search paths, others give the first existing candidate, or the first candidate if none exists. -/
def C32_claim : Prop := ∀ (E : Env) (path rel : Str), E.searchPaths ≠ [] →
  (path.head? = some '/' → resolve E path rel = path) ∧
  (isDotPath path → resolve E path rel ∉ searchCandidates E path) ∧
  (path.head? ≠ some '/' → ¬ isDotPath path →
    some (resolve E path rel) = ((searchCandidates E path).find? E.fsExists).or (searchCandidates E path).head?)

/-- **C32 is false as stated**: without infixes, a name that exists nowhere resolves to `dir//name`
rather than the first candidate `dir/name`; and a `./` name that is not found next to the including file
is searched in the search paths. -/
theorem C32_negation : ¬ C32_claim := by
  intro h
  have := (h ⟨[['d']], [], fun _ => false, fun _ => false, id⟩ ['f'] [] (by simp)).2.2 (by decide)
    (by unfold isDotPath; decide)
  revert this
  unfold resolve searchOrFirst
  decide

theorem C32_dot_names_are_searched : ∃ (E : Env) (path rel : Str), isDotPath path ∧
    resolve E path rel ∈ searchCandidates E path :=
  ⟨⟨[['d']], [], fun _ => false, fun _ => true, id⟩, ['.', '/', 'f'], [], .inl (by decide), by
    unfold resolve searchOrFirst; decide⟩

theorem search_eq (E : Env) (path : Str) (infixes : List Str) (bps : List Str) :
    search E infixes path bps =
      (bps.flatMap fun bp => infixes.map fun i => candidate path bp i).find? E.fsExists := by
  induction bps with
  | nil => rfl
  | cons bp bps ih =>
    unfold search
    rw [List.flatMap_cons, List.find?_append, List.find?_map, ih]
    cases h : infixes.find? (fun i => E.fsExists (candidate path bp i)) with
    | some i =>
      have : infixes.find? (E.fsExists ∘ fun i => candidate path bp i) = some i := h
      rw [this]; rfl
    | none =>
      have : infixes.find? (E.fsExists ∘ fun i => candidate path bp i) = none := h
      rw [this]; rfl

/-- **C32 (what holds)** With search paths set: absolute names are taken as they are; a `./` or `../` name
is taken relative to the including file (or the working directory if there is none) if it exists there; all
other names, and `./` names not found there, give the first existing candidate in the order of the search
paths and, within one, of the infixes; if there is none, the result is the first search path, the first
infix and the name joined by slashes — which is the first candidate itself whenever infixes are configured
and the first is not empty. Without search paths every name is taken as it is. -/
theorem C32_partial (E : Env) (path rel : Str) :
    (E.searchPaths = [] → resolve E path rel = path) ∧
    (path.head? = some '/' → resolve E path rel = path) ∧
    (E.searchPaths ≠ [] → path.head? ≠ some '/' → isDotPath path →
      (rel = [] → E.fileExists path = true → resolve E path rel = path) ∧
      (¬ (rel = [] ∧ E.fileExists path = true) → E.fileExists (E.dirName rel ++ '/' :: path) = true →
        resolve E path rel = E.dirName rel ++ '/' :: path)) ∧
    (E.searchPaths ≠ [] → path.head? ≠ some '/' →
      (isDotPath path → ¬ (rel = [] ∧ E.fileExists path = true) ∧
        E.fileExists (E.dirName rel ++ '/' :: path) = false) →
      (∀ c, (searchCandidates E path).find? E.fsExists = some c → resolve E path rel = c) ∧
      ((∀ c ∈ searchCandidates E path, E.fsExists c = false) →
        (∀ bp bps i is, E.searchPaths = bp :: bps → E.infixes = i :: is →
          resolve E path rel = bp ++ ['/'] ++ i ++ ['/'] ++ path ∧
          (i ≠ [] → (searchCandidates E path).head? = some (resolve E path rel))) ∧
        (∀ bp bps, E.searchPaths = bp :: bps → E.infixes = [] →
          resolve E path rel = bp ++ ['/', '/'] ++ path))) := by
  refine ⟨fun h => by unfold resolve; simp [h], fun h => by unfold resolve; simp [h], ?_, ?_⟩
  · intro h1 h2 h3
    have h3' : ['.', '/'] <+: path ∨ ['.', '.', '/'] <+: path := h3
    refine ⟨fun h4 h5 => ?_, fun h4 h5 => ?_⟩
    · unfold resolve
      rw [if_neg (by simp [h1, h2]), if_pos h3', if_pos ⟨h4, h5⟩]
    · unfold resolve
      rw [if_neg (by simp [h1, h2]), if_pos h3', if_neg h4, if_pos h5]
  · intro h1 h2 h3
    have hr : resolve E path rel = searchOrFirst E path := by
      unfold resolve
      rw [if_neg (by simp [h1, h2])]
      by_cases hd : ['.', '/'] <+: path ∨ ['.', '.', '/'] <+: path
      · obtain ⟨h4, h5⟩ := h3 hd
        rw [if_pos hd, if_neg h4, if_neg (by simp [h5])]
      · rw [if_neg hd]
    have hc : searchCandidates E path =
        E.searchPaths.flatMap fun bp => (effInfixes E).map fun i => candidate path bp i := by
      unfold searchCandidates effInfixes candidate
      simp
    rw [hr]
    unfold searchOrFirst
    rw [search_eq, ← hc]
    refine ⟨fun c h => by rw [h], fun hn => ?_⟩
    have hnone : (searchCandidates E path).find? E.fsExists = none := by
      rw [List.find?_eq_none]; intro c hcm; simp [hn c hcm]
    rw [hnone]
    refine ⟨fun bp bps i is hb hi => ?_, fun bp bps hb hi => ?_⟩
    · simp only [hb, effInfixes, hi]
      refine ⟨by simp, fun h => ?_⟩
      unfold searchCandidates
      simp [hb, hi, h]
    · simp [hb, effInfixes, hi]

/-- the hypotheses of the search case are met by ordinary configurations -/
example : searchCandidates ⟨[['d'], ['e']], [['i'], []], fun _ => false, fun c => c = "e/f".toList, id⟩ ['f'] =
      ["d/i/f".toList, "d/f".toList, "e/i/f".toList, "e/f".toList] ∧
    resolve ⟨[['d'], ['e']], [['i'], []], fun _ => false, fun c => c = "e/f".toList, id⟩ ['f'] [] =
      "e/f".toList := by
  unfold resolve
  decide

end Verif.PTree.Loader
