import Verif.Archive.Invariant

/-!
# Properties C19-C24: `sm::MatrixArchive`
-/

namespace Verif.Archive

/-- names used in the examples: "a" and "bc_1" -/
def nameA : Name := [97]
def nameB : Name := [98, 99, 95, 49]

/-! ## C19, C20: save and load -/

/-- helper: the transfer for any archive that satisfies the invariant -/
theorem transfer_inv (a b : Archive) (F G : List Name) (ia : Inv a)
    (hs : Savable a F) :
    (save a F).res = .ok ∧
    ∃ c, load b G (save a F).bytes = .ok c ∧
      ∀ n,
        ((InFilter F n ∧ InFilter G n) →
          getMatrix c n = (getMatrix a n).or (getMatrix b n) ∧
          getString c n = (getString a n).or (getString b n)) ∧
        (¬ (InFilter F n ∧ InFilter G n) →
          getMatrix c n = getMatrix b n ∧ getString c n = getString b n) := by
  have hm : ∀ p ∈ a.values, selected F p.1 = true → validateName p.1 = true ∧ p.2.Fits := by
    intro p hp hsel
    obtain ⟨n, m⟩ := p
    obtain ⟨g, r1, r2, r3⟩ := hs.1 n m hsel (lookup_of_mem ia.sv hp)
    exact ⟨(goodName_iff n).2 g, ia.wf _ hp, r1, r2, r3⟩
  have hstr : ∀ p ∈ a.strings, selected F p.1 = true → validateName p.1 = true ∧ p.2.length < 2 ^ 32 := by
    intro p hp hsel
    obtain ⟨n, s⟩ := p
    exact ⟨ia.names _ hp, hs.2 n s hsel (lookup_of_mem ia.ss hp)⟩
  have W1 := load_writeAll writeMatrixBlock .matrix Mat.Fits
    (fun n v rest h1 h2 => ⟨(read_matrix_block h1 h2 rest).1,
      by simp [writeMatrixBlock, h1], (read_matrix_block h1 h2 rest).2⟩) F G a.values hm
  have W2 := load_writeAll writeStringBlock .string (fun s => s.length < 2 ^ 32)
    (fun n v rest h1 h2 => ⟨(read_string_block h1 h2 rest).1,
      by simp [writeStringBlock, h1], (read_string_block h1 h2 rest).2⟩) F G a.strings hstr
  let b1 := storeAll .matrix F G b a.values
  let c := storeAll .string F G b1 a.strings
  have hsave : (save a F).res = .ok ∧ (save a F).bytes =
      (writeAll writeMatrixBlock F a.values).bytes ++ (writeAll writeStringBlock F a.strings).bytes := by
    unfold save
    have h1 := (W1 empty []).1
    have h2 := (W2 empty []).1
    cases hw : writeAll writeMatrixBlock F a.values with
    | mk bs r => rw [hw] at h1; simp only at h1; subst h1; simp [h2]
  refine ⟨hsave.1, c, ?_, ?_⟩
  · rw [hsave.2, (W1 b _).2]
    have := (W2 b1 []).2
    rw [List.append_nil] at this
    rw [this]
    rfl
  · intro n
    obtain ⟨s1, _, s3⟩ := storeAll_matrix F G a.values ia.sv b
    obtain ⟨t1, _, t3⟩ := storeAll_string F G a.strings ia.ss b1
    have gm : getMatrix c n = lookup b1.values n := by simp only [getMatrix, c, t1]
    have gs : getString c n = _ := t3 n
    have hbs : b1.strings = b.strings := s1
    rw [gm, gs, hbs, s3 n]
    constructor
    · rintro ⟨h1, h2⟩
      rw [← selected_iff] at h1 h2
      simp [h1, h2, getMatrix, getString]
    · intro h
      rw [← selected_iff, ← selected_iff] at h
      have : (selected F n && selected G n) = false := by
        rw [← Bool.not_eq_true, Bool.and_eq_true]; exact h
      simp [this, getMatrix, getString]

/-- C19/C20, general form: saving `a` through filter `F` succeeds and loading the bytes into `b`
through filter `G` succeeds; afterwards every matrix and string whose name passes both filters and
which `a` had is exactly as in `a`, and everything else is exactly as it was in `b`. -/
theorem C20_filtered_transfer (a b : Archive) (F G : List Name) (ha : Reachable a) (hb : Reachable b)
    (hs : Savable a F) :
    (save a F).res = .ok ∧
    ∃ c, load b G (save a F).bytes = .ok c ∧
      ∀ n,
        ((InFilter F n ∧ InFilter G n) →
          getMatrix c n = (getMatrix a n).or (getMatrix b n) ∧
          getString c n = (getString a n).or (getString b n)) ∧
        (¬ (InFilter F n ∧ InFilter G n) →
          getMatrix c n = getMatrix b n ∧ getString c n = getString b n) :=
  transfer_inv a b F G (inv_reachable ha) hs

/-- C19: saving everything and loading it into an empty archive restores the archive exactly (the same
names, dimensions and bit patterns, in the same order). -/
theorem C19_round_trip (a : Archive) (ha : Reachable a) (hs : Savable a []) :
    (save a []).res = .ok ∧ load empty [] (save a []).bytes = .ok a := by
  obtain ⟨h1, c, h2, h3⟩ := C20_filtered_transfer a empty [] [] ha .init hs
  refine ⟨h1, ?_⟩
  rw [h2]
  congr 1
  have ia := inv_reachable ha
  have ic : Inv c := by
    have := inv_loadLoop [] (save a []).bytes.length empty (save a []).bytes inv_empty
    exact this.1 c h2
  have key : ∀ n, lookup c.values n = lookup a.values n ∧ lookup c.strings n = lookup a.strings n := by
    intro n
    have := (h3 n).1 ⟨Or.inl rfl, Or.inl rfl⟩
    simpa [getMatrix, getString, empty, lookup] using this
  have e1 := sorted_ext ic.sv ia.sv fun n => (key n).1
  have e2 := sorted_ext ic.ss ia.ss fun n => (key n).2
  cases a; cases c
  simp only at e1 e2
  rw [e1, e2]

/-- non-vacuity: an archive with a 2x1 matrix and a string is reachable and savable -/
def exampleArchive : Archive := ⟨[(nameA, ⟨2, 1, [1, 2]⟩)], [(nameB, [0, 255])]⟩

theorem exampleArchive_ok : Reachable exampleArchive ∧ Savable exampleArchive [] := by
  constructor
  · refine Reachable.step (a := ⟨[(nameA, ⟨2, 1, [1, 2]⟩)], []⟩) (op := .setString nameB [0, 255]) ?_ trivial rfl
    exact Reachable.step (a := empty) (op := .setMatrix nameA ⟨2, 1, [1, 2]⟩) .init rfl rfl
  · constructor
    · intro n m _ h
      simp only [getMatrix, exampleArchive, lookup] at h
      split at h
      · rename_i hn; subst hn; simp at h; subst h
        refine ⟨(goodName_iff _).1 (by decide), by decide, by decide, by decide⟩
      · cases h
    · intro n s _ h
      simp only [getString, exampleArchive, lookup] at h
      split at h
      · simp at h; subst h; decide
      · cases h

/-- The size hypothesis of C19/C20 is needed: a valid matrix with `2^29` coefficients (4 GiB) is
written without any of its data, because the byte count is kept in 32 bits. -/
theorem C19_size_limit (n : Name) (hn : GoodName n) (m : Mat) (hr : m.rows = 2 ^ 29) (hc : m.cols = 1) :
    (writeMatrixBlock n m).res = .ok ∧ (writeMatrixBlock n m).bytes.length = 1 + 32 + 4 + 4 + 1 := by
  have hv := (goodName_iff n).2 hn
  have hl := (valid_chars hv).1
  simp only [writeMatrixBlock, hv, hr, hc, if_true, true_and]
  simp [leBytes_length, paddedName_length hl]

/-- `append` does not append: whatever the archive, the file is left as it was. -/
theorem C19_append_does_nothing (a : Archive) (file : List Byte) (F : List Name) :
    append a file F = file := rfl

/-! ## C21: map behaviour -/

/-- C21, setters: on every reachable archive, each setter with an acceptable name (and shape) succeeds,
makes the value readable under that name and leaves all other names alone; with an unacceptable name
(or, for vectors, shape) it throws and the archive is exactly as before. -/
theorem C21_setters (a : Archive) (ha : Reachable a) (n : Name) (m : Mat) (s : List Byte) (x : BitVec 64) :
    (GoodName n →
      (setMatrix a n m).1 = .ok ∧ getMatrix (setMatrix a n m).2 n = some m ∧
      getString (setMatrix a n m).2 n = none ∧
      (setScalar a n x).1 = .ok ∧ getScalar (setScalar a n x).2 n = some x ∧
      (setString a n s).1 = .ok ∧ getString (setString a n s).2 n = some s ∧
      getMatrix (setString a n s).2 n = none ∧
      (m.cols = 1 → (setVector a n m).1 = .ok ∧ getMatrix (setVector a n m).2 n = some m)) ∧
    (¬ GoodName n → setMatrix a n m = (.threw, a) ∧ setScalar a n x = (.threw, a) ∧
      setString a n s = (.threw, a) ∧ setVector a n m = (.threw, a)) ∧
    (m.cols ≠ 1 → setVector a n m = (.threw, a)) ∧
    (∀ k, k ≠ n →
      getMatrix (setMatrix a n m).2 k = getMatrix a k ∧ getString (setMatrix a n m).2 k = getString a k ∧
      getMatrix (setScalar a n x).2 k = getMatrix a k ∧ getString (setScalar a n x).2 k = getString a k ∧
      getMatrix (setString a n s).2 k = getMatrix a k ∧ getString (setString a n s).2 k = getString a k ∧
      getMatrix (setVector a n m).2 k = getMatrix a k ∧ getString (setVector a n m).2 k = getString a k) := by
  have ia := inv_reachable ha
  have hstr : ∀ k, lookup (if (lookup a.strings n).isSome then { a with strings := erase a.strings n } else a).strings k
      = if k = n then none else lookup a.strings k := by
    intro k
    split
    · exact lookup_erase ia.ss n k
    · rename_i h
      have h : lookup a.strings n = none := by simpa using h
      by_cases hk : k = n
      · subst hk; simp [h]
      · simp [hk]
  have hval : (if (lookup a.strings n).isSome then { a with strings := erase a.strings n } else a).values = a.values := by
    split <;> rfl
  have hval2 : ∀ k, lookup (if (lookup a.values n).isSome then erase a.values n else a.values) k
      = if k = n then none else lookup a.values k := by
    intro k
    split
    · exact lookup_erase ia.sv n k
    · rename_i h
      have h : lookup a.values n = none := by simpa using h
      by_cases hk : k = n
      · subst hk; simp [h]
      · simp [hk]
  have hnoname : validateName n = false → lookup a.strings n = none := by
    intro hv
    cases hl : lookup a.strings n with
    | none => rfl
    | some v =>
      have := ia.names _ (lookup_some_mem hl)
      simp only at this
      rw [hv] at this; cases this
  refine ⟨?_, ?_, ?_, ?_⟩
  · intro hg
    have hv := (goodName_iff n).2 hg
    refine ⟨?_, ?_, ?_, ?_, ?_, ?_, ?_, ?_, ?_⟩
    · simp [setMatrix, hv]
    · simp [setMatrix, hv, getMatrix, lookup_insert]
    · simp [setMatrix, hv, getString, hstr]
    · simp [setScalar, hv]
    · simp [setScalar, hv, getScalar, lookup_insert]
    · simp [setString, hv]
    · simp [setString, hv, getString, lookup_insert]
    · simp [setString, hv, getMatrix, hval2]
    · intro hc; simp [setVector, hv, hc, getMatrix, lookup_insert]
  · intro hg
    have hv : validateName n = false := by
      rw [← Bool.not_eq_true, goodName_iff]; exact hg
    refine ⟨?_, ?_, ?_, ?_⟩
    · simp [setMatrix, hv, hnoname hv]
    · simp [setScalar, hv]
    · simp [setString, hv]
    · simp [setVector, hv]
  · intro hc
    simp [setVector, hc]
  · intro k hk
    refine ⟨?_, ?_, ?_, ?_, ?_, ?_, ?_, ?_⟩
    · unfold setMatrix getMatrix
      simp only
      split <;> simp [lookup_insert, hk, hval]
    · unfold setMatrix getString
      simp only
      split <;> simp [hstr, hk]
    · unfold setScalar getMatrix
      split <;> simp [lookup_insert, hk]
    · unfold setScalar getString
      split <;> rfl
    · unfold setString getMatrix
      split <;> simp [hval2, hk]
    · unfold setString getString
      split <;> simp [lookup_insert, hk]
    · unfold setVector getMatrix
      split
      · split <;> simp [lookup_insert, hk]
      · rfl
    · unfold setVector getString
      split
      · split <;> rfl
      · rfl

/-- C21, `createMatrix`: refuses to replace an existing matrix unless told so, otherwise makes the new
matrix readable; other names unaffected. -/
theorem C21_createMatrix (a : Archive) (n : Name) (m : Mat) (o : Bool) :
    ((createMatrix a n m o).1 = .threw ↔ (o = false ∧ getMatrix a n ≠ none)) ∧
    ((createMatrix a n m o).1 = .threw → (createMatrix a n m o).2 = a) ∧
    ((createMatrix a n m o).1 = .ok → getMatrix (createMatrix a n m o).2 n = some m) ∧
    (∀ k, k ≠ n → getMatrix (createMatrix a n m o).2 k = getMatrix a k) ∧
    (∀ k, getString (createMatrix a n m o).2 k = getString a k) := by
  unfold createMatrix
  by_cases h : (!o && (lookup a.values n).isSome) = true
  · simp only [h, if_true]
    simp only [Bool.and_eq_true, Bool.not_eq_true', Option.isSome_iff_ne_none] at h
    refine ⟨⟨fun _ => h, fun _ => by trivial⟩, fun _ => by trivial, by simp, fun _ _ => by trivial, fun _ => by trivial⟩
  · simp only [h]
    simp only [Bool.and_eq_true, Bool.not_eq_true', Option.isSome_iff_ne_none] at h
    refine ⟨⟨by simp, fun hh => absurd hh h⟩, by simp, by simp [getMatrix, lookup_insert], ?_, fun _ => rfl⟩
    intro k hk
    simp [getMatrix, lookup_insert, hk]

/-- C21, getters: `getVector` returns exactly the column of a stored one-column matrix, `getScalar`
exactly the entry of a stored 1x1 matrix, and both throw otherwise. -/
theorem C21_getters (a : Archive) (ha : Reachable a) (n : Name) :
    (∀ v, getVector a n = some v ↔ ∃ m, getMatrix a n = some m ∧ m.cols = 1 ∧ v = m.data) ∧
    (∀ x, getScalar a n = some x ↔ ∃ m, getMatrix a n = some m ∧ m.rows = 1 ∧ m.cols = 1 ∧ m.data = [x]) := by
  have ia := inv_reachable ha
  constructor
  · intro v
    unfold getVector getMatrix
    cases h : lookup a.values n with
    | none => simp
    | some m =>
      have hwf := ia.wf _ (lookup_some_mem h)
      simp only at hwf
      unfold Mat.WF at hwf
      simp only [Option.some.injEq, exists_eq_left']
      by_cases hc : m.cols = 1
      · have : m.data.take m.rows = m.data := by
          apply List.take_of_length_le; rw [hwf, hc]; omega
        simp [hc, this, eq_comm]
      · simp [hc]
  · intro x
    unfold getScalar getMatrix
    cases h : lookup a.values n with
    | none => simp
    | some m =>
      have hwf := ia.wf _ (lookup_some_mem h)
      simp only at hwf
      unfold Mat.WF at hwf
      simp only [Option.some.injEq, exists_eq_left']
      by_cases hr : m.rows = 1
      · by_cases hc : m.cols = 1
        · rw [hr, hc] at hwf
          simp only [hr, hc, if_true, true_and]
          match hd : m.data with
          | [] => rw [hd] at hwf; simp at hwf
          | [y] => simp
          | y :: z :: w => rw [hd] at hwf; simp at hwf
        · simp [hr, hc]
      · simp [hr]

example : GoodName nameB ∧ ¬ GoodName [49, 97] := by
  constructor
  · exact (goodName_iff _).1 (by decide)
  · rw [← goodName_iff]; decide

/-- C21, size: `size()` is the number of matrix names plus the number of string names. -/
theorem C21_size (a : Archive) (ha : Reachable a) :
    ∃ L L' : List Name, L.Nodup ∧ L'.Nodup ∧ (∀ n, n ∈ L ↔ getMatrix a n ≠ none) ∧
      (∀ n, n ∈ L' ↔ getString a n ≠ none) ∧ size a = L.length + L'.length := by
  have ia := inv_reachable ha
  have nd : ∀ {V : Type} {m : Map V}, Sorted m → (m.map Prod.fst).Nodup := by
    intro V m hs
    rw [List.Nodup, List.pairwise_map]
    exact hs.imp fun h => nameLt_ne h
  have mem : ∀ {V : Type} {m : Map V}, Sorted m → ∀ n, n ∈ m.map Prod.fst ↔ lookup m n ≠ none := by
    intro V m hs n
    rw [List.mem_map]
    constructor
    · rintro ⟨⟨k, v⟩, hp, rfl⟩
      rw [lookup_of_mem hs hp]; simp
    · intro h
      cases hl : lookup m n with
      | none => exact absurd hl h
      | some v => exact ⟨(n, v), lookup_some_mem hl, rfl⟩
  refine ⟨a.values.map Prod.fst, a.strings.map Prod.fst, nd ia.sv, nd ia.ss, mem ia.sv, mem ia.ss, ?_⟩
  simp [size, Nat.add_comm]

example : size (setString (setScalar empty nameA 7).2 nameB [1]).2 = 2 := by decide

/-! ## C22: a name denotes either a matrix or a string -/

/-- The claim of C22. -/
def C22_claim : Prop :=
  ∀ a, Reachable a → ∀ n, ¬ (getMatrix a n ≠ none ∧ getString a n ≠ none)

/-- C22 is false of the code: `setString("a", …); setScalar("a", …)` leaves both. -/
theorem C22_negation : ¬ C22_claim := by
  intro h
  have r1 : Reachable (setString empty nameA [1]).2 :=
    Reachable.step (op := .setString nameA [1]) .init trivial rfl
  have r2 : Reachable (setScalar (setString empty nameA [1]).2 nameA 7).2 :=
    Reachable.step (op := .setScalar nameA 7) r1 trivial rfl
  exact h _ r2 nameA (by decide)

/-- The calls that keep names unambiguous. -/
def Op.Unambiguous : Op → Prop
  | .clearAll => True
  | .clearName _ => True
  | .setString _ _ => True
  | .setMatrix _ _ => True
  | _ => False

/-- Histories of such calls. -/
inductive ReachableU : Archive → Prop
  | init : ReachableU empty
  | step {a b : Archive} {op : Op} : ReachableU a → op.Genuine → op.Unambiguous →
      step a op = some b → ReachableU b

/-- C22 for histories of `setMatrix`, `setString` and `clear`.  Missing: `setScalar`, `setVector`,
`createMatrix` and `load`, which do not remove a string of the same name (see the negation). -/
theorem C22_partial (a : Archive) (h : ReachableU a) (n : Name) :
    ¬ (getMatrix a n ≠ none ∧ getString a n ≠ none) := by
  have toR : ∀ {a}, ReachableU a → Reachable a := by
    intro a h
    induction h with
    | init => exact .init
    | step _ hg _ hs ih => exact .step ih hg hs
  induction h with
  | init => simp [getMatrix, empty, lookup]
  | @step a b op hr hg hu hs ih =>
    have ia := inv_reachable (toR hr)
    have hset := C21_setters a (toR hr)
    cases op with
    | clearAll => simp [step, clearAll] at hs; subst hs; simp [getMatrix, lookup]
    | clearName k =>
      simp [step, clearName] at hs; subst hs
      rintro ⟨h1, h2⟩
      apply ih
      refine ⟨?_, h2⟩
      simp only [getMatrix] at h1 ⊢
      rw [lookup_erase (sorted_erase ia.sv k), lookup_erase ia.sv] at h1
      intro h0; rw [h0] at h1; simp at h1
    | setString k s =>
      simp [step] at hs; subst hs
      by_cases hg : GoodName k
      · by_cases hk : n = k
        · subst hk
          rw [((hset n ⟨0, 0, []⟩ s 0).1 hg).2.2.2.2.2.2.2.1]; simp
        · have := (hset k ⟨0, 0, []⟩ s 0).2.2.2 n hk
          rw [this.2.2.2.2.1, this.2.2.2.2.2.1]; exact ih
      · rw [((hset k ⟨0, 0, []⟩ s 0).2.1 hg).2.2.1]; exact ih
    | setMatrix k m =>
      simp [step] at hs; subst hs
      by_cases hg : GoodName k
      · by_cases hk : n = k
        · subst hk
          rw [((hset n m [] 0).1 hg).2.2.1]; simp
        · have := (hset k m [] 0).2.2.2 n hk
          rw [this.1, this.2.1]; exact ih
      · rw [((hset k m [] 0).2.1 hg).1]; exact ih
    | setScalar _ _ => exact hu.elim
    | setVector _ _ => exact hu.elim
    | createMatrix _ _ _ => exact hu.elim
    | load _ _ => exact hu.elim

example : ReachableU exampleArchive := by
  refine ReachableU.step (a := ⟨[(nameA, ⟨2, 1, [1, 2]⟩)], []⟩) (op := .setString nameB [0, 255]) ?_ trivial trivial rfl
  exact ReachableU.step (a := empty) (op := .setMatrix nameA ⟨2, 1, [1, 2]⟩) .init rfl trivial rfl

/-! ## C23: clear -/

/-- The claim of C23 about `clear(name)`. -/
def C23_claim : Prop :=
  ∀ a, Reachable a → ∀ n, getMatrix (clearName a n) n = none ∧ getString (clearName a n) n = none

/-- C23 is false of the code: a string survives `clear(name)`. -/
theorem C23_negation : ¬ C23_claim := by
  intro h
  have r1 : Reachable (setString empty nameA [1]).2 :=
    Reachable.step (op := .setString nameA [1]) .init trivial rfl
  exact absurd (h _ r1 nameA).2 (by decide)

/-- C23, what holds: `clear(name)` removes the matrix of that name, keeps every other matrix and every
string; `clear()` empties the archive.  Missing: removal of a string named `name`. -/
theorem C23_partial (a : Archive) (ha : Reachable a) (n : Name) :
    getMatrix (clearName a n) n = none ∧
    (∀ k, k ≠ n → getMatrix (clearName a n) k = getMatrix a k) ∧
    (∀ k, getString (clearName a n) k = getString a k) ∧
    (∀ k, getMatrix (clearAll a) k = none ∧ getString (clearAll a) k = none) ∧
    size (clearAll a) = 0 := by
  have ia := inv_reachable ha
  have hl : ∀ k, getMatrix (clearName a n) k = if k = n then none else getMatrix a k := by
    intro k
    simp only [getMatrix, clearName]
    rw [lookup_erase (sorted_erase ia.sv n), lookup_erase ia.sv]
    split <;> rfl
  refine ⟨by simp [hl], fun k hk => by simp [hl, hk], fun _ => rfl, fun k => ⟨rfl, rfl⟩, rfl⟩

example : getMatrix exampleArchive nameA ≠ none ∧ getMatrix (clearName exampleArchive nameA) nameA = none := by
  decide

/-! ## C24: validation -/

/-- C24: a name is accepted exactly if it follows the rule. -/
theorem C24_names (n : Name) : validateName n = true ↔ GoodName n := goodName_iff n

/-- loading goes through good file content block by block and continues behind it -/
theorem load_after (a b : Archive) (F G : List Name) (ha : Reachable a) (hs : Savable a F) :
    ∃ c, load b G (save a F).bytes = .ok c ∧ ∀ rest, load b G ((save a F).bytes ++ rest) = load c G rest := by
  have ia := inv_reachable ha
  have hm : ∀ p ∈ a.values, selected F p.1 = true → validateName p.1 = true ∧ p.2.Fits := by
    intro p hp hsel
    obtain ⟨n, m⟩ := p
    obtain ⟨g, r1, r2, r3⟩ := hs.1 n m hsel (lookup_of_mem ia.sv hp)
    exact ⟨(goodName_iff n).2 g, ia.wf _ hp, r1, r2, r3⟩
  have hstr : ∀ p ∈ a.strings, selected F p.1 = true → validateName p.1 = true ∧ p.2.length < 2 ^ 32 := by
    intro p hp hsel
    obtain ⟨n, s⟩ := p
    exact ⟨ia.names _ hp, hs.2 n s hsel (lookup_of_mem ia.ss hp)⟩
  have W1 := load_writeAll writeMatrixBlock .matrix Mat.Fits
    (fun n v rest h1 h2 => ⟨(read_matrix_block h1 h2 rest).1,
      by simp [writeMatrixBlock, h1], (read_matrix_block h1 h2 rest).2⟩) F G a.values hm
  have W2 := load_writeAll writeStringBlock .string (fun s => s.length < 2 ^ 32)
    (fun n v rest h1 h2 => ⟨(read_string_block h1 h2 rest).1,
      by simp [writeStringBlock, h1], (read_string_block h1 h2 rest).2⟩) F G a.strings hstr
  have hsave : (save a F).bytes =
      (writeAll writeMatrixBlock F a.values).bytes ++ (writeAll writeStringBlock F a.strings).bytes := by
    unfold save
    have h1 := (W1 empty []).1
    have h2 := (W2 empty []).1
    cases hw : writeAll writeMatrixBlock F a.values with
    | mk bs r => rw [hw] at h1; simp only at h1; subst h1; simp
  refine ⟨storeAll .string F G (storeAll .matrix F G b a.values) a.strings, ?_, fun rest => ?_⟩
  · rw [hsave, (W1 b _).2]
    have := (W2 (storeAll .matrix F G b a.values) []).2
    rw [List.append_nil] at this
    rw [this]; rfl
  · rw [hsave, List.append_assoc, (W1 b _).2, (W2 _ _).2]

/-- C24: a wrong start mark after any good file content makes `load` throw, keeping what the good
content stored. -/
theorem C24_bad_start (a b : Archive) (F G : List Name) (ha : Reachable a)
    (hs : Savable a F) (x : Byte) (junk : List Byte) (hx : x ≠ 65 ∧ x ≠ 83) :
    ∃ c, load b G (save a F).bytes = .ok c ∧
      load b G ((save a F).bytes ++ x :: junk) = .threw c := by
  obtain ⟨c, h1, h2⟩ := load_after a b F G ha hs
  refine ⟨c, h1, ?_⟩
  rw [h2]
  unfold load
  simp only [List.length_cons, loadLoop]
  have : readBlock (x :: junk) = .threw := by
    unfold readBlock
    have h1 : readBytes 1 (x :: junk) = some ([x], junk) := readBytes_append' 1 [x] junk rfl
    rw [h1]
    simp only
    rw [if_neg (by simpa [magicString] using hx.2), if_neg (by simpa [magicMatrix] using hx.1)]
  rw [this]

/-- a string block with a wrong end mark -/
theorem load_bad_string_end (b : Archive) (G : List Name) (n : Name) (s : List Byte) (e : Byte) (junk : List Byte)
    (hn : GoodName n) (hs : s.length < 2 ^ 32) (he : e ≠ 66) :
    load b G ((writeStringBlock n s).bytes.dropLast ++ e :: junk) = .threw b := by
  have hv := (goodName_iff n).2 hn
  have hl := (valid_chars hv).1
  have e1 : s.length % 2 ^ 32 = s.length := Nat.mod_eq_of_lt hs
  have hbytes : (writeStringBlock n s).bytes.dropLast ++ e :: junk =
      [magicString] ++ (paddedName n ++ (leBytes 4 s.length ++ (s ++ ([e] ++ junk)))) := by
    simp only [writeStringBlock, hv, if_true, e1, List.take_length]
    rw [← List.cons_append, List.dropLast_concat]
    simp
  rw [hbytes]
  unfold load
  have hrb : readBlock ([magicString] ++ (paddedName n ++ (leBytes 4 s.length ++ (s ++ ([e] ++ junk))))) = .threw := by
    unfold readBlock
    rw [readBytes_append' 1 [magicString] _ rfl]
    simp only [if_true]
    rw [readBytes_append' fixedNameSize (paddedName n) _ (paddedName_length hl)]
    simp only
    unfold readString
    rw [readBytes_append' 4 (leBytes 4 s.length) _ (leBytes_length _ _)]
    simp only
    rw [leNat_leBytes 4 s.length (by omega), readBytes_append' s.length s _ rfl]
    simp only
    unfold readEnd
    rw [readBytes_append' 1 [e] junk rfl]
    simp only
    rw [if_neg (by simpa [magicEnd] using he)]
  simp only [List.cons_append, List.nil_append, List.length_cons, loadLoop] at hrb ⊢
  rw [hrb]

/-- a matrix block with a wrong end mark -/
theorem load_bad_matrix_end (b : Archive) (G : List Name) (n : Name) (m : Mat) (e : Byte) (junk : List Byte)
    (hn : GoodName n) (hm : m.Fits) (he : e ≠ 66) :
    load b G ((writeMatrixBlock n m).bytes.dropLast ++ e :: junk) = .threw b := by
  have hv := (goodName_iff n).2 hn
  obtain ⟨hwf, hr, hc, hs⟩ := hm
  unfold Mat.WF at hwf
  have hl := (valid_chars hv).1
  have e1 : m.rows % 2 ^ 32 = m.rows := Nat.mod_eq_of_lt hr
  have e2 : m.cols % 2 ^ 32 = m.cols := Nat.mod_eq_of_lt hc
  have hrc : m.rows * m.cols < 2 ^ 32 := by omega
  have e3 : m.rows * m.cols % 2 ^ 32 = m.rows * m.cols := Nat.mod_eq_of_lt hrc
  have e4 : m.rows * m.cols * 8 % 2 ^ 32 = m.rows * m.cols * 8 := Nat.mod_eq_of_lt hs
  have ht : (dataBytes m.data).take (m.rows * m.cols * 8) = dataBytes m.data := by
    apply List.take_of_length_le
    rw [dataBytes_length, hwf]; omega
  have hbytes : (writeMatrixBlock n m).bytes.dropLast ++ e :: junk =
      [magicMatrix] ++ (paddedName n ++ (leBytes 4 m.rows ++ (leBytes 4 m.cols ++ (dataBytes m.data ++ ([e] ++ junk))))) := by
    simp only [writeMatrixBlock, hv, if_true, e1, e2, e3, e4, ht]
    rw [← List.cons_append, List.dropLast_concat]
    simp
  rw [hbytes]
  unfold load
  have hrb : readBlock ([magicMatrix] ++ (paddedName n ++ (leBytes 4 m.rows ++ (leBytes 4 m.cols ++ (dataBytes m.data ++ ([e] ++ junk)))))) = .threw := by
    unfold readBlock
    rw [readBytes_append' 1 [magicMatrix] _ rfl]
    simp only
    rw [if_neg (by decide), if_pos trivial]
    rw [readBytes_append' fixedNameSize (paddedName n) _ (paddedName_length hl)]
    simp only
    unfold readMatrix
    rw [readBytes_append' 4 (leBytes 4 m.rows) _ (leBytes_length _ _)]
    simp only
    rw [readBytes_append' 4 (leBytes 4 m.cols) _ (leBytes_length _ _)]
    simp only
    rw [leNat_leBytes 4 m.rows (by omega), leNat_leBytes 4 m.cols (by omega), if_pos hrc, e3]
    rw [readBytes_append' (m.rows * m.cols * 8) (dataBytes m.data) _ (by rw [dataBytes_length, hwf]; omega)]
    simp only
    unfold readEnd
    rw [readBytes_append' 1 [e] junk rfl]
    simp only
    rw [if_neg (by simpa [magicEnd] using he)]
  simp only [List.cons_append, List.nil_append, List.length_cons, loadLoop] at hrb ⊢
  rw [hrb]

/-- C24: a block, of either kind, whose end mark was overwritten makes `load` throw, wherever in the file it is and whether or not its
name is selected; the archive has then exactly what the blocks before it stored. -/
theorem C24_bad_end (a b : Archive) (F G : List Name) (ha : Reachable a) (hs : Savable a F) (n : Name) (hn : GoodName n) (e : Byte)
    (he : e ≠ 66) (junk : List Byte) :
    ∃ c, load b G (save a F).bytes = .ok c ∧
      (∀ s : List Byte, s.length < 2 ^ 32 → load b G ((save a F).bytes ++ ((writeStringBlock n s).bytes.dropLast ++ e :: junk)) = .threw c) ∧
      (∀ m : Mat, m.Fits → load b G ((save a F).bytes ++ ((writeMatrixBlock n m).bytes.dropLast ++ e :: junk)) = .threw c) := by
  obtain ⟨c, h1, h2⟩ := load_after a b F G ha hs
  refine ⟨c, h1, fun s hl => ?_, fun m hm => ?_⟩
  · rw [h2]; exact load_bad_string_end c G n s e junk hn hl he
  · rw [h2]; exact load_bad_matrix_end c G n m e junk hn hm he

/-- The claim of C24 that corrupt input is always rejected, for truncated files. -/
def C24_truncation_claim : Prop :=
  ∀ (n : Name) (m : Mat) (k : Nat), GoodName n → m.Fits → 0 < k →
    k < (writeMatrixBlock n m).bytes.length →
    ∃ b, load empty [] ((writeMatrixBlock n m).bytes.take k) = .threw b

/-- a file that is the beginning of one block -/
theorem load_cut_block (a : Archive) (G : List Name) {bs : List Byte} {n : Name} {blk : Block} (hr : readBlock bs = .block n blk []) (k : Nat)
    (h0 : 0 < k) (hk : k < bs.length) : load a G (bs.take k) = .ub := by
  have := readBlock_take (k := k) hr (by simpa using hk)
  unfold load
  cases hb : bs.take k with
  | nil =>
    have := congrArg List.length hb
    simp at this
    rcases this with h | h
    · omega
    · rw [h] at hk; simp at hk
  | cons x xs =>
    rw [hb] at this
    simp only [List.length_cons, loadLoop, this]

/-- C24: every file that ends in the middle of a block, of either kind and behind whatever good content, makes `load` use
uninitialised memory instead of throwing. -/
theorem C24_truncation_ub (a b : Archive) (F G : List Name) (ha : Reachable a) (hs : Savable a F) (n : Name) (hn : GoodName n) (k : Nat) (h0 : 0 < k) :
    (∀ m : Mat, m.Fits → k < (writeMatrixBlock n m).bytes.length →
      load b G ((save a F).bytes ++ (writeMatrixBlock n m).bytes.take k) = .ub) ∧
    (∀ s : List Byte, s.length < 2 ^ 32 → k < (writeStringBlock n s).bytes.length →
      load b G ((save a F).bytes ++ (writeStringBlock n s).bytes.take k) = .ub) := by
  obtain ⟨c, -, h2⟩ := load_after a b F G ha hs
  have hv := (goodName_iff n).2 hn
  constructor
  · intro m hm hk
    have hr := (read_matrix_block hv hm []).2
    rw [List.append_nil] at hr
    rw [h2]; exact load_cut_block c G hr k h0 hk
  · intro s hl hk
    have hr := (read_string_block hv hl []).2
    rw [List.append_nil] at hr
    rw [h2]; exact load_cut_block c G hr k h0 hk

theorem C24_truncation_negation : ¬ C24_truncation_claim := by
  intro h
  have hg : GoodName nameA := (goodName_iff _).1 (by decide)
  have hf : (⟨1, 1, [5]⟩ : Mat).Fits := ⟨rfl, by decide, by decide, by decide⟩
  obtain ⟨b, hb⟩ := h nameA ⟨1, 1, [5]⟩ 10 hg hf (by decide) (by decide)
  rw [load_cut_block empty [] (by simpa using (read_matrix_block ((goodName_iff _).2 hg) hf []).2) 10 (by decide) (by decide)] at hb
  cases hb

/-- a file cut in its second block, and one whose second block has a wrong end mark -/
example : (∀ b, load b [] ((save exampleArchive []).bytes ++ (writeStringBlock nameA [1, 2]).bytes.take 20) = .ub) ∧
    ∀ b, ∃ c, load b [] ((save exampleArchive []).bytes ++ ((writeMatrixBlock nameB ⟨1, 1, [5]⟩).bytes.dropLast ++ [0])) = .threw c := by
  have hg : GoodName nameA := (goodName_iff _).1 (by decide)
  have hg' : GoodName nameB := (goodName_iff _).1 (by decide)
  exact ⟨fun b => (C24_truncation_ub _ b [] [] exampleArchive_ok.1 exampleArchive_ok.2 nameA hg 20 (by decide)).2 [1, 2] (by decide) (by decide),
    fun b => by
      obtain ⟨c, -, -, h⟩ := C24_bad_end _ b [] [] exampleArchive_ok.1 exampleArchive_ok.2 nameB hg' 0 (by decide) []
      exact ⟨c, h ⟨1, 1, [5]⟩ ⟨rfl, by decide, by decide, by decide⟩⟩⟩

/-- `createMatrix` accepts unacceptable names; `save` then throws part-way (after one byte of the
offending block). -/
theorem C24_createMatrix_breaks_save :
    ∃ a, Reachable a ∧ (save a []).res = .threw := by
  refine ⟨(createMatrix empty [49] ⟨0, 0, []⟩ false).2,
    Reachable.step (op := .createMatrix [49] ⟨0, 0, []⟩ false) .init rfl rfl, by decide⟩

end Verif.Archive
