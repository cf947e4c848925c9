import Verif.Archive.Props

/-!
# The views of an archive in Python (C124)

`sm_python/src/exportMatrixArchive.cpp`.  A Python dictionary is the list of its items in the order of insertion.  The conversions of matrices to numpy arrays and of strings to Python strings are not modelled (values stay as they are).
-/

namespace Verif.Archive

/-- a Python dictionary -/
abbrev Dict (V : Type) := List (Name × V)

/-- `d[k] = v`: a new key goes to the end, a present one keeps its place -/
def Dict.set {V : Type} (d : Dict V) (k : Name) (v : V) : Dict V :=
  match d with
  | [] => [(k, v)]
  | (k', v') :: rest => if k = k' then (k', v) :: rest else (k', v') :: Dict.set rest k v

/-- `d[k]`; `none`: KeyError -/
def Dict.get {V : Type} (d : Dict V) (k : Name) : Option V :=
  match d with
  | [] => none
  | (k', v') :: rest => if k = k' then some v' else Dict.get rest k

/-- `list(d)` -/
def Dict.keys {V : Type} (d : Dict V) : List Name := d.map (·.1)

/-- `getNameList` (exportMatrixArchive.cpp:34-43) -/
def getNameList (a : Archive) : List Name := a.values.foldl (fun l p => l ++ [p.1]) []

/-- `asDict` (45-54) -/
def asDict (a : Archive) : Dict Mat := a.values.foldl (fun d p => d.set p.1 p.2) []

/-- `stringsAsDict` (56-65) -/
def stringsAsDict (a : Archive) : Dict (List Byte) := a.strings.foldl (fun d p => d.set p.1 p.2) []

/-- `stlToList` (sm_python/include/sm/python/stl_converters.hpp:10-22) -/
def stlToList {V : Type} (items : List V) (outlist : List V) : List V := items.foldl (fun l x => l ++ [x]) outlist

/-- `stlToDict` (24-32) -/
def stlToDict {V : Type} (items : List (Name × V)) (out : Dict V) : Dict V := items.foldl (fun d p => d.set p.1 p.2) out

/-! ## lemmas -/

theorem Dict.get_set {V : Type} (d : Dict V) (k : Name) (v : V) (k' : Name) : (d.set k v).get k' = if k' = k then some v else d.get k' := by
  induction d with
  | nil => simp [Dict.set, Dict.get]
  | cons p ps ih =>
    obtain ⟨n, x⟩ := p
    simp only [Dict.set]
    split
    · rename_i h; subst h
      simp only [Dict.get]
      split <;> rfl
    · rename_i h
      simp only [Dict.get, ih]
      by_cases h1 : k' = n
      · subst h1
        simp [Ne.symm h]
      · simp [h1]

theorem Dict.set_new {V : Type} (d : Dict V) (k : Name) (v : V) (h : k ∉ d.keys) : d.set k v = d ++ [(k, v)] := by
  induction d with
  | nil => rfl
  | cons p ps ih =>
    obtain ⟨n, x⟩ := p
    simp only [Dict.keys, List.map_cons, List.mem_cons, not_or] at h
    simp only [Dict.set, if_neg h.1, List.cons_append]
    rw [ih h.2]

theorem Dict.get_isSome {V : Type} (d : Dict V) (k : Name) : (d.get k).isSome = true ↔ k ∈ d.keys := by
  induction d with
  | nil => simp [Dict.get, Dict.keys]
  | cons p ps ih =>
    obtain ⟨n, x⟩ := p
    simp only [Dict.get, Dict.keys, List.map_cons, List.mem_cons] at ih ⊢
    split
    · rename_i h; simp [h]
    · rename_i h; rw [ih]; simp [h]

/-- filling a dictionary with new, distinct keys appends the items -/
theorem Dict.fill {V : Type} : ∀ (m : List (Name × V)) (d : Dict V), (m.map (·.1)).Nodup → (∀ k ∈ m.map (·.1), k ∉ d.keys) → m.foldl (fun d p => Dict.set d p.1 p.2) d = d ++ m
  | [], d, _, _ => by simp
  | (k, v) :: m, d, hn, hd => by
    simp only [List.map_cons, List.nodup_cons, List.mem_cons, forall_eq_or_imp] at hn hd
    simp only [List.foldl_cons]
    rw [Dict.set_new d k v hd.1, Dict.fill m (d ++ [(k, v)]) hn.2]
    · simp
    · intro k' hk'
      have h1 := hd.2 k' hk'
      simp only [Dict.keys, List.map_append, List.map_cons, List.map_nil, List.mem_append, List.mem_singleton, not_or] at h1 ⊢
      refine ⟨h1, ?_⟩
      rintro rfl
      exact hn.1 hk'

theorem lookup_eq_get {V : Type} (m : Map V) (k : Name) : lookup m k = Dict.get m k := by
  induction m with
  | nil => rfl
  | cons p ps ih =>
    obtain ⟨n, x⟩ := p
    simp only [lookup, Dict.get, ih]

theorem sorted_keys {V : Type} {m : Map V} (h : Sorted m) : (m.map (·.1)).Pairwise fun a b => nameLt a b = true :=
  List.pairwise_map.2 h

theorem sorted_nodup {V : Type} {m : Map V} (h : Sorted m) : (m.map (·.1)).Nodup :=
  (sorted_keys h).imp fun h => nameLt_ne h

theorem append_fold {V : Type} (f : V → Name) (m : List V) (l : List Name) : m.foldl (fun l p => l ++ [f p]) l = l ++ m.map f := by
  induction m generalizing l with
  | nil => simp
  | cons p ps ih => simp [ih]

/-! ## C124 -/

/-- **C124** The name list has the names of the matrices, sorted and without repetition: exactly those for which `getMatrix` returns. (The names of the strings are not in it.) -/
theorem C124_names (a : Archive) (ha : Reachable a) :
    (getNameList a).Pairwise (fun x y => nameLt x y = true) ∧ ∀ n, n ∈ getNameList a ↔ (getMatrix a n).isSome = true := by
  have ia := inv_reachable ha
  have e : getNameList a = a.values.map (·.1) := by unfold getNameList; rw [append_fold]; rfl
  refine ⟨by rw [e]; exact sorted_keys ia.sv, fun n => ?_⟩
  rw [e, getMatrix, lookup_eq_get, Dict.get_isSome]
  rfl

/-- **C124** The dictionary has the same names in the same order, and its values are what `getMatrix` returns; other keys are a KeyError exactly where `getMatrix` throws. -/
theorem C124_matrices (a : Archive) (ha : Reachable a) : (asDict a).keys = getNameList a ∧ ∀ n, (asDict a).get n = getMatrix a n := by
  have ia := inv_reachable ha
  have e : asDict a = a.values := by
    unfold asDict
    rw [Dict.fill _ _ (sorted_nodup ia.sv) (by simp [Dict.keys])]
    rfl
  refine ⟨?_, fun n => ?_⟩
  · rw [e, getNameList, append_fold]; rfl
  · rw [e, getMatrix, lookup_eq_get]

/-- **C124** Likewise the dictionary of the strings. -/
theorem C124_strings (a : Archive) (ha : Reachable a) :
    (stringsAsDict a).keys.Pairwise (fun x y => nameLt x y = true) ∧ ∀ n, (stringsAsDict a).get n = getString a n := by
  have ia := inv_reachable ha
  have e : stringsAsDict a = a.strings := by
    unfold stringsAsDict
    rw [Dict.fill _ _ (sorted_nodup ia.ss) (by simp [Dict.keys])]
    rfl
  refine ⟨?_, fun n => ?_⟩
  · rw [e]; exact sorted_keys ia.ss
  · rw [e, getString, lookup_eq_get]

/-- **C124** `size()` counts both dictionaries. -/
theorem C124_size (a : Archive) (ha : Reachable a) : size a = (asDict a).length + (stringsAsDict a).length ∧ (getNameList a).length = (asDict a).length := by
  have ia := inv_reachable ha
  have e1 : asDict a = a.values := by
    unfold asDict
    rw [Dict.fill _ _ (sorted_nodup ia.sv) (by simp [Dict.keys])]
    rfl
  have e2 : stringsAsDict a = a.strings := by
    unfold stringsAsDict
    rw [Dict.fill _ _ (sorted_nodup ia.ss) (by simp [Dict.keys])]
    rfl
  have e3 : getNameList a = a.values.map (·.1) := by unfold getNameList; rw [append_fold]; rfl
  rw [e1, e2, e3, size, List.length_map]
  exact ⟨Nat.add_comm _ _, rfl⟩

/-- **C124** The converters of the library add to what is there: the list gets the items in order at its end, the dictionary the items of the map, other keys keep their values. -/
theorem C124_converters {V : Type} (items : List V) (l : List V) (m : Map V) (hm : Sorted m) (d : Dict V) :
    stlToList items l = l ++ items ∧ ∀ n, (stlToDict m d).get n = (lookup m n).or (d.get n) := by
  constructor
  · unfold stlToList
    induction items generalizing l with
    | nil => simp
    | cons x xs ih => simp [ih]
  · unfold stlToDict
    induction m generalizing d with
    | nil => intro n; simp [lookup]
    | cons p ps ih =>
      intro n
      obtain ⟨k, v⟩ := p
      rw [Sorted, List.pairwise_cons] at hm
      simp only [List.foldl_cons]
      rw [ih hm.2, Dict.get_set]
      simp only [lookup]
      by_cases h : n = k
      · subst h
        have : lookup ps n = none := lookup_none_of_lt fun q hq => hm.1 q hq
        simp [this]
      · simp [h]

example : Reachable exampleArchive ∧ getNameList exampleArchive = [nameA] ∧ (stringsAsDict exampleArchive).keys = [nameB] ∧ size exampleArchive = 2 := by
  refine ⟨?_, by decide, by decide, by decide⟩
  have h1 : Reachable (setMatrix empty nameA ⟨2, 1, [1, 2]⟩).2 := Reachable.step (op := .setMatrix nameA ⟨2, 1, [1, 2]⟩) .init rfl rfl
  have h2 := Reachable.step (op := .setString nameB [0, 255]) h1 trivial rfl
  exact h2

example : stlToDict [(nameA, 1), (nameB, 2)] [(nameB, 5), ([], 7)] = [(nameB, 2), ([], 7), (nameA, 1)] := by decide

end Verif.Archive
