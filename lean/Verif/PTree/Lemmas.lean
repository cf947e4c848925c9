import Verif.PTree.Spec

namespace Verif.PTree

/-! ## path strings -/

theorem reduceAll_eq (sep : Char) (s : Str) : reduceAll sep s = names sep s := by
  induction s using reduceAll.induct sep with
  | case1 => simp [reduceAll, names]
  | case2 cs ih =>
    unfold reduceAll
    simp only [if_pos, ih, names, List.splitOn_cons_eq_if_modifyHead, beq_self_eq_true]
    have h := List.splitOn_ne_nil sep cs
    cases h' : List.splitOn sep cs with
    | nil => exact absurd h' h
    | cons x xs => simp only [List.getLast?_cons_cons, List.dropLast_cons_cons]; split <;> rfl
  | case3 c hc =>
    simp [reduceAll, hc, names, List.splitOn_cons_eq_if_modifyHead, List.modifyHead]
  | case4 c hc ds ih =>
    unfold reduceAll
    simp only [if_neg hc, if_pos, ih, names, List.splitOn_cons_eq_if_modifyHead, beq_self_eq_true]
    have h := List.splitOn_ne_nil sep ds
    cases h' : List.splitOn sep ds with
    | nil => exact absurd h' h
    | cons x xs =>
      simp only [beq_iff_eq, hc, if_false, List.modifyHead_cons, List.getLast?_cons_cons, List.dropLast_cons_cons]; split <;> rfl
  | case5 c hc d ds hd h ih =>
    exfalso
    rw [ih] at h
    simp only [names, List.splitOn_cons_eq_if_modifyHead, beq_iff_eq, hd, if_false] at h
    have h0 := List.splitOn_ne_nil sep ds
    cases h' : List.splitOn sep ds with
    | nil => exact absurd h' h0
    | cons x xs =>
      rw [h'] at h; cases xs <;> simp at h; split at h <;> simp at h
  | case6 c hc d ds hd f fs h ih =>
    unfold reduceAll
    simp only [if_neg hc, if_neg hd, h]
    rw [ih] at h
    simp only [names] at h ⊢
    rw [List.splitOn_cons_eq_if_modifyHead (x := c)]
    simp only [beq_iff_eq, hc, if_false]
    have h0 := List.splitOn_ne_nil sep (d :: ds)
    cases h' : List.splitOn sep (d :: ds) with
    | nil => exact absurd h' h0
    | cons x xs =>
      rw [h'] at h
      cases xs with
      | nil =>
        simp at h; split at h <;> simp_all
      | cons y ys =>
        simp only [List.modifyHead_cons, List.getLast?_cons_cons, List.dropLast_cons_cons] at h ⊢
        split at h <;> split <;> simp_all

theorem names_append (sep : Char) (a b : Str) :
    names sep (a ++ sep :: b) = a.splitOn sep ++ names sep b := by
  simp only [names, List.splitOn_append_cons_self]
  have h := List.splitOn_ne_nil sep b
  rw [List.dropLast_append_of_ne_nil h]
  have : (List.splitOn sep a ++ List.splitOn sep b).getLast? = (List.splitOn sep b).getLast? := by
    rw [List.getLast?_append, List.getLast?_eq_some_getLast h]; rfl
  rw [this]
  split <;> rfl

theorem splitOn_getLast (sep : Char) (a : Str) :
    (a.splitOn sep).getLast? = some [] ↔ a = [] ∨ a.getLast? = some sep := by
  induction a with
  | nil => simp
  | cons x xs ih =>
    rw [List.splitOn_cons_eq_if_modifyHead]
    have h := List.splitOn_ne_nil sep xs
    cases h' : List.splitOn sep xs with
    | nil => exact absurd h' h
    | cons y ys =>
      rw [h'] at ih
      by_cases hx : x = sep
      · subst hx
        cases xs with
        | nil => simp_all
        | cons a as => simp [List.getLast?_cons_cons] at ih ⊢; exact ih
      · simp only [beq_iff_eq, hx, if_false, List.modifyHead_cons]
        cases xs with
        | nil => simp at h'; simp [h', hx]
        | cons a as =>
          simp only [List.getLast?_cons_cons, reduceCtorEq, false_or] at ih ⊢
          rw [← ih]
          cases ys with
          | nil =>
            simp
            intro hy
            subst hy
            have := List.intercalate_splitOn (xs := a :: as) sep
            rw [h'] at this
            simp at this
          | cons z zs => simp [List.getLast?_cons_cons]

theorem splitOn_eq_names (sep : Char) (a : Str) (h : a ≠ []) (h' : a.getLast? ≠ some sep) :
    a.splitOn sep = names sep a := by
  have := splitOn_getLast sep a
  simp [names]; intro h2; simp_all

theorem names_single (sep : Char) (k : Str) (h : k ≠ []) (h' : sep ∉ k) : names sep k = [k] := by
  rw [names, List.splitOn_eq_singleton h']; simp [h]

/-! ## trees -/

theorem findKid_setKid (ks : List (Key × Tree)) (k k' : Key) (t : Tree) :
    findKid (setKid ks k t) k' = if k' = k then some t else findKid ks k' := by
  induction ks with
  | nil => simp [setKid, findKid]
  | cons a rest ih =>
    obtain ⟨x, u⟩ := a
    simp only [setKid]
    split <;> simp only [findKid, ih] <;> grind

@[simp] theorem getChild_nil (t : Tree) : getChild t [] = some t := rfl
theorem getChild_cons (t : Tree) (f : Key) (fs : List Key) :
    getChild t (f :: fs) = (findKid t.kids f).bind (getChild · fs) := by
  simp only [getChild]; cases findKid t.kids f <;> rfl

theorem getData_cons (t : Tree) (f : Key) (fs : List Key) :
    getData t (f :: fs) = (findKid t.kids f).bind (getData · fs) := by
  simp only [getData, getChild_cons]; cases findKid t.kids f <;> rfl
theorem getData_nil (t : Tree) : getData t [] = some t.data := rfl

theorem getData_empty (q : List Key) : getData .empty q = if q = [] then some [] else none := by
  cases q with
  | nil => rfl
  | cons f fs => simp [getData_cons, Tree.empty, Tree.kids, findKid]

theorem getData_isSome (t : Tree) (p : List Key) : (getData t p).isSome = (getChild t p).isSome := by
  simp [getData]

theorem getData_putFrags (p : List Key) (v : Str) : ∀ (t : Tree) (q : List Key),
    getData (putFrags t p v) q =
      if q = p then some v
      else match getData t q with
        | some d => some d
        | none => if q <+: p then some [] else none := by
  induction p with
  | nil =>
    intro t q
    cases q with
    | nil => rfl
    | cons g gs => simp only [putFrags, getData_cons, Tree.kids, reduceCtorEq, if_false]; cases Option.bind _ _ <;> simp
  | cons f fs ih =>
    intro t q
    cases q with
    | nil => simp [putFrags, getData_nil, Tree.data]
    | cons g gs =>
      obtain ⟨d, ks⟩ := t
      simp only [putFrags, getData_cons, Tree.kids, findKid_setKid, List.cons.injEq, List.cons_prefix_cons]
      by_cases hgf : g = f
      · subst hgf
        simp only [if_true, Option.bind_some, ih, true_and]
        cases h : findKid ks g with
        | some c => rfl
        | none =>
          simp only [Option.getD_none, getData_empty, Option.bind_none]
          cases gs with
          | nil => cases fs <;> simp
          | cons a as => rfl
      · simp only [hgf, false_and, if_false]
        cases Option.bind _ _ <;> rfl

theorem setKid_same (ks : List (Key × Tree)) (k : Key) (t : Tree) (h : findKid ks k = some t) :
    setKid ks k t = ks := by
  induction ks with
  | nil => simp [findKid] at h
  | cons a rest ih =>
    obtain ⟨x, u⟩ := a
    simp only [findKid, setKid] at h ⊢
    split at h
    · simp_all
    · simp_all

/-- writing the value an entry already has changes nothing at all -/
theorem putFrags_same (p : List Key) (v : Str) : ∀ t : Tree, getData t p = some v → putFrags t p v = t := by
  induction p with
  | nil =>
    intro t h
    obtain ⟨d, ks⟩ := t
    simp [getData_nil, Tree.data] at h
    simp [putFrags, Tree.kids, h]
  | cons f fs ih =>
    intro t h
    obtain ⟨d, ks⟩ := t
    simp only [getData_cons, Tree.kids] at h
    simp only [putFrags, Tree.kids, Tree.data]
    cases h' : findKid ks f with
    | none => simp [h'] at h
    | some c =>
      simp [h'] at h
      simp [ih c h, setKid_same ks f c h']

end Verif.PTree
