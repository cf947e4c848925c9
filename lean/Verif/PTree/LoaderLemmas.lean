import Verif.PTree.Loader
import Verif.PTree.Update

namespace Verif.PTree.Loader

open Verif.PTree

attribute [local irreducible] parentsOf readParents update splitComma isUpdateOnly resolve bareName

/-- a statement about the state after a normal or exceptional end -/
def Res.Holds (Q T : St → Prop) : Res → Prop
  | .ok st => Q st
  | .threw st => T st
  | .ub => True
  | .outOfFuel => True

theorem readList_inv (lf : St → Str → Str → Res) (Q T : St → Prop)
    (h : ∀ st f rel, f ≠ [] → f ∉ st.ignore → Q st → (lf { st with ignore := f :: st.ignore } f rel).Holds Q T)
    (rel : Str) (fs : List Str) : ∀ st, Q st → (readList lf st rel fs).Holds Q T := by
  induction fs with
  | nil => intro st hq; exact hq
  | cons f fs ih =>
    intro st hq
    unfold readList
    split
    · exact ih st hq
    · rename_i hf
      simp only [not_or] at hf
      have := h st f rel hf.1 hf.2 hq
      split
      · rename_i st' he
        rw [he] at this
        exact ih st' this
      · exact this

theorem loader_inv (E : Env) (load : Str → Option Tree) (Q T : St → Prop)
    (hload : ∀ st f, f ≠ [] → f ∉ st.ignore → Q st →
      Q { st with ignore := f :: st.ignore, loads := st.loads ++ [f] })
    (hupd : ∀ st f rel t, load (resolve E (bareName f) rel) = some t → Q st → (updateOrSet st f t).Holds Q T)
    (hT : ∀ st, Q st → T st) : ∀ fuel st f rel, f ≠ [] → f ∉ st.ignore → Q st →
      (loadFile E load fuel { st with ignore := f :: st.ignore } f rel).Holds Q T := by
  intro fuel
  induction fuel with
  | zero => intros; trivial
  | succ fuel ih =>
    intro st f rel h1 h2 hq
    have hq' := hload st f h1 h2 hq
    unfold loadFile
    simp only
    split
    · exact hT _ hq'
    · rename_i t ht
      split
      · exact hupd _ f rel t ht hq'
      · have := readList_inv (loadFile E load fuel) Q T ih (resolve E (bareName f) rel) (splitComma (parentsOf t)) _ hq'
        split
        · rename_i st' he
          rw [he] at this
          exact hupd _ f rel t ht this
        · exact this

theorem readAll_inv (E : Env) (load : Str → Option Tree) (Q T : St → Prop)
    (hload : ∀ st f, f ≠ [] → f ∉ st.ignore → Q st →
      Q { st with ignore := f :: st.ignore, loads := st.loads ++ [f] })
    (hupd : ∀ st f rel t, load (resolve E (bareName f) rel) = some t → Q st → (updateOrSet st f t).Holds Q T)
    (hT : ∀ st, Q st → T st) (h0 : Q ⟨.empty, false, [], [], []⟩) (fuel : Nat) (files : List Str) :
    (readAll E load fuel files).Holds Q T :=
  readList_inv _ Q T (loader_inv E load Q T hload hupd hT fuel) [] files _ h0

/-! ## fuel -/

/-- the ignore set only grows -/
theorem updateOrSet_ignore (st : St) (f : Str) (t : Tree) (st' : St) (h : updateOrSet st f t = .ok st') :
    st'.ignore = st.ignore := by
  unfold updateOrSet at h
  simp only at h
  split at h
  · split at h <;> cases h
    rfl
  · cases h; rfl

theorem updateOrSet_fuel (st : St) (f : Str) (t : Tree) : updateOrSet st f t ≠ .outOfFuel := by
  unfold updateOrSet
  simp only
  split
  · split <;> simp
  · simp

theorem readList_grows (lf : St → Str → Str → Res)
    (h : ∀ st f rel st', lf st f rel = .ok st' → ∀ n ∈ st.ignore, n ∈ st'.ignore) (rel : Str) (fs : List Str) :
    ∀ st st', readList lf st rel fs = .ok st' → ∀ n ∈ st.ignore, n ∈ st'.ignore := by
  induction fs with
  | nil => intro st st' he n hn; cases he; exact hn
  | cons f fs ih =>
    intro st st' he n hn
    unfold readList at he
    split at he
    · exact ih _ _ he n hn
    · split at he
      · rename_i st1 h1
        exact ih _ _ he n (h _ _ _ _ h1 n (List.mem_cons_of_mem _ hn))
      · rename_i h1; rw [he] at h1; simp at h1

theorem loadFile_grows (E : Env) (load : Str → Option Tree) (fuel : Nat) :
    ∀ st f rel st', loadFile E load fuel st f rel = .ok st' → ∀ n ∈ st.ignore, n ∈ st'.ignore := by
  induction fuel with
  | zero => intro _ _ _ _ h; cases h
  | succ fuel ih =>
    intro st f rel st' h n hn
    unfold loadFile at h
    simp only at h
    split at h
    · cases h
    · split at h
      · rw [updateOrSet_ignore _ _ _ _ h]; exact hn
      · split at h
        · rename_i st1 h1
          rw [updateOrSet_ignore _ _ _ _ h]
          exact readList_grows _ ih _ _ _ _ h1 n hn
        · rename_i h1; rw [h] at h1; simp at h1

/-- names of `U` not yet seen -/
def unseen (U : List Str) (st : St) : Nat := (U.filter fun n => decide (n ∉ st.ignore)).length

theorem unseen_mono (U : List Str) (st st' : St) (h : ∀ n ∈ st.ignore, n ∈ st'.ignore) :
    unseen U st' ≤ unseen U st := by
  unfold unseen
  induction U with
  | nil => simp
  | cons a U ih =>
    simp only [List.filter_cons]
    have := h a
    by_cases h1 : a ∈ st.ignore
    · simp [h1, this h1]; simpa using ih
    · by_cases h2 : a ∈ st'.ignore
      · simp [h1, h2] at ih ⊢; omega
      · simp [h1, h2] at ih ⊢; omega

theorem unseen_insert (U : List Str) (st : St) (f : Str) (hU : f ∈ U) (hf : f ∉ st.ignore) :
    unseen U { st with ignore := f :: st.ignore } + 1 ≤ unseen U st := by
  induction U with
  | nil => simp at hU
  | cons a U ih =>
    have hm : unseen U { st with ignore := f :: st.ignore } ≤ unseen U st :=
      unseen_mono U st _ (fun n hn => List.mem_cons_of_mem _ hn)
    unfold unseen at hm ih ⊢
    simp only [List.filter_cons, List.mem_cons] at hm ih ⊢
    by_cases ha : a = f
    · subst ha
      simp [hf] at hm ⊢; omega
    · have hU' : f ∈ U := by
        rcases List.mem_cons.1 hU with h | h
        · exact absurd h.symm ha
        · exact h
      have ih := ih hU'
      by_cases h1 : a ∈ st.ignore
      · simp [h1] at ih ⊢; omega
      · simp [h1, ha] at ih ⊢; omega

theorem readList_fuel (lf : St → Str → Str → Res) (U : List Str) (k : Nat)
    (hgrow : ∀ st f rel st', lf st f rel = .ok st' → ∀ n ∈ st.ignore, n ∈ st'.ignore)
    (h : ∀ st f rel, unseen U st + 1 ≤ k → lf st f rel ≠ .outOfFuel) (rel : Str) (fs : List Str) :
    ∀ st, (∀ f ∈ fs, f ∈ U) → unseen U st ≤ k → readList lf st rel fs ≠ .outOfFuel := by
  induction fs with
  | nil => intro st _ _; simp [readList]
  | cons f fs ih =>
    intro st hU hk
    unfold readList
    split
    · exact ih st (fun g hg => hU g (by simp [hg])) hk
    · rename_i hf
      simp only [not_or] at hf
      have hi := unseen_insert U st f (hU f (by simp)) hf.2
      split
      · rename_i st1 h1
        refine ih st1 (fun g hg => hU g (by simp [hg])) ?_
        have := unseen_mono U _ st1 (hgrow _ _ _ _ h1)
        omega
      · exact h _ f rel (by omega)

theorem loadFile_fuel (E : Env) (load : Str → Option Tree) (U : List Str)
    (hU : ∀ path t, load path = some t → ∀ n ∈ splitComma (parentsOf t), n ∈ U) (fuel : Nat) :
    ∀ st f rel, unseen U st + 1 ≤ fuel → loadFile E load fuel st f rel ≠ .outOfFuel := by
  induction fuel with
  | zero => intro _ _ _ h; omega
  | succ fuel ih =>
    intro st f rel hk
    unfold loadFile
    simp only
    split
    · simp
    · rename_i t ht
      split
      · exact updateOrSet_fuel _ _ _
      · have := readList_fuel (loadFile E load fuel) U fuel (loadFile_grows E load fuel) ih
          (resolve E (bareName f) rel) (splitComma (parentsOf t))
          { st with loads := st.loads ++ [f] } (hU _ t ht) (by unfold unseen at hk ⊢; simp only; omega)
        split
        · exact updateOrSet_fuel _ _ _
        · exact this

/-- more fuel changes nothing once the run ends -/
theorem readList_mono (lf lf' : St → Str → Str → Res)
    (h : ∀ st f rel, lf st f rel ≠ .outOfFuel → lf' st f rel = lf st f rel) (rel : Str) (fs : List Str) :
    ∀ st, readList lf st rel fs ≠ .outOfFuel → readList lf' st rel fs = readList lf st rel fs := by
  induction fs with
  | nil => intro st _; rfl
  | cons f fs ih =>
    intro st hne
    unfold readList at hne ⊢
    split
    · rename_i hf; simp only [hf, if_true] at hne; exact ih st hne
    · rename_i hf
      simp only [hf, if_false] at hne
      have hl : lf { st with ignore := f :: st.ignore } f rel ≠ .outOfFuel := by
        intro h; rw [h] at hne; simp at hne
      rw [h _ _ _ hl]
      cases hr : lf { st with ignore := f :: st.ignore } f rel with
      | ok st1 => rw [hr] at hne; exact ih st1 hne
      | threw _ => rfl
      | ub => rfl
      | outOfFuel => rfl

theorem loadFile_mono (E : Env) (load : Str → Option Tree) (fuel : Nat) :
    ∀ st f rel, loadFile E load fuel st f rel ≠ .outOfFuel →
      loadFile E load (fuel + 1) st f rel = loadFile E load fuel st f rel := by
  induction fuel with
  | zero => intro st f rel h; exact absurd rfl h
  | succ fuel ih =>
    intro st f rel hne
    conv => lhs; unfold loadFile
    conv => rhs; unfold loadFile
    unfold loadFile at hne
    simp only at hne ⊢
    cases hl : load (resolve E (bareName f) rel) with
    | none => rfl
    | some t =>
      simp only [hl] at hne ⊢
      split
      · rfl
      · rename_i hp
        simp only [hp, if_false] at hne
        rw [readList_mono _ _ ih]
        intro h; rw [h] at hne; simp at hne

theorem readAll_mono (E : Env) (load : Str → Option Tree) (files : List Str) (fuel : Nat)
    (h : readAll E load fuel files ≠ .outOfFuel) : ∀ k, readAll E load (fuel + k) files = readAll E load fuel files := by
  intro k
  induction k with
  | zero => rfl
  | succ k ih =>
    rw [← ih] at h ⊢
    exact readList_mono _ _ (loadFile_mono E load (fuel + k)) [] files _ h

/-! ## order -/

theorem readList_append (lf : St → Str → Str → Res) (rel : Str) (fs gs : List Str) : ∀ st,
    readList lf st rel (fs ++ gs) = match readList lf st rel fs with
      | .ok st' => readList lf st' rel gs
      | r => r := by
  induction fs with
  | nil => intro st; rfl
  | cons f fs ih =>
    intro st
    simp only [List.cons_append, readList]
    split
    · exact ih st
    · cases lf { st with ignore := f :: st.ignore } f rel with
      | ok st1 => exact ih st1
      | threw _ => rfl
      | ub => rfl
      | outOfFuel => rfl

def names (st : St) : List Str := st.done.map Merged.name

theorem updateOrSet_done {st : St} {f : Str} {t : Tree} {st' : St} (h : updateOrSet st f t = .ok st') :
    st'.done = st.done ++ [⟨f, t, isUpdateOnly f⟩] := by
  unfold updateOrSet at h
  simp only at h
  split at h
  · split at h <;> cases h
    rfl
  · cases h; rfl

/-- started and not finished -/
def Open (st : St) (n : Str) : Prop := n ∈ st.ignore ∧ n ∉ names st

/-- every merged file's parents were merged before it -/
def ParentsFirst (done : List Merged) : Prop :=
  ∀ d1 m d2, done = d1 ++ m :: d2 → ∀ p ∈ splitComma (parentsOf m.tree), p ≠ [] → p ∈ d1.map Merged.name

theorem ParentsFirst.snoc {done : List Merged} (h : ParentsFirst done) (m : Merged)
    (hm : ∀ p ∈ splitComma (parentsOf m.tree), p ≠ [] → p ∈ done.map Merged.name) : ParentsFirst (done ++ [m]) := by
  intro d1 m' d2 he p hp hp0
  rcases List.eq_nil_or_concat d2 with rfl | ⟨d2', x, rfl⟩
  · have := List.append_inj' he rfl
    obtain ⟨rfl, h2⟩ := this
    cases h2
    exact hm p hp hp0
  · have he' : done ++ [m] = (d1 ++ m' :: d2') ++ [x] := by rw [he]; simp
    have := List.append_inj' he' rfl
    exact h d1 m' d2' this.1 p hp hp0

section order
variable (E : Env) (load : Str → Option Tree) (rank : Str → Nat)

theorem readList_order (lf : St → Str → Str → Res) (r : Nat)
    (h : ∀ st f rel st', rank f < r → ParentsFirst st.done → f ∈ st.ignore → f ∉ names st →
      (∀ n ∈ names st, n ∈ st.ignore) →
      (∀ n, Open st n → rank f ≤ rank n) → lf st f rel = .ok st' →
      ParentsFirst st'.done ∧ (∃ d, st'.done = st.done ++ d) ∧ (∀ n ∈ names st', n ∈ st'.ignore) ∧ f ∈ names st' ∧
        ∀ n, Open st' n ↔ Open st n ∧ n ≠ f) (rel : Str) (fs : List Str) :
    ∀ st st', (∀ f ∈ fs, f ≠ [] → rank f < r) → ParentsFirst st.done → (∀ n ∈ names st, n ∈ st.ignore) →
      (∀ n, Open st n → r ≤ rank n) → readList lf st rel fs = .ok st' →
      ParentsFirst st'.done ∧ (∃ d, st'.done = st.done ++ d) ∧ (∀ n ∈ names st', n ∈ st'.ignore) ∧
        (∀ f ∈ fs, f ≠ [] → f ∈ names st') ∧ (∀ n, Open st' n ↔ Open st n) := by
  induction fs with
  | nil =>
    intro st st' _ hp hn _ he
    cases he
    exact ⟨hp, ⟨[], by simp⟩, hn, by simp, fun _ => Iff.rfl⟩
  | cons f fs ih =>
    intro st st' hr hp hn ho he
    unfold readList at he
    split at he
    · rename_i hf
      obtain ⟨i1, ⟨d, i2⟩, i0, i3, i4⟩ := ih st st' (fun g hg => hr g (by simp [hg])) hp hn ho he
      refine ⟨i1, ⟨d, i2⟩, i0, fun g hg hg0 => ?_, i4⟩
      rcases List.mem_cons.1 hg with rfl | hg
      · have hmem : g ∈ st.ignore := by rcases hf with h | h; exact absurd h hg0; exact h
        by_cases hd : g ∈ names st
        · unfold names at hd ⊢; rw [i2]; simp only [List.map_append, List.mem_append]; exact .inl hd
        · have := ho g ⟨hmem, hd⟩
          have := hr g (by simp) hg0
          omega
      · exact i3 g hg hg0
    · rename_i hf
      simp only [not_or] at hf
      split at he
      · rename_i st1 h1
        have hfn : f ∉ names st := fun h => hf.2 (hn f h)
        have hrf := hr f (by simp) hf.1
        obtain ⟨j1, ⟨d, j2⟩, hn1, j3, j4⟩ := h { st with ignore := f :: st.ignore } f rel st1 hrf hp (by simp) hfn
          (fun n hm => List.mem_cons_of_mem _ (hn n hm))
          (by
            rintro n ⟨hn1, hn2⟩
            rcases List.mem_cons.1 hn1 with rfl | hn1
            · exact Nat.le_refl _
            · have := ho n ⟨hn1, hn2⟩; omega) h1
        have hopen : ∀ n, Open st1 n ↔ Open st n := by
          intro n
          rw [j4]
          unfold Open
          simp only [List.mem_cons]
          constructor
          · rintro ⟨⟨h | h, h2⟩, h3⟩
            · exact absurd h h3
            · exact ⟨h, h2⟩
          · rintro ⟨h1, h2⟩
            exact ⟨⟨.inr h1, h2⟩, fun h => hf.2 (h ▸ h1)⟩
        obtain ⟨i1, ⟨d', i2⟩, i0, i3, i4⟩ := ih st1 st' (fun g hg => hr g (by simp [hg])) j1 hn1
          (fun n hn => ho n ((hopen n).1 hn)) he
        refine ⟨i1, ⟨d ++ d', by rw [i2, j2]; simp⟩, i0, fun g hg hg0 => ?_, fun n => (i4 n).trans (hopen n)⟩
        rcases List.mem_cons.1 hg with rfl | hg
        · unfold names at j3 ⊢; rw [i2]; simp only [List.map_append, List.mem_append]; exact .inl j3
        · exact i3 g hg hg0
      · rename_i h1; rw [he] at h1; simp at h1

theorem loadFile_order
    (hrank : ∀ f rel t, load (resolve E (bareName f) rel) = some t →
      ∀ p ∈ splitComma (parentsOf t), p ≠ [] → rank p < rank f) (hempty : splitComma [] = [[]]) (fuel : Nat) :
    ∀ st f rel st', ParentsFirst st.done → f ∈ st.ignore → f ∉ names st →
      (∀ n ∈ names st, n ∈ st.ignore) →
      (∀ n, Open st n → rank f ≤ rank n) → loadFile E load fuel st f rel = .ok st' →
      ParentsFirst st'.done ∧ (∃ d, st'.done = st.done ++ d) ∧ (∀ n ∈ names st', n ∈ st'.ignore) ∧ f ∈ names st' ∧
        ∀ n, Open st' n ↔ Open st n ∧ n ≠ f := by
  induction fuel with
  | zero => intro _ _ _ _ _ _ _ _ _ h; cases h
  | succ fuel ih =>
    intro st f rel st' hp hf hfn hn ho h
    -- the end of the call, from the state `st1` reached after reading the parents
    have fin : ∀ (st1 : St) (t : Tree), ParentsFirst st1.done → (∃ d, st1.done = st.done ++ d) →
        (∀ n ∈ names st1, n ∈ st1.ignore) → (∀ n, Open st1 n ↔ Open st n) →
        (∀ p ∈ splitComma (parentsOf t), p ≠ [] → p ∈ names st1) →
        updateOrSet st1 f t = .ok st' →
        ParentsFirst st'.done ∧ (∃ d, st'.done = st.done ++ d) ∧ (∀ n ∈ names st', n ∈ st'.ignore) ∧ f ∈ names st' ∧
          ∀ n, Open st' n ↔ Open st n ∧ n ≠ f := by
      intro st1 t a1 a2 a3 a4 a5 hu
      have hd := updateOrSet_done hu
      have hi := updateOrSet_ignore _ _ _ _ hu
      obtain ⟨d, a2⟩ := a2
      have hnames : names st' = names st1 ++ [f] := by unfold names; rw [hd]; simp
      have hopenf : f ∈ st1.ignore := ((a4 f).2 ⟨hf, hfn⟩).1
      refine ⟨?_, ⟨d ++ [⟨f, t, isUpdateOnly f⟩], by rw [hd, a2]; simp⟩, ?_, by rw [hnames]; simp, fun n => ?_⟩
      · rw [hd]; exact a1.snoc _ a5
      · intro n hm
        rw [hnames] at hm
        rw [hi]
        rcases List.mem_append.1 hm with hm | hm
        · exact a3 n hm
        · simp at hm; rw [hm]; exact hopenf
      · rw [← a4]
        unfold Open
        rw [hi, hnames]
        simp only [List.mem_append, List.mem_singleton, not_or, and_assoc]
    unfold loadFile at h
    simp only at h
    split at h
    · cases h
    · rename_i t ht
      split at h
      · rename_i hpar
        refine fin { st with loads := st.loads ++ [f] } t ?_ ⟨[], by simp⟩ ?_ (fun n => Iff.rfl) ?_ h
        · exact hp
        · exact hn
        · rw [hpar, hempty]; simp
      · split at h
        · rename_i st1 h1
          have := readList_order rank (loadFile E load fuel) (rank f)
            (fun st g rel st' _ h1 h2 h3 h4 h5 h6 => ih st g rel st' h1 h2 h3 h4 h5 h6)
            (resolve E (bareName f) rel) (splitComma (parentsOf t))
            { st with loads := st.loads ++ [f] } st1 (hrank f rel t ht) hp hn ho h1
          obtain ⟨b1, b2, b3, b4, b5⟩ := this
          exact fin st1 t b1 b2 b3 b5 b4 h
        · rename_i h1; rw [h] at h1; simp at h1

end order
/-! ## values -/

attribute [local semireducible] parentsOf readParents

theorem parents_path : (keyPath (qualify ['/'] parentsKey)) = ⟨[parentsKey], false⟩ := by decide

/-- the tree after the non-const `getString("parents", "")` -/
theorem readParents_tree (t : Tree) : (readParents t).2 =
    if (getData t [parentsKey]).isSome then t else putFrags t [parentsKey] [] := by
  unfold readParents getDefaultMut PTree.set
  rw [parents_path]
  cases h : getData t [parentsKey] with
  | some d => simp [strCodec]
  | none =>
    have : put t ⟨[parentsKey], false⟩ [] = some (putFrags t [parentsKey] []) := by
      unfold put; split <;> simp
    simp [strCodec, this]

theorem GoodKids_append (ks : List (Key × Tree)) (k : Key) (t : Tree) (h : GoodKids ks) (hk : k ≠ [])
    (hd : '.' ∉ k) (ht : GoodKeys t) (hf : findKid ks k = none) :
    GoodKids (setKid ks k t) ∧ (setKid ks k t).map Prod.fst = ks.map Prod.fst ++ [k] ∧ k ∉ ks.map Prod.fst := by
  induction ks with
  | nil => simp [setKid, GoodKids, hk, hd, ht]
  | cons a rest ih =>
    obtain ⟨x, u⟩ := a
    unfold GoodKids at h
    simp only [findKid] at hf
    split at hf
    · cases hf
    · rename_i hx
      obtain ⟨i1, i2, i3⟩ := ih h.2.2.2 hf
      simp only [setKid, if_neg hx]
      refine ⟨?_, ?_, ?_⟩
      · unfold GoodKids; exact ⟨h.1, h.2.1, h.2.2.1, i1⟩
      · simp [i2]
      · simp only [List.map_cons, List.mem_cons, not_or]; exact ⟨hx, i3⟩

theorem goodKeys_empty : GoodKeys .empty := by simp [Tree.empty, GoodKeys, GoodKids]

theorem readParents_good (t : Tree) (h : GoodKeys t) : GoodKeys (readParents t).2 := by
  rw [readParents_tree]
  split
  · exact h
  · rename_i hn
    obtain ⟨d, ks⟩ := t
    have hk : findKid ks parentsKey = none := by
      simp only [getData_cons, Tree.kids, Option.isSome_iff_ne_none, ne_eq, Classical.not_not] at hn
      cases hf : findKid ks parentsKey with
      | none => rfl
      | some c => simp [hf, getData_nil] at hn
    have := GoodKids_append ks parentsKey (putFrags .empty [] []) h.2 (by decide) (by decide)
      (by simp [putFrags, Tree.empty, Tree.kids, GoodKeys, GoodKids]) hk
    simp only [putFrags, Tree.kids, Tree.data, hk, Option.getD_none]
    simp only [putFrags, Tree.kids] at this
    refine ⟨?_, this.1⟩
    rw [this.2.1, List.nodup_append]
    exact ⟨h.1, by simp, fun a ha b hb e => this.2.2 (by simp at hb; rw [← hb, ← e]; exact ha)⟩

theorem readParents_get (t : Tree) (p : List Key) (hp : p ≠ [parentsKey]) :
    getData (readParents t).2 p = getData t p := by
  rw [readParents_tree]
  split
  · rfl
  · rw [getData_putFrags, if_neg hp]
    cases h : getData t p with
    | some d => rfl
    | none =>
      by_cases hpre : p <+: [parentsKey]
      · cases p with
        | nil => simp [getData_nil] at h
        | cons a as =>
          rw [List.cons_prefix_cons] at hpre
          have := List.prefix_nil.1 hpre.2
          exact absurd (by rw [hpre.1, this]) hp
      · simp [hpre]

theorem readParents_has (t : Tree) : (getData (readParents t).2 [parentsKey]).isSome = true := by
  rw [readParents_tree]
  split
  · assumption
  · rw [getData_putFrags]; simp

/-- a successful update gives the source's value where it has one, else the destination's -/
theorem update_ok_get (dest src : Tree) (hg : GoodKeys src) (create : Bool) (t' : Tree)
    (h : update dest src create false = .ok t') (p : List Key) :
    getData t' p = (getData src p).or (getData dest p) := by
  have hL : ∀ p d d', (p, d) ∈ writes false (travF [] src) → (p, d') ∈ writes false (travF [] src) → d = d' := by
    intro p d d' h h'
    rw [mem_writes hg] at h h'
    have := h.1.symm.trans h'.1
    simpa using this
  have hf := foldl_getData _ hL dest p
  have hT : ∀ q d, (q, d) ∈ writes false (travF [] src) ↔ getData src q = some d := by
    intro q d; rw [mem_writes hg]; simp [Transfers]
  have ht' : t' = (writes false (travF [] src)).foldl (fun t x => putFrags t x.1 x.2) dest := by
    rw [update_eq _ _ hg] at h
    cases create with
    | true => rw [updF_create] at h; cases h; rfl
    | false =>
      have hu := updF_update false (travF [] src) dest
      by_cases hall : ∀ p d, (p, d) ∈ writes false (travF [] src) → (getData dest p).isSome = true
      · rw [(hu.1 hall).1] at h; cases h; rfl
      · simp only [Classical.not_forall] at hall
        obtain ⟨q, d, hq, hn⟩ := hall
        obtain ⟨t, ht, _⟩ := hu.2 ⟨q, d, hq, by simpa using hn⟩
        rw [ht] at h; cases h
  rw [← ht'] at hf
  simp only [hT] at hf
  cases hs : getData src p with
  | some d => simp [hf.1 d hs]
  | none =>
    have h3 := hf.2 (fun d h => by simp [hs] at h)
    cases hd : getData dest p with
    | some x => simp [h3.1 x hd]
    | none =>
      refine (h3.2.2 hd ?_).trans rfl
      rintro ⟨q, d, hq, hp⟩
      have := getData_prefix q p hp src (by simp [hq])
      simp [hs] at this

/-- a successful update without creation only touches entries the destination has -/
theorem update_only_sub (dest src : Tree) (hg : GoodKeys src) (t' : Tree)
    (h : update dest src false false = .ok t') (p : List Key) (hp : (getData src p).isSome = true) :
    (getData dest p).isSome = true := by
  have hT : ∀ q d, (q, d) ∈ writes false (travF [] src) ↔ getData src q = some d := by
    intro q d; rw [mem_writes hg]; simp [Transfers]
  rw [update_eq _ _ hg] at h
  cases hn : getData dest p with
  | some x => rfl
  | none =>
    obtain ⟨d, hd⟩ := Option.isSome_iff_exists.1 hp
    obtain ⟨t, ht, _⟩ := (updF_update false (travF [] src) dest).2 ⟨p, d, (hT p d).2 hd, hn⟩
    rw [ht] at h; cases h

end Verif.PTree.Loader
