import Verif.Archive.Spec
import Verif.Archive.Lemmas

/-!
# Invariant of reachable archives (helper for C19-C24)
-/

namespace Verif.Archive

/-- representation invariant of reachable archives -/
structure Inv (a : Archive) : Prop where
  sv : Sorted a.values
  ss : Sorted a.strings
  wf : ∀ p ∈ a.values, p.2.WF
  names : ∀ p ∈ a.strings, validateName p.1 = true

theorem selected_iff (F : List Name) (n : Name) : selected F n = true ↔ InFilter F n := by
  unfold selected InFilter
  simp

theorem goodName_iff (n : Name) : validateName n = true ↔ GoodName n := by
  unfold validateName GoodName fixedNameSize
  split
  · rename_i h
    simp only [gt_iff_lt, Bool.or_eq_true, decide_eq_true_eq, beq_iff_eq] at h
    constructor
    · intro h; cases h
    · intro h; omega
  · rename_i h
    simp only [gt_iff_lt, Bool.or_eq_true, decide_eq_true_eq, beq_iff_eq, not_or] at h
    cases n with
    | nil => simp at h
    | cons c cs =>
      simp only [Bool.and_eq_true, List.all_eq_true, List.head?_cons, Option.some.injEq,
        forall_eq', List.tail_cons]
      have hc : ∀ d : Byte, (isAlnum d || d == underscore) = true ↔
          (isAlpha d = true ∨ (48 ≤ d.toNat ∧ d.toNat ≤ 57) ∨ d.toNat = 95) := by
        intro d
        have hu : d = underscore ↔ d.toNat = 95 :=
          ⟨fun e => by rw [e]; rfl, fun e => BitVec.eq_of_toNat_eq (by rw [e]; rfl)⟩
        simp only [isAlnum, Bool.or_eq_true, Bool.and_eq_true, decide_eq_true_eq, beq_iff_eq, hu]
        rw [or_assoc]
      constructor
      · rintro ⟨h1, h2⟩
        exact ⟨by simp, by omega, h1, fun d hd => (hc d).1 (h2 d hd)⟩
      · rintro ⟨_, _, h1, h2⟩
        exact ⟨h1, fun d hd => (hc d).2 (h2 d hd)⟩

theorem inv_empty : Inv empty := ⟨by simp [empty, Sorted], by simp [empty, Sorted], by simp [empty], by simp [empty]⟩

theorem inv_insert_value {a : Archive} (h : Inv a) (n : Name) (m : Mat) (hm : m.WF) :
    Inv { a with values := insert a.values n m } := by
  refine ⟨sorted_insert h.sv n m, h.ss, ?_, h.names⟩
  intro p hp
  rcases mem_insert hp with e | e
  · rw [e]; exact hm
  · exact h.wf p e

theorem inv_store {a : Archive} (h : Inv a) (n : Name) (b : Block) (hv : validateName n = true)
    (hb : ∀ m, b = .matrix m → m.WF) : Inv (store a n b) := by
  cases b with
  | matrix m => exact inv_insert_value h n m (hb m rfl)
  | string s =>
    refine ⟨h.sv, sorted_insert h.ss n s, h.wf, ?_⟩
    intro p hp
    rcases mem_insert hp with e | e
    · rw [e]; exact hv
    · exact h.names p e

theorem inv_loadLoop (G : List Name) (fuel : Nat) : ∀ (a : Archive) (bs : List Byte), Inv a →
    (∀ b, loadLoop G fuel a bs = .ok b → Inv b) ∧ (∀ b, loadLoop G fuel a bs = .threw b → Inv b) := by
  induction fuel with
  | zero =>
    intro a bs h
    cases bs with
    | nil => simp [loadLoop]; exact h
    | cons b bs => simp [loadLoop]
  | succ fuel ih =>
    intro a bs h
    cases bs with
    | nil => simp [loadLoop]; exact h
    | cons b bs =>
      simp only [loadLoop]
      cases hb : readBlock (b :: bs) with
      | ub => simp
      | threw => simp; exact h
      | block n blk rest =>
        have hw := (readBlock_rest hb).2
        simp only
        split
        · split
          · rename_i hv
            exact ih _ rest (inv_store h n blk hv hw)
          · simp; exact h
        · exact ih a rest h

theorem inv_step {a b : Archive} {op : Op} (h : Inv a) (hg : op.Genuine) (hs : step a op = some b) :
    Inv b := by
  cases op with
  | clearAll => simp [step, clearAll] at hs; subst hs; exact inv_empty
  | clearName n =>
    simp [step, clearName] at hs; subst hs
    exact ⟨sorted_erase (sorted_erase h.sv n) n, h.ss, fun p hp => h.wf p (mem_erase (mem_erase hp)), h.names⟩
  | setScalar n x =>
    simp only [step, setScalar] at hs
    split at hs <;> simp at hs <;> subst hs
    · exact inv_insert_value h n _ rfl
    · exact h
  | setString n s =>
    simp only [step, setString] at hs
    split at hs
    · rename_i hv
      simp at hs; subst hs
      refine ⟨?_, sorted_insert h.ss n s, ?_, ?_⟩
      · simp only; split
        · exact sorted_erase h.sv n
        · exact h.sv
      · intro p hp
        simp only at hp
        split at hp
        · exact h.wf p (mem_erase hp)
        · exact h.wf p hp
      · intro p hp
        rcases mem_insert hp with e | e
        · rw [e]; exact hv
        · exact h.names p e
    · simp at hs; subst hs; exact h
  | setMatrix n m =>
    have h' : Inv (if (lookup a.strings n).isSome then { a with strings := erase a.strings n } else a) := by
      split
      · exact ⟨h.sv, sorted_erase h.ss n, h.wf, fun p hp => h.names p (mem_erase hp)⟩
      · exact h
    simp only [step, setMatrix] at hs
    split at hs <;> simp at hs <;> subst hs
    · exact inv_insert_value h' n m hg
    · exact h'
  | setVector n m =>
    simp only [step, setVector] at hs
    split at hs
    · split at hs <;> simp at hs <;> subst hs
      · exact inv_insert_value h n m hg
      · exact h
    · simp at hs; subst hs; exact h
  | createMatrix n m o =>
    simp only [step, createMatrix] at hs
    split at hs <;> simp at hs <;> subst hs
    · exact h
    · exact inv_insert_value h n m hg
  | load G f =>
    simp only [step] at hs
    have := inv_loadLoop G f.length a f h
    unfold Verif.Archive.load at hs
    split at hs
    · rename_i c hc; simp at hs; subst hs; exact this.1 _ hc
    · rename_i c hc; simp at hs; subst hs; exact this.2 _ hc
    · cases hs

theorem inv_reachable {a : Archive} (h : Reachable a) : Inv a := by
  induction h with
  | init => exact inv_empty
  | step _ hg hs ih => exact inv_step ih hg hs

end Verif.Archive
