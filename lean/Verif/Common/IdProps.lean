import Verif.Common.IdLemmas

/-!
# Properties C08 and C09: `sm::Id`
-/

namespace Verif.Id

/-- C08: the six comparison operators describe one strict total order, the numeric order
of the underlying unsigned 64-bit numbers: `==` is equality of objects, `!=` its negation,
`<` is irreflexive, transitive and total, and the three other operators are the usual
derived ones. -/
theorem C08_total_order :
    (∀ a b : Id, eq a b = true ↔ a = b) ∧
    (∀ a b : Id, ne a b = !eq a b) ∧
    (∀ a b : Id, lt a b = true ↔ (value a).toNat < (value b).toNat) ∧
    (∀ a : Id, lt a a = false) ∧
    (∀ a b c : Id, lt a b = true → lt b c = true → lt a c = true) ∧
    (∀ a b : Id, lt a b = true ∨ a = b ∨ lt b a = true) ∧
    (∀ a b : Id, ¬ (lt a b = true ∧ lt b a = true)) ∧
    (∀ a b : Id, gt a b = lt b a) ∧
    (∀ a b : Id, le a b = (lt a b || eq a b)) ∧
    (∀ a b : Id, ge a b = le b a) := by
  have ext : ∀ a b : Id, a.val.toNat = b.val.toNat → a = b := by
    intro a b h
    cases a; cases b
    simpa using BitVec.eq_of_toNat_eq h
  refine ⟨?_, ?_, ?_, ?_, ?_, ?_, ?_, ?_, ?_, ?_⟩
  · intro a b
    cases a; cases b
    constructor
    · intro h
      have h := eq_of_beq h
      exact congrArg Id.mk h.symm
    · intro h
      rw [h]
      exact beq_self_eq_true _
  · intro a b; simp [ne, eq, bne]
  · intro a b; simp [lt, value, BitVec.ult]
  · intro a; simp [lt, BitVec.ult]
  · intro a b c; simp only [lt, BitVec.ult, decide_eq_true_eq]; omega
  · intro a b
    simp only [lt, BitVec.ult, decide_eq_true_eq]
    rcases Nat.lt_trichotomy a.val.toNat b.val.toNat with h | h | h
    · exact Or.inl h
    · exact Or.inr (Or.inl (ext a b h))
    · exact Or.inr (Or.inr h)
  · intro a b; simp only [lt, BitVec.ult, decide_eq_true_eq]; omega
  · intro a b; rfl
  · intro a b
    rw [Bool.eq_iff_iff]
    simp only [le, lt, eq, BitVec.ult, BitVec.ule, Bool.or_eq_true, decide_eq_true_eq, beq_iff_eq]
    constructor
    · intro h
      rcases Nat.lt_or_eq_of_le h with h | h
      · exact Or.inl h
      · exact Or.inr (BitVec.eq_of_toNat_eq h.symm)
    · rintro (h | h)
      · omega
      · rw [h]; exact Nat.le_refl _
  · intro a b; rfl

/-- C08: `isSet()` is false exactly for a default constructed / cleared id, and that id is
the maximum of the order. Copy-assignment and `swap` transfer the value. -/
theorem C08_unset :
    (∀ a : Id, isSet a = false ↔ a = default) ∧
    (∀ a : Id, isSet (clear a) = false) ∧
    (∀ a : Id, le a default = true) ∧
    (∀ a : Id, isSet a = true ↔ lt a default = true) ∧
    (∀ a b : Id, swap a b = (b, a)) ∧
    (∀ a b : Id, assign a b = b) := by
  have hm : (-1 : BitVec 64).toNat = 2 ^ 64 - 1 := by decide
  refine ⟨?_, ?_, ?_, ?_, ?_, ?_⟩
  · intro a; cases a; simp [isSet, default]
  · intro a; simp [isSet, clear]
  · intro a
    simp only [le, default, BitVec.ule, decide_eq_true_eq, hm]
    have := a.val.isLt
    omega
  · intro a
    simp only [isSet, lt, default, BitVec.ult, decide_eq_true_eq, bne_iff_ne, ne_eq, hm]
    have := a.val.isLt
    constructor
    · intro h
      have h2 : a.val.toNat ≠ (-1 : BitVec 64).toNat := fun e => h (BitVec.eq_of_toNat_eq e)
      rw [hm] at h2
      omega
    · intro h e
      rw [e, hm] at h
      omega
  · intro a b; rfl
  · intro a b; rfl

example : isSet (ofValue 5) = true ∧ lt (ofValue 5) (ofValue 7) = true ∧ isSet default = false := by
  decide

/-- C09: `n < 2^64` increments never revisit an id: the ids obtained after `i` and `j`
increments are different whenever `i ≠ j` are below `2^64`; and `2^64` increments come back. -/
theorem C09_increments_distinct (a : Id) (i j : Nat) (hi : i < 2 ^ 64) (hj : j < 2 ^ 64) :
    (incN i a = incN j a ↔ i = j) ∧ incN (2 ^ 64) a = a := by
  constructor
  · constructor
    · intro h
      have hv := congrArg Id.val h
      rw [incN_val, incN_val] at hv
      have hv := congrArg BitVec.toNat hv
      simp only [BitVec.toNat_add, BitVec.toNat_ofNat] at hv
      have := a.val.isLt
      omega
    · rintro rfl; rfl
  · cases h : incN (2 ^ 64) a
    have := incN_val (2 ^ 64) a
    rw [h] at this
    cases a
    simp at this
    rw [this]

example : incN 3 (ofValue 5) = ofValue 8 := by decide

/-- C09: return values of the two increments, and what an increment does to set-ness:
the new id is unset exactly when the old value was `2^64 - 2`, and incrementing an unset id
gives id `0`. -/
theorem C09_increment_results (a : Id) :
    (postInc a).1 = a ∧ (preInc a).1 = (preInc a).2 ∧ (postInc a).2 = (preInc a).2 ∧
    ((preInc a).2.val.toNat = (a.val.toNat + 1) % 2 ^ 64) ∧
    (isSet (preInc a).2 = false ↔ a.val.toNat = 2 ^ 64 - 2) ∧
    (isSet a = false → (preInc a).2 = ofValue 0) := by
  refine ⟨rfl, rfl, rfl, ?_, ?_, ?_⟩
  · simp [preInc, BitVec.toNat_add]
  · have hm : (-1 : BitVec 64).toNat = 2 ^ 64 - 1 := by decide
    have hlt := a.val.isLt
    simp only [isSet, preInc]
    constructor
    · intro h
      have h : a.val + 1 = -1 := by simpa using h
      have h := congrArg BitVec.toNat h
      rw [BitVec.toNat_add, hm] at h
      simp at h
      omega
    · intro h
      have : a.val + 1 = -1 := by
        apply BitVec.eq_of_toNat_eq
        rw [BitVec.toNat_add, hm, h]
        decide
      rw [this]
      decide
  · intro h
    have h : a.val = -1 := by simpa [isSet] using h
    simp only [preInc, ofValue, h]
    decide

example : isSet (preInc (ofValue (BitVec.ofNat 64 (2 ^ 64 - 2)))).2 = false := by decide

end Verif.Id
