import Verif.Python.IdConv

/-!
# C105: ids in Python
-/

namespace Verif.Python

open Verif.Id

/-- **C105** (claim) In Python an id is its value, and a number that is not the value of an id is refused. -/
def C105_claim : Prop :=
  (∀ i : Id, (idToPython i).value = some (i.val.toNat : Int)) ∧
  (∀ o n, o.value = some n → ¬ (0 ≤ n ∧ n < 2 ^ 64) → idFromPython o = none)

/-- **C105** ids survive the way to Python and back, and different ids are different numbers. -/
theorem C105_round_trip_partial :
    (∀ i : Id, idFromPython (idToPython i) = some (i, false)) ∧
    (∀ i j : Id, (idToPython i).value = (idToPython j).value → i = j) := by
  refine ⟨fun i => by cases i; rfl, fun i j h => ?_⟩
  simp only [idToPython, PyNum.value, Option.some.injEq] at h
  cases i; cases j
  exact congrArg _ (BitVec.toInt_inj.1 h)

/-- **C105** an id is its value exactly below 2^63; from there on it is the value minus 2^64. -/
theorem C105_value_partial (i : Id) :
    ((idToPython i).value = some (i.val.toNat : Int) ↔ i.val.toNat < 2 ^ 63) ∧
    (2 ^ 63 ≤ i.val.toNat → (idToPython i).value = some ((i.val.toNat : Int) - 2 ^ 64)) ∧
    ((idToPython i).value = some (-1) ↔ isSet i = false) := by
  have h := i.val.isLt
  have e : (idToPython i).value = some i.val.toInt := rfl
  rw [e]
  simp only [Option.some.injEq, BitVec.toInt_eq_toNat_cond]
  refine ⟨?_, ?_, ?_⟩
  · split <;> omega
  · intro h'; split <;> omega
  · have h2 : isSet i = false ↔ i.val.toNat = 2 ^ 64 - 1 := by
      simp only [isSet, bne_eq_false_iff_eq]
      constructor
      · intro h; rw [h]; rfl
      · intro h; apply BitVec.eq_of_toNat_eq; rw [h]; rfl
    rw [h2]
    split <;> omega

/-- **C105** what a number becomes, exactly: the id with this value modulo 2^64 for an `int` and for a `long` in range; a `long` out of range becomes the
unset id, with an exception pending; nothing else is accepted. -/
theorem C105_from_partial (o : PyNum) :
    (∀ n, o.value = some n → 0 ≤ n → n < 2 ^ 64 → ∃ i, idFromPython o = some (i, false) ∧ (i.val.toNat : Int) = n) ∧
    (∀ n, o = .int n → ∃ i, idFromPython o = some (i, false) ∧ (i.val.toNat : Int) = n.toInt % 2 ^ 64) ∧
    (∀ n, o = .long n → ¬ (0 ≤ n ∧ n < 2 ^ 64) → ∃ i, idFromPython o = some (i, true) ∧ isSet i = false) ∧
    (idFromPython o = none ↔ o.value = none) := by
  have key : ∀ n : BitVec 64, (n.toNat : Int) = n.toInt % 2 ^ 64 := fun n => by
    have := n.isLt
    rw [BitVec.toInt_eq_toNat_cond]; split <;> omega
  refine ⟨?_, ?_, ?_, ?_⟩
  · intro n hv h0 h1
    cases o with
    | int m =>
      simp only [PyNum.value, Option.some.injEq] at hv
      refine ⟨_, rfl, ?_⟩
      show (m.toNat : Int) = n
      rw [key, hv]; omega
    | long m =>
      simp only [PyNum.value, Option.some.injEq] at hv
      subst hv
      refine ⟨ofValue (BitVec.ofInt 64 m), ?_, ?_⟩
      · simp only [idFromPython, idConvertible, if_true, idConstruct]
        rw [if_pos ⟨h0, by omega⟩]
      · show ((BitVec.ofInt 64 m).toNat : Int) = m
        rw [BitVec.toNat_ofInt]; omega
    | other => simp [PyNum.value] at hv
  · rintro n rfl; exact ⟨_, rfl, key n⟩
  · rintro n rfl h
    refine ⟨ofValue (-1), ?_, rfl⟩
    simp only [idFromPython, idConvertible, if_true, idConstruct]
    rw [if_neg (by omega)]
  · cases o <;> simp [idFromPython, idConvertible, PyNum.value]

/-- **C105** below 2^63 the order of the numbers is that of the ids; in general it is that of the ids only if both, or none, are below 2^63. -/
theorem C105_order_partial (i j : Id) :
    (i.val.toNat < 2 ^ 63 ↔ j.val.toNat < 2 ^ 63) →
    ∃ m n, (idToPython i).value = some m ∧ (idToPython j).value = some n ∧ (m < n ↔ lt i j = true) := by
  intro h
  refine ⟨_, _, rfl, rfl, ?_⟩
  simp only [lt, BitVec.ult, decide_eq_true_eq, BitVec.toInt_eq_toNat_cond] at *
  have h1 := i.val.isLt
  have h2 := j.val.isLt
  split <;> split <;> omega

/-- **C105** both halves of the claim are false: the unset id is the number -1 and 2^63 is negative, -1 is accepted as an id, and a number that is too large
becomes the unset id. -/
theorem C105_negation : ¬ C105_claim ∧
    (∃ i j : Id, ∃ m n, lt i j = true ∧ (idToPython i).value = some m ∧ (idToPython j).value = some n ∧ n < m) ∧
    idFromPython (.int (-1)) = some (default, false) ∧ idFromPython (.long (2 ^ 64)) = some (default, true) := by
  refine ⟨fun h => ?_, ⟨⟨0⟩, default, 0, -1, by decide, rfl, rfl, by decide⟩, rfl, by decide⟩
  have := h.1 default
  revert this; decide

/-- Concrete: the id 5 is 5, and 2^63 as a `long` comes back as a negative `int`. -/
example : (idToPython ⟨5⟩).value = some 5 ∧ (idFromPython (.long (2 ^ 63))).map (fun r => (idToPython r.1).value) = some (some (-2 ^ 63)) := by
  decide

end Verif.Python
