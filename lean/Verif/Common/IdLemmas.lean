import Verif.Common.Id

namespace Verif.Id

/-- helper: the value after `n` increments -/
theorem incN_val (n : Nat) (a : Id) : (incN n a).val = a.val + BitVec.ofNat 64 n := by
  induction n generalizing a with
  | zero => simp [incN]
  | succ n ih =>
    rw [incN, ih]
    simp only [preInc, BitVec.add_assoc]
    congr 1
    apply BitVec.eq_of_toNat_eq
    simp [BitVec.toNat_add, Nat.add_comm]

end Verif.Id
