import Verif.Random.Model
import Verif.Common.DoubleOps

/-!
# `randLU` on all doubles, with overflow, infinities and NaN
-/

namespace Verif.Random

open Verif.Common

/-- the value of `randLU` (random.cpp:78-81) given the sample, in doubles: the difference, the product and the sum each round
and may overflow -/
def luDouble (rnd : ℚ → ℚ) (u lo hi : Fp) : Fp := fadd rnd (fmul rnd u (fsub rnd hi lo)) lo

/-- `randLU(lo, hi)` on doubles: the sample is `Random::uniform()` (random.cpp:38-41, 78-81) -/
def St.randLUDouble {E D : Type} (L : Lib E D) (rnd : ℚ → ℚ) (s : St E D) (lo hi : Fp) : Fp × St E D :=
  let r := s.uniform L
  (luDouble rnd (.fin r.1) lo hi, r.2)

end Verif.Random
