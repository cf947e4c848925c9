import Verif.Kinematics.Param
import Verif.Kinematics.TransfSpec

/-!
# Angular velocity, independently of the code
-/

namespace Verif.Kinematics

/-- the rotation matrix `C` turns with the angular velocity `ω` (passive convention: the frame turns with `ω`, so
the coordinates `c` of each fixed vector move with `-ω × c`; the columns of `C` are the coordinates of the fixed
basis vectors) -/
def TurnsBy (C : ℝ → M3) (ω : V3) : Prop := ∀ i j, HasDerivAt (fun s => C s i j) (-cross ω (fun k => C 0 k j) i) 0

/-- `S` maps parameter rates to angular velocities, for the parametrisation `f` at `p`: along every curve of
parameters through `p` -/
def IsSMatrix (f : V3 → M3) (S : M3) (p : V3) : Prop :=
  ∀ (c : ℝ → V3) (v : V3), c 0 = p → (∀ i, HasDerivAt (fun s => c s i) (v i) 0) → TurnsBy (fun s => f (c s)) (S.mulVec v)

end Verif.Kinematics
