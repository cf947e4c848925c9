import Verif.Common.DoubleOps

/-!
# Linear interpolation on doubles

`lerp` (sm_kinematics/src/quaternion_algebra.cpp:399-414), with the arithmetic of the machine; there is a model over the real numbers in `Verif.Kinematics.Quat`.
-/

namespace Verif.LerpDouble

open Verif.Common

/-- `lerp` (399-414) for two `Eigen::VectorXd`; `none` if `SM_ASSERT_EQ` throws (402), which it does in every build.  The coefficients of the expression (412) are evaluated one by one, without contraction to fused operations. -/
def lerp (rnd : ℚ → ℚ) {m n : ℕ} (p0 : Fin m → Fp) (p1 : Fin n → Fp) (t : Fp) : Option (Σ k, Fin k → Fp) :=
  if h : m = n then
    some (if Fp.le t (.fin 0) then ⟨m, p0⟩
      else if Fp.le (.fin 1) t then ⟨n, p1⟩
      else ⟨m, fun i => fadd rnd (fmul rnd (fsub rnd (.fin 1) t) (p0 i)) (fmul rnd t (p1 (h ▸ i)))⟩)
  else none

end Verif.LerpDouble
