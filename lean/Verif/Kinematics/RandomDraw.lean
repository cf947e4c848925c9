import Verif.Kinematics.Uncertain
import Verif.Random.Model

/-!
# Model of the functions `setRandom` and `quatRandom` of sm_kinematics

There are two sources of randomness: Eigen's `Random()`/`setRandom()`, which draws every coefficient from `[-1, 1]` with `std::rand()`, and `sm::random`
(model: `Verif.Random`).  Arithmetic is exact; division by a zero norm (a quaternion of NaNs in C++) is outside the model's meaning and excluded in the theorems.
-/

namespace Verif.Kinematics

open Matrix

/-- `quatRandom` (quaternion_algebra.cpp:325-332), given the coefficients Eigen drew -/
noncomputable def quatRandom (d : V4) : V4 :=
  let q : V4 := fun i => d i - 1 / 2
  fun i => q i / norm q

/-- `Transformation::setRandom()` (Transformation.cpp:125-129) -/
noncomputable def Transformation.random (dq : V4) (dt : V3) : Transformation :=
  ⟨quatRandom dq, fun i => (dt i - 1 / 2) * 100⟩

/-- `randLU(lo, hi)` (random.cpp:78-81) in exact arithmetic, given the sample of `[0, 1)` -/
def randLU (u lo hi : ℝ) : ℝ := u * (hi - lo) + lo

/-- a vector drawn from Eigen, minus 0.5, scaled to the given length (Transformation.cpp:161, 167 and 170-173) -/
noncomputable def scaledTo (d : V3) (len : ℝ) : V3 :=
  let a : V3 := fun i => d i - 1 / 2
  fun i => a i * (len / norm a)

/-- `Transformation::setRandom(translationMaxMeters, rotationMaxRadians)` (Transformation.cpp:158-178), given Eigen's draws `da`, `dt` and the samples `ua`, `ut` of `sm::random` -/
noncomputable def Transformation.randomMax (da dt : V3) (ua ut tMax rMax : ℝ) : Transformation :=
  ⟨axisAngle2quat (scaledTo da (randLU ua 0 rMax)), scaledTo dt (randLU ut 0 tMax)⟩

/-- the covariance of `UncertainTransformation::setRandom` (UncertainTransformation.cpp:155-156, 163-164) -/
def UTransf.randomU (M : M6) : M6 := M * M.transpose * 1

/-- `UncertainTransformation::setRandom()` (152-157) -/
noncomputable def UTransf.random (dq : V4) (dt : V3) (M : M6) : UTransf := ⟨.random dq dt, randomU M⟩

/-- `UncertainTransformation::setRandom(translationMaxMeters, rotationMaxRadians)` (160-165) -/
noncomputable def UTransf.randomMax (da dt : V3) (ua ut tMax rMax : ℝ) (M : M6) : UTransf := ⟨.randomMax da dt ua ut tMax rMax, randomU M⟩

/-- `HomogeneousPoint::setRandom` (HomogeneousPoint.cpp:191-195) with `normalize` (198-201) -/
noncomputable def hpRandom (d : V4) : V4 := fun i => d i / norm d

/-- `UncertainHomogeneousPoint::setRandom` (UncertainHomogeneousPoint.cpp:87-93).  `normalize()` is virtual, so the base class's `setRandom` calls that of line 145, which also changes the covariance, before
line 92 overwrites it. -/
noncomputable def UPoint.random (old : UPoint) (d : V4) (M : M4) : UPoint :=
  { UPoint.normalize ⟨d, old.U⟩ with U := M.transpose * M + 1 }

/-- `UncertainVector<D>::setRandom` (implementation/UncertainVector.hpp:174-179) -/
def UVec.random {n : ℕ} (d : Fin n → ℝ) (M : Matrix (Fin n) (Fin n) ℝ) : UVec n := ⟨d, M * M.transpose + 1⟩

/-- `UncertainVector<1>::setRandom` (189-194), from two samples of `sm::random::rand()` -/
def UScalar.random (u1 u2 : ℝ) : UScalar := ⟨u1, u2 * u2⟩

/-! ## Programs -/

/-- the generator behind `std::rand()`, seen through Eigen: a state machine whose outputs are coefficients in `[-1, 1]`; `ofSeed` is `std::srand` -/
structure CRand (S : Type) where
  ofSeed : ℕ → S
  next : S → ℝ × S
  range : ∀ s, -1 ≤ (next s).1 ∧ (next s).1 ≤ 1

/-- `n` coefficients one after the other -/
def CRand.draw {S : Type} (C : CRand S) : ℕ → S → List ℝ × S
  | 0, s => ([], s)
  | n + 1, s => ((C.next s).1 :: (CRand.draw C n (C.next s).2).1, (CRand.draw C n (C.next s).2).2)

/-- the coefficients as a vector -/
def vecOf {n : ℕ} (l : List ℝ) : Fin n → ℝ := fun i => l.getD i 0

/-- what a program can do -/
inductive RCall
  /-- `std::srand(x)` -/
  | srand (x : ℕ)
  /-- a call of `sm::random` (`seed` among them) or of `sm::eigen::randn` -/
  | sm (c : Verif.Random.Call)
  /-- `Transformation::setRandom()` -/
  | tf
  /-- `Transformation::setRandom(tMax, rMax)` -/
  | tfMax (tMax rMax : ℝ)
  /-- `UncertainVector<1>::setRandom()` -/
  | scalar
  /-- `UncertainVector<3>::setRandom()` -/
  | vec
  /-- `HomogeneousPoint::setRandom()` -/
  | point

/-- what a call produces -/
inductive ROut
  | nothing
  | sm (o : Verif.Random.Out)
  | tf (X : Transformation)
  | scalar (a : UScalar)
  | vec (a : UVec 3)
  | point (p : V4)

variable {S E D : Type}

/-- the state of both generators -/
structure RSt (S E D : Type) where
  c : S
  sm : Verif.Random.St E D

/-- one call -/
noncomputable def RSt.step (C : CRand S) (L : Verif.Random.Lib E D) (rnd : ℚ → ℚ) (s : RSt S E D) : RCall → ROut × RSt S E D
  | .srand x => (.nothing, { s with c := C.ofSeed x })
  | .sm c => (.sm (Verif.Random.step L rnd s.sm c).1, { s with sm := (Verif.Random.step L rnd s.sm c).2 })
  | .tf =>
    let a := C.draw 4 s.c
    let b := C.draw 3 a.2
    (.tf (.random (vecOf a.1) (vecOf b.1)), { s with c := b.2 })
  | .tfMax tMax rMax =>
    -- Transformation.cpp:161, 164, 171, 173 in this order
    let a := C.draw 3 s.c
    let u := s.sm.uniform L
    let b := C.draw 3 a.2
    let v := u.2.uniform L
    (.tf (.randomMax (vecOf a.1) (vecOf b.1) u.1 v.1 tMax rMax), ⟨b.2, v.2⟩)
  | .scalar =>
    let u := s.sm.uniform L
    let v := u.2.uniform L
    (.scalar (.random u.1 v.1), { s with sm := v.2 })
  | .vec =>
    let a := C.draw 3 s.c
    let b := C.draw 9 a.2
    (.vec (.random (vecOf a.1) (fun i j => b.1.getD (i + 3 * j) 0)), { s with c := b.2 })
  | .point =>
    let a := C.draw 4 s.c
    (.point (hpRandom (vecOf a.1)), { s with c := a.2 })

/-- the state after a program -/
noncomputable def RSt.after (C : CRand S) (L : Verif.Random.Lib E D) (rnd : ℚ → ℚ) : RSt S E D → List RCall → RSt S E D
  | s, [] => s
  | s, c :: cs => RSt.after C L rnd (s.step C L rnd c).2 cs

/-- the results of a program -/
noncomputable def RSt.outs (C : CRand S) (L : Verif.Random.Lib E D) (rnd : ℚ → ℚ) : RSt S E D → List RCall → List ROut
  | _, [] => []
  | s, c :: cs => (s.step C L rnd c).1 :: RSt.outs C L rnd (s.step C L rnd c).2 cs

end Verif.Kinematics
