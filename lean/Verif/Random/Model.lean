import Mathlib.Data.Rat.Floor
import Mathlib.Algebra.Order.Floor.Ring

/-!
# Model of sm_random/src/random.cpp and sm_eigen/src/random.cpp

boost::random is modelled by its documentation: the engine is a state machine whose outputs are 32 bit numbers, a seed
(a 32 bit number) determines its state, and a `boost::uniform_real` on `[0, 1)` over such an engine is the output divided by
`2 ^ 32`, which is exact in a double.  The normal distribution is a second state machine drawing on the same engine.
Double arithmetic is exact arithmetic followed by a rounding `rnd`.
-/

namespace Verif.Random

/-- what random.cpp uses of boost::random: the engine `boost::mt19937` (states `E`) and
`boost::normal_distribution` (states `D`) -/
structure Lib (E D : Type) where
  /-- a fresh engine: `_generator` is default-constructed (random.cpp:20, 28) -/
  init : E
  /-- `engine.seed(x)`, `x` a 32 bit number -/
  ofSeed : ℕ → E
  next : E → ℕ × E
  next_lt : ∀ e, (next e).1 < 2 ^ 32
  /-- a fresh normal distribution -/
  dist0 : D
  /-- a sample of the distribution -/
  draw : D → E → ℚ × D × E
  /-- `distribution.reset()` -/
  reset : D → D

variable {E D : Type}

/-- the members of `Random` with a state: `_generator`, to which both variate generators hold a reference, and the
distribution inside `_normal` (random.cpp:20-26); the uniform distribution has none -/
structure St (E D : Type) where
  eng : E
  dist : D

/-- the calls a program can make -/
inductive Call
  | normal | randn | uniform | rand
  | randLU (lo hi : ℚ)
  | randLUi (lo hi : ℤ)
  | seed (s : ℕ)
  /-- `sm::eigen::randn(dim)` -/
  | randnVec (dim : ℕ)

/-- what a call returns; `int none` is the undefined behaviour of an overflow -/
inductive Out
  | num (x : ℚ)
  | int (n : Option ℤ)
  | vec (l : List ℚ)
  | unit
  deriving DecidableEq

/-- the static object of `Random::instance()` (random.cpp:51-55) -/
def St.start (L : Lib E D) : St E D := ⟨L.init, L.dist0⟩

/-- `Random::normal()` (random.cpp:33-36) -/
def St.normal (L : Lib E D) (s : St E D) : ℚ × St E D :=
  let r := L.draw s.dist s.eng
  (r.1, ⟨r.2.2, r.2.1⟩)

/-- `Random::uniform()` (random.cpp:38-41) -/
def St.uniform (L : Lib E D) (s : St E D) : ℚ × St E D :=
  let r := L.next s.eng
  ((r.1 : ℚ) / 2 ^ 32, { s with eng := r.2 })

/-- `Random::seed` (random.cpp:43-49): the 64 bit argument is converted to the 32 bit seed of the engine; engine and
distribution are set twice (the uniform distribution has nothing to reset) -/
def St.seed (L : Lib E D) (x : ℕ) (s : St E D) : St E D :=
  { s with eng := L.ofSeed (x % 2 ^ 32), dist := L.reset s.dist }

/-- the value of `randLU` (random.cpp:78-81), given the sample -/
def luValue (rnd : ℚ → ℚ) (u lo hi : ℚ) : ℚ := rnd (rnd (u * rnd (hi - lo)) + lo)

/-- is the number an `int`? -/
def isInt32 (n : ℤ) : Prop := -2 ^ 31 ≤ n ∧ n < 2 ^ 31

instance (n : ℤ) : Decidable (isInt32 n) := inferInstanceAs (Decidable (_ ∧ _))

/-- the value of `randLUi` (random.cpp:83-86), given the sample; `none` if a subtraction, conversion or addition
overflows -/
def luiValue (rnd : ℚ → ℚ) (u : ℚ) (lo hi : ℤ) : Option ℤ :=
  if isInt32 (hi - lo) then
    let f := ⌊rnd (u * (hi - lo : ℤ))⌋
    if isInt32 f ∧ isInt32 (f + lo) then some (f + lo) else none
  else none

/-- the loop of `sm::eigen::randn` (sm_eigen/src/random.cpp:8-14) -/
def St.randnVec (L : Lib E D) : ℕ → St E D → List ℚ × St E D
  | 0, s => ([], s)
  | n + 1, s =>
    let r := s.normal L
    let q := St.randnVec L n r.2
    (r.1 :: q.1, q.2)

/-- the functions of sm/random.hpp (random.cpp:58-91) and `sm::eigen::randn` -/
def step (L : Lib E D) (rnd : ℚ → ℚ) (s : St E D) : Call → Out × St E D
  | .normal => (.num (s.normal L).1, (s.normal L).2)
  | .randn => (.num (s.normal L).1, (s.normal L).2)
  | .uniform => (.num (s.uniform L).1, (s.uniform L).2)
  | .rand => (.num (s.uniform L).1, (s.uniform L).2)
  | .randLU lo hi => (.num (luValue rnd (s.uniform L).1 lo hi), (s.uniform L).2)
  | .randLUi lo hi => (.int (luiValue rnd (s.uniform L).1 lo hi), (s.uniform L).2)
  | .seed x => (.unit, s.seed L x)
  | .randnVec n => (.vec (s.randnVec L n).1, (s.randnVec L n).2)

/-- the state after a sequence of calls -/
def after (L : Lib E D) (rnd : ℚ → ℚ) : St E D → List Call → St E D
  | s, [] => s
  | s, c :: cs => after L rnd (step L rnd s c).2 cs

/-- the results of a sequence of calls -/
def outs (L : Lib E D) (rnd : ℚ → ℚ) : St E D → List Call → List Out
  | _, [] => []
  | s, c :: cs => (step L rnd s c).1 :: outs L rnd (step L rnd s c).2 cs

end Verif.Random
