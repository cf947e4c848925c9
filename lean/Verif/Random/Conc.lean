import Mathlib.Logic.Function.Iterate
import Mathlib.Data.List.Basic
import Mathlib.Data.List.GetD
import Mathlib.Order.Basic

/-!
# Random numbers drawn by several threads

Models of `sm::HashId::randomize` (sm_common/include/sm/hash_id.hpp:122-130), which takes a lock, and of
`sm::random::uniform` / `rand` / `randLU` / `randLUi` (sm_random/src/random.cpp:39-42, 67-85), which do not, with the
calls of several threads interleaved access by access.  The engines (`std::mt19937_64`, `boost::mt19937`) are state machines; a call of an
engine reads its state and later writes the new state back.  Not modelled: the initialisation of the two static
objects (thread-safe since C++11); accesses of other functions to the same `HashId` objects while they are drawn.
-/

namespace Verif.Random.Conc

variable {S W : Type}

/-- an engine: from a state, an output and the next state -/
abbrev Engine (S W : Type) := S → W × S

/-! ## `HashId::randomize` -/

/-- what a thread does next; `o` is the `HashId` object on which it called `randomize` -/
inductive Pc (S : Type) where
  | idle
  /-- before `unique_lock lock(m_rng)` (hash_id.hpp:126) -/
  | want (o : ℕ)
  /-- `val_.u64[0] = rng()` (:127): the engine's state is read … -/
  | read0 (o : ℕ)
  /-- … and written, and the output stored in the object -/
  | write0 (o : ℕ) (s : S)
  /-- `val_.u64[1] = rng()` (:128) -/
  | read1 (o : ℕ)
  | write1 (o : ℕ) (s : S)
  /-- the end of the block (:129): the lock is released -/
  | unlock (o : ℕ)

structure St (S W : Type) where
  /-- the static `rng` (:123) -/
  eng : S
  /-- the static `m_rng` (:124): the thread that holds it -/
  lock : Option ℕ
  pc : ℕ → Pc S
  /-- `val_.u64` of the objects -/
  obj : ℕ → W × W
  /-- the calls that have been completed, in this order: thread, object and the value it was given (not part of the program) -/
  log : List (ℕ × ℕ × W × W)

def St.goto (st : St S W) (t : ℕ) (p : Pc S) : St S W := { st with pc := fun u => if u = t then p else st.pc u }

def St.put0 (st : St S W) (o : ℕ) (w : W) : St S W := { st with obj := fun u => if u = o then (w, (st.obj o).2) else st.obj u }
def St.put1 (st : St S W) (o : ℕ) (w : W) : St S W := { st with obj := fun u => if u = o then ((st.obj o).1, w) else st.obj u }

/-- one step of one thread (hash_id.hpp:122-130) -/
inductive Step (next : Engine S W) : St S W → St S W → Prop
  | call (st : St S W) (t o : ℕ) : st.pc t = .idle → Step next st (st.goto t (.want o))
  | lock (st : St S W) (t o : ℕ) : st.pc t = .want o → st.lock = none →
      Step next st ({ st with lock := some t }.goto t (.read0 o))
  | read0 (st : St S W) (t o : ℕ) : st.pc t = .read0 o → Step next st (st.goto t (.write0 o st.eng))
  | write0 (st : St S W) (t o : ℕ) (s : S) : st.pc t = .write0 o s →
      Step next st (({ st with eng := (next s).2 }.put0 o (next s).1).goto t (.read1 o))
  | read1 (st : St S W) (t o : ℕ) : st.pc t = .read1 o → Step next st (st.goto t (.write1 o st.eng))
  | write1 (st : St S W) (t o : ℕ) (s : S) : st.pc t = .write1 o s →
      Step next st (({ st with eng := (next s).2 }.put1 o (next s).1).goto t (.unlock o))
  | unlock (st : St S W) (t o : ℕ) : st.pc t = .unlock o →
      Step next st ({ st with lock := none, log := st.log ++ [(t, o, st.obj o)] }.goto t .idle)

/-- the start: no calls yet, the engine seeded, the objects with any values -/
def St.start (s0 : S) (obj0 : ℕ → W × W) : St S W := ⟨s0, none, fun _ => .idle, obj0, []⟩

/-- the states that any number of threads can reach -/
inductive Reach (next : Engine S W) (s0 : S) (obj0 : ℕ → W × W) : St S W → Prop
  | start : Reach next s0 obj0 (.start s0 obj0)
  | step {a b : St S W} : Reach next s0 obj0 a → Step next a b → Reach next s0 obj0 b

/-! ## `sm::random::uniform` -/

/-- a thread outside a call, or inside one, having read the engine's state -/
inductive UPc (S : Type) where
  | idle
  | loaded (s : S)

structure USt (S W : Type) where
  /-- `_generator` of the static object (random.cpp:20, 51-55) -/
  eng : S
  pc : ℕ → UPc S
  /-- the numbers the calls returned, in this order, with the thread -/
  log : List (ℕ × W)

/-- one step of one thread (random.cpp:39-42): no lock -/
inductive UStep (next : Engine S W) : USt S W → USt S W → Prop
  | read (st : USt S W) (t : ℕ) : st.pc t = .idle →
      UStep next st { st with pc := fun u => if u = t then .loaded st.eng else st.pc u }
  | write (st : USt S W) (t : ℕ) (s : S) : st.pc t = .loaded s →
      UStep next st { eng := (next s).2, pc := fun u => if u = t then .idle else st.pc u, log := st.log ++ [(t, (next s).1)] }

def USt.start (s0 : S) : USt S W := ⟨s0, fun _ => .idle, []⟩

/-- the states that any number of threads can reach -/
inductive UReach (next : Engine S W) (s0 : S) : USt S W → Prop
  | start : UReach next s0 (.start s0)
  | step {a b : USt S W} : UReach next s0 a → UStep next a b → UReach next s0 b

end Verif.Random.Conc
