import Verif.Timing.Machine

/-!
# `getSlope` and `getOffset` of a `TimestampCorrector` with the arithmetic of the machine
(`sm_timing/include/sm/timing/implementation/TimestampCorrector.hpp`, 107-133)

Both return a `double`, whatever the type of the times is.
-/

namespace Verif.Timing.Machine

open Verif.Common

/-- what `getSlope` and `getOffset` compute with the two points of the segment; `none` = undefined behaviour -/
structure LineArith (T : Type) where
  /-- `double(l2.y - l1.y) / double(l2.x - l1.x)` (118) -/
  slope : Pt T → Pt T → Option Fp
  /-- `double(l1.y) + (double(-l1.x) * double(l2.y - l1.y) / double(l2.x - l1.x))` (132) -/
  offset : Pt T → Pt T → Option Fp

/-- the common part of both functions: the check, the segment at `_midpointSegmentIndex`, and the computation `f` -/
def onSegment {T : Type} (f : Pt T → Pt T → Option Fp) (c : Corr T) : Res Fp :=
  if c.hull.length < 2 then .threw
  else match c.hull[c.mid]?, c.hull[c.mid + 1]? with
    | some a, some b => match f a b with
      | some v => .value v
      | none => .ub
    | _, _ => .ub

/-- `getSlope` (107-119) -/
def getSlope {T : Type} (L : LineArith T) (c : Corr T) : Res Fp := onSegment L.slope c

/-- `getOffset` (121-133) -/
def getOffset {T : Type} (L : LineArith T) (c : Corr T) : Res Fp := onSegment L.offset c

/-- `TimestampCorrector<double>`; `double(·)` does nothing, `-l1.x` is exact -/
def dblLine (rnd : ℚ → ℚ) : LineArith Fp where
  slope a b := some (fdiv rnd (fsub rnd b.y a.y) (fsub rnd b.x a.x))
  offset a b := some (fadd rnd a.y (fdiv rnd (fmul rnd a.x.neg (fsub rnd b.y a.y)) (fsub rnd b.x a.x)))

/-- `TimestampCorrector<int64_t>`: the differences and the negative are int64 arithmetic, `double(·)` rounds, the rest is arithmetic of doubles -/
def i64Line (rnd : ℚ → ℚ) : LineArith ℤ where
  slope a b := do
    let dy ← fits (b.y - a.y)
    let dx ← fits (b.x - a.x)
    some (fdiv rnd (.fin (rnd dy)) (.fin (rnd dx)))
  offset a b := do
    let nx ← fits (-a.x)
    let dy ← fits (b.y - a.y)
    let dx ← fits (b.x - a.x)
    some (fadd rnd (.fin (rnd a.y)) (fdiv rnd (fmul rnd (.fin (rnd nx)) (.fin (rnd dy))) (.fin (rnd dx))))

end Verif.Timing.Machine
