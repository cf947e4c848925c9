import Verif.Timing.Model

/-!
# Model of `TimestampCorrector`
(`sm_timing/include/sm/timing/TimestampCorrector.hpp`, `implementation/TimestampCorrector.hpp`)

Times are exact rationals; `cast` is the conversion `static_cast<T>` of a computed value to the time type:
the identity for (idealised) floating point times, truncation for integer times.  Overflow of integer times
and rounding of floating ones are not modelled.
-/

namespace Verif.Timing.Corrector

/-- `Point`: remote time `x`, local time `y` -/
structure Point where
  x : ℚ
  y : ℚ
deriving DecidableEq

/-- `isAboveLine(l1, l2, p)` (implementation/TimestampCorrector.hpp:170-177) -/
def isAboveLine (l1 l2 p : Point) : Bool :=
  decide (0 ≤ (l2.x - l1.x) * (p.y - l1.y) - (l2.y - l1.y) * (p.x - l1.x))

/-- the corrector: `_convexHull` in vector order and `_midpointSegmentIndex` -/
structure Corr where
  hull : List Point
  mid : ℕ
deriving DecidableEq

/-- the constructor and `reset()` (TimestampCorrector.hpp:98) -/
def Corr.fresh : Corr := ⟨[], 0⟩

/-- `isAboveTopLine` (160-168) on the stack, top first -/
def isAboveTopLine (stack : List Point) (p : Point) : Bool :=
  match stack with
  | t :: a :: _ => isAboveLine a t p
  | _ => true

/-- the `while` loop (26-29) on the stack, top first -/
def popLoop (p : Point) : List Point → List Point
  | [] => []
  | [t] => [t]
  | t :: a :: r => if isAboveLine a p t then popLoop p (a :: r) else t :: a :: r

/-- the hull after pushing `p` (22-33) -/
def pushHull (hull : List Point) (p : Point) : List Point :=
  (if isAboveTopLine hull.reverse p then hull else (popLoop p hull.reverse).reverse) ++ [p]

/-- `std::lower_bound(begin, end, midpoint) - begin`: the first element not before the midpoint -/
def lowerBound (hull : List Point) (m : ℚ) : ℕ := hull.findIdx fun q => decide (m ≤ q.x)

/-- `idx - 1u` on `size_t` -/
def predWrap (i : ℕ) : ℕ := if i = 0 then 18446744073709551615 else i - 1

inductive Res where
  | value (v : ℚ)
  | threw
  /-- a read outside the hull vector, or through a null pointer -/
  | ub
deriving DecidableEq

/-- the segment at `_midpointSegmentIndex`; `none` = reads outside the vector -/
def Corr.segment (c : Corr) : Option (Point × Point) :=
  match c.hull[c.mid]?, c.hull[c.mid + 1]? with
  | some a, some b => some (a, b)
  | _, _ => none

/-- `getLocalTime` (139-156) -/
def getLocalTime (cast : ℚ → ℚ) (c : Corr) (r : ℚ) : Res :=
  if c.hull.length < 2 then .threw
  else match c.segment with
    | none => .ub
    | some (a, b) => .value (cast (a.y + (b.y - a.y) / (b.x - a.x) * (r - a.x)))

/-- `getSlope` (107-119) -/
def getSlope (c : Corr) : Res :=
  if c.hull.length < 2 then .threw
  else match c.segment with
    | none => .ub
    | some (a, b) => .value ((b.y - a.y) / (b.x - a.x))

/-- `getOffset` (121-133) -/
def getOffset (c : Corr) : Res :=
  if c.hull.length < 2 then .threw
  else match c.segment with
    | none => .ub
    | some (a, b) => .value (a.y + (-a.x) * (b.y - a.y) / (b.x - a.x))

/-- the check at the beginning of `correctTimestamp` (14-18): not later than the last hull point -/
def rejects (hull : List Point) (r : ℚ) : Bool :=
  match hull.getLast? with
  | some q => decide (r ≤ q.x)
  | none => false

/-- `correctTimestamp(remoteTime, localTime)` (11-60).  The debug assertions are not modelled. -/
def correct (cast : ℚ → ℚ) (c : Corr) (r l : ℚ) : Res × Corr :=
  if rejects c.hull r then (.threw, c)
  else
    let h := pushHull c.hull ⟨r, l⟩
    if 3 ≤ h.length then
      let m := cast (((h.headD ⟨0, 0⟩).x + r) / 2)
      let c' : Corr := ⟨h, predWrap (lowerBound h m)⟩
      (getLocalTime cast c' r, c')
    else (.value l, ⟨h, c.mid⟩)

/-- `span` (93-104) -/
def span (c : Corr) : ℚ :=
  match c.hull.getLast?, c.hull.head? with
  | some b, some a => if 2 < c.hull.length then b.y - a.y else 0
  | _, _ => 0

/-- the object used with the three-argument call: the corrector and `_pendingCorrector` -/
structure Dual where
  main : Corr
  pending : Option Corr
deriving DecidableEq

def Dual.fresh : Dual := ⟨.fresh, none⟩

/-- `correctTimestamp(remoteTime, localTime, switchingPeriod)` (62-84) -/
def correct3 (cast : ℚ → ℚ) (d : Dual) (r l period : ℚ) : Res × Dual :=
  match correct cast d.main r l with
  | (.threw, _) => (.threw, d)
  | (.ub, m) => (.ub, { d with main := m })
  | (.value v, m) =>
    -- 68-70
    let pend := match d.pending with
      | some p => some p
      | none => if period / 2 < span m then some Corr.fresh else none
    -- 71-73
    match pend with
    | some p => match correct cast p r l with
      | (.value _, p') =>
        -- 75-81: the pending corrector takes over, an empty one becomes pending
        if period < span m then (.value v, ⟨p', some .fresh⟩) else (.value v, ⟨m, some p'⟩)
      | (.threw, _) => (.threw, ⟨m, some p⟩)
      | (.ub, p') => (.ub, ⟨m, some p'⟩)
    | none => if period < span m then (.ub, ⟨m, none⟩) else (.value v, ⟨m, none⟩)

end Verif.Timing.Corrector
