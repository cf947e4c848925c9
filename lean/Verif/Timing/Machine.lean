import Verif.Timing.Corrector
import Verif.Common.Double
import Verif.Common.DoubleOps

/-!
# `TimestampCorrector<double>` and `TimestampCorrector<int64_t>` with the arithmetic of the machine
(`sm_timing/include/sm/timing/implementation/TimestampCorrector.hpp`; both types are exported to Python, `sm_python/src/exportTimestampCorrector.cpp`)

The same functions as in `Verif.Timing.Corrector`, there over the rationals, here over a type of times with its own arithmetic: doubles are rounded, overflow to
infinities and include NaN; int64 arithmetic that overflows is undefined behaviour, and conversions to `double` round.  `std::lower_bound` is the binary search of the standard
library, because a hull with NaNs is not sorted.
-/

namespace Verif.Timing.Machine

open Verif.Common

/-- `Point` -/
structure Pt (T : Type) where
  x : T
  y : T
deriving DecidableEq

/-- what the algorithm computes with times; `none` = undefined behaviour -/
structure Arith (T : Type) where
  /-- `a <= b` -/
  le : T → T → Bool
  /-- `a < b` -/
  lt : T → T → Bool
  /-- `isAboveLine(l1, l2, p)` (170-177) -/
  above : Pt T → Pt T → Pt T → Option Bool
  /-- `static_cast<T>((x0 + remoteTime) / 2.0)` (37) -/
  mid : T → T → Option T
  /-- the local time on a line (150-155) -/
  line : Pt T → Pt T → T → Option T

/-- `_convexHull` and `_midpointSegmentIndex` -/
structure Corr (T : Type) where
  hull : List (Pt T)
  mid : ℕ
deriving DecidableEq

def Corr.fresh {T} : Corr T := ⟨[], 0⟩

inductive Res (T : Type) where
  | value (v : T)
  | threw
  | ub
deriving DecidableEq

variable {T : Type} (A : Arith T)

/-- `isAboveTopLine` (160-168) on the stack, top first -/
def isAboveTopLine (stack : List (Pt T)) (p : Pt T) : Option Bool :=
  match stack with
  | t :: a :: _ => A.above a t p
  | _ => some true

/-- the `while` loop (26-29) on the stack, top first -/
def popLoop (p : Pt T) : List (Pt T) → Option (List (Pt T))
  | [] => some []
  | [t] => some [t]
  | t :: a :: r => match A.above a p t with
    | some true => popLoop p (a :: r)
    | some false => some (t :: a :: r)
    | none => none

/-- the hull after pushing `p` (22-33) -/
def pushHull (hull : List (Pt T)) (p : Pt T) : Option (List (Pt T)) :=
  match isAboveTopLine A hull.reverse p with
  | some true => some (hull ++ [p])
  | some false => (popLoop A p hull.reverse).map fun s => s.reverse ++ [p]
  | none => none

/-- the loop of `std::lower_bound`: `p i` is "element `i` is before the value" -/
def lbGo (p : ℕ → Bool) (first len : ℕ) : ℕ :=
  if h : len = 0 then first
  else if p (first + len / 2) then lbGo p (first + len / 2 + 1) (len - len / 2 - 1)
  else lbGo p first (len / 2)
termination_by len
decreasing_by all_goals omega

/-- `std::lower_bound(begin, end, midpoint) - begin` (39-40) -/
def lowerBound (hull : List (Pt T)) (m : T) : ℕ :=
  lbGo (fun i => match hull[i]? with | some q => A.lt q.x m | none => false) 0 hull.length

/-- `getLocalTime` (139-156) -/
def getLocalTime (c : Corr T) (r : T) : Res T :=
  if c.hull.length < 2 then .threw
  else match c.hull[c.mid]?, c.hull[c.mid + 1]? with
    | some a, some b => match A.line a b r with
      | some v => .value v
      | none => .ub
    | _, _ => .ub

/-- the check at the beginning (14-18): `SM_ASSERT_GT` throws if `remoteTime <= ...` -/
def rejects (hull : List (Pt T)) (r : T) : Bool :=
  match hull.getLast? with
  | some q => A.le r q.x
  | none => false

/-- `correctTimestamp(remoteTime, localTime)` (11-60).  The debug assertions are not modelled. -/
def correct (c : Corr T) (r l : T) : Res T × Corr T :=
  if rejects A c.hull r then (.threw, c)
  else match pushHull A c.hull ⟨r, l⟩ with
    | none => (.ub, c)
    | some h =>
      if 3 ≤ h.length then
        match h.head? with
        | none => (.ub, c)
        | some q => match A.mid q.x r with
          | none => (.ub, c)
          | some m =>
            let c' : Corr T := ⟨h, Corrector.predWrap (lowerBound A h m)⟩
            (getLocalTime A c' r, c')
      else (.value l, ⟨h, c.mid⟩)

/-! ## double -/

/-- the determinant (172-174) -/
def fdet (rnd : ℚ → ℚ) (l1 l2 p : Pt Fp) : Fp :=
  fsub rnd (fmul rnd (fsub rnd l2.x l1.x) (fsub rnd p.y l1.y)) (fmul rnd (fsub rnd l2.y l1.y) (fsub rnd p.x l1.x))

/-- `TimestampCorrector<double>` -/
def dbl (rnd : ℚ → ℚ) : Arith Fp where
  le := Fp.le
  lt := Fp.lt
  above l1 l2 p := some ((Fp.fin 0).le (fdet rnd l1 l2 p))
  mid x0 r := some (fdiv rnd (fadd rnd x0 r) (.fin 2))
  line a b r := some (fadd rnd a.y (fmul rnd (fdiv rnd (fsub rnd b.y a.y) (fsub rnd b.x a.x)) (fsub rnd r a.x)))

/-! ## int64_t -/

/-- a result of int64 arithmetic: undefined behaviour if it does not fit -/
def fits (n : ℤ) : Option ℤ := if -2 ^ 63 ≤ n ∧ n < 2 ^ 63 then some n else none

/-- `static_cast<int64_t>` of a double: the fraction is cut off; undefined behaviour if it does not fit -/
def toInt (q : ℚ) : Option ℤ := fits (trunc q)

/-- the determinant (172-174) -/
def idet (l1 l2 p : Pt ℤ) : Option ℤ := do
  let v1x ← fits (l2.x - l1.x)
  let v1y ← fits (l2.y - l1.y)
  let v2x ← fits (p.x - l1.x)
  let v2y ← fits (p.y - l1.y)
  let a ← fits (v1x * v2y)
  let b ← fits (v1y * v2x)
  fits (a - b)

/-- `TimestampCorrector<int64_t>` (the doubles stay far from overflow) -/
def i64 (rnd : ℚ → ℚ) : Arith ℤ where
  le a b := decide (a ≤ b)
  lt a b := decide (a < b)
  above l1 l2 p := (idet l1 l2 p).map fun d => decide (0 ≤ d)
  mid x0 r := do
    let s ← fits (x0 + r)
    toInt (rnd (rnd s / 2))
  line a b r := do
    let dy ← fits (b.y - a.y)
    let dx ← fits (b.x - a.x)
    let d ← fits (r - a.x)
    -- the quotient of doubles by zero would be an infinity or NaN, whose conversion is undefined
    if dx = 0 then none else toInt (rnd (rnd a.y + rnd (rnd (rnd dy / rnd dx) * rnd d)))

end Verif.Timing.Machine
