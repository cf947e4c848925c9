import Verif.Timing.Corrector

/-!
# Model of `TimestampCorrector` objects: `reset`, copies, and the shared `_pendingCorrector`
(`sm_timing/include/sm/timing/TimestampCorrector.hpp`, `implementation/TimestampCorrector.hpp`)

The class has no copy constructor or assignment of its own: copies copy the hull, the index and the `std::shared_ptr` `_pendingCorrector` (TimestampCorrector.hpp:25-152).  Times as in `Verif.Timing.Corrector`.
-/

namespace Verif.Timing.Corrector

/-- the calls that change a corrector -/
inductive Call where
  | two (p : Point)
  | three (p : Point) (period : ℚ)
  | reset
deriving DecidableEq

/-- `reset()` (TimestampCorrector.hpp:98): clears the hull and the index, not `_pendingCorrector` -/
def Dual.reset (d : Dual) : Dual := { d with main := .fresh }

/-- one call on one object; `none` = no result (`reset` returns nothing) -/
def Dual.call (cast : ℚ → ℚ) (d : Dual) : Call → Option Res × Dual
  | .two p => (some (correct cast d.main p.x p.y).1, { d with main := (correct cast d.main p.x p.y).2 })
  | .three p period => (some (correct3 cast d p.x p.y period).1, (correct3 cast d p.x p.y period).2)
  | .reset => (none, d.reset)

/-- a sequence of calls on one object: the results and the object afterwards -/
def Dual.calls (cast : ℚ → ℚ) : Dual → List Call → List (Option Res) × Dual
  | d, [] => ([], d)
  | d, c :: cs => ((d.call cast c).1 :: (Dual.calls cast (d.call cast c).2 cs).1, (Dual.calls cast (d.call cast c).2 cs).2)

/-! ## Several objects -/

/-- an object in memory: hull and index, and the address `_pendingCorrector` points to -/
structure Obj where
  corr : Corr
  pending : Option ℕ
deriving DecidableEq

/-- the user's objects (`none` = destroyed) and the correctors made by `new` (implementation:69); what `_pendingCorrector` points to lives as long as it is used.  The `_pendingCorrector` of such a corrector is null outside of lines 78-80. -/
structure World where
  objs : List (Option Obj)
  mem : List Corr
deriving DecidableEq

def World.start : World := ⟨[], []⟩

/-- `correctTimestamp(remoteTime, localTime, switchingPeriod)` (implementation:62-84) on an object and the memory -/
def Obj.correct3 (cast : ℚ → ℚ) (o : Obj) (mem : List Corr) (r l period : ℚ) : Res × Obj × List Corr :=
  match correct cast o.corr r l with
  | (.threw, _) => (.threw, o, mem)
  | (.ub, m) => (.ub, { o with corr := m }, mem)
  | (.value v, m) =>
    -- 68-70: `new TimestampCorrector<T>()`
    let (pend, mem) := match o.pending with
      | some a => (some a, mem)
      | none => if period / 2 < span m then (some mem.length, mem ++ [Corr.fresh]) else (none, mem)
    match pend with
    | none => if period < span m then (.ub, ⟨m, none⟩, mem) else (.value v, ⟨m, none⟩, mem)
    | some a => match mem[a]? with
      | none => (.ub, ⟨m, some a⟩, mem)
      | some p => match correct cast p r l with
        | (.threw, _) => (.threw, ⟨m, some a⟩, mem)
        | (.ub, p') => (.ub, ⟨m, some a⟩, mem.set a p')
        | (.value _, p') =>
          -- 75-81: `reset()`, then the contents of the object and of the pending one are swapped; the object keeps pointing to the same place
          if period < span m then (.value v, ⟨p', some a⟩, mem.set a .fresh) else (.value v, ⟨m, some a⟩, mem.set a p')

/-- what a user does with correctors -/
inductive Op where
  /-- the default constructor -/
  | create
  /-- the copy constructor -/
  | copy (i : ℕ)
  /-- copy, then destroy the source (what a growing `std::vector` does) -/
  | move (i : ℕ)
  /-- `objs[i] = objs[j]` -/
  | assign (i j : ℕ)
  | destroy (i : ℕ)
  | call (i : ℕ) (c : Call)
deriving DecidableEq

/-- one step of a program; an operation on an object that does not exist does nothing -/
def World.step (cast : ℚ → ℚ) (w : World) : Op → Option Res × World
  | .create => (none, { w with objs := w.objs ++ [some ⟨.fresh, none⟩] })
  | .copy i => (none, match w.objs[i]? with
    | some (some o) => { w with objs := w.objs ++ [some o] }
    | _ => w)
  | .move i => (none, match w.objs[i]? with
    | some (some o) => { w with objs := (w.objs ++ [some o]).set i none }
    | _ => w)
  | .assign i j => (none, match w.objs[i]?, w.objs[j]? with
    | some (some _), some (some o) => { w with objs := w.objs.set i (some o) }
    | _, _ => w)
  | .destroy i => (none, { w with objs := w.objs.set i none })
  | .call i c => match w.objs[i]? with
    | some (some o) => match c with
      | .two p => (some (correct cast o.corr p.x p.y).1, { w with objs := w.objs.set i (some { o with corr := (correct cast o.corr p.x p.y).2 }) })
      | .three p period =>
        let (res, o', mem') := o.correct3 cast w.mem p.x p.y period
        (some res, ⟨w.objs.set i (some o'), mem'⟩)
      | .reset => (none, { w with objs := w.objs.set i (some { o with corr := .fresh }) })
    | _ => (none, w)

def World.run (cast : ℚ → ℚ) : World → List Op → List (Option Res)
  | _, [] => []
  | w, o :: os => (w.step cast o).1 :: World.run cast (w.step cast o).2 os

end Verif.Timing.Corrector
