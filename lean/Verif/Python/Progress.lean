import Mathlib.Data.Rat.Floor
import Mathlib.Tactic.Linarith

/-!
# Model of the progress reporters in Python (`sm_python/python/sm/Progress.py`)

Times are exact seconds (the rounding of floats is left out); the clock is a list of readings.  What is printed is modelled by the numbers in it; for `Progress2` also the text of
the remaining time.
-/

namespace Verif.Python

/-- the attributes of `Progress` and `Progress2` (Progress.py:8-13, 46-50) -/
structure Prog where
  started : Bool
  elapsed : ℚ
  startTime : ℚ
  numIterations : ℤ
  iteration : ℤ
  deriving DecidableEq

/-- `Progress(numIterations)`, `Progress2(numIterations)` -/
def Prog.new (n : ℤ) : Prog := ⟨false, 0, 0, n, 0⟩

/-- what `Progress.sample` prints -/
structure Report where
  iteration : ℤ
  numIterations : ℤ
  elapsed : ℚ
  total : ℚ
  perRun : ℚ
  deriving DecidableEq

/-- how `sample` ends -/
inductive Sampled (R : Type) where
  /-- nothing is printed -/
  | silent
  | printed (r : R)
  /-- `ZeroDivisionError` -/
  | raised
  deriving DecidableEq

/-- `Progress.sample()` at the time `now` (Progress.py:15-28) -/
def Prog.sample (p : Prog) (now : ℚ) : Sampled Report × Prog :=
  if p.started then
    let p := { p with iteration := p.iteration + 1 }
    let p := { p with elapsed := now - p.startTime }
    if p.iteration = 0 then (.raised, p)
    else
      let perRun := p.elapsed / p.iteration
      (.printed ⟨p.iteration, p.numIterations, p.elapsed, p.numIterations * perRun, perRun⟩, p)
  else (.silent, { p with startTime := now, iteration := 0, started := true })

/-- `divmod(x, 60)` -/
def divmod60 (x : ℚ) : ℤ × ℚ := (⌊x / 60⌋, x - 60 * ⌊x / 60⌋)

/-- what `Progress2.sample` prints: the counts and the parts of the remaining time that are shown (hours, minutes, seconds; `%d` cuts off the fraction) -/
structure Report2 where
  iteration : ℤ
  numIterations : ℤ
  hours : Option ℤ
  minutes : Option ℤ
  seconds : Option ℤ
  deriving DecidableEq

/-- `Progress2.sample(steps)` at the time `now` (Progress.py:52-75).  (`print(text, sys.stdout.flush())` also prints the result of `flush()`: every line ends in ` None`; this is left out.) -/
def Prog.sample2 (p : Prog) (now : ℚ) (steps : ℤ) : Sampled Report2 × Prog :=
  if p.started then
    let p := { p with iteration := p.iteration + steps }
    let p := { p with elapsed := now - p.startTime }
    if p.iteration = 0 then (.raised, p)
    else
      let perRun := p.elapsed / p.iteration
      let total := p.numIterations * perRun
      let ms := divmod60 (total - p.elapsed)
      let hm := divmod60 ms.1
      let h := hm.1
      let m := ms.1 - 60 * h
      let s := ms.2
      (.printed ⟨p.iteration, p.numIterations, if h > 0 then some h else none, if m > 0 then some m else none, if s > 0 then some ⌊s⌋ else none⟩, p)
  else (.silent, { p with startTime := now, iteration := 0, started := true })

/-- `Progress2.reset(numIterations = -1)` (Progress.py:77-83) -/
def Prog.reset (p : Prog) (numIterations : ℤ) : Prog :=
  let p := { p with started := false, elapsed := 0, startTime := 0, iteration := 0 }
  if numIterations ≠ -1 then { p with numIterations := numIterations } else p

/-- `sample()` at each of the times -/
def Prog.samples (p : Prog) : List ℚ → List (Sampled Report) × Prog
  | [] => ([], p)
  | t :: ts => let (o, p') := p.sample t; let (os, p'') := p'.samples ts; (o :: os, p'')

/-- `sample(steps)` at each of the times -/
def Prog.samples2 (p : Prog) : List (ℚ × ℤ) → List (Sampled Report2) × Prog
  | [] => ([], p)
  | (t, k) :: ts => let (o, p') := p.sample2 t k; let (os, p'') := p'.samples2 ts; (o :: os, p'')

end Verif.Python
