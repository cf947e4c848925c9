import Verif.Timing.Model

/-!
# What users of the timers rely on (C39, C40): a machine of tags and sample lists, without handles,
accumulators or tag maps
-/

namespace Verif.Timing

/-- the statistics of a list of samples -/
def Stats.total (xs : List ℚ) : ℚ := xs.sum
def Stats.mean (xs : List ℚ) : Option ℚ := if xs = [] then none else some (xs.sum / xs.length)
/-- mean squared deviation from the mean -/
def Stats.variance (xs : List ℚ) : Option ℚ :=
  if xs = [] then none
  else some ((xs.map fun x => (x - xs.sum / xs.length) ^ 2).sum / xs.length)
/-- the reciprocal of the mean of the last 50 samples -/
def Stats.hz (xs : List ℚ) : Option ℚ :=
  let w := xs.drop (xs.length - 50)
  if w = [] then none else some (1 / (w.sum / w.length))

/-- `m` is the least sample -/
def IsMin (xs : List ℚ) : Option ℚ → Prop
  | none => xs = []
  | some m => m ∈ xs ∧ ∀ x ∈ xs, m ≤ x

def IsMax (xs : List ℚ) : Option ℚ → Prop
  | none => xs = []
  | some m => m ∈ xs ∧ ∀ x ∈ xs, x ≤ m

/-- registered tags in order of first use, the samples recorded for each since its last reset, and for each
live timer its tag and, if running, its start time -/
structure Abs where
  tags : List Tag
  samples : Tag → List ℚ
  timers : ℕ → Option (Tag × Option ℚ)

def Abs.init : Abs := ⟨[], fun _ => [], fun _ => none⟩

def Abs.register (a : Abs) (t : Tag) : Abs := if t ∈ a.tags then a else { a with tags := a.tags ++ [t] }

def Abs.record (a : Abs) (t : Tag) (dt : ℚ) : Abs :=
  { a with samples := fun t' => if t' = t then a.samples t' ++ [dt] else a.samples t' }

def Abs.clear (a : Abs) (t : Tag) : Abs :=
  { a with samples := fun t' => if t' = t then [] else a.samples t' }

def Abs.setTimer (a : Abs) (id : ℕ) (v : Option (Tag × Option ℚ)) : Abs :=
  { a with timers := fun i => if i = id then v else a.timers i }

/-- the intended effect of each operation -/
def Abs.step (a : Abs) : Op → Out × Abs
  | .getHandle t => (.handle ((a.register t).tags.idxOf t), a.register t)
  | .newTag id t stopped now => match a.timers id with
    | some _ => (.invalid, a)
    | none => (.ok, (a.register t).setTimer id (some (t, if stopped then none else some now)))
  | .newHandle id h stopped now => match a.timers id with
    | some _ => (.invalid, a)
    | none => match a.tags[h]? with
      | none => (.threw, a)
      | some t => (.ok, a.setTimer id (some (t, if stopped then none else some now)))
  | .start id now => match a.timers id with
    | none => (.invalid, a)
    | some (_, some _) => (.threw, a)
    | some (t, none) => (.ok, a.setTimer id (some (t, some now)))
  | .stop id now => match a.timers id with
    | none => (.invalid, a)
    | some (_, none) => (.threw, a)
    | some (t, some t0) => (.ok, (a.record t (now - t0)).setTimer id (some (t, none)))
  | .destroy id now => match a.timers id with
    | none => (.invalid, a)
    | some (_, none) => (.ok, a.setTimer id none)
    | some (t, some t0) => (.ok, (a.record t (now - t0)).setTimer id none)
  | .resetHandle h => match a.tags[h]? with
    | none => (.threw, a)
    | some t => (.ok, a.clear t)
  | .resetTag t => (.ok, (a.register t).clear t)
  | .query t => (.ok, a.register t)

def Abs.run (a : Abs) : List Op → List Out × Abs
  | [] => ([], a)
  | o :: os => ((a.step o).1 :: (Abs.run (a.step o).2 os).1, (Abs.run (a.step o).2 os).2)

end Verif.Timing
