import Verif.Timing.Spec
import Mathlib.Analysis.Real.Sqrt

/-!
# Model of `Timing::print` (`sm_timing/src/Timer.cpp:237-343`)

The registry is that of `Verif.Timing.Model` (exact arithmetic; for doubles see C129).  Not modelled: the state the caller left in the stream (a fill character other than the blank, other number bases) and the mutex, which `print` does not take (C130).  `secondsToTimeString` (C41) is the parameter `ts`.
-/

namespace Verif.Timing.Table

open Verif.Timing

/-- `enum SortType` (Timer.hpp:63) -/
inductive SortType where
  | total | mean | std | min | max | numSamples
deriving DecidableEq, Repr

/-- `std::numeric_limits<double>::max()` -/
noncomputable def dblMax : ℝ := (2 - 1 / 2 ^ 52) * 2 ^ 1023

/-- `out.width(w)` with `ios::left`: blanks after the text, for the next output only (Timer.cpp:243-245) -/
def padRight (w : ℕ) (s : List Char) : List Char := s ++ List.replicate (w - s.length) ' '

/-- `out.width(w)` with `ios::right`: blanks before the text (Timer.cpp:246-249) -/
def padLeft (w : ℕ) (s : List Char) : List Char := List.replicate (w - s.length) ' ' ++ s

/-- the standard deviation of a timer with samples, `sqrt(getVarianceSeconds(i))` (Timer.cpp:254, 299) -/
noncomputable def stddev (a : Acc) : ℝ := Real.sqrt ((a.variance.getD 0 : ℚ) : ℝ)

/-- one line of the table without the tag (Timer.cpp:246-265) -/
noncomputable def cells (ts : ℝ → List Char) (a : Acc) : List Char :=
  padLeft 7 (Nat.toDigits 10 a.count) ++ ['\t'] ++
  (if 0 < a.count then
    ts (a.total : ℝ) ++ ['\t', '('] ++ ts ((a.mean.getD 0 : ℚ) : ℝ) ++ [' ', '+', '-', ' '] ++ ts (stddev a) ++ [')', '\t', '['] ++
    ts ((a.min.getD 0 : ℚ) : ℝ) ++ [','] ++ ts ((a.max.getD 0 : ℚ) : ℝ) ++ [']']
  else []) ++ ['\n']

/-- `m_timers[i]` behind the range check of the getters (Timer.cpp:157, …); `none` = `TimerException` -/
def timerAt (s : Sys) (i : ℕ) : Option Acc := s.accs[i]?

/-- `"SM Timing\n-----------\n"` (Timer.cpp:239-240) -/
def header : List Char := "SM Timing\n-----------\n".toList

/-- the lines of the table: `entries` are the elements of the map in its order, with their index; `none` = exception (Timer.cpp:241-266) -/
noncomputable def lines (ts : ℝ → List Char) (s : Sys) : List (Tag × ℕ) → Option (List Char)
  | [] => some []
  | (t, i) :: rest => match timerAt s i, lines ts s rest with
    | some a, some r => some (padRight s.maxLen t ++ ['\t'] ++ cells ts a ++ r)
    | _, _ => none

/-- `Timing::print(out)` (Timer.cpp:237-280): `order` is the order in which the hash map is traversed -/
noncomputable def print (ts : ℝ → List Char) (order : List (Tag × ℕ)) (s : Sys) : Option (List Char) :=
  (lines ts s order).map (header ++ ·)

/-- the key under which a timer is sorted (Timer.cpp:288-312) -/
noncomputable def sortKey (c : SortType) (a : Acc) : ℝ :=
  if 0 < a.count then match c with
    | .total => (a.total : ℝ)
    | .mean => ((a.mean.getD 0 : ℚ) : ℝ)
    | .std => stddev a
    | .max => ((a.max.getD 0 : ℚ) : ℝ)
    | .min => ((a.min.getD 0 : ℚ) : ℝ)
    | .numSamples => (a.count : ℝ)
  else dblMax

open Classical in
/-- `sorted.insert(value_type(sv, tag))` of a `std::multimap<double, std::string, std::greater<double>>` as the sequence of its elements: before the first element with a smaller key (Timer.cpp:285-286, 313) -/
noncomputable def insert (k : ℝ) (t : Tag) : List (ℝ × Tag) → List (ℝ × Tag)
  | [] => [(k, t)]
  | (k', t') :: rest => if k > k' then (k, t) :: (k', t') :: rest else (k', t') :: insert k t rest

/-- the loop that fills the multimap (Timer.cpp:287-314); `none` = exception of a getter -/
noncomputable def fill (c : SortType) (s : Sys) : List (Tag × ℕ) → List (ℝ × Tag) → Option (List (ℝ × Tag))
  | [], acc => some acc
  | (t, i) :: rest, acc => match timerAt s i with
    | some a => fill c s rest (insert (sortKey c a) t acc)
    | none => none

/-- `tagMap[t->second]` (Timer.cpp:320-322): `operator[]` of the hash map, which inserts a 0 for a missing key -/
def subscript (m : List (Tag × ℕ)) (t : Tag) : ℕ × List (Tag × ℕ) := match lookup m t with
  | some i => (i, m)
  | none => (0, m ++ [(t, 0)])

/-- the lines of the sorted table; the accessor looks up each tag again (Timer.cpp:241-266, 316-328) -/
noncomputable def sortedLines (ts : ℝ → List Char) : Sys → List (ℝ × Tag) → Option (List Char × Sys)
  | s, [] => some ([], s)
  | s, (_, t) :: rest =>
    let s' := { s with tagMap := (subscript s.tagMap t).2 }
    match timerAt s' (subscript s.tagMap t).1, sortedLines ts s' rest with
    | some a, some (r, s'') => some (padRight s.maxLen t ++ ['\t'] ++ cells ts a ++ r, s'')
    | _, _ => none

/-- `Timing::print(out, sort)` (Timer.cpp:282-329): the text and the registry afterwards -/
noncomputable def printSorted (ts : ℝ → List Char) (c : SortType) (order : List (Tag × ℕ)) (s : Sys) : Option (List Char × Sys) :=
  match fill c s order [] with
  | none => none
  | some sorted => (sortedLines ts s sorted).map fun r => (header ++ r.1, r.2)

end Verif.Timing.Table
