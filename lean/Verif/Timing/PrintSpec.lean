import Verif.Timing.Print

/-! # What the table of timers shows (C141): in terms of tags and samples -/

namespace Verif.Timing.Table

open Verif.Timing

/-- `v` is the statistic `c` of the samples `xs` -/
def IsStat (xs : List ℚ) : SortType → ℝ → Prop
  | .total, v => v = (xs.sum : ℚ)
  | .mean, v => v = (xs.sum / xs.length : ℚ)
  | .std, v => v = Real.sqrt (((xs.map fun x => (x - xs.sum / xs.length) ^ 2).sum / xs.length : ℚ) : ℝ)
  | .min, v => ∃ m, IsMin xs (some m) ∧ v = (m : ℚ)
  | .max, v => ∃ m, IsMax xs (some m) ∧ v = (m : ℚ)
  | .numSamples, v => v = xs.length

/-- the line of the table for a tag and its samples: the tag filled up to `w` characters, the number of samples in at least seven characters, and, if there are samples, total, mean ± standard deviation, minimum and maximum as times of day -/
def IsLine (ts : ℝ → List Char) (w : ℕ) (t : Tag) (xs : List ℚ) (line : List Char) : Prop :=
  ∃ left right : List Char, (∀ c ∈ left, c = ' ') ∧ (∀ c ∈ right, c = ' ') ∧
    (t ++ left).length = w ∧ (right ++ Nat.toDigits 10 xs.length).length = Nat.max 7 (Nat.toDigits 10 xs.length).length ∧
    ((xs = [] ∧ line = t ++ left ++ ['\t'] ++ right ++ ['0', '\t', '\n']) ∨
     (∃ total mean std min max, IsStat xs .total total ∧ IsStat xs .mean mean ∧ IsStat xs .std std ∧ IsStat xs .min min ∧ IsStat xs .max max ∧
      line = t ++ left ++ ['\t'] ++ right ++ Nat.toDigits 10 xs.length ++ ['\t'] ++ ts total ++ "\t(".toList ++ ts mean ++ " +- ".toList ++ ts std ++
        ")\t[".toList ++ ts min ++ [','] ++ ts max ++ "]\n".toList))

/-- the table with the tags `tags` in this order -/
inductive IsTable (ts : ℝ → List Char) (w : ℕ) (samples : Tag → List ℚ) : List Tag → List Char → Prop
  | nil : IsTable ts w samples [] []
  | cons {t l tags rest} : IsLine ts w t (samples t) l → IsTable ts w samples tags rest → IsTable ts w samples (t :: tags) (l ++ rest)

end Verif.Timing.Table
