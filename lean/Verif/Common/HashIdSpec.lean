import Verif.Common.HashId

/-!
# Specification used by C10-C12
-/

namespace Verif.HashId

/-- Is the string made of exactly 32 hexadecimal digits? -/
def IsHex32 (s : List Char) : Prop := s.length = 32 ∧ ∀ c ∈ s, isHexDigit c = true

/-- Big-endian value of two hexadecimal digits. -/
def twoDigits (c1 c2 : Char) : Nat := 16 * (digitVal c1).getD 0 + (digitVal c2).getD 0

/-- What one two-character group contributes in the code as written: `none` = exception. -/
def pairByte (c1 c2 : Char) : Option Nat :=
  match digitVal c1, digitVal c2 with
  | some a, some b => some (16 * a + b)
  | some a, none => some a
  | none, some b =>
    if c1 = '-' then some ((256 - b) % 256)
    else if isSpace c1 = true ∨ c1 = '+' then some b else none
  | none, none => none

end Verif.HashId
