import Verif.Common.Format
import Verif.PTree.CodecsText

/-!
# Specification of formatted numbers (C176)
-/

namespace Verif.Format

open Verif.PTree Verif.PTree.Codecs

/-- the unsigned decimal numbers with exactly `p` decimals: digits without a superfluous zero in front; a point and `p` digits, unless
`p = 0`; and the number denoted -/
def FixedText (p : ℕ) (t : Str) (q : ℚ) : Prop :=
  ∃ i f, AllDigits i ∧ AllDigits f ∧ i ≠ [] ∧ (2 ≤ i.length → i.head? ≠ some '0') ∧ f.length = p ∧
    t = (if p = 0 then i else i ++ '.' :: f) ∧ q = (Nat.ofDigitChars 10 (i ++ f) 0 : ℚ) / 10 ^ p

/-- the unsigned decimal numbers in scientific notation: a digit, a point and `p` digits (no point if `p = 0`), the exponent with its
sign and at least two digits; only 0 has a zero in front -/
def SciText (p : ℕ) (t : Str) (q : ℚ) : Prop :=
  ∃ c f sg x, AllDigits [c] ∧ AllDigits f ∧ f.length = p ∧ (c = '0' → q = 0) ∧ AllDigits x ∧ 2 ≤ x.length ∧
    (2 < x.length → x.head? ≠ some '0') ∧ sg ∈ ['+', '-'] ∧
    t = (if p = 0 then [c] else c :: '.' :: f) ++ 'e' :: sg :: x ∧
    q = (Nat.ofDigitChars 10 (c :: f) 0 : ℚ) * 10 ^ ((if sg = '-' then -(Nat.ofDigitChars 10 x 0 : ℤ) else Nat.ofDigitChars 10 x 0) - (p : ℤ))

/-- the sign in front of a number -/
def signText (neg : Bool) : Str := if neg then ['-'] else []

end Verif.Format
