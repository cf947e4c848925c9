import Verif.PTree.Model
import Verif.Common.Double

/-!
# The conversions between values and texts of a property tree

`get<T>` and `set<T>` of the boost implementation (BoostPropertyTreeImplementation.hpp:90-144) and the getters built on them
(BoostPropertyTreeImplementation.cpp:32-93) convert with boost's default translators: `std::string` is kept as it is, the other
types go through a string stream in the classic locale.  These translators are third-party code; they are modelled here from their
documented behaviour:

* writing an `int` is `s << e`, decimal; writing a `bool` sets `boolalpha`; writing a `double` sets the precision to `max_digits10`,
  that is 17 significant digits in the format `%.17g`;
* reading is `s >> e`, then `s >> std::ws`, and succeeds if that did not fail and the end of the text is reached; a `bool` that
  cannot be read as a number is tried again as a word, *from where the first attempt stopped*.
-/

namespace Verif.PTree.Codecs

open Verif.Common

/-! ## scanning (environment: `std::istream`, classic locale) -/

/-- white space of the classic locale -/
def isSpace (c : Char) : Bool :=
  c = ' ' || c = '\t' || c = '\n' || c = '\r' || c = Char.ofNat 11 || c = Char.ofNat 12

/-- skipping white space: before every formatted input, and `s >> std::ws` -/
def skipWs (s : Str) : Str := s.dropWhile isSpace

/-- an optional sign; `true` is minus -/
def readSign : Str → Bool × Str
  | '-' :: s => (true, s)
  | '+' :: s => (false, s)
  | s => (false, s)

/-- the digits at the front -/
def digits (s : Str) : Str := s.takeWhile Char.isDigit

/-- what follows the digits at the front -/
def afterDigits (s : Str) : Str := s.dropWhile Char.isDigit

/-- the number that decimal digits denote -/
def natOf (ds : Str) : ℕ := Nat.ofDigitChars 10 ds 0

/-! ## `std::string` (BoostPropertyTreeImplementation.cpp:74-93) -/

/-- boost's `id_translator` -/
def strCodec : Codec Str := ⟨id, some⟩

/-! ## `int` (BoostPropertyTreeImplementation.cpp:47-62) -/

def printInt (n : ℤ) : Str := (if n < 0 then ['-'] else []) ++ Nat.toDigits 10 n.natAbs

/-- `s >> e` for an `int` of 32 bits; a number out of range makes the stream fail -/
def parseInt (s : Str) : Option ℤ :=
  let (neg, s1) := readSign (skipWs s)
  let n : ℤ := if neg then -(natOf (digits s1) : ℤ) else natOf (digits s1)
  if digits s1 ≠ [] ∧ -2 ^ 31 ≤ n ∧ n < 2 ^ 31 ∧ skipWs (afterDigits s1) = [] then some n else none

def intCodec : Codec ℤ := ⟨printInt, parseInt⟩

/-! ## `bool` (BoostPropertyTreeImplementation.cpp:65-79) -/

def printBool (b : Bool) : Str := if b then "true".toList else "false".toList

/-- the second attempt, with `boolalpha`: one of the words, then white space up to the end -/
def parseWord (s : Str) : Option Bool :=
  if "true".toList <+: skipWs s ∧ skipWs ((skipWs s).drop 4) = [] then some true
  else if "false".toList <+: skipWs s ∧ skipWs ((skipWs s).drop 5) = [] then some false
  else none

/-- reading a `bool`: the number 0 or 1, or else (after whatever sign and digits the first attempt consumed) a word -/
def parseBool (s : Str) : Option Bool :=
  let (neg, s1) := readSign (skipWs s)
  let n := natOf (digits s1)
  if digits s1 ≠ [] ∧ (n = 0 ∨ n = 1 ∧ neg = false) then
    if skipWs (afterDigits s1) = [] then some (n == 1) else none
  else parseWord (afterDigits s1)

def boolCodec : Codec Bool := ⟨printBool, parseBool⟩

/-! ## `double` (BoostPropertyTreeImplementation.cpp:32-45) -/

/-- the values of a `double`; a finite one is a sign and a magnitude, so that the two zeros differ -/
inductive F64 where
  | finite (neg : Bool) (mag : ℚ)
  | inf (neg : Bool)
  | nan (neg : Bool)
deriving DecidableEq

/-- the finite numbers of the format are those of `Verif.Common.IsDouble` below `2 ^ 1024` -/
def F64.Valid : F64 → Prop
  | .finite _ a => 0 ≤ a ∧ IsDouble a ∧ a < 2 ^ 1024
  | _ => True

/-- 17 significant decimal digits of a positive number, as an integer of 17 digits and the exponent of its first digit; `near`
rounds to a nearest integer -/
def dec17 (near : ℚ → ℤ) (a : ℚ) : ℕ × ℤ :=
  let x := Int.log 10 a
  let m := (near (a / 10 ^ (x - 16))).toNat
  if m = 10 ^ 17 then (10 ^ 16, x + 1) else (m, x)

/-- dropping the zeros at the end, as `%g` does -/
def stripZeros (s : Str) : Str := (s.reverse.dropWhile (· = '0')).reverse

/-- the point and the digits after it, if any are left -/
def fracText (f : Str) : Str := if stripZeros f = [] then [] else '.' :: stripZeros f

/-- the exponent: a sign and at least two digits -/
def expText (x : ℤ) : Str :=
  let ds := Nat.toDigits 10 x.natAbs
  'e' :: (if x < 0 then '-' else '+') :: (if ds.length < 2 then '0' :: ds else ds)

/-- `%.17g` for the 17 digits of `m` and the exponent `x` -/
def gText (m : ℕ) (x : ℤ) : Str :=
  let ds := Nat.toDigits 10 m
  if -4 ≤ x ∧ x < 17 then
    if 0 ≤ x then ds.take (x.toNat + 1) ++ fracText (ds.drop (x.toNat + 1))
    else '0' :: fracText (List.replicate (-x - 1).toNat '0' ++ ds)
  else ds.take 1 ++ fracText (ds.drop 1) ++ expText x

/-- writing a `double` -/
def printDouble (near : ℚ → ℤ) : F64 → Str
  | .finite neg a =>
    (if neg then ['-'] else []) ++ if a = 0 then ['0'] else gText (dec17 near a).1 (dec17 near a).2
  | .inf neg => (if neg then ['-'] else []) ++ "inf".toList
  | .nan neg => (if neg then ['-'] else []) ++ "nan".toList

/-- the digits before and after the point, and what follows -/
def scanMantissa (s : Str) : Str × Str × Str :=
  match afterDigits s with
  | '.' :: r => (digits s, digits r, afterDigits r)
  | r => (digits s, [], r)

/-- an exponent, if there is an `e`: `none` if digits are missing after it -/
def scanExponent (s : Str) : Option (ℤ × Str) :=
  match s with
  | c :: r =>
    if c = 'e' ∨ c = 'E' then
      let (neg, r1) := readSign r
      if digits r1 = [] then none
      else some (if neg then -(natOf (digits r1) : ℤ) else natOf (digits r1), afterDigits r1)
    else some (0, c :: r)
  | [] => some (0, [])

/-- an unsigned decimal number at the front of a text, and what follows it -/
def scanDec (s : Str) : Option (ℚ × Str) :=
  let (ip, fp, r) := scanMantissa s
  if ip = [] ∧ fp = [] then none
  else (scanExponent r).map fun (e, r') => ((natOf (ip ++ fp) : ℚ) * 10 ^ (e - (fp.length : ℤ)), r')

/-- reading a `double`: `rnd` is the rounding of `strtod`; a number that is rounded out of the range makes the stream fail -/
def parseDouble (rnd : ℚ → ℚ) (s : Str) : Option F64 :=
  let (neg, s1) := readSign (skipWs s)
  match scanDec s1 with
  | none => none
  | some (q, r) => if rnd q < 2 ^ 1024 ∧ skipWs r = [] then some (.finite neg (rnd q)) else none

def doubleCodec (near : ℚ → ℤ) (rnd : ℚ → ℚ) : Codec F64 := ⟨printDouble near, parseDouble rnd⟩

end Verif.PTree.Codecs
