import Verif.PTree.Codecs

/-!
# Model of the number formatting in `sm_common/include/sm/string_routines.hpp`

`padded`, `scientific`, `fixedFloat`, `s_tuple`, `paddedToStream`, `paddedToString`: text written through a `std::ostream`.  The
stream (environment, libstdc++ in the classic locale) is modelled by the text written and the part of its format these functions
touch; the flags nobody here sets (`showpos`, `showpoint`, `uppercase`, `internal`, number bases) have their defaults.  Doubles are
those of `Verif.PTree.Codecs` and printed as glibc does, from their exact value, rounded by `near`.
-/

namespace Verif.Format

open Verif.PTree Verif.PTree.Codecs

/-- `std::ios::floatfield`: nothing set, `fixed` or `scientific` -/
inductive FloatField where
  | general | fixed | scientific
deriving DecidableEq

/-- an output stream: what was written, and the format -/
structure Stream where
  out : Str
  width : ℤ
  fill : Char
  prec : ℤ
  field : FloatField
  left : Bool
deriving DecidableEq

/-- a new `std::ostringstream` -/
def fresh : Stream := ⟨[], 0, ' ', 6, .general, false⟩

/-- `stream << text` for a text that is already converted: fill characters up to the width, which is used up -/
def put (s : Stream) (t : Str) : Stream :=
  let pad := List.replicate (s.width - t.length).toNat s.fill
  { s with out := s.out ++ (if s.left then t ++ pad else pad ++ t), width := 0 }

/-- the precision in force: a negative one means 6 -/
def effPrec (p : ℤ) : ℕ := if p < 0 then 6 else p.toNat

/-- `%.pf` of a magnitude -/
def fixedMag (near : ℚ → ℤ) (p : ℕ) (a : ℚ) : Str :=
  let d := Nat.toDigits 10 (near (a * 10 ^ p)).toNat
  let ds := List.replicate (p + 1 - d.length) '0' ++ d
  ds.take (ds.length - p) ++ if p = 0 then [] else '.' :: ds.drop (ds.length - p)

/-- `p + 1` significant digits of a positive number as an integer, and the exponent of the first of them -/
def decSig (near : ℚ → ℤ) (p : ℕ) (a : ℚ) : ℕ × ℤ :=
  let x := Int.log 10 a
  let m := (near (a / 10 ^ (x - p))).toNat
  if m = 10 ^ (p + 1) then (10 ^ p, x + 1) else (m, x)

/-- `d.ddde+xx` -/
def sciText (p : ℕ) (ds : Str) (x : ℤ) : Str :=
  ds.take 1 ++ (if p = 0 then [] else '.' :: ds.drop 1) ++ expText x

/-- `%.pe` of a magnitude -/
def sciMag (near : ℚ → ℤ) (p : ℕ) (a : ℚ) : Str :=
  if a = 0 then sciText p (List.replicate (p + 1) '0') 0
  else sciText p (Nat.toDigits 10 (decSig near p a).1) (decSig near p a).2

/-- `%.Pg` of a magnitude, where 0 counts as one digit -/
def genMag (near : ℚ → ℤ) (p : ℕ) (a : ℚ) : Str :=
  if a = 0 then ['0'] else
  let q := p - 1
  let ds := Nat.toDigits 10 (decSig near q a).1
  let x := (decSig near q a).2
  if -4 ≤ x ∧ x < q + 1 then
    if 0 ≤ x then ds.take (x.toNat + 1) ++ fracText (ds.drop (x.toNat + 1))
    else '0' :: fracText (List.replicate (-x - 1).toNat '0' ++ ds)
  else ds.take 1 ++ fracText (ds.drop 1) ++ expText x

/-- a double as text in the format of the stream -/
def dblText (near : ℚ → ℤ) (f : FloatField) (p : ℤ) : F64 → Str
  | .finite neg a => (if neg then ['-'] else []) ++ match f with
    | .fixed => fixedMag near (effPrec p) a
    | .scientific => sciMag near (effPrec p) a
    | .general => genMag near (effPrec p) a
  | .inf neg => (if neg then ['-'] else []) ++ "inf".toList
  | .nan neg => (if neg then ['-'] else []) ++ "nan".toList

/-- what can be written: a double, an integer, a text -/
inductive Item where
  | dbl (v : F64)
  | int (n : ℤ)
  | str (t : Str)
deriving DecidableEq

/-- an item as text in the format of the stream -/
def itemText (near : ℚ → ℤ) (s : Stream) : Item → Str
  | .dbl v => dblText near s.field s.prec v
  | .int n => printInt n
  | .str t => t

/-- `stream << item` -/
def write (near : ℚ → ℤ) (s : Stream) (i : Item) : Stream := put s (itemText near s i)

/-- `ts(t)` (string_routines.hpp:115-121) -/
def ts (near : ℚ → ℤ) (i : Item) : Str := (write near fresh i).out

/-- `fixedFloat(val, precision)` (string_routines.hpp:162-167) -/
def fixedFloat (near : ℚ → ℤ) (v : F64) (p : ℕ) : Str :=
  (write near { fresh with prec := p, field := .fixed } (.dbl v)).out

/-- `padded(double val, unsigned width, unsigned precision)` (string_routines.hpp:136-145) -/
def paddedDouble (near : ℚ → ℤ) (v : F64) (w p : ℕ) : Str :=
  (write near { fresh with fill := ' ', width := w, field := .fixed, prec := p } (.dbl v)).out

/-- `padded(const T & val, unsigned digits, char fillChar)` (string_routines.hpp:126-133) -/
def paddedFill (near : ℚ → ℤ) (i : Item) (w : ℕ) (fill : Char) : Str :=
  (write near { fresh with fill := fill, width := w } i).out

/-- which of the two the call `padded(value, width, precision)` with two integers is (string_routines.hpp:125-145): for a `double`
both fit equally well, and the function that is not a template wins; for any other type of value the template fits better, and the
number becomes the fill character (a `char`, 8 bits; as a Unicode character below 128) -/
def paddedCall (near : ℚ → ℤ) (i : Item) (w p : ℕ) : Str :=
  match i with
  | .dbl v => paddedDouble near v w p
  | i => paddedFill near i w (Char.ofNat (p % 256))

/-- `scientific(val, width, precision)` (string_routines.hpp:149-160); the sum of unsigned numbers wraps -/
def scientific (near : ℚ → ℤ) (v : F64) (w p : ℕ) : Str :=
  (write near { fresh with fill := ' ', width := (max w ((p + 7) % 2 ^ 32) : ℕ), field := .scientific, prec := p } (.dbl v)).out

/-- `s_tuple` of two to seven values (string_routines.hpp:177-223): all written one after the other, separated by commas -/
def tupleRest (near : ℚ → ℤ) (s : Stream) : List Item → Stream
  | [] => put s [']']
  | i :: r => tupleRest near (write near (put s [',']) i) r

/-- `s_tuple` (string_routines.hpp:169-223); one value is written without brackets -/
def sTuple (near : ℚ → ℤ) : List Item → Str
  | [] => []
  | [i] => (write near fresh i).out
  | i :: r => (tupleRest near (write near (put fresh ['[']) i) r).out

/-- setting the format and writing one element (string_routines.hpp:270-275, 279-284) -/
def paddedItem (near : ℚ → ℤ) (pad dec : ℤ) (s : Stream) (i : Item) : Stream :=
  write near { s with fill := ' ', width := pad, field := .fixed, prec := dec } i

/-- the loop over the elements after the first (string_routines.hpp:277-285) -/
def paddedRest (near : ℚ → ℤ) (pad dec : ℤ) (delim : Str) (s : Stream) : List Item → Stream
  | [] => s
  | i :: r => paddedRest near pad dec delim (paddedItem near pad dec (put s delim) i) r

/-- `paddedToStream` (string_routines.hpp:261-288) -/
def paddedToStream (near : ℚ → ℤ) (s : Stream) (pad dec : ℤ) (items : List Item) (delim pre post : Str) : Stream :=
  let s := put s pre
  let s := match items with
    | [] => s
    | i :: r => paddedRest near pad dec delim (paddedItem near pad dec s i) r
  put s post

/-- `paddedToString` (string_routines.hpp:291-297) -/
def paddedToString (near : ℚ → ℤ) (pad dec : ℤ) (items : List Item) (delim pre post : Str) : Str :=
  (paddedToStream near fresh pad dec items delim pre post).out

end Verif.Format
