/-!
# Model of `sm_common/include/sm/string_routines.hpp`

Strings are lists of characters.  The `while` loops are modelled with a fuel argument; `none`
means "still running after that many iterations", so non-termination is `∀ fuel, … = none`.
`std::string::size_type` positions are natural numbers (strings shorter than `2^64 - 1`), except
that the wrap-around of `pos--` at position `0` to `npos` is modelled.
-/

namespace Verif.Strings

/-- `str.find(c, pos)` for a character: the least index `≥ pos` holding `c`. -/
def findFrom (s : List Char) (c : Char) (pos : Nat) : Option Nat :=
  ((s.drop pos).findIdx? (· == c)).map (· + pos)

/-- `replace` (string_routines.hpp:12-26): the loop, from position `pos`. -/
def replaceLoop (target repl : Char) : Nat → List Char → Nat → Nat → Option (List Char)
  | 0, _, _, _ => none
  | fuel + 1, s, pos, skip =>
    match findFrom s target pos with
    | none => some s
    | some p =>
      match skip with
      | k + 1 => replaceLoop target repl fuel s (p + 1) k
      | 0 => replaceLoop target repl fuel (s.set p repl) p 0

/-- `replace(str, target, replacement, skip)` (string_routines.hpp:12-26). -/
def replace (fuel : Nat) (s : List Char) (target repl : Char) (skip : Nat) : Option (List Char) :=
  replaceLoop target repl fuel s 0 skip

/-- the greatest index `< bound` holding `c` -/
def lastBelow (s : List Char) (c : Char) : Nat → Option Nat
  | 0 => none
  | n + 1 => if s[n]? = some c then some n else lastBelow s c n

/-- `str.rfind(c, pos)`; `pos = none` is `npos`. -/
def rfind (s : List Char) (c : Char) (pos : Option Nat) : Option Nat :=
  match pos with
  | none => lastBelow s c s.length
  | some p => lastBelow s c (min (p + 1) s.length)

/-- `pos--` on `size_type`: `0` wraps to `npos`. -/
def decPos : Nat → Option Nat
  | 0 => none
  | p + 1 => some p

/-- `replace_reverse` (string_routines.hpp:30-44): the loop. -/
def replaceReverseLoop (target repl : Char) : Nat → List Char → Option Nat → Nat → Option (List Char)
  | 0, _, _, _ => none
  | fuel + 1, s, pos, skip =>
    match rfind s target pos with
    | none => some s
    | some p =>
      match skip with
      | k + 1 => replaceReverseLoop target repl fuel s (decPos p) k
      | 0 => replaceReverseLoop target repl fuel (s.set p repl) (some p) 0

/-- `replace_reverse(str, target, replacement, skip)` (string_routines.hpp:30-44). -/
def replaceReverse (fuel : Nat) (s : List Char) (target repl : Char) (skip : Nat) :
    Option (List Char) :=
  replaceReverseLoop target repl fuel s none skip

/-- `leading_pad` (string_routines.hpp:46-59). -/
def leadingPad (s : List Char) (desired : Nat) (pad : Char) : List Char :=
  if s.length < desired then List.replicate (desired - s.length) pad ++ s else s

/-- `padded(val, digits, fillChar)` (string_routines.hpp:125-133) on the already printed value:
an ostream with `width` set pads on the left (default `std::right`). -/
def padded (printed : List Char) (digits : Nat) (fill : Char) : List Char :=
  List.replicate (digits - printed.length) fill ++ printed

/-- `ensureTrailingBackslash` (string_routines.hpp:103-112). -/
def ensureTrailingBackslash (s : List Char) : List Char :=
  if s.length = 0 then ['/']
  else if s[s.length - 1]? = some '/' then s
  else s ++ ['/']

/-- `s.find("$(", off)`: the least index `≥ off` at which `$(` occurs. -/
def findDollar (s : List Char) (off : Nat) : Option Nat :=
  go (s.drop off) off
where
  go : List Char → Nat → Option Nat
    | '$' :: '(' :: _, i => some i
    | _ :: cs, i => go cs (i + 1)
    | [], _ => none

/-- the loop of `substituteEnvVars` (string_routines.hpp:74-97); `out` is the stream so far.
`env name` is `getenv(name)`, `none` for a null pointer. -/
def envLoop (env : List Char → Option (List Char)) :
    Nat → List Char → Nat → Nat → List Char → Option (List Char)
  | 0, _, _, _, _ => none
  | fuel + 1, s, off, pidx, out =>
    match findDollar s off with
    | none => some (out ++ s.drop pidx)
    | some idx =>
      match findFrom s ')' idx with
      | none => some (out ++ s.drop pidx)
      | some idxe =>
        match env ((s.drop (idx + 2)).take (idxe - idx - 2)) with
        | some v => envLoop env fuel s (idxe + 1) (idxe + 1)
            (out ++ (s.drop pidx).take (idx - pidx) ++ v)
        | none => envLoop env fuel s (idxe + 1) pidx out

/-- `substituteEnvVars` (string_routines.hpp:70-100). -/
def substituteEnvVars (fuel : Nat) (env : List Char → Option (List Char)) (s : List Char) :
    Option (List Char) :=
  envLoop env fuel s 0 0 []

/-- `toStream(stream, begin, end, delimiter, prefix, postfix)` on already printed elements
(string_routines.hpp:228-241). -/
def toStream (items : List (List Char)) (delim pre post : List Char) : List Char :=
  pre ++ (match items with
    | [] => []
    | x :: xs => x ++ xs.flatMap (delim ++ ·)) ++ post

/-- `arrToString` (string_routines.hpp:245-251). -/
def arrToString (items : List (List Char)) : List Char := toStream items [','] ['['] [']']

end Verif.Strings
