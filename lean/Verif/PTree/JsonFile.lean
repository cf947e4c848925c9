import Verif.PTree.Files

/-!
# Model of `saveJson` and `loadJson` (`sm_property_tree/src/BoostPropertyTreeImplementation.cpp:102-109`)

The functions hand the tree to `boost::property_tree::write_json` and `read_json`, which belong to the environment; they are modelled after
boost/property_tree/json_parser/detail/write.hpp, parser.hpp, narrow_encoding.hpp and standard_callbacks.hpp (boost 1.59 and later).
Characters are bytes (the model treats what is no byte like an illegal byte).
-/

namespace Verif.PTree.JsonFile

open Verif.PTree

/-! ## the writer -/

/-- a hexadecimal digit -/
def hexDigit (n : Nat) : Char := if n < 10 then Char.ofNat (48 + n) else Char.ofNat (55 + n)

/-- one character in `create_escapes` (for bytes: the four digits of the last case begin with `00`) -/
def escapeChar (c : Char) : Str :=
  let n := c.toNat
  if n = 0x20 ∨ n = 0x21 ∨ (0x23 ≤ n ∧ n ≤ 0x2E) ∨ (0x30 ≤ n ∧ n ≤ 0x5B) ∨ 0x5D ≤ n then [c]
  else if n = 8 then ['\\', 'b']
  else if n = 12 then ['\\', 'f']
  else if n = 10 then ['\\', 'n']
  else if n = 13 then ['\\', 'r']
  else if n = 9 then ['\\', 't']
  else if c = '/' then ['\\', '/']
  else if c = '"' then ['\\', '"']
  else if c = '\\' then ['\\', '\\']
  else ['\\', 'u', '0', '0', hexDigit (n / 16), hexDigit (n % 16)]

/-- a string with its quotation marks -/
def quote (s : Str) : Str := '"' :: (s.flatMap escapeChar ++ ['"'])

/-- four blanks per level -/
def indent (n : Nat) : Str := List.replicate (4 * n) ' '

/-- `pt.count(Str()) == pt.size()` -/
def isArray (ks : List (Key × Tree)) : Bool := ks.all fun c => c.1.isEmpty

mutual
/-- `write_json_helper(stream, pt, indent, pretty)` for `indent > 0`, `pretty = true` -/
def writeVal (n : Nat) : Tree → Str
  | .node d ks =>
    if ks.isEmpty then quote d
    else if isArray ks then '[' :: '\n' :: (writeItems false n ks ++ (indent n ++ [']']))
    else '{' :: '\n' :: (writeItems true n ks ++ (indent n ++ ['}']))
/-- its loops over the children -/
def writeItems (obj : Bool) (n : Nat) : List (Key × Tree) → Str
  | [] => []
  | (k, t) :: r =>
    indent (n + 1) ++ ((if obj then quote k ++ [':', ' '] else []) ++
      (writeVal (n + 1) t ++ ((if r.isEmpty then [] else [',']) ++ '\n' :: writeItems obj n r)))
end

mutual
/-- `verify_json(pt, depth)` for `depth > 0`: no node has both a value and children -/
def verify : Tree → Bool
  | .node d ks => (d.isEmpty || ks.isEmpty) && verifyKids ks
def verifyKids : List (Key × Tree) → Bool
  | [] => true
  | (_, t) :: r => verify t && verifyKids r
end

/-- `write_json(filename, pt)`; `none` = `json_parser_error`.  The root is written as an object.  `saveJson`
(BoostPropertyTreeImplementation.cpp:107-109) -/
def writeJson (t : Tree) : Option Str :=
  if t.data.isEmpty && verifyKids t.kids then
    some ('{' :: '\n' :: (writeItems true 0 t.kids ++ (indent 0 ++ ['}', '\n'])))
  else none

/-! ## the reader -/

/-- `is_ws` -/
def isWs (c : Char) : Bool := c = ' ' || c = '\t' || c = '\n' || c = '\r'

/-- `trailing_table`: how many bytes follow; `none` = not the beginning of a character -/
def trailing (c : Char) : Option Nat :=
  let n := c.toNat
  if n < 0x80 then some 0 else if n < 0xC0 then none else if n < 0xE0 then some 1 else if n < 0xF0 then some 2
  else if n < 0xF8 then some 3 else none

/-- a byte inside of a character -/
def isCont (c : Char) : Bool := decide (0x80 ≤ c.toNat) && decide (c.toNat < 0xC0)

/-- `decode_hexdigit` -/
def hexVal (c : Char) : Option Nat :=
  let n := c.toNat
  if 48 ≤ n ∧ n ≤ 57 then some (n - 48) else if 65 ≤ n ∧ n ≤ 70 then some (n - 55) else if 97 ≤ n ∧ n ≤ 102 then some (n - 87) else none

/-- `parse_hex_quad` -/
def hexQuad : Str → Option (Nat × Str)
  | a :: b :: c :: d :: r =>
    (hexVal a).bind fun a => (hexVal b).bind fun b => (hexVal c).bind fun c => (hexVal d).map fun d => (((a * 16 + b) * 16 + c) * 16 + d, r)
  | _ => none

/-- `feed_codepoint` -/
def utf8 (n : Nat) : Str :=
  if n < 0x80 then [Char.ofNat n]
  else if n < 0x800 then [Char.ofNat (0xC0 + n / 64 % 32), Char.ofNat (0x80 + n % 64)]
  else if n < 0x10000 then [Char.ofNat (0xE0 + n / 4096 % 16), Char.ofNat (0x80 + n / 64 % 64), Char.ofNat (0x80 + n % 64)]
  else [Char.ofNat (0xF0 + n / 262144 % 8), Char.ofNat (0x80 + n / 4096 % 64), Char.ofNat (0x80 + n / 64 % 64), Char.ofNat (0x80 + n % 64)]

/-- the second half of a surrogate pair -/
def lowHalf (hi : Nat) : Str → Option (Str × Str)
  | '\\' :: 'u' :: r =>
    (hexQuad r).bind fun x => if 0xDC00 ≤ x.1 ∧ x.1 < 0xE000 then some (utf8 (0x10000 + (hi - 0xD800) * 1024 + (x.1 - 0xDC00)), x.2) else none
  | _ => none

/-- `parse_codepoint_ref` -/
def codepointRef (x : Nat × Str) : Option (Str × Str) :=
  if 0xD800 ≤ x.1 ∧ x.1 < 0xDC00 then lowHalf x.1 x.2
  else if 0xDC00 ≤ x.1 ∧ x.1 < 0xE000 then none
  else some (utf8 x.1, x.2)

/-- `parse_escape`, behind the backslash: what it stands for and what follows -/
def escape : Str → Option (Str × Str)
  | [] => none
  | c :: r =>
    if c = '"' then some (['"'], r) else if c = '\\' then some (['\\'], r) else if c = '/' then some (['/'], r)
    else if c = 'b' then some ([Char.ofNat 8], r) else if c = 'f' then some ([Char.ofNat 12], r) else if c = 'n' then some (['\n'], r)
    else if c = 'r' then some (['\r'], r) else if c = 't' then some (['\t'], r)
    else if c = 'u' then (hexQuad r).bind codepointRef
    else none

/-- the loop of `parse_string`, behind the opening mark; `pending` = bytes of the character that must follow.  Each step takes a character
(`fuel` = length of the text is enough); `none` = error -/
def str : Nat → Nat → Str → Option (Str × Str)
  | 0, _, _ => none
  | _ + 1, _, [] => none
  | f + 1, p + 1, c :: r => if isCont c then (str f p r).map fun x => (c :: x.1, x.2) else none
  | f + 1, 0, c :: r =>
    if c = '"' then some ([], r)
    else if c = '\\' then (escape r).bind fun x => (str f 0 x.2).map fun y => (x.1 ++ y.1, y.2)
    else (trailing c).bind fun k => (str f k r).map fun y => (c :: y.1, y.2)

/-- digits -/
def isDigit (c : Char) : Bool := decide (48 ≤ c.toNat) && decide (c.toNat ≤ 57)

/-- digits, at least one -/
def digits1 (s : Str) : Option (Str × Str) := if (s.takeWhile isDigit).isEmpty then none else some (s.takeWhile isDigit, s.dropWhile isDigit)

/-- the integral part: `0`, or digits that do not begin with `0` -/
def intPart : Str → Option (Str × Str)
  | '0' :: r => some (['0'], r)
  | s => digits1 s

/-- `parse_frac_part` -/
def fracPart : Str → Option (Str × Str)
  | '.' :: r => (digits1 r).map fun x => ('.' :: x.1, x.2)
  | s => some ([], s)

/-- a sign -/
def sign : Str → Str × Str
  | '+' :: r => (['+'], r)
  | '-' :: r => (['-'], r)
  | s => ([], s)

/-- `parse_exp_part` -/
def expPart : Str → Option (Str × Str)
  | c :: r =>
    if c = 'e' ∨ c = 'E' then (digits1 (sign r).2).map fun x => (c :: ((sign r).1 ++ x.1), x.2)
    else some ([], c :: r)
  | [] => some ([], [])

/-- `parse_number`: the text of the number and what follows -/
def number (s : Str) : Option (Str × Str) :=
  let m := if s.head? = some '-' then ['-'] else []
  (intPart (s.drop m.length)).bind fun i => (fracPart i.2).bind fun f => (expPart f.2).map fun e => (m ++ (i.1 ++ (f.1 ++ e.1)), e.2)

/-- `parse_string`, `parse_boolean`, `parse_null`, `parse_number` (behind white space) -/
def scalar (s : Str) : Option (Str × Str) :=
  if s.head? = some '"' then str s.length 0 s.tail
  else if s.head? = some 't' then (if "true".toList.isPrefixOf s then some ("true".toList, s.drop 4) else none)
  else if s.head? = some 'f' then (if "false".toList.isPrefixOf s then some ("false".toList, s.drop 5) else none)
  else if s.head? = some 'n' then (if "null".toList.isPrefixOf s then some ("null".toList, s.drop 4) else none)
  else number s

/-- the key of a member of an object and what follows the colon; elements of an array have the empty key -/
def keyOf (obj : Bool) (s : Str) : Option (Key × Str) :=
  if obj then
    if (s.dropWhile isWs).head? = some '"' then
      (str s.length 0 (s.dropWhile isWs).tail).bind fun x =>
        if (x.2.dropWhile isWs).head? = some ':' then some (x.1, (x.2.dropWhile isWs).tail) else none
    else none
  else some ([], s)

mutual
/-- `parse_value`; the text gets shorter with every step (`fuel` = twice its length + 2 is enough) -/
def value : Nat → Str → Option (Tree × Str)
  | 0, _ => none
  | f + 1, s =>
    if (s.dropWhile isWs).head? = some '{' then
      if ((s.dropWhile isWs).tail.dropWhile isWs).head? = some '}' then some (.node [] [], ((s.dropWhile isWs).tail.dropWhile isWs).tail)
      else (items true f (s.dropWhile isWs).tail).map fun x => (.node [] x.1, x.2)
    else if (s.dropWhile isWs).head? = some '[' then
      if ((s.dropWhile isWs).tail.dropWhile isWs).head? = some ']' then some (.node [] [], ((s.dropWhile isWs).tail.dropWhile isWs).tail)
      else (items false f (s.dropWhile isWs).tail).map fun x => (.node [] x.1, x.2)
    else (scalar (s.dropWhile isWs)).map fun x => (.node x.1 [], x.2)
/-- the loops of `parse_object` and `parse_array` -/
def items (obj : Bool) : Nat → Str → Option (List (Key × Tree) × Str)
  | 0, _ => none
  | f + 1, s =>
    (keyOf obj s).bind fun k => (value f k.2).bind fun v =>
      if (v.2.dropWhile isWs).head? = some ',' then (items obj f (v.2.dropWhile isWs).tail).map fun x => ((k.1, v.1) :: x.1, x.2)
      else if (v.2.dropWhile isWs).head? = some (if obj then '}' else ']') then some ([(k.1, v.1)], (v.2.dropWhile isWs).tail)
      else none
end

/-- `skip_introduction` -/
def skipBom : Str → Str
  | a :: r =>
    if a = Char.ofNat 0xEF then
      if r.head? = some (Char.ofNat 0xBB) then
        if r.tail.head? = some (Char.ofNat 0xBF) then r.tail.tail else r.tail
      else r
    else a :: r
  | [] => []

/-- `read_json`; `none` = `json_parser_error`.  `loadJson` (BoostPropertyTreeImplementation.cpp:102-105) -/
def readJson (s : Str) : Option Tree :=
  (value (2 * s.length + 2) (skipBom s)).bind fun x => if (x.2.dropWhile isWs).isEmpty then some x.1 else none

end Verif.PTree.JsonFile
