import Verif.PTree.JsonFileProps

/-!
# The grammar of JSON files, and the tree a file stands for

Written after RFC 8259, independently of the reader.  A property tree has only texts: numbers and literals stand for their own text, the
elements of an array are children with an empty key.

The files of this grammar are the texts of the RFC in UTF-8, and a few more: a byte order mark (or the beginning of one) may come first,
control characters need not be escaped in strings, and the bytes of a character are only checked for their number.
-/

namespace Verif.PTree.JsonFile

open Verif.PTree

/-- white space -/
def Ws (w : Str) : Prop := ∀ c ∈ w, c ∈ [' ', '\t', '\n', '\r']

/-- the bytes of a character in UTF-8 -/
def utf8Bytes (c : Char) : Str := (String.utf8EncodeChar c).map fun b => Char.ofNat b.toNat

/-- a hexadecimal digit and its value -/
def HexDigit (c : Char) (n : Nat) : Prop := "0123456789abcdef".toList[n]? = some c ∨ "0123456789ABCDEF".toList[n]? = some c

/-- four hexadecimal digits -/
def Hex4 (h : Str) (n : Nat) : Prop :=
  ∃ a b c d na nb nc nd, h = [a, b, c, d] ∧ HexDigit a na ∧ HexDigit b nb ∧ HexDigit c nc ∧ HexDigit d nd ∧ n = na * 4096 + nb * 256 + nc * 16 + nd

/-- one character, as bytes -/
def OneChar (u : Str) : Prop :=
  ∃ a t, u = a :: t ∧ (∀ c ∈ t, Cont c) ∧ ((a.toNat < 0x80 ∧ t.length = 0) ∨ (0xC0 ≤ a.toNat ∧ a.toNat < 0xE0 ∧ t.length = 1) ∨
    (0xE0 ≤ a.toNat ∧ a.toNat < 0xF0 ∧ t.length = 2) ∨ (0xF0 ≤ a.toNat ∧ a.toNat < 0xF8 ∧ t.length = 3))

/-- the escapes with a letter -/
def simpleEscapes : List (Char × Char) :=
  [('"', '"'), ('\\', '\\'), ('/', '/'), ('b', '\x08'), ('f', '\x0c'), ('n', '\n'), ('r', '\r'), ('t', '\t')]

/-- the inside of a string and the text it stands for -/
inductive StrText : Str → Str → Prop
  | nil : StrText [] []
  | char {u s m : Str} : OneChar u → u ≠ ['"'] → u ≠ ['\\'] → StrText s m → StrText (u ++ s) (u ++ m)
  | esc {c d : Char} {s m : Str} : (c, d) ∈ simpleEscapes → StrText s m → StrText ('\\' :: c :: s) (d :: m)
  | uni {h s m : Str} {c : Char} : Hex4 h c.toNat → StrText s m → StrText ('\\' :: 'u' :: (h ++ s)) (utf8Bytes c ++ m)
  | pair {h l s m : Str} {c : Char} {a b : Nat} : Hex4 h a → Hex4 l b → 0xD800 ≤ a → a ≤ 0xDBFF → 0xDC00 ≤ b → b ≤ 0xDFFF →
      c.toNat = 0x10000 + (a - 0xD800) * 0x400 + (b - 0xDC00) → StrText s m → StrText ('\\' :: 'u' :: (h ++ '\\' :: 'u' :: (l ++ s))) (utf8Bytes c ++ m)

/-- decimal digits, at least one -/
def Digits (s : Str) : Prop := s ≠ [] ∧ ∀ c ∈ s, c ∈ "0123456789".toList

/-- a number -/
def NumText (s : Str) : Prop :=
  ∃ m i f e, s = m ++ (i ++ (f ++ e)) ∧ (m = [] ∨ m = ['-']) ∧ (i = ['0'] ∨ Digits i ∧ i.head? ≠ some '0') ∧
    (f = [] ∨ ∃ ds, f = '.' :: ds ∧ Digits ds) ∧
    (e = [] ∨ ∃ c g ds, e = c :: (g ++ ds) ∧ (c = 'e' ∨ c = 'E') ∧ (g = [] ∨ g = ['+'] ∨ g = ['-']) ∧ Digits ds)

/-- what precedes a value inside of an object (`obj`) or an array, and the key it stands for -/
inductive KeyText : Bool → Str → Key → Prop
  | member {a k m b : Str} : Ws a → StrText k m → Ws b → KeyText true (a ++ '"' :: (k ++ '"' :: (b ++ [':']))) m
  | element : KeyText false [] []

mutual
/-- a value (without white space around it) and its tree -/
inductive Val : Str → Tree → Prop
  | str {s m : Str} : StrText s m → Val ('"' :: (s ++ ['"'])) (.node m [])
  | num {s : Str} : NumText s → Val s (.node s [])
  | lit {s : Str} : s = "true".toList ∨ s = "false".toList ∨ s = "null".toList → Val s (.node s [])
  | emptyObject {w : Str} : Ws w → Val ('{' :: (w ++ ['}'])) (.node [] [])
  | emptyArray {w : Str} : Ws w → Val ('[' :: (w ++ [']'])) (.node [] [])
  | object {s : Str} {ks : List (Key × Tree)} : Items true s ks → Val ('{' :: (s ++ ['}'])) (.node [] ks)
  | array {s : Str} {ks : List (Key × Tree)} : Items false s ks → Val ('[' :: (s ++ [']'])) (.node [] ks)
/-- the inside of an object or array that is not empty -/
inductive Items : Bool → Str → List (Key × Tree) → Prop
  | last {obj : Bool} {p a v b : Str} {k : Key} {t : Tree} : KeyText obj p k → Ws a → Val v t → Ws b → Items obj (p ++ (a ++ (v ++ b))) [(k, t)]
  | more {obj : Bool} {p a v b s : Str} {k : Key} {t : Tree} {ks : List (Key × Tree)} : KeyText obj p k → Ws a → Val v t → Ws b → Items obj s ks →
      Items obj (p ++ (a ++ (v ++ (b ++ ',' :: s)))) ((k, t) :: ks)
end

/-- the bytes of the byte order mark -/
def bom : Str := [Char.ofNat 0xEF, Char.ofNat 0xBB, Char.ofNat 0xBF]

/-- a whole file and its tree -/
def JsonText (s : Str) (t : Tree) : Prop := ∃ b a v c, s = b ++ (a ++ (v ++ c)) ∧ b <+: bom ∧ Ws a ∧ Val v t ∧ Ws c

end Verif.PTree.JsonFile
