import Verif.PTree.InfoFileProps
import Mathlib.Data.List.Forall2

/-!
# The grammar of INFO files, and the tree a file stands for

Independent of the reader.  A line is a list of tokens (keys and data are words or quoted strings, braces enclose children) or an
`#include`.  A file is a list of children; a child is a key, data on the same line if any, and children in braces if any.
-/

namespace Verif.PTree.InfoFile

open Verif.PTree

/-- the characters that count as white space -/
def White (c : Char) : Prop := c = ' ' ∨ c = '\t' ∨ c = '\n' ∨ c = '\r' ∨ c = Char.ofNat 11 ∨ c = Char.ofNat 12

/-- only white space -/
def Blank (w : Str) : Prop := ∀ c ∈ w, White c

/-- the escape sequences: the character behind the backslash and what it stands for -/
def escapes : List (Char × Char) :=
  [('0', Char.ofNat 0), ('a', Char.ofNat 7), ('b', Char.ofNat 8), ('f', Char.ofNat 12), ('n', '\n'), ('r', '\r'), ('t', '\t'), ('v', Char.ofNat 11),
   ('"', '"'), ('\'', '\''), ('\\', '\\')]

/-- a text with escapes and what it stands for; unescaped characters satisfy `ok` -/
inductive Spells (ok : Char → Prop) : Str → Str → Prop
  | nil : Spells ok [] []
  | plain {c : Char} {r v : Str} : c ≠ '\\' → ok c → Spells ok r v → Spells ok (c :: r) (c :: v)
  | esc {d c : Char} {r v : Str} : (d, c) ∈ escapes → Spells ok r v → Spells ok ('\\' :: d :: r) (c :: v)

/-- what stands in a file besides blanks and comments.  `part` is a string followed by a backslash at the end of the line; `inc` are
the children an included file contributes; `nl` ends a line. -/
inductive Tok
  | word (v : Str)
  | str (v : Str)
  | part (v : Str)
  | lbrace
  | rbrace
  | nl
  | inc (ks : List (Key × Tree))

/-- nothing, or a comment -/
def Rest (s : Str) : Prop := Blank s ∨ ∃ w r, Blank w ∧ s = w ++ ';' :: r

/-- a line (behind some point) and its tokens -/
inductive LineToks : Str → List Tok → Prop
  | done {s : Str} : Rest s → LineToks s []
  | lbrace {w s : Str} {ts : List Tok} : Blank w → LineToks s ts → LineToks (w ++ '{' :: s) (.lbrace :: ts)
  | rbrace {w s : Str} {ts : List Tok} : Blank w → LineToks s ts → LineToks (w ++ '}' :: s) (.rbrace :: ts)
  | word {w s raw v : Str} {ts : List Tok} : Blank w → raw ≠ [] → (∀ c ∈ raw.head?, c ≠ '{' ∧ c ≠ '}' ∧ c ≠ '"') →
      Spells (fun c => ¬ White c ∧ c ≠ ';') raw v → (∀ c ∈ s.head?, White c ∨ c = ';') → LineToks s ts → LineToks (w ++ (raw ++ s)) (.word v :: ts)
  | str {w s raw v : Str} {ts : List Tok} : Blank w → Spells (· ≠ '"') raw v → (∀ b r, Blank b → s ≠ b ++ '\\' :: r) → LineToks s ts →
      LineToks (w ++ '"' :: (raw ++ '"' :: s)) (.str v :: ts)
  | part {w b s raw v : Str} : Blank w → Spells (· ≠ '"') raw v → Blank b → Rest s → LineToks (w ++ '"' :: (raw ++ '"' :: (b ++ '\\' :: s))) [.part v]

/-- a line of a file and its tokens, `incl` says which children a file name contributes.  What follows a zero character does not count. -/
inductive LineMeans (incl : Str → List (Key × Tree) → Prop) : Str → List Tok → Prop
  | toks {s : Str} {ts : List Tok} : Char.ofNat 0 ∉ s → (∀ w r, Blank w → s ≠ w ++ '#' :: r) → LineToks s ts → LineMeans incl s (ts ++ [.nl])
  | incl {a b c e raw name : Str} {ks : List (Key × Tree)} : Blank a → Blank b → Blank c → Blank e → Char.ofNat 0 ∉ raw → Spells (· ≠ '"') raw name →
      incl name ks → (c ≠ []) →
      LineMeans incl (a ++ '#' :: (b ++ ("include".toList ++ (c ++ '"' :: (raw ++ '"' :: e))))) [.inc ks]
  | cut {s r : Str} {ts : List Tok} : LineMeans incl s ts → LineMeans incl (s ++ Char.ofNat 0 :: r) ts

/-- lines without children of their own: ends of lines and included files -/
inductive Gap : List Tok → List (Key × Tree) → Prop
  | nil : Gap [] []
  | nl {g : List Tok} {ks : List (Key × Tree)} : Gap g ks → Gap (.nl :: g) ks
  | inc {g : List Tok} {js ks : List (Key × Tree)} : Gap g ks → Gap (.inc js :: g) (js ++ ks)

/-- the tokens of a string continued over several lines, its value, and the children included in between; `complete` says whether its
last part is there -/
inductive Parts : Bool → List Tok → Str → List (Key × Tree) → Prop
  | last {v : Str} : Parts true [.str v] v []
  | more {b : Bool} {v v' : Str} {g p : List Tok} {js ks : List (Key × Tree)} : Gap g js → Parts b p v' ks → Parts b (.part v :: (g ++ p)) (v ++ v') (js ++ ks)
  | cut {v : Str} {g : List Tok} {js : List (Key × Tree)} : Gap g js → Parts false (.part v :: g) v js

/-- a child's data, given the tokens that follow: none (if no word or string follows), a word, or a string.  Children included in between. -/
inductive Data : List Tok → Str → List (Key × Tree) → List Tok → Prop
  | none {r : List Tok} : (∀ t ∈ r.head?, ∀ v, t ≠ .word v ∧ t ≠ .str v ∧ t ≠ .part v) → Data [] [] [] r
  | word {v : Str} {r : List Tok} : Data [.word v] v [] r
  | string {p : List Tok} {v : Str} {js : List (Key × Tree)} {r : List Tok} : Parts true p v js → Data p v js r

/-- a key -/
def IsKey (t : Tok) (k : Key) : Prop := t = .word k ∨ t = .str k

/-- the tokens of a list of children.  Children that are included behind a key come behind that key's child.  `top` says that this is the
outermost list, the last string of which may lack its end. -/
inductive Children : Bool → List Tok → List (Key × Tree) → Prop
  | nil {top : Bool} : Children top [] []
  | nl {top : Bool} {r : List Tok} {ks : List (Key × Tree)} : Children top r ks → Children top (.nl :: r) ks
  | inc {top : Bool} {r : List Tok} {js ks : List (Key × Tree)} : Children top r ks → Children top (.inc js :: r) (js ++ ks)
  | leaf {top : Bool} {t : Tok} {k : Key} {d r : List Tok} {v : Str} {js ks : List (Key × Tree)} : IsKey t k → Data d v js r → Children top r ks →
      Children top (t :: (d ++ r)) ((k, .node v []) :: (js ++ ks))
  | node {top : Bool} {t : Tok} {k : Key} {d g b r : List Tok} {v : Str} {js is bs ks : List (Key × Tree)} : IsKey t k → Data d v js (g ++ .lbrace :: (b ++ .rbrace :: r)) →
      Gap g is → Children false b bs → Children top r ks →
      Children top (t :: (d ++ (g ++ .lbrace :: (b ++ .rbrace :: r)))) ((k, .node v bs) :: (js ++ (is ++ ks)))
  | open {t : Tok} {k : Key} {d : List Tok} {v : Str} {js : List (Key × Tree)} : IsKey t k → Parts false d v js →
      Children true (t :: d) ((k, .node v []) :: js)

/-- a text and the children it contributes -/
def Text (incl : Str → List (Key × Tree) → Prop) (s : Str) (ks : List (Key × Tree)) : Prop :=
  ∃ (ls : List Str) (tss : List (List Tok)), s = List.intercalate ['\n'] ls ∧ ls ≠ [] ∧ (∀ l ∈ ls, '\n' ∉ l) ∧ List.Forall₂ (LineMeans incl) ls tss ∧
    Children true tss.flatten ks

/-- a text with at most `n` levels of included files -/
def TextUpTo (files : Str → Option Str) : Nat → Str → List (Key × Tree) → Prop
  | 0 => Text fun _ _ => False
  | n + 1 => Text fun name ks => ∃ s, files name = some s ∧ TextUpTo files n s ks

/-- a whole file and its tree -/
def InfoText (files : Str → Option Str) (s : Str) (t : Tree) : Prop := ∃ ks, TextUpTo files 101 s ks ∧ t = .node [] ks

end Verif.PTree.InfoFile
