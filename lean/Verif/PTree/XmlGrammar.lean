import Verif.PTree.XmlFileProps
import Verif.PTree.JsonGrammar

/-!
# The grammar of XML files, and the tree a file stands for

Written after the W3C recommendation (XML 1.0), independently of the reader.  An element stands for a child with its name; attributes stand
for the children of a child `<xmlattr>`, comments for children `<xmlcomment>`; the texts of an element are put together.

The files of this grammar are the well-formed documents in UTF-8 whose references are the predefined ones and numbers, and some more:
repeated attributes, `--` in comments, `]]>` in texts and several kinds of control characters are not excluded.  Line ends and line ends in
attributes are kept as they are.
-/

namespace Verif.PTree.XmlFile

open Verif.PTree
open Verif.PTree.JsonFile (HexDigit utf8Bytes bom)

/-- how files are read: `human` = `isHumanReadableInputOutput()`, `ignoreComments` = `isIgnoreComments()` -/
structure Flags where
  human : Bool
  ignoreComments : Bool

/-- white space -/
def Space (w : Str) : Prop := ∀ c ∈ w, c ∈ [' ', '\t', '\r', '\n']

/-- the first character of a name -/
def NameStart (c : Char) : Prop :=
  c = ':' ∨ c = '_' ∨ ('a'.toNat ≤ c.toNat ∧ c.toNat ≤ 'z'.toNat) ∨ ('A'.toNat ≤ c.toNat ∧ c.toNat ≤ 'Z'.toNat) ∨ 0x80 ≤ c.toNat

/-- a character of a name -/
def NameChar (c : Char) : Prop := NameStart c ∨ c = '-' ∨ c = '.' ∨ ('0'.toNat ≤ c.toNat ∧ c.toNat ≤ '9'.toNat)

/-- a name -/
def Name (k : Str) : Prop := ∃ c r, k = c :: r ∧ NameStart c ∧ ∀ d ∈ r, NameChar d

/-- digits and the number they stand for -/
inductive Numeral (base : Nat) : Str → Nat → Prop
  | one {c : Char} {n : Nat} : HexDigit c n → n < base → Numeral base [c] n
  | snoc {s : Str} {m : Nat} {c : Char} {n : Nat} : Numeral base s m → HexDigit c n → n < base → Numeral base (s ++ [c]) (m * base + n)

/-- the predefined entities -/
def predefined : List (Str × Char) := [("amp".toList, '&'), ("lt".toList, '<'), ("gt".toList, '>'), ("apos".toList, '\''), ("quot".toList, '"')]

/-- a reference and the text it stands for -/
inductive RefText : Str → Str → Prop
  | entity {n : Str} {c : Char} : (n, c) ∈ predefined → RefText ('&' :: (n ++ [';'])) [c]
  | decimal {ds : Str} {c : Char} : Numeral 10 ds c.toNat → RefText ('&' :: '#' :: (ds ++ [';'])) (utf8Bytes c)
  | hexadecimal {ds : Str} {c : Char} : Numeral 16 ds c.toNat → RefText ('&' :: '#' :: 'x' :: (ds ++ [';'])) (utf8Bytes c)

/-- a character or the meaning of a reference -/
inductive Piece
  | char (c : Char)
  | ref (v : Str)

/-- characters (but not `q`) and references -/
inductive Pieces (q : Option Char) : Str → List Piece → Prop
  | nil : Pieces q [] []
  | char {c : Char} {s : Str} {ps : List Piece} : c ≠ '<' → c ≠ '&' → some c ≠ q → Pieces q s ps → Pieces q (c :: s) (.char c :: ps)
  | ref {r v s : Str} {ps : List Piece} : RefText r v → Pieces q s ps → Pieces q (r ++ s) (.ref v :: ps)

/-- is it white space? -/
def Piece.isSpace : Piece → Bool
  | .char c => [' ', '\t', '\r', '\n'].contains c
  | .ref _ => false

/-- what it stands for -/
def Piece.value : Piece → Str
  | .char c => [c]
  | .ref v => v

/-- the text itself -/
def plain (ps : List Piece) : Str := ps.flatMap Piece.value

/-- each run of white space becomes one blank (`after` = the character before was white space) -/
def collapse (after : Bool) : List Piece → Str
  | [] => []
  | p :: ps => if p.isSpace then (if after then [] else [' ']) ++ collapse true ps else p.value ++ collapse false ps

/-- without a blank at the end -/
def chop (s : Str) : Str := if s.getLast? = some ' ' then s.dropLast else s

/-- the text between two tags: white space alone is dropped; for people, white space at both ends is dropped and runs of it become one blank -/
def textOf (f : Flags) (ps : List Piece) : Str :=
  if ps.all Piece.isSpace then [] else if f.human then chop (collapse true ps) else plain ps

/-- attributes, each after white space -/
inductive Attrs : Str → List (Key × Str) → Prop
  | nil : Attrs [] []
  | cons {w k a b v s : Str} {q : Char} {ps : List Piece} {as : List (Key × Str)} : Space w → w ≠ [] → Name k → Space a → Space b → q = '"' ∨ q = '\'' →
      Pieces (some q) v ps → Attrs s as → Attrs (w ++ (k ++ (a ++ '=' :: (b ++ q :: (v ++ q :: s))))) ((k, plain ps) :: as)

/-- the child for the attributes -/
def attributesOf (as : List (Key × Str)) : List (Key × Tree) :=
  if as = [] then [] else [("<xmlattr>".toList, .node [] (as.map fun a => (a.1, .node a.2 [])))]

/-- the child for a comment -/
def commentOf (f : Flags) (c : Str) : List (Key × Tree) := if f.ignoreComments then [] else [("<xmlcomment>".toList, .node c [])]

mutual
/-- an element -/
inductive Element (f : Flags) : Str → Key → Tree → Prop
  | empty {k a w : Str} {as : List (Key × Str)} : Name k → Attrs a as → Space w → Element f ('<' :: (k ++ (a ++ (w ++ ['/', '>'])))) k (.node [] (attributesOf as))
  | full {k a w c d w' : Str} {as : List (Key × Str)} {ks : List (Key × Tree)} : Name k → Attrs a as → Space w → Content f c d ks → Space w' →
      Element f ('<' :: (k ++ (a ++ (w ++ '>' :: (c ++ '<' :: '/' :: (k ++ (w' ++ ['>']))))))) k (.node d (attributesOf as ++ ks))
/-- what is between the tags of an element: its text and its children -/
inductive Content (f : Flags) : Str → Str → List (Key × Tree) → Prop
  | nil : Content f [] [] []
  | text {s s' d : Str} {ps : List Piece} {ks : List (Key × Tree)} : Pieces none s ps → s' = [] ∨ s'.head? = some '<' → Content f s' d ks → Content f (s ++ s') (textOf f ps ++ d) ks
  | elem {e s' d : Str} {k : Key} {t : Tree} {ks : List (Key × Tree)} : Element f e k t → Content f s' d ks → Content f (e ++ s') d ((k, t) :: ks)
  | cdata {c s' d : Str} {ks : List (Key × Tree)} : ¬ "]]>".toList <:+: c → Content f s' d ks → Content f ("<![CDATA[".toList ++ (c ++ ("]]>".toList ++ s'))) (c ++ d) ks
  | instruction {c s' d : Str} {ks : List (Key × Tree)} : ¬ "?>".toList <:+: c → Content f s' d ks → Content f ("<?".toList ++ (c ++ ("?>".toList ++ s'))) d ks
  | comment {c s' d : Str} {ks : List (Key × Tree)} : ¬ "-->".toList <:+: c → Content f s' d ks →
      Content f ("<!--".toList ++ (c ++ ("-->".toList ++ s'))) d (commentOf f c ++ ks)
end

/-- what may surround the element: white space, comments and processing instructions (the declaration `<?xml ...?>` is like one) -/
inductive Misc (f : Flags) : Str → List (Key × Tree) → Prop
  | nil : Misc f [] []
  | space {w s : Str} {ks : List (Key × Tree)} : Space w → Misc f s ks → Misc f (w ++ s) ks
  | instruction {c s : Str} {ks : List (Key × Tree)} : ¬ "?>".toList <:+: c → Misc f s ks → Misc f ("<?".toList ++ (c ++ ("?>".toList ++ s))) ks
  | comment {c s : Str} {ks : List (Key × Tree)} : ¬ "-->".toList <:+: c → Misc f s ks → Misc f ("<!--".toList ++ (c ++ ("-->".toList ++ s))) (commentOf f c ++ ks)

/-- balanced brackets -/
inductive Balanced : Str → Prop
  | nil : Balanced []
  | char {c : Char} {s : Str} : c ≠ '[' → c ≠ ']' → Balanced s → Balanced (c :: s)
  | nest {s s' : Str} : Balanced s → Balanced s' → Balanced ('[' :: (s ++ ']' :: s'))

/-- the inside of a document type: outside of brackets, no `>` -/
inductive TypeBody : Str → Prop
  | nil : TypeBody []
  | char {c : Char} {s : Str} : c ≠ '[' → c ≠ ']' → c ≠ '>' → TypeBody s → TypeBody (c :: s)
  | nest {s s' : Str} : Balanced s → TypeBody s' → TypeBody ('[' :: (s ++ ']' :: s'))

/-- a document type, or none -/
def DocType (s : Str) : Prop := s = [] ∨ ∃ w b, s = "<!DOCTYPE".toList ++ (w :: (b ++ ['>'])) ∧ Space [w] ∧ TypeBody b

/-- a whole file and its tree -/
def XmlText (f : Flags) (s : Str) (t : Tree) : Prop :=
  ∃ b m1 y m2 e m3 k u k1 k2 k3, s = b ++ (m1 ++ (y ++ (m2 ++ (e ++ m3)))) ∧ (b = [] ∨ b = bom) ∧ Misc f m1 k1 ∧ DocType y ∧ Misc f m2 k2 ∧
    Element f e k u ∧ Misc f m3 k3 ∧ t = .node [] (k1 ++ (k2 ++ ((k, u) :: k3))) ∧ Char.ofNat 0 ∉ s

end Verif.PTree.XmlFile
