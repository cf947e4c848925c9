import Verif.PTree.Model

/-!
# Model of `loadString`: the translation of the compact notation to INFO text
(`sm_property_tree/src/BoostPropertyTreeImplementation.cpp:167-218`)

The parsing of the resulting INFO text by boost is in `Info.lean`.
-/

namespace Verif.PTree

/-- `specilaChars` (line 175) -/
def isSpecial (c : Char) : Bool := c = ',' || c = '/' || c = '=' || c = '{' || c = '}'

/-- `for(; countBraceOpen.back(); countBraceOpen.back()--) s << "\n}"` (lines 203-205) -/
def closers : Nat → Str
  | 0 => []
  | n + 1 => '\n' :: '}' :: closers n

/-- outcome of the translation -/
inductive LoadRes where
  | info (text : Str)
  /-- `file_parser_error` for a quotation mark (lines 168-170) -/
  | quote
  /-- `file_parser_error` "Unmatched closing bracket" (lines 199-201) -/
  | unmatched
deriving DecidableEq, Repr

/-- prepend to the text written so far -/
def LoadRes.pre (s : Str) : LoadRes → LoadRes
  | .info t => .info (s ++ t)
  | r => r

/-- The loop of lines 176-216 on the rest of the string.  `back` and `below` are the stack
`countBraceOpen` (its last element and the elements below); the iteration copies everything up to the
next special character and then handles that character, the end of the string counting as `,`. -/
def loadLoop (back : Nat) (below : List Nat) (s : Str) : LoadRes :=
  match h : s.dropWhile (fun c => !isSpecial c) with
  | [] => .pre (s.takeWhile (fun c => !isSpecial c)) (.info (closers back ++ ['\n']))
  | c :: rest =>
    .pre (s.takeWhile (fun c => !isSpecial c)) <|
      if c = '=' then .pre [' '] (loadLoop back below rest)
      else if c = '/' then .pre "\n{\n".toList (loadLoop (back + 1) below rest)
      else if c = '{' then .pre "\n{\n".toList (loadLoop 0 (back :: below) rest)
      else if c = '}' then
        match below with
        | [] => .unmatched
        | b :: bs => .pre (closers back ++ "\n}".toList) (loadLoop b bs rest)
      else .pre (closers back ++ ['\n']) (loadLoop 0 below rest)
termination_by s.length
decreasing_by
  all_goals
    have := (List.dropWhile_suffix (fun c => !isSpecial c) (l := s)).length_le
    rw [h] at this
    simp at this
    omega

/-- `loadString`: the text handed to `read_info` (lines 167-217) -/
def loadString (s : Str) : LoadRes := if '"' ∈ s then .quote else loadLoop 0 [] s

end Verif.PTree
