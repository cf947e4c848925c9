import Verif.PTree.Info
import Verif.PTree.Files

/-!
# Model of `saveInfo`, `asInfoString` and `loadInfo`
(`sm_property_tree/src/BoostPropertyTreeImplementation.cpp:151-165`)

The three functions hand the tree to `boost::property_tree::write_info` and `read_info`, which belong to the environment.  Both are
modelled here in full, after boost/property_tree/detail/info_parser_write.hpp, info_parser_read.hpp and info_parser_utils.hpp: quoted
keys and data, escapes, continuation lines, comments and `#include`.  White space is that of the "C" locale, indentation is the
writer's default of four blanks.  Files that a text can include are a parameter (`files`), as `std::ifstream` finds them.
-/

namespace Verif.PTree.InfoFile

open Verif.PTree

/-! ## the writer -/

/-- one character in `create_escapes` (info_parser_write.hpp) -/
def escapeChar (c : Char) : Str :=
  if c = Char.ofNat 0 then ['\\', '0'] else if c = Char.ofNat 7 then ['\\', 'a'] else if c = Char.ofNat 8 then ['\\', 'b']
  else if c = Char.ofNat 12 then ['\\', 'f'] else if c = '\n' then ['\\', 'n'] else if c = '\r' then ['\\', 'r']
  else if c = Char.ofNat 11 then ['\\', 'v'] else if c = '"' then ['\\', '"'] else if c = '\'' then ['\\', '\'']
  else if c = '\\' then ['\\', '\\'] else [c]

/-- `create_escapes` -/
def createEscapes (s : Str) : Str := s.flatMap escapeChar

/-- `is_simple_key`, `is_simple_data`: not empty and none of ` \t{};\n"` -/
def isSimple (s : Str) : Bool :=
  !s.isEmpty && s.all fun c => !(c = ' ' || c = '\t' || c = '{' || c = '}' || c = ';' || c = '\n' || c = '"')

/-- an escaped key or an escaped datum as it is written: quoted unless simple -/
def quoted (e : Str) : Str := if isSimple e then e else '"' :: (e ++ ['"'])

/-- `write_info_indent` -/
def indent (n : Nat) : Str := List.replicate (4 * n) ' '

/-- the rest of a key's line: its data -/
def dataPart (d : Str) (leaf : Bool) : Str :=
  if d ≠ [] then ' ' :: quoted (createEscapes d) else if leaf then [' ', '"', '"'] else []

mutual
/-- `write_info_helper(stream, pt, indent)` for `indent ≥ 0` -/
def writeNode (n : Nat) : Tree → Str
  | .node d ks =>
    dataPart d ks.isEmpty ++ '\n' ::
      (if ks.isEmpty then [] else indent n ++ '{' :: '\n' :: (writeKids (n + 1) ks ++ (indent n ++ ['}', '\n'])))
/-- its loop over the children -/
def writeKids (n : Nat) : List (Key × Tree) → Str
  | [] => []
  | (k, t) :: r => indent n ++ (quoted (createEscapes k) ++ (writeNode n t ++ writeKids n r))
end

/-- `write_info(stream, pt)`: `write_info_helper` with `indent = -1`, which writes the children only.
`asInfoString()` (BoostPropertyTreeImplementation.cpp:161-165) returns this text and `saveInfo` (156-159) puts it into the file. -/
def writeInfo (t : Tree) : Str := writeKids 0 t.kids

/-! ## the reader -/

/-- what the reader expects next -/
inductive St
  | key | data | cont
  deriving DecidableEq, Repr

/-- an open tree on the reader's stack: its key, its data, its children so far, and the children of the tree below that follow it
(an included file can append children behind the one `last` points to) -/
structure Open where
  key : Key
  data : Str
  kids : List (Key × Tree)
  after : List (Key × Tree)

/-- the reader between two tokens: the top of the stack, the stack below it, the position of `*last` among the children of the
top, and the state -/
structure RS where
  top : Open
  below : List Open
  last : Option Nat
  st : St

/-- `last = &stack.top()->push_back(make_pair(key, Ptree()))->second; state = s_data` -/
def RS.push (p : RS) (k : Key) : RS :=
  { p with top := { p.top with kids := p.top.kids ++ [(k, .node [] [])] }, last := some p.top.kids.length, st := .data }

/-- `last->data() = d` and `last->put_value(last->get_value() + d)`; the state afterwards -/
def RS.setData (p : RS) (f : Str → Str) (more : Bool) : RS :=
  { p with
    top := match p.last with
      | some i => { p.top with kids := p.top.kids.modify i fun c => (c.1, .node (f c.2.data) c.2.kids) }
      | none => p.top
    st := if more then .cont else .key }

/-- `stack.push(last); last = NULL; state = s_key`; an error without `last` -/
def RS.open (p : RS) : Option RS :=
  match p.last with
  | none => none
  | some i =>
    match p.top.kids[i]? with
    | none => none
    | some (k, t) =>
      some ⟨⟨k, t.data, t.kids, p.top.kids.drop (i + 1)⟩, { p.top with kids := p.top.kids.take i } :: p.below, none, .key⟩

/-- `stack.pop(); last = NULL; state = s_key`; an error at the bottom of the stack -/
def RS.close (p : RS) : Option RS :=
  match p.below with
  | [] => none
  | f :: fs => some ⟨{ f with kids := f.kids ++ (p.top.key, .node p.top.data p.top.kids) :: p.top.after }, fs, none, .key⟩

/-- `read_word` on a text that begins with the word: the word and the rest; `none` = bad escape -/
def readWord (s : Str) : Option (Str × Str) :=
  (expandEscapes (s.takeWhile (!endsWord ·))).map fun w => (w, s.dropWhile (!endsWord ·))

/-- the scan for the closing quotation mark: what is before and after it; `none` = end of line -/
def scanString (escaped : Bool) : Str → Option (Str × Str)
  | [] => none
  | c :: r =>
    if !escaped && c = '"' then some ([], r)
    else (scanString (!escaped && c = '\\') r).map fun x => (c :: x.1, x.2)

/-- `read_string` behind the opening quotation mark; `more` says whether a continuation is allowed (`need_more_lines != NULL`).  The
string, whether more lines follow, and the rest of the line. -/
def readString (more : Bool) (s : Str) : Option (Str × Bool × Str) :=
  match scanString false s with
  | none => none
  | some (e, r) =>
    match expandEscapes e with
    | none => none
    | some w =>
      match r.dropWhile isSpaceC with
      | '\\' :: r' =>
        if more then
          match r'.dropWhile isSpaceC with
          | [] => some (w, true, [])
          | c :: r'' => if c = ';' then some (w, true, c :: r'') else none
        else none
      | r' => some (w, false, r')

/-- one token that is neither the end of the line nor a comment: the state afterwards and the rest of the line -/
def token (p : RS) (c : Char) (r : Str) : Option (RS × Str) :=
  match p.st with
  | .cont =>
    if c = '"' then (readString true r).map fun x => (p.setData (· ++ x.1) x.2.1, x.2.2) else none
  | st =>
    if c = '{' then p.open.map fun q => (q, r)
    else if c = '}' then p.close.map fun q => (q, r)
    else if st = .data then
      if c = '"' then (readString true r).map fun x => (p.setData (fun _ => x.1) x.2.1, x.2.2)
      else (readWord (c :: r)).map fun x => (p.setData (fun _ => x.1) false, x.2)
    else
      if c = '"' then (readString false r).map fun x => (p.push x.1, x.2.2)
      else (readWord (c :: r)).map fun x => (p.push x.1, x.2)

/-- the tokens of a line; each takes at least one character, so `fuel` = length of the line is enough -/
def readLine : Nat → RS → Str → Option RS
  | fuel, p, s =>
    match s.dropWhile isSpaceC with
    | [] => some { p with st := if p.st = .data then .key else p.st }
    | c :: r =>
      if c = ';' then some { p with st := if p.st = .data then .key else p.st }
      else
        match fuel with
        | 0 => none
        | fuel + 1 => (token p c r).bind fun x => readLine fuel x.1 x.2

/-- a line that begins with `#`, behind that character: `#include "name"` and nothing more gives the name; all else is an error -/
def includeName (r : Str) : Option Str :=
  match readWord (r.dropWhile isSpaceC) with
  | none => none
  | some (w, r1) =>
    if w = "include".toList then
      match r1.dropWhile isSpaceC with
      | '"' :: r2 =>
        match readString false r2 with
        | none => none
        | some (name, _, r3) => if r3.dropWhile isSpaceC = [] then some name else none
      | _ => none
    else none

/-- one line, cut at a zero character (`c_str()`); `inc name` are the children that the file of that name contributes -/
def lineStep (inc : Str → Option (List (Key × Tree))) (p : RS) (line : Str) : Option RS :=
  let l := line.takeWhile (· ≠ Char.ofNat 0)
  match l.dropWhile isSpaceC with
  | '#' :: r => ((includeName r).bind inc).map fun ks => { p with top := { p.top with kids := p.top.kids ++ ks } }
  | _ => readLine l.length p l

/-- all lines -/
def linesStep (inc : Str → Option (List (Key × Tree))) (p : RS) : List Str → Option RS
  | [] => some p
  | l :: ls => (lineStep inc p l).bind fun q => linesStep inc q ls

/-- the children that a text contributes: all lines, and nothing may be open at the end -/
def readText (inc : Str → Option (List (Key × Tree))) (s : Str) : Option (List (Key × Tree)) :=
  match linesStep inc ⟨⟨[], [], [], []⟩, [], none, .key⟩ (s.splitOn '\n') with
  | some ⟨f, [], _, _⟩ => some f.kids
  | _ => none

/-- `read_info_internal`; `depth` further levels of includes are allowed -/
def readKids (files : Str → Option Str) : Nat → Str → Option (List (Key × Tree))
  | 0 => readText fun _ => none
  | depth + 1 => readText fun name => (files name).bind (readKids files depth)

/-- `read_info(stream, pt)`; `none` = `info_parser_error`.  `include_depth` runs from 0 to 100.
`loadInfo` (BoostPropertyTreeImplementation.cpp:151-154) reads the contents of the file so. -/
def readInfo (files : Str → Option Str) (s : Str) : Option Tree := (readKids files 101 s).map (.node [])

end Verif.PTree.InfoFile
