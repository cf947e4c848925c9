import Verif.PTree.LoadString

/-!
# Model of boost's INFO reader for text without quotation marks, and of `loadString` / `loadStrings` as a whole
(`sm_property_tree/src/BoostPropertyTreeImplementation.cpp:167-218`, `BoostPropertyTree.cpp:146-158`)

`boost::property_tree::read_info` belongs to the environment; it is modelled after boost/property_tree/detail/
info_parser_read.hpp for texts without `"` — the only ones `loadString` passes on.  Without quotation marks there are no
continuation lines, and every line that begins with `#` is an error (`#include` wants a quoted name).  White space is that
of the "C" locale.  The reader fills a local tree and swaps it with the caller's when it succeeded.
-/

namespace Verif.PTree

/-- `std::isspace` -/
def isSpaceC (c : Char) : Bool :=
  c = ' ' || c = '\t' || c = '\n' || c = Char.ofNat 11 || c = Char.ofNat 12 || c = '\r'

/-- the end of a word: white space or a comment -/
def endsWord (c : Char) : Bool := isSpaceC c || c = ';'

/-- `expand_escapes`; `none` = unknown escape sequence -/
def expandEscapes : Str → Option Str
  | [] => some []
  | '\\' :: c :: r =>
    (if c = '0' then some (Char.ofNat 0) else if c = 'a' then some (Char.ofNat 7) else if c = 'b' then some (Char.ofNat 8)
      else if c = 'f' then some (Char.ofNat 12) else if c = 'n' then some '\n' else if c = 'r' then some '\r'
      else if c = 't' then some '\t' else if c = 'v' then some (Char.ofNat 11) else if c = '"' then some '"'
      else if c = '\'' then some '\'' else if c = '\\' then some '\\' else none).bind fun e => (expandEscapes r).map (e :: ·)
  | ['\\'] => none
  | c :: r => (expandEscapes r).map (c :: ·)

/-- an open tree on the parser's stack: its key, its data, its children so far -/
structure Frame where
  key : Key
  data : Str
  kids : List (Key × Tree)

/-- the parser between two tokens: the top of the stack, the stack below it, whether `last` (the last child of the top) is set, and
whether data for it may follow on this line -/
structure PS where
  top : Frame
  below : List Frame
  last : Bool
  expectData : Bool

/-- a new child without data -/
def PS.push (p : PS) (k : Key) : PS := { p with top := { p.top with kids := p.top.kids ++ [(k, .node [] [])] }, last := true, expectData := true }

/-- `last->data() = data` -/
def PS.setData (p : PS) (d : Str) : PS :=
  match p.top.kids.getLast? with
  | some (k, t) => { p with top := { p.top with kids := p.top.kids.dropLast ++ [(k, .node d t.kids)] }, expectData := false }
  | none => p

/-- `stack.push(last); last = NULL` -/
def PS.openLast (p : PS) : Option PS :=
  if p.last then
    match p.top.kids.getLast? with
    | some (k, t) => some ⟨⟨k, t.data, t.kids⟩, { p.top with kids := p.top.kids.dropLast } :: p.below, false, false⟩
    | none => none
  else none

/-- `stack.pop(); last = NULL`; an error at the bottom of the stack -/
def PS.close (p : PS) : Option PS :=
  match p.below with
  | [] => none
  | f :: fs => some ⟨{ f with kids := f.kids ++ [(p.top.key, .node p.top.data p.top.kids)] }, fs, false, false⟩

/-- the tokens of one line -/
def parseLine (p : PS) (s : Str) : Option PS :=
  match h : s.dropWhile isSpaceC with
  | [] => some { p with expectData := false }
  | c :: r =>
    if c = ';' then some { p with expectData := false }
    else if c = '{' then (p.openLast).bind fun p' => parseLine p' r
    else if c = '}' then (p.close).bind fun p' => parseLine p' r
    else
      match expandEscapes (c :: r.takeWhile (!endsWord ·)) with
      | none => none
      | some w => parseLine (if p.expectData then p.setData w else p.push w) (r.dropWhile (!endsWord ·))
termination_by s.length
decreasing_by
  all_goals
    have h1 := (List.dropWhile_suffix isSpaceC (l := s)).length_le
    rw [h] at h1
    simp only [List.length_cons] at h1
    first
    | omega
    | have h2 := (List.dropWhile_suffix (!endsWord ·) (l := r)).length_le
      omega

/-- one line: cut at a zero character (`c_str()`); a line that begins with `#` is an error -/
def parseOne (p : PS) (line : Str) : Option PS :=
  let l := line.takeWhile (· ≠ Char.ofNat 0)
  if (l.dropWhile isSpaceC).head? = some '#' then none else parseLine p l

/-- all lines -/
def parseLines (p : PS) : List Str → Option PS
  | [] => some p
  | l :: ls => (parseOne p l).bind fun p' => parseLines p' ls

/-- `read_info` for a text without quotation marks; `none` = `info_parser_error` -/
def readInfo (s : Str) : Option Tree :=
  match parseLines ⟨⟨[], [], []⟩, [], false, false⟩ (s.splitOn '\n') with
  | some ⟨f, [], _, _⟩ => some (.node [] f.kids)
  | _ => none

/-- outcome of a load -/
inductive LoadOut where
  /-- the tree afterwards -/
  | ok (t : Tree)
  /-- an exception (`file_parser_error`); the tree is unchanged -/
  | threw

/-- `loadString(string)` (BoostPropertyTreeImplementation.cpp:167-218) -/
def loadFromString (s : Str) : LoadOut :=
  match loadString s with
  | .info t => match readInfo t with
    | some r => .ok r
    | none => .threw
  | _ => .threw

/-- `boost::algorithm::join(strings, ",")` -/
def joinComma : List Str → Str
  | [] => []
  | [s] => s
  | s :: r => s ++ ',' :: joinComma r

/-- `loadStrings(strings)` (BoostPropertyTree.cpp:146-149) -/
def loadStrings (l : List Str) : LoadOut := loadFromString (joinComma l)

/-- `loadStrings(argc, argv)` (BoostPropertyTree.cpp:151-158): the first `argc` strings, which must exist -/
def loadArgs (argc : Nat) (argv : List Str) : LoadOut := loadStrings (argv.take argc)

end Verif.PTree
