import Verif.PTree.Files
import Verif.PTree.Info

/-!
# Model of `saveIni` and `loadIni` (`sm_property_tree/src/BoostPropertyTreeImplementation.cpp:140-148`)

The functions hand the tree to `boost::property_tree::write_ini` and `read_ini`, which belong to the environment; they are modelled after
boost/property_tree/ini_parser.hpp and detail/ptree_utils.hpp (`trim`).  The section that is being read is kept beside the tree
(in the code it is the last child of the tree).  Characters are bytes, white space is that of the "C" locale.
-/

namespace Verif.PTree.IniFile

open Verif.PTree

/-! ## the writer -/

/-- `check_dupes` -/
def dupes (ks : List (Key × Tree)) : Bool := !decide (ks.map Prod.fst).Nodup

/-- a line of `write_keys` -/
def keyLine (e : Key × Tree) : Str := e.1 ++ ('=' :: (e.2.data ++ ['\n']))

/-- `write_keys` with `throw_on_children = false`: children with children are passed over -/
def topKeys (ks : List (Key × Tree)) : Str := ks.flatMap fun e => if e.2.kids.isEmpty then keyLine e else []

/-- `write_keys` with `throw_on_children = true`: `none` = `ini_parser_error` -/
def sectionKeys : List (Key × Tree) → Option Str
  | [] => some []
  | e :: r => if e.2.kids.isEmpty then (sectionKeys r).map (keyLine e ++ ·) else none

/-- `write_sections` -/
def sections : List (Key × Tree) → Option Str
  | [] => some []
  | e :: r =>
    if e.2.kids.isEmpty then sections r
    else if dupes e.2.kids then none
    else if !e.2.data.isEmpty then none
    else
      match sectionKeys e.2.kids, sections r with
      | some a, some b => some ('[' :: (e.1 ++ (']' :: '\n' :: (a ++ b))))
      | _, _ => none

/-- `write_ini`; `none` = `ini_parser_error` (the file has been truncated by then, see `save`).  `saveIni`
(BoostPropertyTreeImplementation.cpp:145-148) -/
def writeIni (t : Tree) : Option Str :=
  if !t.data.isEmpty then none
  else if dupes t.kids then none
  else (sections t.kids).map (topKeys t.kids ++ ·)

/-! ## the reader -/

/-- `detail::trim` -/
def trim (s : Str) : Str := ((s.dropWhile isSpaceC).reverse.dropWhile isSpaceC).reverse

/-- what has been read: the finished children, and the section that is being read (name and keys) -/
structure RS where
  top : List (Key × Tree)
  cur : Option (Key × List (Key × Tree))

/-- the children so far; a section without keys is dropped -/
def RS.flush (p : RS) : List (Key × Tree) :=
  match p.cur with
  | none => p.top
  | some (k, ks) => if ks.isEmpty then p.top else p.top ++ [(k, .node [] ks)]

/-- `container.push_back`: a key in the section that is being read, or at the top -/
def RS.push (p : RS) (k : Key) (v : Str) : RS :=
  match p.cur with
  | none => ⟨p.top ++ [(k, .node v [])], none⟩
  | some (n, ks) => ⟨p.top, some (n, ks ++ [(k, .node v [])])⟩

/-- where keys go and must not be repeated -/
def RS.container (p : RS) : List (Key × Tree) :=
  match p.cur with
  | none => p.top
  | some (_, ks) => ks

/-- is there a child with this key? -/
def has (k : Key) (ks : List (Key × Tree)) : Bool := ks.any fun e => e.1 = k

/-- one line of `read_ini`; `none` = `ini_parser_error` -/
def lineStep (p : RS) (l : Str) : Option RS :=
  match trim l with
  | [] => some p
  | c :: r =>
    if c = ';' ∨ c = '#' then some p
    else if c = '[' then
      if ']' ∈ r then
        if has (trim (r.takeWhile (· ≠ ']'))) p.flush then none
        else some ⟨p.flush, some (trim (r.takeWhile (· ≠ ']')), [])⟩
      else none
    else if c = '=' then none
    else if '=' ∈ r then
      if has (trim ((c :: r).takeWhile (· ≠ '='))) p.container then none
      else some (p.push (trim ((c :: r).takeWhile (· ≠ '='))) (trim ((c :: r).dropWhile (· ≠ '=')).tail))
    else none

/-- all lines -/
def linesStep : RS → List Str → Option RS
  | p, [] => some p
  | p, l :: r => (lineStep p l).bind fun q => linesStep q r

/-- `read_ini`; `none` = `ini_parser_error`.  `loadIni` (BoostPropertyTreeImplementation.cpp:140-143) -/
def readIni (s : Str) : Option Tree := (linesStep ⟨[], none⟩ (s.splitOn '\n')).map fun p => .node [] p.flush

end Verif.PTree.IniFile
