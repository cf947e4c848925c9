import Verif.PTree.Files

/-!
# Model of `saveXml`, `loadXml`, `loadXmlFromString` and `getXmlReadOptions`
(`sm_property_tree/src/BoostPropertyTreeImplementation.cpp:112-139, 320-325`, `BoostPropertyTree.hpp:95-121`)

The functions hand the tree to `boost::property_tree::write_xml` and `read_xml`, which belong to the environment.  They are modelled after
boost/property_tree/detail/xml_parser_write.hpp, xml_parser_utils.hpp, xml_parser_read_rapidxml.hpp and rapidxml.hpp: elements,
attributes, text with character references, CDATA, comments, processing instructions and document types.  A text ends at its first zero
character.  Characters are bytes; code points in numeric references are not reduced modulo the machine's word.
-/

namespace Verif.PTree.XmlFile

open Verif.PTree

/-- `<xmlattr>` -/
def xmlAttr : Key := "<xmlattr>".toList
/-- `<xmlcomment>` -/
def xmlComment : Key := "<xmlcomment>".toList
/-- `<xmltext>` -/
def xmlText : Key := "<xmltext>".toList

/-! ## the writer -/

/-- one character in `encode_char_entities` -/
def encodeChar (c : Char) : Str :=
  if c = '<' then "&lt;".toList else if c = '>' then "&gt;".toList else if c = '&' then "&amp;".toList
  else if c = '"' then "&quot;".toList else if c = '\'' then "&apos;".toList else [c]

/-- `encode_char_entities`: in a text of blanks only the first one is encoded -/
def encode (s : Str) : Str :=
  match s with
  | [] => []
  | _ :: r => if s.all (· = ' ') then "&#32;".toList ++ r else s.flatMap encodeChar

/-- `write_xml_indent` with the settings of `saveXml` (124-139): one tab per level in human readable mode, else nothing -/
def indent (pretty : Bool) (n : Nat) : Str := if pretty then List.replicate n '\t' else []

/-- a line break if the condition holds -/
def nl (b : Bool) : Str := if b then ['\n'] else []

/-- `write_xml_text` -/
def writeText (pretty sep : Bool) (n : Nat) (s : Str) : Str :=
  (if sep then indent pretty n else []) ++ (encode s ++ nl sep)

/-- `write_xml_comment` -/
def writeComment (pretty : Bool) (n : Nat) (s : Str) : Str :=
  (if pretty then indent pretty n else []) ++ ("<!--".toList ++ (s ++ ("-->".toList ++ nl pretty)))

/-- the attributes: the children of the first child `<xmlattr>` -/
def writeAttrs (ks : List (Key × Tree)) : Str :=
  match ks.find? (fun c => c.1 = xmlAttr) with
  | none => []
  | some (_, t) => t.kids.flatMap fun a => ' ' :: (a.1 ++ ('=' :: '"' :: (encode a.2.data ++ ['"'])))

/-- `has_elements` -/
def hasElements (ks : List (Key × Tree)) : Bool := ks.any fun c => c.1 ≠ xmlAttr && c.1 ≠ xmlText

/-- `has_attrs_only` -/
def attrsOnly (d : Str) (ks : List (Key × Tree)) : Bool := d.isEmpty && ks.all fun c => c.1 = xmlAttr

mutual
/-- `write_xml_element(stream, key, pt, indent, settings)` for `indent ≥ 0` -/
def writeElem (pretty : Bool) (n : Nat) (key : Key) : Tree → Str
  | .node d ks =>
    if d.isEmpty && ks.isEmpty then indent pretty n ++ ('<' :: (key ++ ('/' :: '>' :: nl pretty)))
    else if attrsOnly d ks then indent pretty n ++ ('<' :: (key ++ (writeAttrs ks ++ ('/' :: '>' :: nl pretty))))
    else
      indent pretty n ++ ('<' :: (key ++ (writeAttrs ks ++ ('>' :: (nl (hasElements ks && pretty) ++
        ((if d.isEmpty then [] else writeText pretty (hasElements ks && pretty) (n + 1) d) ++
          (writeKids pretty (hasElements ks && pretty) (n + 1) ks ++
            ((if hasElements ks then indent pretty n else []) ++ ('<' :: '/' :: (key ++ ('>' :: nl pretty)))))))))))
/-- its loop over the children -/
def writeKids (pretty sep : Bool) (n : Nat) : List (Key × Tree) → Str
  | [] => []
  | (k, t) :: r =>
    (if k = xmlAttr then []
      else if k = xmlComment then writeComment pretty n t.data
      else if k = xmlText then writeText pretty sep n t.data
      else writeElem pretty n k t) ++ writeKids pretty sep n r
end

/-- `write_xml(filename, pt, locale, settings)`: the declaration, then `write_xml_element` with `indent = -1`, which writes the data and the
children of the root.  `saveXml` (BoostPropertyTreeImplementation.cpp:124-139) puts this text into the file; `pretty` is
`isHumanReadableInputOutput()`. -/
def writeXml (pretty : Bool) : Tree → Str
  | .node d ks =>
    "<?xml version=\"1.0\" encoding=\"utf-8\"?>\n".toList ++
      ((if d.isEmpty then [] else writeText pretty (hasElements ks && pretty) 0 d) ++ writeKids pretty (hasElements ks && pretty) 0 ks)

/-! ## the reader -/

/-- `whitespace_pred` -/
def isWs (c : Char) : Bool := c = ' ' || c = '\n' || c = '\r' || c = '\t'

/-- `node_name_pred` -/
def isName (c : Char) : Bool := !(isWs c || c = '/' || c = '>' || c = '?')

/-- `attribute_name_pred` -/
def isAttrName (c : Char) : Bool := !(isWs c || c = '/' || c = '<' || c = '>' || c = '=' || c = '?' || c = '!')

/-- `lookup_digits` -/
def digit? (c : Char) : Option Nat :=
  if '0' ≤ c ∧ c ≤ '9' then some (c.toNat - 48)
  else if 'a' ≤ c ∧ c ≤ 'f' then some (c.toNat - 87)
  else if 'A' ≤ c ∧ c ≤ 'F' then some (c.toNat - 55)
  else none

/-- the digits of a numeric reference: the code so far, the code at the end, and the rest -/
def code (base : Nat) : Nat → Str → Nat × Str
  | n, [] => (n, [])
  | n, c :: r => match digit? c with
    | some d => code base (n * base + d) r
    | none => (n, c :: r)

/-- `insert_coded_character` (UTF-8); `none` = invalid -/
def utf8 (n : Nat) : Option Str :=
  if n < 0x80 then some [Char.ofNat n]
  else if n < 0x800 then some [Char.ofNat (0xC0 + n / 64), Char.ofNat (0x80 + n % 64)]
  else if n < 0x10000 then some [Char.ofNat (0xE0 + n / 4096), Char.ofNat (0x80 + n / 64 % 64), Char.ofNat (0x80 + n % 64)]
  else if n < 0x110000 then
    some [Char.ofNat (0xF0 + n / 262144), Char.ofNat (0x80 + n / 4096 % 64), Char.ofNat (0x80 + n / 64 % 64), Char.ofNat (0x80 + n % 64)]
  else none

/-- a character reference behind `&` -/
inductive Ref
  /-- what it stands for and what follows it -/
  | is (v : Str) (rest : Str)
  /-- not a reference: the `&` is taken as it is -/
  | no
  | error

/-- the end of a numeric reference -/
def numeric (x : Nat × Str) : Ref :=
  match utf8 x.1, x.2 with
  | some v, ';' :: r => .is v r
  | _, _ => .error

/-- the `switch` in `skip_and_expand_character_refs` -/
def charRef : Str → Ref
  | 'a' :: 'm' :: 'p' :: ';' :: r => .is ['&'] r
  | 'a' :: 'p' :: 'o' :: 's' :: ';' :: r => .is ['\''] r
  | 'q' :: 'u' :: 'o' :: 't' :: ';' :: r => .is ['"'] r
  | 'g' :: 't' :: ';' :: r => .is ['>'] r
  | 'l' :: 't' :: ';' :: r => .is ['<'] r
  | '#' :: 'x' :: r => numeric (code 16 0 r)
  | '#' :: r => numeric (code 10 0 r)
  | _ => .no

/-- `skip_and_expand_character_refs` on the raw text up to the stop character; `norm` = `parse_normalize_whitespace`; `none` = error.
The text gets shorter with every step (`fuel` = its length is enough). -/
def expand (norm : Bool) : Nat → Str → Option Str
  | _, [] => some []
  | 0, _ :: _ => none
  | fuel + 1, c :: r =>
    if c = '&' then
      match charRef r with
      | .is v r' => (expand norm fuel r').map (v ++ ·)
      | .no => (expand norm fuel r).map (c :: ·)
      | .error => none
    else if norm && isWs c then (expand norm fuel (r.dropWhile isWs)).map (' ' :: ·)
    else (expand norm fuel r).map (c :: ·)

/-- the text before the first occurrence of a pattern, and the text behind it -/
def cutAt (pat : Str) : Str → Option (Str × Str)
  | [] => if pat.isPrefixOf [] then some ([], []) else none
  | c :: r => if pat.isPrefixOf (c :: r) then some ([], (c :: r).drop pat.length) else (cutAt pat r).map fun x => (c :: x.1, x.2)

/-- how a file is read: `trim_whitespace`, `no_comments`; `validate` = does the reader compare closing tags (versions of boost differ) -/
structure Opts where
  trim : Bool
  noComments : Bool
  validate : Bool

/-- `getXmlReadOptions()` (BoostPropertyTreeImplementation.cpp:320-325): the two static flags of `BoostPropertyTree` -/
def readOptions (humanReadable ignoreComments validate : Bool) : Opts := ⟨humanReadable, ignoreComments, validate⟩

/-- one attribute, at the beginning of its name: name, value and what follows (behind white space); `none` = error -/
def oneAttr (s : Str) : Option (Key × Str × Str) :=
  match (s.dropWhile isAttrName).dropWhile isWs with
  | '=' :: r1 =>
    match r1.dropWhile isWs with
    | q :: r2 =>
      if q = '"' ∨ q = '\'' then
        match expand false r2.length (r2.takeWhile (· ≠ q)), r2.dropWhile (· ≠ q) with
        | some v, _ :: r3 => some (s.takeWhile isAttrName, v, r3.dropWhile isWs)
        | _, _ => none
      else none
    | [] => none
  | _ => none

/-- `parse_node_attributes`; each attribute takes characters (`fuel` = length of the text is enough); `none` = error -/
def attributes : Nat → Str → Option (List (Key × Str) × Str)
  | 0, s => if s.head?.any isAttrName then none else some ([], s)
  | fuel + 1, s =>
    if s.head?.any isAttrName then
      (oneAttr s).bind fun a => (attributes fuel a.2.2).map fun x => ((a.1, a.2.1) :: x.1, x.2)
    else some ([], s)

/-- an open element (or the document) -/
structure Elem where
  name : Key
  data : Str
  kids : List (Key × Tree)

/-- a step of the reader: finished, or the open elements and the rest of the text -/
inductive Tok
  | done
  | go (top : Elem) (below : List Elem) (rest : Str)

/-- the subtree `<xmlattr>` of `read_xml_node` -/
def attrKids (l : List (Key × Str)) : List (Key × Tree) :=
  if l.isEmpty then [] else [(xmlAttr, .node [] (l.map fun a => (a.1, .node a.2 [])))]

/-- `parse_doctype`, behind `<!DOCTYPE `: brackets are balanced -/
def doctype : Nat → Str → Option Str
  | _, [] => none
  | depth, c :: r =>
    if c = '[' then doctype (depth + 1) r
    else if c = ']' ∧ depth ≠ 0 then doctype (depth - 1) r
    else if c = '>' ∧ depth = 0 then some r
    else doctype depth r

/-- `parse_node` and `read_xml_node`, behind `<` -/
def node (o : Opts) (top : Elem) (below : List Elem) (s : Str) : Option Tok :=
  match s with
  | '?' :: r => (cutAt "?>".toList r).map fun x => .go top below x.2
  | '!' :: r =>
    if "--".toList.isPrefixOf r then
      (cutAt "-->".toList (r.drop 2)).map fun x =>
        .go (if o.noComments then top else { top with kids := top.kids ++ [(xmlComment, .node x.1 [])] }) below x.2
    else if "[CDATA[".toList.isPrefixOf r then
      (cutAt "]]>".toList (r.drop 7)).map fun x => .go { top with data := top.data ++ x.1 } below x.2
    else if "DOCTYPE".toList.isPrefixOf r && (r.drop 7).head?.any isWs then
      (doctype 0 (r.drop 8)).map fun x => .go top below x
    else (cutAt ['>'] r).map fun x => .go top below x.2
  | s =>
    let name := s.takeWhile isName
    if name = [] then none
    else
      match attributes s.length ((s.dropWhile isName).dropWhile isWs) with
      | none => none
      | some (as, r) =>
        match r with
        | '>' :: r' => some (.go ⟨name, [], attrKids as⟩ (top :: below) r')
        | '/' :: '>' :: r' => some (.go { top with kids := top.kids ++ [(name, .node [] (attrKids as))] } below r')
        | _ => none

/-- `parse_node_contents` at a closing tag, behind `</` -/
def closing (o : Opts) (top : Elem) (below : List Elem) (s : Str) : Option Tok :=
  match below with
  | [] => none
  | p :: ps =>
    if o.validate ∧ s.takeWhile isName ≠ top.name then none
    else
      match (s.dropWhile isName).dropWhile isWs with
      | '>' :: r => some (.go { p with kids := p.kids ++ [(top.name, .node top.data top.kids)] } ps r)
      | _ => none

/-- `parse_and_append_data`: the blank that a normalised text may end in is cut off -/
def trimEnd (s : Str) : Str := if s.getLast? = some ' ' then s.dropLast else s

/-- one step of `xml_document::parse` (no open element) or `parse_node_contents` -/
def tok (o : Opts) (top : Elem) (below : List Elem) (s : Str) : Option Tok :=
  match s.dropWhile isWs with
  | [] => if below.isEmpty then some .done else none
  | c :: r =>
    if c = '<' then
      if !below.isEmpty && r.head? = some '/' then closing o top below r.tail else node o top below r
    else if below.isEmpty then none
    else
      let t := if o.trim then c :: r else s
      match expand o.trim t.length (t.takeWhile (· ≠ '<')), t.dropWhile (· ≠ '<') with
      | some v, d :: rest => some (.go { top with data := top.data ++ (if o.trim then trimEnd v else v) } below (d :: rest))
      | _, _ => none

/-- all steps (each takes at least one character: `fuel` = length of the text + 1 is enough); the document at the end -/
def run (o : Opts) : Nat → Elem → List Elem → Str → Option Elem
  | 0, _, _, _ => none
  | fuel + 1, top, below, s =>
    match tok o top below s with
    | none => none
    | some .done => some top
    | some (.go top' below' rest) => run o fuel top' below' rest

/-- `parse_bom` -/
def skipBom (s : Str) : Str :=
  if [Char.ofNat 0xEF, Char.ofNat 0xBB, Char.ofNat 0xBF].isPrefixOf s then s.drop 3 else s

/-- `read_xml`; `none` = `xml_parser_error`.  `loadXml` and `loadXmlFromString` (BoostPropertyTreeImplementation.cpp:112-121) -/
def readXml (o : Opts) (s : Str) : Option Tree :=
  let t := skipBom (s.takeWhile (· ≠ Char.ofNat 0))
  (run o (t.length + 1) ⟨[], [], []⟩ [] t).map fun e => .node e.data e.kids

end Verif.PTree.XmlFile
