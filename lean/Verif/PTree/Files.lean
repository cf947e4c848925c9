import Verif.PTree.Model

/-!
# Model of `BoostPropertyTree::load`, `save` and `findFile`
(`sm_property_tree/src/BoostPropertyTree.cpp:31-86`, `BoostPropertyTreeImplementation.cpp:103-165`, `BoostPropertyTreeSupport.cpp`)

boost's readers and writers are parameters; a reader fills a local tree and swaps it with the caller's, so a failing reader changes
nothing.  `boost::filesystem::path::extension` is that of version 3 of the library, in which `.xml` is a name that is all
extension.
-/

namespace Verif.PTree

open Verif.Strings (ensureTrailingBackslash)

/-- `FileFormat` (BoostPropertyTree.cpp:31-36) -/
inductive FileFormat
  | xml | ini | json | info
  deriving DecidableEq, Repr

/-- `path::filename()`: what follows the last `/`; `.` after a `/` at the end -/
def fileNameOf (path : Str) : Str :=
  let f := (path.reverse.takeWhile (· ≠ '/')).reverse
  if f = [] then (if path = [] then [] else ['.']) else f

/-- `path::extension()`: from the last `.` on; nothing for `.` and `..` -/
def extensionOf (path : Str) : Str :=
  let f := fileNameOf path
  if f = ['.'] ∨ f = ['.', '.'] then []
  else if '.' ∈ f then '.' :: (f.reverse.takeWhile (· ≠ '.')).reverse
  else []

/-- `getFileFormatAndThrowIfUnknown` (BoostPropertyTree.cpp:38-53); `none` = `InvalidFormatException` -/
def formatOf (path : Str) : Option FileFormat :=
  let e := (extensionOf path).tail
  if e = "xml".toList then some .xml
  else if e = "ini".toList then some .ini
  else if e = "json".toList then some .json
  else if e = "info".toList then some .info
  else none

/-- files and their contents -/
structure Disk where
  content : Str → Option Str
  writable : Str → Bool

/-- boost's `read_*` (from the contents of a file) and `write_*`; `none` = exception -/
structure Formats where
  read : FileFormat → Str → Option Tree
  write : FileFormat → Tree → Option Str

/-- the exceptions -/
inductive FileErr
  /-- `InvalidFormatException` -/
  | format
  /-- `file_parser_error` -/
  | parser
  /-- `std::runtime_error` -/
  | runtime
  deriving DecidableEq, Repr

/-- `load(fileName)` (BoostPropertyTree.cpp:55-70): the exception and the tree afterwards -/
def load (F : Formats) (d : Disk) (path : Str) (t : Tree) : Option FileErr × Tree :=
  match formatOf path with
  | none => (some .format, t)
  | some f =>
    match (d.content path).bind (F.read f) with
    | some t' => (none, t')
    | none => (some .parser, t)

/-- `save(fileName)` (72-87): the exception and the files afterwards.  If the writer fails the file has been opened, and what it
then contains is arbitrary (`junk`). -/
def save (F : Formats) (junk : Str) (d : Disk) (path : Str) (t : Tree) : Option FileErr × Disk :=
  match formatOf path with
  | none => (some .format, d)
  | some f =>
    if d.writable path then
      match F.write f t with
      | some s => (none, { d with content := fun p => if p = path then some s else d.content p })
      | none => (some .parser, { d with content := fun p => if p = path then some junk else d.content p })
    else (some .parser, d)

/-- `findFile(filenameToFind, envVarNameContainingSearchDir)` (BoostPropertyTreeSupport.cpp:13-29): `env` is `std::getenv`,
`isFile` is `boost::filesystem::exists` -/
def findFile (env : Str → Option Str) (isFile : Str → Bool) (name var : Str) : Except FileErr Str :=
  match env var with
  | none => .error .runtime
  | some dir =>
    if isFile (ensureTrailingBackslash dir ++ name) then .ok (ensureTrailingBackslash dir ++ name) else .error .runtime

end Verif.PTree
