import Verif.PTree.Model

/-!
# Model of `BoostPropertyTreeLoader` (`sm_property_tree/src/BoostPropertyTreeLoader.cpp`)

The file system is a parameter: `load` gives the tree of a readable file (`none`: `load` throws), the
existence tests are predicates, and boost's `path(..).remove_filename()` is a function.  The logging
hooks are not modelled.
-/

namespace Verif.PTree.Loader

open Verif.PTree

/-- `boost::split(strs, list, is_any_of(","))` (lines 10-14) -/
def splitComma (s : Str) : List Str := s.splitOn ','

/-! ## search paths -/

/-- What `resolveFullFilePath` depends on. `fileExists` is the virtual member (default: the file system),
`fsExists` is `boost::filesystem::exists`, `dirName` is `path(..).remove_filename().string()`. -/
structure Env where
  searchPaths : List Str
  infixes : List Str
  fileExists : Str → Bool
  fsExists : Str → Bool
  dirName : Str → Str

/-- `bp + "/" + (infix.empty() ? "" : infix + "/") + path` (line 137) -/
def candidate (path bp infx : Str) : Str :=
  bp ++ '/' :: (if infx = [] then [] else infx ++ ['/']) ++ path

/-- the search loop (lines 134-142): the first existing candidate -/
def search (E : Env) (infixes : List Str) (path : Str) : List Str → Option Str
  | [] => none
  | bp :: bps => match infixes.find? (fun i => E.fsExists (candidate path bp i)) with
    | some i => some (candidate path bp i)
    | none => search E infixes path bps

/-- `getFileNameInfixes()` after lines 130-132 -/
def effInfixes (E : Env) : List Str := if E.infixes = [] then [[]] else E.infixes

/-- lines 130-143 -/
def searchOrFirst (E : Env) (path : Str) : Str :=
  match search E (effInfixes E) path E.searchPaths with
  | some c => c
  | none => E.searchPaths.headD [] ++ '/' :: (match effInfixes E with
      | [] => []
      | i :: _ => i ++ ['/']) ++ path

/-- `resolveFullFilePath` (lines 116-144) -/
def resolve (E : Env) (path relativeTo : Str) : Str :=
  if E.searchPaths = [] ∨ path.head? = some '/' then path
  else if ['.', '/'] <+: path ∨ ['.', '.', '/'] <+: path then
    if relativeTo = [] ∧ E.fileExists path = true then path
    else if E.fileExists (E.dirName relativeTo ++ '/' :: path) = true then
      E.dirName relativeTo ++ '/' :: path
    else searchOrFirst E path
  else searchOrFirst E path

/-! ## loading -/

/-- strings are stored as they are -/
def strCodec : Codec Str := ⟨id, some⟩

def parentsKey : Str := ['p', 'a', 'r', 'e', 'n', 't', 's']

/-- a file that has been merged (or was the first) -/
structure Merged where
  /-- the name as listed, with any `!` -/
  name : Str
  /-- the tree as read from the file -/
  tree : Tree
  updateOnly : Bool

/-- `UpdateablePropertyTree` and the `ignore` set; `done` records the merges made and
`loads` the files opened, for the statements -/
structure St where
  pt : Tree
  confIsSet : Bool
  ignore : List Str
  loads : List Str
  done : List Merged

/-- outcome -/
inductive Res where
  | ok (st : St)
  /-- an exception (unreadable file, or `KeyNotFoundException`) leaves `readFiles` -/
  | threw (st : St)
  /-- failed assertion inside boost's `put` -/
  | ub
  /-- the fuel of the model ran out -/
  | outOfFuel

/-- `pt.getString("parents", "")`, non-const: the value, and the tree afterwards (line 55) -/
def readParents (t : Tree) : Str × Tree :=
  match getDefaultMut strCodec t ['/'] parentsKey [] with
  | some r => r
  | none => ([], t)

/-- lines 55-61: the list of parents, from the file or from its first child -/
def parentsOf (t : Tree) : Str :=
  let (parents, t') := readParents t
  if parents = [] then
    match t'.kids with
    | [] => []
    | (_, c) :: _ => getDefault strCodec c ['/'] parentsKey []
  else parents

/-- `configFile[lastIndex] == '!'` (lines 42-47) -/
def isUpdateOnly (name : Str) : Bool := name.getLast? = some '!'
def bareName (name : Str) : Str := if isUpdateOnly name then name.dropLast else name

/-- `updateOrSet` (lines 24-36) of the file's tree after `getString` (line 67) -/
def updateOrSet (st : St) (name : Str) (t : Tree) : Res :=
  let done := st.done ++ [⟨name, t, isUpdateOnly name⟩]
  if st.confIsSet then
    match update st.pt (readParents t).2 (!isUpdateOnly name) false with
    | .ok pt => .ok { st with pt := pt, done := done }
    | .threw pt => .threw { st with pt := pt }
    | .ub => .ub
  else .ok { st with pt := (readParents t).2, confIsSet := true, done := done }

/-- `UpdateablePropertyTree::readFiles` (lines 70-78), given how one file is loaded -/
def readList (loadFile : St → Str → Str → Res) (st : St) (rel : Str) : List Str → Res
  | [] => .ok st
  | f :: fs =>
    if f = [] ∨ f ∈ st.ignore then readList loadFile st rel fs
    else match loadFile { st with ignore := f :: st.ignore } f rel with
      | .ok st => readList loadFile st rel fs
      | r => r

/-- `loadConfigFileWithParents` (lines 38-68); the first argument bounds the depth of the recursion -/
def loadFile (E : Env) (load : Str → Option Tree) : Nat → St → Str → Str → Res
  | 0, _, _, _ => .outOfFuel
  | fuel + 1, st, f, rel =>
    let st := { st with loads := st.loads ++ [f] }
    match load (resolve E (bareName f) rel) with
    | none => .threw st
    | some t =>
      if parentsOf t = [] then updateOrSet st f t
      else match readList (loadFile E load fuel) st (resolve E (bareName f) rel) (splitComma (parentsOf t)) with
        | .ok st => updateOrSet st f t
        | r => r

/-- `readFilesAndMergeIntoPropertyTree` (lines 97-110) -/
def readAll (E : Env) (load : Str → Option Tree) (fuel : Nat) (files : List Str) : Res :=
  readList (loadFile E load fuel) ⟨.empty, false, [], [], []⟩ [] files

end Verif.PTree.Loader
