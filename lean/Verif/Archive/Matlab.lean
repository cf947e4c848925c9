import Verif.Archive.Model

/-!
# Model of the Matlab side of the matrix archive (`sm_matrix_archive/matlab/saveMatrixArchive.m`, `loadMatrixArchive.m`)

* A Matlab value is a real numeric or logical array (its coefficients as doubles: the conversion of other numeric classes by `fwrite(…,'double')` has been done; complex arrays are left out),
  an array of characters, or something else (cell, struct, …).  Arrays have a list of dimensions and their elements in column-major order.
* A struct is the list of its fields in order.
* `enc` is the character encoding of the file, with which `fwrite(fid,M,'char')` writes a character.
* `fopen` succeeds, and writing does not fail.
* `fread` gives what is there: fewer elements than asked for at the end of the file, and nothing after it; a comparison with nothing is empty, which counts as false in `if`.
* In `loadMatrixArchive.m` a name is trimmed of white space; it becomes a field name, which must be an identifier (otherwise Matlab raises an error).
-/

namespace Verif.Archive.Mlab

/-- Matlab values -/
inductive MVal where
  | num (dims : List Nat) (data : List (BitVec 64))
  | chr (dims : List Nat) (codes : List Nat)
  | other
deriving DecidableEq, Repr

/-- a Matlab struct -/
abbrev Struct := List (Name × MVal)

/-- `ama.(name)`: the value of a field, if there is one -/
def field (s : Struct) (n : Name) : Option MVal :=
  match s with
  | [] => none
  | (k, v) :: rest => if n = k then some v else field rest n

/-- `ama.(name) = M` (loadMatrixArchive.m:62): an existing field keeps its place, a new one is the last -/
def setField (s : Struct) (n : Name) (v : MVal) : Struct :=
  match s with
  | [] => [(n, v)]
  | (k, w) :: rest => if n = k then (k, v) :: rest else (k, w) :: setField rest n v

/-- number of elements of an array -/
def count (dims : List Nat) : Nat := dims.foldr (· * ·) 1

/-! ## saving -/

/-- the check of a name (saveMatrixArchive.m:27-37); `isletter` on the characters of an identifier -/
def nameOk (n : Name) : Bool :=
  !(decide (n.length > fixedNameSize)) && n.all fun c => isAlpha c || (decide (48 ≤ c.toNat) && decide (c.toNat ≤ 57)) || c == underscore

/-- `fwrite(fid,x,'uint32')`: conversions saturate (saveMatrixArchive.m:91) -/
def u32 (x : Nat) : List Byte := leBytes 4 (min x (2 ^ 32 - 1))

/-- one field (saveMatrixArchive.m:53-101): the bytes written and whether an error was raised -/
def writeField (enc : Nat → List Byte) (n : Name) : MVal → Written
  | .other => ⟨[], .threw⟩
  | .num dims data =>
    if count dims = 0 then ⟨[], .threw⟩
    else if dims.length < 1 ∨ 2 < dims.length then ⟨magicMatrix :: paddedName n, .threw⟩
    else
      let sz := if dims.length = 1 then dims ++ [1] else dims
      ⟨magicMatrix :: (paddedName n ++ sz.flatMap u32 ++ dataBytes data ++ [magicEnd]), .ok⟩
  | .chr dims codes =>
    if count dims = 0 then ⟨[], .threw⟩
    else if dims.length < 1 ∨ 2 < dims.length then ⟨magicString :: paddedName n, .threw⟩
    else ⟨magicString :: (paddedName n ++ u32 (dims.getD 1 1) ++ codes.flatMap enc ++ [magicEnd]), .ok⟩

/-- the loop over the fields (saveMatrixArchive.m:52-102); an error leaves it -/
def writeFields (enc : Nat → List Byte) : Struct → Written
  | [] => ⟨[], .ok⟩
  | (n, v) :: rest =>
    let w := writeField enc n v
    match w.res with
    | .threw => w
    | .ok => let r := writeFields enc rest; ⟨w.bytes ++ r.bytes, r.res⟩

/-- `saveMatrixArchive(filename, ama, append)` (saveMatrixArchive.m:1-108) on a file with content `file`: the new content and whether an error was raised.
The names are checked before the file is opened. -/
def saveMatrixArchive (enc : Nat → List Byte) (file : List Byte) (ama : Struct) (append : Bool) : Written :=
  if ama.all fun f => nameOk f.1 then
    let w := writeFields enc ama
    ⟨(if append then file else []) ++ w.bytes, w.res⟩
  else ⟨file, .threw⟩

/-! ## loading -/

/-- the end mark (loadMatrixArchive.m:56-59): the rest of the file; `none` is an error.  At the end of the file `endchar` is empty and the test does not raise an error. -/
def endMark : List Byte → Option (List Byte)
  | [] => some []
  | b :: rest => if b = magicEnd then some rest else none

/-- a string (loadMatrixArchive.m:40-45): `mxSize(1)` raises an error if there is no size -/
def readChars (bs : List Byte) : Option (MVal × List Byte) :=
  if bs.length < 4 then none
  else
    let n := leNat (bs.take 4)
    let d := (bs.drop 4).take n
    some (.chr [1, d.length] (d.map BitVec.toNat), (bs.drop 4).drop n)

/-- a matrix (loadMatrixArchive.m:47-52): `mxSize(2)` raises an error if the sizes are incomplete, `reshape` if there are too few coefficients -/
def readNums (bs : List Byte) : Option (MVal × List Byte) :=
  if bs.length < 8 then none
  else
    let r := leNat (bs.take 4)
    let c := leNat ((bs.drop 4).take 4)
    let d := (bs.drop 8).take (8 * (r * c))
    if d.length < 8 * (r * c) then none
    else some (.num [r, c] (words d), (bs.drop 8).drop (8 * (r * c)))

/-- Matlab's rule for field names: a letter, then letters, digits and underscores -/
def identifier (n : Name) : Bool :=
  match n with
  | [] => false
  | c :: cs => isAlpha c && cs.all fun d => isAlnum d || d == underscore

/-- one block after its start mark (loadMatrixArchive.m:30-62) -/
def readField (start : Byte) (bs : List Byte) : Option (Name × MVal × List Byte) :=
  if start ≠ magicString ∧ start ≠ magicMatrix then none
  else
    let name := trim (bs.take fixedNameSize)
    if name = [] then none
    else
      match (if start = magicString then readChars (bs.drop fixedNameSize) else readNums (bs.drop fixedNameSize)) with
      | none => none
      | some (v, rest) =>
        match endMark rest with
        | none => none
        | some rest => if identifier name then some (name, v, rest) else none

inductive LoadResult where
  | ok (s : Struct)
  | error
deriving DecidableEq, Repr

/-- the loop (loadMatrixArchive.m:28-69); each round consumes the start mark, so a fuel of the length of the file suffices -/
def loadFields : Nat → Struct → List Byte → LoadResult
  | _, s, [] => .ok s
  | 0, _, _ :: _ => .error
  | fuel + 1, s, b :: bs =>
    match readField b bs with
    | none => .error
    | some (n, v, rest) => loadFields fuel (setField s n v) rest

/-- `loadMatrixArchive(filename)` (loadMatrixArchive.m:1-79) -/
def loadMatrixArchive (file : List Byte) : LoadResult := loadFields file.length [] file

end Verif.Archive.Mlab
