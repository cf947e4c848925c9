/-!
# Model of `sm::MatrixArchive` (`sm_matrix_archive/src/MatrixArchive.cpp`, `include/sm/MatrixArchive.hpp`)

* names, strings and files are lists of bytes; a `double` is its 64-bit pattern;
* `std::map` is an association list kept strictly sorted by the lexicographic byte order;
* a little-endian system (on a big-endian one `save` throws "Not Implemented");
* stream write failures (disk full), the buffer and the end of the process are modelled in `Archive/Disk.lean`; here `save`/`load` act on bytes;
* reading an uninitialised variable after a short read is the explicit outcome `ub`.
-/

namespace Verif.Archive

abbrev Byte := BitVec 8
abbrev Name := List Byte

/-- `Eigen::MatrixXd`: dimensions and column-major coefficients. -/
structure Mat where
  rows : Nat
  cols : Nat
  data : List (BitVec 64)
deriving DecidableEq, Repr

/-- A matrix object: as many coefficients as the dimensions say (Eigen invariant). -/
def Mat.WF (m : Mat) : Prop := m.data.length = m.rows * m.cols

/-! ## `std::map` -/

/-- `std::string::operator<` on bytes (lexicographic). -/
def nameLt : Name → Name → Bool
  | _, [] => false
  | [], _ :: _ => true
  | x :: xs, y :: ys => x.toNat < y.toNat || (x.toNat == y.toNat && nameLt xs ys)

/-- `std::map<std::string, V>` -/
abbrev Map (V : Type) := List (Name × V)

/-- `m.find(k)` -/
def lookup {V : Type} (m : Map V) (k : Name) : Option V :=
  match m with
  | [] => none
  | (k', v) :: rest => if k = k' then some v else lookup rest k

/-- `m[k] = v` -/
def insert {V : Type} (m : Map V) (k : Name) (v : V) : Map V :=
  match m with
  | [] => [(k, v)]
  | (k', v') :: rest =>
    if nameLt k k' then (k, v) :: (k', v') :: rest
    else if k = k' then (k, v) :: rest
    else (k', v') :: insert rest k v

/-- `m.erase(k)` -/
def erase {V : Type} (m : Map V) (k : Name) : Map V :=
  match m with
  | [] => []
  | (k', v') :: rest => if k = k' then rest else (k', v') :: erase rest k

/-- The members `m_values` and `m_strings` (MatrixArchive.hpp:116-117). -/
structure Archive where
  values : Map Mat
  strings : Map (List Byte)
deriving DecidableEq, Repr

/-- `MatrixArchive()` (MatrixArchive.cpp:14-17). -/
def empty : Archive := ⟨[], []⟩

/-! ## names -/

/-- `s_fixedNameSize` (MatrixArchive.cpp:9). -/
def fixedNameSize : Nat := 32

/-- `isalpha` in the C locale. -/
def isAlpha (b : Byte) : Bool :=
  (65 ≤ b.toNat && b.toNat ≤ 90) || (97 ≤ b.toNat && b.toNat ≤ 122)
/-- `isalnum` in the C locale. -/
def isAlnum (b : Byte) : Bool := isAlpha b || (48 ≤ b.toNat && b.toNat ≤ 57)
/-- `isspace` in the C locale. -/
def isSpace (b : Byte) : Bool := b.toNat == 32 || (9 ≤ b.toNat && b.toNat ≤ 13)
/-- `'_'` -/
def underscore : Byte := 95

/-- `validateName` (MatrixArchive.cpp:145-158): `true` iff it does not throw. -/
def validateName (name : Name) : Bool :=
  if name.length > fixedNameSize || name.length == 0 then false
  else match name with
    | [] => false
    | c :: cs => isAlpha c && cs.all fun d => isAlnum d || d == underscore

/-! ## map-like interface -/

/-- How a mutating call ends. -/
inductive Res where
  | ok
  | threw
deriving DecidableEq, Repr

/-- `clear()` (MatrixArchive.cpp:25-29). -/
def clearAll (_ : Archive) : Archive := ⟨[], []⟩

/-- `clear(entryName)` (MatrixArchive.cpp:32-36): erases from `m_values` twice. -/
def clearName (a : Archive) (n : Name) : Archive :=
  { a with values := erase (erase a.values n) n }

/-- `setScalar` (MatrixArchive.cpp:38-44). -/
def setScalar (a : Archive) (n : Name) (x : BitVec 64) : Res × Archive :=
  if validateName n then (.ok, { a with values := insert a.values n ⟨1, 1, [x]⟩ }) else (.threw, a)

/-- `setString` (MatrixArchive.cpp:46-53). -/
def setString (a : Archive) (n : Name) (s : List Byte) : Res × Archive :=
  if validateName n then
    let values := if (lookup a.values n).isSome then erase a.values n else a.values
    (.ok, ⟨values, insert a.strings n s⟩)
  else (.threw, a)

/-- `setMatrix` / `setMatrixXd` (MatrixArchive.hpp:121-129, MatrixArchive.cpp:450-453): a string of that
name is erased *before* the name is validated. -/
def setMatrix (a : Archive) (n : Name) (m : Mat) : Res × Archive :=
  let a := if (lookup a.strings n).isSome then { a with strings := erase a.strings n } else a
  if validateName n then (.ok, { a with values := insert a.values n m }) else (.threw, a)

/-- `setVector` / `setVectorXd` (MatrixArchive.hpp:131-137, MatrixArchive.cpp:454-457). -/
def setVector (a : Archive) (n : Name) (m : Mat) : Res × Archive :=
  if m.cols = 1 then
    if validateName n then (.ok, { a with values := insert a.values n m }) else (.threw, a)
  else (.threw, a)

/-- `createMatrix(name, rows, cols, overwriteExisting)` (MatrixArchive.cpp:66-79): no name validation.
`m` is the resulting matrix; its coefficients are unspecified (uninitialised or kept), so the
model takes them as an argument. -/
def createMatrix (a : Archive) (n : Name) (m : Mat) (overwrite : Bool) : Res × Archive :=
  if !overwrite && (lookup a.values n).isSome then (.threw, a)
  else (.ok, { a with values := insert a.values n m })

/-- `getMatrix` (MatrixArchive.cpp:61-64, 81-94); `none` = exception. -/
def getMatrix (a : Archive) (n : Name) : Option Mat := lookup a.values n

/-- `getVector` (MatrixArchive.cpp:96-107). -/
def getVector (a : Archive) (n : Name) : Option (List (BitVec 64)) :=
  match lookup a.values n with
  | none => none
  | some m => if m.cols = 1 then some (m.data.take m.rows) else none

/-- `getScalar` (MatrixArchive.cpp:109-126). -/
def getScalar (a : Archive) (n : Name) : Option (BitVec 64) :=
  match lookup a.values n with
  | none => none
  | some m => if m.rows = 1 then (if m.cols = 1 then m.data.head? else none) else none

/-- `getString` (MatrixArchive.cpp:128-143). -/
def getString (a : Archive) (n : Name) : Option (List Byte) := lookup a.strings n

/-- `size()` (MatrixArchive.cpp:168-179). -/
def size (a : Archive) : Nat := a.strings.length + a.values.length

/-! ## writing -/

/-- magic characters (MatrixArchive.cpp:10-12) -/
def magicMatrix : Byte := 65
def magicString : Byte := 83
def magicEnd : Byte := 66
def space : Byte := 32

/-- the `n` little-endian bytes of a number, as `write(reinterpret_cast<char*>(&x), n)` emits them -/
def leBytes : Nat → Nat → List Byte
  | 0, _ => []
  | n + 1, v => BitVec.ofNat 8 v :: leBytes n (v / 256)

/-- the number in some little-endian bytes -/
def leNat : List Byte → Nat
  | [] => 0
  | b :: bs => b.toNat + 256 * leNat bs

/-- The memory of `matrix.data()`: 8 bytes per coefficient. -/
def dataBytes (d : List (BitVec 64)) : List Byte := d.flatMap fun x => leBytes 8 x.toNat

/-- `fout.width(32); fout.fill(' '); fout << name` (MatrixArchive.cpp:196-203): right-justified. -/
def paddedName (n : Name) : List Byte := List.replicate (fixedNameSize - n.length) space ++ n

/-- Bytes written and whether the call returned normally. -/
structure Written where
  bytes : List Byte
  res : Res
deriving DecidableEq, Repr

/-- `writeMatrixBlock` (MatrixArchive.cpp:205-227), including the 32-bit arithmetic of `dataSize`. -/
def writeMatrixBlock (n : Name) (m : Mat) : Written :=
  if validateName n then
    let rows := m.rows % 2 ^ 32
    let cols := m.cols % 2 ^ 32
    let dataSize := (rows * cols % 2 ^ 32 * 8) % 2 ^ 32
    ⟨magicMatrix :: (paddedName n ++ leBytes 4 rows ++ leBytes 4 cols
      ++ (dataBytes m.data).take dataSize ++ [magicEnd]), .ok⟩
  else ⟨[magicMatrix], .threw⟩

/-- `writeStringBlock` (MatrixArchive.cpp:252-267). -/
def writeStringBlock (n : Name) (s : List Byte) : Written :=
  if validateName n then
    let stringSize := s.length % 2 ^ 32
    ⟨magicString :: (paddedName n ++ leBytes 4 stringSize ++ s.take stringSize ++ [magicEnd]), .ok⟩
  else ⟨[magicString], .threw⟩

/-- `validNames.empty() || validNames.count(name) > 0` (MatrixArchive.cpp:382, 401, 422). -/
def selected (validNames : List Name) (n : Name) : Bool := validNames.isEmpty || validNames.contains n

/-- Run block writers one after the other, stopping at the first exception. -/
def writeAll {V : Type} (w : Name → V → Written) (validNames : List Name) : Map V → Written
  | [] => ⟨[], .ok⟩
  | (n, v) :: rest =>
    if selected validNames n then
      match w n v with
      | ⟨bs, .threw⟩ => ⟨bs, .threw⟩
      | ⟨bs, .ok⟩ => let r := writeAll w validNames rest; ⟨bs ++ r.bytes, r.res⟩
    else writeAll w validNames rest

/-- `save(fout, validNames)` (MatrixArchive.cpp:371-408), and the file variants (333-369) which open the
file truncating it. -/
def save (a : Archive) (validNames : List Name) : Written :=
  match writeAll writeMatrixBlock validNames a.values with
  | ⟨bs, .threw⟩ => ⟨bs, .threw⟩
  | ⟨bs, .ok⟩ =>
    let r := writeAll writeStringBlock validNames a.strings
    ⟨bs ++ r.bytes, r.res⟩

/-- `append(path, validNames)` (MatrixArchive.cpp:348-359, 439-443) on a file with the given content: the
file is opened for appending and nothing is written. -/
def append (_ : Archive) (file : List Byte) (_validNames : List Name) : List Byte := file

/-! ## reading -/

/-- `fin.read(buf, n)`: `none` is a short read. -/
def readBytes (n : Nat) (bs : List Byte) : Option (List Byte × List Byte) :=
  if n ≤ bs.length then some (bs.take n, bs.drop n) else none

/-- `boost::trim` -/
def trim (bs : List Byte) : List Byte :=
  ((bs.dropWhile isSpace).reverse.dropWhile isSpace).reverse

/-- `name = nameBuffer; trim(name)` (MatrixArchive.cpp:298-299): a C string, up to the first NUL. -/
def decodeName (buf : List Byte) : Name := trim (buf.takeWhile fun b => b != 0)

/-- split a byte list into 8-byte little-endian words -/
def words : List Byte → List (BitVec 64)
  | b0 :: b1 :: b2 :: b3 :: b4 :: b5 :: b6 :: b7 :: rest =>
    BitVec.ofNat 64 (leNat [b0, b1, b2, b3, b4, b5, b6, b7]) :: words rest
  | _ => []

inductive Block where
  | matrix (m : Mat)
  | string (s : List Byte)
deriving DecidableEq, Repr

inductive BlockRes where
  | block (n : Name) (b : Block) (rest : List Byte)
  | threw
  /-- an uninitialised variable is read after a short read (truncated file), or a matrix of more than
  `2^32` coefficients is only partly initialised -/
  | ub
deriving DecidableEq, Repr

/-- the end mark test (MatrixArchive.cpp:310-312) -/
def readEnd (n : Name) (b : Block) (bs : List Byte) : BlockRes :=
  match readBytes 1 bs with
  | none => .ub
  | some (e, rest) => if e = [magicEnd] then .block n b rest else .threw

/-- `readMatrix` (MatrixArchive.cpp:235-250) -/
def readMatrix (n : Name) (bs : List Byte) : BlockRes :=
  match readBytes 4 bs with
  | none => .ub
  | some (r, bs) =>
    match readBytes 4 bs with
    | none => .ub
    | some (c, bs) =>
      let rows := leNat r
      let cols := leNat c
      let dataSize := rows * cols % 2 ^ 32 * 8
      if rows * cols < 2 ^ 32 then
        match readBytes dataSize bs with
        | none => .ub
        | some (d, bs) => readEnd n (.matrix ⟨rows, cols, words d⟩) bs
      else .ub

/-- `readString` (MatrixArchive.cpp:269-278) -/
def readString (n : Name) (bs : List Byte) : BlockRes :=
  match readBytes 4 bs with
  | none => .ub
  | some (l, bs) =>
    match readBytes (leNat l) bs with
    | none => .ub
    | some (s, bs) => readEnd n (.string s) bs

/-- `readBlock` (MatrixArchive.cpp:280-314) -/
def readBlock (bs : List Byte) : BlockRes :=
  match readBytes 1 bs with
  | none => .ub
  | some (st, bs) =>
    if st = [magicString] then
      match readBytes fixedNameSize bs with
      | none => .ub
      | some (nb, bs) => readString (decodeName nb) bs
    else if st = [magicMatrix] then
      match readBytes fixedNameSize bs with
      | none => .ub
      | some (nb, bs) => readMatrix (decodeName nb) bs
    else .threw

inductive LoadRes where
  | ok (a : Archive)
  | threw (a : Archive)
  | ub
deriving DecidableEq, Repr

/-- `m_values[name] = matrix` / `m_strings[name] = valueString` (MatrixArchive.cpp:425-432) -/
def store (a : Archive) (n : Name) : Block → Archive
  | .matrix m => { a with values := insert a.values n m }
  | .string s => { a with strings := insert a.strings n s }

/-- The loop of `load` (MatrixArchive.cpp:417-435).  Every block consumes at least one byte, so a fuel of
`bs.length` suffices (see `load`). -/
def loadLoop (validNames : List Name) : Nat → Archive → List Byte → LoadRes
  | _, a, [] => .ok a
  | 0, _, _ :: _ => .ub
  | fuel + 1, a, b :: bs =>
    match readBlock (b :: bs) with
    | .ub => .ub
    | .threw => .threw a
    | .block n blk rest =>
      if selected validNames n then
        if validateName n then loadLoop validNames fuel (store a n blk) rest
        else .threw a
      else loadLoop validNames fuel a rest

/-- `load(path, validNames)` (MatrixArchive.cpp:321-331, 410-437) on a file with content `bs`. -/
def load (a : Archive) (validNames : List Name) (bs : List Byte) : LoadRes :=
  loadLoop validNames bs.length a bs

end Verif.Archive
