/-!
# Model of the boost::serialization code of schweizer_messer

* Eigen matrices: sm_eigen/include/sm/eigen/serialization.hpp:40-190
* `Transformation`, `HomogeneousPoint`, `UncertainTransformation`, `UncertainHomogeneousPoint`, `UncertainVector`
* the files of sm_boost/include/sm/boost/serialization.hpp:17-107

boost::serialization itself is modelled by its contract: an archive is a list of items (numbers, scalars, class
versions and, in XML, start and end tags), written and read in order.  How a scalar is spelled in the archive is a
parameter (`Codec`); a text archive cannot read back a NaN, so the theorems ask of each scalar in question that it can
be read back.  Object tracking ids, class ids and the archive's trailing text are left out; a class version is recorded
at every object (boost writes it at the first object of the class in the archive).
-/

namespace Verif.Serial.Boost

/-- the contents of an archive -/
inductive Item (τ : Type)
  | num (n : Nat)
  | scal (t : τ)
  | ver (n : Nat)
  | op (s : String)
  | cl (s : String)
  deriving DecidableEq, Repr

/-- how the archive spells scalars -/
structure Codec (α τ : Type) where
  enc : α → τ
  dec : τ → Option α

/-- the ways a load can fail: the archive's own exceptions (`stream`, `tag`), `sm::eigen::SerializationException`
(`size`), the `std::runtime_error` for a class version (`version`) or a file (`file`), the exception for a wrong archive
signature (`format`), and undefined behaviour (`ub`) -/
inductive Err
  | stream | tag | size | version | file | format | ub
  deriving DecidableEq, Repr

/-- what a load leaves behind: the exception, the object (an exception does not undo assignments), the unread part
of the archive -/
structure Res (σ τ : Type) where
  err : Option Err
  obj : σ
  rest : List (Item τ)

/-- a function that reads into an object -/
abbrev Loader (σ τ : Type) := σ → List (Item τ) → Res σ τ

variable {α τ σ ρ γ : Type}

/-! ## The archive's primitives -/

/-- read a number -/
def loadNum : Loader Nat τ := fun d ts =>
  match ts with
  | .num n :: r => ⟨none, n, r⟩
  | _ => ⟨some .stream, d, ts⟩

/-- read a scalar -/
def loadScal (c : Codec α τ) : Loader α τ := fun d ts =>
  match ts with
  | .scal t :: r => match c.dec t with
    | some x => ⟨none, x, r⟩
    | none => ⟨some .stream, d, ts⟩
  | _ => ⟨some .stream, d, ts⟩

/-- write a named value: in XML between tags -/
def nvp (xml : Bool) (name : String) (body : List (Item τ)) : List (Item τ) :=
  if xml then .op name :: (body ++ [.cl name]) else body

/-- read a named value.  The XML archive takes any start tag and compares the name at the end tag. -/
def withTag (xml : Bool) (name : String) (L : Loader σ τ) : Loader σ τ := fun d ts =>
  if xml then
    match ts with
    | .op _ :: r =>
      match (L d r).err with
      | some e => ⟨some e, (L d r).obj, (L d r).rest⟩
      | none =>
        match (L d r).rest with
        | .cl n :: r' => if n = name then ⟨none, (L d r).obj, r'⟩ else ⟨some .tag, (L d r).obj, r'⟩
        | r' => ⟨some .stream, (L d r).obj, r'⟩
    | _ => ⟨some .stream, d, ts⟩
  else L d ts

/-- read one member after the other; `g1`, `g2` are the members of the object, `mk` puts them together -/
def load2 (mk : σ → ρ → γ) (g1 : γ → σ) (g2 : γ → ρ) (L1 : Loader σ τ) (L2 : Loader ρ τ) : Loader γ τ := fun d ts =>
  match (L1 (g1 d) ts).err with
  | some e => ⟨some e, mk (L1 (g1 d) ts).obj (g2 d), (L1 (g1 d) ts).rest⟩
  | none =>
    ⟨(L2 (g2 d) (L1 (g1 d) ts).rest).err, mk (L1 (g1 d) ts).obj (L2 (g2 d) (L1 (g1 d) ts).rest).obj,
      (L2 (g2 d) (L1 (g1 d) ts).rest).rest⟩

/-- read the elements of an array of known length, in place -/
def loadList (L : Loader α τ) : Loader (List α) τ
  | [], ts => ⟨none, [], ts⟩
  | x :: r, ts =>
    match (L x ts).err with
    | some e => ⟨some e, (L x ts).obj :: r, (L x ts).rest⟩
    | none =>
      ⟨(loadList L r (L x ts).rest).err, (L x ts).obj :: (loadList L r (L x ts).rest).obj, (loadList L r (L x ts).rest).rest⟩

/-! ## Eigen matrices -/

/-- a compile-time dimension: fixed or `Eigen::Dynamic` -/
inductive Dim
  | fixed (n : Nat)
  | dyn
  deriving DecidableEq, Repr

/-- a matrix type `Eigen::Matrix<Scalar, A, B, Options>`; of the options only the storage order matters -/
structure MatTy where
  rows : Dim
  cols : Dim
  rowMajor : Bool
  deriving DecidableEq, Repr

/-- a matrix: its size, its storage order and its coefficients in the order of the memory -/
structure Mat (α : Type) where
  rows : Nat
  cols : Nat
  rowMajor : Bool
  data : List α
  deriving DecidableEq, Repr

/-- the array elements of the archive: in XML each is between `item` tags -/
def saveElems (xml : Bool) (c : Codec α τ) (l : List α) : List (Item τ) :=
  l.flatMap fun x => nvp xml "item" [.scal (c.enc x)]

/-- `save(ar, M)` (serialization.hpp:40-56) -/
def saveMat (xml : Bool) (c : Codec α τ) (M : Mat α) : List (Item τ) :=
  nvp xml "rows" [.num M.rows] ++ nvp xml "cols" [.num M.cols] ++
    (if 0 < M.rows ∧ 0 < M.cols then nvp xml "data" (saveElems xml c M.data) else [])

/-- `ar >> make_nvp("data", make_array(&M(0,0), M.rows()*M.cols()))` -/
def loadData (xml : Bool) (c : Codec α τ) : Loader (Mat α) τ := fun M ts =>
  ⟨(withTag xml "data" (loadList (withTag xml "item" (loadScal c))) M.data ts).err,
    { M with data := (withTag xml "data" (loadList (withTag xml "item" (loadScal c))) M.data ts).obj },
    (withTag xml "data" (loadList (withTag xml "item" (loadScal c))) M.data ts).rest⟩

/-- `M.resize(r, c)`: the memory is kept if its length fits, otherwise it is allocated anew and its contents are
arbitrary (`junk`) -/
def Mat.resize (M : Mat α) (junk : Nat → α) (r k : Nat) : Mat α :=
  { M with rows := r, cols := k, data := if r * k = M.data.length then M.data else (List.range (r * k)).map junk }

/-- the rest of `load` once the size has been read: the four specialisations (69-190).  The one for a fixed number
of rows and a dynamic number of columns (142-157) evaluates `&M(0,0)` without a test for emptiness. -/
def loadBody (xml : Bool) (c : Codec α τ) (junk : Nat → α) (ty : MatTy) (r k : Nat) : Loader (Mat α) τ := fun M ts =>
  match ty.rows, ty.cols with
  | .fixed a, .fixed b =>
    if r ≠ a then ⟨some .size, M, ts⟩
    else if k ≠ b then ⟨some .size, M, ts⟩
    else if 0 < r ∧ 0 < k then loadData xml c M ts
    else ⟨none, M, ts⟩
  | .dyn, .fixed b =>
    if k ≠ b then ⟨some .size, M, ts⟩
    else if 0 < r ∧ 0 < k then loadData xml c (M.resize junk r b) ts
    else ⟨none, M.resize junk r b, ts⟩
  | .fixed a, .dyn =>
    if r ≠ a then ⟨some .size, M, ts⟩
    else if 0 < a ∧ 0 < k then loadData xml c (M.resize junk a k) ts
    else ⟨some .ub, M.resize junk a k, ts⟩
  | .dyn, .dyn =>
    if 0 < r ∧ 0 < k then loadData xml c (M.resize junk r k) ts
    else ⟨none, M.resize junk r k, ts⟩

/-- `rows` and `cols` are read first -/
def loadDims (xml : Bool) : Loader (Nat × Nat) τ :=
  load2 Prod.mk Prod.fst Prod.snd (withTag xml "rows" loadNum) (withTag xml "cols" loadNum)

/-- `load(ar, M)` (serialization.hpp:69-190) -/
def loadMat (xml : Bool) (c : Codec α τ) (junk : Nat → α) (ty : MatTy) : Loader (Mat α) τ := fun M ts =>
  match (loadDims xml (0, 0) ts).err with
  | some e => ⟨some e, M, (loadDims xml (0, 0) ts).rest⟩
  | none =>
    loadBody xml c junk ty (loadDims xml (0, 0) ts).obj.1 (loadDims xml (0, 0) ts).obj.2 M (loadDims xml (0, 0) ts).rest

/-! ## Classes -/

/-- a class with `CLASS_SERIALIZATION_VERSION = 0`: the version precedes the members -/
def saveClass (body : List (Item τ)) : List (Item τ) := .ver 0 :: body

/-- `SM_ASSERT_LE(std::runtime_error, version, CLASS_SERIALIZATION_VERSION, …)` at the beginning of every `load` -/
def loadClass (L : Loader σ τ) : Loader σ τ := fun d ts =>
  match ts with
  | .ver v :: r => if v ≤ 0 then L d r else ⟨some .version, d, r⟩
  | _ => ⟨some .stream, d, ts⟩

/-- a fixed-size, column-major matrix type, such as those of the members below -/
def fixedTy (r k : Nat) : MatTy := ⟨.fixed r, .fixed k, false⟩

/-- `Transformation` (Transformation.hpp:143-146) -/
structure TransfS (α : Type) where
  q : Mat α
  t : Mat α

/-- `Transformation::save` (Transformation.hpp:151-156) -/
def saveTransf (xml : Bool) (c : Codec α τ) (T : TransfS α) : List (Item τ) :=
  saveClass (nvp xml "_q_a_b" (saveMat xml c T.q) ++ nvp xml "_t_a_b_a" (saveMat xml c T.t))

/-- `Transformation::load` (Transformation.hpp:158-164) -/
def loadTransf (xml : Bool) (c : Codec α τ) (junk : Nat → α) : Loader (TransfS α) τ :=
  loadClass (load2 TransfS.mk TransfS.q TransfS.t (withTag xml "_q_a_b" (loadMat xml c junk (fixedTy 4 1)))
    (withTag xml "_t_a_b_a" (loadMat xml c junk (fixedTy 3 1))))

/-- `UncertainTransformation` (UncertainTransformation.hpp:86) -/
structure UTransfS (α : Type) where
  base : TransfS α
  U : Mat α

/-- `UncertainTransformation::save` (UncertainTransformation.hpp:91-98) -/
def saveUTransf (xml : Bool) (c : Codec α τ) (T : UTransfS α) : List (Item τ) :=
  saveClass (nvp xml "Transformation" (saveTransf xml c T.base) ++ nvp xml "_U" (saveMat xml c T.U))

/-- `UncertainTransformation::load` (UncertainTransformation.hpp:100-108) -/
def loadUTransf (xml : Bool) (c : Codec α τ) (junk : Nat → α) : Loader (UTransfS α) τ :=
  loadClass (load2 UTransfS.mk UTransfS.base UTransfS.U (withTag xml "Transformation" (loadTransf xml c junk))
    (withTag xml "_U" (loadMat xml c junk (fixedTy 6 6))))

/-- `HomogeneousPoint::save` (HomogeneousPoint.hpp:114-118); the object is its only member -/
def saveHPoint (xml : Bool) (c : Codec α τ) (p : Mat α) : List (Item τ) :=
  saveClass (nvp xml "_ph" (saveMat xml c p))

/-- `HomogeneousPoint::load` (HomogeneousPoint.hpp:120-125) -/
def loadHPoint (xml : Bool) (c : Codec α τ) (junk : Nat → α) : Loader (Mat α) τ :=
  loadClass (withTag xml "_ph" (loadMat xml c junk (fixedTy 4 1)))

/-- `UncertainHomogeneousPoint` (UncertainHomogeneousPoint.hpp:109) -/
structure UHPointS (α : Type) where
  base : Mat α
  U : Mat α

/-- `UncertainHomogeneousPoint::save` (UncertainHomogeneousPoint.hpp:89-94) -/
def saveUHPoint (xml : Bool) (c : Codec α τ) (p : UHPointS α) : List (Item τ) :=
  saveClass (nvp xml "HomogeneousPoint" (saveHPoint xml c p.base) ++ nvp xml "_U" (saveMat xml c p.U))

/-- `UncertainHomogeneousPoint::load` (UncertainHomogeneousPoint.hpp:96-102) -/
def loadUHPoint (xml : Bool) (c : Codec α τ) (junk : Nat → α) : Loader (UHPointS α) τ :=
  loadClass (load2 UHPointS.mk UHPointS.base UHPointS.U (withTag xml "HomogeneousPoint" (loadHPoint xml c junk))
    (withTag xml "_U" (loadMat xml c junk (fixedTy 4 4))))

/-- `UncertainVector<D>` (UncertainVector.hpp:102-105) -/
structure UVecS (α : Type) where
  v : Mat α
  E : Mat α

/-- `UncertainVector<D>::save` (UncertainVector.hpp:92-97) -/
def saveUVec (xml : Bool) (c : Codec α τ) (p : UVecS α) : List (Item τ) :=
  saveClass (nvp xml "_v" (saveMat xml c p.v) ++ nvp xml "_E" (saveMat xml c p.E))

/-- `UncertainVector<D>::load` (UncertainVector.hpp:83-90) -/
def loadUVec (xml : Bool) (c : Codec α τ) (junk : Nat → α) (D : Nat) : Loader (UVecS α) τ :=
  loadClass (load2 UVecS.mk UVecS.v UVecS.E (withTag xml "_v" (loadMat xml c junk (fixedTy D 1)))
    (withTag xml "_E" (loadMat xml c junk (fixedTy D D))))

/-- `UncertainVector<1>` (UncertainVector.hpp:202-205) -/
structure UScalS (α : Type) where
  v : α
  sigma2 : α

/-- `UncertainVector<1>::save` (UncertainVector.hpp:191-196) -/
def saveUScal (xml : Bool) (c : Codec α τ) (p : UScalS α) : List (Item τ) :=
  saveClass (nvp xml "_v" [.scal (c.enc p.v)] ++ nvp xml "_sigma2" [.scal (c.enc p.sigma2)])

/-- `UncertainVector<1>::load` (UncertainVector.hpp:182-189) -/
def loadUScal (xml : Bool) (c : Codec α τ) : Loader (UScalS α) τ :=
  loadClass (load2 UScalS.mk UScalS.v UScalS.sigma2 (withTag xml "_v" (loadScal c)) (withTag xml "_sigma2" (loadScal c)))

/-! ## Files -/

/-- the three archive formats of sm_boost/include/sm/boost/serialization.hpp -/
inductive Fmt
  | binary | text | xml
  deriving DecidableEq, Repr

def Fmt.isXml : Fmt → Bool
  | .xml => true
  | _ => false

/-- a file: `none` if it holds no complete archive signature, else the format and the items -/
abbrev Content (τ : Type) := Option (Fmt × List (Item τ))

/-- the file system: which files can be opened for writing, and the contents of the files that exist and can be
read -/
structure Disk (τ : Type) where
  writable : String → Bool
  content : String → Option (Content τ)

/-- the top-level tag used by `save_xml` / `load_xml` (70-73, 87-90) -/
def topTag (tag : String) : String := if tag.length = 0 then "object" else tag

/-- `save`, `save_txt`, `save_xml` (17-25, 40-48, 64-78): `w` are the items of the object -/
def saveFile (f : Fmt) (tag : String) (w : List (Item τ)) (path : String) (d : Disk τ) : Option Err × Disk τ :=
  if d.writable path then
    (none, { d with content := fun p => if p = path then some (some (f, nvp f.isXml (topTag tag) w)) else d.content p })
  else (some .file, d)

/-- the top-level object of an XML archive: boost does not compare the names of the tags at the highest level -/
def withTop (xml : Bool) (L : Loader σ τ) : Loader σ τ := fun d ts =>
  if xml then
    match ts with
    | .op _ :: r =>
      match (L d r).err with
      | some e => ⟨some e, (L d r).obj, (L d r).rest⟩
      | none =>
        match (L d r).rest with
        | .cl _ :: r' => ⟨none, (L d r).obj, r'⟩
        | r' => ⟨some .stream, (L d r).obj, r'⟩
    | _ => ⟨some .stream, d, ts⟩
  else L d ts

/-- `load`, `load_txt`, `load_xml` (27-36, 50-59, 80-94) -/
def loadFile (f : Fmt) (L : Loader σ τ) (path : String) (d : Disk τ) (o : σ) : Option Err × σ :=
  match d.content path with
  | none => (some .file, o)
  | some none => (some .format, o)
  | some (some (g, ts)) =>
    if g = f then ((withTop f.isXml L o ts).err, (withTop f.isXml L o ts).obj)
    else (some .format, o)

end Verif.Serial.Boost
