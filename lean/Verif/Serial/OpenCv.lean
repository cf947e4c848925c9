import Verif.Serial.Macro
import Verif.Serial.BoostLemmas

/-!
# Model of sm_opencv/include/sm/opencv/serialization.hpp

A two-dimensional `cv::Mat` is a header (size, type, step, place of the first element) on a block of bytes that other
headers may share.  OpenCV is modelled by its documentation: `ptr(r)` is the first element plus `step * r` bytes, a view
of a part of a matrix keeps the step of the matrix, `isContinuous()` holds iff there is no gap between the rows, which is
always so for a single row, `clone()` is a compact copy, and `create` keeps a matrix that has the right size and
type already.
-/

namespace Verif.Serial.Cv

/-- a matrix header and the block of memory behind it -/
structure CvMat where
  rows : Nat
  cols : Nat
  type : Nat
  step : Nat
  off : Nat
  buf : List UInt8
  deriving DecidableEq, Repr

/-- the number of bytes of an element of the type (`CV_ELEM_SIZE`) -/
abbrev ElemSize := Nat → Nat

/-- the byte at `m.ptr(r) + c`; `none` is outside of the memory -/
def CvMat.byte (m : CvMat) (r c : Nat) : Option UInt8 := m.buf[m.off + m.step * r + c]?

/-- the number of bytes of a row: `m.cols * m.elemSize()` -/
def CvMat.width (es : ElemSize) (m : CvMat) : Nat := m.cols * es m.type

/-- `isContinuous()` -/
def CvMat.continuous (es : ElemSize) (m : CvMat) : Bool := decide (m.rows ≤ 1) || decide (m.step = m.width es)

/-- the five checks of the beginning of `isBinaryEqual` (serialization.hpp:16-20); `depth()` and `elemSize()` are
functions of the type -/
def headChecks (es : ElemSize) (depth : Nat → Nat) (m1 m2 : CvMat) : List Tok :=
  joinAnd [checkSame 0 (m1.rows == m2.rows), checkSame 1 (m1.cols == m2.cols), checkSame 2 (depth m1.type == depth m2.type),
    checkSame 3 (m1.type == m2.type), checkSame 4 (es m1.type == es m2.type)]

/-- the loop over the bytes of one row (28-31); `none`: a byte outside of the memory is read -/
def cmpRow (m1 m2 : CvMat) (r : Nat) : List Nat → Bool → St → Option (Bool × St)
  | [], e, s => some (e, s)
  | c :: cs, e, s =>
    if e then
      match m1.byte r c, m2.byte r c with
      | some x, some y =>
        match run (checkSame 5 (x == y)) s with
        | some (b, s') => cmpRow m1 m2 r cs b s'
        | none => none
      | _, _ => none
    else some (e, s)

/-- the loop over the rows (24-32) -/
def cmpRows (m1 m2 : CvMat) (w : Nat) : List Nat → Bool → St → Option (Bool × St)
  | [], e, s => some (e, s)
  | r :: rs, e, s =>
    match cmpRow m1 m2 r (List.range w) e s with
    | some (e', s') => cmpRows m1 m2 w rs e' s'
    | none => none

/-- `isBinaryEqual(m1, m2)` (14-35) -/
def isBinaryEqual (es : ElemSize) (depth : Nat → Nat) (m1 m2 : CvMat) (s : St) : Option (Bool × St) :=
  match run (headChecks es depth m1 m2) s with
  | some (true, s') => cmpRows m1 m2 (m1.width es) (List.range m1.rows) true s'
  | some (false, s') => some (false, s')
  | none => none

/-! ## save and load -/

/-- what a binary archive holds: an `int`, or a raw byte -/
inductive BItem
  | int (n : Nat)
  | byte (b : UInt8)
  deriving DecidableEq, Repr

/-- `mat.clone()`: the rows one after the other -/
def CvMat.clone (es : ElemSize) (m : CvMat) : CvMat :=
  { m with
    step := m.width es, off := 0,
    buf := (List.range m.rows).flatMap fun r => (List.range (m.width es)).map fun c => (m.byte r c).getD 0 }

/-- `save` (113-128): `none` if bytes outside of the memory are written to the archive -/
def save (es : ElemSize) (m : CvMat) : Option (List BItem) :=
  let m' := if m.continuous es then m else m.clone es
  if m'.off + m'.step * m'.rows ≤ m'.buf.length then
    some (.int m'.rows :: .int m'.cols :: .int m'.type :: ((m'.buf.drop m'.off).take (m'.step * m'.rows)).map .byte)
  else none

/-- `mat.create(rows, cols, type)`: nothing happens if the matrix is like this already; else new memory, with any
contents -/
def CvMat.create (es : ElemSize) (junk : Nat → UInt8) (m : CvMat) (r c t : Nat) : CvMat :=
  if m.rows = r ∧ m.cols = c ∧ m.type = t ∧ m.buf ≠ [] then m
  else ⟨r, c, t, c * es t, 0, (List.range (r * (c * es t))).map junk⟩

/-- the first `n` raw bytes of the archive; `none`: something else is found there -/
def takeBytes : Nat → List BItem → Option (List UInt8 × List BItem)
  | 0, ts => some ([], ts)
  | n + 1, .byte b :: ts => (takeBytes n ts).map fun p => (b :: p.1, p.2)
  | _ + 1, _ => none

/-- `load` (130-140); `none`: the archive does not hold what is read, or bytes outside of the memory are written -/
def load (es : ElemSize) (junk : Nat → UInt8) (d : CvMat) : List BItem → Option (CvMat × List BItem)
  | .int r :: .int c :: .int t :: ts =>
    let d' := d.create es junk r c t
    match takeBytes (d'.step * d'.rows) ts with
    | some (bs, rest) =>
      if d'.off + d'.step * d'.rows ≤ d'.buf.length then
        some ({ d' with buf := d'.buf.take d'.off ++ bs ++ d'.buf.drop (d'.off + d'.step * d'.rows) }, rest)
      else none
    | none => none
  | _ => none

/-! ## Points and key points -/

open Boost in
/-- `cv::Point2f` -/
structure Point2f (α : Type) where
  x : α
  y : α

/-- `cv::KeyPoint`; `α` are the numbers of all kinds the archive can hold -/
structure KeyPoint (α : Type) where
  pt : Point2f α
  size : α
  angle : α
  response : α
  octave : α
  classId : α

variable {α τ : Type}

open Boost

/-- `serialize(ar, Point2f)` (43-47), saving -/
def savePoint (xml : Bool) (c : Codec α τ) (p : Point2f α) : List (Item τ) :=
  nvp xml "p.x" [.scal (c.enc p.x)] ++ nvp xml "p.y" [.scal (c.enc p.y)]

/-- `serialize(ar, Point2f)` (43-47), loading -/
def loadPoint (xml : Bool) (c : Codec α τ) : Loader (Point2f α) τ :=
  load2 Point2f.mk Point2f.x Point2f.y (withTag xml "p.x" (loadScal c)) (withTag xml "p.y" (loadScal c))

/-- `serialize(ar, KeyPoint)` (49-58), saving -/
def saveKey (xml : Bool) (c : Codec α τ) (k : KeyPoint α) : List (Item τ) :=
  nvp xml "k.pt" (savePoint xml c k.pt) ++ (nvp xml "k.size" [.scal (c.enc k.size)] ++ (nvp xml "k.angle" [.scal (c.enc k.angle)] ++
    (nvp xml "k.response" [.scal (c.enc k.response)] ++ (nvp xml "k.octave" [.scal (c.enc k.octave)] ++
      nvp xml "k.class_id" [.scal (c.enc k.classId)]))))

/-- `serialize(ar, KeyPoint)` (49-58), loading: the members in order -/
def loadKey (xml : Bool) (c : Codec α τ) : Loader (KeyPoint α) τ :=
  load2 (fun a (b : α × α × α × α × α) => ⟨a, b.1, b.2.1, b.2.2.1, b.2.2.2.1, b.2.2.2.2⟩) KeyPoint.pt
    (fun k => (k.size, k.angle, k.response, k.octave, k.classId)) (withTag xml "k.pt" (loadPoint xml c))
    (load2 Prod.mk Prod.fst Prod.snd (withTag xml "k.size" (loadScal c))
      (load2 Prod.mk Prod.fst Prod.snd (withTag xml "k.angle" (loadScal c))
        (load2 Prod.mk Prod.fst Prod.snd (withTag xml "k.response" (loadScal c))
          (load2 Prod.mk Prod.fst Prod.snd (withTag xml "k.octave" (loadScal c)) (withTag xml "k.class_id" (loadScal c))))))

end Verif.Serial.Cv
