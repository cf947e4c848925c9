import Verif.Archive.Model

/-!
# Saving an archive to a real disk

`MatrixArchive::save` (MatrixArchive.cpp:333-408) once more, now on a `std::ofstream` that keeps bytes in a buffer, above a device that may be full, in a process that may be killed.

* the buffering policy of the library is a parameter: how many of the waiting bytes are handed to the device by a write;
* the device takes a fixed number of bytes in all (`room`), then no more;
* the process dies after a given number of calls to the stream (`calls`); what is in the buffer is lost then.  Bytes handed to the device count as safe (losses of the operating system itself are not modelled);
* as in `Verif.Archive.Model`, a little-endian system; failing to open the file is not modelled (nothing happens then but an exception).
-/

namespace Verif.Archive

/-- how many of the bytes in the buffer (first argument) and those of a write (second argument) the write hands to the device -/
abbrev Policy := List Byte → List Byte → Nat

/-- a `std::ofstream` -/
structure Stream where
  /-- what is in the file -/
  file : List Byte
  /-- how many more bytes the device takes -/
  room : Nat
  /-- what is in the buffer of the stream -/
  pending : List Byte
  /-- `fout.good()` -/
  good : Bool
  /-- number of calls until the process dies; `none`: it does not -/
  calls : Option Nat

/-- the process is dead -/
def Stream.dead (s : Stream) : Bool := s.calls == some 0

/-- one call less -/
def Stream.tick (s : Stream) : Stream := { s with calls := s.calls.map (· - 1) }

/-- hand the first `k` bytes of the buffer to the device; if it does not take them all, the stream goes bad -/
def Stream.hand (s : Stream) (k : Nat) : Stream :=
  if (s.pending.take k).length ≤ s.room then
    { s with file := s.file ++ s.pending.take k, room := s.room - (s.pending.take k).length, pending := s.pending.drop k }
  else { s with file := s.file ++ (s.pending.take k).take s.room, room := 0, pending := [], good := false }

/-- `fout.write(bs)`, `fout << bs`: nothing on a bad stream -/
def Stream.write (P : Policy) (s : Stream) (bs : List Byte) : Stream :=
  if s.dead then s
  else if s.good then (Stream.hand { s with pending := s.pending ++ bs } (P s.pending bs)).tick
  else s.tick

/-- `fout.close()`, also when the stream is destroyed after an exception; whether it worked is not looked at (MatrixArchive.cpp:368) -/
def Stream.close (s : Stream) : Stream := if s.dead then s else s.hand s.pending.length

/-- `writeMatrixBlock` (MatrixArchive.cpp:205-227) -/
def writeMatrixBlockS (P : Policy) (s : Stream) (n : Name) (m : Mat) : Stream × Res :=
  let s := s.write P [magicMatrix]
  if validateName n then
    let s := s.write P (paddedName n)
    let rows := m.rows % 2 ^ 32
    let s := s.write P (leBytes 4 rows)
    let cols := m.cols % 2 ^ 32
    let s := s.write P (leBytes 4 cols)
    let dataSize := (rows * cols % 2 ^ 32 * 8) % 2 ^ 32
    let s := s.write P ((dataBytes m.data).take dataSize)
    (s.write P [magicEnd], .ok)
  else (s, .threw)

/-- `writeStringBlock` (MatrixArchive.cpp:252-267) -/
def writeStringBlockS (P : Policy) (s : Stream) (n : Name) (v : List Byte) : Stream × Res :=
  let s := s.write P [magicString]
  if validateName n then
    let s := s.write P (paddedName n)
    let stringSize := v.length % 2 ^ 32
    let s := s.write P (leBytes 4 stringSize)
    let s := s.write P (v.take stringSize)
    (s.write P [magicEnd], .ok)
  else (s, .threw)

/-- `saveMatrices`, `saveStrings` (MatrixArchive.cpp:377-408): after each block the state of the stream is tested -/
def saveBlocksS {V : Type} (w : Stream → Name → V → Stream × Res) (validNames : List Name) : Stream → Map V → Stream × Res
  | s, [] => (s, .ok)
  | s, (n, v) :: rest =>
    if selected validNames n then
      match w s n v with
      | (s, .threw) => (s, .threw)
      | (s, .ok) => if s.good then saveBlocksS w validNames s rest else (s, .threw)
    else saveBlocksS w validNames s rest

/-- `save(fout, validNames)` (MatrixArchive.cpp:371-375) -/
def saveS (P : Policy) (s : Stream) (a : Archive) (validNames : List Name) : Stream × Res :=
  match saveBlocksS (writeMatrixBlockS P) validNames s a.values with
  | (s, .threw) => (s, .threw)
  | (s, .ok) => saveBlocksS (writeStringBlockS P) validNames s a.strings

/-- the file afterwards and how the call ended (`none`: the process died) -/
structure Saved where
  file : List Byte
  res : Option Res
deriving DecidableEq

/-- `save(path, validNames)` (MatrixArchive.cpp:361-369) on a file with content `old`: opening is the first call and empties the file -/
def saveFile (P : Policy) (old : List Byte) (room : Nat) (calls : Option Nat) (a : Archive) (validNames : List Name) : Saved :=
  if calls = some 0 then ⟨old, none⟩
  else
    let r := saveS P ⟨[], room, [], true, calls.map (· - 1)⟩ a validNames
    ⟨r.1.close.file, if r.1.dead then none else some r.2⟩

/-- a buffer of `n` bytes that is emptied when it is full -/
def buffered (n : Nat) : Policy := fun p b => if p.length + b.length < n then 0 else p.length + b.length

end Verif.Archive
