import Verif.Archive.Model

/-!
# Model of the program `lsma` (`sm_matrix_archive/src/lsma.cpp`), which lists the contents of archives

Texts are lists of bytes.  How Eigen prints a matrix is the parameter `text`.  `std::endl` flushes, so what was written is on the terminal when the program ends in whatever way.
-/

namespace Verif.Archive.Lsma

open Verif.Archive

def ascii (s : String) : List Byte := s.toList.map fun c => BitVec.ofNat 8 c.toNat

/-- how the program ends -/
inductive Exit where
  /-- `main` returns -/
  | code (n : Int)
  /-- `std::terminate` because of an exception nobody catches -/
  | terminated
  /-- undefined behaviour in `load` (a file cut short) -/
  | ub
deriving DecidableEq, Repr

/-- what is on standard output, and the end of the program -/
structure Result where
  out : List Byte
  exit : Exit
deriving DecidableEq, Repr

/-- the lines of one archive (lsma.cpp:19-24) -/
def listArchive (text : Mat → List Byte) (namePrefix : List Byte) (ma : Archive) : List Byte :=
  (ma.strings.flatMap fun s => namePrefix ++ s.1 ++ ascii " : " ++ s.2 ++ ascii "\n") ++
  (ma.values.flatMap fun m => namePrefix ++ m.1 ++ ascii " :\n" ++ text m.2 ++ ascii "\n")

/-- the loop over the files (lsma.cpp:14-25): `file` gives the content of a file, `none` if it cannot be opened (then `load` throws, MatrixArchive.cpp:411-413) -/
def listFiles (text : Mat → List Byte) (file : List Byte → Option (List Byte)) (argc : Nat) : List (List Byte) → Result
  | [] => ⟨[], .code 0⟩
  | path :: rest => match file path with
    | none => ⟨[], .terminated⟩
    | some bytes => match load empty [] bytes with
      | .ub => ⟨[], .ub⟩
      | .threw _ => ⟨[], .terminated⟩
      | .ok ma =>
        let namePrefix := if argc > 2 then path ++ ascii ":" else []
        let r := listFiles text file argc rest
        ⟨listArchive text namePrefix ma ++ r.out, r.exit⟩

/-- `main` (lsma.cpp:8-27): `args` without the program's name; the usage goes to standard error -/
def main (text : Mat → List Byte) (file : List Byte → Option (List Byte)) (args : List (List Byte)) : Result :=
  if args.length + 1 < 2 then ⟨[], .code (-1)⟩ else listFiles text file (args.length + 1) args

end Verif.Archive.Lsma
