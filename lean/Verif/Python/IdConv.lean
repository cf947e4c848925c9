import Verif.Common.Id

/-!
# Model of the Python converter of ids (`sm_python/include/sm/python/Id.hpp`)

CPython 2 on a 64-bit system: `int` holds a C `long`, `long` any integer.  A `bool` is an `int`.  Subclasses of
`int` and `long` behave like them.
-/

namespace Verif.Python

open Verif.Id

/-- a Python object, as far as the converter looks at it -/
inductive PyNum where
  /-- an `int`: the C `long` it holds -/
  | int (n : BitVec 64)
  /-- a `long` -/
  | long (n : Int)
  /-- an object of another class -/
  | other
deriving DecidableEq, Repr

/-- the integer a Python program sees -/
def PyNum.value : PyNum → Option Int
  | .int n => some n.toInt
  | .long n => some n
  | .other => none

/-- `convert` (Id.hpp:22-27): `PyInt_FromLong` of a `uint64_t`, which the call converts to `long` by keeping the bits -/
def idToPython (i : Id) : PyNum := .int i.val

/-- `convertible` (Id.hpp:31-37) -/
def idConvertible : PyNum → Bool
  | .int _ | .long _ => true
  | .other => false

/-- `construct` (Id.hpp:39-61), called when `convertible` was not null: the id, and whether a Python exception is pending.
`PyInt_AsUnsignedLongLongMask` keeps the bits of the `long`; `PyLong_AsUnsignedLongLong` gives -1 and sets an OverflowError when
the number is negative or too large, which nobody looks at here. -/
def idConstruct : PyNum → Id × Bool
  | .int n => (ofValue n, false)
  | .long n => if 0 ≤ n ∧ n < 18446744073709551616 then (ofValue (BitVec.ofInt 64 n), false) else (ofValue (-1), true)
  | .other => (ofValue 0, false)

/-- the argument conversion of a wrapped function that takes an id: none is Boost.Python's ArgumentError -/
def idFromPython (o : PyNum) : Option (Id × Bool) := if idConvertible o then some (idConstruct o) else none

end Verif.Python
