/-!
# Model of `sm::Id`  (`sm_common/include/sm/Id.hpp`)

`sm::id_type` is `boost::uint64_t`; arithmetic wraps modulo `2^64`.
-/

namespace Verif.Id

/-- `class Id`, field `_id` (Id.hpp:67, 167-168). -/
structure Id where
  val : BitVec 64
deriving DecidableEq, Repr

/-- The default constructor `Id() : _id(-1)` (Id.hpp:73-74). -/
def default : Id := ⟨-1⟩

/-- `explicit Id(id_type id)` (Id.hpp:71). -/
def ofValue (v : BitVec 64) : Id := ⟨v⟩

/-- `operator==` (Id.hpp:82-85). -/
def eq (a b : Id) : Bool := b.val == a.val
/-- `operator!=` (Id.hpp:87-90). -/
def ne (a b : Id) : Bool := b.val != a.val
/-- `operator<` (Id.hpp:92-95). -/
def lt (a b : Id) : Bool := BitVec.ult a.val b.val
/-- `operator>` (Id.hpp:97-100). -/
def gt (a b : Id) : Bool := BitVec.ult b.val a.val
/-- `operator<=` (Id.hpp:102-105). -/
def le (a b : Id) : Bool := BitVec.ule a.val b.val
/-- `operator>=` (Id.hpp:107-110). -/
def ge (a b : Id) : Bool := BitVec.ule b.val a.val

/-- `getId()` / `value()` (Id.hpp:112-115, 143-146). -/
def value (a : Id) : BitVec 64 := a.val

/-- post-increment: returns `(returned value, new state of *this)` (Id.hpp:117-123). -/
def postInc (a : Id) : Id × Id := (⟨a.val⟩, ⟨a.val + 1⟩)

/-- pre-increment: returns `(returned value, new state of *this)` (Id.hpp:125-130). -/
def preInc (a : Id) : Id × Id := (⟨a.val + 1⟩, ⟨a.val + 1⟩)

/-- `isSet()` (Id.hpp:138-141). -/
def isSet (a : Id) : Bool := a.val != (-1 : BitVec 64)

/-- `clear()` (Id.hpp:148-151). -/
def clear (_ : Id) : Id := ⟨-1⟩

/-- `swap(rhs)`: returns the new `(*this, rhs)` (Id.hpp:153-156). -/
def swap (a b : Id) : Id × Id := (⟨b.val⟩, ⟨a.val⟩)

/-- `operator=` (Id.hpp:132-136): returns the new `*this`. -/
def assign (_this other : Id) : Id := ⟨other.val⟩

/-- `n` consecutive `++id` statements; the state of the object afterwards. -/
def incN : Nat → Id → Id
  | 0, a => a
  | n + 1, a => incN n (preInc a).2

end Verif.Id
