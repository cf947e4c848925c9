/-!
# Model of `sm::HashId`  (`sm_common/include/sm/hash_id.hpp`)

The 128-bit union `HashVal` is its 16 bytes; `u64[0]`, `u64[1]` are the little-endian words
(the model fixes a little-endian 64-bit machine, `kIs64BitArch`).
Strings are lists of characters; characters outside ASCII are neither digits nor spaces.
-/

namespace Verif.HashId

/-- `union HashVal` / `val_` (hash_id.hpp:180-184). -/
structure HashId where
  bytes : List (BitVec 8)
  size_eq : bytes.length = 16
deriving DecidableEq

/-- The little-endian number formed by some bytes (view of the union through `u64`). -/
def leNat : List (BitVec 8) → Nat
  | [] => 0
  | b :: bs => b.toNat + 256 * leNat bs

/-- The `n` little-endian bytes of a number. -/
def leBytes : Nat → Nat → List (BitVec 8)
  | 0, _ => []
  | n + 1, v => BitVec.ofNat 8 v :: leBytes n (v / 256)

theorem leBytes_length (n v : Nat) : (leBytes n v).length = n := by
  induction n generalizing v with
  | zero => rfl
  | succ n ih => simp [leBytes, ih]

/-- `val_.u64[0]` (hash_id.hpp:180-184). -/
def word0 (h : HashId) : BitVec 64 := BitVec.ofNat 64 (leNat (h.bytes.take 8))
/-- `val_.u64[1]` (hash_id.hpp:180-184). -/
def word1 (h : HashId) : BitVec 64 := BitVec.ofNat 64 (leNat (h.bytes.drop 8))

/-- `fromUint64(source)` (hash_id.hpp:38-41), also the constructor at 34-36. -/
def fromUint64 (a b : BitVec 64) : HashId where
  bytes := leBytes 8 a.toNat ++ leBytes 8 b.toNat
  size_eq := by simp [leBytes_length]

/-- `toUint64(destination)` (hash_id.hpp:43-46). -/
def toUint64 (h : HashId) : BitVec 64 × BitVec 64 := (word0 h, word1 h)

/-- `setInvalid()` and the default constructor (hash_id.hpp:28-30, 156-158). -/
def invalid : HashId where
  bytes := List.replicate 16 0
  size_eq := by simp

/-- `isValid()` (hash_id.hpp:159-161). -/
def isValid (h : HashId) : Bool := word0 h != 0 || word1 h != 0

/-- `operator<` (hash_id.hpp:134-139). -/
def lt (a b : HashId) : Bool :=
  if word0 a == word0 b then BitVec.ult (word1 a) (word1 b) else BitVec.ult (word0 a) (word0 b)
/-- `operator>` (hash_id.hpp:140-145). -/
def gt (a b : HashId) : Bool :=
  if word0 a == word0 b then BitVec.ult (word1 b) (word1 a) else BitVec.ult (word0 b) (word0 a)
/-- `operator==` (hash_id.hpp:146-148). -/
def eq (a b : HashId) : Bool := word0 a == word0 b && word1 a == word1 b
/-- `operator!=` (hash_id.hpp:149-151). -/
def ne (a b : HashId) : Bool := !eq a b

/-- `HashPrimeAndBase::kPrime` on 64-bit (hash_id.hpp:17-18). -/
def kPrime : BitVec 64 := 1099511628211
/-- `HashPrimeAndBase::kOffsetBasis` on 64-bit (hash_id.hpp:19-20). -/
def kOffsetBasis : BitVec 64 := 14695981039346656037

/-- `hashToSizeT()` (hash_id.hpp:93-100); also `std::hash<sm::HashId>` (198-206). -/
def hashToSizeT (h : HashId) : BitVec 64 :=
  (((kOffsetBasis ^^^ word0 h) * kPrime) ^^^ word1 h) * kPrime
/-- `hashToSizeTFast()` (hash_id.hpp:109-114). -/
def hashToSizeTFast (h : HashId) : BitVec 64 := (kOffsetBasis ^^^ word0 h) ^^^ word1 h

/-- `kHexConversion` (sm_common/src/hash_id.cpp:5). -/
def kHexConversion : List Char := "0123456789abcdef".toList

/-- `hexString()` (hash_id.hpp:61-69): high nibble first. -/
def hexString (h : HashId) : List Char :=
  h.bytes.flatMap fun (b : BitVec 8) =>
    [kHexConversion[(b >>> 4).toNat]?.getD '?', kHexConversion[(b &&& 0xf).toNat]?.getD '?']

/-- value of a base-16 digit as understood by `strtoul` -/
def digitVal (c : Char) : Option Nat :=
  if '0'.toNat ≤ c.toNat ∧ c.toNat ≤ '9'.toNat then some (c.toNat - '0'.toNat)
  else if 'a'.toNat ≤ c.toNat ∧ c.toNat ≤ 'f'.toNat then some (c.toNat - 'a'.toNat + 10)
  else if 'A'.toNat ≤ c.toNat ∧ c.toNat ≤ 'F'.toNat then some (c.toNat - 'A'.toNat + 10)
  else none

def isHexDigit (c : Char) : Bool := (digitVal c).isSome

/-- `isspace` in the C locale: space, `\t \n \v \f \r`. -/
def isSpace (c : Char) : Bool := c.toNat == 32 || (9 ≤ c.toNat && c.toNat ≤ 13)

/-- the digit loop of `strtoul` -/
def digits (acc : Nat) : List Char → Nat
  | [] => acc
  | c :: cs => match digitVal c with
    | some d => digits (acc * 16 + d) cs
    | none => acc

/-- Optional sign: `(negative?, rest)`. -/
def stripSign : List Char → Bool × List Char
  | '-' :: cs => (true, cs)
  | '+' :: cs => (false, cs)
  | cs => (false, cs)

/-- Optional `0x`/`0X`, skipped only if a hexadecimal digit follows (glibc). -/
def stripPrefix : List Char → List Char
  | '0' :: 'x' :: c :: cs => if isHexDigit c then c :: cs else '0' :: 'x' :: c :: cs
  | '0' :: 'X' :: c :: cs => if isHexDigit c then c :: cs else '0' :: 'X' :: c :: cs
  | cs => cs

/-- `std::stoul(s, 0, 16)`: skip spaces, optional sign, optional prefix, longest digit run;
`none` models the `std::invalid_argument` exception (no digit).  Negative input is negated
modulo `2^64`.  Simplification: the `std::out_of_range` exception is not modelled (it cannot
occur for the two-character strings passed by `fromHexString`). -/
def stoul16 (s : List Char) : Option Nat :=
  let s1 := s.dropWhile isSpace
  let (neg, s2) := stripSign s1
  let s3 := stripPrefix s2
  match s3 with
  | [] => none
  | c :: _ =>
    if isHexDigit c then
      let v := digits 0 s3 % 2 ^ 64
      some (if neg then (2 ^ 64 - v) % 2 ^ 64 else v)
    else none

/-- What a call can do to the caller and to the object. -/
inductive Outcome where
  | returned (ok : Bool) (obj : HashId)
  | threw (obj : HashId)
deriving DecidableEq

/-- `val_.c[i] = b` -/
def setByte (h : HashId) (i : Nat) (b : BitVec 8) : HashId where
  bytes := h.bytes.set i b
  size_eq := by simp [h.size_eq]

/-- the loop of `fromHexString` (hash_id.hpp:80-83) with `n` iterations left, at index `i` -/
def hexLoop (s : List Char) : Nat → Nat → HashId → Outcome
  | 0, _, h => .returned true h
  | n + 1, i, h =>
    match stoul16 ((s.drop (2 * i)).take 2) with
    | none => .threw h
    | some v => hexLoop s n (i + 1) (setByte h i (BitVec.ofNat 8 v))

/-- `fromHexString(s)` called on the object `h` (hash_id.hpp:75-85). -/
def fromHexString (h : HashId) (s : List Char) : Outcome :=
  if s.length ≠ 32 then .returned false h else hexLoop s 16 0 h

end Verif.HashId
