import Verif.Serial.Macro

/-!
# Model of the comparisons built from the macros

`isSame` on objects, pointers and `boost::shared_ptr` (sm_common/include/sm/serialization_macros.hpp:91-195) and the
`isBinaryEqual` members of the kinematics classes.
-/

namespace Verif.Serial

/-! ## `isSame` -/

/-- the types the macros are used with: a class, with or without a usable `isBinaryEqual`, a raw pointer, a
`boost::shared_ptr` -/
inductive CType
  | cls (hasIbe : Bool)
  | ptr (t : CType)
  | shared (t : CType)
  deriving DecidableEq, Repr

/-- values: an object (its contents as a number), the null pointer, a pointer to an address -/
inductive Val
  | obj (n : Nat)
  | null
  | addr (a : Nat)
  deriving DecidableEq, Repr

/-- what the program provides: the memory, and the two comparisons of objects of a class -/
structure World where
  heap : Nat → Val
  ibe : Nat → Nat → Bool
  eq : Nat → Nat → Bool

/-- `HasIsBinaryEqual<T>` (91-126): of a pointer it is that of the pointee -/
def CType.hasIbe : CType → Bool
  | .cls b => b
  | .ptr t => t.hasIbe
  | .shared t => t.hasIbe

/-- `lhs == rhs` as C++ means it: `operator==` of a class, identity of the addresses for pointers and shared
pointers -/
def opEq (w : World) : CType → Val → Val → Bool
  | .cls _, .obj a, .obj b => w.eq a b
  | .cls _, _, _ => false
  | .ptr _, x, y => decide (x = y)
  | .shared _, x, y => decide (x = y)

/-- `x.isBinaryEqual(y)`: only a class has this member -/
def callIbe (w : World) : CType → Val → Val → Bool
  | .cls _, .obj a, .obj b => w.ibe a b
  | _, _, _ => false

/-- the object a non-null pointer points to -/
def deref (w : World) : Val → Val
  | .addr a => w.heap a
  | v => v

/-- does `isSame<hasIbe, T>::eval` compile?  `lhs->isBinaryEqual(*rhs)` (139-163) needs a class behind the pointer. -/
def compiles : CType → Bool
  | .cls _ => true
  | .ptr t => match t with | .cls _ => true | t => !t.hasIbe
  | .shared t => match t with | .cls _ => true | t => !t.hasIbe

/-- the pointee comparison of the pointer specialisations (139-163, 172-195) -/
def sameThrough (w : World) (t : CType) (x y : Val) : Bool :=
  if x = .null ∧ y = .null then true
  else if x = .null ∨ y = .null then false
  else if t.hasIbe then callIbe w t (deref w x) (deref w y)
  else opEq w t (deref w x) (deref w y)

/-- `isSame<HasIsBinaryEqual<T>::value, T>::eval` (131-195) -/
def isSame (w : World) : CType → Val → Val → Bool
  | .cls true, x, y => callIbe w (.cls true) x y
  | .cls false, x, y => opEq w (.cls false) x y
  | .ptr t, x, y => sameThrough w t x y
  | .shared t, x, y => sameThrough w t x y

/-! ## The kinematics classes -/

/-- `operator==` of Eigen vectors: every pair of coefficients compares equal (so a NaN makes it false) -/
def vecEq {α : Type} [BEq α] {n : Nat} (a b : Fin n → α) : Bool := (List.finRange n).all fun i => a i == b i

/-- `operator==` of Eigen matrices -/
def matEq {α : Type} [BEq α] {n m : Nat} (a b : Fin n → Fin m → α) : Bool :=
  (List.finRange n).all fun i => vecEq (a i) (b i)

/-- the members of `HomogeneousPoint` (HomogeneousPoint.hpp:129) -/
structure HPoint (α : Type) where
  ph : Fin 4 → α

/-- the members of `UncertainHomogeneousPoint` (UncertainHomogeneousPoint.hpp:109) -/
structure UHPoint (α : Type) extends HPoint α where
  U : Fin 4 → Fin 4 → α

/-- the members of `Transformation` (Transformation.hpp:143-146) -/
structure Transf (α : Type) where
  q : Fin 4 → α
  t : Fin 3 → α

/-- the members of `UncertainTransformation` (UncertainTransformation.hpp:86) -/
structure UTransf (α : Type) extends Transf α where
  U : Fin 6 → Fin 6 → α

/-- the members of `UncertainVector<D>` (UncertainVector.hpp:102-105) -/
structure UVec (α : Type) (D : Nat) where
  v : Fin D → α
  E : Fin D → Fin D → α

/-- the members of `UncertainVector<1>` (UncertainVector.hpp:202-205) -/
structure UScalar (α : Type) where
  v : α
  sigma2 : α

variable {α : Type} [BEq α]

/-- `HomogeneousPoint::isBinaryEqual` (HomogeneousPoint.cpp:219-222) -/
def HPoint.isBinaryEqual (a b : HPoint α) (s : St) : Option (Bool × St) :=
  run (checkMember 0 (vecEq a.ph b.ph)) s

/-- `UncertainHomogeneousPoint::isBinaryEqual` (UncertainHomogeneousPoint.cpp:214-217): the base class is compared
first; its result is the first operand of the `&&` -/
def UHPoint.isBinaryEqual (a b : UHPoint α) (s : St) : Option (Bool × St) :=
  match HPoint.isBinaryEqual a.toHPoint b.toHPoint s with
  | some (r, s') => run (.val r :: .and :: checkMember 1 (matEq a.U b.U)) s'
  | none => none

/-- `Transformation::isBinaryEqual` (Transformation.cpp:131-134) -/
def Transf.isBinaryEqual (a b : Transf α) (s : St) : Option (Bool × St) :=
  run (joinAnd [checkMember 0 (vecEq a.q b.q), checkMember 1 (vecEq a.t b.t)]) s

/-- `UncertainTransformation::isBinaryEqual` (UncertainTransformation.cpp:167-170) -/
def UTransf.isBinaryEqual (a b : UTransf α) (s : St) : Option (Bool × St) :=
  match Transf.isBinaryEqual a.toTransf b.toTransf s with
  | some (r, s') => run (.val r :: .and :: checkMember 2 (matEq a.U b.U)) s'
  | none => none

/-- `UncertainVector<D>::isBinaryEqual` (implementation/UncertainVector.hpp:181-185) -/
def UVec.isBinaryEqual {D : Nat} (a b : UVec α D) (s : St) : Option (Bool × St) :=
  run (joinAnd [checkMember 0 (vecEq a.v b.v), checkMember 1 (matEq a.E b.E)]) s

/-- `UncertainVector<1>::isBinaryEqual` (implementation/UncertainVector.hpp:197-200) -/
def UScalar.isBinaryEqual (a b : UScalar α) (s : St) : Option (Bool × St) :=
  run (joinAnd [checkMember 0 (a.v == b.v), checkMember 1 (a.sigma2 == b.sigma2)]) s

end Verif.Serial
