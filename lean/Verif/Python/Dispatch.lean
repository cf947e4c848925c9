import Verif.Kinematics.Uncertain
import Verif.Serial.Boost

/-!
# Model of the Python classes of transformations and points
(`sm_python/src/exportTransformation.cpp`, `exportHomogeneousPoint.cpp`, `sm_python/include/sm/python/boost_serialization_pickle.hpp`)

Boost.Python keeps, for every class and method name, the C++ functions registered with `.def` in a chain; a function registered
later is put in front, and a call uses the first function of the chain whose parameters the arguments can be converted to.  An object of a
class with `bases<B>` converts to `B`; other conversions between these classes are not registered.  A name defined in a
class hides that of its base class.
-/

namespace Verif.Python

open Verif.Kinematics

/-! ## Overloads in general -/

/-- an overload: the class of the right operand and the function that is called -/
structure Overload (C F : Type) where
  arg : C
  fn : F
  deriving DecidableEq

/-- the function Boost.Python calls for an argument of class `c`: `table` has the overloads in the order of the `.def`s; the last one
that matches is used; `none` = no overload matches (`TypeError`) -/
def pyResolve {C F : Type} (isA : C → C → Bool) (table : List (Overload C F)) (c : C) : Option (Overload C F) :=
  table.reverse.find? fun o => isA c o.arg

/-- the function C++ calls: the one that matches and whose parameter converts to the parameter of every other that matches
([over.match.best], for conversions from derived to base classes); `none` = no such function, or ambiguous -/
def cppResolve {C F : Type} (isA : C → C → Bool) (table : List (Overload C F)) (c : C) : Option (Overload C F) :=
  table.find? fun o => isA c o.arg && table.all fun o' => !isA c o'.arg || isA o.arg o'.arg

/-! ## Transformations and points -/

/-- the classes -/
inductive Cls
  | tf | utf | hp | uhp | v3 | other
  deriving DecidableEq, Repr

/-- `bases<…>` (exportTransformation.cpp:67, exportHomogeneousPoint.cpp:28) -/
def Cls.isA (c d : Cls) : Bool := c = d || (c = .utf && d = .tf) || (c = .uhp && d = .hp)

/-- the objects -/
inductive Obj
  | tf (X : Transformation)
  | utf (P : UTransf)
  | hp (p : V4)
  | uhp (P : UPoint)
  /-- a numpy array that converts to `Eigen::Vector3d` -/
  | v3 (p : V3)
  /-- anything else -/
  | other

/-- the class of an object -/
def Obj.cls : Obj → Cls
  | .tf _ => .tf
  | .utf _ => .utf
  | .hp _ => .hp
  | .uhp _ => .uhp
  | .v3 _ => .v3
  | .other => .other

/-- an operator's function: what it computes from two objects whose classes match -/
abbrev Bin := Obj → Obj → Obj

/-- the object as a reference to its (base) class -/
def Obj.asTf : Obj → Transformation
  | .tf X => X
  | .utf P => P.X
  | _ => Transformation.identity
def Obj.asUtf : Obj → UTransf
  | .utf P => P
  | o => ⟨o.asTf, 0⟩
def Obj.asHp : Obj → V4
  | .hp p => p
  | .uhp P => P.p
  | _ => 0
def Obj.asUhp : Obj → UPoint
  | .uhp P => P
  | o => ⟨o.asHp, 0⟩
def Obj.asV3 : Obj → V3
  | .v3 p => p
  | _ => 0

/-- the C++ operators `*`, by the classes of their operands -/
noncomputable def T_T : Bin := fun a b => .tf (a.asTf.mul b.asTf)
noncomputable def T_UT : Bin := fun a b => .utf (a.asTf.mulUT b.asUtf)
def T_HP : Bin := fun a b => .hp (a.asTf.mulHP b.asHp)
def T_UHP : Bin := fun a b => .uhp (a.asTf.mulUP b.asUhp)
def T_V3 : Bin := fun a b => .v3 (a.asTf.mulV3 b.asV3)
noncomputable def UT_UT : Bin := fun a b => .utf (a.asUtf.mul b.asUtf)
noncomputable def UT_T : Bin := fun a b => .utf (a.asUtf.mulT b.asTf)
def UT_HP : Bin := fun a b => .uhp (a.asUtf.mulHP b.asHp)
def UT_UHP : Bin := fun a b => .uhp (a.asUtf.mulUP b.asUhp)
def UT_V3 : Bin := fun a b => .v3 (a.asUtf.X.mulV3 b.asV3)

/-- the members `operator*` of `Transformation` (Transformation.hpp:86-92) and `UncertainTransformation`
(UncertainTransformation.hpp:45-52), without those for `Vector4d` -/
noncomputable def cppMulTable : Cls → List (Overload Cls Bin)
  | .tf => [⟨.tf, T_T⟩, ⟨.v3, T_V3⟩, ⟨.hp, T_HP⟩, ⟨.utf, T_UT⟩, ⟨.uhp, T_UHP⟩]
  | .utf => [⟨.utf, UT_UT⟩, ⟨.tf, UT_T⟩, ⟨.hp, UT_HP⟩, ⟨.v3, UT_V3⟩, ⟨.uhp, UT_UHP⟩]
  | _ => []

/-- the `.def(self * …)` of the two classes (exportTransformation.cpp:53-58, 79-82) -/
noncomputable def pyMulTable : Cls → List (Overload Cls Bin)
  | .tf => [⟨.utf, T_UT⟩, ⟨.tf, T_T⟩, ⟨.uhp, T_UHP⟩, ⟨.hp, T_HP⟩, ⟨.v3, T_V3⟩]
  | .utf => [⟨.utf, UT_UT⟩, ⟨.uhp, UT_UHP⟩, ⟨.hp, UT_HP⟩, ⟨.tf, UT_T⟩]
  | _ => []

/-- the members `operator+` (or `operator-`) of `HomogeneousPoint` (HomogeneousPoint.hpp:50-67) and `UncertainHomogeneousPoint`
(UncertainHomogeneousPoint.hpp:48-63), given the four functions -/
def cppPointTable {F : Type} (pp pu up uu : F) : Cls → List (Overload Cls F)
  | .hp => [⟨.hp, pp⟩, ⟨.uhp, pu⟩]
  | .uhp => [⟨.hp, up⟩, ⟨.uhp, uu⟩]
  | _ => []

/-- the `.def(self + …)`, `.def(self - …)` of the two classes (exportHomogeneousPoint.cpp:18-21, 38-41) -/
def pyPointTable {F : Type} (pp pu up uu : F) : Cls → List (Overload Cls F)
  | .hp => [⟨.hp, pp⟩, ⟨.uhp, pu⟩]
  | .uhp => [⟨.hp, up⟩, ⟨.uhp, uu⟩]
  | _ => []

def P_add_P : Bin := fun a b => .hp (hpAdd a.asHp b.asHp)
def P_add_UP : Bin := fun a b => .uhp (UPoint.hpAddU a.asHp b.asUhp)
def UP_add_P : Bin := fun a b => .uhp (a.asUhp.addHP b.asHp)
def UP_add_UP : Bin := fun a b => .uhp (a.asUhp.add b.asUhp)
def P_sub_P : Bin := fun a b => .hp (hpSub a.asHp b.asHp)
def P_sub_UP : Bin := fun a b => .uhp (UPoint.hpSubU a.asHp b.asUhp)
def UP_sub_P : Bin := fun a b => .uhp (a.asUhp.subHP b.asHp)
def UP_sub_UP : Bin := fun a b => .uhp (a.asUhp.sub b.asUhp)

/-- the call through a table -/
def call (r : Option (Overload Cls Bin)) (a b : Obj) : Option Obj := r.map fun o => o.fn a b

/-- `a * b` in Python; `none` = `TypeError` (no class defines `__rmul__`) -/
noncomputable def pyMul (a b : Obj) : Option Obj := call (pyResolve Cls.isA (pyMulTable a.cls) b.cls) a b
/-- `a * b` in C++, the static types being the classes of the objects; `none` = does not compile -/
noncomputable def cppMul (a b : Obj) : Option Obj := call (cppResolve Cls.isA (cppMulTable a.cls) b.cls) a b
def pyAdd (a b : Obj) : Option Obj := call (pyResolve Cls.isA (pyPointTable P_add_P P_add_UP UP_add_P UP_add_UP a.cls) b.cls) a b
def cppAdd (a b : Obj) : Option Obj := call (cppResolve Cls.isA (cppPointTable P_add_P P_add_UP UP_add_P UP_add_UP a.cls) b.cls) a b
def pySub (a b : Obj) : Option Obj := call (pyResolve Cls.isA (pyPointTable P_sub_P P_sub_UP UP_sub_P UP_sub_UP a.cls) b.cls) a b
def cppSub (a b : Obj) : Option Obj := call (cppResolve Cls.isA (cppPointTable P_sub_P P_sub_UP UP_sub_P UP_sub_UP a.cls) b.cls) a b

/-- the functions registered as `inverse` for a class, in the order of the `.def`s (exportTransformation.cpp:48, 85, 94): for
`UncertainTransformation` its own and then that of the base class -/
noncomputable def pyInverseTable : Cls → List (Obj → Obj)
  | .tf => [fun a => .tf a.asTf.inverse]
  | .utf => [fun a => .utf a.asUtf.inverse, fun a => .tf a.asTf.inverse]
  | _ => []

/-- `a.inverse()` in Python: both overloads take no argument, so the last one registered is used -/
noncomputable def pyInverse (a : Obj) : Option Obj := (pyInverseTable a.cls).getLast?.map fun f => f a
/-- `a.inverse()` in C++ (Transformation.hpp:70-75, not virtual; UncertainTransformation.hpp:55) -/
noncomputable def cppInverse : Obj → Option Obj
  | .tf X => some (.tf X.inverse)
  | .utf P => some (.utf P.inverse)
  | _ => none

/-! ## Pickling -/

open Verif.Serial.Boost

/-- the objects that can be pickled, by their class.  `def_pickle` is in `class_<Transformation>` (exportTransformation.cpp:63); `UncertainTransformation` inherits
its methods -/
inductive PObj (α : Type)
  | tf (X : TransfS α)
  | utf (P : UTransfS α)

variable {α τ : Type}

/-- the state: `getstate(const Transformation &)` (boost_serialization_pickle.hpp:72-80) writes a text archive of the object as a `Transformation` -/
def getState (c : Codec α τ) : PObj α → List (Item τ)
  | .tf X => saveTransf false c X
  | .utf P => saveTransf false c P.base

/-- `setstate(Transformation &, …)` (82-91): the exception and the object afterwards -/
def setState (c : Codec α τ) (junk : Nat → α) (o : PObj α) (s : List (Item τ)) : Option Err × PObj α :=
  match o with
  | .tf X => ((loadTransf false c junk X s).err, .tf (loadTransf false c junk X s).obj)
  | .utf P => ((loadTransf false c junk P.base s).err, .utf ⟨(loadTransf false c junk P.base s).obj, P.U⟩)

/-- the default constructors (Transformation.cpp:17-21, UncertainTransformation.cpp:8-12); `zero` and `one` are the scalars -/
def identityS (zero one : α) : TransfS α := ⟨⟨4, 1, false, [zero, zero, zero, one]⟩, ⟨3, 1, false, [zero, zero, zero]⟩⟩
def fresh (zero one : α) : PObj α → PObj α
  | .tf _ => .tf (identityS zero one)
  | .utf _ => .utf ⟨identityS zero one, ⟨6, 6, false, List.replicate 36 zero⟩⟩

/-- `pickle.loads(pickle.dumps(o))`: the class of the object is constructed without arguments (`getinitargs`, 64-70) and given the
state -/
def pickled (c : Codec α τ) (junk : Nat → α) (zero one : α) (o : PObj α) : Option Err × PObj α :=
  setState c junk (fresh zero one o) (getState c o)

end Verif.Python
