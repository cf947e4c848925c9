import Verif.Kinematics.Uncertain

/-!
# Model of the Python classes of uncertain vectors (`sm_python/src/exportUncertainVector.cpp`)

`exportUncertainVector` (106-117) defines the classes `UncertainScalar` and `UncertainVector2` … `UncertainVector6`.  An operator of such a class whose overloads do not
match the right operand returns `NotImplemented`; Python then asks the right operand.  The classes have no reflected operators, so this fails
(`TypeError`) unless the right operand is a NumPy array, which applies the operator to the left operand and each of its entries and makes an array of the
results.  Two-dimensional arrays as right operands, and arrays of objects as operands, are not modelled.  Arithmetic is exact.
-/

namespace Verif.Python.Uncertain

open Verif.Kinematics

/-- the objects -/
inductive Obj
  /-- `UncertainVector<n>` -/
  | uv (n : ℕ) (a : UVec n)
  /-- `UncertainVector<1>`, in Python `UncertainScalar` -/
  | us (s : UScalar)
  /-- `Eigen::Matrix<double, n, 1>`, in Python an array of `n` floats -/
  | vec (n : ℕ) (w : Fin n → ℝ)
  /-- a `double` -/
  | num (x : ℝ)
  /-- `Eigen::Matrix<double, n, n>`, in Python a two-dimensional array -/
  | mat (n : ℕ) (M : Matrix (Fin n) (Fin n) ℝ)
  /-- an array of objects, only in Python -/
  | objs (n : ℕ) (f : Fin n → Obj)

/-- the binary operators -/
inductive Op
  | add | sub | mul | div
  deriving DecidableEq

/-- the sizes for which there are classes in Python (exportUncertainVector.cpp:112-116) -/
def exported (n : ℕ) : Prop := 2 ≤ n ∧ n ≤ 6

instance (n : ℕ) : Decidable (exported n) := inferInstanceAs (Decidable (_ ∧ _))

/-- a vector of size `m` read as one of size `n` -/
def castVec {m n : ℕ} (h : m = n) (w : Fin m → ℝ) : Fin n → ℝ := h ▸ w
def castU {m n : ℕ} (h : m = n) (a : UVec m) : UVec n := h ▸ a

/-- the operators of C++ (UncertainVector.hpp:60-67, 153-168, 230-231); `none` = the expression does not compile -/
noncomputable def cppOp : Op → Obj → Obj → Option Obj
  | .add, .uv n a, .uv m b => if h : m = n then some (.uv n (a.add (castU h b))) else none
  | .sub, .uv n a, .uv m b => if h : m = n then some (.uv n (a.sub (castU h b))) else none
  | .add, .uv n a, .vec m w => if h : m = n then some (.uv n (a.addV (castVec h w))) else none
  | .sub, .uv n a, .vec m w => if h : m = n then some (.uv n (a.subV (castVec h w))) else none
  | .mul, .uv n a, .us s => some (.uv n (a.mulS s))
  | .mul, .uv n a, .num x => some (.uv n (a.scale x))
  | .add, .us s, .us t => some (.us (s.add t))
  | .sub, .us s, .us t => some (.us (s.sub t))
  | .mul, .us s, .us t => some (.us (s.mul t))
  | .div, .us s, .us t => some (.us (s.div t))
  | .add, .us s, .num x => some (.us (s.addC x))
  | .sub, .us s, .num x => some (.us (s.subC x))
  | .mul, .us s, .num x => some (.us (s.mulC x))
  | .div, .us s, .num x => some (.us (s.divC x))
  | .mul, .us s, .uv n a => some (.uv n (a.mulS s))
  | .mul, .us s, .vec n w => some (.uv n (s.mulVec w))
  | .mul, .mat m M, .uv n a => if h : n = m then some (.uv m (UVec.mulM M (castU h a))) else none
  | _, _, _ => none

/-- the kinds of objects, as the `.def`s see them -/
inductive Kind
  | uv (n : ℕ) | us | vec (n : ℕ) | num | mat (n : ℕ) | objs (n : ℕ)
  deriving DecidableEq

def Obj.kind : Obj → Kind
  | .uv n _ => .uv n
  | .us _ => .us
  | .vec n _ => .vec n
  | .num _ => .num
  | .mat n _ => .mat n
  | .objs n _ => .objs n

/-- the operators registered with `.def(self ∘ …)` in the class of `n`-vectors (exportUncertainVector.cpp:46-57) and of scalars (91-100) -/
def registered : Kind → List (Op × Kind)
  | .uv n => if exported n then [(.add, .uv n), (.sub, .uv n), (.add, .vec n), (.sub, .vec n), (.mul, .us), (.mul, .num)] else []
  | .us => [(.add, .us), (.sub, .us), (.mul, .us), (.div, .us), (.add, .num), (.sub, .num), (.mul, .num), (.div, .num)]
  | _ => []

/-- a registered operator calls the C++ operator for the same operands; `none` = `NotImplemented` -/
noncomputable def pyDirect (op : Op) (a b : Obj) : Option Obj :=
  if (op, b.kind) ∈ registered a.kind then cppOp op a b else none

/-- the objects of an array in which every entry is one -/
noncomputable def gather (n : ℕ) (f : Fin n → Option Obj) : Option Obj :=
  if ∀ i, (f i).isSome then some (.objs n fun i => (f i).getD (.num 0)) else none

/-- the operators of Python; `none` = `TypeError` -/
noncomputable def pyOp (op : Op) (a b : Obj) : Option Obj :=
  match pyDirect op a b with
  | some r => some r
  | none =>
    match a, b with
    | .uv n u, .vec m w => gather m fun i => pyDirect op (.uv n u) (.num (w i))
    | .us s, .vec m w => gather m fun i => pyDirect op (.us s) (.num (w i))
    | _, _ => none

end Verif.Python.Uncertain
