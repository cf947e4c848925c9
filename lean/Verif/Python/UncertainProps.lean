import Verif.Python.Uncertain

/-!
# C156: Python's operators on uncertain vectors and scalars
-/

namespace Verif.Python.Uncertain

open Verif.Kinematics

/-- the objects a Python program can have: vectors of the exported sizes -/
def Obj.inPython : Obj → Prop
  | .uv n _ => exported n
  | .objs _ _ => False
  | _ => True

/-- what users expect: an expression that C++ accepts has the same value in Python -/
def C156_claim : Prop := ∀ (op : Op) (a b r : Obj), a.inPython → b.inPython → cppOp op a b = some r → pyOp op a b = some r

theorem direct_us_uv (op : Op) (s : UScalar) (n : ℕ) (a : UVec n) : pyDirect op (.us s) (.uv n a) = none := by
  unfold pyDirect
  rw [if_neg (by cases op <;> simp [registered, Obj.kind])]

/-- **C156** that is false: an uncertain scalar times an uncertain vector is a `TypeError`. -/
theorem C156_negation : ¬ C156_claim := by
  intro h
  have := h .mul (.us ⟨2, 1⟩) (.uv 3 .zero) _ trivial (by show exported 3; decide) rfl
  simp [pyOp, direct_us_uv] at this

/-- the expressions that Python does not take from C++: a scalar times an uncertain vector or an array, a matrix times an uncertain vector -/
def Missing (op : Op) (a b : Obj) : Prop :=
  op = .mul ∧ ((∃ s n w, a = .us s ∧ b = .uv n w) ∨ (∃ s n w, a = .us s ∧ b = .vec n w) ∨ (∃ m M n w, a = .mat m M ∧ b = .uv n w))

/-- the expressions in which NumPy takes over: the right operand is an array for which the class has no operator -/
def Arrays (op : Op) (a b : Obj) : Prop :=
  (∃ n u m w, a = .uv n u ∧ b = .vec m w ∧ op = .mul) ∨ (∃ s m w, a = .us s ∧ b = .vec m w) ∨ (∃ n u w, a = .uv n u ∧ b = .vec 0 w)

/-- **C156, what holds**: apart from those, Python gives what C++ gives, and a `TypeError` where C++ does not compile. -/
theorem C156_partial (op : Op) (a b : Obj) (ha : a.inPython) (hb : b.inPython) (hm : ¬ Missing op a b) (hn : ¬ Arrays op a b) : pyOp op a b = cppOp op a b := by
  rcases a with ⟨n, a⟩ | s | ⟨n, w⟩ | x | ⟨n, M⟩ | ⟨n, f⟩ <;> rcases b with ⟨m, b⟩ | t | ⟨m, z⟩ | y | ⟨m, N⟩ | ⟨m, g⟩
  case uv.uv =>
    have ha' : exported n := ha
    by_cases h : m = n
    · subst h; cases op <;> simp [pyOp, pyDirect, registered, Obj.kind, ha', cppOp]
    · cases op <;> simp [pyOp, pyDirect, registered, Obj.kind, ha', cppOp, h]
  case uv.vec =>
    have ha' : exported n := ha
    have hm0 : m ≠ 0 := by
      rintro rfl
      exact hn (.inr (.inr ⟨n, a, z, rfl, rfl⟩))
    have hg : ∀ op' : Op, op' ≠ .mul → gather m (fun i => pyDirect op' (.uv n a) (.num (z i))) = none := by
      intro op' hop
      unfold gather
      rw [if_neg]
      intro hall
      have := hall ⟨0, Nat.pos_of_ne_zero hm0⟩
      cases op' <;> simp [pyDirect, registered, Obj.kind, ha'] at this
      exact hop rfl
    by_cases hop : op = .mul
    · exact absurd (.inl ⟨n, a, m, z, rfl, rfl, hop⟩) hn
    · by_cases h : m = n
      · subst h
        have e := hg op hop
        cases op
        · simp [pyOp, pyDirect, registered, Obj.kind, ha', cppOp]
        · simp [pyOp, pyDirect, registered, Obj.kind, ha', cppOp]
        · exact absurd rfl hop
        · have : pyDirect .div (.uv m a) (.vec m z) = none := by simp [pyDirect, registered, Obj.kind, ha']
          simp only [pyOp, this, e, cppOp]
      · have : pyDirect op (.uv n a) (.vec m z) = none := by
          cases op <;> simp [pyDirect, registered, Obj.kind, ha', h]
        simp only [pyOp, this, hg op hop]
        cases op <;> simp [cppOp, h]
  case us.uv =>
    cases op
    case mul => exact absurd ⟨rfl, .inl ⟨s, m, b, rfl, rfl⟩⟩ hm
    all_goals simp [pyOp, pyDirect, registered, Obj.kind, cppOp]
  case us.vec => exact absurd (.inr (.inl ⟨s, m, z, rfl, rfl⟩)) hn
  case mat.uv =>
    cases op
    case mul => exact absurd ⟨rfl, .inr (.inr ⟨n, M, m, b, rfl, rfl⟩)⟩ hm
    all_goals simp [pyOp, pyDirect, registered, Obj.kind, cppOp]
  case uv.us => have ha' : exported n := ha; cases op <;> simp [pyOp, pyDirect, registered, Obj.kind, ha', cppOp]
  case uv.num => have ha' : exported n := ha; cases op <;> simp [pyOp, pyDirect, registered, Obj.kind, ha', cppOp]
  case uv.mat => have ha' : exported n := ha; cases op <;> simp [pyOp, pyDirect, registered, Obj.kind, ha', cppOp]
  case uv.objs => exact hb.elim
  case us.objs => exact hb.elim
  case vec.objs => exact hb.elim
  case num.objs => exact hb.elim
  case mat.objs => exact hb.elim
  case objs.uv => exact ha.elim
  case objs.us => exact ha.elim
  case objs.vec => exact ha.elim
  case objs.num => exact ha.elim
  case objs.mat => exact ha.elim
  case objs.objs => exact ha.elim
  all_goals cases op <;> simp [pyOp, pyDirect, registered, Obj.kind, cppOp]

/-- **C156, what holds** of the missing expressions: `s * v` and `M * v` are errors, but `v * s` is what `s * v` is in C++. -/
theorem C156_missing_partial (s : UScalar) (n : ℕ) (v : UVec n) (hn : exported n) (m : ℕ) (M : Matrix (Fin m) (Fin m) ℝ) :
    pyOp .mul (.us s) (.uv n v) = none ∧ pyOp .mul (.mat m M) (.uv n v) = none ∧
    pyOp .mul (.uv n v) (.us s) = cppOp .mul (.us s) (.uv n v) ∧ (cppOp .mul (.us s) (.uv n v)).isSome := by
  refine ⟨?_, ?_, ?_, rfl⟩
  · simp [pyOp, direct_us_uv]
  · simp [pyOp, pyDirect, registered, Obj.kind]
  · simp [pyOp, pyDirect, registered, Obj.kind, hn, cppOp]

/-- **C156, what holds** of the values: every operator that Python has gives the sum, difference, product or quotient of the values of its operands. -/
theorem C156_values_partial (n : ℕ) (hn : exported n) (a b : UVec n) (w : Fin n → ℝ) (s t : UScalar) (x : ℝ) :
    (∃ r, pyOp .add (.uv n a) (.uv n b) = some (.uv n r) ∧ r.v = a.v + b.v) ∧
    (∃ r, pyOp .sub (.uv n a) (.uv n b) = some (.uv n r) ∧ r.v = a.v - b.v) ∧
    (∃ r, pyOp .add (.uv n a) (.vec n w) = some (.uv n r) ∧ r.v = a.v + w) ∧
    (∃ r, pyOp .sub (.uv n a) (.vec n w) = some (.uv n r) ∧ r.v = a.v - w) ∧
    (∃ r, pyOp .mul (.uv n a) (.us s) = some (.uv n r) ∧ r.v = s.v • a.v) ∧
    (∃ r, pyOp .mul (.uv n a) (.num x) = some (.uv n r) ∧ r.v = x • a.v) ∧
    (∃ r, pyOp .add (.us s) (.us t) = some (.us r) ∧ r.v = s.v + t.v) ∧
    (∃ r, pyOp .add (.us s) (.num x) = some (.us r) ∧ r.v = s.v + x) ∧
    (∃ r, pyOp .sub (.us s) (.us t) = some (.us r) ∧ r.v = s.v - t.v) ∧
    (∃ r, pyOp .sub (.us s) (.num x) = some (.us r) ∧ r.v = s.v - x) ∧
    (∃ r, pyOp .mul (.us s) (.us t) = some (.us r) ∧ r.v = s.v * t.v) ∧
    (∃ r, pyOp .mul (.us s) (.num x) = some (.us r) ∧ r.v = s.v * x) ∧
    (∃ r, pyOp .div (.us s) (.us t) = some (.us r) ∧ r.v = s.v / t.v) ∧
    (∃ r, pyOp .div (.us s) (.num x) = some (.us r) ∧ r.v = s.v / x) := by
  refine ⟨?_, ?_, ?_, ?_, ?_, ?_, ?_, ?_, ?_, ?_, ?_, ?_, ?_, ?_⟩
  all_goals
    refine ⟨_, by simp only [pyOp, pyDirect, registered, Obj.kind, hn, cppOp]; simp [castU, castVec]; rfl, ?_⟩
    first
    | rfl
    | simp [UVec.add, UVec.sub, UVec.addV, UVec.subV, UVec.mulS, UVec.scale, UScalar.add, UScalar.sub, UScalar.mul, UScalar.div, UScalar.addC, UScalar.subC, UScalar.mulC, UScalar.divC]

/-- **C156, what holds** of a scalar times an array `w`: the result in Python is an array of scalars, which have the values and variances of the entries of the uncertain vector that C++ gives,
but the covariances between the entries are lost; and that of an uncertain vector times an array is an array of the multiples. -/
theorem C156_arrays_partial (s : UScalar) (m : ℕ) (w : Fin m → ℝ) :
    (∃ f : Fin m → UScalar, pyOp .mul (.us s) (.vec m w) = some (.objs m fun i => .us (f i)) ∧
      ∃ u : UVec m, cppOp .mul (.us s) (.vec m w) = some (.uv m u) ∧ (∀ i, (f i).v = u.v i ∧ (f i).E = u.E i i)) ∧
    (∀ (n : ℕ) (v : UVec n), exported n → pyOp .mul (.uv n v) (.vec m w) = some (.objs m fun i => .uv n (v.scale (w i))) ∧
      cppOp .mul (.uv n v) (.vec m w) = none) := by
  refine ⟨⟨fun i => s.mulC (w i), ?_, s.mulVec w, rfl, ?_⟩, ?_⟩
  · simp [pyOp, pyDirect, registered, Obj.kind, gather, cppOp]
  · intro i
    refine ⟨by simp [UScalar.mulC, UScalar.mulVec], ?_⟩
    simp [UScalar.mulC, UScalar.mulVec, Matrix.vecMulVec]
    ring
  · intro n v hn
    refine ⟨?_, rfl⟩
    simp [pyOp, pyDirect, registered, Obj.kind, hn, gather, cppOp]

/-- Concrete: (1, 2, 3) with variances 1, plus itself. -/
example : pyOp .add (.uv 3 ⟨![1, 2, 3], 1⟩) (.uv 3 ⟨![1, 2, 3], 1⟩) = some (.uv 3 ⟨![1, 2, 3] + ![1, 2, 3], 1 + 1⟩) :=
  C156_partial .add (.uv 3 ⟨![1, 2, 3], 1⟩) (.uv 3 ⟨![1, 2, 3], 1⟩) (by show exported 3; decide) (by show exported 3; decide)
    (by rintro ⟨h, -⟩; cases h) (by rintro (⟨_, _, _, _, _, h, _⟩ | ⟨_, _, _, h, _⟩ | ⟨_, _, _, _, h⟩) <;> cases h)

end Verif.Python.Uncertain
