import Verif.Matlab.Model
import Mathlib.Tactic.SplitIfs
import Mathlib.Data.List.Range
import Mathlib.Data.List.TakeWhile

/-!
# C97–C102: the MATLAB interface
-/

namespace Verif.Matlab

variable {D : Type}

/-! ## C97: what is put is got -/

/-- the variable a world has for the user: only a living MATLAB has variables -/
def W.var (w : W D) (name : Str) : Option (Mx D) := if w.alive then w.vars name else none

theorem getVariable_fst (name : Str) (w : W D) : (getVariable name w).1 = w.var name := by
  unfold getVariable W.var
  split
  · split <;> simp_all
  · rfl

theorem getVariable_owned (name : Str) (w : W D) :
    (getVariable name w).2 = { w with owned := w.owned + if (w.var name).isSome then 1 else 0 } := by
  unfold getVariable W.var
  by_cases ha : w.alive = true
  · rw [if_pos ha, if_pos ha]
    cases hv : w.vars name <;> rfl
  · rw [if_neg ha, if_neg ha]
    rfl

/-- the full claim: whatever was put into a living engine under an acceptable name is got back -/
def C97_claim : Prop :=
  ∀ (c : Dbl Int) (junk : Int) (w : W Int) (name : Str), w.alive = true → nameOk name = true →
    (∀ (x r : Int), (getDouble c .valid name r (putScalar .valid name x w).2).1 = .ok (true, x)) ∧
    (∀ (b r : Bool), (getBool .valid name r (putBool .valid name b w).2).1 = .ok (true, b)) ∧
    (∀ (s r : Str), (getString .valid name r (putString .valid name s w).2).1 = .ok (true, s)) ∧
    (∀ (m r : Mat Int), m.data.length = m.rows * m.cols →
      (getEigen c junk .valid name r (putEigen .valid name m w).2).1 = (.ok true, m))

theorem putMx_ok (w : W D) (name : Str) (m : Mx D) (ha : w.alive = true) (hn : nameOk name = true) :
    putMx .valid name m w = (.ok (), { w with vars := fun n => if n = name then some m else w.vars n }) := by
  simp [putMx, guarded, hn, ha, destroy]

/-- **C97** The part that holds: scalars, booleans, non-empty strings without zero characters and non-empty matrices come back; all
other variables are as before. -/
theorem C97_partial (c : Dbl D) (junk : D) (w : W D) (name : Str) (ha : w.alive = true) (hn : nameOk name = true) :
    (∀ x r, (getDouble c .valid name r (putScalar .valid name x w).2).1 = .ok (true, x)) ∧
    (∀ b r, (getBool .valid name r (putBool .valid name b w).2).1 = .ok (true, b)) ∧
    (∀ s r, s ≠ [] → Char.ofNat 0 ∉ s → (getString .valid name r (putString .valid name s w).2).1 = .ok (true, s)) ∧
    (∀ m r, m.data.length = m.rows * m.cols → 0 < m.rows → 0 < m.cols →
      (getEigen c junk .valid name r (putEigen .valid name m w).2).1 = (.ok true, m)) ∧
    (∀ m, (putMx .valid name m w).1 = .ok () ∧ (putMx .valid name m w).2.alive = true ∧
      ∀ n, n ≠ name → (putMx .valid name m w).2.vars n = w.vars n) := by
  refine ⟨fun x r => ?_, fun b r => ?_, fun s r hs h0 => ?_, fun m r hl hr hc => ?_, fun m => ?_⟩
  · rw [putScalar, putMx_ok w name _ ha hn]
    simp [getDouble, guarded, hn, getVariable, ha, Mx.isNumeric, Mx.isEmpty, Mx.dims, Mx.numel, Mx.scalar]
  · rw [putBool, putMx_ok w name _ ha hn]
    simp [getBool, guarded, hn, getVariable, ha]
  · have ht : s.takeWhile (· ≠ Char.ofNat 0) = s := by
      rw [List.takeWhile_eq_self_iff]
      intro d hd
      simpa using fun h : d = Char.ofNat 0 => h0 (h ▸ hd)
    rw [putString, ht]
    simp only [if_neg hs]
    rw [putMx_ok w name _ ha hn]
    have : s.length ≠ 0 := by simpa using hs
    simp only [getString, guarded, hn, getVariable, ha, Mx.isEmpty, Mx.dims]
    have ht' : s.takeWhile (fun x => !decide (x = Char.ofNat 0)) = s := by simpa using ht
    simp [this, ht']
  · rw [putEigen, putMx_ok w name _ ha hn]
    have h1 : m.rows ≠ 0 := by omega
    have h2 : m.cols ≠ 0 := by omega
    simp [getEigen, hn, getVariable, ha, Mx.isNumeric, Mx.isEmpty, Mx.dims, Mx.elementSize, Mx.raw, h1, h2]
  · rw [putMx_ok w name _ ha hn]
    exact ⟨rfl, ha, fun n h => by simp [h]⟩

/-- **C97** The full claim is false: an empty string and a matrix without elements throw when they are read back, and a string is cut at a
zero character. -/
theorem C97_negation : ¬ C97_claim ∧
    (∀ (w : W D) (name r : Str), w.alive = true → nameOk name = true →
      (getString .valid name r (putString .valid name [] w).2).1 = .threw .empty) ∧
    (∀ (c : Dbl D) (junk : D) (w : W D) (name : Str) (r : Mat D) (n : Nat), w.alive = true → nameOk name = true →
      (getEigen c junk .valid name r (putEigen .valid name ⟨0, n, []⟩ w).2).1 = (.threw .empty, r)) := by
  have h1 : ∀ {E : Type} (w : W E) (name r : Str), w.alive = true → nameOk name = true →
      (getString .valid name r (putString .valid name [] w).2).1 = .threw .empty := by
    intro E w name r ha hn
    rw [putString]
    simp only [List.takeWhile_nil, if_true]
    rw [putMx_ok w name _ ha hn]
    simp [getString, guarded, hn, getVariable, ha, Mx.isEmpty, Mx.dims]
  refine ⟨fun hc => ?_, h1, ?_⟩
  · have := (hc ⟨id, id⟩ 0 ⟨fun _ => none, true, 0⟩ ['x'] rfl (by decide)).2.2.1 [] []
    rw [h1 _ _ _ rfl (by decide)] at this
    simp at this
  · intro c junk w name r n ha hn
    rw [putEigen, putMx_ok w name _ ha hn]
    simp [getEigen, hn, getVariable, ha, Mx.isNumeric, Mx.isEmpty, Mx.dims]

example : nameOk "x_1".toList = true ∧
    (getDouble (⟨id, id⟩ : Dbl Int) .valid "x_1".toList 0 (putScalar .valid "x_1".toList 7 ⟨fun _ => none, true, 0⟩).2).1 = .ok (true, 7) :=
  ⟨by decide, (C97_partial ⟨id, id⟩ 0 ⟨fun _ => none, true, 0⟩ "x_1".toList rfl (by decide)).1 7 0⟩

/-! ## C98: getters return the value of the variable -/

/-- the full claim: a getter that returns true yields the variable's value, and a getter that throws leaves its argument alone -/
def C98_claim : Prop :=
  ∀ (c : Dbl Int) (junk : Int) (w : W Int) (name : Str) (r : Mat Int),
    (∀ m, (getEigen c junk .valid name r w).1 = (.ok true, m) →
      w.var name = some (.double [m.rows, m.cols] m.data none) ∨
        ∃ v, w.var name = some (.int64 [m.rows, m.cols] v) ∧ m.data = v.map c.ofInt) ∧
    (∀ e, (getEigen c junk .valid name r w).1.1 = .threw e → (getEigen c junk .valid name r w).1.2 = r)

/-- **C98** The full claim is false: the elements of a 64-bit integer variable are reinterpreted as doubles; the imaginary part of a complex variable is
dropped; for elements of another size the matrix has already been resized when the exception is thrown. -/
theorem C98_negation : ¬ C98_claim ∧
    (∀ (c : Dbl D) (junk : D) (w : W D) (name : Str) (r : Mat D) (a b : Nat) (v : List Int), nameOk name = true →
      w.var name = some (.int64 [a, b] v) → 0 < a → 0 < b → (getEigen c junk .valid name r w).1 = (.ok true, ⟨a, b, v.map c.bits⟩)) ∧
    (∀ (c : Dbl D) (junk : D) (w : W D) (name : Str) (r : Mat D) (a b : Nat) (re im : List D), nameOk name = true →
      w.var name = some (.double [a, b] re (some im)) → 0 < a → 0 < b → (getEigen c junk .valid name r w).1 = (.ok true, ⟨a, b, re⟩)) ∧
    (∀ (c : Dbl D) (junk : D) (w : W D) (name : Str) (r : Mat D) (a b s : Nat) (v : List D), nameOk name = true → s ≠ 8 →
      w.var name = some (.small s [a, b] v) → 0 < a → 0 < b →
      (getEigen c junk .valid name r w).1.1 = .threw .invalidType ∧ (getEigen c junk .valid name r w).1.2.rows = a ∧
      (getEigen c junk .valid name r w).1.2.cols = b) := by
  have h1 : ∀ {E : Type} (c : Dbl E) (junk : E) (w : W E) (name : Str) (r : Mat E) (a b : Nat) (v : List Int), nameOk name = true →
      w.var name = some (.int64 [a, b] v) → 0 < a → 0 < b → (getEigen c junk .valid name r w).1 = (.ok true, ⟨a, b, v.map c.bits⟩) := by
    intro E c junk w name r a b v hn hv ha hb
    have h1 : a ≠ 0 := by omega
    have h2 : b ≠ 0 := by omega
    simp [getEigen, hn, getVariable_fst, hv, Mx.isNumeric, Mx.isEmpty, Mx.dims, Mx.elementSize, Mx.raw, h1, h2]
  refine ⟨fun hc => ?_, h1, ?_, ?_⟩
  · have := (hc ⟨id, fun n => n + 1⟩ 0 ⟨fun _ => some (.int64 [1, 1] [5]), true, 0⟩ ['x'] ⟨0, 0, []⟩).1 _
      (h1 ⟨id, fun n => n + 1⟩ 0 _ ['x'] _ 1 1 [5] (by decide) rfl (by omega) (by omega))
    simp [W.var] at this
  · intro c junk w name r a b re im hn hv ha hb
    have h1 : a ≠ 0 := by omega
    have h2 : b ≠ 0 := by omega
    simp [getEigen, hn, getVariable_fst, hv, Mx.isNumeric, Mx.isEmpty, Mx.dims, Mx.elementSize, Mx.raw, h1, h2]
  · intro c junk w name r a b s v hn hs hv ha hb
    have h1 : a ≠ 0 := by omega
    have h2 : b ≠ 0 := by omega
    simp [getEigen, hn, getVariable_fst, hv, Mx.isNumeric, Mx.isEmpty, Mx.dims, Mx.elementSize, h1, h2, hs]

/-- **C98** What holds.  The getters return false exactly if there is no such variable (their argument is then unchanged).  A scalar getter
that returns true has read a variable of the right kind with exactly one element; other kinds throw `InvalidTypeException`.  For real
double variables the values are exact. -/
theorem C98_partial (c : Dbl D) (junk : D) (w : W D) (name : Str) (hn : nameOk name = true) :
    (∀ r v, (getDouble c .valid name r w).1 = .ok (false, v) ↔ w.var name = none ∧ v = r) ∧
    (∀ r v, (getBool .valid name r w).1 = .ok (false, v) ↔ w.var name = none ∧ v = r) ∧
    (∀ r v, (getString .valid name r w).1 = .ok (false, v) ↔ w.var name = none ∧ v = r) ∧
    (∀ r m, (getEigen c junk .valid name r w).1 = (.ok false, m) ↔ w.var name = none ∧ m = r) ∧
    (∀ r x, w.var name = some (.double [1, 1] [x] none) → (getDouble c .valid name r w).1 = .ok (true, x)) ∧
    (∀ r x, w.var name = some (.int64 [1, 1] [x]) → (getDouble c .valid name r w).1 = .ok (true, c.ofInt x)) ∧
    (∀ r v, (getDouble c .valid name r w).1 = .ok (true, v) → ∃ m, w.var name = some m ∧ m.isNumeric = true ∧ m.numel = 1) ∧
    (∀ r v, (getBool .valid name r w).1 = .ok (true, v) → ∃ d b, w.var name = some (.logical d b) ∧ d.prod = 1 ∧ v = b.headD r) ∧
    (∀ r v, (getString .valid name r w).1 = .ok (true, v) →
      ∃ d s, w.var name = some (.char d s) ∧ v = s.takeWhile (· ≠ Char.ofNat 0)) ∧
    (∀ r a b re, w.var name = some (.double [a, b] re none) → 0 < a → 0 < b →
      (getEigen c junk .valid name r w).1 = (.ok true, ⟨a, b, re⟩)) ∧
    (∀ m, w.var name = some m → (m.isNumeric = false → ∀ r, (getDouble c .valid name r w).1 = .threw .invalidType) ∧
      (m.isLogical = false → ∀ r, (getBool .valid name r w).1 = .threw .invalidType) ∧
      (m.isChar = false → m.isEmpty = false → ∀ r, (getString .valid name r w).1 = .threw .invalidType)) := by
  refine ⟨?_, ?_, ?_, ?_, ?_, ?_, ?_, ?_, ?_, ?_, ?_⟩
  · intro r v
    simp only [getDouble, guarded, hn, getVariable_fst]
    cases w.var name with
    | none => simp [eq_comm]
    | some m =>
      simp only [reduceCtorEq, if_false, Bool.not_true, Bool.false_eq_true, false_and, iff_false]
      split_ifs <;> simp
  · intro r v
    simp only [getBool, guarded, hn, getVariable_fst]
    cases w.var name with
    | none => simp [eq_comm]
    | some m =>
      cases m <;> simp
      split_ifs <;> simp
  · intro r v
    simp only [getString, guarded, hn, getVariable_fst]
    cases w.var name with
    | none => simp [eq_comm]
    | some m =>
      cases m <;> simp only [reduceCtorEq, if_false, Bool.not_true, Bool.false_eq_true, false_and, iff_false] <;> split_ifs <;> simp
  · intro r m
    simp only [getEigen, hn, getVariable_fst]
    cases w.var name with
    | none => simp [eq_comm]
    | some m =>
      simp only [reduceCtorEq, if_false, Bool.not_true, Bool.false_eq_true, false_and, iff_false]
      split_ifs <;> simp
  · intro r x h
    simp [getDouble, guarded, hn, getVariable_fst, h, Mx.isNumeric, Mx.isEmpty, Mx.dims, Mx.numel, Mx.scalar]
  · intro r x h
    simp [getDouble, guarded, hn, getVariable_fst, h, Mx.isNumeric, Mx.isEmpty, Mx.dims, Mx.numel, Mx.scalar]
  · intro r v
    simp only [getDouble, guarded, hn, getVariable_fst]
    cases w.var name with
    | none => simp
    | some m =>
      simp only [reduceCtorEq, if_false, Bool.not_true, Bool.false_eq_true]
      intro h
      refine ⟨m, rfl, ?_⟩
      split_ifs at h with h1 h2 h3 <;> simp_all
  · intro r v
    simp only [getBool, guarded, hn, getVariable_fst]
    cases w.var name with
    | none => simp
    | some m =>
      cases m <;> simp
      rename_i d b
      intro h
      split_ifs at h with h1 h2 <;> simp_all
  · intro r v
    simp only [getString, guarded, hn, getVariable_fst]
    cases w.var name with
    | none => simp
    | some m =>
      cases m <;> simp only [reduceCtorEq, if_false, Bool.not_true, Bool.false_eq_true] <;> intro h <;> split_ifs at h with h1 <;> simp_all
  · intro r a b re h ha hb
    have h1 : a ≠ 0 := by omega
    have h2 : b ≠ 0 := by omega
    simp [getEigen, hn, getVariable_fst, h, Mx.isNumeric, Mx.isEmpty, Mx.dims, Mx.elementSize, Mx.raw, h1, h2]
  · intro m h
    refine ⟨fun hm r => ?_, fun hm r => ?_, fun hm he r => ?_⟩
    · simp [getDouble, guarded, hn, getVariable_fst, h, hm]
    · simp only [getBool, guarded, hn, getVariable_fst, h]
      cases m <;> simp_all [Mx.isLogical]
    · simp only [getString, guarded, hn, getVariable_fst, h]
      cases m <;> simp_all [Mx.isChar]

/-- **C98** Which exception: an existing variable of the right kind is refused as empty exactly if one of its dimensions is zero, and as
no scalar exactly if none is zero and the number of elements is not one; any other kind is refused as the wrong type.  Strings are checked
for emptiness first. -/
theorem C98_exceptions_partial (c : Dbl D) (w : W D) (name : Str) (hn : nameOk name = true) (m : Mx D) (hm : w.var name = some m) :
    (∀ r, (getDouble c .valid name r w).1 = .threw .empty ↔ m.isNumeric = true ∧ 0 ∈ m.dims) ∧
    (∀ r, (getDouble c .valid name r w).1 = .threw .invalidType ↔ m.isNumeric = false ∨ 0 ∉ m.dims ∧ m.dims.prod ≠ 1) ∧
    (∀ r, (getBool .valid name r w).1 = .threw .empty ↔ m.isLogical = true ∧ 0 ∈ m.dims) ∧
    (∀ r, (getBool .valid name r w).1 = .threw .invalidType ↔ m.isLogical = false ∨ 0 ∉ m.dims ∧ m.dims.prod ≠ 1) ∧
    (∀ r, (getString .valid name r w).1 = .threw .empty ↔ 0 ∈ m.dims) ∧
    (∀ r, (getString .valid name r w).1 = .threw .invalidType ↔ 0 ∉ m.dims ∧ m.isChar = false) := by
  have he : ∀ d : List Nat, d.any (· = 0) = true ↔ 0 ∈ d := by simp
  refine ⟨?_, ?_, ?_, ?_, ?_, ?_⟩ <;> intro r
  · simp only [getDouble, guarded, hn, getVariable_fst, hm, Mx.isEmpty, Mx.numel, he]
    cases m.isNumeric <;> by_cases h : 0 ∈ m.dims <;> by_cases h1 : m.dims.prod = 1 <;> simp [h, h1]
  · simp only [getDouble, guarded, hn, getVariable_fst, hm, Mx.isEmpty, Mx.numel, he]
    cases m.isNumeric <;> by_cases h : 0 ∈ m.dims <;> by_cases h1 : m.dims.prod = 1 <;> simp [h, h1]
  · simp only [getBool, guarded, hn, getVariable_fst, hm]
    cases m <;> simp [Mx.isLogical, Mx.dims]
    rename_i d b
    by_cases h : 0 ∈ d <;> by_cases h1 : d.prod = 1 <;> simp [h, h1]
  · simp only [getBool, guarded, hn, getVariable_fst, hm]
    cases m <;> simp [Mx.isLogical, Mx.dims]
    rename_i d b
    by_cases h : 0 ∈ d <;> by_cases h1 : d.prod = 1 <;> simp [h, h1]
  · simp only [getString, guarded, hn, getVariable_fst, hm, Mx.isEmpty, he]
    by_cases h : 0 ∈ m.dims
    · simp [h]
    · cases m <;> simp_all
  · simp only [getString, guarded, hn, getVariable_fst, hm, Mx.isEmpty, he]
    by_cases h : 0 ∈ m.dims
    · simp [h]
    · cases m <;> simp_all [Mx.isChar]

example : ∃ w : W Int, w.var ['x'] = some (.logical [2, 0] []) ∧ (getBool .valid ['x'] true w).1 = .threw .empty :=
  ⟨⟨fun _ => some (.logical [2, 0] []), true, 0⟩, rfl,
    ((C98_exceptions_partial ⟨id, id⟩ _ ['x'] (by decide) _ rfl).2.2.1 true).2 ⟨rfl, by decide⟩⟩

example : ∃ w : W Int, w.var ['x'] = some (.double [2, 1] [3, 4] none) ∧ nameOk ['x'] = true ∧
    (getEigen ⟨id, id⟩ 0 .valid ['x'] ⟨0, 0, []⟩ w).1 = (.ok true, ⟨2, 1, [3, 4]⟩) :=
  ⟨⟨fun _ => some (.double [2, 1] [3, 4] none), true, 0⟩, rfl, by decide,
    (C98_partial ⟨id, id⟩ 0 _ ['x'] (by decide)).2.2.2.2.2.2.2.2.2.1 _ 2 1 [3, 4] rfl (by omega) (by omega)⟩

/-! ## C99: variable names -/

/-- letters, digits and underscores -/
def IsWordChar (ch : Char) : Prop := ('a' ≤ ch ∧ ch ≤ 'z') ∨ ('A' ≤ ch ∧ ch ≤ 'Z') ∨ ('0' ≤ ch ∧ ch ≤ '9') ∨ ch = '_'

/-- a MATLAB identifier (keywords apart): a letter, then letters, digits and underscores, at most 63 characters -/
def IsIdentifier (s : Str) : Prop :=
  (∃ ch r, s = ch :: r ∧ (('a' ≤ ch ∧ ch ≤ 'z') ∨ ('A' ≤ ch ∧ ch ≤ 'Z'))) ∧ (∀ ch ∈ s, IsWordChar ch) ∧ s.length ≤ 63

/-- the full claim: exactly the identifiers are accepted -/
def C99_claim : Prop := ∀ s : Str, nameOk s = true ↔ IsIdentifier s

theorem char_le_iff (a b : Char) : a ≤ b ↔ a.toNat ≤ b.toNat := by
  rw [Char.le_def, UInt32.le_iff_toNat_le]
  rfl

theorem nameChars_iff (ch : Char) : ch ∈ nameChars ↔ IsWordChar ch := by
  have h : ∀ n : Nat, n < 128 → ((Char.ofNat n ∈ nameChars) ↔
      ((97 ≤ n ∧ n ≤ 122) ∨ (65 ≤ n ∧ n ≤ 90) ∨ (48 ≤ n ∧ n ≤ 57) ∨ n = 95)) := by
    set_option maxRecDepth 20000 in decide
  unfold IsWordChar
  simp only [char_le_iff]
  have e : Char.ofNat ch.toNat = ch := Char.ofNat_toNat ch
  have hu : ch = '_' ↔ ch.toNat = 95 := by
    constructor
    · rintro rfl; rfl
    · intro h; rw [← e, h]
  rw [hu]
  by_cases hl : ch.toNat < 128
  · have := h ch.toNat hl
    rw [e] at this
    exact this
  · have hm : ∀ x ∈ nameChars, x.toNat < 128 := by decide
    constructor
    · intro hc; exact absurd (hm ch hc) hl
    · intro hc
      have a1 : 'a'.toNat = 97 := rfl
      have a2 : 'z'.toNat = 122 := rfl
      have a3 : 'A'.toNat = 65 := rfl
      have a4 : 'Z'.toNat = 90 := rfl
      have a5 : '0'.toNat = 48 := rfl
      have a6 : '9'.toNat = 57 := rfl
      omega

/-- **C99** What the check accepts, exactly: words of letters, digits and underscores (nothing that could carry MATLAB code) that do not
begin with a digit.  All identifiers are accepted; every call with another name throws `InvalidVariableNameException`, without effect. -/
theorem C99_partial (s : Str) :
    (nameOk s = true ↔ (∀ ch ∈ s, IsWordChar ch) ∧ ∀ ch ∈ s.head?, ¬ ('0' ≤ ch ∧ ch ≤ '9')) ∧
    (IsIdentifier s → nameOk s = true) ∧
    (nameOk s = true → s ≠ [] → s.head? ≠ some '_' → s.length ≤ 63 → IsIdentifier s) ∧
    (nameOk s = false → ∀ (w : W D) (m : Mx D) (c : Dbl D) (junk : D) (r : Mat D) (rd : D) (rs : Str) (rb : Bool),
      putMx .valid s m w = (.threw .invalidName, w) ∧ exists_ .valid s w = (.threw .invalidName, w) ∧
      getDouble c .valid s rd w = (.threw .invalidName, w) ∧ getString .valid s rs w = (.threw .invalidName, w) ∧
      getBool .valid s rb w = (.threw .invalidName, w) ∧ getEigen c junk .valid s r w = ((.threw .invalidName, r), w) ∧
      getDimensions .valid s w = (.threw .invalidName, w) ∧ isScalar .valid s w = (.threw .invalidName, w) ∧
      isEmpty .valid s w = (.threw .invalidName, w) ∧ isCharOrString .valid s w = (.threw .invalidName, w)) := by
  have key : nameOk s = true ↔ (∀ ch ∈ s, IsWordChar ch) ∧ ∀ ch ∈ s.head?, ¬ ('0' ≤ ch ∧ ch ≤ '9') := by
    unfold nameOk
    rw [Bool.and_eq_true, List.all_eq_true]
    have h1 : (∀ x ∈ s, nameChars.contains x = true) ↔ ∀ ch ∈ s, IsWordChar ch := by
      simp only [List.contains_iff_mem, nameChars_iff]
    rw [h1]
    refine and_congr_right fun _ => ?_
    cases s with
    | nil => simp [isDigit]
    | cons a s => simp [isDigit]; rw [imp_iff_not_or, Char.not_le]
  refine ⟨key, ?_, ?_, ?_⟩
  · rintro ⟨⟨ch, r, rfl, hl⟩, hw, _⟩
    refine key.2 ⟨hw, fun d hd => ?_⟩
    simp only [List.head?_cons, Option.mem_some_iff] at hd
    subst hd
    simp only [char_le_iff] at hl ⊢
    have a1 : 'a'.toNat = 97 := rfl
    have a2 : 'z'.toNat = 122 := rfl
    have a3 : 'A'.toNat = 65 := rfl
    have a4 : 'Z'.toNat = 90 := rfl
    have a5 : '0'.toNat = 48 := rfl
    have a6 : '9'.toNat = 57 := rfl
    omega
  · intro h hne hu hlen
    obtain ⟨hw, hd⟩ := key.1 h
    refine ⟨?_, hw, hlen⟩
    cases s with
    | nil => exact absurd rfl hne
    | cons a r =>
      refine ⟨a, r, rfl, ?_⟩
      rcases hw a (by simp) with h | h | h | h
      · exact .inl h
      · exact .inr h
      · exact absurd h (hd a (by simp))
      · exact absurd (by simp [h]) hu
  · intro h w m c junk r rd rs rb
    simp [putMx, exists_, getDouble, getString, getBool, getEigen, getDimensions, isScalar, isEmpty, isCharOrString, tester, guarded, h]

/-- **C99** The full claim is false: the empty name, names that begin with an underscore and names of any length are accepted. -/
theorem C99_negation : ¬ C99_claim ∧ nameOk [] = true ∧ nameOk ['_', 'x'] = true ∧ (∀ n, nameOk (List.replicate n 'a') = true) := by
  refine ⟨fun h => ?_, by decide, by decide, fun n => ?_⟩
  · obtain ⟨⟨ch, r, h1, _⟩, _⟩ := (h []).1 (by decide)
    simp at h1
  · rw [(C99_partial (D := Nat) _).1]
    constructor
    · intro ch hc
      rw [List.eq_of_mem_replicate hc]
      exact .inl ⟨by decide, by decide⟩
    · intro ch hc
      cases n with
      | zero => simp at hc
      | succ n =>
        simp [List.replicate_succ] at hc
        subst hc
        decide

example : nameOk "x; delete('*')".toList = false ∧ IsIdentifier "ab_1".toList := by
  refine ⟨by decide, ⟨'a', "b_1".toList, rfl, .inl ⟨by decide, by decide⟩⟩, ?_, by decide⟩
  intro ch hc
  rw [← nameChars_iff]
  revert ch
  decide

/-! ## C100: memory -/

/-- an exception -/
def Out.isThrow {α : Type} : Out α → Bool
  | .threw _ => true
  | _ => false

/-- the full claim: no call leaves memory behind -/
def C100_claim : Prop :=
  ∀ (w : W Int) (h : Handle) (name : Str), (exists_ h name w).2.owned = w.owned ∧
    (∀ m, (putMx h name m w).2.owned = w.owned) ∧ (∀ r, (getString h name r w).2.owned = w.owned) ∧
    (∀ c r, (getDouble c h name r w).2.owned = w.owned)

/-- **C100** What each call leaves behind, exactly: the testers, `getDimensions` and `get(string)` one array or buffer each time the variable exists;
`put` nothing unless sending failed; `get(double)`, `get(bool)` and `getEigen` nothing unless they throw for an existing variable.  No call releases anything
it did not acquire. -/
theorem C100_partial (w : W D) (name : Str) (hn : nameOk name = true) :
    (exists_ .valid name w).2.owned = w.owned + (if (w.var name).isSome then 1 else 0) ∧
    (∀ p, (tester p .valid name w).2.owned = w.owned + (if (w.var name).isSome then 1 else 0)) ∧
    (getDimensions .valid name w).2.owned = w.owned + (if (w.var name).isSome then 1 else 0) ∧
    (∀ r, (getString .valid name r w).2.owned = w.owned + (if (w.var name).isSome then 1 else 0)) ∧
    (∀ m, (putMx .valid name m w).2.owned = w.owned + (if w.alive then 0 else 1)) ∧
    (∀ c r, (getDouble c .valid name r w).2.owned =
      w.owned + (if (getDouble c .valid name r w).1.isThrow then 1 else 0)) ∧
    (∀ r, (getBool .valid name r w).2.owned = w.owned + (if (getBool .valid name r w).1.isThrow then 1 else 0)) ∧
    (∀ c junk r, (getEigen c junk .valid name r w).2.owned =
      w.owned + (if (getEigen c junk .valid name r w).1.1.isThrow then 1 else 0)) := by
  refine ⟨?_, fun p => ?_, ?_, fun r => ?_, fun m => ?_, fun c r => ?_, fun r => ?_, fun c junk r => ?_⟩
  · simp [exists_, hn, getVariable_owned]
  · simp only [tester, guarded, hn, getVariable_fst, getVariable_owned]
    cases w.var name <;> simp
  · simp only [getDimensions, guarded, hn, getVariable_fst, getVariable_owned]
    cases w.var name <;> simp
  · simp only [getString, guarded, hn, getVariable_fst, getVariable_owned]
    cases w.var name with
    | none => simp [Out.isThrow]
    | some m => cases m <;> simp <;> split_ifs <;> simp [destroy]
  · simp only [putMx, guarded, hn]
    by_cases ha : w.alive <;> simp [ha, destroy]
  · simp only [getDouble, guarded, hn, getVariable_fst, getVariable_owned]
    cases w.var name with
    | none => simp [Out.isThrow]
    | some m =>
      simp only [reduceCtorEq, if_false, Bool.not_true, Bool.false_eq_true, Option.isSome_some, if_true]
      split_ifs <;> simp_all [destroy, Out.isThrow]
  · simp only [getBool, guarded, hn, getVariable_fst, getVariable_owned]
    cases w.var name with
    | none => simp [Out.isThrow]
    | some m =>
      cases m <;> simp [Out.isThrow]
      split_ifs <;> simp_all [destroy]
  · simp only [getEigen, hn, getVariable_fst, getVariable_owned]
    cases w.var name with
    | none => simp [Out.isThrow]
    | some m =>
      simp only [reduceCtorEq, if_false, Bool.not_true, Bool.false_eq_true, Option.isSome_some, if_true]
      split_ifs <;> simp_all [destroy, Out.isThrow]

/-- **C100** The full claim is false, and the loss is unbounded: `n` calls of `exists` for an existing variable lose `n` arrays. -/
theorem C100_negation : ¬ C100_claim ∧
    ∀ (w : W D) (name : Str) (n : Nat), nameOk name = true → (w.var name).isSome = true →
      ((fun v => (exists_ .valid name v).2)^[n] w).owned = w.owned + n := by
  refine ⟨fun h => ?_, fun w name n hn hv => ?_⟩
  · have := (h ⟨fun _ => some (.double [1, 1] [0] none), true, 0⟩ .valid ['x']).1
    rw [(C100_partial _ ['x'] (by decide)).1] at this
    simp [W.var] at this
  · induction n generalizing w with
    | zero => rfl
    | succ n ih =>
      rw [Function.iterate_succ_apply, ih]
      · rw [(C100_partial w name hn).1, if_pos hv]; omega
      · simp only [exists_, hn, getVariable_owned]
        simpa [W.var] using hv

example : ∃ w : W Int, (w.var ['x']).isSome = true ∧ nameOk ['x'] = true :=
  ⟨⟨fun _ => some (.double [1, 1] [0] none), true, 0⟩, rfl, by decide⟩

/-! ## C101: the connection to MATLAB -/

/-- no copies -/
def NoCopy (es : List Ev) : Prop := ∀ e ∈ es, ∀ i, e ≠ .copy i

/-- in a debug build, MATLAB can be closed -/
def ClosesFine (dbg : Bool) (es : List Ev) : Prop := dbg = true → ∀ i, Ev.destroy i false ∉ es

/-- the full claim: every history of an engine runs without undefined behaviour, and in the end all connections that were opened have been closed
once -/
def C101_claim : Prop :=
  ∀ (dbg start opens : Bool) (es : List Ev), ∃ l, run dbg (constructWith start opens) es = .ok l ∧
    (l.objs.all (· = .dead) → l.opened = l.closed)

/-- between events of an object without copies -/
structure Inv (l : L) : Prop where
  one : ∃ o, l.objs = [o] ∧ o ≠ .garbage ∧ (∀ n, o = .conn n → l.opened = l.closed ++ [n]) ∧ ((∀ n, o ≠ .conn n) → l.opened = l.closed)
  range : l.opened = List.range l.opened.length

theorem inv_step (dbg : Bool) (l : L) (e : Ev) (h : Inv l) (hc : ∀ i, e ≠ .copy i) (hd : dbg = true → ∀ i, e ≠ .destroy i false) :
    ∃ l', step dbg l e = .ok l' ∧ Inv l' := by
  obtain ⟨⟨o, ho, hg, h1, h2⟩, hr⟩ := h
  have hnot : ∀ n, o = .conn n → n ∉ l.closed := by
    intro n hn hm
    have := h1 n hn
    have hnd : l.opened.Nodup := by rw [hr]; exact List.nodup_range
    rw [this] at hnd
    rw [List.nodup_append] at hnd
    exact hnd.2.2 n hm n (by simp) rfl
  have hrange : ∀ k, l.opened ++ [l.opened.length] = List.range k ↔ k = l.opened.length + 1 := by
    intro k
    constructor
    · intro h
      have := congrArg List.length h
      simpa using this.symm
    · rintro rfl
      rw [List.range_succ, ← hr]
  cases e with
  | copy i => exact absurd rfl (hc i)
  | init i b =>
    simp only [step, ho]
    cases i with
    | succ i => exact ⟨l, by simp, ⟨⟨o, ho, hg, h1, h2⟩, hr⟩⟩
    | zero =>
      simp only [List.getElem?_cons_zero]
      cases o with
      | null =>
        cases b with
        | false => exact ⟨l, by simp, ⟨⟨_, ho, hg, h1, h2⟩, hr⟩⟩
        | true =>
          refine ⟨_, by simp; rfl, ⟨⟨.conn l.opened.length, by simp, by simp, ?_, by simp⟩, ?_⟩⟩
          · rintro n hn
            simp only [Obj.conn.injEq] at hn
            subst hn
            simp [h2 (by simp)]
          · simp [List.range_succ, ← hr]
      | conn n => exact ⟨l, rfl, ⟨⟨_, ho, hg, h1, h2⟩, hr⟩⟩
      | garbage => exact absurd rfl hg
      | dead => exact ⟨l, rfl, ⟨⟨_, ho, hg, h1, h2⟩, hr⟩⟩
  | stop i b =>
    simp only [step, ho]
    cases i with
    | succ i => exact ⟨l, by simp, ⟨⟨o, ho, hg, h1, h2⟩, hr⟩⟩
    | zero =>
      simp only [List.getElem?_cons_zero]
      cases o with
      | null => exact ⟨l, rfl, ⟨⟨_, ho, hg, h1, h2⟩, hr⟩⟩
      | conn n =>
        refine ⟨{ l with objs := [.null], closed := l.closed ++ [n] }, by simp [closeConn, hnot n rfl, ho],
          ⟨⟨.null, rfl, by simp, by simp, fun _ => h1 n rfl⟩, hr⟩⟩
      | garbage => exact absurd rfl hg
      | dead => exact ⟨l, rfl, ⟨⟨_, ho, hg, h1, h2⟩, hr⟩⟩
  | destroy i b =>
    simp only [step, ho]
    cases i with
    | succ i => exact ⟨l, by simp, ⟨⟨o, ho, hg, h1, h2⟩, hr⟩⟩
    | zero =>
      simp only [List.getElem?_cons_zero]
      cases o with
      | null => exact ⟨_, rfl, ⟨⟨.dead, by simp, by simp, by simp, fun _ => h2 (by simp)⟩, hr⟩⟩
      | conn n =>
        have hb : (dbg && !b) = false := by
          cases dbg with
          | false => rfl
          | true => cases b with
            | true => rfl
            | false => exact absurd rfl (hd rfl 0)
        refine ⟨{ l with objs := [.dead], closed := l.closed ++ [n] }, by simp [hb, closeConn, hnot n rfl, ho],
          ⟨⟨.dead, rfl, by simp, by simp, fun _ => h1 n rfl⟩, hr⟩⟩
      | garbage => exact absurd rfl hg
      | dead => exact ⟨l, rfl, ⟨⟨_, ho, hg, h1, h2⟩, hr⟩⟩

/-- **C101** The part that holds: an engine that is constructed by `Engine()` or `Engine(true)` and never copied runs without undefined behaviour through
every history of initialize, stop and destruction; connections are opened one at a time (at most one is open) and each is closed at
most once; when the object is destroyed (or stopped) all are closed. -/
theorem C101_partial (dbg opens : Bool) (es : List Ev) (hc : NoCopy es) (hd : ClosesFine dbg es) (l0 : L)
    (h0 : l0 = construct ∨ l0 = constructWith true opens) :
    ∃ l, run dbg l0 es = .ok l ∧ l.opened.Nodup ∧
      (l.opened = l.closed ∨ ∃ n, l.opened = l.closed ++ [n] ∧ l.objs = [.conn n]) ∧
      ((l.objs = [.dead] ∨ l.objs = [.null]) → l.opened = l.closed) := by
  have hinv : Inv l0 := by
    rcases h0 with rfl | rfl
    · exact ⟨⟨.null, rfl, by simp, by simp, fun _ => rfl⟩, rfl⟩
    · cases opens with
      | false => exact ⟨⟨.null, rfl, by simp, by simp, fun _ => rfl⟩, rfl⟩
      | true =>
        refine ⟨⟨.conn 0, rfl, by simp, fun n hn => ?_, by simp⟩, rfl⟩
        simp only [Obj.conn.injEq] at hn
        subst hn; rfl
  clear h0
  induction es generalizing l0 with
  | nil =>
    obtain ⟨⟨o, ho, hg, h1, h2⟩, hr⟩ := hinv
    refine ⟨l0, rfl, by rw [hr]; exact List.nodup_range, ?_, ?_⟩
    · cases o with
      | conn n => exact .inr ⟨n, h1 n rfl, ho⟩
      | null => exact .inl (h2 (by simp))
      | garbage => exact absurd rfl hg
      | dead => exact .inl (h2 (by simp))
    · rintro (h | h) <;> (rw [ho] at h; simp only [List.cons.injEq, and_true] at h; subst h; exact h2 (by simp))
  | cons e es ih =>
    obtain ⟨l', hs, hi⟩ := inv_step dbg l0 e hinv (fun i => hc e (by simp) i) (fun hb i h => hd hb i (by simp [h]))
    obtain ⟨l, hl⟩ := ih (fun x hx => hc x (by simp [hx])) (fun hb i h => hd hb i (by simp [h])) l' hi
    exact ⟨l, by simp only [run, hs]; exact hl.1, hl.2⟩

/-- **C101** The full claim is false: an engine constructed with `Engine(false)` and destroyed passes an uninitialised handle to the library;
a copied engine closes its connection twice; in a debug build a failure to close terminates the program. -/
theorem C101_negation : ¬ C101_claim ∧
    (∀ dbg opens b, run dbg (constructWith false opens) [.destroy 0 b] = .ub) ∧
    (run false (constructWith true true) [.copy 0, .destroy 0 true, .destroy 1 true] = .ub) ∧
    run true (constructWith true true) [.destroy 0 false] = .terminate := by
  have h1 : ∀ dbg opens b, run dbg (constructWith false opens) [.destroy 0 b] = .ub := fun dbg opens b => rfl
  refine ⟨fun h => ?_, h1, by decide, by decide⟩
  obtain ⟨l, hl, _⟩ := h false false false [.destroy 0 true]
  rw [h1] at hl
  simp at hl

example : NoCopy [.init 0 true, .stop 0 true, .init 0 false, .init 0 true, .destroy 0 true] ∧
    run true construct [.init 0 true, .stop 0 true, .init 0 false, .init 0 true, .destroy 0 true] =
      .ok ⟨[.dead], [0, 1], [0, 1]⟩ :=
  ⟨by intro e he i; simp at he; rcases he with rfl | rfl | rfl | rfl | rfl <;> simp, by decide⟩

/-- **C101** Without a connection every call except `exists` throws `EngineNotInitializedException` and does nothing. -/
theorem C101_uninitialized (w : W D) (name : Str) (m : Mx D) (c : Dbl D) (junk : D) (r : Mat D) (rd : D) (rs : Str) (rb : Bool) (o : Str)
    (after : Str → Option (Mx D)) :
    putMx .null name m w = (.threw .notInitialized, w) ∧ getDouble c .null name rd w = (.threw .notInitialized, w) ∧
    getString .null name rs w = (.threw .notInitialized, w) ∧ getBool .null name rb w = (.threw .notInitialized, w) ∧
    getEigen c junk .null name r w = ((.threw .notInitialized, r), w) ∧ getDimensions .null name w = (.threw .notInitialized, w) ∧
    (∀ p, tester p .null name w = (.threw .notInitialized, w)) ∧ executeCommand .null o after w = (.threw .notInitialized, w) ∧
    (nameOk name = true → exists_ .null name w = (.ok false, w)) := by
  refine ⟨rfl, rfl, rfl, rfl, rfl, rfl, fun p => rfl, rfl, fun h => by simp [exists_, h]⟩

/-! ## C102: the command line -/

/-- the commands a user means: the lines up to the first `quit` or `exit` -/
def meant (lines : List Str) : List Str := lines.takeWhile fun l => !(decide (l = "quit".toList ∨ l = "exit".toList))

/-- the input as typed -/
def typed (lines : List Str) : Str := (lines.map (· ++ ['\n'])).flatten

/-- the full claim: the commands are executed as typed, whether or not the last line is ended by a line break -/
def C102_claim : Prop :=
  ∀ (lines : List Str) (last : Str), (∀ l ∈ last :: lines, '\n' ∉ l ∧ Char.ofNat 0 ∉ l) → last ≠ [] →
    openCommandLine (typed lines) = .done (meant lines) ∧
    openCommandLine (typed lines ++ last) = .done (meant (lines ++ [last]))

theorem fgets_line (l rest : Str) (h1 : '\n' ∉ l) (hl : l.length ≤ 254) : fgets (l ++ '\n' :: rest) = (l ++ ['\n'], rest) := by
  have ht : (l ++ '\n' :: rest).take 255 = l ++ '\n' :: rest.take (254 - l.length) := by
    rw [List.take_append]
    have : 255 - l.length = (254 - l.length) + 1 := by omega
    rw [this, List.take_succ_cons, List.take_of_length_le (by omega)]
  have htw : (l ++ '\n' :: rest.take (254 - l.length)).takeWhile (· ≠ '\n') = l := by
    rw [List.takeWhile_append_of_pos]
    · simp
    · intro c hc
      simpa using fun h : c = '\n' => h1 (h ▸ hc)
  unfold fgets
  simp only [ht, htw]
  rw [if_pos (by simp)]
  congr 1
  rw [List.drop_append]
  simp

theorem openCommandLine_line (l rest : Str) (h1 : '\n' ∉ l) (h0 : Char.ofNat 0 ∉ l) (hl : l.length ≤ 254) :
    openCommandLine (l ++ '\n' :: rest) =
      if l = "quit".toList ∨ l = "exit".toList then .done [] else .cons l (openCommandLine rest) := by
  rw [openCommandLine.eq_def]
  have hne : l ++ '\n' :: rest ≠ [] := by simp
  rw [dif_neg hne]
  simp only [fgets_line l rest h1 hl]
  have ht : (l ++ ['\n']).takeWhile (· ≠ Char.ofNat 0) = l ++ ['\n'] := by
    rw [List.takeWhile_eq_self_iff]
    intro c hc
    rcases List.mem_append.1 hc with h | h
    · simpa using fun h' : c = Char.ofNat 0 => h0 (h' ▸ h)
    · simp only [List.mem_singleton] at h
      subst h; decide
  rw [ht]
  simp

/-- **C102** The part that holds: lines of at most 254 characters without zero characters, each ended by a line break, are executed as typed, up to
the first `quit` or `exit`. -/
theorem C102_partial (lines : List Str) (h : ∀ l ∈ lines, '\n' ∉ l ∧ Char.ofNat 0 ∉ l ∧ l.length ≤ 254) :
    openCommandLine (typed lines) = .done (meant lines) := by
  induction lines with
  | nil => rw [openCommandLine.eq_def]; rfl
  | cons l ls ih =>
    obtain ⟨h1, h0, hl⟩ := h l (by simp)
    have e : typed (l :: ls) = l ++ '\n' :: typed ls := by simp [typed]
    rw [e, openCommandLine_line l _ h1 h0 hl, ih fun x hx => h x (by simp [hx])]
    unfold meant
    rw [List.takeWhile_cons]
    split <;> simp_all [Repl.cons]

theorem fgets_last (l : Str) (h1 : '\n' ∉ l) (hl : l.length ≤ 255) : fgets l = (l, []) := by
  unfold fgets
  have : l.take 255 = l := List.take_of_length_le hl
  simp [this, h1]

/-- **C102** The full claim is false: if the input ends without a line break the last command loses its last character, and so does every piece
of 255 characters of a longer line. -/
theorem C102_negation : ¬ C102_claim ∧
    (∀ l : Str, '\n' ∉ l → Char.ofNat 0 ∉ l → l ≠ [] → l.length ≤ 255 → l.dropLast ≠ "quit".toList → l.dropLast ≠ "exit".toList →
      openCommandLine l = .done [l.dropLast]) := by
  have key : ∀ l : Str, '\n' ∉ l → Char.ofNat 0 ∉ l → l ≠ [] → l.length ≤ 255 → l.dropLast ≠ "quit".toList → l.dropLast ≠ "exit".toList →
      openCommandLine l = .done [l.dropLast] := by
    intro l h1 h0 hne hl hq he
    have ht : l.takeWhile (· ≠ Char.ofNat 0) = l := by
      rw [List.takeWhile_eq_self_iff]
      intro c hc
      simpa using fun h' : c = Char.ofNat 0 => h0 (h' ▸ hc)
    have hnil : openCommandLine [] = .done [] := by rw [openCommandLine.eq_def]; rfl
    rw [openCommandLine.eq_def, dif_neg hne]
    simp only [fgets_last l h1 hl, ht, hne, if_false, hq, he, or_self, hnil]
    rfl
  refine ⟨fun hc => ?_, key⟩
  have := (hc [] ['a', '1'] (by decide) (by simp)).2
  have h2 := key ['a', '1'] (by decide) (by decide) (by simp) (by decide) (by decide) (by decide)
  simp only [typed, List.map_nil, List.flatten_nil, List.nil_append] at this
  rw [h2] at this
  simp [meant] at this

example : openCommandLine (typed ["a=1".toList, "b=2".toList, "quit".toList, "c=3".toList]) = .done ["a=1".toList, "b=2".toList] :=
  C102_partial _ (by decide)

/-! ## C97, C98, C102: failures, testers, dimensions, output -/

/-- **C97** A value that could not be sent is reported, and no variable changes; the value that was sent is there afterwards. -/
theorem C97_put_reported (w : W D) (name : Str) (m : Mx D) (hn : nameOk name = true) :
    ((putMx .valid name m w).1 = .threw .put ↔ w.alive = false) ∧
    ((putMx .valid name m w).1 = .ok () ↔ w.alive = true) ∧
    (w.alive = false → (putMx .valid name m w).2.vars = w.vars) ∧
    (w.alive = true → (putMx .valid name m w).2.var name = some m) := by
  cases ha : w.alive <;> simp [putMx, guarded, hn, ha, destroy, W.var]

/-- **C98** The testers throw exactly for variables that do not exist, and otherwise tell the number of elements and the class; the dimensions
are the number of rows and the number of elements in a row. -/
theorem C98_testers (w : W D) (name : Str) (hn : nameOk name = true) :
    (exists_ .valid name w).1 = .ok (w.var name).isSome ∧
    (w.var name = none → (isScalar .valid name w).1 = .threw .noSuchVariable ∧ (isEmpty .valid name w).1 = .threw .noSuchVariable ∧
      (isCharOrString .valid name w).1 = .threw .noSuchVariable ∧ (getDimensions .valid name w).1 = .ok none) ∧
    (∀ m, w.var name = some m →
      (isScalar .valid name w).1 = .ok (decide (m.dims.prod = 1)) ∧
      (isEmpty .valid name w).1 = .ok (decide (0 ∈ m.dims)) ∧
      ((isCharOrString .valid name w).1 = .ok true ↔ ∃ d s, m = .char d s) ∧
      (∀ a b, m.dims = [a, b] → (getDimensions .valid name w).1 = .ok (some (a, b))) ∧
      (∀ a r, m.dims = a :: r → (getDimensions .valid name w).1 = .ok (some (a, r.prod)))) := by
  refine ⟨by simp [exists_, hn, getVariable_fst], fun h => ?_, fun m h => ?_⟩
  · simp [isScalar, isEmpty, isCharOrString, tester, getDimensions, guarded, hn, getVariable_fst, h]
  · refine ⟨?_, ?_, ?_, fun a b hd => ?_, fun a r hd => ?_⟩
    · simp only [isScalar, tester, guarded, hn, getVariable_fst, h, Mx.numel]
      by_cases h1 : m.dims.prod = 1 <;> simp [h1]
    · simp only [isEmpty, tester, guarded, hn, getVariable_fst, h, Mx.isEmpty]
      simp [List.any_eq_true]
      by_cases h0 : 0 ∈ m.dims <;> simp [h0]
      intro x hx hx0; exact h0 (hx0 ▸ hx)
    · simp only [isCharOrString, tester, guarded, hn, getVariable_fst, h]
      cases m <;> simp [Mx.isChar]
    · simp [getDimensions, guarded, hn, getVariable_fst, h, hd]
    · simp [getDimensions, guarded, hn, getVariable_fst, h, hd]

/-- **C102** The output of a command is the text MATLAB printed (which ends with a line break) without that line break; a text without one
loses its last character. -/
theorem C102_output (w : W D) (after : Str → Option (Mx D)) (text : Str) (h0 : Char.ofNat 0 ∉ text) (ha : w.alive = true) :
    (executeCommand .valid (text ++ ['\n']) after w).1 = .ok text ∧
    (∀ ch, ch ≠ Char.ofNat 0 → (executeCommand .valid (text ++ [ch]) after w).1 = .ok text) ∧
    (∀ junk, (executeCommand .valid (text ++ '\n' :: Char.ofNat 0 :: junk) after w).1 = .ok text) ∧
    (executeCommand .valid text after w).2.vars = after ∧
    ∀ w' : W D, w'.alive = false → executeCommand .valid text after w' = (.threw .execution, w') := by
  have ht : ∀ (ch : Char) (r : Str), ch ≠ Char.ofNat 0 → (text ++ ch :: r).takeWhile (· ≠ Char.ofNat 0) = text ++ ch :: r.takeWhile (· ≠ Char.ofNat 0) := by
    intro ch r hch
    rw [List.takeWhile_append_of_pos]
    · simp [hch]
    · intro c hc
      simpa using fun h : c = Char.ofNat 0 => h0 (h ▸ hc)
  have h2 : ∀ ch, ch ≠ Char.ofNat 0 → (executeCommand .valid (text ++ [ch]) after w).1 = .ok text := by
    intro ch hch
    simp only [executeCommand, ha, if_true, ht ch [] hch]
    simp
  refine ⟨h2 _ (by decide), h2, fun junk => ?_, by simp [executeCommand, ha], fun w' hw => by simp [executeCommand, hw]⟩
  simp only [executeCommand, ha, if_true, ht '\n' _ (by decide)]
  simp

/-- Concrete: a living engine with a 2×3 matrix and a dead one. -/
example : (getDimensions .valid ['m'] (⟨fun _ => some (.double [2, 3] [1, 2, 3, 4, 5, 6] none), true, 0⟩ : W Nat)).1 = .ok (some (2, 3)) ∧
    (isScalar .valid ['m'] (⟨fun _ => some (.double [0, 0] [] none), true, 0⟩ : W Nat)).1 = .ok false ∧
    (putMx .valid ['m'] (.double [1, 1] [1] none) (⟨fun _ => none, false, 0⟩ : W Nat)).1 = .threw .put ∧
    (executeCommand .valid "ans = 3\n".toList (fun _ => none) (⟨fun _ => none, true, 0⟩ : W Nat)).1 = .ok "ans = 3".toList := by
  refine ⟨by decide, by decide, by decide, by decide⟩

end Verif.Matlab
