import Verif.Serial.Equal
import Verif.Serial.MacroProps

/-!
# C75, C76: what `isBinaryEqual` and the comparison of pointers decide
-/

namespace Verif.Serial

theorem vecEq_iff {α : Type} [BEq α] {n : Nat} (a b : Fin n → α) : vecEq a b = true ↔ ∀ i, (a i == b i) = true := by
  simp [vecEq, List.all_eq_true]

theorem matEq_iff {α : Type} [BEq α] {n m : Nat} (a b : Fin n → Fin m → α) :
    matEq a b = true ↔ ∀ i j, (a i j == b i j) = true := by
  simp [matEq, List.all_eq_true, vecEq_iff]

/-! ## C76 -/

/-- what "the same" should mean: objects compare by their own comparison, pointers are the same if both are null or
both point to things that are the same -/
inductive Same (w : World) : CType → Val → Val → Prop
  | ibe (a b) : w.ibe a b = true → Same w (.cls true) (.obj a) (.obj b)
  | eq (a b) : w.eq a b = true → Same w (.cls false) (.obj a) (.obj b)
  | nullPtr (t) : Same w (.ptr t) .null .null
  | nullShared (t) : Same w (.shared t) .null .null
  | ptr (t a b) : Same w t (w.heap a) (w.heap b) → Same w (.ptr t) (.addr a) (.addr b)
  | shared (t a b) : Same w t (w.heap a) (w.heap b) → Same w (.shared t) (.addr a) (.addr b)

/-- the values that can be stored in a variable of the type, with everything they point to -/
inductive HasType (w : World) : CType → Val → Prop
  | cls (b n) : HasType w (.cls b) (.obj n)
  | nullPtr (t) : HasType w (.ptr t) .null
  | nullShared (t) : HasType w (.shared t) .null
  | ptr (t a) : HasType w t (w.heap a) → HasType w (.ptr t) (.addr a)
  | shared (t a) : HasType w t (w.heap a) → HasType w (.shared t) (.addr a)

/-- **C76, the claim**: whenever the comparison compiles, it decides whether the two things are the same. -/
def C76_claim : Prop := ∀ (w : World) (t : CType) (x y : Val), compiles t = true → HasType w t x → HasType w t y →
  (isSame w t x y = true ↔ Same w t x y)

theorem same_cls (w : World) (b : Bool) (x y : Val) (hx : HasType w (.cls b) x) (hy : HasType w (.cls b) y) :
    isSame w (.cls b) x y = true ↔ Same w (.cls b) x y := by
  cases hx with | cls _ n => cases hy with | cls _ m =>
  cases b
  · refine ⟨fun h => .eq _ _ h, fun h => ?_⟩
    cases h with | eq _ _ h => exact h
  · refine ⟨fun h => .ibe _ _ h, fun h => ?_⟩
    cases h with | ibe _ _ h => exact h

theorem through_addr (w : World) (b : Bool) (a c : Nat) :
    sameThrough w (.cls b) (.addr a) (.addr c) = isSame w (.cls b) (w.heap a) (w.heap c) := by
  cases b <;> simp [sameThrough, CType.hasIbe, deref, isSame]

/-- **C76, what holds**: for a class, a pointer to a class and a shared pointer to a class the comparison compiles,
and decides whether the two things are the same: both null, or both non-null with equal objects. -/
theorem C76_partial (w : World) (b : Bool) (t : CType) (ht : t = .cls b ∨ t = .ptr (.cls b) ∨ t = .shared (.cls b))
    (x y : Val) (hx : HasType w t x) (hy : HasType w t y) :
    compiles t = true ∧ (isSame w t x y = true ↔ Same w t x y) := by
  obtain rfl | rfl | rfl := ht
  · exact ⟨rfl, same_cls w b x y hx hy⟩
  · refine ⟨rfl, ?_⟩
    cases hx with
    | nullPtr =>
      cases hy with
      | nullPtr => exact ⟨fun _ => .nullPtr _, fun _ => by simp [isSame, sameThrough]⟩
      | ptr _ c hc => exact ⟨fun h => by simp [isSame, sameThrough] at h, fun h => by cases h⟩
    | ptr _ a ha =>
      cases hy with
      | nullPtr => exact ⟨fun h => by simp [isSame, sameThrough] at h, fun h => by cases h⟩
      | ptr _ c hc =>
        rw [isSame, through_addr, same_cls w b _ _ ha hc]
        refine ⟨fun h => .ptr _ _ _ h, fun h => ?_⟩
        cases h with | ptr _ _ _ h => exact h
  · refine ⟨rfl, ?_⟩
    cases hx with
    | nullShared =>
      cases hy with
      | nullShared => exact ⟨fun _ => .nullShared _, fun _ => by simp [isSame, sameThrough]⟩
      | shared _ c hc => exact ⟨fun h => by simp [isSame, sameThrough] at h, fun h => by cases h⟩
    | shared _ a ha =>
      cases hy with
      | nullShared => exact ⟨fun h => by simp [isSame, sameThrough] at h, fun h => by cases h⟩
      | shared _ c hc =>
        rw [isSame, through_addr, same_cls w b _ _ ha hc]
        refine ⟨fun h => .shared _ _ _ h, fun h => ?_⟩
        cases h with | shared _ _ _ h => exact h

/-- **C76** the claim is false for a pointer to a pointer: the inner pointers are compared by address. -/
theorem C76_negation : ¬ C76_claim := by
  intro h
  let w : World := { heap := fun a => if a = 0 then .addr 2 else if a = 1 then .addr 3 else .obj 7, ibe := fun _ _ => true, eq := fun a b => a == b }
  have hx : HasType w (.ptr (.ptr (.cls false))) (.addr 0) := .ptr _ _ (.ptr _ _ (.cls _ _))
  have hy : HasType w (.ptr (.ptr (.cls false))) (.addr 1) := .ptr _ _ (.ptr _ _ (.cls _ _))
  have hs : Same w (.ptr (.ptr (.cls false))) (.addr 0) (.addr 1) := .ptr _ _ _ (.ptr _ _ _ (.eq _ _ rfl))
  have := (h w _ _ _ rfl hx hy).2 hs
  simp [isSame, sameThrough, CType.hasIbe, opEq, deref, w] at this

/-- Concrete: null against non-null, equal objects at different addresses, a type that does not compile. -/
example (w : World) (h2 : w.heap 2 = .obj 5) (h3 : w.heap 3 = .obj 5) (he : w.eq 5 5 = true) :
    isSame w (.shared (.cls false)) (.addr 2) .null = false ∧ isSame w (.shared (.cls false)) (.addr 2) (.addr 3) = true ∧
    HasType w (.shared (.cls false)) (.addr 2) ∧ compiles (.ptr (.ptr (.cls true))) = false := by
  refine ⟨by simp [isSame, sameThrough], ?_, ?_, rfl⟩
  · simp [isSame, sameThrough, CType.hasIbe, opEq, deref, h2, h3, he]
  · apply HasType.shared
    rw [h2]
    exact .cls _ _

/-! ## C75 -/

/-- the result of a comparison that terminates -/
def Result (r : Option (Bool × St)) (P : Prop) : Prop := ∃ b s', r = some (b, s') ∧ (b = true ↔ P)

variable {α : Type} [BEq α]

/-- **C75, the claim**: `isBinaryEqual` of every class is true iff all members have equal coefficients. -/
def C75_claim : Prop := ∀ (α : Type) [BEq α] (s : St),
  (∀ a b : HPoint α, Result (a.isBinaryEqual b s) (∀ i, (a.ph i == b.ph i) = true)) ∧
  (∀ a b : UHPoint α, Result (a.isBinaryEqual b s) ((∀ i, (a.ph i == b.ph i) = true) ∧ ∀ i j, (a.U i j == b.U i j) = true)) ∧
  (∀ a b : Transf α, Result (a.isBinaryEqual b s) ((∀ i, (a.q i == b.q i) = true) ∧ ∀ i, (a.t i == b.t i) = true)) ∧
  (∀ a b : UTransf α, Result (a.isBinaryEqual b s)
    ((∀ i, (a.q i == b.q i) = true) ∧ (∀ i, (a.t i == b.t i) = true) ∧ ∀ i j, (a.U i j == b.U i j) = true)) ∧
  (∀ D, ∀ a b : UVec α D, Result (a.isBinaryEqual b s) ((∀ i, (a.v i == b.v i) = true) ∧ ∀ i j, (a.E i j == b.E i j) = true)) ∧
  (∀ a b : UScalar α, Result (a.isBinaryEqual b s) ((a.v == b.v) = true ∧ (a.sigma2 == b.sigma2) = true))

/-- a check after a first operand -/
theorem run_second (i : Nat) (x b : Bool) (s : St) : ∃ s', run (.val x :: .and :: checkMember i b) s = some (x && b, s') :=
  ⟨_, (C74_single_partial ⟨.member, i, b⟩ x s).2⟩

theorem run_pair (b c : Bool) (s : St) : ∃ s', run (joinAnd [checkMember 0 b, checkMember 1 c]) s = some (b, s') :=
  ⟨_, C74_first_partial ⟨.member, 0, b⟩ [⟨.member, 1, c⟩] s⟩

theorem run_one (i : Nat) (b : Bool) (s : St) : ∃ s', run (checkMember i b) s = some (b, s') :=
  ⟨_, (C74_single_partial ⟨.member, i, b⟩ true s).1⟩

/-- **C75, what holds** for the two classes of homogeneous points: the full claim. -/
theorem C75_points (s : St) :
    (∀ a b : HPoint α, Result (a.isBinaryEqual b s) (∀ i, (a.ph i == b.ph i) = true)) ∧
    (∀ a b : UHPoint α, Result (a.isBinaryEqual b s)
      ((∀ i, (a.ph i == b.ph i) = true) ∧ ∀ i j, (a.U i j == b.U i j) = true)) := by
  constructor
  · intro a b
    obtain ⟨s', h⟩ := run_one 0 (vecEq a.ph b.ph) s
    exact ⟨_, s', h, vecEq_iff _ _⟩
  · intro a b
    obtain ⟨s1, h1⟩ := run_one 0 (vecEq a.ph b.ph) s
    obtain ⟨s2, h2⟩ := run_second 1 (vecEq a.ph b.ph) (matEq a.U b.U) s1
    refine ⟨vecEq a.ph b.ph && matEq a.U b.U, s2, ?_, ?_⟩
    · unfold UHPoint.isBinaryEqual HPoint.isBinaryEqual
      rw [h1]
      exact h2
    · rw [Bool.and_eq_true, vecEq_iff, matEq_iff]

/-- **C75, what holds** for the others: `Transformation` compares the quaternions only, `UncertainTransformation` the
quaternions and the covariances but not the translations, uncertain vectors and scalars the values only. -/
theorem C75_others_partial (s : St) :
    (∀ a b : Transf α, Result (a.isBinaryEqual b s) (∀ i, (a.q i == b.q i) = true)) ∧
    (∀ a b : UTransf α, Result (a.isBinaryEqual b s)
      ((∀ i, (a.q i == b.q i) = true) ∧ ∀ i j, (a.U i j == b.U i j) = true)) ∧
    (∀ D, ∀ a b : UVec α D, Result (a.isBinaryEqual b s) (∀ i, (a.v i == b.v i) = true)) ∧
    (∀ a b : UScalar α, Result (a.isBinaryEqual b s) ((a.v == b.v) = true)) := by
  refine ⟨fun a b => ?_, fun a b => ?_, fun D a b => ?_, fun a b => ?_⟩
  · obtain ⟨s', h⟩ := run_pair (vecEq a.q b.q) (vecEq a.t b.t) s
    exact ⟨_, s', h, vecEq_iff _ _⟩
  · obtain ⟨s1, h1⟩ := run_pair (vecEq a.q b.q) (vecEq a.t b.t) s
    obtain ⟨s2, h2⟩ := run_second 2 (vecEq a.q b.q) (matEq a.U b.U) s1
    refine ⟨vecEq a.q b.q && matEq a.U b.U, s2, ?_, ?_⟩
    · unfold UTransf.isBinaryEqual Transf.isBinaryEqual
      rw [h1]
      exact h2
    · rw [Bool.and_eq_true, vecEq_iff, matEq_iff]
  · obtain ⟨s', h⟩ := run_pair (vecEq a.v b.v) (matEq a.E b.E) s
    exact ⟨_, s', h, vecEq_iff _ _⟩
  · obtain ⟨s', h⟩ := run_pair (a.v == b.v) (a.sigma2 == b.sigma2) s
    exact ⟨_, s', h, Iff.rfl⟩

/-- **C75, what holds**: no class calls equal things different. -/
theorem C75_complete_partial (s : St) :
    (∀ a b : Transf α, (∀ i, (a.q i == b.q i) = true) → (∀ i, (a.t i == b.t i) = true) → ∃ s', a.isBinaryEqual b s = some (true, s')) ∧
    (∀ a b : UTransf α, (∀ i, (a.q i == b.q i) = true) → (∀ i, (a.t i == b.t i) = true) → (∀ i j, (a.U i j == b.U i j) = true) →
      ∃ s', a.isBinaryEqual b s = some (true, s')) := by
  constructor
  · intro a b hq _
    obtain ⟨r, s', h, hi⟩ := (C75_others_partial s).1 a b
    rw [hi.2 hq] at h
    exact ⟨s', h⟩
  · intro a b hq _ hU
    obtain ⟨r, s', h, hi⟩ := (C75_others_partial s).2.1 a b
    rw [hi.2 ⟨hq, hU⟩] at h
    exact ⟨s', h⟩

/-- **C75** the claim is false: two transformations with the same rotation and different translations compare
equal. -/
theorem C75_negation : ¬ C75_claim := by
  intro h
  obtain ⟨-, -, h3, -⟩ := h Nat ⟨false, []⟩
  obtain ⟨r, s', h', hi⟩ := h3 ⟨fun _ => 1, fun _ => 0⟩ ⟨fun _ => 1, fun _ => 5⟩
  obtain ⟨r2, s2, h2, hi2⟩ := (C75_others_partial (α := Nat) ⟨false, []⟩).1 ⟨fun _ => 1, fun _ => 0⟩ ⟨fun _ => 1, fun _ => 5⟩
  rw [h'] at h2
  cases h2
  have := (hi.1 (hi2.2 (by simp))).2 0
  simp at this

/-- Concrete: uncertain transformations that differ in the translation (equal to the code), in the covariance and in
the rotation (different). -/
example : ∃ a b c d : UTransf Nat, a.t 0 ≠ b.t 0 ∧ a.isBinaryEqual b ⟨false, []⟩ = some (true, ⟨false, []⟩) ∧
    a.isBinaryEqual c ⟨true, []⟩ = some (false, ⟨true, [2]⟩) ∧ a.isBinaryEqual d ⟨true, []⟩ = some (false, ⟨true, [0, 1, 2]⟩) := by
  refine ⟨⟨⟨fun _ => 1, fun _ => 0⟩, fun _ _ => 1⟩, ⟨⟨fun _ => 1, fun _ => 3⟩, fun _ _ => 1⟩, ⟨⟨fun _ => 1, fun _ => 0⟩, fun _ _ => 2⟩,
    ⟨⟨fun _ => 2, fun _ => 0⟩, fun _ _ => 1⟩, by simp, ?_, ?_, ?_⟩ <;> decide

end Verif.Serial
