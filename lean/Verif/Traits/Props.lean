import Verif.Traits.Model
import Mathlib.Tactic

/-!
# C93: the type traits
-/

namespace Verif.Traits

/-- the types as the compiler sees them: no `const` of `const` or of a reference, no reference or pointer to a reference -/
def Ty.Normal : Ty → Prop
  | .base _ => True
  | .const t => t.Normal ∧ (∀ u, t ≠ .const u) ∧ (∀ u, t ≠ .ref u) ∧ (∀ u, t ≠ .rref u)
  | .ref t => t.Normal ∧ (∀ u, t ≠ .ref u) ∧ (∀ u, t ≠ .rref u)
  | .rref t => t.Normal ∧ (∀ u, t ≠ .ref u) ∧ (∀ u, t ≠ .rref u)
  | .ptr t => t.Normal ∧ (∀ u, t ≠ .ref u) ∧ (∀ u, t ≠ .rref u)

/-! ## What the names of the traits promise (the traits of the standard library) -/

/-- `std::remove_reference` -/
def removeReference : Ty → Ty
  | .ref t => t
  | .rref t => t
  | t => t

/-- `std::remove_const` -/
def removeConst : Ty → Ty
  | .const t => t
  | t => t

/-- `std::remove_pointer` -/
def removePointer : Ty → Ty
  | .ptr t => t
  | .const (.ptr t) => t
  | t => t

/-- `std::is_reference` -/
def IsReference (t : Ty) : Prop := (∃ u, t = .ref u) ∨ ∃ u, t = .rref u

/-- `std::is_pointer` -/
def IsPointer (t : Ty) : Prop := (∃ u, t = .ptr u) ∨ ∃ u, t = .const (.ptr u)

/-- the full claim: the traits do what their names promise, for every type -/
def C93_claim : Prop :=
  ∀ t : Ty, t.Normal →
    stripReference.result t = some (removeReference t) ∧
    stripConstReference.result t = some (removeConst (removeReference t)) ∧
    stripConstPtr.result t = some (removeConst (removePointer t)) ∧
    (isReferenceType.value t = some true ↔ IsReference t) ∧
    (isPointerType.value t = some true ↔ IsPointer t)

/-- **C93** The full claim is false: rvalue references are not references for these traits, and constant pointers (`int* const`) are
not pointers and are not stripped. -/
theorem C93_negation : ¬ C93_claim ∧
    (∀ t : Ty, stripReference.result (.rref t) = some (.rref t) ∧ stripConstReference.result (.rref t) = some (.rref t) ∧
      isReferenceType.value (.rref t) = some false) ∧
    (∀ t : Ty, stripConstPtr.result (.const (.ptr t)) = some (.ptr t) ∧ isPointerType.value (.const (.ptr t)) = some false) := by
  have h1 : ∀ t : Ty, stripReference.result (.rref t) = some (.rref t) ∧ stripConstReference.result (.rref t) = some (.rref t) ∧
      isReferenceType.value (.rref t) = some false := fun t => ⟨rfl, rfl, rfl⟩
  have h2 : ∀ t : Ty, stripConstPtr.result (.const (.ptr t)) = some (.ptr t) ∧ isPointerType.value (.const (.ptr t)) = some false :=
    fun t => ⟨rfl, rfl⟩
  refine ⟨fun hc => ?_, h1, h2⟩
  have := (hc (.rref (.base 0)) (by simp [Ty.Normal])).1
  rw [(h1 (.base 0)).1] at this
  simp [removeReference] at this

private theorem isReferenceType_value (t : Ty) :
    isReferenceType.value t = some (match t with | .ref _ => true | _ => false) := by
  rcases t with n | w | w | w | w <;> try rfl
  all_goals rcases w with n | w | w | w | w <;> rfl

private theorem isPointerType_value (t : Ty) :
    isPointerType.value t = some (match t with | .ptr _ => true | _ => false) := by
  rcases t with n | w | w | w | w <;> try rfl
  all_goals rcases w with n | w | w | w | w <;> rfl

/-- **C93** What holds: the traits that strip are right for all types without rvalue references at the top (and, for pointers,
other than constant pointers), as are the tests. -/
theorem C93_partial (t : Ty) (hn : t.Normal) :
    ((∀ u, t ≠ .rref u) →
      stripReference.result t = some (removeReference t) ∧
      stripConstReference.result t = some (removeConst (removeReference t)) ∧
      (isReferenceType.value t = some true ↔ IsReference t)) ∧
    ((∀ u, t ≠ .const (.ptr u)) →
      stripConstPtr.result t = some (removeConst (removePointer t)) ∧
      (isPointerType.value t = some true ↔ IsPointer t)) := by
  constructor
  · intro hr
    rcases t with n | u | u | u | u
    · exact ⟨rfl, rfl, by constructor <;> simp [isReferenceType_value, IsReference]⟩
    · obtain ⟨_, hc, _⟩ := hn
      have e : removeConst u = u := by cases u <;> simp_all [removeConst]
      refine ⟨?_, ?_, ?_⟩
      · show some (mkConst u) = some (.const u)
        cases u <;> simp_all [mkConst, Ty.Normal]
      · rfl
      · constructor <;> simp [isReferenceType_value, IsReference]
    · obtain ⟨hu, _⟩ := hn
      refine ⟨?_, ?_, ?_⟩
      · rcases u with n | w | w | w | w
        · rfl
        · show some (mkConst w) = some (.const w)
          obtain ⟨_, h1, h2, h3⟩ := hu
          cases w <;> simp_all [mkConst]
        · rfl
        · rfl
        · rfl
      · rcases u with n | w | w | w | w <;> rfl
      · rcases u with n | w | w | w | w <;>
          simp [isReferenceType_value, IsReference]
    · exact absurd rfl (hr u)
    · exact ⟨rfl, rfl, by constructor <;> simp [isReferenceType_value, IsReference]⟩
  · intro hp
    rcases t with n | u | u | u | u
    · exact ⟨rfl, by constructor <;> simp [isPointerType_value, IsPointer]⟩
    · have hu : ∀ w, u ≠ .ptr w := fun w h => hp w (by rw [h])
      refine ⟨?_, ?_⟩
      · show some u = some _
        cases u <;> simp_all [removePointer, removeConst]
      · constructor
        · simp [isPointerType_value]
        · rintro (⟨w, h⟩ | ⟨w, h⟩)
          · simp at h
          · exact absurd h (hp w)
    · exact ⟨rfl, by constructor <;> simp [isPointerType_value, IsPointer]⟩
    · exact ⟨rfl, by constructor <;> simp [isPointerType_value, IsPointer]⟩
    · refine ⟨?_, ?_⟩
      · rcases u with n | w | w | w | w <;> rfl
      · rcases u with n | w | w | w | w <;>
          simp [isPointerType_value, IsPointer]

example : (Ty.ref (.const (.base 0))).Normal ∧ (∀ u, Ty.ref (.const (.base 0)) ≠ .rref u) ∧
    stripConstReference.result (.ref (.const (.base 0))) = some (.base 0) :=
  ⟨by simp [Ty.Normal], by simp, rfl⟩

/-- **C93** The traits that add: `AddReference` and `AddConstReference` make an lvalue reference to the type (of what it refers
to), the latter a constant one; `AddPtr` and `AddConstPtr` make a pointer to the type, or leave the pointer there is, and do not compile
exactly for references. -/
theorem C93_add (t : Ty) (hn : t.Normal) :
    addReference.result t = some (.ref (removeReference t)) ∧
    ((∀ u, t ≠ .rref u) → addConstReference.result t = some (.ref (.const (removeConst (removeReference t))))) ∧
    (∀ u, t = .rref u → addConstReference.result t = some (.ref u)) ∧
    ((¬ IsReference t) → addPtr.result t = some (.ptr (match t with | .ptr u => u | u => u)) ∧
      addConstPtr.result t = some (.ptr (.const (removeConst (match t with | .ptr u => u | u => u))))) ∧
    (IsReference t → addPtr.result t = none ∧ addConstPtr.result t = none) := by
  refine ⟨?_, ?_, ?_, ?_, ?_⟩
  · rcases t with n | u | u | u | u
    · rfl
    · show some (mkRef (mkConst u)) = _
      obtain ⟨_, h1, h2, h3⟩ := hn
      cases u <;> first | (exfalso; first | exact h1 _ rfl | exact h2 _ rfl | exact h3 _ rfl) | simp [mkConst, mkRef, removeReference]
    · rcases u with n | w | w | w | w
      · rfl
      · show some (mkRef (mkConst w)) = _
        obtain ⟨⟨_, h1, h2, h3⟩, _⟩ := hn
        cases w <;> first | (exfalso; first | exact h1 _ rfl | exact h2 _ rfl | exact h3 _ rfl) | simp [mkConst, mkRef, removeReference]
      · exact absurd rfl (hn.2.1 w)
      · exact absurd rfl (hn.2.2 w)
      · rfl
    · show some (mkRef (.rref u)) = _
      rfl
    · rfl
  · intro hr
    rcases t with n | u | u | u | u
    · rfl
    · show some (mkRef (mkConst u)) = _
      obtain ⟨_, h1, h2, h3⟩ := hn
      cases u <;> first | (exfalso; first | exact h1 _ rfl | exact h2 _ rfl | exact h3 _ rfl) | simp [mkConst, mkRef, removeReference, removeConst]
    · rcases u with n | w | w | w | w
      · rfl
      · show some (mkRef (mkConst w)) = _
        obtain ⟨⟨_, h1, h2, h3⟩, _⟩ := hn
        cases w <;> first | (exfalso; first | exact h1 _ rfl | exact h2 _ rfl | exact h3 _ rfl) | simp [mkConst, mkRef, removeReference, removeConst]
      · exact absurd rfl (hn.2.1 w)
      · exact absurd rfl (hn.2.2 w)
      · rfl
    · exact absurd rfl (hr u)
    · rfl
  · rintro u rfl
    rfl
  · intro hr
    rcases t with n | u | u | u | u
    · exact ⟨rfl, rfl⟩
    · obtain ⟨_, h1, h2, h3⟩ := hn
      constructor
      · show mkPtr (mkConst u) = _
        cases u <;> first | (exfalso; first | exact h1 _ rfl | exact h2 _ rfl | exact h3 _ rfl) | simp [mkConst, mkPtr]
      · show mkPtr (mkConst u) = _
        cases u <;> first | (exfalso; first | exact h1 _ rfl | exact h2 _ rfl | exact h3 _ rfl) | simp [mkConst, mkPtr, removeConst]
    · exact absurd (.inl ⟨u, rfl⟩) hr
    · exact absurd (.inr ⟨u, rfl⟩) hr
    · rcases u with n | w | w | w | w
      · exact ⟨rfl, rfl⟩
      · obtain ⟨⟨_, h1, h2, h3⟩, _⟩ := hn
        constructor
        · show mkPtr (mkConst w) = _
          cases w <;> first | (exfalso; first | exact h1 _ rfl | exact h2 _ rfl | exact h3 _ rfl) | simp [mkConst, mkPtr]
        · show mkPtr (mkConst w) = _
          cases w <;> first | (exfalso; first | exact h1 _ rfl | exact h2 _ rfl | exact h3 _ rfl) | simp [mkConst, mkPtr, removeConst]
      · exact absurd rfl (hn.2.1 w)
      · exact absurd rfl (hn.2.2 w)
      · exact ⟨rfl, rfl⟩
  · rintro (⟨u, rfl⟩ | ⟨u, rfl⟩)
    · exact ⟨rfl, rfl⟩
    · exact ⟨rfl, rfl⟩

example : (Ty.const (.ptr (.base 0))).Normal ∧ addPtr.result (.const (.ptr (.base 0))) = some (.ptr (.const (.ptr (.base 0)))) :=
  ⟨by simp [Ty.Normal], rfl⟩

/-- **C93** The choice of a specialization is never ambiguous, and `SameType` is equality of types. -/
theorem C93_total (t u : Ty) :
    (∀ T ∈ [stripReference, stripConstReference, stripConstPtr, addReference, addConstReference, addPtr, addConstPtr],
      (T.select t).isSome = true) ∧
    (∀ T ∈ [isReferenceType, isPointerType], (T.select t).isSome = true) ∧ (sameType t u = true ↔ t = u) := by
  refine ⟨?_, ?_, by simp [sameType]⟩
  · intro T hT
    simp only [List.mem_cons, List.not_mem_nil, or_false] at hT
    rcases hT with rfl | rfl | rfl | rfl | rfl | rfl | rfl <;> rcases t with n | w | w | w | w <;> try rfl
    all_goals rcases w with n | w | w | w | w <;> rfl
  · intro T hT
    simp only [List.mem_cons, List.not_mem_nil, or_false] at hT
    rcases hT with rfl | rfl <;> rcases t with n | w | w | w | w <;> try rfl
    all_goals rcases w with n | w | w | w | w <;> rfl

end Verif.Traits
