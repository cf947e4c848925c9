import Verif.Python.Dispatch
import Verif.Serial.BoostProps

/-!
# C103, C104: Python's operators and pickling
-/

namespace Verif.Python

open Verif.Kinematics Verif.Serial.Boost

/-! ## Overloads in general -/

section general

variable {C F : Type} (isA : C → C → Bool)

/-- "derives from" is a partial order -/
structure IsHierarchy : Prop where
  refl : ∀ c, isA c c = true
  trans : ∀ a b c, isA a b = true → isA b c = true → isA a c = true
  antisymm : ∀ a b, isA a b = true → isA b a = true → a = b

/-- no overload is registered before one for a proper base class of its argument -/
def BaseFirst (table : List (Overload C F)) : Prop :=
  table.Pairwise fun o o' => isA o.arg o'.arg = true → o.arg = o'.arg

theorem find_reverse_concat {A : Type} (p : A → Bool) (l : List A) (a : A) :
    (l ++ [a]).reverse.find? p = if p a then some a else l.reverse.find? p := by
  rw [List.reverse_append]
  simp only [List.reverse_cons, List.reverse_nil, List.nil_append, List.cons_append, List.find?_cons]
  by_cases h : p a = true <;> simp [h]

/-- what Boost.Python calls matches, and every overload registered after it does not -/
theorem pyResolve_some {table : List (Overload C F)} {c : C} {o : Overload C F} (h : pyResolve isA table c = some o) :
    isA c o.arg = true ∧ ∃ l r, table = l ++ o :: r ∧ ∀ x ∈ r, isA c x.arg = false := by
  unfold pyResolve at h
  obtain ⟨hp, as, bs, hl, hn⟩ := List.find?_eq_some_iff_append.1 h
  refine ⟨hp, bs.reverse, as.reverse, ?_, ?_⟩
  · have := congrArg List.reverse hl
    simpa using this
  · intro x hx
    have := hn x (by simpa using hx)
    simpa using this

theorem pyResolve_none {table : List (Overload C F)} {c : C} :
    pyResolve isA table c = none ↔ ∀ o ∈ table, isA c o.arg = false := by
  unfold pyResolve
  rw [List.find?_eq_none]
  simp

theorem cppResolve_some {table : List (Overload C F)} {c : C} {o : Overload C F} (h : cppResolve isA table c = some o) :
    o ∈ table ∧ isA c o.arg = true ∧ ∀ o' ∈ table, isA c o'.arg = true → isA o.arg o'.arg = true := by
  unfold cppResolve at h
  have hm := List.mem_of_find?_eq_some h
  have hp := List.find?_some h
  simp only [Bool.and_eq_true, List.all_eq_true, Bool.or_eq_true, Bool.not_eq_true'] at hp
  refine ⟨hm, hp.1, fun o' ho' hc => ?_⟩
  rcases hp.2 o' ho' with h1 | h1
  · rw [hc] at h1; cases h1
  · exact h1

/-- the overload for exactly the argument's class is what C++ calls -/
theorem cppResolve_exact (H : IsHierarchy isA) {table : List (Overload C F)} (hd : (table.map Overload.arg).Nodup) {o : Overload C F}
    (ho : o ∈ table) : cppResolve isA table o.arg = some o := by
  have hex : (cppResolve isA table o.arg).isSome := by
    unfold cppResolve
    rw [List.find?_isSome]
    refine ⟨o, ho, ?_⟩
    simp only [Bool.and_eq_true, List.all_eq_true, Bool.or_eq_true, Bool.not_eq_true']
    refine ⟨H.refl _, fun o' _ => ?_⟩
    cases h : isA o.arg o'.arg <;> simp
  obtain ⟨o', h'⟩ := Option.isSome_iff_exists.1 hex
  obtain ⟨hm, h1, h2⟩ := cppResolve_some isA h'
  have := H.antisymm _ _ h1 (h2 o ho (H.refl _))
  rw [h', List.inj_on_of_nodup_map hd hm ho this.symm]

/-- **C103** for every class hierarchy and every table of overloads with different arguments: Python calls the
function that C++ calls, for all classes of arguments for which C++ has one, if and only if no overload is registered before
one for a base class of its argument. -/
theorem C103_order (H : IsHierarchy isA) (table : List (Overload C F)) (hd : (table.map Overload.arg).Nodup) :
    (∀ c o, cppResolve isA table c = some o → pyResolve isA table c = some o) ↔ BaseFirst isA table := by
  constructor
  · intro h
    rw [BaseFirst, List.pairwise_iff_forall_sublist]
    intro o o' hs hA
    by_contra hne
    have ho : o ∈ table := hs.subset (by simp)
    obtain ⟨-, l, r, hl, hn⟩ := pyResolve_some isA (h _ _ (cppResolve_exact isA H hd ho))
    have hnd : table.Nodup := hd.of_map _
    rw [hl] at hs hnd
    obtain ⟨l1, l2, e, h1, h2⟩ := List.sublist_append_iff.1 hs
    have hol : o ∉ l := fun hm => (List.nodup_append.1 hnd).2.2 o hm o (by simp) rfl
    have : o' ∈ r := by
      cases l1 with
      | cons x l1 =>
        simp only [List.cons_append, List.cons.injEq] at e
        exact absurd (h1.subset (by simp [e.1])) hol
      | nil =>
        simp only [List.nil_append] at e
        rw [← e, List.cons_sublist_cons] at h2
        exact h2.subset (by simp)
    have := hn _ this
    rw [hA] at this
    cases this
  · intro hb c o hc
    obtain ⟨hm, h1, h2⟩ := cppResolve_some isA hc
    cases hp : pyResolve isA table c with
    | none => rw [pyResolve_none] at hp; rw [hp o hm] at h1; cases h1
    | some d =>
      obtain ⟨hd1, l, r, hl, hn⟩ := pyResolve_some isA hp
      have hdm : d ∈ table := by rw [hl]; simp
      have hod := h2 d hdm hd1
      congr 1
      rw [hl] at hm hb
      rcases List.mem_append.1 hm with ho | ho
      · have := (List.pairwise_append.1 hb).2.2 o ho d (by simp) hod
        exact List.inj_on_of_nodup_map hd hdm (by rw [hl]; simp [ho]) this.symm
      · rcases List.mem_cons.1 ho with ho | ho
        · exact ho.symm
        · rw [hn o ho] at h1; cases h1

end general

theorem isA_hierarchy : IsHierarchy Cls.isA := by
  refine ⟨fun c => by cases c <;> rfl, fun a b c => ?_, fun a b => ?_⟩
  · cases a <;> cases b <;> cases c <;> decide
  · cases a <;> cases b <;> decide

/-! ## Transformations and points -/

/-- **C103** (claim) Python's operators on transformations and points give what C++ gives for the same objects. -/
def C103_claim : Prop := ∀ a b : Obj, pyMul a b = cppMul a b ∧ pyAdd a b = cppAdd a b ∧ pySub a b = cppSub a b ∧ pyInverse a = cppInverse a

/-- **C103** sums and differences of points are those of C++, for all operands. -/
theorem C103_points_partial (a b : Obj) : pyAdd a b = cppAdd a b ∧ pySub a b = cppSub a b := by
  cases a <;> cases b <;> exact ⟨rfl, rfl⟩

/-- what is left of an object without its uncertainty -/
def certain : Obj → Obj
  | .utf P => .tf P.X
  | .uhp P => .hp P.p
  | o => o

/-- **C103** exactly: a product in Python is the product in C++ with the right operand without its uncertainty (and an
uncertain transformation cannot be applied to a vector); the inverse is that of the certain transformation. -/
theorem C103_exact_partial (a b : Obj) :
    pyMul a b = (if a.cls = .utf ∧ b.cls = .v3 then none else cppMul a (certain b)) ∧
    pyInverse a = cppInverse (certain a) := by
  constructor
  · cases a <;> cases b <;> rfl
  · cases a <;> rfl

/-- **C103** in particular a product with a right operand that has no uncertainty is that of C++, unless it is an uncertain transformation times a vector, and so
is the inverse of a certain transformation. -/
theorem C103_certain_partial (a b : Obj) (hb : b.cls ≠ .utf ∧ b.cls ≠ .uhp) (h : ¬ (a.cls = .utf ∧ b.cls = .v3)) :
    pyMul a b = cppMul a b ∧ (a.cls ≠ .utf → pyInverse a = cppInverse a) := by
  have e : cppMul a (certain b) = cppMul a b := by cases b <;> first | rfl | simp [Obj.cls] at hb
  rw [(C103_exact_partial a b).1, if_neg h, e]
  refine ⟨rfl, fun ha => ?_⟩
  cases a <;> first | rfl | simp [Obj.cls] at ha

/-- the rigid motion, or the point, that an object stands for -/
def value : Obj → Option (Transformation ⊕ V4 ⊕ V3)
  | .tf X => some (.inl X)
  | .utf P => some (.inl P.X)
  | .hp p => some (.inr (.inl p))
  | .uhp P => some (.inr (.inl P.p))
  | .v3 p => some (.inr (.inr p))
  | .other => none

/-- **C103** the values (means) of Python's products and inverses are right for all operands: only uncertainties are wrong. -/
theorem C103_values_partial (a b : Obj) (h : ¬ (a.cls = .utf ∧ b.cls = .v3)) :
    (pyMul a b).map value = (cppMul a b).map value ∧ (pyInverse a).map value = (cppInverse a).map value := by
  constructor
  · rw [(C103_exact_partial a b).1, if_neg h]
    cases a <;> cases b <;> rfl
  · cases a <;> rfl

/-- **C103** products drop the uncertainty of the right operand: in C++ the product of the identity and an uncertain transformation has the
operand's covariance, in Python it has none. -/
theorem C103_negation : ¬ C103_claim := by
  intro h
  have := (h (.tf .identity) (.utf ⟨.identity, 1⟩)).1
  have e1 : pyMul (.tf .identity) (.utf ⟨.identity, 1⟩) = some (.tf (Transformation.identity.mul .identity)) := rfl
  have e2 : cppMul (.tf .identity) (.utf ⟨.identity, 1⟩) = some (.utf (Transformation.identity.mulUT ⟨.identity, 1⟩)) := rfl
  rw [e1, e2] at this
  cases this

/-- **C103** the inverse of an uncertain transformation is a certain one in Python, and in products of two uncertain transformations the second covariance is
ignored. -/
theorem C103_uncertain_negation :
    (∀ P : UTransf, pyInverse (.utf P) = some (.tf P.X.inverse) ∧ cppInverse (.utf P) = some (.utf P.inverse)) ∧
    (∀ P R : UTransf, pyMul (.utf P) (.utf R) = some (.utf ⟨P.X.mul R.X, P.U⟩) ∧
      cppMul (.utf P) (.utf R) = some (.utf ⟨P.X.mul R.X, P.U + boxTimes P.X.T * R.U * (boxTimes P.X.T).transpose⟩)) ∧
    (∀ (P : UTransf) (q : UPoint), pyMul (.utf P) (.uhp q) = some (.uhp (P.mulHP q.p)) ∧
      cppMul (.utf P) (.uhp q) = some (.uhp (P.mulUP q))) ∧
    (∀ (X : Transformation) (q : UPoint), pyMul (.tf X) (.uhp q) = some (.hp (X.mulHP q.p)) ∧
      cppMul (.tf X) (.uhp q) = some (.uhp (X.mulUP q))) ∧
    ¬ BaseFirst Cls.isA (pyMulTable .tf) ∧ ¬ BaseFirst Cls.isA (pyMulTable .utf) := by
  refine ⟨fun P => ⟨rfl, rfl⟩, fun P R => ⟨rfl, rfl⟩, fun P q => ⟨rfl, rfl⟩, fun X q => ⟨rfl, rfl⟩, ?_, ?_⟩ <;>
    simp [BaseFirst, pyMulTable, Cls.isA]

/-- **C103** what the operators compute for points: the coordinates are those of the sum or difference of the (homogeneous) operands, and the uncertainty is kept when there is
one. -/
theorem C103_points (p q : V4) (P Q : UPoint) :
    pyAdd (.hp p) (.hp q) = some (.hp (hpAdd p q)) ∧ pySub (.hp p) (.hp q) = some (.hp (hpSub p q)) ∧
    pyAdd (.hp p) (.uhp Q) = some (.uhp ⟨hpAdd p Q.p, Q.U⟩) ∧ pySub (.hp p) (.uhp Q) = some (.uhp ⟨hpSub p Q.p, Q.U⟩) ∧
    pyAdd (.uhp P) (.hp q) = some (.uhp ⟨hpAdd P.p q, P.U⟩) ∧ pySub (.uhp P) (.hp q) = some (.uhp ⟨hpSub P.p q, P.U⟩) ∧
    pyAdd (.uhp P) (.uhp Q) = some (.uhp (P.add Q)) ∧ pySub (.uhp P) (.uhp Q) = some (.uhp (P.sub Q)) :=
  ⟨rfl, rfl, rfl, rfl, rfl, rfl, rfl, rfl⟩

/-- Concrete: the points' table has its base classes first, so the general theorem applies to it. -/
example : BaseFirst Cls.isA (pyPointTable 0 1 2 3 .uhp) ∧ ((pyPointTable 0 1 2 3 .uhp).map Overload.arg).Nodup ∧
    pyResolve Cls.isA (pyPointTable 0 1 2 3 .uhp) .uhp = some ⟨.uhp, 3⟩ ∧
    pyResolve Cls.isA (pyPointTable 0 1 2 3 .uhp) .tf = none := by
  refine ⟨by simp [BaseFirst, pyPointTable, Cls.isA], by simp [pyPointTable], by decide, by decide⟩

/-! ## C104 -/

variable {α τ : Type}

/-- objects as the program has them, whose scalars the archive can spell -/
def PObj.Ok (c : Codec α τ) : PObj α → Prop
  | .tf X => TransfOk c X
  | .utf P => TransfOk c P.base ∧ Verif.Serial.Boost.Ok c 6 6 P.U

/-- **C104** (claim) An object that is pickled and unpickled is the same as before. -/
def C104_claim : Prop := ∀ (α τ : Type) (c : Codec α τ) (junk : Nat → α) (zero one : α) (o : PObj α), o.Ok c →
  pickled c junk zero one o = (none, o)

theorem fresh_is (zero one : α) : IsTransf (identityS zero one) := ⟨⟨rfl, rfl, rfl, rfl⟩, ⟨rfl, rfl, rfl, rfl⟩⟩

theorem pickle_base (c : Codec α τ) (junk : Nat → α) (zero one : α) (X : TransfS α) (h : TransfOk c X) :
    loadTransf false c junk (identityS zero one) (saveTransf false c X) = ⟨none, X, []⟩ := by
  have := (reads_transf false c junk X h).ok (identityS zero one) [] (fresh_is zero one)
  simpa using this

/-- **C104** transformations survive pickling. -/
theorem C104_transformation_partial (c : Codec α τ) (junk : Nat → α) (zero one : α) (X : TransfS α) (h : TransfOk c X) :
    pickled c junk zero one (.tf X) = (none, .tf X) := by
  simp [pickled, fresh, getState, setState, pickle_base c junk zero one X h]

/-- **C104** exactly: an uncertain transformation comes back as an uncertain transformation with the same motion, and the covariance zero. -/
theorem C104_exact_partial (c : Codec α τ) (junk : Nat → α) (zero one : α) (P : UTransfS α) (h : TransfOk c P.base) :
    pickled c junk zero one (.utf P) = (none, .utf ⟨P.base, ⟨6, 6, false, List.replicate 36 zero⟩⟩) := by
  simp [pickled, fresh, getState, setState, pickle_base c junk zero one P.base h]

/-- **C104** so it is not the same object unless its covariance was zero; no exception tells. -/
theorem C104_negation : ¬ C104_claim := by
  intro h
  let c : Codec Nat Nat := ⟨id, some⟩
  let P : UTransfS Nat := ⟨identityS 0 1, ⟨6, 6, false, List.replicate 36 7⟩⟩
  have hb : TransfOk c P.base := ⟨⟨⟨rfl, rfl, rfl, rfl⟩, fun _ _ => rfl⟩, ⟨⟨rfl, rfl, rfl, rfl⟩, fun _ _ => rfl⟩⟩
  have h1 := h Nat Nat c id 0 1 (.utf P) ⟨hb, ⟨rfl, rfl, rfl, rfl⟩, fun _ _ => rfl⟩
  rw [C104_exact_partial c id 0 1 P hb] at h1
  simp only [Prod.mk.injEq, PObj.utf.injEq, true_and] at h1
  have := congrArg (fun x : UTransfS Nat => x.U.data.head?) h1
  simp [P] at this

/-- **C104** a state that is not an archive of a transformation is refused (with the archive's exception), whatever the object, and the covariance is never touched. -/
theorem C104_refuses_partial (c : Codec α τ) (junk : Nat → α) (o : PObj α) (s : List (Item τ)) :
    (s = [] → (setState c junk o s).1 = some .stream ∧ (setState c junk o s).2 = o) ∧
    (∀ v r, s = .ver (v + 1) :: r → (setState c junk o s).1 = some .version ∧ (setState c junk o s).2 = o) ∧
    (∀ P, o = .utf P → ∃ X, (setState c junk o s).2 = .utf ⟨X, P.U⟩) := by
  refine ⟨?_, ?_, ?_⟩
  · rintro rfl; cases o <;> exact ⟨rfl, rfl⟩
  · rintro v r rfl
    cases o <;> simp [setState, loadTransf, loadClass]
  · rintro P rfl; exact ⟨_, rfl⟩

/-- Concrete: a transformation with translation (1,2,3), and the codec that keeps numbers. -/
example : ∃ (c : Codec Nat Nat) (X : TransfS Nat), TransfOk c X ∧ X.t.data = [1, 2, 3] ∧ pickled c (fun _ => 5) 0 1 (.tf X) = (none, .tf X) :=
  ⟨⟨id, some⟩, ⟨⟨4, 1, false, [0, 0, 0, 1]⟩, ⟨3, 1, false, [1, 2, 3]⟩⟩,
    ⟨⟨⟨rfl, rfl, rfl, rfl⟩, fun _ _ => rfl⟩, ⟨⟨rfl, rfl, rfl, rfl⟩, fun _ _ => rfl⟩⟩, rfl, rfl⟩

end Verif.Python
