import Verif.Timing.CorrectorObj
import Verif.Timing.CorrectorProps

/-!
# C145, C146: `reset` and copies of timestamp correctors
-/

namespace Verif.Timing.Corrector

/-! ## Specification of C146 -/

/-- the calls an object has received, itself or, before it was copied, its source; `none` = destroyed -/
abbrev Ledger := List (Option (List Call))

/-- the bookkeeping of a program -/
def Ledger.step (L : Ledger) : Op → Ledger
  | .create => L ++ [some []]
  | .copy i => match L[i]? with
    | some (some h) => L ++ [some h]
    | _ => L
  | .move i => match L[i]? with
    | some (some h) => (L ++ [some h]).set i none
    | _ => L
  | .assign i j => match L[i]?, L[j]? with
    | some (some _), some (some h) => L.set i (some h)
    | _, _ => L
  | .destroy i => L.set i none
  | .call i c => match L[i]? with
    | some (some h) => L.set i (some (h ++ [c]))
    | _ => L

/-- the result of the last of these calls on an object of its own -/
def alone (cast : ℚ → ℚ) (h : List Call) (c : Call) : Option Res :=
  ((Dual.calls cast .fresh h).2.call cast c).1

/-- the results expected of a program: every call gives what it gives on an object of its own that received the same calls -/
def expected (cast : ℚ → ℚ) : Ledger → List Op → List (Option Res)
  | _, [] => []
  | L, o :: os => (match o with
      | .call i c => match L[i]? with
        | some (some h) => alone cast h c
        | _ => none
      | _ => none) :: expected cast (L.step o) os

/-- copies are taken (by constructor or assignment) only of objects that have not been used with a switching period -/
def SafeCopies : Ledger → List Op → Prop
  | _, [] => True
  | L, o :: os => (match o with
      | .copy i | .assign _ i => ∀ h, L[i]? = some (some h) → ∀ p period, Call.three p period ∉ h
      | _ => True) ∧ SafeCopies (L.step o) os

/-! ## Proofs -/

/-- the object with what its pointer points to -/
def view (mem : List Corr) (o : Obj) : Option Dual := match o.pending with
  | none => some ⟨o.corr, none⟩
  | some a => mem[a]?.map fun p => ⟨o.corr, some p⟩

theorem view_congr {mem mem' : List Corr} {o : Obj} (h : ∀ a, o.pending = some a → mem'[a]? = mem[a]?) : view mem' o = view mem o := by
  unfold view
  cases hp : o.pending with
  | none => rfl
  | some a => simp only [h a hp]

theorem calls_snoc (cast : ℚ → ℚ) (d : Dual) (h : List Call) (c : Call) :
    Dual.calls cast d (h ++ [c]) = ((Dual.calls cast d h).1 ++ [((Dual.calls cast d h).2.call cast c).1], ((Dual.calls cast d h).2.call cast c).2) := by
  induction h generalizing d with
  | nil => simp [Dual.calls]
  | cons a h ih => simp only [List.cons_append, Dual.calls, ih]

theorem three_view {cast : ℚ → ℚ} {o : Obj} {mem : List Corr} {d : Dual} (hv : view mem o = some d) (r l period : ℚ) :
    (o.correct3 cast mem r l period).1 = (correct3 cast d r l period).1 ∧
    view (o.correct3 cast mem r l period).2.2 (o.correct3 cast mem r l period).2.1 = some (correct3 cast d r l period).2 ∧
    (∀ b, b < mem.length → o.pending ≠ some b → (o.correct3 cast mem r l period).2.2[b]? = mem[b]?) ∧
    mem.length ≤ (o.correct3 cast mem r l period).2.2.length ∧
    ((o.correct3 cast mem r l period).2.1.pending = o.pending ∨ (o.correct3 cast mem r l period).2.1.pending = some mem.length) := by
  obtain ⟨oc, op⟩ := o
  cases op with
  | none =>
    simp only [view, Option.some.injEq] at hv
    subst hv
    unfold Obj.correct3 correct3
    dsimp only
    rcases hc : correct cast oc r l with ⟨res, m⟩
    cases res with
    | threw => simp [view]
    | ub => simp [view]
    | value v =>
      dsimp only
      by_cases h1 : period / 2 < span m
      · simp only [if_pos h1]
        rw [List.getElem?_append_right (Nat.le_refl _)]
        simp only [Nat.sub_self, List.getElem?_cons_zero]
        rcases hp : correct cast Corr.fresh r l with ⟨res', p'⟩
        cases res' with
        | threw => simp [view]; intro b hb; rw [List.getElem?_append_left hb]
        | ub => simp [view]; intro b hb; rw [List.getElem?_append_left hb]
        | value v' =>
          by_cases h2 : period < span m
          · simp [view, h2]; intro b hb; rw [List.getElem?_append_left hb]
          · simp [view, h2]; intro b hb; rw [List.getElem?_append_left hb]
      · simp only [if_neg h1]
        by_cases h2 : period < span m
        · simp [view, h2]
        · simp [view, h2]
  | some a =>
    simp only [view] at hv
    obtain ⟨p, hp, rfl⟩ := Option.map_eq_some_iff.1 hv
    have ha : a < mem.length := (List.getElem?_eq_some_iff.1 hp).1
    unfold Obj.correct3 correct3
    dsimp only
    rcases hc : correct cast oc r l with ⟨res, m⟩
    cases res with
    | threw => simp [view, hp]
    | ub => simp [view, hp]
    | value v =>
      simp only [hp]
      have hset : ∀ (q : Corr) b, b < mem.length → some a ≠ some b → (mem.set a q)[b]? = mem[b]? := by
        intro q b hb hne
        rw [List.getElem?_set_ne (by rintro rfl; exact hne rfl)]
      rcases hcp : correct cast p r l with ⟨res', p'⟩
      cases res' with
      | threw => simp [view, hp]
      | ub => refine ⟨rfl, ?_, hset _, ?_, Or.inl rfl⟩ <;> simp [view, ha]
      | value v' =>
        by_cases h2 : period < span m
        · simp only [if_pos h2]
          refine ⟨trivial, ?_, hset _, ?_, Or.inl trivial⟩ <;> simp [view, ha]
        · simp only [if_neg h2]
          refine ⟨trivial, ?_, hset _, ?_, Or.inl trivial⟩ <;> simp [view, ha]

theorem three_none {cast : ℚ → ℚ} {d : Dual} {h : List Call} (hn : ∀ p period, Call.three p period ∉ h) (hd : d.pending = none) :
    (Dual.calls cast d h).2.pending = none := by
  induction h generalizing d with
  | nil => exact hd
  | cons c h ih =>
    refine ih (fun p q hm => hn p q (List.mem_cons_of_mem _ hm)) ?_
    cases c with
    | two p => exact hd
    | three p q => exact absurd List.mem_cons_self (hn p q)
    | reset => exact hd

/-- memory and ledger agree, and no two objects share a pending corrector -/
structure Rel (cast : ℚ → ℚ) (w : World) (L : Ledger) : Prop where
  len : w.objs.length = L.length
  live : ∀ (i : ℕ) (o : Obj), w.objs[i]? = some (some o) → ∃ h, L[i]? = some (some h) ∧ view w.mem o = some (Dual.calls cast .fresh h).2
  dead : ∀ i : ℕ, w.objs[i]? = some none → L[i]? = some none
  inj : ∀ (i j : ℕ) (o o' : Obj) (a : ℕ), w.objs[i]? = some (some o) → w.objs[j]? = some (some o') → o.pending = some a → o'.pending = some a → i = j

theorem Rel.obj {cast : ℚ → ℚ} {w : World} {L : Ledger} (hr : Rel cast w L) (i : ℕ) :
    (∃ o h, w.objs[i]? = some (some o) ∧ L[i]? = some (some h) ∧ view w.mem o = some (Dual.calls cast .fresh h).2) ∨
    (∀ o, w.objs[i]? ≠ some (some o)) ∧ ∀ h, L[i]? ≠ some (some h) := by
  cases ho : w.objs[i]? with
  | none =>
    right
    refine ⟨by simp, fun h => ?_⟩
    rw [List.getElem?_eq_none_iff] at ho
    rw [List.getElem?_eq_none_iff.2 (hr.len ▸ ho)]
    simp
  | some x => cases x with
    | none => exact Or.inr ⟨by simp, fun h => by rw [hr.dead i ho]; simp⟩
    | some o =>
      obtain ⟨h, h1, h2⟩ := hr.live i o ho
      exact Or.inl ⟨o, h, rfl, h1, h2⟩

/-- an object is replaced by one with the same pointer or a new one -/
theorem Rel.replace {cast : ℚ → ℚ} {w : World} {L : Ledger} (hr : Rel cast w L) {i : ℕ} {o o' : Obj} {mem' : List Corr} {h' : List Call}
    (ho : w.objs[i]? = some (some o)) (hv : view mem' o' = some (Dual.calls cast .fresh h').2)
    (hmem : ∀ b, b < w.mem.length → o.pending ≠ some b → mem'[b]? = w.mem[b]?)
    (hp : o'.pending = none ∨ o'.pending = o.pending ∨ o'.pending = some w.mem.length) :
    Rel cast ⟨w.objs.set i (some o'), mem'⟩ (L.set i (some h')) := by
  have hi : i < w.objs.length := (List.getElem?_eq_some_iff.1 ho).1
  have inRange : ∀ (j : ℕ) (p : Obj) (a : ℕ), w.objs[j]? = some (some p) → p.pending = some a → a < w.mem.length := by
    intro j p a hj hpa
    obtain ⟨h, -, h2⟩ := hr.live j p hj
    simp only [view, hpa] at h2
    obtain ⟨x, hx, -⟩ := Option.map_eq_some_iff.1 h2
    exact (List.getElem?_eq_some_iff.1 hx).1
  refine ⟨by simp [hr.len], ?_, ?_, ?_⟩
  · intro j p hj
    by_cases e : j = i
    · subst e
      rw [List.getElem?_set_self hi] at hj
      cases hj
      exact ⟨h', by rw [List.getElem?_set_self (hr.len ▸ hi)], hv⟩
    · rw [List.getElem?_set_ne (Ne.symm e)] at hj ⊢
      obtain ⟨h, h1, h2⟩ := hr.live j p hj
      refine ⟨h, h1, ?_⟩
      rw [← h2]
      refine view_congr fun a hpa => hmem a (inRange j p a hj hpa) fun hoa => e (hr.inj j i p o a hj ho hpa hoa)
  · intro j hj
    by_cases e : j = i
    · subst e
      rw [List.getElem?_set_self hi] at hj
      cases hj
    · rw [List.getElem?_set_ne (Ne.symm e)] at hj ⊢
      exact hr.dead j hj
  · intro j k p q a hj hk hpa hqa
    have fresh : ∀ (j : ℕ) (p : Obj), w.objs[j]? = some (some p) → p.pending = some a → o'.pending = some a → j = i := by
      intro j p hj hpa hoa
      rcases hp with hp | hp | hp
      · rw [hp] at hoa; cases hoa
      · exact hr.inj j i p o a hj ho hpa (hp ▸ hoa)
      · rw [hp] at hoa; cases hoa
        exact absurd (inRange j p _ hj hpa) (lt_irrefl _)
    by_cases e : j = i <;> by_cases e' : k = i
    · rw [e, e']
    · subst e
      rw [List.getElem?_set_self hi] at hj
      cases hj
      rw [List.getElem?_set_ne (Ne.symm e')] at hk
      exact (fresh k q hk hqa hpa).symm
    · subst e'
      rw [List.getElem?_set_self hi] at hk
      cases hk
      rw [List.getElem?_set_ne (Ne.symm e)] at hj
      exact fresh j p hj hpa hqa
    · rw [List.getElem?_set_ne (Ne.symm e)] at hj
      rw [List.getElem?_set_ne (Ne.symm e')] at hk
      exact hr.inj j k p q a hj hk hpa hqa

theorem Rel.kill {cast : ℚ → ℚ} {w : World} {L : Ledger} (hr : Rel cast w L) (i : ℕ) :
    Rel cast { w with objs := w.objs.set i none } (L.set i none) := by
  have old : ∀ {j : ℕ} {o : Obj}, (w.objs.set i none)[j]? = some (some o) → j ≠ i ∧ w.objs[j]? = some (some o) := by
    intro j o hj
    rw [List.getElem?_set] at hj
    by_cases e : i = j
    · rw [if_pos e] at hj
      split at hj <;> cases hj
    · rw [if_neg e] at hj
      exact ⟨Ne.symm e, hj⟩
  refine ⟨by simp [hr.len], ?_, ?_, ?_⟩
  · intro j p hj
    obtain ⟨e, hj⟩ := old hj
    rw [List.getElem?_set_ne (Ne.symm e)]
    exact hr.live j p hj
  · intro j hj
    simp only [List.getElem?_set] at hj ⊢
    by_cases e : i = j
    · rw [if_pos e] at hj ⊢
      split at hj
      · rw [if_pos (by rw [← hr.len]; assumption)]
      · cases hj
    · rw [if_neg e] at hj ⊢
      exact hr.dead j hj
  · intro j k p q a hj hk
    exact hr.inj j k p q a (old hj).2 (old hk).2

/-- an object without pending corrector is added -/
theorem Rel.add {cast : ℚ → ℚ} {w : World} {L : Ledger} (hr : Rel cast w L) {o : Obj} {h : List Call} (hp : o.pending = none)
    (hv : view w.mem o = some (Dual.calls cast .fresh h).2) : Rel cast { w with objs := w.objs ++ [some o] } (L ++ [some h]) := by
  have old : ∀ {j : ℕ} {x : Option Obj}, (w.objs ++ [some o])[j]? = some x → w.objs[j]? = some x ∧ j < w.objs.length ∨ j = w.objs.length ∧ x = some o := by
    intro j x hj
    rcases lt_trichotomy j w.objs.length with hl | hl | hl
    · rw [List.getElem?_append_left hl] at hj; exact Or.inl ⟨hj, hl⟩
    · subst hl; simp at hj; exact Or.inr ⟨rfl, hj.symm⟩
    · rw [List.getElem?_eq_none_iff.2 (by simp; omega)] at hj; cases hj
  refine ⟨by simp [hr.len], ?_, ?_, ?_⟩
  · intro j p hj
    rcases old hj with ⟨hj, hl⟩ | ⟨rfl, hx⟩
    · rw [List.getElem?_append_left (hr.len ▸ hl)]
      exact hr.live j p hj
    · cases hx
      exact ⟨h, by rw [hr.len]; simp, hv⟩
  · intro j hj
    rcases old hj with ⟨hj, hl⟩ | ⟨rfl, hx⟩
    · rw [List.getElem?_append_left (hr.len ▸ hl)]
      exact hr.dead j hj
    · cases hx
  · intro j k p q a hj hk hpa hqa
    rcases old hj with ⟨hj, hl⟩ | ⟨rfl, hx⟩
    · rcases old hk with ⟨hk, hl'⟩ | ⟨rfl, hy⟩
      · exact hr.inj j k p q a hj hk hpa hqa
      · cases hy; rw [hp] at hqa; cases hqa
    · cases hx; rw [hp] at hpa; cases hpa

/-- an object is copied and the source destroyed -/
theorem Rel.moved {cast : ℚ → ℚ} {w : World} {L : Ledger} (hr : Rel cast w L) {i : ℕ} {o : Obj} {h : List Call} (ho : w.objs[i]? = some (some o))
    (hL : L[i]? = some (some h)) (hv : view w.mem o = some (Dual.calls cast .fresh h).2) :
    Rel cast { w with objs := (w.objs ++ [some o]).set i none } ((L ++ [some h]).set i none) := by
  have hi : i < w.objs.length := (List.getElem?_eq_some_iff.1 ho).1
  have old : ∀ {j : ℕ} {x : Option Obj}, ((w.objs ++ [some o]).set i none)[j]? = some x →
      j = i ∧ x = none ∨ j ≠ i ∧ w.objs[j]? = some x ∧ j < w.objs.length ∨ j ≠ i ∧ j = w.objs.length ∧ x = some o := by
    intro j x hj
    by_cases e : j = i
    · subst e
      rw [List.getElem?_set_self (by simp; omega)] at hj
      cases hj; exact Or.inl ⟨rfl, rfl⟩
    · rw [List.getElem?_set_ne (Ne.symm e)] at hj
      right
      rcases lt_trichotomy j w.objs.length with hl | hl | hl
      · rw [List.getElem?_append_left hl] at hj; exact Or.inl ⟨e, hj, hl⟩
      · subst hl; simp at hj; exact Or.inr ⟨e, rfl, hj.symm⟩
      · rw [List.getElem?_eq_none_iff.2 (by simp; omega)] at hj; cases hj
  refine ⟨by simp [hr.len], ?_, ?_, ?_⟩
  · intro j p hj
    rcases old hj with ⟨-, hx⟩ | ⟨e, hj, hl⟩ | ⟨e, rfl, hx⟩
    · cases hx
    · rw [List.getElem?_set_ne (Ne.symm e), List.getElem?_append_left (hr.len ▸ hl)]
      exact hr.live j p hj
    · cases hx
      refine ⟨h, ?_, hv⟩
      rw [List.getElem?_set_ne (Ne.symm e), hr.len]; simp
  · intro j hj
    rcases old hj with ⟨rfl, -⟩ | ⟨e, hj, hl⟩ | ⟨e, rfl, hx⟩
    · rw [List.getElem?_set_self (by simp [← hr.len]; omega)]
    · rw [List.getElem?_set_ne (Ne.symm e), List.getElem?_append_left (hr.len ▸ hl)]
      exact hr.dead j hj
    · cases hx
  · intro j k p q a hj hk hpa hqa
    rcases old hj with ⟨-, hx⟩ | ⟨e, hj, hl⟩ | ⟨e, rfl, hx⟩
    · cases hx
    · rcases old hk with ⟨-, hy⟩ | ⟨e', hk, hl'⟩ | ⟨e', rfl, hy⟩
      · cases hy
      · exact hr.inj j k p q a hj hk hpa hqa
      · cases hy; exact absurd (hr.inj j i p o a hj ho hpa hqa) e
    · rcases old hk with ⟨-, hy⟩ | ⟨e', hk, hl'⟩ | ⟨e', rfl, hy⟩
      · cases hy
      · cases hx; exact absurd (hr.inj k i q o a hk ho hqa hpa) e'
      · rfl

theorem view_pending {mem : List Corr} {o : Obj} {d : Dual} (hv : view mem o = some d) (hd : d.pending = none) : o.pending = none := by
  unfold view at hv
  cases hp : o.pending with
  | none => rfl
  | some a =>
    rw [hp] at hv
    obtain ⟨p, -, rfl⟩ := Option.map_eq_some_iff.1 hv
    cases hd

theorem view_corr {mem : List Corr} {o : Obj} {d : Dual} (hv : view mem o = some d) : o.corr = d.main := by
  unfold view at hv
  cases hp : o.pending with
  | none => rw [hp] at hv; cases hv; rfl
  | some a =>
    rw [hp] at hv
    obtain ⟨p, -, rfl⟩ := Option.map_eq_some_iff.1 hv
    rfl

theorem view_main {mem : List Corr} {o : Obj} {d : Dual} (hv : view mem o = some d) (m : Corr) : view mem { o with corr := m } = some { d with main := m } := by
  unfold view at hv ⊢
  cases hp : o.pending with
  | none => rw [hp] at hv; cases hv; rfl
  | some a =>
    rw [hp] at hv
    obtain ⟨p, hp', rfl⟩ := Option.map_eq_some_iff.1 hv
    simp [hp']

theorem rel_run {cast : ℚ → ℚ} : ∀ (ops : List Op) {w : World} {L : Ledger}, Rel cast w L → SafeCopies L ops →
    World.run cast w ops = expected cast L ops := by
  intro ops
  induction ops with
  | nil => intros; rfl
  | cons op ops ih =>
    intro w L hr hs
    obtain ⟨hs1, hs2⟩ := hs
    unfold World.run expected
    have key : (w.step cast op).1 = (match (generalizing := false) op with
        | .call i c => match L[i]? with
          | some (some h) => alone cast h c
          | _ => none
        | _ => none) ∧ Rel cast (w.step cast op).2 (L.step op) := by
      cases op with
      | create => exact ⟨rfl, hr.add rfl rfl⟩
      | copy i =>
        refine ⟨rfl, ?_⟩
        rcases hr.obj i with ⟨o, h, h1, h2, h3⟩ | ⟨h1, h2⟩
        · simp only [World.step, Ledger.step, h1, h2]
          exact hr.add (view_pending h3 (three_none (hs1 h h2) rfl)) h3
        · simp only [World.step, Ledger.step]
          exact hr
      | move i =>
        refine ⟨rfl, ?_⟩
        rcases hr.obj i with ⟨o, h, h1, h2, h3⟩ | ⟨h1, h2⟩
        · simp only [World.step, Ledger.step, h1, h2]
          exact hr.moved h1 h2 h3
        · simp only [World.step, Ledger.step]
          exact hr
      | assign i j =>
        refine ⟨rfl, ?_⟩
        rcases hr.obj i with ⟨o, h, h1, h2, h3⟩ | ⟨h1, h2⟩
        · rcases hr.obj j with ⟨o', h', h1', h2', h3'⟩ | ⟨h1', h2'⟩
          · simp only [World.step, Ledger.step, h1, h2, h1', h2']
            exact hr.replace h1 h3' (fun _ _ _ => rfl) (Or.inl (view_pending h3' (three_none (hs1 h' h2') rfl)))
          · simp only [World.step, Ledger.step, h1, h2]
            split
            · rename_i o e; exact absurd ‹w.objs[j]? = some (some _)› (h1' _)
            · split
              · exact absurd ‹L[j]? = some (some _)› (h2' _)
              · exact hr
        · simp only [World.step, Ledger.step]
          split
          · exact absurd ‹w.objs[i]? = some (some _)› (h1 _)
          · split
            · exact absurd ‹L[i]? = some (some _)› (h2 _)
            · exact hr
      | destroy i => exact ⟨rfl, hr.kill i⟩
      | call i c =>
        rcases hr.obj i with ⟨o, h, h1, h2, h3⟩ | ⟨h1, h2⟩
        · simp only [World.step, Ledger.step, h1, h2]
          cases c with
          | two p =>
            refine ⟨by simp only [alone, Dual.call, view_corr h3], ?_⟩
            refine hr.replace h1 ?_ (fun _ _ _ => rfl) (Or.inr (Or.inl rfl))
            rw [calls_snoc, view_main h3, view_corr h3]
            rfl
          | three p period =>
            obtain ⟨g1, g2, g3, g4, g5⟩ := three_view (cast := cast) h3 p.x p.y period
            refine ⟨by simp only [alone, Dual.call, g1], ?_⟩
            refine hr.replace h1 ?_ g3 (Or.inr g5)
            rw [calls_snoc, g2]
            rfl
          | reset =>
            refine ⟨rfl, ?_⟩
            refine hr.replace h1 ?_ (fun _ _ _ => rfl) (Or.inr (Or.inl rfl))
            rw [calls_snoc, view_main h3]
            rfl
        · simp only [World.step, Ledger.step]
          exact ⟨trivial, hr⟩
    rw [key.1, ih key.2 hs2]

/-- **C146, the claim**: copies of a corrector are independent: every call gives what it gives on an object of its own. -/
def C146_claim : Prop := ∀ (cast : ℚ → ℚ) (ops : List Op), World.run cast .start ops = expected cast [] ops

/-- an object is fed with a switching period of 2, copied, and then both are given the same next observation -/
def sharing : List Op := [.create, .call 0 (.three ⟨0, 0⟩ 2), .call 0 (.three ⟨1, 1⟩ 2), .call 0 (.three ⟨2, 2⟩ 2), .copy 0,
  .call 0 (.three ⟨3, 2⟩ 2), .call 1 (.three ⟨3, 2⟩ 2)]

/-- **C146 refuted**: two copies share the corrector they switch to; the second one to be fed reports that time went backwards. -/
theorem C146_negation : ¬ C146_claim := by
  intro h
  exact absurd (h id sharing) (by decide +kernel)

/-- Concrete: the copy refuses the observation the original accepted; it would accept it on its own. -/
example : (World.run id .start sharing).getLast? = some (some .threw) ∧ (expected id [] sharing).getLast? = some (some (.value 2)) := by decide +kernel

/-- **C146, what holds**: copies of correctors that have never been used with a switching period are independent, and so are copies whose source is destroyed, whatever was done with it; this for all programs with any number of objects. -/
theorem C146_partial (cast : ℚ → ℚ) (ops : List Op) (h : SafeCopies [] ops) : World.run cast .start ops = expected cast [] ops :=
  rel_run ops ⟨rfl, by simp [World.start], by simp [World.start], by simp [World.start]⟩ h

/-- Concrete: a program with a copy, an assignment, and a move of an object used with a switching period. -/
def copying : List Op := [.create, .call 0 (.two ⟨0, 0⟩), .copy 0, .call 0 (.three ⟨1, 1⟩ 2), .call 0 (.three ⟨2, 2⟩ 2), .call 0 (.three ⟨3, 3⟩ 2), .move 0,
  .call 2 (.three ⟨4, 4⟩ 2), .call 1 (.two ⟨1, 5⟩), .create, .assign 2 3, .call 2 (.two ⟨0, 7⟩)]

example : SafeCopies [] copying := by
  simp [copying, SafeCopies, Ledger.step]

example : World.run id .start copying = [none, some (.value 0), none, some (.value 1), some (.value 2), some (.value 3), none, some (.value 4), some (.value 5), none, none, some (.value 7)] := by
  decide +kernel

/-! ## C145 -/

/-- **C145, the claim**: after `reset()` a corrector gives the results of a new one, whatever was done with it before and is done with it later. -/
def C145_claim : Prop := ∀ (cast : ℚ → ℚ) (before later : List Call),
  (Dual.calls cast (Dual.calls cast .fresh (before ++ [.reset])).2 later).1 = (Dual.calls cast .fresh later).1

/-- the observations of a list of calls -/
def observations (cs : List Call) : List Point := cs.flatMap fun
  | .two p => [p]
  | .three p _ => [p]
  | .reset => []

/-- **C145, a weaker claim**: … at least if the remote times go on increasing. -/
def C145_claim_increasing : Prop := ∀ (cast : ℚ → ℚ) (before later : List Call),
  (observations (before ++ later)).Pairwise (fun a b => a.x < b.x) →
  (Dual.calls cast (Dual.calls cast .fresh (before ++ [.reset])).2 later).1 = (Dual.calls cast .fresh later).1

/-- **C145 refuted**: the corrector to switch to survives `reset()`; when the remote clock starts again at 0, the next observation is refused. -/
theorem C145_negation : ¬ C145_claim := by
  intro h
  exact absurd (h id [.three ⟨0, 0⟩ 2, .three ⟨1, 1⟩ 2, .three ⟨2, 2⟩ 2] [.three ⟨0, 5⟩ 2]) (by decide +kernel)

/-- the local clock jumps by 100 after the third observation, and the user calls `reset()` -/
def jumped : List Call := [.three ⟨3, 103⟩ 2, .three ⟨4, 104⟩ 2, .three ⟨5, 105⟩ 2, .three ⟨6, 106⟩ 2, .three ⟨7, 110⟩ 2]

/-- **C145 refuted also for increasing remote times**: after the next switch the observations from before `reset()` are used again. -/
theorem C145_negation_increasing : ¬ C145_claim_increasing := by
  intro h
  exact absurd (h id [.three ⟨0, 0⟩ 2, .three ⟨1, 1⟩ 2, .three ⟨2, 2⟩ 2] jumped (by decide +kernel)) (by decide +kernel)

/-- Concrete: the delay of the last observation is not corrected any more. -/
example : (Dual.calls id (Dual.calls id .fresh ([.three ⟨0, 0⟩ 2, .three ⟨1, 1⟩ 2, .three ⟨2, 2⟩ 2] ++ [.reset])).2 jumped).1.getLast? = some (some (.value 110)) ∧
    (Dual.calls id .fresh jumped).1.getLast? = some (some (.value 107)) := by decide +kernel

theorem calls_append (cast : ℚ → ℚ) (d : Dual) (a b : List Call) :
    Dual.calls cast d (a ++ b) = ((Dual.calls cast d a).1 ++ (Dual.calls cast (Dual.calls cast d a).2 b).1, (Dual.calls cast (Dual.calls cast d a).2 b).2) := by
  induction a generalizing d with
  | nil => simp [Dual.calls]
  | cons c a ih => simp only [List.cons_append, Dual.calls, ih]

theorem calls_two {cast : ℚ → ℚ} : ∀ (later : List Call) (d e : Dual), d.main = e.main → (∀ p period, Call.three p period ∉ later) →
    (Dual.calls cast d later).1 = (Dual.calls cast e later).1 := by
  intro later
  induction later with
  | nil => intros; rfl
  | cons c later ih =>
    intro d e h hn
    have hn' : ∀ p period, Call.three p period ∉ later := fun p q hm => hn p q (List.mem_cons_of_mem _ hm)
    cases c with
    | two p =>
      simp only [Dual.calls, Dual.call, h]
      congr 1
      exact ih _ _ rfl hn'
    | three p q => exact absurd List.mem_cons_self (hn p q)
    | reset =>
      simp only [Dual.calls, Dual.call]
      congr 1
      exact ih _ _ rfl hn'

/-- **C145, what holds**: if the switching form was not used before, or is not used later, `reset()` makes a corrector like new. -/
theorem C145_partial (cast : ℚ → ℚ) (before later : List Call)
    (h : (∀ p period, Call.three p period ∉ before) ∨ ∀ p period, Call.three p period ∉ later) :
    (Dual.calls cast (Dual.calls cast .fresh (before ++ [.reset])).2 later).1 = (Dual.calls cast .fresh later).1 := by
  rw [calls_snoc]
  rcases h with h | h
  · have : ((Dual.calls cast .fresh before).2.call cast .reset).2 = .fresh := by
      simp only [Dual.call, Dual.reset]
      rw [three_none h rfl]
      rfl
    simp only [this]
  · exact calls_two later _ _ rfl h

/-- the pending corrector has been fed some of these observations -/
def Fed (cast : ℚ → ℚ) (pts : List Point) (d : Dual) : Prop :=
  ∀ p, d.pending = some p → ∃ s : List Point, s.Pairwise (fun a b => a.x < b.x) ∧ (∀ o ∈ s, o ∈ pts) ∧ p = feed cast .fresh s

theorem correct_feed {isTime : ℚ → Prop} {cast : ℚ → ℚ} (tc : TimeCast isTime cast) {s : List Point} (hs : s.Pairwise fun a b => a.x < b.x)
    (ht : ∀ o ∈ s, isTime o.x ∧ isTime o.y) (p : Point) (hp : isTime p.x ∧ isTime p.y) :
    ((∀ o ∈ s, o.x < p.x) → ∃ v, correct cast (feed cast .fresh s) p.x p.y = (.value v, feed cast .fresh (s ++ [p]))) ∧
    ((¬ ∀ o ∈ s, o.x < p.x) → correct cast (feed cast .fresh s) p.x p.y = (.threw, feed cast .fresh s)) := by
  have ha := accepted_of_increasing hs
  constructor
  · intro h
    obtain ⟨v, hv, -⟩ := C43_returned tc s ht p hp (by rw [ha]; exact h)
    exact ⟨v, Prod.ext hv (feed_snoc _ _ _ _).symm⟩
  · intro h
    have := feed_inv cast s
    rw [ha] at this
    exact (correct_hull cast this p).2 h

theorem fed_three {isTime : ℚ → Prop} {cast : ℚ → ℚ} (tc : TimeCast isTime cast) {pts : List Point} (ht : ∀ o ∈ pts, isTime o.x ∧ isTime o.y)
    {d : Dual} (hf : Fed cast pts d) (p : Point) (hp : isTime p.x ∧ isTime p.y) (period : ℚ) :
    Fed cast (pts ++ [p]) (correct3 cast d p.x p.y period).2 := by
  have weak : ∀ q, (∃ s : List Point, s.Pairwise (fun a b => a.x < b.x) ∧ (∀ o ∈ s, o ∈ pts) ∧ q = feed cast .fresh s) →
      ∃ s : List Point, s.Pairwise (fun a b => a.x < b.x) ∧ (∀ o ∈ s, o ∈ pts ++ [p]) ∧ q = feed cast .fresh s := by
    rintro q ⟨s, h1, h2, h3⟩
    exact ⟨s, h1, fun o ho => List.mem_append_left _ (h2 o ho), h3⟩
  have hfresh : ∃ s : List Point, s.Pairwise (fun a b => a.x < b.x) ∧ (∀ o ∈ s, o ∈ pts ++ [p]) ∧ Corr.fresh = feed cast .fresh s :=
    ⟨[], by simp, by simp, rfl⟩
  have main : ∀ (q : Corr) (m : Corr) (v : ℚ), (∃ s : List Point, s.Pairwise (fun a b => a.x < b.x) ∧ (∀ o ∈ s, o ∈ pts) ∧ q = feed cast .fresh s) →
      Fed cast (pts ++ [p]) (match correct cast q p.x p.y with
        | (.value _, p') => if period < span m then (Res.value v, (⟨p', some .fresh⟩ : Dual)) else (.value v, ⟨m, some p'⟩)
        | (.threw, _) => (.threw, ⟨m, some q⟩)
        | (.ub, p') => (.ub, ⟨m, some p'⟩)).2 := by
    rintro q m v ⟨s, h1, h2, rfl⟩
    have hc := correct_feed tc h1 (fun o ho => ht o (h2 o ho)) p hp
    by_cases hacc : ∀ o ∈ s, o.x < p.x
    · obtain ⟨w, hw⟩ := hc.1 hacc
      rw [hw]
      dsimp only
      split
      · intro c hcc; cases hcc; exact hfresh
      · intro c hcc
        cases hcc
        refine ⟨s ++ [p], ?_, ?_, rfl⟩
        · rw [List.pairwise_append]
          exact ⟨h1, by simp, fun a ha b hb => by rw [List.mem_singleton.1 hb]; exact hacc a ha⟩
        · intro o ho
          rcases List.mem_append.1 ho with ho | ho
          · exact List.mem_append_left _ (h2 o ho)
          · exact List.mem_append_right _ ho
    · rw [hc.2 hacc]
      intro c hcc
      cases hcc
      exact weak _ ⟨s, h1, h2, rfl⟩
  unfold correct3
  rcases hc : correct cast d.main p.x p.y with ⟨res, m⟩
  cases res with
  | threw => exact fun q hq => weak q (hf q hq)
  | ub => exact fun q hq => weak q (hf q hq)
  | value v =>
    dsimp only
    cases hd : d.pending with
    | some q => exact main q m v (hf q hd)
    | none =>
      dsimp only
      by_cases h1 : period / 2 < span m
      · rw [if_pos h1]
        exact main .fresh m v ⟨[], by simp, by simp, rfl⟩
      · rw [if_neg h1]
        dsimp only
        split
        · intro q hq; cases hq
        · intro q hq; cases hq

theorem fed_calls {isTime : ℚ → Prop} {cast : ℚ → ℚ} (tc : TimeCast isTime cast) (cs : List Call) (ht : ∀ o ∈ observations cs, isTime o.x ∧ isTime o.y) :
    Fed cast (observations cs) (Dual.calls cast .fresh cs).2 := by
  induction cs using List.reverseRecOn with
  | nil => intro q hq; cases hq
  | append_singleton cs c ih =>
    have e : observations (cs ++ [c]) = observations cs ++ observations [c] := by simp [observations]
    have ih' := ih fun o ho => ht o (by rw [e]; exact List.mem_append_left _ ho)
    rw [calls_snoc, e]
    cases c with
    | two p =>
      intro q hq
      obtain ⟨s, h1, h2, h3⟩ := ih' q hq
      exact ⟨s, h1, fun o ho => List.mem_append_left _ (h2 o ho), h3⟩
    | three p period =>
      exact fed_three tc (fun o ho => ht o (by rw [e]; exact List.mem_append_left _ ho)) ih' p (ht p (by rw [e]; simp [observations])) period
    | reset =>
      intro q hq
      obtain ⟨s, h1, h2, h3⟩ := ih' q hq
      exact ⟨s, h1, fun o ho => List.mem_append_left _ (h2 o ho), h3⟩

theorem span_le {cast : ℚ → ℚ} {s : List Point} (hs : s.Pairwise fun a b => a.x < b.x) {period : ℚ} (h0 : 0 ≤ period)
    (hy : ∀ a ∈ s, ∀ b ∈ s, b.y - a.y ≤ period) : span (feed cast .fresh s) ≤ period := by
  have hi := feed_inv cast s
  rw [accepted_of_increasing hs] at hi
  unfold span
  split
  · rename_i b a hb ha
    split
    · exact hy a (hi.sub.subset (List.mem_of_mem_head? ha)) b (hi.sub.subset (List.mem_of_getLast? hb))
    · exact h0
  · exact h0

/-- while the observations since the beginning span no more than the period, the answers are those of the two-argument form -/
theorem three_as_two {isTime : ℚ → Prop} {cast : ℚ → ℚ} (tc : TimeCast isTime cast) {period : ℚ} (h0 : 0 ≤ period) :
    ∀ (later s pts : List Point) (d : Dual), d.main = feed cast .fresh s → Fed cast pts d → (s ++ later).Pairwise (fun a b => a.x < b.x) →
    (∀ o ∈ pts, ∀ p ∈ later, o.x < p.x) → (∀ o ∈ s ++ later ++ pts, isTime o.x ∧ isTime o.y) → (∀ a ∈ s ++ later, ∀ b ∈ s ++ later, b.y - a.y ≤ period) →
    (Dual.calls cast d (later.map (.three · period))).1 = (Dual.calls cast ⟨feed cast .fresh s, none⟩ (later.map .two)).1 := by
  intro later
  induction later with
  | nil => intros; rfl
  | cons p later ih =>
    intro s pts d hm hf hx hpts ht hy
    have hsp : ∀ o ∈ s, o.x < p.x := fun o ho => (List.pairwise_append.1 hx).2.2 o ho p List.mem_cons_self
    have hsx : s.Pairwise fun a b => a.x < b.x := (List.pairwise_append.1 hx).1
    have hp : isTime p.x ∧ isTime p.y := ht p (by simp)
    have e : s ++ p :: later = (s ++ [p]) ++ later := by simp
    have hs' : (s ++ [p]).Pairwise fun a b => a.x < b.x := (List.pairwise_append.1 (e ▸ hx)).1
    obtain ⟨v, hv⟩ := (correct_feed tc hsx (fun o ho => ht o (by simp [ho])) p hp).1 hsp
    have hspan : ¬ period < span (feed cast .fresh (s ++ [p])) :=
      not_lt.2 (span_le hs' h0 fun a ha b hb => hy a (by rw [e]; exact List.mem_append_left _ ha) b (by rw [e]; exact List.mem_append_left _ hb))
    have key : (correct3 cast d p.x p.y period).1 = .value v ∧ (correct3 cast d p.x p.y period).2.main = feed cast .fresh (s ++ [p]) := by
      have pend : ∀ q, (∃ s : List Point, s.Pairwise (fun a b => a.x < b.x) ∧ (∀ o ∈ s, o ∈ pts) ∧ q = feed cast .fresh s) →
          ∃ w q', correct cast q p.x p.y = (.value w, q') := by
        rintro q ⟨s', h1, h2, rfl⟩
        obtain ⟨w, hw⟩ := (correct_feed tc h1 (fun o ho => ht o (List.mem_append_right _ (h2 o ho))) p hp).1 fun o ho => hpts o (h2 o ho) p List.mem_cons_self
        exact ⟨w, _, hw⟩
      unfold correct3
      rw [hm, hv]
      dsimp only
      cases hd : d.pending with
      | some q =>
        obtain ⟨w, q', hw⟩ := pend q (hf q hd)
        simp only [hw, if_neg hspan]
        trivial
      | none =>
        dsimp only
        by_cases h1 : period / 2 < span (feed cast .fresh (s ++ [p]))
        · obtain ⟨w, q', hw⟩ := pend .fresh ⟨[], by simp, by simp, rfl⟩
          simp only [if_pos h1, hw, if_neg hspan]
          trivial
        · simp only [if_neg h1, if_neg hspan]
          trivial
    simp only [List.map_cons, Dual.calls, Dual.call, key.1, hv]
    congr 1
    refine ih (s ++ [p]) (pts ++ [p]) _ key.2 (fed_three tc (fun o ho => ht o (List.mem_append_right _ ho)) hf p hp period) (e ▸ hx) ?_ ?_ (e ▸ hy)
    · intro o ho q hq
      rcases List.mem_append.1 ho with ho | ho
      · exact hpts o ho q (List.mem_cons_of_mem _ hq)
      · rw [List.mem_singleton.1 ho]
        exact (List.pairwise_cons.1 (List.pairwise_append.1 hx).2.1).1 q hq
    · intro o ho
      refine ht o ?_
      simp only [List.mem_append, List.mem_cons, List.mem_singleton, List.not_mem_nil, or_false] at ho ⊢
      tauto

/-- **C145, what holds with switching**: after any history of calls of both forms with any periods, and a `reset()`: as long as the new observations span no more local time than the switching period, their remote times increase and are later than all earlier ones, the results are those of a new corrector. -/
theorem C145_switching_partial {isTime : ℚ → Prop} {cast : ℚ → ℚ} (tc : TimeCast isTime cast) (before : List Call) (later : List Point) (period : ℚ)
    (h0 : 0 ≤ period) (ht : ∀ o ∈ observations before ++ later, isTime o.x ∧ isTime o.y) (hx : later.Pairwise fun a b => a.x < b.x)
    (hb : ∀ o ∈ observations before, ∀ p ∈ later, o.x < p.x) (hy : ∀ a ∈ later, ∀ b ∈ later, b.y - a.y ≤ period) :
    (Dual.calls cast (Dual.calls cast .fresh (before ++ [.reset])).2 (later.map (.three · period))).1 =
      (Dual.calls cast .fresh (later.map (.three · period))).1 := by
  have h1 := three_as_two tc h0 later [] (observations before) (Dual.calls cast .fresh (before ++ [.reset])).2 (by rw [calls_snoc]; rfl)
    (by
      have := fed_calls tc before fun o ho => ht o (List.mem_append_left _ ho)
      rw [calls_snoc]
      exact this) (by simpa using hx) hb (fun o ho => ht o (by simp only [List.nil_append, List.mem_append] at ho ⊢; tauto)) (by simpa using hy)
  have h2 := three_as_two tc h0 later [] [] Dual.fresh rfl (fun q hq => by cases hq) (by simpa using hx) (by simp)
    (fun o ho => ht o (by simp only [List.nil_append, List.mem_append, List.not_mem_nil, or_false] at ho ⊢; tauto)) (by simpa using hy)
  rw [h1, h2]

/-- Concrete: the hypotheses are met by a history that has left a corrector to switch to. -/
example : (Dual.calls id (Dual.calls id .fresh ([.three ⟨0, 0⟩ 2, .three ⟨1, 1⟩ 2, .three ⟨2, 2⟩ 2] ++ [.reset])).2 ([⟨3, 10⟩, ⟨4, 12⟩, ⟨5, 12⟩].map (.three · 2))).1 =
    (Dual.calls id .fresh ([⟨3, 10⟩, ⟨4, 12⟩, ⟨5, 12⟩].map (.three · 2))).1 :=
  C145_switching_partial timeCast_exact _ _ 2 (by norm_num) (by simp) (by decide +kernel) (by decide +kernel) (by decide +kernel)

example : (Dual.calls id .fresh [.three ⟨0, 0⟩ 2, .three ⟨1, 1⟩ 2, .three ⟨2, 2⟩ 2, .reset]).2.pending ≠ none := by decide +kernel

end Verif.Timing.Corrector
