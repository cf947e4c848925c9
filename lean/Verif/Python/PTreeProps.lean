import Verif.Python.PTreeSpec
import Verif.PTree.Props

/-!
# C131–C133: property trees in Python
-/

namespace Verif.Python.Tree

open Verif.PTree (Str Tree Codec Namespace CleanEnd entryPath joinKey)

variable {D : Type}

/-! ## what a statement can change -/

theorem withArg_cases {T : Type} (s : Sess) (c : Conv T) (f : T → Out D × Sess) (Q : Out D × Sess → Prop)
    (h1 : ∀ v, c = .ok v → Q (f v)) (h2 : Q (.argumentError, s)) (h3 : Q (.overflowError, s)) : Q (withArg s c f) := by
  unfold withArg
  cases c with
  | ok v => exact h1 v rfl
  | mismatch => exact h2
  | overflow => exact h3

theorem withBoost_cases (s : Sess) (a : Arg D) (f : Obj → Out D × Sess) (Q : Out D × Sess → Prop)
    (h1 : ∀ o, Q (f o)) (h2 : Q (.argumentError, s)) : Q (withBoost s a f) := by
  unfold withBoost
  cases a <;> try exact h2
  simp only
  split
  · split
    · exact h1 _
    · exact h2
  · exact h2

/-- the effect of a function on an object -/
inductive Eff (s : Sess) (o : Obj) (f : Fn) : Out D × Sess → Prop
  | same (out : Out D) : Eff s o f (out, s)
  | wrote (out : Out D) (t : Tree) (h : f.self ≠ .const) (hr : ¬ out.rejected) : Eff s o f (out, s.putTree o.imp t)
  | child (c : Str) (h : f = .getChild) : Eff s o f (s.push ⟨.tree, o.imp, Verif.PTree.childNamespace o.ns c⟩)

theorem doUpdate_eff (s : Sess) (o w : Obj) (c e : Bool) (f : Fn) (h : f.self ≠ .const) : Eff s o f (doUpdate (D := D) s o w c e) := by
  unfold doUpdate
  split
  · exact .wrote _ _ h (by simp [Out.rejected])
  · exact .wrote _ _ h (by simp [Out.rejected])
  · exact .same _

theorem invoke_eff (E : Env D) (s : Sess) (o : Obj) (f : Fn) (args : List (Arg D)) : Eff s o f (invoke E s o f args) := by
  unfold invoke
  split
  · exact withArg_cases _ _ _ _ (fun v _ => .child v rfl) (.same _) (.same _)
  · refine withArg_cases _ _ _ _ (fun v _ => ?_) (.same _) (.same _)
    split <;> exact .same _
  · exact withArg_cases _ _ _ _ (fun v _ => withArg_cases _ _ _ _ (fun _ _ => .same _) (.same _) (.same _)) (.same _) (.same _)
  · exact withArg_cases _ _ _ _ (fun v _ => .same _) (.same _) (.same _)
  · refine withArg_cases _ _ _ _ (fun v _ => withArg_cases _ _ _ _ (fun _ _ => ?_) (.same _) (.same _)) (.same _) (.same _)
    split
    · exact .wrote _ _ (by simp [Fn.self]) (by simp [Out.rejected])
    · exact .same _
  · refine withArg_cases _ _ _ _ (fun v _ => withArg_cases _ _ _ _ (fun _ _ => ?_) (.same _) (.same _)) (.same _) (.same _)
    split
    · exact .wrote _ _ (by simp [Fn.self]) (by simp [Out.rejected])
    · exact .same _
  · refine withArg_cases _ _ _ _ (fun v _ => ?_) (.same _) (.same _)
    split
    · exact .wrote _ _ (by simp [Fn.self]) (by simp [Out.rejected])
    · exact .same _
  · exact withBoost_cases _ _ _ _ (fun w => withArg_cases _ _ _ _ (fun _ _ => withArg_cases _ _ _ _
      (fun _ _ => doUpdate_eff _ _ _ _ _ _ (by simp [Fn.self])) (.same _) (.same _)) (.same _) (.same _)) (.same _)
  · exact withBoost_cases _ _ _ _ (fun w => withArg_cases _ _ _ _
      (fun _ _ => doUpdate_eff _ _ _ _ _ _ (by simp [Fn.self])) (.same _) (.same _)) (.same _)
  · exact withBoost_cases _ _ _ _ (fun w => doUpdate_eff _ _ _ _ _ _ (by simp [Fn.self])) (.same _)
  · exact .same _

/-- the effect of a statement -/
inductive StepEff (s : Sess) (c : Cmd D) : Out D × Sess → Prop
  | same (out : Out D) : StepEff s c (out, s)
  | wrote (out : Out D) (j : Nat) (name : String) (args : List (Arg D)) (o : Obj) (t : Tree) (hc : c = .call j name args)
      (ho : s.objs[j]? = some o) (hw : o.cls ≠ .const) (hr : ¬ out.rejected) : StepEff s c (out, s.putTree o.imp t)
  | view (j : Nat) (o : Obj) (cls : Cls) (n : Str) (hj : j ∈ c.uses) (ho : s.objs[j]? = some o) (hcls : cls = .const ∨ o.cls ≠ .const) :
      StepEff s c (s.push ⟨cls, o.imp, Verif.PTree.childNamespace o.ns n⟩)
  | fresh (b : Str) : StepEff s c (({ s with trees := s.trees ++ [Verif.PTree.Tree.empty] } : Sess).push ⟨.boost, s.trees.length, Verif.PTree.rootNamespace b⟩)

theorem isA_not_const {o : Obj} {d : Cls} (h : o.isA d = true) (hd : d ≠ .const) : o.cls ≠ .const := by
  intro hc
  unfold Obj.isA at h
  rw [hc] at h
  simp [Cls.mro] at h
  exact hd h

theorem step_eff (E : Env D) (s : Sess) (c : Cmd D) : StepEff s c (step E s c) := by
  unfold step
  split
  · next p n =>
    split
    · next o ho =>
      split
      · exact withArg_cases _ _ _ _ (fun v _ => .view p o .const v (by simp [Cmd.uses]) ho (.inl rfl)) (.same _) (.same _)
      · exact .same _
    · exact .same _
  · next p n =>
    split
    · next o ho =>
      split
      · next h => exact withArg_cases _ _ _ _ (fun v _ => .view p o .tree v (by simp [Cmd.uses]) ho (.inr (isA_not_const h (by simp)))) (.same _) (.same _)
      · exact .same _
    · exact .same _
  · exact withArg_cases _ _ _ _ (fun v _ => .fresh v) (.same _) (.same _)
  · next i name args =>
    split
    · next o ho =>
      split
      · next f hf =>
        split
        · next h =>
          have he := invoke_eff E s o f args
          revert he
          generalize invoke E s o f args = r
          intro he
          cases he with
          | same out => exact .same _
          | wrote out t hh hr => exact .wrote out i name args o t rfl ho (isA_not_const h hh) hr
          | child n hfn => exact .view i o .tree n (by simp [Cmd.uses]) ho (.inr (isA_not_const h (by simp [hfn, Fn.self])))
        · exact .same _
      · exact .same _
    · exact .same _

theorem run_cons (E : Env D) (s s' : Sess) (c : Cmd D) (cs : List (Cmd D)) (h : run E s (c :: cs) = some s') :
    run E (step E s c).2 cs = some s' := by
  unfold run at h
  split at h
  · simp at h
  · next o s1 _ heq => rw [heq]; exact h

theorem tree_putTree (s : Sess) (i k : Nat) (t : Tree) (h : i ≠ k) : (s.putTree i t).tree k = s.tree k := by
  unfold Sess.putTree Sess.tree
  simp [List.getD_eq_getElem?_getD, List.getElem?_set, h]

theorem tree_fresh (s : Sess) (k : Nat) (hk : k < s.trees.length) (t : Tree) :
    (({ s with trees := s.trees ++ [t] } : Sess)).tree k = s.tree k := by
  unfold Sess.tree
  simp [List.getD_eq_getElem?_getD, List.getElem?_append, hk]

/-! ## C131 -/

theorem read_only_aux (E : Env D) (i : Nat) (H : List Nat) : ∀ (P : List (Cmd D)) (s s' : Sess) (n : Nat), n ≤ s.objs.length →
    i < s.trees.length →
    (∀ j o, j ∈ H ∨ n ≤ j → s.objs[j]? = some o → o.imp = i → o.cls = .const) →
    (∀ c ∈ P, ∀ j ∈ c.uses, j ∈ H ∨ n ≤ j) →
    run E s P = some s' → s'.tree i = s.tree i
  | [], s, s', n, _, _, _, _, hr => by
    simp [run] at hr; rw [hr]
  | c :: cs, s, s', n, hn, hi, hH, hP, hr => by
    have hr' := run_cons E s s' c cs hr
    have hP' : ∀ c' ∈ cs, ∀ j ∈ c'.uses, j ∈ H ∨ n ≤ j := fun c' h => hP c' (List.mem_cons_of_mem _ h)
    have hu : ∀ j ∈ c.uses, j ∈ H ∨ n ≤ j := hP c (List.mem_cons_self ..)
    have he := step_eff E s c
    revert he hr'
    generalize step E s c = r
    intro hr' he
    cases he with
    | same out => exact read_only_aux E i H cs s s' n hn hi hH hP' hr'
    | wrote out j name args o t hc ho hw hrj =>
      have hj : j ∈ H ∨ n ≤ j := hu j (by simp [hc, Cmd.uses])
      have hne : o.imp ≠ i := fun h => hw (hH j o hj ho h)
      have := read_only_aux E i H cs (s.putTree o.imp t) s' n hn (by simpa [Sess.putTree] using hi) hH hP' hr'
      rw [this, tree_putTree _ _ _ _ hne]
    | view j o cls nm hj ho hcls =>
      have := read_only_aux E i H cs (s.push (D := D) ⟨cls, o.imp, Verif.PTree.childNamespace o.ns nm⟩).2 s' n
        (by simp [Sess.push]; omega) (by simpa [Sess.push] using hi) ?_ hP' hr'
      · rw [this]; rfl
      · intro k o' hk ho' himp
        simp only [Sess.push] at ho'
        rw [List.getElem?_append] at ho'
        split at ho'
        · exact hH k o' hk ho' himp
        · rw [List.getElem?_singleton] at ho'
          split at ho'
          · simp only [Option.some.injEq] at ho'
            subst ho'
            rcases hcls with h | h
            · exact h
            · exact absurd (hH j o (hu j hj) ho himp) h
          · simp at ho'
    | fresh b =>
      have := read_only_aux E i H cs _ s' n
        (by simp [Sess.push]; omega) (by simp [Sess.push]; omega) ?_ hP' hr'
      · rw [this]; exact tree_fresh s i hi _
      · intro k o' hk ho' himp
        simp only [Sess.push] at ho'
        rw [List.getElem?_append] at ho'
        split at ho'
        · exact hH k o' hk ho' himp
        · rw [List.getElem?_singleton] at ho'
          split at ho'
          · simp only [Option.some.injEq] at ho'
            subst ho'
            simp at himp; omega
          · simp at ho'

/-- **C131** Code that is given only `ConstPropertyTree` objects of a tree (and whatever else of other trees), and uses these and the objects it makes itself, cannot
change that tree: whatever statements it runs, in whatever order, with whatever exceptions on the way. -/
theorem C131_read_only (E : Env D) (s s' : Sess) (i : Nat) (hi : i < s.trees.length) (H : List Nat)
    (hH : ∀ j ∈ H, ∀ o, s.objs[j]? = some o → o.imp = i → o.cls = .const)
    (P : List (Cmd D)) (hP : ∀ c ∈ P, ∀ j ∈ c.uses, j ∈ H ∨ s.objs.length ≤ j) (hr : run E s P = some s') :
    s'.tree i = s.tree i := by
  refine read_only_aux E i H P s s' s.objs.length (Nat.le_refl _) hi ?_ hP hr
  intro j o hj ho himp
  rcases hj with hj | hj
  · exact hH j hj o ho himp
  · rw [List.getElem?_eq_none hj] at ho; simp at ho

/-- **C131** A statement changes at most the tree of the object whose method it calls; no statement changes an object that exists, or takes it away; and a call that is rejected —
no such method, arguments that do not convert — changes nothing at all. -/
theorem C131_effects (E : Env D) (s : Sess) (c : Cmd D) :
    (∀ k < s.trees.length, (step E s c).2.tree k ≠ s.tree k →
      ∃ j name args o, c = .call j name args ∧ s.objs[j]? = some o ∧ o.imp = k ∧ o.writer) ∧
    s.objs <+: (step E s c).2.objs ∧ s.trees.length ≤ (step E s c).2.trees.length ∧
    ((step E s c).1.rejected → (step E s c).2 = s) := by
  have he := step_eff E s c
  revert he
  generalize step E s c = r
  intro he
  cases he with
  | same out => simp
  | wrote out j name args o t hc ho hw hr =>
    refine ⟨fun k _ hk => ⟨j, name, args, o, hc, ho, ?_, ?_⟩, ?_, ?_, fun h => absurd h hr⟩
    · exact Classical.byContradiction fun h => hk (tree_putTree _ _ _ _ h)
    · unfold Obj.writer; cases h : o.cls <;> simp_all
    · simp [Sess.putTree]
    · simp [Sess.putTree]
  | view j o cls nm hj ho hcls =>
    refine ⟨fun k _ hk => absurd rfl hk, ?_, ?_, ?_⟩ <;> simp [Sess.push, Out.rejected]
  | fresh b =>
    refine ⟨fun k h hk => absurd (tree_fresh s k h _) hk, ?_, ?_, ?_⟩ <;> simp [Sess.push, Out.rejected]

/-! ### the hypotheses can be met -/

/-- an environment with strings as values -/
def demoEnv : Env Unit where
  codec
    | .int => ⟨fun n : Int => if n = 5 then "5".toList else [], fun s => if s = "5".toList then some (5 : Int) else none⟩
    | .bool => ⟨fun b : Bool => if b then ['1'] else ['0'], fun s => if s = ['1'] then some true else if s = ['0'] then some false else none⟩
    | .str => ⟨id, some⟩
    | .dbl => ⟨fun _ => [], fun _ => some ()⟩
  ofInt _ := some ()
  read _ _ := none

/-- a tree with a `BoostPropertyTree` and a `ConstPropertyTree` object -/
def demoSetup : List (Cmd Unit) :=
  [.newBoost none, .call 0 "setInt" [.str "a/b".toList, .int 5], .newConst 0 (.str "a".toList)]

/-- code that uses only the `ConstPropertyTree` object and one tree of its own: it reads, makes views, tries to write -/
def demoCode : List (Cmd Unit) :=
  [.call 1 "getInt" [.str "b".toList], .call 1 "setInt" [.str "b".toList, .int 7], .newConst 1 (.str "/".toList), .newBoost none,
   .call 3 "setString" [.str "x".toList, .str "y".toList], .newTree 1 (.str "".toList), .call 3 "updateOrCreate" [.obj 1]]

example : ∃ s s', run demoEnv ⟨[], []⟩ demoSetup = some s ∧ run demoEnv s demoCode = some s' ∧
    (∀ j ∈ [1], ∀ o, s.objs[j]? = some o → o.imp = 0 → o.cls = .const) ∧
    (∀ c ∈ demoCode, ∀ j ∈ c.uses, j ∈ [1] ∨ s.objs.length ≤ j) ∧ s'.objs.length = 4 ∧ s'.trees.length = 2 := by
  refine ⟨_, _, rfl, rfl, ?_, ?_, rfl, rfl⟩
  · intro j hj o ho _
    simp at hj; subst hj
    have : (some ⟨Cls.const, 0, "/a/".toList⟩ : Option Obj) = some o := ho
    simp at this; rw [← this]
  · show ∀ c ∈ demoCode, ∀ j ∈ c.uses, j ∈ [1] ∨ 2 ≤ j
    simp [demoCode, Cmd.uses]

/-! ## C132 -/

theorem lookup_getChild (c : Cls) : lookup c "getChild" = some .getChild := by cases c <;> rfl

theorem isA_const (o : Obj) : o.isA .const = true := by unfold Obj.isA; cases o.cls <;> rfl

theorem isA_tree (o : Obj) : o.isA .tree = true ↔ o.writer := by
  unfold Obj.isA Obj.writer; cases o.cls <;> simp [Cls.mro]

theorem lookup_get (c : Cls) (k : VK) : lookup c ("get" ++ k.name) = some (.get k) := by cases c <;> cases k <;> rfl
theorem lookup_getDefault (c : Cls) (k : VK) : lookup c ("get" ++ k.name ++ "Default") = some (.getDefault k) := by cases c <;> cases k <;> rfl
theorem lookup_exists (c : Cls) : lookup c "doesKeyExist" = some .doesKeyExist := by cases c <;> rfl
theorem lookup_set (c : Cls) (hc : c ≠ .const) (k : VK) : lookup c ("set" ++ k.name) = some (.set k) := by
  cases c <;> cases k <;> first | rfl | exact absurd rfl hc

/-- in a reachable session every object has a namespace a view can have, and its tree exists -/
theorem reachable_inv (E : Env D) : ∀ (P : List (Cmd D)) (s s' : Sess), run E s P = some s' →
    (∀ o ∈ s.objs, Namespace o.ns ∧ o.imp < s.trees.length) → ∀ o ∈ s'.objs, Namespace o.ns ∧ o.imp < s'.trees.length
  | [], s, s', hr, h => by simp [run] at hr; subst hr; exact h
  | c :: cs, s, s', hr, h => by
    refine reachable_inv E cs _ s' (run_cons E s s' c cs hr) ?_
    have he := step_eff E s c
    revert he
    generalize step E s c = r
    intro he
    cases he with
    | same out => exact h
    | wrote out j name args o t hc ho hw hr =>
      intro o' ho'
      simpa [Sess.putTree] using h o' ho'
    | view j o cls nm hj ho hcls =>
      intro o' ho'
      have hm := h o (List.mem_of_getElem? ho)
      simp only [Sess.push, List.mem_append, List.mem_singleton] at ho'
      rcases ho' with ho' | rfl
      · exact h o' ho'
      · exact ⟨.child _ _ hm.1, hm.2⟩
    | fresh b =>
      intro o' ho'
      simp only [Sess.push, List.mem_append, List.mem_singleton, List.length_append, List.length_singleton] at ho' ⊢
      rcases ho' with ho' | rfl
      · have := h o' ho'; exact ⟨this.1, by omega⟩
      · exact ⟨.root _, by simp⟩

theorem reachable_obj {E : Env D} {s : Sess} (h : Reachable E s) {i : Nat} {o : Obj} (ho : s.objs[i]? = some o) :
    Namespace o.ns ∧ o.imp < s.trees.length := by
  obtain ⟨P, hP⟩ := h
  exact reachable_inv E P _ s hP (by simp) o (List.mem_of_getElem? ho)

/-- **C132, the claim**: every property tree object has a working `getChild`, and every object that can write has `getOrCreateInt`, `getOrCreateBool`, `getOrCreateString` and
`getOrCreateDouble`. -/
def C132_claim : Prop := ∀ (D : Type) (E : Env D) (s : Sess), Reachable E s → ∀ i o, s.objs[i]? = some o →
  (∀ c, ∃ j, (step E s (.call i "getChild" [.str c])).1 = .made j) ∧
  (o.writer → ∀ k, ∃ f, lookup o.cls ("getOrCreate" ++ VK.name k) = some f)

/-- **C132** is false: `getChild` of a `ConstPropertyTree` object always raises `ArgumentError` (the function registered is that of `PropertyTree`) … -/
theorem C132_const_getChild (E : Env D) (s : Sess) (i : Nat) (o : Obj) (ho : s.objs[i]? = some o) (hc : o.cls = .const) (args : List (Arg D)) :
    step E s (.call i "getChild" args) = (.argumentError, s) := by
  have h1 : o.isA Cls.tree = false := by
    have := isA_tree o; unfold Obj.writer at this; simp only [hc] at this; simpa using this
  simp only [step, ho, lookup_getChild, Fn.self, h1]
  rfl

/-- … and no object has `getOrCreateBool`: the method is called `getOrCreatetBool`. -/
theorem C132_no_getOrCreateBool (E : Env D) (s : Sess) (i : Nat) (o : Obj) (ho : s.objs[i]? = some o) (args : List (Arg D)) :
    step E s (.call i "getOrCreateBool" args) = (.attributeError, s) := by
  have h1 : lookup o.cls "getOrCreateBool" = none := by cases o.cls <;> rfl
  simp only [step, ho, h1]

theorem C132_negation : ¬ C132_claim := by
  intro h
  have hr : Reachable demoEnv ⟨[.node [] []], [⟨.boost, 0, ['/']⟩, ⟨.const, 0, ['/']⟩]⟩ :=
    ⟨[.newBoost none, .newConst 0 (.str [])], rfl⟩
  obtain ⟨j, hj⟩ := (h Unit demoEnv _ hr 1 ⟨.const, 0, ['/']⟩ rfl).1 []
  rw [C132_const_getChild demoEnv _ 1 _ rfl rfl] at hj
  simp at hj

/-- **C132** The part that holds: `getChild(c)` of an object that can write gives a new `PropertyTree` object, the same as `PropertyTree(object, c)`; and every object, also a
`ConstPropertyTree`, gives a read-only view with `ConstPropertyTree(object, c)`.  Through either view every key `k` — `getX`, `getXDefault`, `doesKeyExist` — is the key `c/k` of the object. -/
theorem C132_views_partial (E : Env D) (s : Sess) (hs : Reachable E s) (i : Nat) (o : Obj) (ho : s.objs[i]? = some o) (c : Str) :
    (o.writer → step E s (.call i "getChild" [.str c]) = step E s (.newTree i (.str c))) ∧
    ∀ cmd : Cmd D, (cmd = .newConst i (.str c) ∨ (o.writer ∧ cmd = .call i "getChild" [.str c])) →
      (step E s cmd).1 = .made s.objs.length ∧
      (∃ o', (step E s cmd).2 = ⟨s.trees, s.objs ++ [o']⟩ ∧ o'.imp = o.imp ∧ (o'.cls = .const ↔ cmd = .newConst i (.str c))) ∧
      ∀ (k : VK) (key : Str),
        (step E (step E s cmd).2 (.call s.objs.length ("get" ++ k.name) [.str key])).1 = (step E s (.call i ("get" ++ k.name) [.str (joinKey c key)])).1 ∧
        (∀ d, (step E (step E s cmd).2 (.call s.objs.length ("get" ++ k.name ++ "Default") [.str key, d])).1 =
          (step E s (.call i ("get" ++ k.name ++ "Default") [.str (joinKey c key), d])).1) ∧
        (step E (step E s cmd).2 (.call s.objs.length "doesKeyExist" [.str key])).1 = (step E s (.call i "doesKeyExist" [.str (joinKey c key)])).1 := by
  obtain ⟨hns, _⟩ := reachable_obj hs ho
  have hchild : o.writer → step E s (.call i "getChild" [.str c]) = s.push ⟨.tree, o.imp, Verif.PTree.childNamespace o.ns c⟩ := by
    intro hw
    simp only [step, ho, lookup_getChild, Fn.self, (isA_tree o).2 hw, if_true, invoke, withArg, convStr]
  have hnew : o.writer → step E s (.newTree i (.str c)) = s.push ⟨.tree, o.imp, Verif.PTree.childNamespace o.ns c⟩ := by
    intro hw
    simp only [step, ho, (isA_tree o).2 hw, if_true, withArg, convStr]
  have hconst : step E s (.newConst i (.str c)) = s.push ⟨.const, o.imp, Verif.PTree.childNamespace o.ns c⟩ := by
    simp only [step, ho, isA_const, if_true, withArg, convStr]
  refine ⟨fun hw => (hchild hw).trans (hnew hw).symm, ?_⟩
  intro cmd hcmd
  obtain ⟨cls, hstep, hcls⟩ : ∃ cls, step E s cmd = s.push ⟨cls, o.imp, Verif.PTree.childNamespace o.ns c⟩ ∧ (cls = .const ↔ cmd = .newConst i (.str c)) := by
    rcases hcmd with rfl | ⟨hw, rfl⟩
    · exact ⟨.const, hconst, by simp⟩
    · exact ⟨.tree, hchild hw, by simp⟩
  rw [hstep]
  refine ⟨rfl, ⟨_, rfl, rfl, hcls⟩, fun k key => ?_⟩
  have hget : (s.push (D := D) ⟨cls, o.imp, Verif.PTree.childNamespace o.ns c⟩).2.objs[s.objs.length]? = some ⟨cls, o.imp, Verif.PTree.childNamespace o.ns c⟩ := by
    simp [Sess.push]
  have htree : (s.push (D := D) ⟨cls, o.imp, Verif.PTree.childNamespace o.ns c⟩).2.tree o.imp = s.tree o.imp := rfl
  have hC := Verif.PTree.C25_child_get hns c key (E.codec k) (s.tree o.imp)
  have hq1 := Verif.PTree.C25_qualified (Namespace.child o.ns c hns) o.ns key (E.codec k) (s.tree o.imp)
  have hq2 := Verif.PTree.C25_qualified hns o.ns (joinKey c key) (E.codec k) (s.tree o.imp)
  have habs := (Verif.PTree.C25_child_views hns c key).2.2.2
  rw [habs] at hq1
  refine ⟨?_, fun d => ?_, ?_⟩
  · simp only [step, hget, ho, lookup_get, Fn.self, isA_const, if_true, invoke, withArg, convStr, htree, hC.1]
    split <;> rfl
  · simp only [step, hget, ho, lookup_getDefault, Fn.self, isA_const, if_true, invoke, withArg, convStr, htree]
    cases conv E k d with
    | ok v => simp only [(hq1.2.1 v).trans (hq2.2.1 v).symm]
    | mismatch => rfl
    | overflow => rfl
  · simp only [step, hget, ho, lookup_exists, Fn.self, isA_const, if_true, invoke, withArg, convStr, htree, hC.2.2]

example : ∃ o : Obj, Reachable demoEnv ⟨[.node [] []], [⟨.boost, 0, ['/']⟩, ⟨.const, 0, ['/']⟩]⟩ ∧ o.writer ∧ o = ⟨.boost, 0, ['/']⟩ :=
  ⟨_, ⟨[.newBoost none, .newConst 0 (.str [])], rfl⟩, .inr rfl, rfl⟩

/-! ## C133 -/

/-- the name of the method that gets or creates -/
def createName : VK → String
  | .int => "getOrCreateInt"
  | .bool => "getOrCreatetBool"
  | .str => "getOrCreateString"
  | .dbl => "getOrCreateDouble"

theorem lookup_create (c : Cls) (hc : c ≠ .const) (k : VK) : lookup c (createName k) = some (.getOrCreate k) := by
  cases c <;> cases k <;> first | rfl | exact absurd rfl hc

theorem writer_not_const {o : Obj} (h : o.writer) : o.cls ≠ .const := by
  unfold Obj.writer at h; rcases h with h | h <;> simp [h]

theorem tree_put_same (s : Sess) (i : Nat) (t : Tree) (h : i < s.trees.length) : (s.putTree i t).tree i = t := by
  unfold Sess.putTree Sess.tree
  simp [List.getD_eq_getElem?_getD, h]

/-- **C133** What is written through one object is read through every other object of the same tree whose key leads to the same entry: `setX(key, a)` succeeds for every Python value that
converts to a value `v` of the kind, changes no object and no other tree, and afterwards `getX`, `getXDefault` with any default and `getOrCreateX` give `v`, for kinds whose text converts back. -/
theorem C133_write_read (E : Env D) (s : Sess) (hs : Reachable E s) (i j : Nat) (o o' : Obj) (ho : s.objs[i]? = some o) (ho' : s.objs[j]? = some o')
    (hw : o.writer) (himp : o'.imp = o.imp) (k : VK) (key key' : Str) (hc : CleanEnd o.ns key) (hc' : CleanEnd o'.ns key')
    (hsame : entryPath o'.ns key' = entryPath o.ns key) (a : Arg D) (v : k.Ty D) (ha : conv E k a = .ok v)
    (hcodec : (E.codec k).parse ((E.codec k).print v) = some v) :
    ∃ s', step E s (.call i ("set" ++ k.name) [.str key, a]) = (.unit, s') ∧ s'.objs = s.objs ∧
      (∀ m, m ≠ o.imp → s'.tree m = s.tree m) ∧
      (step E s' (.call j ("get" ++ k.name) [.str key'])).1 = .value (toPy k v) ∧
      (∀ d w, conv E k d = .ok w → (step E s' (.call j ("get" ++ k.name ++ "Default") [.str key', d])).1 = .value (toPy k v)) ∧
      (o'.writer → ∀ d w, conv E k d = .ok w → (step E s' (.call j (createName k) [.str key', d])).1 = .value (toPy k v)) ∧
      (step E s' (.call j "doesKeyExist" [.str key'])).1 = .value (.bool true) := by
  obtain ⟨hns, hlt⟩ := reachable_obj hs ho
  obtain ⟨hns', _⟩ := reachable_obj hs ho'
  have hset := Verif.PTree.set_eq (E.codec k) hns key hc (s.tree o.imp) v
  have hget : Verif.PTree.get (E.codec k) (Verif.PTree.putFrags (s.tree o.imp) (entryPath o.ns key) ((E.codec k).print v)) o'.ns key' = .value v := by
    rw [Verif.PTree.get_eq (E.codec k) hns' key' hc', hsame, Verif.PTree.getData_putFrags]
    simp [Verif.PTree.readAs, hcodec]
  refine ⟨s.putTree o.imp (Verif.PTree.putFrags (s.tree o.imp) (entryPath o.ns key) ((E.codec k).print v)), ?_, rfl, fun m hm => tree_putTree _ _ _ _ (Ne.symm hm), ?_, ?_, ?_, ?_⟩
  · simp only [step, ho, lookup_set _ (writer_not_const hw), Fn.self, (isA_tree o).2 hw, if_true, invoke, withArg, convStr, ha, hset]
  all_goals have hobj : (s.putTree o.imp (Verif.PTree.putFrags (s.tree o.imp) (entryPath o.ns key) ((E.codec k).print v))).objs[j]? = some o' := ho'
  · simp only [step, hobj, lookup_get, Fn.self, isA_const, if_true, invoke, withArg, convStr, himp, tree_put_same _ _ _ hlt, hget]
  · intro d w hd
    have := (Verif.PTree.C27_defaults (E.codec k) _ hns' key' hc' w).1 v hget
    simp only [step, hobj, lookup_getDefault, Fn.self, isA_const, if_true, invoke, withArg, convStr, himp, tree_put_same _ _ _ hlt, hd, this.1]
  · intro hw' d w hd
    have := (Verif.PTree.C27_defaults (E.codec k) _ hns' key' hc' w).1 v hget
    simp only [step, hobj, lookup_create _ (writer_not_const hw'), Fn.self, (isA_tree o').2 hw', if_true, invoke, withArg, convStr, himp, tree_put_same _ _ _ hlt, hd, this.2]
  · have : Verif.PTree.doesKeyExist (Verif.PTree.putFrags (s.tree o.imp) (entryPath o.ns key) ((E.codec k).print v)) o'.ns key' = true := by
      rw [Verif.PTree.doesKeyExist_eq hns' key' hc', hsame, Verif.PTree.getData_putFrags]; simp
    simp only [step, hobj, lookup_exists, Fn.self, isA_const, if_true, invoke, withArg, convStr, himp, tree_put_same _ _ _ hlt, this]

/-- **C133** `getXDefault` and `getOrCreateX` return the same value; the first changes nothing, the second makes the key exist, after which `getX` returns that value (for kinds whose text converts back). -/
theorem C133_default_create (E : Env D) (s : Sess) (hs : Reachable E s) (i : Nat) (o : Obj) (ho : s.objs[i]? = some o) (hw : o.writer)
    (k : VK) (key : Str) (hc : CleanEnd o.ns key) (d : Arg D) (w : k.Ty D) (hd : conv E k d = .ok w)
    (hcodec : (E.codec k).parse ((E.codec k).print w) = some w) :
    (step E s (.call i (createName k) [.str key, d])).1 = (step E s (.call i ("get" ++ k.name ++ "Default") [.str key, d])).1 ∧
    (step E s (.call i ("get" ++ k.name ++ "Default") [.str key, d])).2 = s ∧
    (step E (step E s (.call i (createName k) [.str key, d])).2 (.call i ("get" ++ k.name) [.str key])).1 =
      (step E s (.call i (createName k) [.str key, d])).1 ∧
    (step E (step E s (.call i (createName k) [.str key, d])).2 (.call i (createName k) [.str key, d])).2 =
      (step E s (.call i (createName k) [.str key, d])).2 := by
  obtain ⟨hns, hlt⟩ := reachable_obj hs ho
  have h27 := Verif.PTree.C27_defaults (E.codec k) (s.tree o.imp) hns key hc w
  have hC : ∀ s1 : Sess, s1.objs[i]? = some o → step E s1 (.call i (createName k) [.str key, d]) =
      match Verif.PTree.getDefaultMut (E.codec k) (s1.tree o.imp) o.ns key w with
      | some (v, t) => (.value (toPy k v), s1.putTree o.imp t)
      | none => (.ub, s1) := by
    intro s1 h1
    simp only [step, h1, lookup_create _ (writer_not_const hw), Fn.self, (isA_tree o).2 hw, if_true, invoke, withArg, convStr, hd]
    rfl
  have hG : ∀ s1 : Sess, s1.objs[i]? = some o → step E s1 (.call i ("get" ++ k.name) [.str key]) =
      match Verif.PTree.get (E.codec k) (s1.tree o.imp) o.ns key with
      | .value v => (.value (toPy k v), s1)
      | _ => (.runtimeError, s1) := by
    intro s1 h1
    simp only [step, h1, lookup_get, Fn.self, isA_const, if_true, invoke, withArg, convStr]
    rfl
  have hD : step E s (.call i ("get" ++ k.name ++ "Default") [.str key, d]) =
      (.value (toPy k (Verif.PTree.getDefault (E.codec k) (s.tree o.imp) o.ns key w)), s) := by
    simp only [step, ho, lookup_getDefault, Fn.self, isA_const, if_true, invoke, withArg, convStr, hd]
  by_cases hv : ∃ v, Verif.PTree.get (E.codec k) (s.tree o.imp) o.ns key = .value v
  · obtain ⟨v, hv⟩ := hv
    obtain ⟨e1, e2⟩ := h27.1 v hv
    have hss : s.putTree o.imp (s.tree o.imp) = s := by
      unfold Sess.putTree Sess.tree
      have : s.trees.set o.imp (s.trees.getD o.imp .empty) = s.trees := by
        simp [List.getD_eq_getElem?_getD, hlt]
      rw [this]
    rw [hD, hC s ho, e1, e2]
    simp only [hss]
    rw [hG s ho, hv, hC s ho, e2]
    simp only [hss, and_self]
  · obtain ⟨e1, t', e2, _, e4⟩ := h27.2 (fun v h => hv ⟨v, h⟩)
    obtain ⟨e5, _⟩ := e4 hcodec
    have ht : (s.putTree o.imp t').tree o.imp = t' := tree_put_same _ _ _ hlt
    have e6 := ((Verif.PTree.C27_defaults (E.codec k) t' hns key hc w).1 w e5).2
    rw [hD, hC s ho, e1, e2]
    simp only
    rw [hG (s.putTree o.imp t') ho, ht, e5, hC (s.putTree o.imp t') ho, ht, e6]
    simp [Sess.putTree]

/-- the hypotheses of C133 can be met: writing through a `PropertyTree` view and reading through a `ConstPropertyTree` with another namespace -/
example : ∃ s, run demoEnv ⟨[], []⟩ [.newBoost none, .call 0 "getChild" [.str "a".toList], .newConst 0 (.str "a/b".toList)] = some s ∧
    s.objs = [⟨.boost, 0, "/".toList⟩, ⟨.tree, 0, "/a/".toList⟩, ⟨.const, 0, "/a/b/".toList⟩] ∧
    CleanEnd "/a/".toList "b/c".toList ∧ CleanEnd "/a/b/".toList "c".toList ∧
    entryPath "/a/b/".toList "c".toList = entryPath "/a/".toList "b/c".toList ∧
    conv demoEnv .int (.int 5) = .ok (5 : Int) ∧ (demoEnv.codec .int).parse ((demoEnv.codec .int).print (5 : Int)) = some (5 : Int) := by
  refine ⟨_, rfl, rfl, by decide, by decide, rfl, rfl, rfl⟩

/-- **C133** Python values of the wrong type are refused and nothing is written: `setInt` takes integers in the range of a C++ `int`, `setBool` integers, booleans and `None`, `setString` only `str`,
`setDouble` numbers. -/
theorem C133_refused (E : Env D) (s : Sess) (i : Nat) (o : Obj) (ho : s.objs[i]? = some o) (hw : o.writer) (k : VK) (key : Str) (a : Arg D)
    (h : ∀ v, conv E k a ≠ .ok v) :
    (step E s (.call i ("set" ++ k.name) [.str key, a])).2 = s ∧ (step E s (.call i ("set" ++ k.name) [.str key, a])).1.rejected := by
  simp only [step, ho, lookup_set _ (writer_not_const hw), Fn.self, (isA_tree o).2 hw, if_true, invoke, withArg, convStr]
  cases hcv : conv E k a with
  | ok v => exact absurd hcv (h v)
  | mismatch => exact ⟨rfl, trivial⟩
  | overflow => exact ⟨rfl, trivial⟩

/-- which values convert -/
theorem C133_accepted (E : Env D) (a : Arg D) :
    (∀ n : Int, conv E .int a = .ok n ↔ ((a = .int n ∧ -2147483648 ≤ n ∧ n ≤ 2147483647) ∨ (a = .bool true ∧ n = 1) ∨ (a = .bool false ∧ n = 0))) ∧
    (∀ b : Bool, conv E .bool a = .ok b ↔ (a = .bool b ∨ (∃ n, a = .int n ∧ (b = true ↔ n ≠ 0)) ∨ (a = .none ∧ b = false))) ∧
    (∀ t : Str, conv E .str a = .ok t ↔ a = .str t) ∧
    (∀ x : D, conv E .dbl a = .ok x ↔ (a = .float x ∨ (∃ n, a = .int n ∧ E.ofInt n = some x) ∨ (a = .bool true ∧ E.ofInt 1 = some x) ∨ (a = .bool false ∧ E.ofInt 0 = some x))) := by
  refine ⟨fun n => ?_, fun b => ?_, fun t => ?_, fun x => ?_⟩
  · show convInt a = .ok n ↔ _
    cases a with
    | int m => simp only [convInt]; split <;> simp_all <;> omega
    | bool b => cases b <;> simp [convInt, eq_comm]
    | _ => simp [convInt]
  · show convBool a = .ok b ↔ _
    cases a with
    | int m => cases b <;> simp [convBool]
    | bool c => simp [convBool]
    | none => simp [convBool, eq_comm]
    | _ => simp [convBool]
  · show convStr a = .ok t ↔ _
    cases a <;> simp [convStr]
  · show convDbl E a = .ok x ↔ _
    cases a with
    | float y => simp [convDbl]
    | int n => simp only [convDbl]; cases h : E.ofInt n <;> simp [h]
    | bool b => cases b <;> simp only [convDbl] <;> split <;> simp_all
    | _ => simp [convDbl]

end Verif.Python.Tree
