import Mathlib.Data.List.Induction
import Verif.Logging.Statement
import Verif.Logging.Props

/-!
# C125, C126: the log statements of a program
-/

namespace Verif.Logging.Statement

open Verif.Logging (Level addPrefix defaultName Prefixed)

/-! ## Specification -/

/-- the level set last -/
def levelNow (ops : List Op) : Level :=
  ops.foldl (fun v o => match o with | .setLevel w => w | _ => v) .info

/-- whether the stream was last enabled (and not disabled), under any spelling; at the beginning `sm` is -/
def streamOn (ops : List Op) (n : Name) : Bool :=
  ops.foldl (fun v o => match o with
    | .enable m => if addPrefix m = n then true else v
    | .disable m => if addPrefix m = n then false else v
    | _ => v) (decide (n = ['s', 'm']))

/-- the first execution of a statement -/
def firstExec (ops : List Op) (l : Nat) : Option Input :=
  ops.findSome? fun o => match o with | .exec k i => if k = l then some i else none | _ => none

def isPrint : Effect → Bool
  | .print _ _ _ => true
  | _ => false

/-- the last execution of a statement that printed -/
def lastPrint (log : List (Op × List Effect)) (l : Nat) : Option Input :=
  log.foldl (fun v x => match x.1 with | .exec k i => if k = l ∧ x.2.any isPrint then some i else v | _ => v) none

/-- the statement is compiled in -/
def Compiled (b : Build) (st : Stmt) : Prop := b.minSeverity ≤ st.level.toNat

/-- the stream of a statement executed after `ops` with the arguments `i`: that of the first execution -/
def streamAt (b : Build) (prog : Nat → Stmt) (ops : List Op) (l : Nat) (i : Input) : Name :=
  streamOf b (prog l) ((firstExec ops l).getD i)

/-- level and stream let a statement pass -/
def Passes (b : Build) (prog : Nat → Stmt) (ops : List Op) (l : Nat) (i : Input) : Prop :=
  (levelNow ops).toNat ≤ (prog l).level.toNat ∧
    (streamAt b prog ops l i = [] ∨ streamOn ops (streamAt b prog ops l i) = true)

/-- the condition of a `_COND` statement holds -/
def CondHolds (st : Stmt) (i : Input) : Prop := st.cond = true → i.cond = true

/-- the limit of the statement lets it pass -/
def LimitPasses (st : Stmt) (prev : Option Input) (i : Input) : Prop :=
  match st.limit with
  | .always => True
  | .once => prev = none
  | .throttle => (prev.elim 0 fun p => p.now) + i.rate ≤ i.now

instance (b st) : Decidable (Compiled b st) := by unfold Compiled; infer_instance
instance (b prog ops l i) : Decidable (Passes b prog ops l i) := by unfold Passes; infer_instance
instance (st i) : Decidable (CondHolds st i) := by unfold CondHolds; infer_instance
instance (st p i) : Decidable (LimitPasses st p i) := by unfold LimitPasses; split <;> infer_instance

/-- the execution should print -/
def ShouldPrint (b : Build) (prog : Nat → Stmt) (ops : List Op) (l : Nat) (i : Input) : Prop :=
  Compiled b (prog l) ∧ Passes b prog ops l i ∧ CondHolds (prog l) i ∧
    LimitPasses (prog l) (lastPrint (run b prog ops).2 l) i

instance (b prog ops l i) : Decidable (ShouldPrint b prog ops l i) := by unfold ShouldPrint; infer_instance

/-! ## Lemmas -/

/-- what the flag of a location should be -/
def flag (s : St) (c : Statics) : Bool :=
  decide (c.level ≥ s.level) && (decide (c.stream.length = 0) || s.streams c.stream)

theorem checks (l : Nat) : ∀ (ks : List Nat) (s : St), (ks.foldl check s).level = s.level ∧ (ks.foldl check s).streams = s.streams ∧
    (ks.foldl check s).registered = s.registered ∧
    (ks.foldl check s).loc l = if l ∈ ks then { s.loc l with enabled := flag s (s.loc l) } else s.loc l
  | [], s => by simp
  | k :: ks, s => by
    obtain ⟨h1, h2, h3, h4⟩ := checks l ks (check s k)
    refine ⟨h1.trans rfl, h2.trans rfl, h3.trans rfl, ?_⟩
    rw [List.foldl_cons, h4]
    by_cases e : l = k
    · subst e
      simp [check, upd, flag]
    · by_cases m : l ∈ ks <;> simp [check, upd, flag, e, m]

theorem notify_eq (s : St) (l : Nat) : (notify s).level = s.level ∧ (notify s).streams = s.streams ∧ (notify s).registered = s.registered ∧
    (notify s).loc l = if l ∈ s.registered then { s.loc l with enabled := flag s (s.loc l) } else s.loc l :=
  checks l s.registered s

/-- the state fits the history -/
structure Inv (b : Build) (prog : Nat → Stmt) (ops : List Op) (s : St) (log : List (Op × List Effect)) : Prop where
  level : s.level = (levelNow ops).toNat
  streams : s.streams = streamOn ops
  reg : ∀ l, (s.loc l).initialized = true → l ∈ s.registered
  started : ∀ l, (s.loc l).initialized = true ↔ Compiled b (prog l) ∧ (firstExec ops l).isSome = true
  loc : ∀ l i, (s.loc l).initialized = true → firstExec ops l = some i →
    (s.loc l).level = (prog l).level.toNat ∧ (s.loc l).stream = streamOf b (prog l) i ∧ (s.loc l).enabled = flag s (s.loc l)
  hit : ∀ l, (prog l).limit = .once → (s.loc l).hit = (lastPrint log l).isSome
  last : ∀ l, (prog l).limit = .throttle → (s.loc l).last = (lastPrint log l).elim 0 fun p => p.now

theorem levelNow_snoc (ops : List Op) (o : Op) : levelNow (ops ++ [o]) = match o with | .setLevel w => w | _ => levelNow ops := by
  simp only [levelNow, List.foldl_append, List.foldl_cons, List.foldl_nil]

theorem streamOn_snoc (ops : List Op) (o : Op) (n : Name) : streamOn (ops ++ [o]) n = match o with
    | .enable m => if addPrefix m = n then true else streamOn ops n
    | .disable m => if addPrefix m = n then false else streamOn ops n
    | _ => streamOn ops n := by
  simp only [streamOn, List.foldl_append, List.foldl_cons, List.foldl_nil]

theorem firstExec_snoc (ops : List Op) (o : Op) (l : Nat) : firstExec (ops ++ [o]) l = (firstExec ops l).or
    (match o with | .exec k i => if k = l then some i else none | _ => none) := by
  simp only [firstExec, List.findSome?_append, List.findSome?_cons, List.findSome?_nil]
  congr 1
  cases o <;> simp
  split <;> simp_all

theorem lastPrint_snoc (log : List (Op × List Effect)) (o : Op) (e : List Effect) (l : Nat) : lastPrint (log ++ [(o, e)]) l =
    match o with | .exec k i => if k = l ∧ e.any isPrint then some i else lastPrint log l | _ => lastPrint log l := by
  simp only [lastPrint, List.foldl_append, List.foldl_cons, List.foldl_nil]

theorem inv_init (b : Build) (prog : Nat → Stmt) : Inv b prog [] init [] where
  level := rfl
  streams := rfl
  reg := by simp [init]
  started := by simp [init, firstExec]
  loc := by simp [init]
  hit := by simp [init, lastPrint]
  last := by simp [init, lastPrint]

/-- a change of the configuration followed by a notification -/
theorem inv_notify {b : Build} {prog : Nat → Stmt} {ops : List Op} {s : St} {log : List (Op × List Effect)} (h : Inv b prog ops s log) (o : Op)
    (ho : ∀ l i, o ≠ .exec l i) (lv : Nat) (str : Name → Bool) (h1 : lv = (levelNow (ops ++ [o])).toNat) (h2 : str = streamOn (ops ++ [o])) :
    Inv b prog (ops ++ [o]) (notify { s with level := lv, streams := str }) (log ++ [(o, [])]) := by
  have hf : ∀ l, firstExec (ops ++ [o]) l = firstExec ops l := by
    intro l; rw [firstExec_snoc]; cases o <;> simp; exact absurd rfl (ho _ _)
  have hl : ∀ l, lastPrint (log ++ [(o, [])]) l = lastPrint log l := by
    intro l; rw [lastPrint_snoc]; cases o <;> simp
  have N := fun l => notify_eq { s with level := lv, streams := str } l
  have hi : ∀ l, ((notify { s with level := lv, streams := str }).loc l).initialized = (s.loc l).initialized := by
    intro l; rw [(N l).2.2.2]; dsimp only; split <;> rfl
  constructor
  · rw [(N 0).1]; exact h1
  · rw [(N 0).2.1]; exact h2
  · intro l hl'; rw [hi] at hl'; rw [(N l).2.2.1]; exact h.reg l hl'
  · intro l; rw [hi, hf]; exact h.started l
  · intro l i hl' e
    rw [hi] at hl'; rw [hf] at e
    have := h.loc l i hl' e
    rw [(N l).2.2.2]
    dsimp only
    rw [if_pos (h.reg l hl')]
    refine ⟨this.1, this.2.1, ?_⟩
    show flag _ _ = flag _ _
    simp only [flag, (N l).1, (N l).2.1]
  · intro l e; rw [hl, ← h.hit l e, (N l).2.2.2]; dsimp only; split <;> rfl
  · intro l e; rw [hl, ← h.last l e, (N l).2.2.2]; dsimp only; split <;> rfl

/-- an operation that changes nothing -/
theorem inv_same {b : Build} {prog : Nat → Stmt} {ops : List Op} {s : St} {log : List (Op × List Effect)} (h : Inv b prog ops s log) (o : Op)
    (ho : ∀ l i, o ≠ .exec l i) (h1 : (levelNow (ops ++ [o])).toNat = s.level) (h2 : streamOn (ops ++ [o]) = s.streams) :
    Inv b prog (ops ++ [o]) s (log ++ [(o, [])]) := by
  have hf : ∀ l, firstExec (ops ++ [o]) l = firstExec ops l := by
    intro l; rw [firstExec_snoc]; cases o <;> simp; exact absurd rfl (ho _ _)
  have hl : ∀ l, lastPrint (log ++ [(o, [])]) l = lastPrint log l := by
    intro l; rw [lastPrint_snoc]; cases o <;> simp
  exact ⟨h1.symm, h2.symm, h.reg, fun l => by rw [hf]; exact h.started l, fun l i a e => h.loc l i a (by rwa [hf] at e),
    fun l e => by rw [hl]; exact h.hit l e, fun l e => by rw [hl]; exact h.last l e⟩

theorem inv_setLevel {b : Build} {prog : Nat → Stmt} {ops : List Op} {s : St} {log : List (Op × List Effect)} (h : Inv b prog ops s log) (v : Level) :
    Inv b prog (ops ++ [.setLevel v]) (setLevel s v) (log ++ [(.setLevel v, [])]) := by
  have h2 : streamOn (ops ++ [.setLevel v]) = streamOn ops := by funext n; rw [streamOn_snoc]
  unfold setLevel
  split
  · exact inv_notify h (.setLevel v) (by simp) v.toNat s.streams (by rw [levelNow_snoc]) (by rw [h2]; exact h.streams)
  · rename_i e
    exact inv_same h (.setLevel v) (by simp) (by rw [levelNow_snoc]; simpa using e) (by rw [h2]; exact h.streams.symm)

theorem inv_enable {b : Build} {prog : Nat → Stmt} {ops : List Op} {s : St} {log : List (Op × List Effect)} (h : Inv b prog ops s log) (n : Name) :
    Inv b prog (ops ++ [.enable n]) (enable s n) (log ++ [(.enable n, [])]) := by
  refine inv_notify h (.enable n) (by simp) s.level _ (by rw [levelNow_snoc]; exact h.level) ?_
  funext m
  rw [streamOn_snoc, ← h.streams]
  simp only [eq_comm]

theorem inv_disable {b : Build} {prog : Nat → Stmt} {ops : List Op} {s : St} {log : List (Op × List Effect)} (h : Inv b prog ops s log) (n : Name) :
    Inv b prog (ops ++ [.disable n]) (disable s n) (log ++ [(.disable n, [])]) := by
  unfold disable
  split
  · refine inv_notify h (.disable n) (by simp) s.level _ (by rw [levelNow_snoc]; exact h.level) ?_
    funext m
    rw [streamOn_snoc, ← h.streams]
    simp only [eq_comm]
  · rename_i e
    refine inv_same h (.disable n) (by simp) (by rw [levelNow_snoc]; exact h.level.symm) ?_
    funext m
    rw [streamOn_snoc, ← h.streams]
    dsimp only
    split
    · rename_i e2; rw [← e2]; simpa using e
    · rfl

/-- the first half of an execution: the location is initialized if it was not -/
def prep (b : Build) (s : St) (l : Nat) (st : Stmt) (i : Input) : St :=
  if (s.loc l).initialized then s else initLoc s l (streamOf b st i) st.level

theorem prep_inv {b : Build} {prog : Nat → Stmt} {ops : List Op} {s : St} {log : List (Op × List Effect)} (h : Inv b prog ops s log) (l : Nat) (i : Input)
    (hc : Compiled b (prog l)) :
    (prep b s l (prog l) i).level = s.level ∧ (prep b s l (prog l) i).streams = s.streams ∧
    (∀ k, k = l ∨ k ∈ s.registered → k ∈ (prep b s l (prog l) i).registered) ∧ (∀ k, k ≠ l → (prep b s l (prog l) i).loc k = s.loc k) ∧
    ((prep b s l (prog l) i).loc l).initialized = true ∧ ((prep b s l (prog l) i).loc l).level = (prog l).level.toNat ∧
    ((prep b s l (prog l) i).loc l).stream = streamAt b prog ops l i ∧
    ((prep b s l (prog l) i).loc l).enabled = decide (Passes b prog ops l i) ∧
    ((prep b s l (prog l) i).loc l).hit = (s.loc l).hit ∧ ((prep b s l (prog l) i).loc l).last = (s.loc l).last := by
  have hp : ∀ (n : Name) (v : Nat), n = streamAt b prog ops l i → v = (prog l).level.toNat →
      (decide (v ≥ s.level) && (decide (n.length = 0) || s.streams n)) = decide (Passes b prog ops l i) := by
    rintro n v rfl rfl
    rw [h.level, h.streams]
    rw [Bool.eq_iff_iff, decide_eq_true_iff (p := Passes b prog ops _ i)]; simp [Passes]
  unfold prep
  by_cases hi : (s.loc l).initialized = true
  · rw [if_pos hi]
    obtain ⟨j, hj⟩ := Option.isSome_iff_exists.1 ((h.started l).1 hi).2
    have := h.loc l j hi hj
    have hs : (s.loc l).stream = streamAt b prog ops l i := by rw [this.2.1, streamAt, hj]; rfl
    refine ⟨rfl, rfl, ?_, fun _ _ => rfl, hi, this.1, hs, ?_, rfl, rfl⟩
    · rintro k (rfl | hk)
      · exact h.reg k hi
      · exact hk
    · rw [this.2.2]; exact hp _ _ hs this.1
  · rw [if_neg hi]
    have hn : firstExec ops l = none := by
      cases e : firstExec ops l with
      | none => rfl
      | some j => exact absurd ((h.started l).2 ⟨hc, by rw [e]; rfl⟩) hi
    have hs : streamOf b (prog l) i = streamAt b prog ops l i := by rw [streamAt, hn]; rfl
    refine ⟨rfl, rfl, ?_, ?_, ?_, ?_, ?_, ?_, ?_, ?_⟩
    · rintro k (rfl | hk) <;> simp [initLoc, check]
      exact .inl hk
    · intro k hk; simp [initLoc, check, upd, hk]
    · simp [initLoc, check, upd]
    · simp [initLoc, check, upd]
    · simp only [initLoc, check, upd, if_true]; exact hs
    · simp only [initLoc, check, upd, if_true]; exact hp _ _ hs rfl
    · simp [initLoc, check, upd]
    · simp [initLoc, check, upd]

/-- the effects an execution should have -/
def expected (b : Build) (prog : Nat → Stmt) (ops : List Op) (l : Nat) (i : Input) : List Effect :=
  if Compiled b (prog l) then
    (if firstExec ops l = none ∧ (prog l).named = true then [Effect.evalName] else []) ++
    (if Passes b prog ops l i ∧ (prog l).cond = true then [.evalCond] else []) ++
    (if (prog l).limit = .throttle then
      .readClock :: if Passes b prog ops l i ∧ CondHolds (prog l) i then [.evalRate] else [] else []) ++
    (if ShouldPrint b prog ops l i then [.evalMsg, .print (streamAt b prog ops l i) (prog l).level i.msg] else [])
  else []

theorem run_snoc (b : Build) (prog : Nat → Stmt) (ops : List Op) (o : Op) : run b prog (ops ++ [o]) =
    ((step b prog (run b prog ops).1 o).1, (run b prog ops).2 ++ [(o, (step b prog (run b prog ops).1 o).2)]) := by
  simp only [run, List.foldl_append, List.foldl_cons, List.foldl_nil]

/-- effects and successor state of an execution -/
theorem exec_spec {b : Build} {prog : Nat → Stmt} {ops : List Op} (h : Inv b prog ops (run b prog ops).1 (run b prog ops).2) (l : Nat) (i : Input) :
    (exec b (run b prog ops).1 l (prog l) i).2 = expected b prog ops l i ∧
    Inv b prog (ops ++ [.exec l i]) (exec b (run b prog ops).1 l (prog l) i).1
      ((run b prog ops).2 ++ [(.exec l i, (exec b (run b prog ops).1 l (prog l) i).2)]) := by
  generalize hs : (run b prog ops).1 = s at h ⊢
  have hlev : levelNow (ops ++ [.exec l i]) = levelNow ops := by rw [levelNow_snoc]
  have hstr : streamOn (ops ++ [.exec l i]) = streamOn ops := by funext n; rw [streamOn_snoc]
  have hfo : ∀ k, k ≠ l → firstExec (ops ++ [.exec l i]) k = firstExec ops k := by
    intro k hk; rw [firstExec_snoc]; simp [Ne.symm hk]
  have hfl : firstExec (ops ++ [.exec l i]) l = some ((firstExec ops l).getD i) := by
    rw [firstExec_snoc]; cases firstExec ops l <;> simp
  have hlo : ∀ e k, k ≠ l → lastPrint ((run b prog ops).2 ++ [(.exec l i, e)]) k = lastPrint (run b prog ops).2 k := by
    intro e k hk; rw [lastPrint_snoc]; simp [Ne.symm hk]
  by_cases hc : Compiled b (prog l)
  swap
  · have hc' : b.minSeverity > (prog l).level.toNat := by simpa [Compiled] using hc
    have he : exec b s l (prog l) i = (s, []) := by rw [exec, if_pos hc']
    rw [he]
    refine ⟨by rw [expected, if_neg hc], ⟨by rw [hlev]; exact h.level, by rw [hstr]; exact h.streams, h.reg, ?_, ?_, ?_, ?_⟩⟩
    · intro k
      by_cases hk : k = l
      · subst hk; rw [h.started]; simp [hc]
      · rw [hfo k hk]; exact h.started k
    · intro k j hi e
      by_cases hk : k = l
      · subst hk; exact absurd ((h.started k).1 hi).1 hc
      · rw [hfo k hk] at e; exact h.loc k j hi e
    · intro k e
      rw [lastPrint_snoc]; simpa using h.hit k e
    · intro k e
      rw [lastPrint_snoc]; simpa using h.last k e
  · have hc' : ¬ b.minSeverity > (prog l).level.toNat := by simpa [Compiled] using hc
    obtain ⟨p1, p2, p3, p4, p5, p6, p7, p8, p9, p10⟩ := prep_inv h l i hc
    have hfresh : (!(s.loc l).initialized) = true ↔ firstExec ops l = none := by
      have := h.started l
      cases e1 : (s.loc l).initialized <;> cases e2 : firstExec ops l <;> simp_all
    have hprep : (if (!(s.loc l).initialized) = true then initLoc s l (streamOf b (prog l) i) (prog l).level else s) = prep b s l (prog l) i := by
      unfold prep; cases (s.loc l).initialized <;> rfl
    -- the state after, given what happened to `hit` and `last`
    have fin : ∀ (s' : St) (e : List Effect), s'.level = s.level → s'.streams = s.streams → s'.registered = (prep b s l (prog l) i).registered →
        (∀ k, k ≠ l → s'.loc k = s.loc k) → (s'.loc l).initialized = true → (s'.loc l).level = (prog l).level.toNat →
        (s'.loc l).stream = streamAt b prog ops l i → (s'.loc l).enabled = decide (Passes b prog ops l i) →
        ((prog l).limit = .once → (s'.loc l).hit = (lastPrint ((run b prog ops).2 ++ [(.exec l i, e)]) l).isSome) →
        ((prog l).limit = .throttle → (s'.loc l).last = (lastPrint ((run b prog ops).2 ++ [(.exec l i, e)]) l).elim 0 fun p => p.now) →
        Inv b prog (ops ++ [.exec l i]) s' ((run b prog ops).2 ++ [(.exec l i, e)]) := by
      intro s' e q1 q2 q3 q4 q5 q6 q7 q8 q9 q10
      refine ⟨by rw [hlev, q1]; exact h.level, by rw [hstr, q2]; exact h.streams, ?_, ?_, ?_, ?_, ?_⟩
      · intro k hk
        rw [q3]
        by_cases e : k = l
        · exact p3 k (.inl e)
        · rw [q4 k e] at hk; exact p3 k (.inr (h.reg k hk))
      · intro k
        by_cases e : k = l
        · subst e; simp [q5, hfl, hc]
        · rw [q4 k e, hfo k e]; exact h.started k
      · intro k j hk hj
        by_cases e : k = l
        · subst e
          rw [hfl] at hj
          refine ⟨q6, ?_, ?_⟩
          · rw [q7, streamAt, Option.some.inj hj]
          · rw [q8, flag, q6, q7, q1, q2, h.level, h.streams]
            rw [Bool.eq_iff_iff, decide_eq_true_iff (p := Passes b prog ops _ i)]; simp [Passes]
        · rw [q4 k e] at hk ⊢
          rw [hfo k e] at hj
          have := h.loc k j hk hj
          refine ⟨this.1, this.2.1, this.2.2.trans ?_⟩
          simp only [flag, q1, q2]
      · intro k hk
        by_cases e : k = l
        · subst e; exact q9 hk
        · rw [q4 k e, hlo _ k e]; exact h.hit k hk
      · intro k hk
        by_cases e : k = l
        · subst e; exact q10 hk
        · rw [q4 k e, hlo _ k e]; exact h.last k hk
    have hen : ((prep b s l (prog l) i).loc l).enabled = true ↔ Passes b prog ops l i := by rw [p8]; simp
    have hcond : ((!(prog l).cond || i.cond) = true) ↔ CondHolds (prog l) i := by
      unfold CondHolds; cases (prog l).cond <;> simp
    have hhit := h.hit l
    have hlast := h.last l
    rw [← p9] at hhit
    rw [← p10] at hlast
    rw [exec, if_neg hc']
    dsimp only
    rw [hprep]
    unfold expected
    rw [if_pos hc]
    generalize hp' : prep b s l (prog l) i = s1 at *
    simp only [Bool.and_eq_true, hfresh, hen, hcond]
    have n1 : (if firstExec ops l = none ∧ (prog l).named = true then [Effect.evalName] else []).any isPrint = false := by split <;> rfl
    have n2 : (if (prog l).cond = true then [Effect.evalCond] else []).any isPrint = false := by split <;> rfl
    generalize (if firstExec ops l = none ∧ (prog l).named = true then [Effect.evalName] else []) = E1 at n1 ⊢
    -- nothing printed
    have quiet : ∀ e : List Effect, e.any isPrint = false → Inv b prog (ops ++ [.exec l i]) s1 ((run b prog ops).2 ++ [(.exec l i, e)]) := by
      intro e he
      have hl : lastPrint ((run b prog ops).2 ++ [(.exec l i, e)]) l = lastPrint (run b prog ops).2 l := by
        rw [lastPrint_snoc]; simp [he]
      exact fin s1 e p1 p2 rfl p4 p5 p6 p7 p8 (by rw [hl]; exact hhit) (by rw [hl]; exact hlast)
    have loud : ∀ e : List Effect, lastPrint ((run b prog ops).2 ++ [(.exec l i, e ++ [Effect.evalMsg, .print (s1.loc l).stream (prog l).level i.msg])]) l = some i := by
      intro e; rw [lastPrint_snoc]; simp [isPrint]
    rw [← p7]
    by_cases hP : Passes b prog ops l i <;> by_cases hC : CondHolds (prog l) i <;> cases hL : (prog l).limit <;>
      simp only [ShouldPrint, LimitPasses, hc, hP, hC, hL, true_and, false_and, and_true, and_false, if_true, if_false, List.append_nil, reduceCtorEq]
    case pos.always =>
      exact fin s1 _ p1 p2 rfl p4 p5 p6 p7 p8 (by simp [hL]) (by simp [hL])
    case pos.once =>
      have hh := hhit hL
      cases e : lastPrint (run b prog ops).2 l with
      | none =>
        rw [e] at hh
        simp only [hh, Option.isSome_none, Bool.not_false, if_true]
        refine ⟨trivial, fin _ _ p1 p2 rfl (fun k hk => ?_) ?_ ?_ ?_ ?_ ?_ ?_⟩
        · simp only [upd, hk, if_false]; exact p4 k hk
        · simpa [upd] using p5
        · simpa [upd] using p6
        · simpa [upd] using p7
        · simpa [upd] using p8
        · intro _; rw [loud]; simp [upd]
        · simp [hL]
      | some j =>
        rw [e] at hh
        simp only [hh, Option.isSome_some, Bool.not_true, if_false, Bool.false_eq_true, reduceCtorEq, List.append_nil, true_and]
        exact quiet _ (by simp only [List.any_append, n1, n2, Bool.or_self])
    case pos.throttle =>
      have hh := hlast hL
      simp only [hh, decide_eq_true_eq, List.append_assoc, List.cons_append, List.nil_append]
      split
      · refine ⟨rfl, fin _ _ p1 p2 rfl (fun k hk => ?_) ?_ ?_ ?_ ?_ ?_ ?_⟩
        · simp only [upd, hk, if_false]; exact p4 k hk
        · simpa [upd] using p5
        · simpa [upd] using p6
        · simpa [upd] using p7
        · simpa [upd] using p8
        · simp [hL]
        · intro _
          have := loud (E1 ++ ((if (prog l).cond = true then [Effect.evalCond] else []) ++ [.readClock, .evalRate]))
          simp only [List.append_assoc, List.cons_append, List.nil_append] at this
          rw [this]
          simp [upd]
      · refine ⟨by simp, quiet _ ?_⟩
        simp only [List.any_append, n1, n2, Bool.or_self]; rfl
    all_goals first
      | refine quiet _ ?_
      | refine ⟨trivial, quiet _ ?_⟩
      | refine ⟨by simp, quiet _ ?_⟩
    all_goals simp [n1, n2, isPrint]

theorem inv (b : Build) (prog : Nat → Stmt) (ops : List Op) : Inv b prog ops (run b prog ops).1 (run b prog ops).2 := by
  induction ops using List.reverseRecOn with
  | nil => exact inv_init b prog
  | append_singleton ops o ih =>
    rw [run_snoc]
    cases o with
    | setLevel v => exact inv_setLevel ih v
    | enable n => exact inv_enable ih n
    | disable n => exact inv_disable ih n
    | exec l i => exact (exec_spec ih l i).2

/-! ## C125 -/

/-- **C125** After any history of a program, the effects of executing any statement are exactly the expected ones, in order: nothing if the statement is compiled out; else the name is evaluated at the first execution only, the condition iff level and stream let the statement pass, the clock is read by every throttled statement, the rate is evaluated iff the statement is otherwise enabled, and the message is evaluated and printed iff the statement should print. -/
theorem C125_effects (b : Build) (prog : Nat → Stmt) (ops : List Op) (l : Nat) (i : Input) :
    (exec b (run b prog ops).1 l (prog l) i).2 = expected b prog ops l i :=
  (exec_spec (inv b prog ops) l i).1

/-- **C125** An execution prints iff it should: its severity is compiled in, its level reaches the level set last, its stream is empty or was last enabled, its condition holds and its limit lets it pass; it prints at most once, to that stream, at its level, with its message. -/
theorem C125_prints (b : Build) (prog : Nat → Stmt) (ops : List Op) (l : Nat) (i : Input) :
    (exec b (run b prog ops).1 l (prog l) i).2.filter isPrint =
      if ShouldPrint b prog ops l i then [.print (streamAt b prog ops l i) (prog l).level i.msg] else [] := by
  rw [C125_effects, expected]
  by_cases hc : Compiled b (prog l)
  · rw [if_pos hc]
    simp only [List.filter_append]
    have e1 : (if firstExec ops l = none ∧ (prog l).named = true then [Effect.evalName] else []).filter isPrint = [] := by split <;> rfl
    have e2 : (if Passes b prog ops l i ∧ (prog l).cond = true then [Effect.evalCond] else []).filter isPrint = [] := by split <;> rfl
    have e3 : (if (prog l).limit = .throttle then
      Effect.readClock :: if Passes b prog ops l i ∧ CondHolds (prog l) i then [.evalRate] else [] else []).filter isPrint = [] := by
      split
      · split <;> rfl
      · rfl
    rw [e1, e2, e3]
    split <;> simp [isPrint]
  · rw [if_neg hc, if_neg fun h => hc h.1]
    rfl

/-- **C125** Arguments have no effect unless they are needed: the message of an execution is evaluated iff it prints; the condition iff the statement is compiled in and level and stream let it pass; a compiled-out statement has no effect at all and changes nothing. -/
theorem C125_arguments (b : Build) (prog : Nat → Stmt) (ops : List Op) (l : Nat) (i : Input) :
    (.evalMsg ∈ (exec b (run b prog ops).1 l (prog l) i).2 ↔ ShouldPrint b prog ops l i) ∧
    (.evalCond ∈ (exec b (run b prog ops).1 l (prog l) i).2 ↔ Compiled b (prog l) ∧ Passes b prog ops l i ∧ (prog l).cond = true) ∧
    (.evalName ∈ (exec b (run b prog ops).1 l (prog l) i).2 ↔ Compiled b (prog l) ∧ firstExec ops l = none ∧ (prog l).named = true) ∧
    (¬ Compiled b (prog l) → exec b (run b prog ops).1 l (prog l) i = ((run b prog ops).1, [])) := by
  refine ⟨?_, ?_, ?_, ?_⟩
  iterate 3
    rw [C125_effects, expected]
    by_cases hc : Compiled b (prog l)
    · rw [if_pos hc]
      simp only [List.mem_append]
      constructor
      · rintro (((h | h) | h) | h)
        all_goals
          split at h <;> try simp only [List.not_mem_nil] at h
        all_goals first
          | assumption
          | exact ⟨hc, by assumption⟩
          | simp at h
          | (split at h <;> simp at h)
      · intro h
        simp [h]
    · rw [if_neg hc]
      simp [ShouldPrint, hc]
  · intro hc
    have hc' : b.minSeverity > (prog l).level.toNat := by simpa [Compiled] using hc
    rw [exec, if_pos hc']

/-- the claim that a `_NAMED` statement that passes prints to the stream named by its argument -/
def C125_name_claim : Prop :=
  ∀ (b : Build) (prog : Nat → Stmt) (ops : List Op) (l : Nat) (i : Input) (n : Name) (v : Level) (m : List Char),
    .print n v m ∈ (exec b (run b prog ops).1 l (prog l) i).2 → n = streamOf b (prog l) i

/-- a program whose only statement is `SM_INFO_NAMED(name, …)` -/
def namedProg : Nat → Stmt := fun _ => ⟨.info, true, false, .always⟩

/-- **C125** That is false: the name of the first execution is kept.  (After `x` is enabled, a statement executed with name `x` and then with name `y`, not enabled, prints to `x` both times.) -/
theorem C125_name_negation : ¬ C125_name_claim := by
  intro h
  have := h ⟨0, ['s', 'm']⟩ namedProg [.enable ['x'], .exec 0 ⟨['x'], true, 0, [], 0⟩] 0 ⟨['y'], true, 0, [], 0⟩ ['s', 'm', '.', 'x'] .info []
    (by
      rw [C125_effects]
      have hp : ShouldPrint ⟨0, ['s', 'm']⟩ namedProg [.enable ['x'], .exec 0 ⟨['x'], true, 0, [], 0⟩] 0 ⟨['y'], true, 0, [], 0⟩ := by
        refine ⟨by decide, by decide, by decide, trivial⟩
      rw [expected, if_pos hp.1, if_pos hp]
      exact List.mem_append_right _ (by decide))
  revert this
  decide

/-- **C125, what holds**: a statement whose name argument has the same value in all executions prints to the stream of that name. -/
theorem C125_name_partial (b : Build) (prog : Nat → Stmt) (ops : List Op) (l : Nat) (i : Input) (n : Name) (v : Level) (m : List Char)
    (hn : ∀ j, .exec l j ∈ ops → j.name = i.name) (h : .print n v m ∈ (exec b (run b prog ops).1 l (prog l) i).2) :
    n = streamOf b (prog l) i := by
  have : Effect.print n v m ∈ (exec b (run b prog ops).1 l (prog l) i).2.filter isPrint := List.mem_filter.2 ⟨h, rfl⟩
  rw [C125_prints] at this
  split at this
  · simp only [List.mem_singleton, Effect.print.injEq] at this
    rw [this.1, streamAt]
    cases e : firstExec ops l with
    | none => rfl
    | some j =>
      obtain ⟨o, ho, hj⟩ := List.exists_of_findSome?_eq_some e
      cases o with
      | exec k j' =>
        simp only at hj
        split at hj
        · rename_i hk
          cases hj
          subst hk
          simp [streamOf, hn j ho]
        · cases hj
      | _ => simp at hj
  · simp at this

/-! ## C126 -/

/-- **C126** Whether a stream can be switched on at all: the streams enabled after any history are `sm` and streams that begin with `sm.`. -/
theorem C126_enabled (ops : List Op) (n : Name) (h : streamOn ops n = true) : n = ['s', 'm'] ∨ Prefixed n := by
  induction ops using List.reverseRecOn with
  | nil => left; simpa [streamOn] using h
  | append_singleton ops o ih =>
    rw [streamOn_snoc] at h
    cases o with
    | setLevel v => exact ih h
    | exec l i => exact ih h
    | enable m =>
      simp only at h
      split at h
      · rename_i e; rw [← e]; exact (C47_normalised m m).1
      · exact ih h
    | disable m =>
      simp only at h
      split at h
      · cases h
      · exact ih h

/-- the claim that in a package with its own name `p` (`SM_PACKAGE_NAME`) the statements without name print once the stream `p` is enabled and the level lets everything pass -/
def C126_claim : Prop :=
  ∀ (p : Name) (st : Stmt) (i : Input), st.named = false → st.cond = false → st.limit = .always →
    ∃ e ∈ (exec ⟨0, p⟩ (run ⟨0, p⟩ (fun _ => st) [.setLevel .all, .enable p]).1 0 st i).2, isPrint e

/-- **C126** A package whose name is neither empty nor `sm` nor begins with `sm.`: whatever functions of `sm::logging` are called, none of its statements without name ever prints (so the claim is false) ... -/
theorem C126_silent (b : Build) (prog : Nat → Stmt) (ops : List Op) (l : Nat) (i : Input)
    (hp : b.package ≠ [] ∧ b.package ≠ ['s', 'm'] ∧ ¬ Prefixed b.package) (hn : (prog l).named = false) :
    ∀ e ∈ (exec b (run b prog ops).1 l (prog l) i).2, isPrint e = false := by
  intro e he
  by_contra hc
  have : e ∈ (exec b (run b prog ops).1 l (prog l) i).2.filter isPrint := List.mem_filter.2 ⟨he, by simpa using hc⟩
  rw [C125_prints] at this
  split at this
  · rename_i h
    have hs : streamAt b prog ops l i = b.package := by simp [streamAt, streamOf, hn]
    have h2 := h.2.1.2
    rw [hs] at h2
    rcases h2 with h2 | h2
    · exact hp.1 h2
    · rcases C126_enabled _ _ h2 with h3 | h3
      · exact hp.2.1 h3
      · exact hp.2.2 h3
  · simp at this

/-- ... and neither does any of its `_NAMED` statements; for these the name of the package may also be empty. -/
theorem C126_silent_named (b : Build) (prog : Nat → Stmt) (ops : List Op) (l : Nat) (i : Input)
    (hp : b.package ≠ ['s', 'm'] ∧ ¬ Prefixed b.package) (hn : (prog l).named = true) :
    ∀ e ∈ (exec b (run b prog ops).1 l (prog l) i).2, isPrint e = false := by
  intro e he
  by_contra hc
  have : e ∈ (exec b (run b prog ops).1 l (prog l) i).2.filter isPrint := List.mem_filter.2 ⟨he, by simpa using hc⟩
  rw [C125_prints] at this
  split at this
  · rename_i h
    obtain ⟨x, hx⟩ : ∃ x, streamAt b prog ops l i = b.package ++ '.' :: x := ⟨((firstExec ops l).getD i).name, by simp [streamAt, streamOf, hn]⟩
    have h2 := h.2.1.2
    rw [hx] at h2
    have key : b.package ++ '.' :: x = ['s', 'm'] ∨ Prefixed (b.package ++ '.' :: x) := by
      rcases h2 with h2 | h2
      · simp at h2
      · exact C126_enabled _ _ h2
    obtain ⟨h5, h6⟩ := hp
    generalize b.package = p at *
    match p with
    | [] =>
      rcases key with k | ⟨r, k⟩
      · simp at k
      · simp at k
    | [a] =>
      rcases key with k | ⟨r, k⟩
      · simp at k
      · simp at k
    | [a, c] =>
      rcases key with k | ⟨r, k⟩
      · simp at k
      · simp only [List.cons_append, List.nil_append, List.cons.injEq] at k
        exact h5 (by rw [k.1, k.2.1])
    | a :: c :: d :: p =>
      rcases key with k | ⟨r, k⟩
      · simp at k
      · simp only [List.cons_append, List.nil_append, List.cons.injEq] at k
        exact h6 ⟨p, by rw [k.1, k.2.1, k.2.2.1]; rfl⟩
  · simp at this

theorem C126_negation : ¬ C126_claim := by
  intro h
  obtain ⟨e, he, hp⟩ := h ['a', 'p', 'p'] ⟨.fatal, false, false, .always⟩ ⟨[], true, 0, [], 0⟩ rfl rfl rfl
  have := C126_silent ⟨0, ['a', 'p', 'p']⟩ (fun _ => ⟨.fatal, false, false, .always⟩) [.setLevel .all, .enable ['a', 'p', 'p']] 0 ⟨[], true, 0, [], 0⟩
    ⟨by decide, by decide, by rintro ⟨r, hr⟩; simp at hr⟩ rfl e he
  rw [this] at hp
  cases hp

/-- **C126, what holds**: in a package named `sm` or `sm.…`, after any history followed by `enableNamedStream` of its name, a statement without name, condition and limit prints iff its severity is compiled in and its level reaches the level set last. -/
theorem C126_package_partial (b : Build) (prog : Nat → Stmt) (ops : List Op) (l : Nat) (i : Input)
    (hp : b.package = ['s', 'm'] ∨ Prefixed b.package) (hn : (prog l).named = false) (hc : (prog l).cond = false) (hl : (prog l).limit = .always) :
    (∃ e ∈ (exec b (run b prog (ops ++ [.enable b.package])).1 l (prog l) i).2, isPrint e = true) ↔
      b.minSeverity ≤ (prog l).level.toNat ∧ (levelNow ops).toNat ≤ (prog l).level.toNat := by
  have h1 : (∃ e ∈ (exec b (run b prog (ops ++ [.enable b.package])).1 l (prog l) i).2, isPrint e = true) ↔
      ShouldPrint b prog (ops ++ [.enable b.package]) l i := by
    have h0 := C125_prints b prog (ops ++ [.enable b.package]) l i
    constructor
    · rintro ⟨e, he, hp⟩
      have : e ∈ (exec b (run b prog (ops ++ [.enable b.package])).1 l (prog l) i).2.filter isPrint := List.mem_filter.2 ⟨he, hp⟩
      rw [h0] at this
      by_contra hs
      rw [if_neg hs] at this
      cases this
    · intro hs
      rw [if_pos hs] at h0
      have : Effect.print (streamAt b prog (ops ++ [.enable b.package]) l i) (prog l).level i.msg ∈
          (exec b (run b prog (ops ++ [.enable b.package])).1 l (prog l) i).2.filter isPrint := by rw [h0]; simp
      exact ⟨_, List.mem_filter.1 this⟩
  rw [h1]
  have hs : streamAt b prog (ops ++ [.enable b.package]) l i = b.package := by simp [streamAt, streamOf, hn]
  have ha : addPrefix b.package = b.package := (addPrefix_eq _).1 hp.symm
  have hon : streamOn (ops ++ [.enable b.package]) b.package = true := by rw [streamOn_snoc]; simp [ha]
  simp only [ShouldPrint, Compiled, Passes, CondHolds, LimitPasses, hl, hs, hon, levelNow_snoc, hc]
  simp

/-! ## examples -/

/-- the throttled statement 1 and the `_ONCE` statement 2 of a program -/
def exampleProg : Nat → Stmt
  | 1 => ⟨.warn, false, false, .throttle⟩
  | 2 => ⟨.error, true, false, .once⟩
  | 3 => ⟨.debug, false, true, .always⟩
  | _ => ⟨.finest, false, false, .always⟩

/-- name, message, condition, rate and time of an execution -/
def inp (c : Bool) (t : ℚ) : Input := ⟨['n'], c, 2, ['h', 'i'], t⟩

example : (run ⟨6, ['s', 'm']⟩ exampleProg [.exec 1 (inp true 10), .exec 1 (inp true 11), .exec 1 (inp true 12), .exec 2 (inp true 0), .enable ['n'],
      .exec 2 (inp true 0), .exec 2 (inp true 0), .exec 3 (inp true 0), .setLevel .all, .exec 3 (inp false 0), .exec 3 (inp true 0), .exec 0 (inp true 0)]).2.map (·.2) =
    [[.readClock, .evalRate, .evalMsg, .print ['s', 'm'] .warn ['h', 'i']], [.readClock, .evalRate],
     [.readClock, .evalRate, .evalMsg, .print ['s', 'm'] .warn ['h', 'i']], [.evalName], [],
     [.evalMsg, .print ['s', 'm', '.', 'n'] .error ['h', 'i']], [], [], [], [.evalCond], [.evalCond, .evalMsg, .print ['s', 'm'] .debug ['h', 'i']], []] := by
  decide +kernel

end Verif.Logging.Statement
