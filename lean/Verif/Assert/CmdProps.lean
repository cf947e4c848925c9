import Verif.Assert.Cmd
import Mathlib.Tactic

/-!
# C91: what the assertions of sm_logging test

`Cond.print` writes a condition as a programmer does, with parentheses where the precedences ask for them.
-/

namespace Verif.Assert

/-! ## The parser does not depend on the fuel -/

theorem mono_step (f : ℕ) :
    (∀ ts x, unary f ts = some x → unary (f + 1) ts = some x) ∧
    (∀ p ts x, expr f p ts = some x → expr (f + 1) p ts = some x) ∧
    (∀ p a ts x, more f p a ts = some x → more (f + 1) p a ts = some x) := by
  induction f with
  | zero => simp [unary, expr, more]
  | succ f ih =>
    obtain ⟨hu, he, hm⟩ := ih
    refine ⟨?_, ?_, ?_⟩
    · intro ts x h
      rw [unary.eq_def] at h ⊢
      dsimp only at h ⊢
      split at h
      · exact h
      · split at h
        · rename_i h1; rw [hu _ _ h1]; exact h
        · simp at h
      · split at h
        · rename_i h1; rw [he _ _ _ h1]; exact h
        · simp at h
      · simp at h
    · intro p ts x h
      rw [expr] at h ⊢
      split at h
      · rename_i h1; rw [hu _ _ h1]; exact hm _ _ _ _ h
      · simp at h
    · intro p a ts x h
      rw [more.eq_def] at h ⊢
      dsimp only at h ⊢
      split at h
      · split at h
        · rename_i hp
          simp only [hp, if_true]
          split at h
          · rename_i h1; rw [he _ _ _ h1]; exact hm _ _ _ _ h
          · simp at h
        · rename_i hp
          simp only [hp, if_false]; exact h
      · exact h

theorem mono (k f : ℕ) :
    (∀ ts x, unary f ts = some x → unary (f + k) ts = some x) ∧
    (∀ p ts x, expr f p ts = some x → expr (f + k) p ts = some x) ∧
    (∀ p a ts x, more f p a ts = some x → more (f + k) p a ts = some x) := by
  induction k with
  | zero => simp
  | succ k ih =>
    exact ⟨fun _ _ h => (mono_step _).1 _ _ (ih.1 _ _ h), fun _ _ _ h => (mono_step _).2.1 _ _ _ (ih.2.1 _ _ _ h),
      fun _ _ _ _ h => (mono_step _).2.2 _ _ _ _ (ih.2.2 _ _ _ _ h)⟩

def U (ts : List Tk) (e : Cond) (r : List Tk) : Prop := ∃ f, unary f ts = some (e, r)
def E (p : ℕ) (ts : List Tk) (e : Cond) (r : List Tk) : Prop := ∃ f, expr f p ts = some (e, r)
def L (p : ℕ) (a : Cond) (ts : List Tk) (e : Cond) (r : List Tk) : Prop := ∃ f, more f p a ts = some (e, r)

/-- a text has at most one meaning -/
theorem means_unique (ts : List Tk) (e e' : Cond) (h : Means ts e) (h' : Means ts e') : e = e' := by
  obtain ⟨f, h⟩ := h
  obtain ⟨f', h'⟩ := h'
  have h1 := (mono f' f).2.1 _ _ _ h
  have h2 := (mono f f').2.1 _ _ _ h'
  rw [Nat.add_comm, h2] at h1
  simpa using h1.symm

theorem U_val (v : ℤ) (r : List Tk) : U (.val v :: r) (.val v) r := ⟨1, rfl⟩

theorem U_bang {ts : List Tk} {e : Cond} {r : List Tk} (h : U ts e r) : U (.bang :: ts) (.bang e) r := by
  obtain ⟨f, h⟩ := h
  exact ⟨f + 1, by simp [unary, h]⟩

theorem U_paren {ts : List Tk} {e : Cond} {r : List Tk} (h : E 1 ts e (.rp :: r)) : U (.lp :: ts) (.paren e) r := by
  obtain ⟨f, h⟩ := h
  exact ⟨f + 1, by simp [unary, h]⟩

theorem E_mk {p : ℕ} {ts : List Tk} {a : Cond} {r : List Tk} {e : Cond} {r' : List Tk} (h : U ts a r) (h' : L p a r e r') :
    E p ts e r' := by
  obtain ⟨f, h⟩ := h
  obtain ⟨f', h'⟩ := h'
  refine ⟨f + f' + 1, ?_⟩
  rw [expr, (mono f' f).1 _ _ h, Nat.add_comm]
  exact (mono f f').2.2 _ _ _ _ h'

/-- what follows does not continue an expression of level `p` -/
def Stops (p : ℕ) (ts : List Tk) : Prop := ∀ o r, ts = .op o :: r → o.prec < p

theorem L_stop {p : ℕ} {a : Cond} {ts : List Tk} (h : Stops p ts) : L p a ts a ts := by
  refine ⟨1, ?_⟩
  rw [more.eq_def]
  dsimp only
  split
  · rename_i o r
    have := h o r rfl
    rw [if_neg (by omega)]
  · rfl

theorem L_step {p : ℕ} {o : Op} {a b : Cond} {r r' : List Tk} {e : Cond} {r'' : List Tk} (hp : p ≤ o.prec)
    (h : E (o.prec + 1) r b r') (h' : L p (.bin o a b) r' e r'') : L p a (.op o :: r) e r'' := by
  obtain ⟨f, h⟩ := h
  obtain ⟨f', h'⟩ := h'
  refine ⟨f + f' + 1, ?_⟩
  rw [more]
  simp only [hp, if_true, (mono f' f).2.1 _ _ _ h]
  rw [Nat.add_comm]
  exact (mono f f').2.2 _ _ _ _ h'

/-! ## Writing conditions -/

/-- how tightly a condition holds together; 5: a unary-expression -/
def Cond.level : Cond → ℕ
  | .bin o _ _ => o.prec
  | _ => 5

/-- the tree a programmer has in mind, without the parentheses that the precedences ask for -/
inductive Tree
  | val (v : ℤ)
  | bang (e : Tree)
  | bin (o : Op) (a b : Tree)
  deriving DecidableEq, Repr

def Tree.level : Tree → ℕ
  | .bin o _ _ => o.prec
  | _ => 5

/-- the value of the tree -/
def Tree.value : Tree → ℤ
  | .val v => v
  | .bang e => if e.value = 0 then 1 else 0
  | .bin o a b =>
    let t (c : Bool) : ℤ := if c then 1 else 0
    match o with
    | .gt => t (decide (a.value > b.value))
    | .lt => t (decide (a.value < b.value))
    | .ge => t (decide (a.value ≥ b.value))
    | .le => t (decide (a.value ≤ b.value))
    | .eq => t (decide (a.value = b.value))
    | .ne => t (decide (a.value ≠ b.value))
    | .and => t (decide (a.value ≠ 0) && decide (b.value ≠ 0))
    | .or => t (decide (a.value ≠ 0) || decide (b.value ≠ 0))

/-- put a condition in parentheses if it does not hold together as tightly as `q` -/
def Cond.wrap (q : ℕ) (e : Cond) : Cond := if e.level < q then .paren e else e

/-- the condition with the parentheses it needs -/
def Tree.cond : Tree → Cond
  | .val v => .val v
  | .bang e => .bang (e.cond.wrap 5)
  | .bin o a b => .bin o (a.cond.wrap o.prec) (b.cond.wrap (o.prec + 1))

/-- the tokens of a condition -/
def Cond.toks : Cond → List Tk
  | .val v => [.val v]
  | .bang e => .bang :: e.toks
  | .paren e => .lp :: e.toks ++ [.rp]
  | .bin o a b => a.toks ++ .op o :: b.toks

/-- the tokens of a tree: this is what the programmer writes -/
def Tree.print (t : Tree) : List Tk := t.cond.toks

/-- conditions with all the parentheses they need -/
def Cond.Ok : Cond → Prop
  | .val _ => True
  | .bang e => e.Ok ∧ 5 ≤ e.level
  | .paren e => e.Ok
  | .bin o a b => a.Ok ∧ b.Ok ∧ o.prec ≤ a.level ∧ o.prec + 1 ≤ b.level

theorem prec_le (o : Op) : 1 ≤ o.prec ∧ o.prec ≤ 4 := by cases o <;> simp [Op.prec]

theorem level_ge (e : Cond) : 1 ≤ e.level := by
  cases e <;> simp [Cond.level]
  exact (prec_le _).1

theorem level_wrap (q : ℕ) (e : Cond) (hq : q ≤ 5) : q ≤ (e.wrap q).level := by
  unfold Cond.wrap
  split
  · simpa [Cond.level] using hq
  · omega

theorem ok_wrap (q : ℕ) (e : Cond) (h : e.Ok) : (e.wrap q).Ok := by
  unfold Cond.wrap
  split
  · exact h
  · exact h

theorem ok_cond (t : Tree) : t.cond.Ok := by
  induction t with
  | val v => trivial
  | bang e ih => exact ⟨ok_wrap _ _ ih, level_wrap _ _ (by omega)⟩
  | bin o a b iha ihb =>
    have := prec_le o
    exact ⟨ok_wrap _ _ iha, ok_wrap _ _ ihb, level_wrap _ _ (by omega), level_wrap _ _ (by omega)⟩

/-- a `!` in front of a condition: it only negates what stands leftmost -/
def Cond.negLeft : Cond → Cond
  | .bin o a b => .bin o a.negLeft b
  | e => .bang e

theorem stops_op (p : ℕ) (o : Op) (r : List Tk) (h : o.prec < p) : Stops p (.op o :: r) := by
  intro o' r' he
  simp only [List.cons.injEq, Tk.op.injEq] at he
  rw [← he.1]; exact h

theorem Stops.mono {p q : ℕ} {ts : List Tk} (h : Stops p ts) (hq : p ≤ q) : Stops q ts :=
  fun o r he => lt_of_lt_of_le (h o r he) hq

/-- parsing what was written, plain and behind a `!` -/
theorem parse_toks (e : Cond) (he : e.Ok) :
    (5 ≤ e.level → ∀ rest, U (e.toks ++ rest) e rest) ∧
    (∀ p rest out r, p ≤ e.level → Stops (e.level + 1) rest → L p e rest out r → E p (e.toks ++ rest) out r) ∧
    (∀ p rest out r, p ≤ e.level → Stops (e.level + 1) rest → L p e.negLeft rest out r → E p (.bang :: e.toks ++ rest) out r) := by
  induction e with
  | val v =>
    refine ⟨fun _ rest => U_val v rest, fun p rest out r _ _ h => E_mk (U_val v rest) h, fun p rest out r _ _ h => ?_⟩
    exact E_mk (U_bang (U_val v rest)) h
  | bang e ih =>
    have h := (ih he.1).1 he.2
    refine ⟨fun _ rest => U_bang (h rest), fun p rest out r _ _ h' => E_mk (U_bang (h rest)) h', fun p rest out r _ _ h' => ?_⟩
    exact E_mk (U_bang (U_bang (h rest))) h'
  | paren e ih =>
    have h : ∀ rest, U ((Cond.paren e).toks ++ rest) (.paren e) rest := by
      intro rest
      have := (ih he).2.1 1 (.rp :: rest) e (.rp :: rest) (level_ge e) (fun o r h => by simp at h)
        (L_stop (fun o r h => by simp at h))
      have := U_paren this
      simpa [Cond.toks] using this
    refine ⟨fun _ => h, fun p rest out r _ _ h' => E_mk (h rest) h', fun p rest out r _ _ h' => ?_⟩
    exact E_mk (U_bang (h rest)) h'
  | bin o a b iha ihb =>
    obtain ⟨ha, hb, hla, hlb⟩ := he
    have hE : ∀ rest, Stops (o.prec + 1) rest → E (o.prec + 1) (b.toks ++ rest) b rest := fun rest hs =>
      (ihb hb).2.1 (o.prec + 1) rest b rest hlb (hs.mono (by omega)) (L_stop hs)
    refine ⟨fun h => ?_, fun p rest out r hp hs h => ?_, fun p rest out r hp hs h => ?_⟩
    · have := prec_le o
      simp [Cond.level] at h
      omega
    · simp only [Cond.level] at hp hs
      have := (iha ha).2.1 p (.op o :: (b.toks ++ rest)) out r (by omega) (stops_op _ _ _ (by omega))
        (L_step hp (hE rest hs) h)
      simpa [Cond.toks] using this
    · simp only [Cond.level] at hp hs
      have := (iha ha).2.2 p (.op o :: (b.toks ++ rest)) out r (by omega) (stops_op _ _ _ (by omega))
        (L_step hp (hE rest hs) h)
      simpa [Cond.toks] using this

theorem means_toks (e : Cond) (he : e.Ok) : Means e.toks e := by
  have := (parse_toks e he).2.1 1 [] e [] (level_ge e) (fun o r h => by simp at h) (L_stop (fun o r h => by simp at h))
  simpa [E, Means] using this

theorem means_bang (e : Cond) (he : e.Ok) : Means (.bang :: e.toks) e.negLeft := by
  have := (parse_toks e he).2.2 1 [] e.negLeft [] (level_ge e) (fun o r h => by simp at h) (L_stop (fun o r h => by simp at h))
  simpa [E, Means] using this

theorem value_wrap (q : ℕ) (e : Cond) : (e.wrap q).value = e.value := by
  unfold Cond.wrap
  split <;> rfl

theorem value_cond (t : Tree) : t.cond.value = t.value := by
  induction t with
  | val v => rfl
  | bang e ih => simp [Tree.cond, Cond.value, Tree.value, value_wrap, ih]
  | bin o a b iha ihb => cases o <;> simp [Tree.cond, Cond.value, Tree.value, value_wrap, iha, ihb]

/-! ## C91 -/

/-- **C91** Without a macro around it the text means what the programmer has in mind. -/
theorem C91_text (t : Tree) : ∃ e, Means t.print e ∧ e.value = t.value :=
  ⟨t.cond, means_toks _ (ok_cond t), value_cond t⟩

/-- **C91** `SM_ASSERT` and `SM_ASSERT_MSG` report and stop iff the condition is false, whatever operators it contains, and do
nothing in a build with `NDEBUG`. -/
theorem C91_assert (ndebug : Bool) (t : Tree) (body acts : List Act) :
    Does ndebug (assertCond t.print) body acts ↔ acts = if ndebug = false ∧ t.value = 0 then body else [] := by
  have h : Means (assertCond t.print) (.bang (.paren t.cond)) := by
    have := means_toks (.bang (.paren t.cond)) ⟨ok_cond t, by simp [Cond.level]⟩
    simpa [Cond.toks, assertCond, Tree.print] using this
  have hv : (Cond.bang (.paren t.cond)).value = if t.value = 0 then 1 else 0 := by simp [Cond.value, value_cond]
  unfold Does
  cases ndebug
  · simp only [Bool.false_eq_true, if_false, true_and]
    constructor
    · rintro ⟨e, he, rfl⟩
      rw [means_unique _ _ _ he h, hv]
      by_cases h0 : t.value = 0 <;> simp [h0]
    · intro ha
      refine ⟨_, h, ?_⟩
      rw [ha, hv]
      by_cases h0 : t.value = 0 <;> simp [h0]
  · simp

example : Does false (assertCond (Tree.bin .gt (.val (-5)) (.val 0)).print) (assertBody "a.cpp" "x > 0" 3)
    [.fatal "ASSERTION FAILED\n\tfile = a.cpp\n\tline = 3\n\tcond = x > 0\n", .trap] := by
  rw [C91_assert]
  decide

/-- the full claim for `SM_ASSERT_CMD`: it runs the command iff the condition is false -/
def C91_claim : Prop :=
  ∀ (t : Tree) (acts : List Act), Does false (cmdCond t.print) [.cmd] acts ↔ acts = if t.value = 0 then [.cmd] else []

/-- **C91** What `SM_ASSERT_CMD` does for every condition: it runs the command iff the condition in which only the leftmost
operand is negated is true. -/
theorem C91_exact (ndebug : Bool) (t : Tree) (body acts : List Act) :
    Does ndebug (cmdCond t.print) body acts ↔ acts = if ndebug = false ∧ t.cond.negLeft.value ≠ 0 then body else [] := by
  have h : Means (cmdCond t.print) t.cond.negLeft := means_bang _ (ok_cond t)
  unfold Does
  cases ndebug
  · simp only [Bool.false_eq_true, if_false, true_and]
    constructor
    · rintro ⟨e, he, rfl⟩
      rw [means_unique _ _ _ he h]
    · intro ha
      exact ⟨_, h, ha⟩
  · simp

/-- **C91** The full claim is false: in the documented example `SM_ASSERT_CMD(x > 0, handleError(...))` the command runs iff `x`
is zero, so never for a negative `x`. -/
theorem C91_negation : ¬ C91_claim ∧
    ∀ (x : ℤ) (acts : List Act), Does false (cmdCond (Tree.bin .gt (.val x) (.val 0)).print) [.cmd] acts ↔
      acts = if x = 0 then [.cmd] else [] := by
  have h : ∀ (x : ℤ) (acts : List Act), Does false (cmdCond (Tree.bin .gt (.val x) (.val 0)).print) [.cmd] acts ↔
      acts = if x = 0 then [.cmd] else [] := by
    intro x acts
    rw [C91_exact]
    by_cases hx : x = 0 <;> simp [Tree.cond, Cond.wrap, Cond.level, Op.prec, Cond.negLeft, Cond.value, hx]
  refine ⟨fun hc => ?_, h⟩
  have h1 := (h (-5) []).mpr (by simp)
  have h2 := (hc _ _).mp h1
  simp [Tree.value] at h2

/-- **C91** What holds: if the condition is a single operand, a negation, or the caller puts it in parentheses, the command runs
iff it is false. -/
theorem C91_partial (t : Tree) (body acts : List Act) :
    (t.level = 5 → (Does false (cmdCond t.print) body acts ↔ acts = if t.value = 0 then body else [])) ∧
    (Does false (cmdCond (.lp :: t.print ++ [.rp])) body acts ↔ acts = if t.value = 0 then body else []) := by
  constructor
  · intro hl
    rw [C91_exact]
    have : t.cond.negLeft = .bang t.cond := by
      cases t with
      | val v => rfl
      | bang e => rfl
      | bin o a b => have := prec_le o; simp [Tree.level] at hl; omega
    rw [this]
    have hv : (Cond.bang t.cond).value = if t.value = 0 then 1 else 0 := by simp [Cond.value, value_cond]
    rw [hv]
    by_cases h0 : t.value = 0 <;> simp [h0]
  · have := C91_assert false t body acts
    simpa [cmdCond, assertCond] using this

example : (Tree.bang (.val 3)).level = 5 := rfl

/-- the table of C++: the place of an operator, loosest first -/
def cppTable : List (List Op) := [[.or], [.and], [.eq, .ne], [.lt, .gt, .le, .ge]]

/-- **C91** How the text is grouped: in `a o₁ b o₂ c` the first operator is applied first, unless the second one stands in a later row of
the table of C++. -/
theorem C91_grouping (a b c : ℤ) (o₁ o₂ : Op) :
    Means [.val a, .op o₁, .val b, .op o₂, .val c]
      (if cppTable.findIdx (o₁ ∈ ·) < cppTable.findIdx (o₂ ∈ ·) then .bin o₁ (.val a) (.bin o₂ (.val b) (.val c))
        else .bin o₂ (.bin o₁ (.val a) (.val b)) (.val c)) := by
  cases o₁ <;> cases o₂ <;> exact ⟨10, rfl⟩

/-- Concrete: `1 || 0 && 0` is true. -/
example : ∃ e, Means [.val 1, .op .or, .val 0, .op .and, .val 0] e ∧ e.value = 1 := ⟨_, C91_grouping 1 0 0 .or .and, by decide⟩

end Verif.Assert
