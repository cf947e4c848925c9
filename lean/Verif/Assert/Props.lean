import Verif.Assert.Spec
import Mathlib.Tactic

/-!
# C89, C90: the assertion macros
-/

namespace Verif.Assert

open Verif.Common

variable {σ α : Type}

theorem toStr (s : String) : toString s = s := rfl

theorem throwEx_eq (type : String) (p : Pos) (m : String) (s : σ) : throwEx type p m s = .thrown type (whatText type p m) s := by
  simp [throwEx, whatText, Pos.toString, String.append_assoc, toStr]

/-! ## Comparisons on the values -/

theorem fails_linear [LinearOrder α] (r : Rel) (a b : α) :
    (@Rel.fails α (CppOrd.ofLinear α) r a b = true) ↔ ¬ r.Holds a b := by
  cases r
  · exact decide_eq_true_iff.trans not_lt.symm
  · exact decide_eq_true_iff.trans not_le.symm
  · exact decide_eq_true_iff.trans not_le.symm
  · exact decide_eq_true_iff.trans not_lt.symm
  · show (!decide (a = b)) = true ↔ _
    simp [Rel.Holds]
  · exact decide_eq_true_iff.trans not_not.symm

theorem num_lt (a b : Fp) : Fp.lt a b = true ↔ ∃ x y, num a = some x ∧ num b = some y ∧ x < y := by
  rcases a with q | (_ | _) | _ <;> rcases b with q' | (_ | _) | _ <;> simp [Fp.lt, num]
  exact WithBot.coe_lt_coe.mpr (WithTop.coe_lt_top q)

theorem num_eq (a b : Fp) : Fp.eq a b = true ↔ ∃ x, num a = some x ∧ num b = some x := by
  rcases a with q | (_ | _) | _ <;> rcases b with q' | (_ | _) | _ <;> simp [Fp.eq, num, eq_comm]

theorem num_le (a b : Fp) : Fp.le a b = true ↔ ∃ x y, num a = some x ∧ num b = some y ∧ x ≤ y := by
  rw [Fp.le, Bool.or_eq_true, num_lt, num_eq]
  constructor
  · rintro (⟨x, y, h1, h2, h3⟩ | ⟨x, h1, h2⟩)
    · exact ⟨x, y, h1, h2, h3.le⟩
    · exact ⟨x, x, h1, h2, le_refl _⟩
  · rintro ⟨x, y, h1, h2, h3⟩
    rcases h3.lt_or_eq with h | h
    · exact .inl ⟨x, y, h1, h2, h⟩
    · exact .inr ⟨x, h1, h ▸ h2⟩

theorem num_none (a : Fp) : num a = none ↔ a = .nan := by
  rcases a with q | (_ | _) | _ <;> simp [num]

theorem fails_fp (r : Rel) (a b : Fp) (h : (a ≠ .nan ∧ b ≠ .nan) ∨ r = .eq ∨ r = .ne) :
    (Rel.fails r a b = true) ↔ ¬ r.HoldsFp a b := by
  unfold Rel.HoldsFp
  rcases ha : num a with _ | x
  · rw [num_none] at ha
    rcases h with ⟨h, _⟩ | h | h
    · exact absurd ha h
    · subst h ha; simp [Rel.fails, CppOrd.eq, Fp.eq]
    · subst h ha; simp [Rel.fails, CppOrd.eq, Fp.eq]
  · rcases hb : num b with _ | y
    · rw [num_none] at hb
      rcases h with ⟨_, h⟩ | h | h
      · exact absurd hb h
      · subst h hb; cases a <;> simp [Rel.fails, CppOrd.eq, Fp.eq]
      · subst h hb; cases a <;> simp [Rel.fails, CppOrd.eq, Fp.eq]
    · cases r <;> simp only [Rel.fails, CppOrd.lt, CppOrd.le, CppOrd.eq, Rel.Holds, num_lt, num_le, num_eq, ha, hb,
        Option.some.injEq, exists_eq_left', Bool.not_eq_true', ← Bool.not_eq_true, not_lt, not_le] <;> simp [ha, hb, eq_comm]

/-! ## C89 -/

/-- the outcome the user expects: nothing happens if the assertion holds; otherwise an exception of the given type whose text
names the type, the place, the asserted expression, the values and the message, and the state is as before -/
def Expected (holds : Prop) (type : String) (p : Pos) (text : String) (s : σ) (o : Outcome σ) : Prop :=
  (holds → o = .normal s) ∧ (¬ holds → o = .thrown type (whatText type p text) s)

theorem expected_of (holds : Prop) (fails : Bool) (h : fails = true ↔ ¬ holds) (type : String) (p : Pos) (text : String) (s : σ) :
    Expected holds type p text s (if fails then throwEx type p text s else .normal s) := by
  constructor
  · intro hh
    have : fails = false := by rw [← Bool.not_eq_true, h]; exact not_not.mpr hh
    simp [this]
  · intro hh
    rw [if_pos (h.mpr hh), throwEx_eq]

/-- **C89** `SM_ASSERT_LT`, `_GE`, `_LE`, `_GT`, `_EQ`, `_NE` on values of a linearly ordered type (integers) with arguments
without side effects: nothing happens if the relation holds, and otherwise the exception tells type, place, relation and
values. -/
theorem C89_rel [LinearOrder α] (r : Rel) (dbg : Bool) (type : String) (p : Pos) (value bound : Ex σ α) (fv fb : σ → α)
    (hv : Pure value fv) (hb : Pure bound fb) (message : String) (s : σ) :
    Expected (r.Holds (fv s) (fb s)) type p
      (s!"{if dbg then "debug " else ""}assert({value.text} {r.symbol} {bound.text}) failed [{value.print (fv s)} {r.symbol} {bound.print (fb s)}]: {message}")
      s (@assertRel σ α (CppOrd.ofLinear α) r dbg type p value bound message s) := by
  have hr : r.sign = " " ++ r.symbol ++ " " := by cases r <;> rfl
  have h := expected_of (σ := σ) _ _ (fails_linear r (fv s) (fb s)) type p
    (head dbg ++ value.text ++ r.sign ++ bound.text ++ ") failed [" ++ value.print (fv s) ++ r.sign ++ bound.print (fb s) ++ "]: " ++ message) s
  unfold assertRel
  simp only [hv s, hb s, Ex.show]
  convert h using 1
  rw [hr, head]
  cases dbg <;> simp [String.append_assoc, toStr]

example : ∃ (value bound : Ex ℤ ℤ), Pure value id ∧ Pure bound (fun _ => 3) ∧
    @assertRel ℤ ℤ (CppOrd.ofLinear ℤ) .lt false "E" ⟨"f", "a.cpp", 7⟩ value bound "m" 5 =
      .thrown "E" "[E] a.cpp:7: f() assert(x < 3) failed [5 < 3]: m" 5 :=
  ⟨⟨"x", fun s => (s, s), toString⟩, ⟨"3", fun s => (3, s), toString⟩, fun _ => rfl, fun _ => rfl, by decide⟩

/-- the full claim for floating point values: the assertion lets a value pass exactly if the relation holds -/
def C89_claim : Prop :=
  ∀ (r : Rel) (type : String) (p : Pos) (value bound : Ex Unit Fp) (v b : Fp) (message : String),
    Pure value (fun _ => v) → Pure bound (fun _ => b) →
    (assertRel r false type p value bound message () = .normal () ↔ r.HoldsFp v b)

/-- **C89** The full claim is false: NaN passes `SM_ASSERT_LT`, `_LE`, `_GT`, `_GE` with any bound, because the macros test for the
opposite relation.  The same holds for the range macros and for `POSITIVE`, `NEGATIVE`, … -/
theorem C89_negation : ¬ C89_claim ∧
    (∀ (r : Rel) (type : String) (p : Pos) (value bound : Ex σ Fp) (fb : σ → Fp) (message : String) (s : σ),
      Pure value (fun _ => .nan) → Pure bound fb → r ≠ .eq →
      assertRel r false type p value bound message s = .normal s) ∧
    (∀ (r : Range) (type : String) (p : Pos) (value lower upper : Ex σ Fp) (fl fu : σ → Fp) (message : String) (s : σ),
      Pure value (fun _ => .nan) → Pure lower fl → Pure upper fu →
      assertRange r false type p value lower upper message s = .normal s) ∧
    (∀ (r : Sign) (type : String) (p : Pos) (value : Ex σ Fp) (message : String) (s : σ),
      Pure value (fun _ => .nan) → r ≠ .zero →
      assertSign (.fin 0) r false type p value message s = .normal s) := by
  have h1 : ∀ {σ : Type} (r : Rel) (type : String) (p : Pos) (value bound : Ex σ Fp) (fb : σ → Fp) (message : String) (s : σ),
      Pure value (fun _ => .nan) → Pure bound fb → r ≠ .eq →
      assertRel r false type p value bound message s = .normal s := by
    intro σ r type p value bound fb message s hv hb hr
    unfold assertRel
    simp only [hv s, hb s]
    have : Rel.fails r Fp.nan (fb s) = false := by
      cases r <;> cases fb s <;> simp_all [Rel.fails, CppOrd.lt, CppOrd.le, CppOrd.eq, Fp.le, Fp.lt, Fp.eq]
    simp [this]
  refine ⟨fun hc => ?_, h1, ?_, ?_⟩
  · have := (hc .lt "E" ⟨"f", "a", 1⟩ ⟨"x", fun s => (.nan, s), fun _ => ""⟩ ⟨"y", fun s => (.fin 0, s), fun _ => ""⟩ .nan (.fin 0) ""
      (fun _ => rfl) (fun _ => rfl)).mp (h1 _ _ _ _ _ (fun _ => .fin 0) _ _ (fun _ => rfl) (fun _ => rfl) (by decide))
    simp [Rel.HoldsFp, num] at this
  · intro r type p value lower upper fl fu message s hv hl hu
    unfold assertRange
    have e1 : r.below Fp.nan (fl s) = false := by
      cases r <;> cases fl s <;> simp [Range.below, CppOrd.lt, CppOrd.le, Fp.le, Fp.lt, Fp.eq]
    have e2 : r.above Fp.nan (fu s) = false := by
      cases r <;> cases fu s <;> simp [Range.above, CppOrd.lt, CppOrd.le, Fp.le, Fp.lt, Fp.eq]
    simp [hv s, hl s, hu s, e1, e2]
  · intro r type p value message s hv hr
    unfold assertSign
    have e1 : r.fails (Fp.fin 0) Fp.nan = false := by
      cases r <;> simp_all [Sign.fails, CppOrd.lt, CppOrd.le, Fp.le, Fp.lt, Fp.eq]
    simp [hv s, e1]

example : Pure (σ := Unit) ⟨"sqrt(-1)", fun s => (Fp.nan, s), fun _ => "nan"⟩ (fun _ => .nan) := fun _ => rfl

/-- **C89** What holds for floating point values: as for integers if no value is NaN, infinities included; `SM_ASSERT_EQ` and
`SM_ASSERT_NE` treat NaN right, too. -/
theorem C89_rel_partial (r : Rel) (dbg : Bool) (type : String) (p : Pos) (value bound : Ex σ Fp) (fv fb : σ → Fp)
    (hv : Pure value fv) (hb : Pure bound fb) (message : String) (s : σ)
    (hn : (fv s ≠ .nan ∧ fb s ≠ .nan) ∨ r = .eq ∨ r = .ne) :
    Expected (r.HoldsFp (fv s) (fb s)) type p
      (s!"{if dbg then "debug " else ""}assert({value.text} {r.symbol} {bound.text}) failed [{value.print (fv s)} {r.symbol} {bound.print (fb s)}]: {message}")
      s (assertRel r dbg type p value bound message s) := by
  have hr : r.sign = " " ++ r.symbol ++ " " := by cases r <;> rfl
  have h := expected_of (σ := σ) _ _ (fails_fp r (fv s) (fb s) hn) type p
    (head dbg ++ value.text ++ r.sign ++ bound.text ++ ") failed [" ++ value.print (fv s) ++ r.sign ++ bound.print (fb s) ++ "]: " ++ message) s
  unfold assertRel
  simp only [hv s, hb s, Ex.show]
  convert h using 1
  rw [hr, head]
  cases dbg <;> simp [String.append_assoc, toStr]

example : (Fp.fin 1 ≠ .nan ∧ Fp.inf false ≠ .nan) ∧ Rel.lt.HoldsFp (.fin 1) (.inf false) := by
  refine ⟨by simp, ?_⟩
  simp only [Rel.HoldsFp, num, Rel.Holds]
  exact WithBot.coe_lt_coe.mpr (WithTop.coe_lt_top 1)

theorem below_fails [CppOrd α] (r : Range) (v l : α) : r.below v l = Rel.fails r.rels.1 l v := by
  cases r <;> rfl

theorem above_fails [CppOrd α] (r : Range) (v u : α) : r.above v u = Rel.fails r.rels.2 v u := by
  cases r <;> rfl

theorem assertRange_pure [CppOrd α] (r : Range) (dbg : Bool) (type : String) (p : Pos) (value lower upper : Ex σ α) (fv fl fu : σ → α)
    (hv : Pure value fv) (hl : Pure lower fl) (hu : Pure upper fu) (message : String) (s : σ) :
    assertRange r dbg type p value lower upper message s =
      if Rel.fails r.rels.1 (fl s) (fv s) || Rel.fails r.rels.2 (fv s) (fu s) then
        throwEx type p (s!"{if dbg then "debug " else ""}assert({lower.text} {r.rels.1.symbol} {value.text} {r.rels.2.symbol} {upper.text}) failed [{lower.print (fl s)} {r.rels.1.symbol} {value.print (fv s)} {r.rels.2.symbol} {upper.print (fu s)}]: {message}") s
      else .normal s := by
  unfold assertRange
  simp only [hv s, hl s, hu s, Ex.show, below_fails, above_fails]
  have e1 : r.signs.1 = " " ++ r.rels.1.symbol ++ " " := by cases r <;> rfl
  have e2 : r.signs.2 = " " ++ r.rels.2.symbol ++ " " := by cases r <;> rfl
  rw [e1, e2, head]
  have hv' : ∀ s, value.eval s = (fv s, s) := hv
  have hl' : ∀ s, lower.eval s = (fl s, s) := hl
  have hu' : ∀ s, upper.eval s = (fu s, s) := hu
  cases h : Rel.fails r.rels.1 (fl s) (fv s) <;> cases dbg <;>
    simp only [if_true, if_false, Bool.false_eq_true, Bool.false_or, Bool.true_or, hv', hl', hu', above_fails] <;>
    simp [String.append_assoc, toStr]

/-- **C89** The range macros on integers -/
theorem C89_range [LinearOrder α] (r : Range) (dbg : Bool) (type : String) (p : Pos) (value lower upper : Ex σ α) (fv fl fu : σ → α)
    (hv : Pure value fv) (hl : Pure lower fl) (hu : Pure upper fu) (message : String) (s : σ) :
    Expected (r.rels.1.Holds (fl s) (fv s) ∧ r.rels.2.Holds (fv s) (fu s)) type p
      (s!"{if dbg then "debug " else ""}assert({lower.text} {r.rels.1.symbol} {value.text} {r.rels.2.symbol} {upper.text}) failed [{lower.print (fl s)} {r.rels.1.symbol} {value.print (fv s)} {r.rels.2.symbol} {upper.print (fu s)}]: {message}")
      s (@assertRange σ α (CppOrd.ofLinear α) r dbg type p value lower upper message s) := by
  rw [@assertRange_pure σ α (CppOrd.ofLinear α) r dbg type p value lower upper fv fl fu hv hl hu]
  apply expected_of
  rw [Bool.or_eq_true, fails_linear, fails_linear, not_and_or]

example : Range.geLt.rels.1.Holds (0 : ℤ) 3 ∧ Range.geLt.rels.2.Holds (3 : ℤ) 4 ∧ ¬ Range.geLt.rels.2.Holds (4 : ℤ) 4 := by
  simp [Range.rels, Rel.Holds]

/-- **C89** The range macros on floating point values other than NaN -/
theorem C89_range_partial (r : Range) (dbg : Bool) (type : String) (p : Pos) (value lower upper : Ex σ Fp) (fv fl fu : σ → Fp)
    (hv : Pure value fv) (hl : Pure lower fl) (hu : Pure upper fu) (message : String) (s : σ)
    (hn : fv s ≠ .nan ∧ fl s ≠ .nan ∧ fu s ≠ .nan) :
    Expected (r.rels.1.HoldsFp (fl s) (fv s) ∧ r.rels.2.HoldsFp (fv s) (fu s)) type p
      (s!"{if dbg then "debug " else ""}assert({lower.text} {r.rels.1.symbol} {value.text} {r.rels.2.symbol} {upper.text}) failed [{lower.print (fl s)} {r.rels.1.symbol} {value.print (fv s)} {r.rels.2.symbol} {upper.print (fu s)}]: {message}")
      s (assertRange r dbg type p value lower upper message s) := by
  rw [assertRange_pure r dbg type p value lower upper fv fl fu hv hl hu]
  apply expected_of
  rw [Bool.or_eq_true, fails_fp _ _ _ (.inl ⟨hn.2.1, hn.1⟩), fails_fp _ _ _ (.inl ⟨hn.1, hn.2.2⟩), not_and_or]

example : (Fp.fin 1 ≠ .nan) ∧ (Fp.inf true ≠ .nan) ∧ (Fp.fin 2 ≠ .nan) := by simp

theorem sign_fails [CppOrd α] (z : α) (r : Sign) (v : α) : r.fails z v = Rel.fails r.rel v z := by
  cases r <;> rfl

/-- the full claim on the text of the comparisons with zero: it shows the relation that was tested -/
def C89_text_claim : Prop :=
  ∀ (r : Sign) (type : String) (p : Pos) (value : Ex Unit ℤ) (v : ℤ) (message : String),
    Pure value (fun _ => v) →
    Expected (r.rel.Holds v 0) type p
      (s!"assert({value.text} {r.rel.symbol} 0.0) failed [{value.print v} {r.rel.symbol} 0.0]: {message}") ()
      (assertSign 0 r false type p value message ())

/-- **C89** The full claim is false: a failed `SM_ASSERT_NONPOSITIVE(E, 5, …)` reports that "5 >= 0.0" failed. -/
theorem C89_text_negation : ¬ C89_text_claim ∧
    assertSign 0 .nonpositive false "E" ⟨"f", "a.cpp", 7⟩ ⟨"x", fun s => ((5 : ℤ), s), toString⟩ "m" () =
      .thrown "E" "[E] a.cpp:7: f() assert(x >= 0.0) failed [5 >= 0.0]: m" () := by
  have h : assertSign 0 .nonpositive false "E" ⟨"f", "a.cpp", 7⟩ ⟨"x", fun s => ((5 : ℤ), s), toString⟩ "m" () =
      .thrown "E" "[E] a.cpp:7: f() assert(x >= 0.0) failed [5 >= 0.0]: m" () := by decide
  refine ⟨fun hc => ?_, h⟩
  have := (hc .nonpositive "E" ⟨"f", "a.cpp", 7⟩ ⟨"x", fun s => ((5 : ℤ), s), toString⟩ 5 "m" (fun _ => rfl)).2
    (by simp [Sign.rel, Rel.Holds])
  rw [h] at this
  revert this
  decide

/-- **C89** `SM_ASSERT_POSITIVE`, `_NONNEGATIVE`, `_NEGATIVE`, `_NONPOSITIVE`, `_ZERO` on integers: the decision is right for all,
the text for all but `_NONPOSITIVE`. -/
theorem C89_sign_partial [LinearOrder α] (z : α) (r : Sign) (dbg : Bool) (type : String) (p : Pos) (value : Ex σ α) (fv : σ → α)
    (hv : Pure value fv) (message : String) (s : σ) :
    (@assertSign σ α (CppOrd.ofLinear α) z r dbg type p value message s = .normal s ↔ r.rel.Holds (fv s) z) ∧
    (r ≠ .nonpositive → Expected (r.rel.Holds (fv s) z) type p
      (s!"{if dbg then "debug " else ""}assert({value.text} {r.rel.symbol} 0.0) failed [{value.print (fv s)} {r.rel.symbol} 0.0]: {message}")
      s (@assertSign σ α (CppOrd.ofLinear α) z r dbg type p value message s)) := by
  have hf := fails_linear r.rel (fv s) z
  rw [← @sign_fails α (CppOrd.ofLinear α)] at hf
  have h := expected_of (σ := σ) _ _ hf type p
    (head dbg ++ value.text ++ r.text ++ ") failed [" ++ value.print (fv s) ++ r.text ++ "]: " ++ message) s
  have e : @assertSign σ α (CppOrd.ofLinear α) z r dbg type p value message s =
      (if @Sign.fails α (CppOrd.ofLinear α) z r (fv s) = true then throwEx type p
        (head dbg ++ value.text ++ r.text ++ ") failed [" ++ value.print (fv s) ++ r.text ++ "]: " ++ message) s
      else .normal s) := by
    unfold assertSign
    simp only [hv s, Ex.show]
  constructor
  · constructor
    · intro h1
      by_contra h2
      have := h.2 h2
      rw [← e, h1] at this
      cases this
    · intro h1; rw [e]; exact h.1 h1
  · intro hr
    rw [e]
    convert h using 1
    have et : r.text = " " ++ r.rel.symbol ++ " 0.0" := by cases r <;> simp_all <;> rfl
    rw [et, head]
    cases dbg <;> simp [String.append_assoc, toStr]

/-- **C89** The same for floating point values other than NaN, and for `SM_ASSERT_ZERO` with NaN. -/
theorem C89_sign_fp_partial (r : Sign) (dbg : Bool) (type : String) (p : Pos) (value : Ex σ Fp) (fv : σ → Fp)
    (hv : Pure value fv) (message : String) (s : σ) (hn : fv s ≠ .nan ∨ r = .zero) :
    (assertSign (.fin 0) r dbg type p value message s = .normal s ↔ r.rel.HoldsFp (fv s) (.fin 0)) ∧
    (r ≠ .nonpositive → Expected (r.rel.HoldsFp (fv s) (.fin 0)) type p
      (s!"{if dbg then "debug " else ""}assert({value.text} {r.rel.symbol} 0.0) failed [{value.print (fv s)} {r.rel.symbol} 0.0]: {message}")
      s (assertSign (.fin 0) r dbg type p value message s)) := by
  have hf := fails_fp r.rel (fv s) (.fin 0) (by
    rcases hn with hn | rfl
    · exact .inl ⟨hn, by simp⟩
    · exact .inr (.inl rfl))
  rw [← sign_fails] at hf
  have h := expected_of (σ := σ) _ _ hf type p
    (head dbg ++ value.text ++ r.text ++ ") failed [" ++ value.print (fv s) ++ r.text ++ "]: " ++ message) s
  have e : assertSign (.fin 0) r dbg type p value message s =
      (if r.fails (Fp.fin 0) (fv s) = true then throwEx type p
        (head dbg ++ value.text ++ r.text ++ ") failed [" ++ value.print (fv s) ++ r.text ++ "]: " ++ message) s
      else .normal s) := by
    unfold assertSign
    simp only [hv s, Ex.show]
  constructor
  · constructor
    · intro h1
      by_contra h2
      have := h.2 h2
      rw [← e, h1] at this
      cases this
    · intro h1; rw [e]; exact h.1 h1
  · intro hr
    rw [e]
    convert h using 1
    have et : r.text = " " ++ r.rel.symbol ++ " 0.0" := by cases r <;> simp_all <;> rfl
    rw [et, head]
    cases dbg <;> simp [String.append_assoc, toStr]

example : Sign.positive.rel.HoldsFp (.inf false) (.fin 0) ∧ ¬ Sign.zero.rel.HoldsFp .nan (.fin 0) := by
  constructor
  · simp only [Sign.rel, Rel.HoldsFp, num, Rel.Holds]
    exact WithBot.coe_lt_coe.mpr (WithTop.coe_lt_top 0)
  · simp [Sign.rel, Rel.HoldsFp, num]

/-- **C89** `SM_ASSERT_TRUE`, `SM_ASSERT_FALSE`, `SM_ASSERT_NOTNULL`, `SM_ASSERT_NULL` -/
theorem C89_bool (dbg : Bool) (type : String) (p : Pos) (message : String) (s : σ) :
    (∀ (cond : Ex σ Bool) (f : σ → Bool), Pure cond f →
      Expected (f s = true) type p (s!"{if dbg then "debug " else ""}assert({cond.text}) failed: {message}") s
        (assertTrue dbg type p cond message s) ∧
      Expected (f s = false) type p (s!"{if dbg then "debug " else ""}assert( not {cond.text}) failed: {message}") s
        (assertFalse dbg type p cond message s)) ∧
    (∀ (value : Ex σ (Option α)) (f : σ → Option α), Pure value f →
      Expected (f s ≠ none) type p (s!"{if dbg then "debug " else ""}assert({value.text} != NULL) failed: {message}") s
        (assertNull false dbg type p value message s) ∧
      Expected (f s = none) type p (s!"{if dbg then "debug " else ""}assert({value.text} == NULL) failed: {message}") s
        (assertNull true dbg type p value message s)) := by
  refine ⟨fun cond f hf => ⟨?_, ?_⟩, fun value f hf => ⟨?_, ?_⟩⟩
  · unfold assertTrue
    rw [hf s]
    convert expected_of (σ := σ) (f s = true) (!f s) (by cases f s <;> simp) type p _ s using 1
    cases dbg <;> simp [head, String.append_assoc, toStr]
  · unfold assertFalse
    rw [hf s]
    convert expected_of (σ := σ) (f s = false) (f s) (by cases f s <;> simp) type p _ s using 1
    cases dbg <;> simp [head, String.append_assoc, toStr]
  · unfold assertNull
    rw [hf s]
    convert expected_of (σ := σ) (f s ≠ none) ((f s).isNone != false) (by cases f s <;> simp) type p _ s using 1
    cases dbg <;> simp [head, String.append_assoc, toStr]
  · unfold assertNull
    rw [hf s]
    convert expected_of (σ := σ) (f s = none) ((f s).isNone != true) (by cases f s <;> simp) type p _ s using 1
    cases dbg <;> simp [head, String.append_assoc, toStr]

/-- the values are as close as `SM_ASSERT_NEAR` asks for: numbers whose distance is at most the absolute value of the
tolerance (which may be infinite), or a number and an infinity with an infinite tolerance -/
def Near (v t e : Fp) : Prop :=
  (∃ x y z, v = .fin x ∧ t = .fin y ∧ e = .fin z ∧ |y - x| ≤ |z|) ∨
  (v ≠ .nan ∧ t ≠ .nan ∧ (∃ b, e = .inf b) ∧ ¬ ∃ b, v = .inf b ∧ t = .inf b)

/-- **C89** `SM_ASSERT_NEAR` throws iff the values are not near each other; in particular for NaN, and also for two equal
infinities. -/
theorem C89_near (printFp : Fp → String) (dbg : Bool) (type : String) (p : Pos) (value test err : Ex σ Fp) (fv ft fe : σ → Fp)
    (hv : Pure value fv) (ht : Pure test ft) (he : Pure err fe) (message : String) (s : σ) :
    Expected (Near (fv s) (ft s) (fe s)) type p
      (s!"{if dbg then "debug " else ""}assert({value.text} == {test.text}) failed [{value.print (fv s)} == {test.print (ft s)} ({printFp ((ft s).sub (fv s)).abs} > {printFp (fe s).abs})]: {message}")
      s (assertNear printFp dbg type p value test err message s) := by
  unfold assertNear
  simp only [hv s, ht s, he s, Ex.show]
  convert expected_of (σ := σ) (Near (fv s) (ft s) (fe s)) (nearFails (fv s) (ft s) (fe s)) ?_ type p _ s using 1
  · cases dbg <;> simp [head, String.append_assoc, toStr]
  · unfold nearFails Near
    rcases fv s with q | (_ | _) | _ <;> rcases ft s with q' | (_ | _) | _ <;> rcases fe s with q'' | (_ | _) | _ <;>
      simp [Fp.sub, Fp.neg, Fp.add, Fp.abs, Fp.le, Fp.lt, Fp.eq, sub_eq_add_neg]
    exact ⟨fun h => lt_of_le_of_ne h.1 (Ne.symm h.2), fun h => ⟨h.le, h.ne'⟩⟩

example : Near (.fin 1) (.fin 2) (.fin (-1)) ∧ ¬ Near (.fin 1) .nan (.inf false) ∧ ¬ Near (.inf true) (.inf true) (.fin 1) := by
  refine ⟨.inl ⟨1, 2, -1, rfl, rfl, rfl, by norm_num⟩, ?_, ?_⟩ <;> simp [Near]

/-- **C89** `SM_ASSERT_FINITE` and `SM_ASSERT_NOTNAN` -/
theorem C89_finite (dbg : Bool) (type : String) (p : Pos) (value : Ex σ Fp) (fv : σ → Fp) (hv : Pure value fv) (message : String)
    (s : σ) :
    Expected (∃ q, fv s = .fin q) type p
      (s!"{if dbg then "debug " else ""}assert(isfinite({value.text})) failed [isfinite({value.print (fv s)}) = false]: {message}") s
      (assertFinite dbg type p value message s) ∧
    Expected (fv s ≠ .nan) type p (s!"{if dbg then "debug " else ""}assert(!isnan({value.text})) failed: {message}") s
      (assertNotNan dbg type p value message s) := by
  constructor
  · unfold assertFinite
    simp only [hv s, Ex.show]
    convert expected_of (σ := σ) (∃ q, fv s = .fin q) (!(fv s).isFinite) (by cases fv s <;> simp [Fp.isFinite]) type p _ s using 1
    cases dbg <;> simp [head, String.append_assoc, toStr]
  · unfold assertNotNan
    simp only [hv s]
    convert expected_of (σ := σ) (fv s ≠ .nan) ((fv s).isNan) (by cases fv s <;> simp [Fp.isNan]) type p _ s using 1
    cases dbg <;> simp [head, String.append_assoc, toStr]

/-- **C89** `sm_assert_throw` and `SM_THROW` -/
theorem C89_throw (cond : Bool) (type message : String) (p : Pos) (s : σ) :
    (cond = true → assertThrow cond type message p s = .normal s) ∧
    (cond = false → assertThrow cond type message p s = .thrown type (s!"{p.file}:{p.line}: {p.function}() {message}") s) ∧
    smThrow type p message s = .thrown type (whatText type p message) s := by
  refine ⟨?_, ?_, throwEx_eq _ _ _ _⟩
  · rintro rfl; rfl
  · rintro rfl
    simp [assertThrow, Pos.toString, String.append_assoc, toStr]

/-! ## C90 -/

/-- the full claim: an argument of an assertion is evaluated exactly once, so that an argument with a side effect, here
`n++`, has it exactly once, and the assertion is about the value of that evaluation -/
def C90_claim : Prop :=
  ∀ (r : Range) (dbg : Bool) (type : String) (p : Pos) (value lower upper : Ex ℤ ℤ) (l u : ℤ) (message : String) (s : ℤ),
    (∀ s, value.eval s = (s, s + 1)) → Pure lower (fun _ => l) → Pure upper (fun _ => u) →
    (r.rels.1.Holds l s ∧ r.rels.2.Holds s u ↔ assertRange r dbg type p value lower upper message s = .normal (s + 1))

/-- **C90** The full claim is false: the range macros evaluate the value twice when it is in range, so
`SM_ASSERT_GE_LT(E, n++, 0, 10, "")` adds two to `n`, and throws for `n = 9`; counting down, `SM_ASSERT_GE_LT(E, n--, 0, 10, "")`
lets the value 10 pass. -/
theorem C90_negation : ¬ C90_claim ∧
    (∀ (type : String) (p : Pos) (value lower upper : Ex ℤ ℤ) (message : String) (s : ℤ),
      (∀ s, value.eval s = (s, s + 1)) → Pure lower (fun _ => 0) → Pure upper (fun _ => 10) → 0 ≤ s → s < 9 →
      assertRange .geLt false type p value lower upper message s = .normal (s + 2)) ∧
    (∀ (type : String) (p : Pos) (value lower upper : Ex ℤ ℤ) (message : String),
      (∀ s, value.eval s = (s, s + 1)) → Pure lower (fun _ => 0) → Pure upper (fun _ => 10) →
      ∃ w s', assertRange .geLt false type p value lower upper message 9 = .thrown type w s') ∧
    (∀ (type : String) (p : Pos) (value lower upper : Ex ℤ ℤ) (message : String),
      (∀ s, value.eval s = (s, s - 1)) → Pure lower (fun _ => 0) → Pure upper (fun _ => 10) →
      assertRange .geLt false type p value lower upper message 10 = .normal 8) := by
  have h2 : ∀ (type : String) (p : Pos) (value lower upper : Ex ℤ ℤ) (message : String) (s : ℤ),
      (∀ s, value.eval s = (s, s + 1)) → Pure lower (fun _ => 0) → Pure upper (fun _ => 10) → 0 ≤ s → s < 9 →
      assertRange .geLt false type p value lower upper message s = .normal (s + 2) := by
    intro type p value lower upper message s hv hl hu h0 h9
    have hl' : ∀ s, lower.eval s = (0, s) := hl
    have hu' : ∀ s, upper.eval s = (10, s) := hu
    unfold assertRange
    simp only [hv, hl', hu']
    have e1 : Range.geLt.below s 0 = false := by
      show decide (s < 0) = false
      simp [h0]
    have e2 : Range.geLt.above (s + 1) 10 = false := by
      show decide (10 ≤ s + 1) = false
      simp; omega
    simp [e1, e2, add_assoc]
  refine ⟨fun hc => ?_, h2, ?_, ?_⟩
  · have e := h2 "E" ⟨"f", "a", 1⟩ ⟨"n++", fun s => (s, s + 1), toString⟩ ⟨"0", fun s => (0, s), toString⟩ ⟨"10", fun s => (10, s), toString⟩
      "" 0 (fun _ => rfl) (fun _ => rfl) (fun _ => rfl) (by norm_num) (by norm_num)
    have := (hc .geLt false "E" ⟨"f", "a", 1⟩ ⟨"n++", fun s => (s, s + 1), toString⟩ ⟨"0", fun s => (0, s), toString⟩
      ⟨"10", fun s => (10, s), toString⟩ 0 10 "" 0 (fun _ => rfl) (fun _ => rfl) (fun _ => rfl)).mp
      (by simp [Range.rels, Rel.Holds])
    rw [e] at this
    revert this
    decide
  · intro type p value lower upper message hv hl hu
    have hl' : ∀ s, lower.eval s = (0, s) := hl
    have hu' : ∀ s, upper.eval s = (10, s) := hu
    unfold assertRange
    simp only [hv, hl', hu', Ex.show]
    have e1 : Range.geLt.below (9 : ℤ) 0 = false := by decide
    have e2 : Range.geLt.above (9 + 1 : ℤ) 10 = true := by decide
    simp only [e1, e2]
    exact ⟨_, _, rfl⟩
  · intro type p value lower upper message hv hl hu
    have hl' : ∀ s, lower.eval s = (0, s) := hl
    have hu' : ∀ s, upper.eval s = (10, s) := hu
    unfold assertRange
    simp only [hv, hl', hu']
    have e1 : Range.geLt.below (10 : ℤ) 0 = false := by decide
    have e2 : Range.geLt.above (10 - 1 : ℤ) 10 = false := by decide
    simp only [e1, e2]
    rfl

/-- **C90** What holds: the other macros evaluate each argument exactly once when they do not throw. -/
theorem C90_once_partial [CppOrd α] (z : α) (dbg : Bool) (type : String) (p : Pos) (message : String) (s s' : σ) :
    (∀ (r : Rel) (value bound : Ex σ α), assertRel r dbg type p value bound message s = .normal s' →
      s' = (bound.eval (value.eval s).2).2 ∧ r.fails (value.eval s).1 (bound.eval (value.eval s).2).1 = false) ∧
    (∀ (r : Sign) (value : Ex σ α), assertSign z r dbg type p value message s = .normal s' →
      s' = (value.eval s).2 ∧ r.fails z (value.eval s).1 = false) ∧
    (∀ cond : Ex σ Bool, (assertTrue dbg type p cond message s = .normal s' → cond.eval s = (true, s')) ∧
      (assertFalse dbg type p cond message s = .normal s' → cond.eval s = (false, s'))) := by
  refine ⟨fun r value bound h => ?_, fun r value h => ?_, fun cond => ⟨fun h => ?_, fun h => ?_⟩⟩
  · unfold assertRel at h
    dsimp only at h
    split at h
    · simp [throwEx] at h
    · rename_i hf
      simp only [Outcome.normal.injEq] at h
      exact ⟨h.symm, by simpa using hf⟩
  · unfold assertSign at h
    dsimp only at h
    split at h
    · simp [throwEx] at h
    · rename_i hf
      simp only [Outcome.normal.injEq] at h
      exact ⟨h.symm, by simpa using hf⟩
  · unfold assertTrue at h
    dsimp only at h
    split at h
    · simp [throwEx] at h
    · rename_i hf
      simp only [Outcome.normal.injEq] at h
      exact Prod.ext (by simpa using hf) h
  · unfold assertFalse at h
    dsimp only at h
    split at h
    · simp [throwEx] at h
    · rename_i hf
      simp only [Outcome.normal.injEq] at h
      exact Prod.ext (by simpa using hf) h

example : @assertRel ℤ ℤ (CppOrd.ofLinear ℤ) .lt false "E" ⟨"f", "a", 1⟩ ⟨"n++", fun s => (s, s + 1), toString⟩
    ⟨"3", fun s => (3, s), toString⟩ "" 2 = .normal 3 := by decide

/-- **C90** A debug assertion is the plain one, with "debug " in its text, unless `NDEBUG` is defined without
`SM_ALWAYS_ASSERT`; then it is nothing, and its arguments are not evaluated.  So defining `NDEBUG` does not change a run in which the
arguments have no side effects and the assertions hold. -/
theorem C90_debug (stmt : σ → Outcome σ) (s : σ) :
    dbgMacro false false stmt s = stmt s ∧ (∀ ndebug, dbgMacro ndebug true stmt s = stmt s) ∧
    dbgMacro true false stmt s = .normal s ∧
    (stmt s = .normal s → ∀ nd aa, dbgMacro nd aa stmt s = .normal s) := by
  refine ⟨rfl, fun nd => by cases nd <;> rfl, rfl, fun h nd aa => ?_⟩
  cases nd <;> cases aa <;> simp [dbgMacro, h]

/-- **C90** Arguments with side effects make a difference: `SM_ASSERT_LT_DBG(E, n++, 10, "")` only counts in debug builds. -/
theorem C90_debug_negation :
    let stmt := @assertRel ℤ ℤ (CppOrd.ofLinear ℤ) .lt true "E" ⟨"f", "a", 1⟩ ⟨"n++", fun s => (s, s + 1), toString⟩
      ⟨"10", fun s => (10, s), toString⟩ ""
    dbgMacro false false stmt 2 = .normal 3 ∧ dbgMacro true false stmt 2 = .normal 2 := by
  decide

end Verif.Assert
