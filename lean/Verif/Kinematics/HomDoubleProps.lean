import Verif.Kinematics.HomDoubleLemmas
import Verif.Kinematics.HomProps
import Verif.Common.DoubleEven

/-!
# Homogeneous points on doubles: C179
-/

namespace Verif.HomDouble

open Verif.Common Verif.KinematicsDouble
open Verif.Kinematics (V3 V4 M3 Represents IsJacobian)

local notation "nrm" => Kinematics.norm

/-! ## What the computations stand for -/

/-- room for underflow -/
noncomputable def slack : ℝ := 2 ^ (-400 : ℤ)

theorem slack_pos : 0 < slack := by unfold slack; positivity

namespace HExpr

/-- the Euclidean point a computation stands for, in real numbers -/
noncomputable def exact : HExpr → V3
  | euclid x => vals x
  | point p => fun i => vals p i.castSucc / vals p 3
  | add a b => fun i => a.exact i + b.exact i
  | sub a b => fun i => a.exact i - b.exact i
  | scale a s => fun i => a.exact i * fval s

/-- the exact last coordinate: the product of the last coordinates of the points -/
noncomputable def weight : HExpr → ℝ
  | euclid _ => 1
  | point p => vals p 3
  | add a b => a.weight * b.weight
  | sub a b => a.weight * b.weight
  | scale a _ => a.weight

/-- the magnitudes of the terms, added up -/
noncomputable def reach : HExpr → V3
  | euclid x => fun i => |vals x i| + slack
  | point p => fun i => |vals p i.castSucc / vals p 3| + slack
  | add a b => fun i => a.reach i + b.reach i
  | sub a b => fun i => a.reach i + b.reach i
  | scale a s => fun i => a.reach i * |(fval s : ℝ)| + slack

/-- the number of roundings -/
def ops : HExpr → ℕ
  | euclid _ => 0
  | point _ => 0
  | add a b => a.ops + b.ops + 2
  | sub a b => a.ops + b.ops + 2
  | scale a _ => a.ops + 1

/-- the numbers are finite doubles, no point is at infinity, and neither the coordinates nor the weights of intermediate results come near the ends of the range of doubles -/
def Ok : HExpr → Prop
  | euclid x => Finite x ∧ ∀ i, reach (euclid x) i ≤ 2 ^ (400 : ℤ)
  | point p => Finite p ∧ InR (-400) 400 |vals p 3| ∧ ∀ i, reach (point p) i ≤ 2 ^ (400 : ℤ)
  | add a b => a.Ok ∧ b.Ok ∧ InR (-400) 400 |a.weight * b.weight| ∧ ∀ i, reach (add a b) i ≤ 2 ^ (400 : ℤ)
  | sub a b => a.Ok ∧ b.Ok ∧ InR (-400) 400 |a.weight * b.weight| ∧ ∀ i, reach (sub a b) i ≤ 2 ^ (400 : ℤ)
  | scale a s => a.Ok ∧ (s.isFinite ∧ IsDoubleVal s) ∧ ∀ i, reach (scale a s) i ≤ 2 ^ (400 : ℤ)

/-- a computation that starts from Euclidean vectors only -/
def Euclidean : HExpr → Prop
  | euclid x => ∀ i, IsDoubleVal (x i)
  | point _ => False
  | add a b => a.Euclidean ∧ b.Euclidean
  | sub a b => a.Euclidean ∧ b.Euclidean
  | scale a _ => a.Euclidean

/-- the same computation done on 3-vectors of doubles, coordinate by coordinate -/
def plain (rnd : ℚ → ℚ) : HExpr → F3
  | euclid x => x
  | point _ => fun _ => .nan
  | add a b => fun i => fadd rnd (a.plain rnd i) (b.plain rnd i)
  | sub a b => fun i => fsub rnd (a.plain rnd i) (b.plain rnd i)
  | scale a s => fun i => fmul rnd (a.plain rnd i) s

end HExpr

/-! ## Conversions -/

section
variable {R : ℝ → ℚ} (hR : IsRndR R)

include hR

/-- **C179** Every vector of doubles, infinities and NaNs included, comes back unchanged from its homogeneous coordinates; the same for the columns of a matrix. -/
theorem C179_round_trip (x : F3) (hx : ∀ i, IsDoubleVal (x i)) {m n : ℕ} (M : Matrix (Fin m) (Fin n) Fp) (hM : ∀ i j, IsDoubleVal (M i j)) :
    fromHomogeneous (fun q => R q) (toHomogeneous x) = x ∧ fromHomogeneousColumns (fun q => R q) (toHomogeneousColumns M) = M := by
  have e := one_div_one hR.rat
  constructor
  · funext i
    have : fromHomogeneous (fun q => R q) (toHomogeneous x) i = fmul (fun q => R q) (x i) (fdiv (fun q => R q) (.fin 1) (.fin 1)) := by
      fin_cases i <;> rfl
    rw [this, e, fmul_one hR.rat (hx i)]
  · funext i j
    unfold fromHomogeneousColumns toHomogeneousColumns
    simp only [Fin.lastCases_castSucc, Fin.lastCases_last]
    rw [e, fmul_one hR.rat (hM i j)]

omit hR in
/-- **C179** The conversion of a 4-row matrix converts each column like a point. -/
theorem C179_columns (rnd : ℚ → ℚ) {n : ℕ} (M : Matrix (Fin 4) (Fin n) Fp) (j : Fin n) : (fun i => fromHomogeneousColumns rnd M i j) = fromHomogeneous rnd fun i => M i j := by
  funext i
  fin_cases i <;> rfl

omit hR in
/-- **C179** A point at infinity has no finite Euclidean coordinate. -/
theorem C179_infinity (p : F4) (hp : Finite p) (h3 : p 3 = .fin 0) (i : Fin 3) : (fromHomogeneous (fun q => R q) p i).isFinite = false := by
  have key : ∀ k : Fin 4, (fmul (fun q => R q) (p k) (fdiv (fun q => R q) (.fin 1) (p 3))).isFinite = false := by
    intro k
    rw [h3, (hp.fin k).1]
    have : fdiv (fun q => R q) (.fin 1) (.fin 0) = .inf false := by
      simp [fdiv, Fp.div, rounded, show ¬ ((1 : ℚ) < 0) by norm_num]
    rw [this]
    simp only [fmul, Fp.mul]
    split <;> rfl
  fin_cases i
  · exact key 0
  · exact key 1
  · exact key 2

/-- the quotient of two coordinates, by way of the reciprocal -/
theorem quot_acc {k : ℕ} (hk : 3 * k + 2 ≤ 2 ^ 40) {f g : Fp} {x w A : ℝ} (hw : w ≠ 0) (hA : Scale A) (hi : Scale (1 / |w|)) (hf : Acc k f (w * x) (|w| * A)) (hg : Acc k g w |w|) :
    Acc (3 * k + 2) (fmul (fun q => R q) f (fdiv (fun q => R q) (.fin 1) g)) x A := by
  have w0 : 0 < |w| := abs_pos.2 hw
  have h := acc_mul hR.rat (by omega) hf (acc_recip hR.rat (by omega) hw hg hi) (by rwa [show |w| * A * (1 / |w|) = A by field_simp])
  rw [show |w| * A * (1 / |w|) = A by field_simp, show w * x * (1 / w) = x by field_simp] at h
  exact h.mono (by omega) le_rfl

omit hR in
theorem from_eq (rnd : ℚ → ℚ) (p : F4) (i : Fin 3) : fromHomogeneous rnd p i = fmul rnd (p i.castSucc) (fdiv rnd (.fin 1) (p 3)) := by fin_cases i <;> rfl

end

theorem acc_ok {k : ℕ} (hk : k ≤ 2 ^ 40) {f : Fp} {x S : ℝ} (hS : Scale S) (h : Acc k f x S) : (f.isFinite ∧ IsDoubleVal f) ∧ |(fval f : ℝ) - x| ≤ k / 2 ^ 52 * S := by
  obtain ⟨q, rfl, hd, hx, hq⟩ := h
  have S0 := hS.pos
  have b := pow_eps_le hk
  have b2 := pow_eps_two hk
  have lim : (2 : ℝ) * 2 ^ (900 : ℤ) < 2 ^ 1024 := by
    rw [show (900 : ℤ) = ((900 : ℕ) : ℤ) from rfl, zpow_natCast, ← pow_succ']
    exact pow_lt_pow_right₀ (by norm_num) (by norm_num)
  refine ⟨⟨rfl, hd, ?_⟩, hq.trans (mul_le_mul_of_nonneg_right (by linarith) S0.le)⟩
  have h1 : |(q : ℝ)| ≤ 2 * S := by
    have h2 := abs_add_le ((q : ℝ) - x) x
    rw [sub_add_cancel] at h2
    have : ((1 + eps) ^ k - 1) * S ≤ 1 * S := mul_le_mul_of_nonneg_right (by linarith [show (1 : ℝ) / 2 ^ 12 ≤ 1 by norm_num]) S0.le
    linarith
  have h3 : ((|q| : ℚ) : ℝ) < ((tooBig : ℚ) : ℝ) := by
    unfold tooBig
    push_cast
    exact lt_of_le_of_lt (h1.trans (mul_le_mul_of_nonneg_left hS.2 (by norm_num))) lim
  exact_mod_cast h3

theorem scale_of {a b : ℤ} {S : ℝ} (h : InR a b S) (h1 : -900 ≤ a) (h2 : b ≤ 900) : Scale S := h.scale h1 h2

theorem inv_in {a b : ℤ} {w : ℝ} (h : InR a b w) : InR (-b) (-a) (1 / w) := by
  have h0 := h.pos
  rw [one_div]
  exact ⟨by rw [zpow_neg]; exact inv_anti₀ h0 h.2, by rw [zpow_neg]; exact inv_anti₀ (by positivity) h.1⟩

theorem perm_a {α : Type} (a b z : α) : [b, z, z, a].Perm [a, b, z, z] := by
  have : ([b, z, z] ++ [a]).Perm ([a] ++ [b, z, z]) := List.perm_append_comm
  exact this

theorem perm_b {α : Type} (a b z : α) : [z, b, z, a].Perm [a, b, z, z] := (List.Perm.swap b z [z, a]).trans (perm_a a b z)

theorem perm_c {α : Type} (a b z : α) : [z, z, b, a].Perm [a, b, z, z] := ((List.Perm.swap b z [a]).cons z).trans (perm_b a b z)

theorem perm_d {α : Type} (a z : α) : [z, z, z, a].Perm [a, z, z, z] := perm_a a z z

/-! ## Computations -/

namespace HExpr

theorem reach_ge (e : HExpr) (i : Fin 3) : slack ≤ e.reach i := by
  have s0 := slack_pos
  induction e with
  | euclid x => exact le_add_of_nonneg_left (abs_nonneg _)
  | point p => exact le_add_of_nonneg_left (abs_nonneg _)
  | add a b iha ihb => show _ ≤ a.reach i + b.reach i; linarith
  | sub a b iha ihb => show _ ≤ a.reach i + b.reach i; linarith
  | scale a s iha => exact le_add_of_nonneg_left (mul_nonneg (s0.le.trans iha) (abs_nonneg _))

theorem Ok.range {e : HExpr} (h : e.Ok) : InR (-400) 400 |e.weight| ∧ ∀ i, InR (-400) 400 (e.reach i) := by
  have g : ∀ i, e.reach i ≤ 2 ^ (400 : ℤ) → InR (-400) 400 (e.reach i) := fun i hi => ⟨e.reach_ge i, hi⟩
  induction e with
  | euclid x => exact ⟨⟨by rw [weight, abs_one]; exact zpow_le_one_of_nonpos₀ (by norm_num) (by norm_num), by rw [weight, abs_one]; exact one_le_zpow₀ (by norm_num) (by norm_num)⟩, fun i => g i (h.2 i)⟩
  | point p => exact ⟨h.2.1, fun i => g i (h.2.2 i)⟩
  | add a b => exact ⟨h.2.2.1, fun i => g i (h.2.2.2 i)⟩
  | sub a b => exact ⟨h.2.2.1, fun i => g i (h.2.2.2 i)⟩
  | scale a s iha => exact ⟨(iha h.1 fun i hi => ⟨a.reach_ge i, hi⟩).1, fun i => g i (h.2.2 i)⟩

end HExpr

theorem one_acc : Acc 0 (.fin 1) 1 1 := by
  have := Acc.fin one_val.1 (S := 1) (by norm_num)
  rwa [Rat.cast_one] at this

section
variable {R : ℝ → ℚ} (hR : IsRndR R)

include hR

theorem run_acc (e : HExpr) (h : e.Ok) (hk : e.ops ≤ 2 ^ 40) :
    Acc e.ops (e.run (fun q => R q) 3) e.weight |e.weight| ∧ ∀ i : Fin 3, Acc e.ops (e.run (fun q => R q) i.castSucc) (e.weight * e.exact i) (|e.weight| * e.reach i) := by
  have s0 := slack_pos
  induction e with
  | euclid x =>
    refine ⟨by rw [HExpr.weight, abs_one]; exact one_acc, fun i => ?_⟩
    have := h.1.acc (a := fun i => |vals x i| + slack) (fun i => by linarith) i
    have e1 : (HExpr.euclid x).run (fun q => R q) i.castSucc = x i := by fin_cases i <;> rfl
    rw [e1, HExpr.weight, abs_one, one_mul, one_mul]
    exact this
  | point p =>
    have w0 : vals p 3 ≠ 0 := abs_pos.1 h.2.1.pos
    refine ⟨h.1.acc (a := fun i => |vals p i|) (fun i => le_rfl) 3, fun i => ?_⟩
    have := h.1.acc (a := fun i => |vals p i| + |vals p 3| * slack) (fun i => le_add_of_nonneg_right (by positivity)) i.castSucc
    show Acc 0 (p i.castSucc) (vals p 3 * (vals p i.castSucc / vals p 3)) (|vals p 3| * (|vals p i.castSucc / vals p 3| + slack))
    rw [mul_div_cancel₀ _ w0, mul_add, ← abs_mul, mul_div_cancel₀ _ w0]
    exact this
  | add a b iha ihb =>
    have hk' : a.ops + b.ops + 2 ≤ 2 ^ 40 := hk
    obtain ⟨wa, va⟩ := iha h.1 (by omega)
    obtain ⟨wb, vb⟩ := ihb h.2.1 (by omega)
    obtain ⟨rw', rr⟩ := h.range
    have ra := fun i => (h.1.range.2 i)
    have rb := fun i => (h.2.1.range.2 i)
    have W : InR (-400) 400 (|a.weight| * |b.weight|) := by rw [← abs_mul]; exact rw'
    constructor
    · show Acc (a.ops + b.ops + 2) (fmul _ _ _) (a.weight * b.weight) |a.weight * b.weight|
      rw [abs_mul]
      exact (acc_mul hR.rat (by omega) wa wb (W.scale (by norm_num) (by norm_num))).mono (by omega) le_rfl
    · intro i
      have m1 := acc_mul hR.rat (by omega) (va i) wb (by
        rw [show |a.weight| * a.reach i * |b.weight| = |a.weight| * |b.weight| * a.reach i by ring]
        exact (W.mul (ra i)).scale (by norm_num) (by norm_num))
      have m2 := acc_mul hR.rat (by omega) (vb i) wa (by
        rw [show |b.weight| * b.reach i * |a.weight| = |a.weight| * |b.weight| * b.reach i by ring]
        exact (W.mul (rb i)).scale (by norm_num) (by norm_num))
      have e1 : (HExpr.add a b).run (fun q => R q) i.castSucc = fadd (fun q => R q) (fmul (fun q => R q) (a.run (fun q => R q) i.castSucc) (b.run (fun q => R q) 3)) (fmul (fun q => R q) (b.run (fun q => R q) i.castSucc) (a.run (fun q => R q) 3)) := by
        fin_cases i <;> rfl
      have eS : |a.weight| * a.reach i * |b.weight| + |b.weight| * b.reach i * |a.weight| = |a.weight| * |b.weight| * (HExpr.add a b).reach i := by
        show _ = _ * (a.reach i + b.reach i); ring
      have s := acc_add hR.rat (k := a.ops + b.ops + 1) (by omega) (by omega) (by omega) m1 m2 (by
        rw [eS]; exact (W.mul (rr i)).scale (by norm_num) (by norm_num))
      rw [eS] at s
      rw [e1]
      show Acc (a.ops + b.ops + 2) _ (a.weight * b.weight * (a.exact i + b.exact i)) (|a.weight * b.weight| * _)
      rw [abs_mul, show a.weight * b.weight * (a.exact i + b.exact i) = a.weight * a.exact i * b.weight + b.weight * b.exact i * a.weight by ring]
      exact s
  | sub a b iha ihb =>
    have hk' : a.ops + b.ops + 2 ≤ 2 ^ 40 := hk
    obtain ⟨wa, va⟩ := iha h.1 (by omega)
    obtain ⟨wb, vb⟩ := ihb h.2.1 (by omega)
    obtain ⟨rw', rr⟩ := h.range
    have ra := fun i => (h.1.range.2 i)
    have rb := fun i => (h.2.1.range.2 i)
    have W : InR (-400) 400 (|a.weight| * |b.weight|) := by rw [← abs_mul]; exact rw'
    constructor
    · show Acc (a.ops + b.ops + 2) (fmul _ _ _) (a.weight * b.weight) |a.weight * b.weight|
      rw [abs_mul]
      exact (acc_mul hR.rat (by omega) wa wb (W.scale (by norm_num) (by norm_num))).mono (by omega) le_rfl
    · intro i
      have m1 := acc_mul hR.rat (by omega) (va i) wb (by
        rw [show |a.weight| * a.reach i * |b.weight| = |a.weight| * |b.weight| * a.reach i by ring]
        exact (W.mul (ra i)).scale (by norm_num) (by norm_num))
      have m2 := acc_mul hR.rat (by omega) (vb i) wa (by
        rw [show |b.weight| * b.reach i * |a.weight| = |a.weight| * |b.weight| * b.reach i by ring]
        exact (W.mul (rb i)).scale (by norm_num) (by norm_num))
      have e1 : (HExpr.sub a b).run (fun q => R q) i.castSucc = fsub (fun q => R q) (fmul (fun q => R q) (a.run (fun q => R q) i.castSucc) (b.run (fun q => R q) 3)) (fmul (fun q => R q) (b.run (fun q => R q) i.castSucc) (a.run (fun q => R q) 3)) := by
        fin_cases i <;> rfl
      have eS : |a.weight| * a.reach i * |b.weight| + |b.weight| * b.reach i * |a.weight| = |a.weight| * |b.weight| * (HExpr.sub a b).reach i := by
        show _ = _ * (a.reach i + b.reach i); ring
      have s := acc_sub hR.rat (k := a.ops + b.ops + 1) (by omega) (by omega) (by omega) m1 m2 (by
        rw [eS]; exact (W.mul (rr i)).scale (by norm_num) (by norm_num))
      rw [eS] at s
      rw [e1]
      show Acc (a.ops + b.ops + 2) _ (a.weight * b.weight * (a.exact i - b.exact i)) (|a.weight * b.weight| * _)
      rw [abs_mul, show a.weight * b.weight * (a.exact i - b.exact i) = a.weight * a.exact i * b.weight - b.weight * b.exact i * a.weight by ring]
      exact s
  | scale a s iha =>
    have hk' : a.ops + 1 ≤ 2 ^ 40 := hk
    obtain ⟨wa, va⟩ := iha h.1 (by omega)
    obtain ⟨rw', rr⟩ := h.range
    have rw0 : InR (-400) 400 |a.weight| := rw'
    refine ⟨wa.mono (Nat.le_succ _) le_rfl, fun i => ?_⟩
    have e1 : (HExpr.scale a s).run (fun q => R q) i.castSucc = fmul (fun q => R q) (a.run (fun q => R q) i.castSucc) s := by
      fin_cases i <;> rfl
    rw [e1]
    show Acc (a.ops + 1) _ (a.weight * (a.exact i * fval s)) (|a.weight| * (a.reach i * |(fval s : ℝ)| + slack))
    have sc : Scale (|a.weight| * (a.reach i * |(fval s : ℝ)| + slack)) := (rw0.mul (rr i)).scale (by norm_num) (by norm_num)
    obtain ⟨q, hq, -, hx, he⟩ := va i
    rw [hq]
    cases s with
    | inf b => exact absurd h.2.1.1 (by simp [Fp.isFinite])
    | nan => exact absurd h.2.1.1 (by simp [Fp.isFinite])
    | fin t =>
      have w0 := rw0.pos
      have m0 : |a.weight| * a.reach i * |(t : ℝ)| ≤ |a.weight| * (a.reach i * |(t : ℝ)| + slack) := by
        rw [mul_add, mul_assoc]
        exact le_add_of_nonneg_right (by positivity)
      refine acc_round hR.rat (by omega) sc ?_ ?_
      · show |a.weight * (a.exact i * (t : ℝ))| ≤ |a.weight| * (a.reach i * |(t : ℝ)| + slack)
        rw [← mul_assoc, abs_mul]
        exact (mul_le_mul_of_nonneg_right hx (abs_nonneg _)).trans m0
      · show |((q * t : ℚ) : ℝ) - a.weight * (a.exact i * (t : ℝ))| ≤ _
        push_cast
        rw [show (q : ℝ) * t - a.weight * (a.exact i * t) = (q - a.weight * a.exact i) * t by ring, abs_mul]
        refine (mul_le_mul_of_nonneg_right he (abs_nonneg _)).trans ?_
        rw [mul_assoc]
        exact mul_le_mul_of_nonneg_left m0 (sub_nonneg.2 (one_le_pow_eps _))

/-- **C179** Computations with homogeneous points: the Euclidean point that comes out is finite, and off by at most 2^-52 of the magnitudes of the terms for each of 3 n + 2 roundings. -/
theorem C179_arithmetic (e : HExpr) (h : e.Ok) (hk : 3 * e.ops + 2 ≤ 2 ^ 40) :
    Finite (fromHomogeneous (fun q => R q) (e.run fun q => R q)) ∧ ∀ i, |vals (fromHomogeneous (fun q => R q) (e.run fun q => R q)) i - e.exact i| ≤ (3 * e.ops + 2) / 2 ^ 52 * e.reach i := by
  obtain ⟨rw', rr⟩ := h.range
  obtain ⟨wa, va⟩ := run_acc hR e h (by omega)
  have key := fun i => acc_ok hk ((rr i).scale (by norm_num) (by norm_num)) (quot_acc hR hk (abs_pos.1 rw'.pos) ((rr i).scale (by norm_num) (by norm_num)) ((inv_in rw').scale (by norm_num) (by norm_num)) (va i) wa)
  refine ⟨fun i => ?_, fun i => ?_⟩
  · rw [from_eq]
    exact (key i).1
  · have := (key i).2
    rw [← from_eq] at this
    push_cast at this
    exact this

/-- **C179** Computations that start from Euclidean vectors cost no accuracy at all: the result is, bit by bit, that of computing with 3-vectors, also when numbers overflow or are not finite. -/
theorem C179_euclidean (e : HExpr) (h : e.Euclidean) : fromHomogeneous (fun q => R q) (e.run fun q => R q) = e.plain fun q => R q := by
  have key : e.run (fun q => R q) 3 = .fin 1 ∧ ∀ i : Fin 3, e.run (fun q => R q) i.castSucc = e.plain (fun q => R q) i ∧ IsDoubleVal (e.plain (fun q => R q) i) := by
    have o1 := fmul_one hR.rat one_val
    induction e with
    | euclid x => exact ⟨rfl, fun i => ⟨by fin_cases i <;> rfl, h i⟩⟩
    | point p => exact h.elim
    | add a b iha ihb =>
      obtain ⟨wa, va⟩ := iha h.1
      obtain ⟨wb, vb⟩ := ihb h.2
      refine ⟨?_, fun i => ⟨?_, rounded_val hR.rat _⟩⟩
      · show fmul _ (a.run _ 3) (b.run _ 3) = _
        rw [wa, wb, o1]
      · have e1 : (HExpr.add a b).run (fun q => R q) i.castSucc = fadd (fun q => R q) (fmul (fun q => R q) (a.run (fun q => R q) i.castSucc) (b.run (fun q => R q) 3)) (fmul (fun q => R q) (b.run (fun q => R q) i.castSucc) (a.run (fun q => R q) 3)) := by
          fin_cases i <;> rfl
        rw [e1, wa, wb, (va i).1, (vb i).1, fmul_one hR.rat (va i).2, fmul_one hR.rat (vb i).2]
        rfl
    | sub a b iha ihb =>
      obtain ⟨wa, va⟩ := iha h.1
      obtain ⟨wb, vb⟩ := ihb h.2
      refine ⟨?_, fun i => ⟨?_, rounded_val hR.rat _⟩⟩
      · show fmul _ (a.run _ 3) (b.run _ 3) = _
        rw [wa, wb, o1]
      · have e1 : (HExpr.sub a b).run (fun q => R q) i.castSucc = fsub (fun q => R q) (fmul (fun q => R q) (a.run (fun q => R q) i.castSucc) (b.run (fun q => R q) 3)) (fmul (fun q => R q) (b.run (fun q => R q) i.castSucc) (a.run (fun q => R q) 3)) := by
          fin_cases i <;> rfl
        rw [e1, wa, wb, (va i).1, (vb i).1, fmul_one hR.rat (va i).2, fmul_one hR.rat (vb i).2]
        rfl
    | scale a s iha =>
      obtain ⟨wa, va⟩ := iha h
      refine ⟨wa, fun i => ⟨?_, rounded_val hR.rat _⟩⟩
      have e1 : (HExpr.scale a s).run (fun q => R q) i.castSucc = fmul (fun q => R q) (a.run (fun q => R q) i.castSucc) s := by
        fin_cases i <;> rfl
      rw [e1, (va i).1]
      rfl
  funext i
  rw [from_eq, key.1, one_div_one hR.rat, (key.2 i).1, fmul_one hR.rat (key.2 i).2]

/-- a sum of four terms, the middle ones zero -/
theorem sum4_two {a b : Fp} (ha : IsDoubleVal a) (hb : IsDoubleVal b) (l : List Fp) (s : Fp) (hs : SumOf (fun q => R q) l s) (hl : l.Perm [a, b, .fin 0, .fin 0]) :
    s = fadd (fun q => R q) a b := by
  have hv : ∀ x ∈ l, IsDoubleVal x := by
    intro x hx
    have := hl.mem_iff.1 hx
    simp only [List.mem_cons, List.not_mem_nil, or_false] at this
    rcases this with rfl | rfl | rfl | rfl
    · exact ha
    · exact hb
    · exact zero_val
    · exact zero_val
  obtain ⟨-, s0, s1, s2⟩ := sumOf_two hR.rat hs hv
  have hf := hl.filter (fun y => decide (y ≠ Fp.fin 0))
  by_cases za : a = .fin 0 <;> by_cases zb : b = .fin 0
  · simp [za, zb] at hf
    rw [s0 (List.filter_eq_nil_iff.2 (by simpa using hf)), za, zb, fadd_zero hR.rat zero_val]
  · rw [s1 b (hf.trans (by simp [za, zb])), za, fadd_comm, fadd_zero hR.rat hb]
  · rw [s1 a (hf.trans (by simp [za, zb])), zb, fadd_zero hR.rat ha]
  · exact s2 a b (hf.trans (by simp [za, zb]))

theorem zero_mul {x : Fp} (h : x.isFinite) : fmul (fun q => R q) (.fin 0) x = .fin 0 := by
  cases x with
  | fin q =>
    simp only [fmul, Fp.mul, MulZeroClass.zero_mul, rounded]
    have : R ((0 : ℚ) : ℝ) = 0 := hR.rat.fix zero_val.1
    simp only [this, abs_zero]
    rw [if_pos (by unfold tooBig; positivity)]
  | inf b => simp [Fp.isFinite] at h
  | nan => simp [Fp.isFinite] at h

/-- **C179** The matrix `toHomogeneousPlus(p)` applied to a finite point gives, bit by bit, what `operator+` gives, in whatever order Eigen adds the products up. -/
theorem C179_plus (E : Eigen fun q => R q) (p r : F4) (hr : Finite r) : mulVec E (toHomogeneousPlus p) r = hpAdd (fun q => R q) p r := by
  have z := fun i => zero_mul hR (hr i).1
  have v : ∀ a b : Fp, IsDoubleVal (fmul (fun q => R q) a b) := fun a b => rounded_val hR.rat _
  funext i
  have s := E.sum4_sum (fmul (fun q => R q) (toHomogeneousPlus p i 0) (r 0)) (fmul (fun q => R q) (toHomogeneousPlus p i 1) (r 1)) (fmul (fun q => R q) (toHomogeneousPlus p i 2) (r 2)) (fmul (fun q => R q) (toHomogeneousPlus p i 3) (r 3))
  show E.sum4 _ _ _ _ = _
  fin_cases i
  · rw [sum4_two hR (v (p 0) (r 3)) (v (p 3) (r 0)) _ _ s]
    · show _ = fadd _ _ (fmul _ (r 0) (p 3))
      rw [fmul_comm _ (r 0)]
    · show List.Perm [fmul _ (p 3) (r 0), fmul _ (.fin 0) (r 1), fmul _ (.fin 0) (r 2), fmul _ (p 0) (r 3)] _
      rw [z, z]
      exact perm_a _ _ _
  · rw [sum4_two hR (v (p 1) (r 3)) (v (p 3) (r 1)) _ _ s]
    · show _ = fadd _ _ (fmul _ (r 1) (p 3))
      rw [fmul_comm _ (r 1)]
    · show List.Perm [fmul _ (.fin 0) (r 0), fmul _ (p 3) (r 1), fmul _ (.fin 0) (r 2), fmul _ (p 1) (r 3)] _
      rw [z, z]
      exact perm_b _ _ _
  · rw [sum4_two hR (v (p 2) (r 3)) (v (p 3) (r 2)) _ _ s]
    · show _ = fadd _ _ (fmul _ (r 2) (p 3))
      rw [fmul_comm _ (r 2)]
    · show List.Perm [fmul _ (.fin 0) (r 0), fmul _ (.fin 0) (r 1), fmul _ (p 3) (r 2), fmul _ (p 2) (r 3)] _
      rw [z, z]
      exact perm_c _ _ _
  · rw [sum4_two hR (v (p 3) (r 3)) zero_val _ _ s]
    · exact fadd_zero hR.rat (v _ _)
    · show List.Perm [fmul _ (.fin 0) (r 0), fmul _ (.fin 0) (r 1), fmul _ (.fin 0) (r 2), fmul _ (p 3) (r 3)] _
      rw [z, z, z]
      exact perm_d _ _

theorem mul_neg (odd : ∀ q : ℚ, R ((-q : ℚ) : ℝ) = -R (q : ℝ)) (a b : Fp) : fmul (fun q => R q) a.neg b = (fmul (fun q => R q) a b).neg := by
  have ne : ∀ {x : ℚ}, x ≠ 0 → (decide (-x < 0) = !decide (x < 0)) := by
    intro x hx
    rcases lt_or_gt_of_ne hx with h | h
    · simp [h, h.le]
    · simp [h, not_lt.2 h.le]
  cases a with
  | nan => rfl
  | fin x => cases b with
    | nan => rfl
    | fin y =>
      simp only [fmul, Fp.neg, Fp.mul, rounded, neg_mul, odd, abs_neg]
      by_cases h : |R ((x * y : ℚ) : ℝ)| < tooBig
      · rw [if_pos h, if_pos h]
      · rw [if_neg h, if_neg h]
        have hz : x * y ≠ 0 := by
          intro e
          apply h
          rw [e, show R ((0 : ℚ) : ℝ) = 0 from hR.rat.fix zero_val.1, abs_zero]
          unfold tooBig; positivity
        simp only [ne hz]
    | inf s =>
      simp only [fmul, Fp.neg, Fp.mul, neg_eq_zero]
      split
      · rfl
      · rename_i hx
        simp only [rounded, ne hx]
        cases decide (x < 0) <;> cases s <;> rfl
  | inf s => cases b with
    | nan => rfl
    | fin y =>
      simp only [fmul, Fp.neg, Fp.mul]
      split
      · rfl
      · simp only [rounded]
        cases decide (y < 0) <;> cases s <;> rfl
    | inf t => cases s <;> cases t <;> rfl

/-- **C179** If rounding treats the signs alike, the matrix `toHomogeneousMinus(p)` applied to a finite point gives, bit by bit, the point minus `p`. -/
theorem C179_minus (odd : ∀ q : ℚ, R ((-q : ℚ) : ℝ) = -R (q : ℝ)) (E : Eigen fun q => R q) (p r : F4) (hr : Finite r) : mulVec E (toHomogeneousMinus p) r = hpSub (fun q => R q) r p := by
  have z := fun i => zero_mul hR (hr i).1
  have v : ∀ a b : Fp, IsDoubleVal (fmul (fun q => R q) a b) := fun a b => rounded_val hR.rat _
  have g : ∀ k : Fin 4, fadd (fun q => R q) (fmul (fun q => R q) (p k).neg (r 3)) (fmul (fun q => R q) (p 3) (r k)) = fsub (fun q => R q) (fmul (fun q => R q) (r k) (p 3)) (fmul (fun q => R q) (p k) (r 3)) := by
    intro k
    rw [mul_neg hR odd, fadd_comm, fmul_comm _ (p 3)]
    rfl
  funext i
  have s := E.sum4_sum (fmul (fun q => R q) (toHomogeneousMinus p i 0) (r 0)) (fmul (fun q => R q) (toHomogeneousMinus p i 1) (r 1)) (fmul (fun q => R q) (toHomogeneousMinus p i 2) (r 2)) (fmul (fun q => R q) (toHomogeneousMinus p i 3) (r 3))
  show E.sum4 _ _ _ _ = _
  fin_cases i
  · rw [sum4_two hR (v (p 0).neg (r 3)) (v (p 3) (r 0)) _ _ s]
    · exact g 0
    · show List.Perm [fmul _ (p 3) (r 0), fmul _ (.fin 0) (r 1), fmul _ (.fin 0) (r 2), fmul _ (p 0).neg (r 3)] _
      rw [z, z]
      exact perm_a _ _ _
  · rw [sum4_two hR (v (p 1).neg (r 3)) (v (p 3) (r 1)) _ _ s]
    · exact g 1
    · show List.Perm [fmul _ (.fin 0) (r 0), fmul _ (p 3) (r 1), fmul _ (.fin 0) (r 2), fmul _ (p 1).neg (r 3)] _
      rw [z, z]
      exact perm_b _ _ _
  · rw [sum4_two hR (v (p 2).neg (r 3)) (v (p 3) (r 2)) _ _ s]
    · exact g 2
    · show List.Perm [fmul _ (.fin 0) (r 0), fmul _ (.fin 0) (r 1), fmul _ (p 3) (r 2), fmul _ (p 2).neg (r 3)] _
      rw [z, z]
      exact perm_c _ _ _
  · rw [sum4_two hR (v (p 3) (r 3)) zero_val _ _ s]
    · rw [fadd_zero hR.rat (v _ _), fmul_comm]
      rfl
    · show List.Perm [fmul _ (.fin 0) (r 0), fmul _ (.fin 0) (r 1), fmul _ (.fin 0) (r 2), fmul _ (p 3) (r 3)] _
      rw [z, z, z]
      exact perm_d _ _

/-- **C179** The Jacobian that comes with `fromHomogeneous` is finite and near the derivative of the conversion. -/
theorem C179_jacobian (p : F4) (h : (HExpr.point p).Ok) : ∃ J, IsJacobian Kinematics.fromHomogeneous J (vals p) ∧
    ∀ i j, ((fromHomogeneousJacobian (fun q => R q) p i j).isFinite ∧ IsDoubleVal (fromHomogeneousJacobian (fun q => R q) p i j)) ∧
      |(fval (fromHomogeneousJacobian (fun q => R q) p i j) : ℝ) - J i j| ≤ 4 / 2 ^ 52 * (|J i j| + slack / |vals p 3|) := by
  obtain ⟨W, rr⟩ := h.range
  have W0 : InR (-400) 400 |vals p 3| := W
  have w0 : vals p 3 ≠ 0 := abs_pos.1 W0.pos
  have hw := abs_pos.2 w0
  have s0 := slack_pos
  refine ⟨_, (Kinematics.C58_jacobians 0 (vals p) (fun _ : Fin 1 => (1 : ℝ)) w0 (fun e => one_ne_zero (congrFun e 0))).2.1, ?_⟩
  obtain ⟨wa', va'⟩ := run_acc hR (HExpr.point p) h (by norm_num [HExpr.ops])
  have wa : Acc 0 (p 3) (vals p 3) |vals p 3| := wa'
  have va : ∀ i : Fin 3, Acc 0 (p i.castSucc) (vals p 3 * (HExpr.point p).exact i) (|vals p 3| * (HExpr.point p).reach i) := va'
  have dv : IsDoubleVal (fdiv (fun q => R q) (.fin 1) (p 3)) := rounded_val hR.rat _
  have I := (inv_in W0).scale (by norm_num) (by norm_num)
  have rc := acc_recip hR.rat (k := 0) (by norm_num) w0 wa I
  have nonneg : 0 ≤ slack / |vals p 3| := by positivity
  have one : ((fmul (fun q => R q) (.fin 1) (fdiv (fun q => R q) (.fin 1) (p 3))).isFinite ∧ IsDoubleVal (fmul (fun q => R q) (.fin 1) (fdiv (fun q => R q) (.fin 1) (p 3)))) ∧
      |(fval (fmul (fun q => R q) (.fin 1) (fdiv (fun q => R q) (.fin 1) (p 3))) : ℝ) - 1 / vals p 3| ≤ 4 / 2 ^ 52 * (|1 / vals p 3| + slack / |vals p 3|) := by
    rw [fmul_comm, fmul_one hR.rat dv]
    have := acc_ok (by norm_num) I rc
    refine ⟨this.1, this.2.trans ?_⟩
    rw [abs_div, abs_one]
    exact mul_le_mul (by norm_num) (le_add_of_nonneg_right nonneg) (by positivity) (by norm_num)
  have rcf := (acc_ok (by norm_num) I rc).1.1
  have nil : ((fmul (fun q => R q) (.fin 0) (fdiv (fun q => R q) (.fin 1) (p 3))).isFinite ∧ IsDoubleVal (fmul (fun q => R q) (.fin 0) (fdiv (fun q => R q) (.fin 1) (p 3)))) ∧
      |(fval (fmul (fun q => R q) (.fin 0) (fdiv (fun q => R q) (.fin 1) (p 3))) : ℝ) - 0| ≤ 4 / 2 ^ 52 * (|(0 : ℝ)| + slack / |vals p 3|) := by
    rw [zero_mul hR rcf]
    refine ⟨⟨rfl, zero_val⟩, ?_⟩
    show |((0 : ℚ) : ℝ) - 0| ≤ _
    rw [Rat.cast_zero, sub_zero, abs_zero]
    positivity
  have last : ∀ i : Fin 3, ((fmul (fun q => R q) (fromHomogeneous (fun q => R q) p i).neg (fdiv (fun q => R q) (.fin 1) (p 3))).isFinite ∧ IsDoubleVal (fmul (fun q => R q) (fromHomogeneous (fun q => R q) p i).neg (fdiv (fun q => R q) (.fin 1) (p 3)))) ∧
      |(fval (fmul (fun q => R q) (fromHomogeneous (fun q => R q) p i).neg (fdiv (fun q => R q) (.fin 1) (p 3))) : ℝ) - -(vals p i.castSucc * (1 / vals p 3)) * (1 / vals p 3)| ≤ 4 / 2 ^ 52 * (|-(vals p i.castSucc * (1 / vals p 3)) * (1 / vals p 3)| + slack / |vals p 3|) := by
    intro i
    rw [from_eq]
    have q := (quot_acc hR (k := 0) (by norm_num) w0 ((rr i).scale (by norm_num) (by norm_num)) I (va i) wa).neg
    have sc : Scale ((HExpr.point p).reach i * (1 / |vals p 3|)) := ((rr i).mul (inv_in W0)).scale (by norm_num) (by norm_num)
    have m := acc_ok (by norm_num) sc (acc_mul hR.rat (by norm_num) q rc sc)
    have e1 : -(HExpr.point p).exact i * (1 / vals p 3) = -(vals p i.castSucc * (1 / vals p 3)) * (1 / vals p 3) := by
      show -(vals p i.castSucc / vals p 3) * _ = _
      rw [div_eq_mul_one_div]
    have e2 : (HExpr.point p).reach i * (1 / |vals p 3|) = |-(vals p i.castSucc * (1 / vals p 3)) * (1 / vals p 3)| + slack / |vals p 3| := by
      show (|vals p i.castSucc / vals p 3| + slack) * _ = _
      rw [abs_mul, abs_neg, ← div_eq_mul_one_div, abs_div 1, abs_one]
      ring_nf
    have m2 := m.2
    rw [e1, e2] at m2
    exact ⟨m.1, by convert m2 using 3; norm_num⟩
  intro i j
  fin_cases i <;> fin_cases j <;> first | exact one | exact nil | exact last 0 | exact last 1 | exact last 2

/-- **C179** Normalizing a finite point keeps it: the coordinates are finite, the 4-vector has length one up to rounding, and the Euclidean point stays where it was up to 2^-46. -/
theorem C179_normalize (E : Eigen fun q => R q) (p : F4) (hp : Finite p) (hn : InR (-200) 200 (nrm (vals p))) (h3 : 2 ^ (-200 : ℤ) ≤ |vals p 3|) :
    Finite (normalize E p) ∧ |nrm (vals (normalize E p)) - 1| ≤ 12 / 2 ^ 53 ∧ Finite (fromHomogeneous (fun q => R q) (normalize E p)) ∧
    ∀ i : Fin 3, |vals (fromHomogeneous (fun q => R q) (normalize E p)) i - vals p i.castSucc / vals p 3| ≤ 38 / 2 ^ 52 * (|vals p i.castSucc / vals p 3| + slack) := by
  obtain ⟨f, fe⟩ := normalize_err hR E hp hn
  have N0 := hn.pos
  have w0 : 0 < |vals p 3| := lt_of_lt_of_le (by positivity) h3
  have W3 : InR (-200) 200 |vals p 3| := ⟨h3, (abs_le_nrm (vals p) 3).trans hn.2⟩
  have s0 := slack_pos
  have unit : nrm ((nrm (vals p))⁻¹ • vals p) = 1 := by rw [nrm_smul, abs_of_pos (inv_pos.2 N0), inv_mul_cancel₀ N0.ne']
  have ent := normalize_entries hR E hp hn
  obtain ⟨N, hN⟩ : ∃ N, N = nrm (vals p) := ⟨_, rfl⟩
  rw [← hN] at ent hn N0
  have wn : vals p 3 * N⁻¹ ≠ 0 := mul_ne_zero (abs_pos.1 w0) (inv_ne_zero N0.ne')
  have WN : InR (-400) 400 |vals p 3 * N⁻¹| := by
    rw [abs_mul, abs_of_pos (inv_pos.2 N0), ← one_div]
    exact W3.mul (inv_in hn)
  have acc : ∀ (k : Fin 4) (S : ℝ), Scale S → |vals p k * N⁻¹| ≤ S → Acc 12 (normalize E p k) (vals p k * N⁻¹) S := by
    intro k S hS hx
    obtain ⟨r, hr, hd, he⟩ := ent k
    refine ⟨r, hr, hd, hx, he.trans ?_⟩
    rw [show |vals p k| * N⁻¹ = |vals p k * N⁻¹| by rw [abs_mul, abs_of_pos (inv_pos.2 N0)]]
    have t := tiny_le hS
    have S0 := hS.pos
    have c : (11 : ℝ) / 2 ^ 53 + 1 / 2 ^ 100 ≤ (1 + eps) ^ 12 - 1 := by
      unfold eps; norm_num
    calc _ ≤ 11 / 2 ^ 53 * S + 1 / 2 ^ 100 * S := add_le_add (mul_le_mul_of_nonneg_left hx (by norm_num)) t
      _ = (11 / 2 ^ 53 + 1 / 2 ^ 100) * S := by ring
      _ ≤ _ := mul_le_mul_of_nonneg_right c S0.le
  have quo : ∀ k : Fin 3, InR (-400) 401 (|vals p k.castSucc / vals p 3| + slack) := by
    intro k
    refine ⟨le_add_of_nonneg_left (abs_nonneg _), ?_⟩
    have h1 : |vals p k.castSucc / vals p 3| ≤ 2 ^ (400 : ℤ) := by
      rw [abs_div, div_le_iff₀ w0]
      refine (abs_le_nrm (vals p) k.castSucc).trans ?_
      rw [← hN]
      refine hn.2.trans ?_
      calc (2 : ℝ) ^ (200 : ℤ) = 2 ^ (400 : ℤ) * 2 ^ (-200 : ℤ) := by rw [← zpow_add₀ (by norm_num)]; norm_num
        _ ≤ _ := mul_le_mul_of_nonneg_left h3 (by positivity)
    have h2 : slack ≤ 2 ^ (400 : ℤ) := zpow_le_zpow_right₀ (by norm_num) (by norm_num)
    rw [show (401 : ℤ) = 400 + 1 by norm_num, zpow_add_one₀ (by norm_num)]
    linarith
  have key := fun i : Fin 3 => acc_ok (by norm_num) ((quo i).scale (by norm_num) (by norm_num)) (quot_acc hR (k := 12) (f := normalize E p i.castSucc) (g := normalize E p 3) (x := vals p i.castSucc / vals p 3) (by norm_num) wn ((quo i).scale (by norm_num) (by norm_num)) ((inv_in WN).scale (by norm_num) (by norm_num)) (by
    have e : vals p 3 * N⁻¹ * (vals p i.castSucc / vals p 3) = vals p i.castSucc * N⁻¹ := by
      have := abs_pos.1 w0
      field_simp
    rw [e]
    refine acc _ _ ((WN.mul (quo i)).scale (by norm_num) (by norm_num)) ?_
    rw [← e, abs_mul]
    exact mul_le_mul_of_nonneg_left (le_add_of_nonneg_right s0.le) (abs_nonneg _)) (acc 3 _ (WN.scale (by norm_num) (by norm_num)) le_rfl))
  refine ⟨f, ?_, fun i => ?_, fun i => ?_⟩
  · have := (nrm_diff (vals (normalize E p)) ((nrm (vals p))⁻¹ • vals p)).trans fe
    rwa [unit] at this
  · rw [from_eq]
    exact (key i).1
  · have := (key i).2
    rw [← from_eq] at this
    rwa [show ((3 * 12 + 2 : ℕ) : ℝ) = 38 by norm_num] at this

/-- **C179** A direction (a point at infinity) becomes the point at distance one in that direction. -/
theorem C179_direction (E : Eigen fun q => R q) (p : F4) (hp : Finite p) (hn : InR (-200) 200 (nrm (vals p))) (h3 : p 3 = .fin 0) :
    Finite (fromHomogeneous (fun q => R q) (convertToPoint E p)) ∧ (∀ i, |vals (fromHomogeneous (fun q => R q) (convertToPoint E p)) i - vals p i.castSucc / nrm (fun i : Fin 3 => vals p i.castSucc)| ≤ 12 / 2 ^ 53) := by
  obtain ⟨f, fe⟩ := normalize_err hR E hp hn
  have e : fromHomogeneous (fun q => R q) (convertToPoint E p) = fun i => normalize E p i.castSucc := by
    have : convertToPoint E p = toHomogeneous fun i : Fin 3 => normalize E p i.castSucc := rfl
    rw [this]
    exact (C179_round_trip hR _ (fun i => (f i.castSucc).2) (m := 0) (n := 0) (fun i => i.elim0) (fun i => i.elim0)).1
  have z : vals p 3 = 0 := by
    show ((fval (p 3) : ℚ) : ℝ) = 0
    rw [h3]; exact Rat.cast_zero
  have n3 : nrm (fun i : Fin 3 => vals p i.castSucc) = nrm (vals p) := by
    unfold Kinematics.norm
    rw [Kinematics.sq4, Kinematics.sq3, z]
    simp
  rw [e, n3]
  refine ⟨fun i => f i.castSucc, fun i => ?_⟩
  have := (abs_le_nrm _ i.castSucc).trans fe
  rw [Pi.sub_apply, Pi.smul_apply, smul_eq_mul, mul_comm, ← div_eq_mul_inv] at this
  exact this

end

/-! ## Refuted claims -/

/-- the same point, added up `n` times -/
def again (p : F4) : ℕ → HExpr
  | 0 => .point p
  | n + 1 => .add (again p n) (.point p)

/-- the full claim: adding up points of moderate size and weight gives a finite point -/
def C179_sum_claim : Prop := ∀ (p : F4) (n : ℕ), Finite p → (∀ k, |vals p k| ≤ 2 ^ 100) → 1 ≤ |vals p 3| → Finite (fromHomogeneous (fun q => rndEvenReal q) ((again p n).run fun q => rndEvenReal q))

/-- the full claim: a point in the unit cube is converted, however small its coordinates are -/
def C179_conversion_claim : Prop := ∀ p : F4, Finite p → vals p 3 ≠ 0 → (∀ k, |vals p k| ≤ |vals p 3|) → Finite (fromHomogeneous (fun q => rndEvenReal q) p)

theorem even_fun : (fun q : ℚ => rndEvenReal q) = rndEven := by
  funext q
  exact rndEvenReal_rat q

/-- the point (1, 0, 0), with the weight 2^100 -/
def heavy : F4 := ![.fin (2 ^ 100), .fin 0, .fin 0, .fin (2 ^ 100)]

theorem heavy_finite : Finite heavy := by
  have o : (Fp.fin (2 ^ 100)).isFinite ∧ IsDoubleVal (.fin (2 ^ 100)) := by
    refine ⟨rfl, ⟨1, 100, by norm_num, by norm_num, by norm_num⟩, ?_⟩
    rw [abs_of_pos (by positivity)]
    exact pow_lt_pow_right₀ (by norm_num) (by norm_num)
  intro i
  fin_cases i
  · exact o
  · exact ⟨rfl, zero_val⟩
  · exact ⟨rfl, zero_val⟩
  · exact o

/-- **C179** It does not hold: the last coordinates are multiplied, and after ten additions they overflow; infinity times zero, the reciprocal, is not a number. -/
theorem C179_sum_negation : ¬ C179_sum_claim := by
  intro h
  have h1 := (h heavy 10 heavy_finite (fun k => by
    fin_cases k <;> norm_num [vals, heavy, fval]) (by
    show 1 ≤ |(((2 ^ 100 : ℚ)) : ℝ)|
    norm_num) 0).1
  rw [even_fun] at h1
  revert h1
  decide +kernel

/-- the point (1, 0, 0), with a tiny weight -/
def light : F4 := ![.fin (1 / 2 ^ 1030), .fin 0, .fin 0, .fin (1 / 2 ^ 1030)]

/-- **C179** It does not hold: the reciprocal of the weight 2^-1030 overflows, although every quotient is at most one. -/
theorem C179_conversion_negation : ¬ C179_conversion_claim := by
  intro h
  have o : (Fp.fin (1 / 2 ^ 1030)).isFinite ∧ IsDoubleVal (.fin (1 / 2 ^ 1030)) := by
    refine ⟨rfl, ⟨1, -1030, by norm_num, by norm_num, ?_⟩, ?_⟩
    · rw [Int.cast_one, one_mul, zpow_neg, show (1030 : ℤ) = ((1030 : ℕ) : ℤ) from rfl, zpow_natCast, one_div]
    · rw [abs_of_pos (by positivity)]
      refine lt_of_le_of_lt (div_le_one_of_le₀ (one_le_pow₀ (by norm_num)) (by positivity)) ?_
      unfold tooBig
      exact one_lt_pow₀ (by norm_num) (by norm_num)
  have f : Finite light := by
    intro i
    fin_cases i
    · exact o
    · exact ⟨rfl, zero_val⟩
    · exact ⟨rfl, zero_val⟩
    · exact o
  have z : |((0 : ℚ) : ℝ)| ≤ |vals light 3| := by rw [Rat.cast_zero, abs_zero]; exact abs_nonneg _
  have h1 := (h light f (by
    show (((1 / 2 ^ 1030 : ℚ)) : ℝ) ≠ 0
    rw [Rat.cast_ne_zero]
    positivity) (fun k => by
    fin_cases k
    · exact le_rfl
    · exact z
    · exact z
    · exact le_rfl) 1).1
  rw [even_fun] at h1
  revert h1
  decide +kernel

/-! ## The hypotheses hold -/

theorem small_val {a : ℤ} (h : |a| < 2 ^ 40) : (Fp.fin a).isFinite ∧ IsDoubleVal (.fin a) := by
  refine ⟨rfl, isDouble_int a (lt_trans h (by norm_num)), ?_⟩
  have hn' : |(a : ℚ)| < 2 ^ 40 := by exact_mod_cast h
  exact hn'.trans (pow_lt_pow_right₀ (by norm_num) (by norm_num))

theorem small4 (a b c d : ℤ) (ha : |a| < 2 ^ 40) (hb : |b| < 2 ^ 40) (hc : |c| < 2 ^ 40) (hd : |d| < 2 ^ 40) : Finite (![.fin (a : ℚ), .fin (b : ℚ), .fin (c : ℚ), .fin (d : ℚ)] : F4) := by
  intro i
  fin_cases i
  · exact small_val ha
  · exact small_val hb
  · exact small_val hc
  · exact small_val hd

theorem four_pow {a b : ℤ} (ha : a ≤ -1) (hb : 4 ≤ b) {x : ℝ} (h1 : 1 / 2 ≤ x) (h2 : x ≤ 16) : InR a b x := by
  constructor
  · refine le_trans (zpow_le_zpow_right₀ (by norm_num) ha) ?_
    norm_num
    linarith
  · refine le_trans h2 (le_trans ?_ (zpow_le_zpow_right₀ (by norm_num) hb))
    norm_num

/-- the point (1, 2, 3) / 4 -/
def quarter : F4 := ![.fin ((1 : ℤ) : ℚ), .fin ((2 : ℤ) : ℚ), .fin ((3 : ℤ) : ℚ), .fin ((4 : ℤ) : ℚ)]

theorem quarter_finite : Finite quarter := small4 1 2 3 4 (by norm_num) (by norm_num) (by norm_num) (by norm_num)

theorem slack_le : slack ≤ 1 := zpow_le_one_of_nonpos₀ (by norm_num) (by norm_num)

theorem big16 {x : ℝ} (h : x ≤ 16) : x ≤ 2 ^ (400 : ℤ) := by
  refine h.trans (le_trans ?_ (zpow_le_zpow_right₀ (by norm_num) (show (4 : ℤ) ≤ 400 by norm_num)))
  norm_num

theorem quarter_vals : vals quarter = ![1, 2, 3, 4] := by
  funext i; fin_cases i <;> simp [vals, quarter, fval]

theorem quarter_three : vals quarter 3 = 4 := by rw [quarter_vals]; rfl

theorem quarter_reach (i : Fin 3) : (HExpr.point quarter).reach i ≤ 2 := by
  show |vals quarter i.castSucc / vals quarter 3| + slack ≤ 2
  have := slack_le
  rw [quarter_three, quarter_vals]
  fin_cases i
  · show |(1 : ℝ) / 4| + slack ≤ 2
    norm_num; linarith
  · show |(2 : ℝ) / 4| + slack ≤ 2
    norm_num; linarith
  · show |(3 : ℝ) / 4| + slack ≤ 2
    norm_num; linarith

theorem quarter_ok : (HExpr.point quarter).Ok := by
  refine ⟨quarter_finite, ?_, fun i => big16 ((quarter_reach i).trans (by norm_num))⟩
  rw [quarter_three]
  exact four_pow (by norm_num) (by norm_num) (by norm_num) (by norm_num)

/-- the sum of the point with itself -/
theorem sum_ok : (HExpr.sub (.add (.point quarter) (.point quarter)) (.scale (.point quarter) (.fin ((3 : ℤ) : ℚ)))).Ok := by
  have q := quarter_ok
  have s0 := slack_pos
  have s1 := slack_le
  have w : (HExpr.point quarter).weight = 4 := by show vals quarter 3 = 4; rw [quarter_vals]; rfl
  have r3 : ∀ i, (HExpr.scale (.point quarter) (.fin ((3 : ℤ) : ℚ))).reach i ≤ 7 := by
    intro i
    show (HExpr.point quarter).reach i * |(((3 : ℤ) : ℚ) : ℝ)| + slack ≤ 7
    have := quarter_reach i
    norm_num
    linarith
  refine ⟨⟨q, q, ?_, fun i => big16 ?_⟩, ⟨q, small_val (by norm_num), fun i => big16 ((r3 i).trans (by norm_num))⟩, ?_, fun i => big16 ?_⟩
  · rw [w]; exact four_pow (by norm_num) (by norm_num) (by norm_num) (by norm_num)
  · show (HExpr.point quarter).reach i + (HExpr.point quarter).reach i ≤ 16
    linarith [quarter_reach i]
  · show InR _ _ |(HExpr.point quarter).weight * (HExpr.point quarter).weight * (HExpr.point quarter).weight|
    rw [w]
    norm_num
    constructor
    · exact (zpow_le_zpow_right₀ (by norm_num) (show (-400 : ℤ) ≤ 0 by norm_num)).trans (by norm_num)
    · exact le_trans (by norm_num) (zpow_le_zpow_right₀ (by norm_num) (show (6 : ℤ) ≤ 400 by norm_num))
  · show (HExpr.point quarter).reach i + (HExpr.point quarter).reach i + (HExpr.scale (.point quarter) (.fin ((3 : ℤ) : ℚ))).reach i ≤ 16
    linarith [quarter_reach i, r3 i]

/-- the value of that computation -/
example (i : Fin 3) := (C179_arithmetic isRndR_rndEvenReal _ sum_ok (by norm_num [HExpr.ops])).2 i

/-- a computation with an overflow and a NaN -/
def wild : HExpr := .add (.scale (.euclid ![.fin (2 ^ 1000), .inf false, .nan]) (.fin (2 ^ 1000))) (.euclid ![.fin 1, .fin 2, .fin 3])

example : fromHomogeneous (fun q => rndEvenReal q) (wild.run fun q => rndEvenReal q) = wild.plain fun q => rndEvenReal q := by
  refine C179_euclidean isRndR_rndEvenReal wild ⟨?_, ?_⟩
  · intro i
    fin_cases i
    · refine ⟨⟨1, 1000, by norm_num, by norm_num, by rw [Int.cast_one, one_mul, show (1000 : ℤ) = ((1000 : ℕ) : ℤ) from rfl, zpow_natCast]⟩, ?_⟩
      rw [abs_of_pos (by positivity)]
      exact pow_lt_pow_right₀ (by norm_num) (by norm_num)
    · trivial
    · trivial
  · intro i
    fin_cases i
    · exact one_val
    · exact (small_val (a := 2) (by norm_num)).2
    · exact (small_val (a := 3) (by norm_num)).2

example : mulVec (Eigen.lanes fun q => rndEvenReal q) (toHomogeneousPlus quarter) quarter = hpAdd (fun q => rndEvenReal q) quarter quarter :=
  C179_plus isRndR_rndEvenReal _ quarter quarter quarter_finite

example : mulVec (Eigen.lanes fun q => rndEvenReal q) (toHomogeneousMinus quarter) quarter = hpSub (fun q => rndEvenReal q) quarter quarter :=
  C179_minus isRndR_rndEvenReal (fun q => by rw [rndEvenReal_rat, rndEvenReal_rat, rndEven_neg]) _ quarter quarter quarter_finite

example := C179_jacobian isRndR_rndEvenReal quarter quarter_ok

theorem quarter_norm : InR (-200) 200 (nrm (vals quarter)) := by
  have e : nrm (vals quarter) = Real.sqrt 30 := by
    unfold Kinematics.norm
    rw [Kinematics.sq4, quarter_vals]
    show Real.sqrt ((1 : ℝ) * 1 + 2 * 2 + 3 * 3 + 4 * 4) = _
    norm_num
  rw [e]
  refine four_pow (by norm_num) (by norm_num) ?_ ?_
  · exact Real.le_sqrt_of_sq_le (by norm_num)
  · rw [Real.sqrt_le_left (by norm_num)]; norm_num

example := C179_normalize isRndR_rndEvenReal (Eigen.plain fun q => rndEvenReal q) quarter quarter_finite quarter_norm (by
  rw [quarter_three]
  exact (four_pow (a := -200) (b := 200) (by norm_num) (by norm_num) (by norm_num) (by norm_num)).1)

/-- the direction (3, 4, 0) -/
example (i : Fin 3) := (C179_direction isRndR_rndEvenReal (Eigen.lanes fun q => rndEvenReal q) ![.fin ((3 : ℤ) : ℚ), .fin ((4 : ℤ) : ℚ), .fin ((0 : ℤ) : ℚ), .fin ((0 : ℤ) : ℚ)] (small4 3 4 0 0 (by norm_num) (by norm_num) (by norm_num) (by norm_num)) (by
  have v : vals (![.fin ((3 : ℤ) : ℚ), .fin ((4 : ℤ) : ℚ), .fin ((0 : ℤ) : ℚ), .fin ((0 : ℤ) : ℚ)] : F4) = ![3, 4, 0, 0] := by
    funext i; fin_cases i <;> simp [vals, fval]
  have e : nrm (![3, 4, 0, 0] : V4) = 5 := by
    unfold Kinematics.norm
    rw [Kinematics.sq4]
    rw [show (![3, 4, 0, 0] : V4) 0 * (![3, 4, 0, 0] : V4) 0 + (![3, 4, 0, 0] : V4) 1 * (![3, 4, 0, 0] : V4) 1 + (![3, 4, 0, 0] : V4) 2 * (![3, 4, 0, 0] : V4) 2 + (![3, 4, 0, 0] : V4) 3 * (![3, 4, 0, 0] : V4) 3 = 5 * 5 by norm_num [Matrix.cons_val_three, Matrix.cons_val_two]]
    exact Real.sqrt_mul_self (by norm_num)
  rw [v, e]
  exact four_pow (by norm_num) (by norm_num) (by norm_num) (by norm_num)) (by rw [Int.cast_zero]; rfl)).2 i

example (i : Fin 3) : (fromHomogeneous (fun q => rndEvenReal q) (![.fin ((3 : ℤ) : ℚ), .fin ((4 : ℤ) : ℚ), .fin ((0 : ℤ) : ℚ), .fin ((0 : ℤ) : ℚ)] : F4) i).isFinite = false :=
  C179_infinity (R := rndEvenReal) _ (small4 3 4 0 0 (by norm_num) (by norm_num) (by norm_num) (by norm_num)) (by rw [Int.cast_zero]; rfl) i

end Verif.HomDouble
