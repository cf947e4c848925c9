import Verif.Common.Double
import Verif.Common.Fp

/-!
# The operations of IEEE 754 doubles

The value of an operation on finite doubles is the exact result, rounded; results that round to 2^1024 or more become infinities.  `Fp` has the rules for infinities and NaN; one zero stands for +0 and −0.
-/

namespace Verif.Common

/-- the largest power of two that is not a double -/
def tooBig : ℚ := 2 ^ 1024

/-- an exact finite result is rounded, or overflows to an infinity; special values stay -/
def rounded (rnd : ℚ → ℚ) : Fp → Fp
  | .fin q => if |rnd q| < tooBig then .fin (rnd q) else .inf (decide (q < 0))
  | x => x

def fadd (rnd : ℚ → ℚ) (a b : Fp) : Fp := rounded rnd (a.add b)
def fsub (rnd : ℚ → ℚ) (a b : Fp) : Fp := rounded rnd (a.sub b)
def fmul (rnd : ℚ → ℚ) (a b : Fp) : Fp := rounded rnd (a.mul b)
def fdiv (rnd : ℚ → ℚ) (a b : Fp) : Fp := rounded rnd (a.div b)

/-- the number a finite double stands for -/
def fval : Fp → ℚ
  | .fin q => q
  | _ => 0

/-- `x` is a value of type `double` -/
def IsDoubleVal : Fp → Prop
  | .fin q => IsDouble q ∧ |q| < tooBig
  | _ => True

/-- the time is a finite double of at most this size -/
def Bounded (B : ℚ) (x : Fp) : Prop := ∃ q, x = .fin q ∧ IsDouble q ∧ |q| ≤ B

/-- a quarter of the smallest power of two that is too big -/
def limit : ℚ := 2 ^ 1022

theorem four_limit : tooBig = 4 * limit := by
  unfold tooBig limit
  rw [show (1024 : ℕ) = 1022 + 2 from rfl, pow_add]; ring

theorem limit_pos : 0 < limit := by unfold limit; positivity

theorem double_two_limit : IsDouble (2 * limit) := by
  refine ⟨1, ((1022 + 1 : ℕ) : ℤ), by norm_num, by norm_num, ?_⟩
  rw [zpow_natCast, pow_succ, limit]
  push_cast
  ring

theorem two_mul_double {x : ℚ} (h : IsDouble x) : IsDouble (2 * x) := by
  obtain ⟨m, e, hm, he, rfl⟩ := h
  exact ⟨m, e + 1, hm, by omega, by rw [zpow_add₀ (by norm_num)]; ring⟩

/-- half of a double is a double, or the double is an odd multiple of the smallest one and small -/
theorem half_double {x : ℚ} (h : IsDouble x) : IsDouble (x / 2) ∨ ∃ n : ℤ, x = n * 2 ^ (-1074 : ℤ) ∧ |n| < 2 ^ 53 := by
  obtain ⟨m, e, hm, he, rfl⟩ := h
  rcases he.lt_or_eq with he | he
  · left
    exact ⟨m, e - 1, hm, by omega, by rw [zpow_sub₀ (by norm_num)]; ring⟩
  · right
    exact ⟨m, by rw [← he], hm⟩

theorem rounded_fin {rnd : ℚ → ℚ} (h : IsRnd rnd) {q : ℚ} (hq : |q| ≤ 2 * limit) : rounded rnd (.fin q) = .fin (rnd q) ∧ |rnd q| ≤ 2 * limit := by
  have h1 := h.le_of_le double_two_limit (abs_le.1 hq).2
  have h2 := h.ge_of_ge double_two_limit.neg (abs_le.1 hq).1
  have hb : |rnd q| ≤ 2 * limit := abs_le.2 ⟨h2, h1⟩
  have hlt : |rnd q| < tooBig := by rw [four_limit]; linarith [limit_pos]
  exact ⟨by simp only [rounded, if_pos hlt], hb⟩

end Verif.Common
