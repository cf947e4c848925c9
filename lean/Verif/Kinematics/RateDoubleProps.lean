import Verif.Kinematics.RateDouble
import Verif.Kinematics.CovDoubleLemmas
import Verif.Kinematics.EulerDoubleProps
import Verif.Kinematics.ParamProps

/-!
# C182: angular velocities of Euler angles in doubles
-/

namespace Verif.RateDouble

open Verif.Common Verif.KinematicsDouble Verif.EulerDouble
open Verif.Kinematics (V3 V6 M3 M36 IsSMatrix IsJacobian TurnsBy head3 tail3 v6 mv3)

/-- the entry is a finite double within `e` of `x` -/
def Near (e : ℝ) (f : Fp) (x : ℝ) : Prop := f.isFinite ∧ IsDoubleVal f ∧ |(fval f : ℝ) - x| ≤ e

section
variable {R : ℝ → ℚ} (hR : IsRndR R) (L : Lib fun q => R q)

theorem acc_trig {q : ℚ} {x : ℝ} (d : IsDouble q) (h1 : |x| ≤ 1) (h : |(q : ℝ) - x| ≤ 1 / 2 ^ 52) : Acc 2 (.fin q) x 1 := by
  refine ⟨q, rfl, d, h1, h.trans ?_⟩
  unfold eps
  norm_num

theorem acc_cos {f : Fp} (h1 : f.isFinite) : Acc 2 (libm L.cos f) (Real.cos (fval f)) 1 := by
  cases f with
  | fin q => exact acc_trig (L.cos_double q) (Real.abs_cos_le_one _) (L.cos_err q)
  | inf b => simp [Fp.isFinite] at h1
  | nan => simp [Fp.isFinite] at h1

theorem acc_sin {f : Fp} (h1 : f.isFinite) : Acc 2 (libm L.sin f) (Real.sin (fval f)) 1 := by
  cases f with
  | fin q => exact acc_trig (L.sin_double q) (Real.abs_sin_le_one _) (L.sin_err q)
  | inf b => simp [Fp.isFinite] at h1
  | nan => simp [Fp.isFinite] at h1

theorem scale_one : Scale (1 * 1) := by
  rw [one_mul]
  exact ⟨zpow_le_one_of_nonpos₀ (by norm_num) (by norm_num), one_le_zpow₀ (by norm_num) (by norm_num)⟩

theorem near_of {k : ℕ} {f : Fp} {x S e : ℝ} (h : Acc k f x S) (hk : k ≤ 100) (hS : Scale S) (he : ((1 + eps) ^ k - 1) * S ≤ e) : Near e f x := by
  obtain ⟨e1, d, b⟩ := h.err
  have := acc_finite (n := 1) (f := fun _ => f) (x := fun _ => x) (S := fun _ => S) hk (fun _ => h) (fun _ => hS) 0
  exact ⟨this.1, this.2, b.trans he⟩

theorem acc_num {q : ℚ} (n : ℤ) (hn : |n| < 2 ^ 53) (hq : q = n) {S : ℝ} (h : |(q : ℝ)| ≤ S) : Acc 0 (.fin q) q S := Acc.fin (hq ▸ isDouble_int n hn) h

/-- six roundings at most -/
theorem eps5 : (1 + eps) ^ 5 - 1 ≤ 6 / 2 ^ 53 := by unfold eps; norm_num
theorem eps8 : (1 + eps) ^ 8 - 1 ≤ 25 / 3 / 2 ^ 53 := by unfold eps; norm_num
theorem eps7 : (1 + eps) ^ 7 - 1 ≤ 25 / 3 / 2 ^ 53 := by unfold eps; norm_num

/-- an entry of an S-matrix -/
def SEntry (f : Fp) (x : ℝ) : Prop := Acc 5 f x 1

theorem sentry_zero : SEntry (.fin 0) 0 := (CovDouble.acc_zero (by norm_num)).mono (by norm_num) le_rfl

include hR

theorem acc_two {f g : Fp} {x y : ℝ} (hf : Acc 2 f x 1) (hg : Acc 2 g y 1) : SEntry (fmul (fun q => R q) f g) (x * y) := by
  have := Acc.mul hR.rat (by norm_num) hf hg scale_one
  rw [one_mul] at this
  exact this

/-- a product with a rate -/
theorem acc_rate {W : ℝ} (hW : Scale W) {k : ℕ} (hk : k ≤ 100) {f g : Fp} {x y : ℝ} (hf : Acc k f x 1) (hg : Acc 0 g y W) : Acc (k + 1) (fmul (fun q => R q) f g) (x * y) W := by
  have := Acc.mul hR.rat (by simpa using hk) hf hg (by rwa [one_mul])
  rwa [one_mul, add_zero] at this

theorem acc_mulVec {W : ℝ} (hW : Scale W) (h800 : W ≤ 2 ^ (800 : ℤ)) {M : FM3} {S : M3} (hM : ∀ i j, SEntry (M i j) (S i j)) {v : F3} {v' : V3} (hv : ∀ i, Acc 0 (v i) (v' i) W) (i : Fin 3) :
    Near (25 / 2 ^ 53 * W) (mulVec L M v i) (S.mulVec v' i) := by
  have t := fun j => acc_rate hR hW (by norm_num) (hM i j) (hv j)
  have s := (L.sum3_sum (fmul (fun q => R q) (M i 0) (v 0)) (fmul (fun q => R q) (M i 1) (v 1)) (fmul (fun q => R q) (M i 2) (v 2))).acc hR.rat
    (.cons (t 0) (.cons (t 1) (.cons (t 2) .nil))) (by simp) ⟨hW.1, h800⟩
  have s' : Acc 8 (mulVec L M v i) (S.mulVec v' i) (3 * W) := by
    rw [mv3]
    have e : [S i 0 * v' 0, S i 1 * v' 1, S i 2 * v' 2].sum = S i 0 * v' 0 + S i 1 * v' 1 + S i 2 * v' 2 := by simp only [List.sum_cons, List.sum_nil]; ring
    rw [e] at s
    exact_mod_cast s
  have W0 := hW.pos
  have sc : Scale (3 * W) := ⟨hW.1.trans (by linarith), by
    calc 3 * W ≤ 2 ^ 2 * 2 ^ (800 : ℤ) := mul_le_mul (by norm_num) h800 W0.le (by norm_num)
      _ = 2 ^ (802 : ℤ) := by rw [show (802 : ℤ) = (2 : ℕ) + 800 by norm_num, zpow_add₀ (by norm_num : (2 : ℝ) ≠ 0), zpow_natCast]
      _ ≤ _ := zpow_le_zpow_right₀ (by norm_num) (by norm_num)⟩
  refine near_of s' (by norm_num) sc ?_
  have := mul_le_mul_of_nonneg_right eps8 (show 0 ≤ 3 * W by linarith)
  refine this.trans (le_of_eq ?_)
  ring

/-- the entries of the left half of a Jacobian -/
theorem jac_sum {W : ℝ} (hW : Scale W) (h800 : W ≤ 2 ^ (800 : ℤ)) {f g h u v : Fp} {x y z a b : ℝ} (hf : Acc 2 f x 1) (hu : Acc 0 u a W) (hg : Acc 2 g y 1) (hh : Acc 2 h z 1) (hv : Acc 0 v b W) :
    Near (25 / 2 ^ 53 * W) (fadd (fun q => R q) (fmul (fun q => R q) f u) (fmul (fun q => R q) (fmul (fun q => R q) g h) v)) (x * a + y * z * b) ∧
      Near (25 / 2 ^ 53 * W) (fsub (fun q => R q) (fmul (fun q => R q) f u) (fmul (fun q => R q) (fmul (fun q => R q) g h) v)) (x * a - y * z * b) := by
  have W0 := hW.pos
  have sc : Scale (W + W) := ⟨hW.1.trans (by linarith), by
    calc W + W ≤ 2 ^ (800 : ℤ) + 2 ^ (800 : ℤ) := add_le_add h800 h800
      _ = 2 ^ (801 : ℤ) := by rw [show (801 : ℤ) = 1 + 800 by norm_num, zpow_add₀ (by norm_num : (2 : ℝ) ≠ 0), zpow_one]; ring
      _ ≤ _ := zpow_le_zpow_right₀ (by norm_num) (by norm_num)⟩
  have p1 := acc_rate hR hW (by norm_num) hf hu
  have p2 := acc_rate hR hW (by norm_num) (acc_two hR hg hh) hv
  have b7 : ((1 + eps) ^ 7 - 1) * (W + W) ≤ 25 / 2 ^ 53 * W := by
    have := mul_le_mul_of_nonneg_right eps7 (show 0 ≤ W + W by linarith)
    refine this.trans ?_
    norm_num
    linarith
  exact ⟨near_of (Acc.add hR.rat (by norm_num) le_rfl (by norm_num) p1 p2 sc) (by norm_num) sc b7,
    near_of (Acc.sub hR.rat (by norm_num) le_rfl (by norm_num) p1 p2 sc) (by norm_num) sc b7⟩

theorem jac_prod {W : ℝ} (hW : Scale W) {f g v : Fp} {x y b : ℝ} (hf : Acc 2 f x 1) (hg : Acc 2 g y 1) (hv : Acc 0 v b W) :
    Near (25 / 2 ^ 53 * W) (fmul (fun q => R q) (fmul (fun q => R q) f g) v) (x * y * b) := by
  have W0 := hW.pos
  refine near_of ((acc_rate hR hW (by norm_num) (acc_two hR hf hg) hv).mono (k := 7) (by norm_num) le_rfl) (by norm_num) hW ?_
  have := mul_le_mul_of_nonneg_right eps7 W0.le
  refine this.trans ?_
  norm_num
  linarith

theorem jac_one {W : ℝ} (hW : Scale W) {f v : Fp} {x b : ℝ} (hf : Acc 2 f x 1) (hv : Acc 0 v b W) : Near (25 / 2 ^ 53 * W) (fmul (fun q => R q) f v) (x * b) := by
  have W0 := hW.pos
  refine near_of ((acc_rate hR hW (by norm_num) hf hv).mono (k := 7) (by norm_num) le_rfl) (by norm_num) hW ?_
  have := mul_le_mul_of_nonneg_right eps7 W0.le
  refine this.trans ?_
  norm_num
  linarith

omit hR in
theorem near_zero {e : ℝ} (he : 0 ≤ e) : Near e (.fin 0) 0 := ⟨rfl, ⟨isDouble_int 0 (by norm_num), by unfold tooBig; norm_num⟩, by simpa [fval] using he⟩

/-! ## The S-matrices -/

theorem ypr_entries {p : F3} (hp : Finite p) (i j : Fin 3) : SEntry (yprS L p i j) (Kinematics.yprS (vals p) i j) := by
  have c1 := acc_cos L (hp 1).1
  have s1 := acc_sin L (hp 1).1
  have c0 := acc_cos L (hp 0).1
  have s0 := acc_sin L (hp 0).1
  fin_cases i <;> fin_cases j
  · exact sentry_zero
  · exact s0.mono (by norm_num) le_rfl
  · exact acc_two hR c1.neg c0
  · exact sentry_zero
  · exact c0.neg.mono (by norm_num) le_rfl
  · exact acc_two hR c1.neg s0
  · have := acc_num (q := -1) (-1) (by norm_num) (by norm_num) (S := 1) (by norm_num)
    rw [show ((-1 : ℚ) : ℝ) = -1 by norm_num] at this
    exact this.mono (by norm_num) le_rfl
  · exact sentry_zero
  · exact s1.mono (by norm_num) le_rfl

theorem zyx_entries {p : F3} (hp : Finite p) (i j : Fin 3) : SEntry (zyxS L p i j) (Kinematics.zyxS (vals p) i j) := by
  have hn := finite_neg hp
  have hv : ∀ i, (fval (p i).neg : ℝ) = -vals p i := fun i => congrFun (vals_neg p) i
  have c1 := acc_cos L (hn 1).1
  have s1 := acc_sin L (hn 1).1
  have c0 := acc_cos L (hn 0).1
  have s0 := acc_sin L (hn 0).1
  rw [hv] at c1 s1 c0 s0
  fin_cases i <;> fin_cases j
  · exact sentry_zero
  · exact s0.neg.mono (by norm_num) le_rfl
  · exact acc_two hR c1 c0
  · exact sentry_zero
  · exact c0.mono (by norm_num) le_rfl
  · exact acc_two hR c1 s0
  · exact (CovDouble.acc_one le_rfl).mono (by norm_num) le_rfl
  · exact sentry_zero
  · exact s1.neg.mono (by norm_num) le_rfl

theorem zxy_entries {p : F3} (hp : Finite p) (i j : Fin 3) : SEntry (zxyS L p i j) (Kinematics.zxyS (vals p) i j) := by
  have c1 := acc_cos L (hp 1).1
  have s1 := acc_sin L (hp 1).1
  have c0 := acc_cos L (hp 0).1
  have s0 := acc_sin L (hp 0).1
  fin_cases i <;> fin_cases j
  · exact sentry_zero
  · exact c0.neg.mono (by norm_num) le_rfl
  · exact acc_two hR c1 s0
  · exact sentry_zero
  · exact s0.neg.mono (by norm_num) le_rfl
  · exact acc_two hR c1.neg c0
  · have := acc_num (q := -1) (-1) (by norm_num) (by norm_num) (S := 1) (by norm_num)
    rw [show ((-1 : ℚ) : ℝ) = -1 by norm_num] at this
    exact this.mono (by norm_num) le_rfl
  · exact sentry_zero
  · exact s1.neg.mono (by norm_num) le_rfl

omit hR in
theorem sentry_near {f : Fp} {x : ℝ} (h : SEntry f x) : Near (6 / 2 ^ 53) f x := by
  refine near_of h (by norm_num) (by simpa using scale_one) ?_
  rw [mul_one]
  exact eps5

/-- a computed matrix that is within 6/2^53 of an S-matrix of the parametrisation `f` at `p`: its entries are finite, and its first column has no error -/
def GoodS (f : V3 → M3) (p : V3) (M : FM3) : Prop :=
  ∃ S : M3, IsSMatrix f S p ∧ (∀ i j, Near (6 / 2 ^ 53) (M i j) (S i j)) ∧ ∀ i, (fval (M i 0) : ℝ) = S i 0

/-- **C182** For every three finite angles the computed S-matrix is, entry by entry and up to 6/2^53, a matrix that maps the rates of the angles to the angular velocity of the frame, along every curve; the column of the first angle is exact. -/
theorem C182_smatrix (p : F3) (hp : Finite p) :
    GoodS Kinematics.yprMatrix (vals p) (yprS L p) ∧ GoodS Kinematics.zyxMatrix (vals p) (zyxS L p) ∧ GoodS Kinematics.zxyMatrix (vals p) (zxyS L p) := by
  obtain ⟨h1, h2, h3, -⟩ := Kinematics.C61_euler_smatrix (vals p)
  refine ⟨⟨_, h1, fun i j => sentry_near (ypr_entries hR L hp i j), fun i => ?_⟩, ⟨_, h2, fun i j => sentry_near (zyx_entries hR L hp i j), fun i => ?_⟩,
    ⟨_, h3, fun i j => sentry_near (zxy_entries hR L hp i j), fun i => ?_⟩⟩
  all_goals fin_cases i <;> simp [yprS, yprBuildS, zyxS, zyxBuildS, zxyS, Kinematics.yprS, Kinematics.yprBuildS, Kinematics.zyxS, Kinematics.zyxBuildS, Kinematics.zxyS, fval]

/-! ## The angular velocities -/

/-- the computed velocity and Jacobian `r` are, up to 25/2^53 of `W`, those of the parametrisation `f` with angles `p` and rates `pdot`: `ω x` is the angular velocity for the angles `head3 x` and the rates `tail3 x` -/
def GoodVelocity (f : V3 → M3) (p pdot : V3) (W : ℝ) (r : F3 × FM36) : Prop :=
  ∃ ω : V6 → V3, ∃ J : M36,
    (∀ (c : ℝ → V3) (v : V3), (∀ i, HasDerivAt (fun s => c s i) (v i) 0) → TurnsBy (fun s => f (c s)) (ω (v6 (c 0) v))) ∧ IsJacobian ω J (v6 p pdot) ∧
      (∀ i, Near (25 / 2 ^ 53 * W) (r.1 i) (ω (v6 p pdot) i)) ∧ (∀ i j, Near (25 / 2 ^ 53 * W) (r.2 i (.inl j)) (J i (.inl j))) ∧ ∀ i j, Near (6 / 2 ^ 53) (r.2 i (.inr j)) (J i (.inr j))

omit hR in
theorem turns {f S : V3 → M3} (h : ∀ p, IsSMatrix f (S p) p) (c : ℝ → V3) (v : V3) (hc : ∀ i, HasDerivAt (fun s => c s i) (v i) 0) :
    TurnsBy (fun s => f (c s)) ((fun x : V6 => (S (head3 x)).mulVec (tail3 x)) (v6 (c 0) v)) := h (c 0) c v rfl hc

/-- **C182** For every three finite angles and every three rates up to `W`, between 2^-900 and 2^800, the computed angular velocity is finite and within 25/2^53 of `W` of the true one, and so is the computed Jacobian's derivative by the angles;
the derivative by the rates is within 6/2^53. -/
theorem C182_velocity (p pdot : F3) (hp : Finite p) (hd : Finite pdot) (W : ℝ) (h1 : 2 ^ (-900 : ℤ) ≤ W) (h2 : W ≤ 2 ^ (800 : ℤ)) (hW : ∀ i, |vals pdot i| ≤ W) :
    GoodVelocity Kinematics.yprMatrix (vals p) (vals pdot) W (yprVelocity L p pdot) ∧ GoodVelocity Kinematics.zyxMatrix (vals p) (vals pdot) W (zyxVelocity L p pdot) ∧
      GoodVelocity Kinematics.zxyMatrix (vals p) (vals pdot) W (zxyVelocity L p pdot) := by
  have sc : Scale W := ⟨h1, h2.trans (zpow_le_zpow_right₀ (by norm_num) (by norm_num))⟩
  have e0 : 0 ≤ 25 / 2 ^ 53 * W := mul_nonneg (by norm_num) sc.pos.le
  have r := hd.acc (a := fun _ => W) hW
  obtain ⟨⟨-, j1⟩, ⟨-, j2⟩, ⟨-, j3⟩⟩ := Kinematics.C61_euler_velocity (vals p) (vals pdot)
  refine ⟨⟨_, _, turns fun p => (Kinematics.C61_euler_smatrix p).1, j1, fun i => ?_, fun i j => ?_, fun i j => sentry_near (ypr_entries hR L hp i j)⟩,
    ⟨_, _, turns fun p => (Kinematics.C61_euler_smatrix p).2.1, j2, fun i => ?_, fun i j => ?_, fun i j => sentry_near (zyx_entries hR L hp i j)⟩,
    ⟨_, _, turns fun p => (Kinematics.C61_euler_smatrix p).2.2.1, j3, fun i => ?_, fun i j => ?_, fun i j => sentry_near (zxy_entries hR L hp i j)⟩⟩
  · exact acc_mulVec hR L sc h2 (ypr_entries hR L hp) r i
  · have c1 := acc_cos L (hp 1).1
    have s1 := acc_sin L (hp 1).1
    have c0 := acc_cos L (hp 0).1
    have s0 := acc_sin L (hp 0).1
    fin_cases i <;> fin_cases j
    · exact (jac_sum hR sc h2 c0 (r 1) c1 s0 (r 2)).1
    · exact jac_prod hR sc c0 s1 (r 2)
    · exact near_zero e0
    · exact (jac_sum hR sc h2 s0 (r 1) c0 c1 (r 2)).2
    · exact jac_prod hR sc s0 s1 (r 2)
    · exact near_zero e0
    · exact near_zero e0
    · exact jac_one hR sc c1 (r 2)
    · exact near_zero e0
  · exact acc_mulVec hR L sc h2 (zyx_entries hR L hp) r i
  · have hn := finite_neg hp
    have hv : ∀ i, (fval (p i).neg : ℝ) = -vals p i := fun i => congrFun (vals_neg p) i
    have c1 := acc_cos L (hn 1).1
    have s1 := acc_sin L (hn 1).1
    have c0 := acc_cos L (hn 0).1
    have s0 := acc_sin L (hn 0).1
    rw [hv] at c1 s1 c0 s0
    fin_cases i <;> fin_cases j
    · exact (jac_sum hR sc h2 c0 (r 1) c1 s0 (r 2)).1
    · exact jac_prod hR sc c0 s1 (r 2)
    · exact near_zero e0
    · exact (jac_sum hR sc h2 s0 (r 1) c0 c1 (r 2)).2
    · exact jac_prod hR sc s0 s1 (r 2)
    · exact near_zero e0
    · exact near_zero e0
    · exact jac_one hR sc c1 (r 2)
    · exact near_zero e0
  · exact acc_mulVec hR L sc h2 (zxy_entries hR L hp) r i
  · have c1 := acc_cos L (hp 1).1
    have s1 := acc_sin L (hp 1).1
    have c0 := acc_cos L (hp 0).1
    have s0 := acc_sin L (hp 0).1
    fin_cases i <;> fin_cases j
    · exact (jac_sum hR sc h2 s0 (r 1) c1 c0 (r 2)).1
    · exact jac_prod hR sc s1.neg s0 (r 2)
    · exact near_zero e0
    · exact (jac_sum hR sc h2 c0.neg (r 1) c1 s0 (r 2)).1
    · exact jac_prod hR sc s1 c0 (r 2)
    · exact near_zero e0
    · exact near_zero e0
    · exact jac_one hR sc c1.neg (r 2)
    · exact near_zero e0

/-! ## Gimbal lock -/

omit hR in
theorem det_near {δ d : ℝ} {M S : M3} (δ0 : 0 ≤ δ) (h : ∀ i j, |M i j - S i j| ≤ δ) (hS : ∀ i j, |S i j| ≤ 1) (h0 : M 0 0 = 0) (h1 : M 1 0 = 0) (hd : |d| = 1) (h2 : M 2 0 = d) (s0 : S 0 0 = 0) (s1 : S 1 0 = 0) (s2 : S 2 0 = d) :
    |M.det - S.det| ≤ 4 * δ + 2 * (δ * δ) := by
  have two : ∀ i j k l, |M i j * M k l - S i j * S k l| ≤ 2 * δ + δ * δ := by
    intro i j k l
    have a := abs_add_le ((M i j - S i j) * (M k l - S k l)) ((M i j - S i j) * S k l + S i j * (M k l - S k l))
    have b := abs_add_le ((M i j - S i j) * S k l) (S i j * (M k l - S k l))
    rw [show (M i j - S i j) * (M k l - S k l) + ((M i j - S i j) * S k l + S i j * (M k l - S k l)) = M i j * M k l - S i j * S k l by ring] at a
    rw [abs_mul] at a
    rw [abs_mul, abs_mul] at b
    have c := mul_le_mul (h i j) (h k l) (abs_nonneg _) δ0
    have e := mul_le_mul (h i j) (hS k l) (abs_nonneg _) δ0
    have f := mul_le_mul (hS i j) (h k l) (abs_nonneg _) zero_le_one
    linarith
  have e : M.det - S.det = d * ((M 0 1 * M 1 2 - S 0 1 * S 1 2) - (M 0 2 * M 1 1 - S 0 2 * S 1 1)) := by
    rw [Matrix.det_fin_three, Matrix.det_fin_three, h0, h1, h2, s0, s1, s2]; ring
  rw [e, abs_mul, hd, one_mul]
  have := abs_sub (M 0 1 * M 1 2 - S 0 1 * S 1 2) (M 0 2 * M 1 1 - S 0 2 * S 1 1)
  have t1 := two 0 1 1 2
  have t2 := two 0 2 1 1
  linarith

omit hR in
theorem det_of {M : FM3} {S : M3} {d c : ℝ} (h : ∀ i j, SEntry (M i j) (S i j)) (h0 : (fval (M 0 0) : ℝ) = 0) (h1 : (fval (M 1 0) : ℝ) = 0) (hd : |d| = 1) (h2 : (fval (M 2 0) : ℝ) = d) (s0 : S 0 0 = 0) (s1 : S 1 0 = 0) (s2 : S 2 0 = d)
    (hc : S.det = c) : |(valsM M).det - c| ≤ 25 / 2 ^ 53 := by
  rw [← hc]
  refine (det_near (δ := 6 / 2 ^ 53) (by norm_num) (fun i j => (sentry_near (h i j)).2.2) (fun i j => ?_) h0 h1 hd h2 s0 s1 s2).trans (by norm_num)
  obtain ⟨q, -, -, b, -⟩ := h i j
  exact b

/-- **C182** The determinant of the computed S-matrix is the cosine of the middle angle, up to its sign and to 25/2^53; so away from the gimbal lock by that much the computed matrix can be inverted. -/
theorem C182_gimbal (p : F3) (hp : Finite p) :
    |(valsM (yprS L p)).det - Real.cos (vals p 1)| ≤ 25 / 2 ^ 53 ∧ |(valsM (zyxS L p)).det - -Real.cos (vals p 1)| ≤ 25 / 2 ^ 53 ∧ |(valsM (zxyS L p)).det - -Real.cos (vals p 1)| ≤ 25 / 2 ^ 53 ∧
      (25 / 2 ^ 53 < |Real.cos (vals p 1)| → (valsM (yprS L p)).det ≠ 0 ∧ (valsM (zyxS L p)).det ≠ 0 ∧ (valsM (zxyS L p)).det ≠ 0) := by
  obtain ⟨-, -, -, d1, d2, d3⟩ := Kinematics.C61_euler_smatrix (vals p)
  have a := det_of (ypr_entries hR L hp) (d := -1) (by simp [yprS, yprBuildS, fval]) (by simp [yprS, yprBuildS, fval]) (by norm_num) (by simp [yprS, yprBuildS, fval])
    (by simp [Kinematics.yprS, Kinematics.yprBuildS]) (by simp [Kinematics.yprS, Kinematics.yprBuildS]) (by simp [Kinematics.yprS, Kinematics.yprBuildS]) d1
  have b := det_of (zyx_entries hR L hp) (d := 1) (by simp [zyxS, zyxBuildS, fval]) (by simp [zyxS, zyxBuildS, fval]) (by norm_num) (by simp [zyxS, zyxBuildS, fval])
    (by simp [Kinematics.zyxS, Kinematics.zyxBuildS]) (by simp [Kinematics.zyxS, Kinematics.zyxBuildS]) (by simp [Kinematics.zyxS, Kinematics.zyxBuildS]) d2
  have c := det_of (zxy_entries hR L hp) (d := -1) (by simp [zxyS, fval]) (by simp [zxyS, fval]) (by norm_num) (by simp [zxyS, fval])
    (by simp [Kinematics.zxyS]) (by simp [Kinematics.zxyS]) (by simp [Kinematics.zxyS]) d3
  refine ⟨a, b, c, fun h => ⟨fun e => ?_, fun e => ?_, fun e => ?_⟩⟩
  · rw [e, zero_sub, abs_neg] at a; exact absurd a (not_le.2 h)
  · rw [e, zero_sub, neg_neg] at b; exact absurd b (not_le.2 h)
  · rw [e, zero_sub, neg_neg] at c; exact absurd c (not_le.2 h)

/-- three angles and rates for the examples: zero angles, the rates 1, 2 and 1/2 -/
def p0 : F3 := fun _ => .fin 0
def rates : F3 := ![.fin 1, .fin 2, .fin (1 / 2)]

omit hR in
theorem p0_ok : Finite p0 := fun _ => ⟨rfl, isDouble_int 0 (by norm_num), by unfold tooBig; norm_num⟩

omit hR in
theorem rates_ok : Finite rates ∧ ∀ i, |vals rates i| ≤ 2 := by
  have t : ∀ z : ℚ, |z| ≤ 2 → |z| < tooBig := fun z h => lt_of_le_of_lt h (by unfold tooBig; exact lt_of_lt_of_le (by norm_num : (2 : ℚ) < 2 ^ 2) (pow_le_pow_right₀ (by norm_num) (by norm_num)))
  constructor
  · intro i
    fin_cases i
    · exact ⟨rfl, isDouble_int 1 (by norm_num), t 1 (by norm_num)⟩
    · exact ⟨rfl, isDouble_int 2 (by norm_num), t 2 (by norm_num)⟩
    · exact ⟨rfl, ⟨1, -1, by norm_num, by norm_num, by norm_num⟩, t (1 / 2) (by norm_num [abs_of_pos])⟩
  · intro i
    fin_cases i <;> simp [vals, rates, fval] <;> norm_num

/-- the hypotheses are met: zero angles, away from the gimbal lock, and three rates up to 2 -/
example : Finite p0 ∧ Finite rates ∧ (∀ i, |vals rates i| ≤ 2) ∧ (2 : ℝ) ^ (-900 : ℤ) ≤ 2 ∧ (2 : ℝ) ≤ 2 ^ (800 : ℤ) ∧ 25 / 2 ^ 53 < |Real.cos (vals p0 1)| := by
  refine ⟨p0_ok, rates_ok.1, rates_ok.2, ?_, ?_, ?_⟩
  · exact (zpow_le_one_of_nonpos₀ (by norm_num) (by norm_num)).trans (by norm_num)
  · calc (2 : ℝ) = 2 ^ (1 : ℤ) := by norm_num
      _ ≤ _ := zpow_le_zpow_right₀ (by norm_num) (by norm_num)
  · have : vals p0 1 = 0 := by simp [vals, p0, fval]
    rw [this, Real.cos_zero]
    norm_num

/-- and there the third component of the computed velocity is within 50/2^53 of -1: the yaw axis points down -/
example : Near (25 / 2 ^ 53 * 2) ((yprVelocity L p0 rates).1 2) (-1) := by
  have l1 : (2 : ℝ) ^ (-900 : ℤ) ≤ 2 := (zpow_le_one_of_nonpos₀ (by norm_num) (by norm_num)).trans (by norm_num)
  have l2 : (2 : ℝ) ≤ 2 ^ (800 : ℤ) := by
    calc (2 : ℝ) = 2 ^ (1 : ℤ) := by norm_num
      _ ≤ _ := zpow_le_zpow_right₀ (by norm_num) (by norm_num)
  have sc : Scale 2 := ⟨l1, l2.trans (zpow_le_zpow_right₀ (by norm_num) (by norm_num))⟩
  have := acc_mulVec hR L sc l2 (ypr_entries hR L p0_ok) (rates_ok.1.acc (a := fun _ => 2) rates_ok.2) 2
  rw [mv3] at this
  have e : Kinematics.yprS (vals p0) 2 0 * vals rates 0 + Kinematics.yprS (vals p0) 2 1 * vals rates 1 + Kinematics.yprS (vals p0) 2 2 * vals rates 2 = -1 := by
    simp [Kinematics.yprS, Kinematics.yprBuildS, vals, p0, rates, fval]
  rw [e] at this
  exact this

end

end Verif.RateDouble
