import Verif.Kinematics.EulerDouble
import Verif.Kinematics.LogDoubleProps
import Verif.Kinematics.Param

/-!
# C175: Euler angles in doubles
-/

namespace Verif.EulerDouble

open Verif.Common Verif.KinematicsDouble
open Verif.Kinematics (V3 V4 M3)

/-- the computed angles are finite and are the angles `p` up to `b`: the first and the third up to full turns -/
def AnglesNear (p' : F3) (p : V3) (b : ℝ) : Prop :=
  Finite p' ∧ (∃ k : ℤ, |vals p' 0 - p 0 - 2 * Real.pi * k| ≤ b) ∧ |vals p' 1 - p 1| ≤ b ∧ ∃ k : ℤ, |vals p' 2 - p 2 - 2 * Real.pi * k| ≤ b

/-- every entry of the computed matrix is finite and within `e` of that of `C` -/
def EntriesNear (M : FM3) (C : M3) (e : ℝ) : Prop := ∀ i j, (M i j).isFinite ∧ IsDouble (fval (M i j)) ∧ |valsM M i j - C i j| ≤ e

theorem Ab.neg {e : ℝ} {f : Fp} {x : ℝ} (h : Ab e f x) : Ab e f.neg (-x) := by
  obtain ⟨r, rfl, h2, h3⟩ := h
  refine ⟨-r, rfl, h2.neg, ?_⟩
  push_cast
  rw [← abs_neg]
  convert h3 using 2
  ring

/-! ## Angles -/

/-- the angle of a given sine -/
theorem asin_near {m φ δ e : ℝ} (h1 : |φ| ≤ Real.pi / 2) (hδ : δ ≤ Real.cos φ) (δ0 : 0 < δ) (he : |m - Real.sin φ| ≤ e) (h4 : 4 * e ≤ δ * δ) :
    |m| ≤ 1 ∧ |Real.arcsin m - φ| ≤ 32 / 10 * (e / δ) := by
  have e0 : 0 ≤ e := (abs_nonneg _).trans he
  have f1 := abs_le.1 h1
  have hpi := Real.pi_lt_d2
  have pi0 := Real.pi_pos
  have sc := Real.sin_sq_add_cos_sq φ
  have δδ : δ * δ ≤ Real.cos φ ^ 2 := by nlinarith
  have s1 : |Real.sin φ| ≤ 1 - δ * δ / 2 := by
    rw [abs_le]
    have : Real.sin φ ^ 2 ≤ (1 - δ * δ / 2) ^ 2 := by nlinarith [sq_nonneg (δ * δ)]
    have c1 := Real.cos_le_one φ
    have p : 0 ≤ 1 - δ * δ / 2 := by nlinarith
    exact abs_le.1 (abs_le_of_sq_le_sq this p)
  have m1 : |m| ≤ 1 := by
    have := abs_sub_abs_le_abs_sub m (Real.sin φ)
    nlinarith
  refine ⟨m1, ?_⟩
  set ψ := Real.arcsin m with hψ
  have hm : Real.sin ψ = m := Real.sin_arcsin (abs_le.1 m1).1 (abs_le.1 m1).2
  have p1 := Real.arcsin_le_pi_div_two m
  have p2 := Real.neg_pi_div_two_le_arcsin m
  have cψ : 0 ≤ Real.cos ψ := Real.cos_arcsin_nonneg m
  have d1 := Real.sin_sub_sin ψ φ
  have d2 := Real.cos_add_cos ψ φ
  have cd : Real.cos ((ψ - φ) / 2) ≤ 1 := Real.cos_le_one _
  have cs0 : 0 ≤ Real.cos ((ψ + φ) / 2) := Real.cos_nonneg_of_mem_Icc ⟨by linarith, by linarith⟩
  have cs : δ / 2 ≤ Real.cos ((ψ + φ) / 2) := by nlinarith
  have sd : 2 / Real.pi * |(ψ - φ) / 2| ≤ |Real.sin ((ψ - φ) / 2)| := Real.mul_abs_le_abs_sin (by rw [abs_le]; constructor <;> linarith)
  rw [hm] at d1
  rw [d1, abs_mul, abs_mul, abs_of_nonneg cs0, abs_of_pos (by norm_num : (0 : ℝ) < 2)] at he
  have a1 : |Real.sin ((ψ - φ) / 2)| * δ ≤ e := by nlinarith [abs_nonneg (Real.sin ((ψ - φ) / 2))]
  have a2 : |ψ - φ| / Real.pi ≤ |Real.sin ((ψ - φ) / 2)| := by
    refine le_trans (le_of_eq ?_) sd
    rw [abs_div, abs_of_pos (by norm_num : (0 : ℝ) < 2)]; field_simp
  have a3 : |ψ - φ| ≤ Real.pi * |Real.sin ((ψ - φ) / 2)| := by rwa [div_le_iff₀' pi0] at a2
  have a4 : |Real.sin ((ψ - φ) / 2)| ≤ e / δ := by rwa [le_div_iff₀ δ0]
  have : 0 ≤ e / δ := by positivity
  nlinarith [abs_nonneg (Real.sin ((ψ - φ) / 2))]

/-- an angle with a positive cosine is, up to full turns, small if its sine is -/
theorem turn_near {a : ℝ} (cp : 0 < Real.cos a) : ∃ k : ℤ, |a - 2 * Real.pi * k| ≤ Real.pi / 2 * |Real.sin a| := by
  have pi0 := Real.pi_pos
  obtain ⟨k, hk⟩ : ∃ k : ℤ, k = round (a / (2 * Real.pi)) := ⟨_, rfl⟩
  refine ⟨k, ?_⟩
  obtain ⟨d, hd⟩ : ∃ d, d = a - k * (2 * Real.pi) := ⟨_, rfl⟩
  have hd' : a - 2 * Real.pi * k = d := by rw [hd]; ring
  rw [hd']
  have sind : Real.sin d = Real.sin a := by rw [hd, Real.sin_sub_int_mul_two_pi]
  have cosd : Real.cos d = Real.cos a := by rw [hd, Real.cos_sub_int_mul_two_pi]
  have dπ : |d| ≤ Real.pi := by
    have h := abs_sub_round (a / (2 * Real.pi))
    rw [← hk] at h
    have e2 : d = 2 * Real.pi * (a / (2 * Real.pi) - k) := by rw [hd]; field_simp
    rw [e2, abs_mul, abs_of_pos (by positivity : 0 < 2 * Real.pi)]
    calc 2 * Real.pi * |a / (2 * Real.pi) - k| ≤ 2 * Real.pi * (1 / 2) := mul_le_mul_of_nonneg_left h (by positivity)
      _ = Real.pi := by ring
  have dh : |d| ≤ Real.pi / 2 := by
    by_contra h
    have h := not_le.1 h
    have : Real.cos |d| ≤ 0 := Real.cos_nonpos_of_pi_div_two_le_of_le h.le (by linarith)
    rw [Real.cos_abs, cosd] at this
    linarith
  have := Real.mul_abs_le_abs_sin dh
  rw [sind] at this
  have h2 : |d| = Real.pi / 2 * (2 / Real.pi * |d|) := by field_simp
  rw [h2]; exact mul_le_mul_of_nonneg_left this (by positivity)

/-- the angle of a point in the plane -/
theorem angle_near {x y ρ θ c θ0 δ e : ℝ} (hx : ρ * Real.cos θ = x) (hy : ρ * Real.sin θ = y) (ρ0 : 0 ≤ ρ) (δ0 : 0 < δ) (hδ : δ ≤ c) (c1 : c ≤ 1)
    (ex : |x - c * Real.cos θ0| ≤ e) (ey : |y - c * Real.sin θ0| ≤ e) (h4 : 4 * e ≤ δ * δ) : ∃ k : ℤ, |θ - θ0 - 2 * Real.pi * k| ≤ 64 / 10 * (e / δ) := by
  have e0 : 0 ≤ e := (abs_nonneg _).trans ex
  have hpi := Real.pi_lt_d2
  have pi0 := Real.pi_pos
  have δ1 : 4 * e ≤ δ := by nlinarith
  set a := x - c * Real.cos θ0 with ha
  set b := y - c * Real.sin θ0 with hb
  have sc := Real.sin_sq_add_cos_sq θ0
  have C0 := Real.abs_cos_le_one θ0
  have S0 := Real.abs_sin_le_one θ0
  have bound : ∀ u v : ℝ, |u| ≤ 1 → |v| ≤ 1 → |a * u + b * v| ≤ 2 * e := by
    intro u v hu hv
    have h1 := abs_add_le (a * u) (b * v)
    rw [abs_mul, abs_mul] at h1
    nlinarith [abs_nonneg a, abs_nonneg b, abs_nonneg u, abs_nonneg v]
  have sd : ρ * Real.sin (θ - θ0) = b * Real.cos θ0 - a * Real.sin θ0 := by
    rw [Real.sin_sub]; linear_combination Real.cos θ0 * hy - Real.sin θ0 * hx
  have cd : ρ * Real.cos (θ - θ0) = c + (a * Real.cos θ0 + b * Real.sin θ0) := by
    rw [Real.cos_sub]; linear_combination Real.cos θ0 * hx + Real.sin θ0 * hy + c * sc
  have b1 := abs_le.1 (bound (Real.cos θ0) (Real.sin θ0) C0 S0)
  have b2 : |ρ * Real.sin (θ - θ0)| ≤ 2 * e := by
    rw [sd]
    have := bound (-Real.sin θ0) (Real.cos θ0) (by rwa [abs_neg]) C0
    convert this using 2; ring
  have cpos : δ / 2 ≤ ρ * Real.cos (θ - θ0) := by rw [cd]; linarith
  have c2 : Real.cos (θ - θ0) ≤ 1 := Real.cos_le_one _
  have ρδ : δ / 2 ≤ ρ := by nlinarith
  have cp : 0 < Real.cos (θ - θ0) := by
    by_contra h
    have := not_lt.1 h
    nlinarith
  rw [abs_mul, abs_of_nonneg ρ0] at b2
  have s1 : |Real.sin (θ - θ0)| ≤ 4 * (e / δ) := by
    have : |Real.sin (θ - θ0)| * δ ≤ 4 * e := by nlinarith [abs_nonneg (Real.sin (θ - θ0))]
    rw [← mul_div_assoc, le_div_iff₀ δ0]; exact this
  obtain ⟨k, hk⟩ := turn_near cp
  refine ⟨k, hk.trans ?_⟩
  have : 0 ≤ e / δ := by positivity
  nlinarith [abs_nonneg (Real.sin (θ - θ0))]

section
variable {R : ℝ → ℚ} (hR : IsRndR R) (L : EulerLib fun q => R q)

/-- the computed `atan2` -/
theorem atan2_near {f g : Fp} {c θ0 δ e : ℝ} (hg : Ab e g (c * Real.cos θ0)) (hf : Ab e f (c * Real.sin θ0)) (δ0 : 0 < δ) (hδ : δ ≤ c) (c1 : c ≤ 1) (h4 : 4 * e ≤ δ * δ) :
    ∃ r : ℚ, libm2 L.atan2 f g = .fin r ∧ IsDouble r ∧ |(r : ℝ)| ≤ 4 ∧ ∃ k : ℤ, |(r : ℝ) - θ0 - 2 * Real.pi * k| ≤ 64 / 10 * (e / δ) + 1 / 2 ^ 51 := by
  obtain ⟨x, rfl, -, ex⟩ := hg
  obtain ⟨y, rfl, -, ey⟩ := hf
  obtain ⟨θ, t1, t2, t3, t4⟩ := L.atan2_err y x
  obtain ⟨k, hk⟩ := angle_near t2 t3 (Real.sqrt_nonneg _) δ0 hδ c1 ex ey h4
  have hpi := Real.pi_lt_d2
  refine ⟨L.atan2 y x, rfl, L.atan2_double y x, ?_, k, ?_⟩
  · have h1 := abs_sub_abs_le_abs_sub (L.atan2 y x : ℝ) θ
    norm_num at t4
    linarith
  · have h1 := abs_add_le ((L.atan2 y x : ℝ) - θ) (θ - θ0 - 2 * Real.pi * k)
    have e1 : (L.atan2 y x : ℝ) - θ + (θ - θ0 - 2 * Real.pi * k) = L.atan2 y x - θ0 - 2 * Real.pi * k := by ring
    rw [e1] at h1
    linarith

/-- the computed `asin` -/
theorem libm_asin_near {f : Fp} {φ δ e : ℝ} (h1 : |φ| ≤ Real.pi / 2) (hf : Ab e f (Real.sin φ)) (hδ : δ ≤ Real.cos φ) (δ0 : 0 < δ) (h4 : 4 * e ≤ δ * δ) :
    ∃ r : ℚ, libmUnit L.asin f = .fin r ∧ IsDouble r ∧ |(r : ℝ)| ≤ 4 ∧ |(r : ℝ) - φ| ≤ 32 / 10 * (e / δ) + 1 / 2 ^ 52 := by
  obtain ⟨m, rfl, -, em⟩ := hf
  obtain ⟨m1, hm⟩ := asin_near h1 hδ δ0 em h4
  have m1' : |m| ≤ 1 := by exact_mod_cast m1
  have he := L.asin_err m m1'
  have hpi := Real.pi_lt_d2
  refine ⟨L.asin m, by simp [libmUnit, m1'], L.asin_double m, ?_, ?_⟩
  · have h2 := Real.arcsin_le_pi_div_two (m : ℝ)
    have h3 := Real.neg_pi_div_two_le_arcsin (m : ℝ)
    have h4 := abs_le.1 he
    norm_num at h4
    rw [abs_le]; constructor <;> linarith
  · have := abs_sub_le (L.asin m : ℝ) (Real.arcsin m) φ
    linarith

theorem fin_ok {r : ℚ} (h : IsDouble r) (h4 : |(r : ℝ)| ≤ 4) : (Fp.fin r).isFinite ∧ IsDoubleVal (.fin r) := by
  have := Ab.isFinite (e := 0) (f := .fin r) (x := r) ⟨r, rfl, h, by simp⟩ (by linarith)
  exact this

/-! ## From angles to matrices -/

/-- a computed sine or cosine -/
def Unit1 (f : Fp) (x : ℝ) : Prop := Ab (u51 / 2) f x ∧ |x| ≤ 1

theorem Unit1.neg {f : Fp} {x : ℝ} (h : Unit1 f x) : Unit1 f.neg (-x) := ⟨Ab.neg h.1, by rw [abs_neg]; exact h.2⟩

theorem unit_cos {p : F3} (hp : Finite p) (i : Fin 3) : Unit1 (libm L.cos (p i)) (Real.cos (vals p i)) := by
  obtain ⟨h, -⟩ := hp.fin i
  refine ⟨⟨L.cos (fval (p i)), by rw [h]; rfl, L.cos_double _, (L.cos_err _).trans ?_⟩, Real.abs_cos_le_one _⟩
  unfold u51; norm_num

theorem unit_sin {p : F3} (hp : Finite p) (i : Fin 3) : Unit1 (libm L.sin (p i)) (Real.sin (vals p i)) := by
  obtain ⟨h, -⟩ := hp.fin i
  refine ⟨⟨L.sin (fval (p i)), by rw [h]; rfl, L.sin_double _, (L.sin_err _).trans ?_⟩, Real.abs_sin_le_one _⟩
  unfold u51; norm_num

include hR

theorem two {f g : Fp} {x y : ℝ} (hf : Unit1 f x) (hg : Unit1 g y) : Ab (21 / 10 * u51) (fmul (fun q => R q) f g) (x * y) ∧ |x * y| ≤ 1 := by
  have us : u51 ≤ 1 / 1000000 := by unfold u51; norm_num
  have u0 := u51_pos
  refine ⟨(Ab.mul hR (X := 11 / 10) (Y := 1) hf.1 hg.1 (by linarith [hf.2]) hg.2 (by linarith)).mono (by linarith), ?_⟩
  rw [abs_mul]; exact mul_le_one₀ hf.2 (abs_nonneg _) hg.2

theorem three {f g h : Fp} {x y z : ℝ} (hf : Unit1 f x) (hg : Unit1 g y) (hh : Unit1 h z) : Ab (37 / 10 * u51) (fmul (fun q => R q) (fmul (fun q => R q) f g) h) (x * y * z) ∧ |x * y * z| ≤ 1 := by
  have us : u51 ≤ 1 / 1000000 := by unfold u51; norm_num
  have u0 := u51_pos
  obtain ⟨a, b⟩ := two hR hf hg
  refine ⟨(Ab.mul hR (X := 11 / 10) (Y := 1) a hh.1 (by linarith) hh.2 (by linarith)).mono (by linarith), ?_⟩
  rw [abs_mul]; exact mul_le_one₀ b (abs_nonneg _) hh.2

theorem plus {f g : Fp} {x y : ℝ} (hf : Ab (21 / 10 * u51) f x ∧ |x| ≤ 1) (hg : Ab (37 / 10 * u51) g y ∧ |y| ≤ 1) : Ab (7 * u51) (fadd (fun q => R q) f g) (x + y) := by
  have us : u51 ≤ 1 / 1000000 := by unfold u51; norm_num
  have u0 := u51_pos
  have := abs_add_le x y
  exact (Ab.add hR hf.1 hg.1 (by linarith [hf.2, hg.2])).mono (by linarith)

theorem minus {f g : Fp} {x y : ℝ} (hf : Ab (21 / 10 * u51) f x ∧ |x| ≤ 1) (hg : Ab (37 / 10 * u51) g y ∧ |y| ≤ 1) : Ab (7 * u51) (fsub (fun q => R q) f g) (x - y) := by
  have us : u51 ≤ 1 / 1000000 := by unfold u51; norm_num
  have u0 := u51_pos
  have := abs_sub x y
  exact (Ab.sub hR hf.1 hg.1 (by linarith [hf.2, hg.2])).mono (by linarith)

omit hR in
theorem entries_of {M : FM3} {C : M3} (h : ∀ i j, Ab (7 * u51) (M i j) (C i j)) (hC : ∀ i j, |C i j| ≤ 2) : EntriesNear M C (7 * u51) := by
  intro i j
  have us : u51 ≤ 1 / 1000000 := by unfold u51; norm_num
  have u0 := u51_pos
  obtain ⟨h1, h2⟩ := (h i j).isFinite (by linarith [hC i j])
  exact ⟨h1, (h i j).val.2.1, (h i j).val.2.2⟩

theorem rph_entries {cx sx cy sy cz sz : Fp} {cx' sx' cy' sy' cz' sz' : ℝ} (h1 : Unit1 cx cx') (h2 : Unit1 sx sx') (h3 : Unit1 cy cy') (h4 : Unit1 sy sy') (h5 : Unit1 cz cz') (h6 : Unit1 sz sz') :
    EntriesNear (rphEntries R cx sx cy sy cz sz) (Kinematics.rphMatrix cx' sx' cy' sy' cz' sz') (7 * u51) := by
  have u0 := u51_pos
  have lo : ∀ {f : Fp} {x : ℝ}, Ab (21 / 10 * u51) f x ∧ |x| ≤ 1 → Ab (7 * u51) f x := fun h => h.1.mono (by linarith)
  have up : ∀ {x y : ℝ}, |x| ≤ 1 → |y| ≤ 1 → |x + y| ≤ 2 := fun {x y} a b => by have := abs_add_le x y; linarith
  have one : ∀ {x : ℝ}, |x| ≤ 1 → |x| ≤ 2 := fun h => by linarith
  refine entries_of ?_ ?_
  · intro i j
    fin_cases i <;> fin_cases j
    · exact lo (two hR h5 h3)
    · exact plus hR (two hR h6.neg h1) (three hR h5 h4 h2)
    · exact plus hR (two hR h6 h2) (three hR h5 h4 h1)
    · exact lo (two hR h6 h3)
    · exact plus hR (two hR h5 h1) (three hR h6 h4 h2)
    · exact plus hR (two hR h5.neg h2) (three hR h6 h4 h1)
    · exact h4.neg.1.mono (by linarith)
    · exact lo (two hR h3 h2)
    · exact lo (two hR h3 h1)
  · intro i j
    fin_cases i <;> fin_cases j
    · exact one (two hR h5 h3).2
    · exact up (two hR h6.neg h1).2 (three hR h5 h4 h2).2
    · exact up (two hR h6 h2).2 (three hR h5 h4 h1).2
    · exact one (two hR h6 h3).2
    · exact up (two hR h5 h1).2 (three hR h6 h4 h2).2
    · exact up (two hR h5.neg h2).2 (three hR h6 h4 h1).2
    · exact one h4.neg.2
    · exact one (two hR h3 h2).2
    · exact one (two hR h3 h1).2

/-- **C175** The matrix of every three finite angles is finite, and each of its entries is that of the exact matrix (C61) up to 7/2^51: for all four conventions. -/
theorem C175_matrix (p : F3) (hp : Finite p) :
    EntriesNear (yprMatrix L p) (Kinematics.yprMatrix (vals p)) (7 / 2 ^ 51) ∧ EntriesNear (zyxMatrix L p) (Kinematics.zyxMatrix (vals p)) (7 / 2 ^ 51) ∧
      EntriesNear (zxyMatrix L p) (Kinematics.zxyMatrix (vals p)) (7 / 2 ^ 51) ∧ EntriesNear (rph2R L p) (Kinematics.rph2R (vals p 0) (vals p 1) (vals p 2)) (7 / 2 ^ 51) := by
  have e7 : (7 : ℝ) / 2 ^ 51 = 7 * u51 := by unfold u51; ring
  rw [e7]
  have hn : Finite fun i => (p i).neg := finite_neg hp
  have hv : ∀ i, vals (fun i => (p i).neg) i = -vals p i := fun i => by rw [vals_neg]; rfl
  refine ⟨rph_entries hR (unit_cos L hp 2) (unit_sin L hp 2) (unit_cos L hp 1) (unit_sin L hp 1) (unit_cos L hp 0) (unit_sin L hp 0), ?_, ?_,
    rph_entries hR (unit_cos L hp 0) (unit_sin L hp 0) (unit_cos L hp 1) (unit_sin L hp 1) (unit_cos L hp 2) (unit_sin L hp 2)⟩
  · have := rph_entries hR (unit_cos L hn 2) (unit_sin L hn 2) (unit_cos L hn 1) (unit_sin L hn 1) (unit_cos L hn 0) (unit_sin L hn 0)
    rw [hv, hv, hv] at this
    exact this
  · have u0 := u51_pos
    have lo : ∀ {f : Fp} {x : ℝ}, Ab (21 / 10 * u51) f x ∧ |x| ≤ 1 → Ab (7 * u51) f x := fun h => h.1.mono (by linarith)
    have up : ∀ {x y : ℝ}, |x| ≤ 1 → |y| ≤ 1 → |x + y| ≤ 2 := fun {x y} a b => by have := abs_add_le x y; linarith
    have um : ∀ {x y : ℝ}, |x| ≤ 1 → |y| ≤ 1 → |x - y| ≤ 2 := fun {x y} a b => by have := abs_sub x y; linarith
    have one : ∀ {x : ℝ}, |x| ≤ 1 → |x| ≤ 2 := fun h => by linarith
    have cx := unit_cos L hp 1
    have sx := unit_sin L hp 1
    have cy := unit_cos L hp 2
    have sy := unit_sin L hp 2
    have cz := unit_cos L hp 0
    have sz := unit_sin L hp 0
    refine entries_of ?_ ?_
    · intro i j
      fin_cases i <;> fin_cases j
      · exact minus hR (two hR cz cy) (three hR sz sx sy)
      · exact lo (two hR sz.neg cx)
      · exact plus hR (two hR cz sy) (three hR sz sx cy)
      · exact plus hR (two hR sz cy) (three hR cz sx sy)
      · exact lo (two hR cz cx)
      · exact minus hR (two hR sz sy) (three hR cz sx cy)
      · exact lo (two hR cx.neg sy)
      · exact sx.1.mono (by linarith)
      · exact lo (two hR cx cy)
    · intro i j
      fin_cases i <;> fin_cases j
      · exact um (two hR cz cy).2 (three hR sz sx sy).2
      · exact one (two hR sz.neg cx).2
      · exact up (two hR cz sy).2 (three hR sz sx cy).2
      · exact up (two hR sz cy).2 (three hR cz sx sy).2
      · exact one (two hR cz cx).2
      · exact um (two hR sz sy).2 (three hR cz sx cy).2
      · exact one (two hR cx.neg sy).2
      · exact one sx.2
      · exact one (two hR cx cy).2

/-! ## From matrices to angles -/

omit hR in
theorem EntriesNear.ab {M : FM3} {C : M3} {e : ℝ} (h : EntriesNear M C e) (i j : Fin 3) : Ab e (M i j) (C i j) := by
  obtain ⟨h1, h2, h3⟩ := h i j
  refine ⟨_, ?_, h2, h3⟩
  cases hm : M i j with
  | fin q => rfl
  | inf n => rw [hm] at h1; exact absurd h1 (by simp [Fp.isFinite])
  | nan => rw [hm] at h1; exact absurd h1 (by simp [Fp.isFinite])

omit hR in
/-- the three computed angles -/
theorem near_of {a b c : ℚ} {p : V3} {x : ℝ} {f g h : Fp} (ha : f = .fin a ∧ IsDouble a ∧ |(a : ℝ)| ≤ 4 ∧ ∃ k : ℤ, |(a : ℝ) - p 0 - 2 * Real.pi * k| ≤ x)
    (hb : g = .fin b ∧ IsDouble b ∧ |(b : ℝ)| ≤ 4 ∧ |(b : ℝ) - p 1| ≤ x)
    (hc : h = .fin c ∧ IsDouble c ∧ |(c : ℝ)| ≤ 4 ∧ ∃ k : ℤ, |(c : ℝ) - p 2 - 2 * Real.pi * k| ≤ x) : AnglesNear ![f, g, h] p x := by
  obtain ⟨rfl, a1, a2, a3⟩ := ha
  obtain ⟨rfl, b1, b2, b3⟩ := hb
  obtain ⟨rfl, c1, c2, c3⟩ := hc
  refine ⟨?_, a3, b3, c3⟩
  intro i
  fin_cases i
  · exact fin_ok a1 a2
  · exact fin_ok b1 b2
  · exact fin_ok c1 c2

omit hR in
theorem neg_angle {f : Fp} {a θ x : ℝ} {r : ℚ} (h : f = .fin r ∧ IsDouble r ∧ |(r : ℝ)| ≤ 4 ∧ ∃ k : ℤ, |(r : ℝ) - θ - 2 * Real.pi * k| ≤ x) (ha : a = -θ) :
    f.neg = .fin (-r) ∧ IsDouble (-r) ∧ |((-r : ℚ) : ℝ)| ≤ 4 ∧ ∃ k : ℤ, |((-r : ℚ) : ℝ) - a - 2 * Real.pi * k| ≤ x := by
  obtain ⟨rfl, h1, h2, k, h3⟩ := h
  refine ⟨rfl, h1.neg, by push_cast; rwa [abs_neg], -k, ?_⟩
  rw [ha, ← abs_neg]
  convert h3 using 2
  push_cast; ring

end

/-- **C175** The angles of a computed matrix that is within `e` of the exact one of the angles `p`, away from the gimbal lock by `δ`: they are finite, and are `p`, up to full turns, to within `7 e / δ` and a rounding; for all four conventions. -/
theorem C175_angles_partial {R : ℝ → ℚ} (L : EulerLib fun q => R q) (M : FM3) (p : V3) (e δ : ℝ) (h1 : |p 1| ≤ Real.pi / 2) (δ0 : 0 < δ) (hδ : δ ≤ Real.cos (p 1)) (h4 : 4 * e ≤ δ * δ) :
    (EntriesNear M (Kinematics.yprMatrix p) e → AnglesNear (yprParams L M) p (7 * (e / δ) + 1 / 2 ^ 51)) ∧
      (EntriesNear M (Kinematics.zyxMatrix p) e → AnglesNear (zyxParams L M) p (7 * (e / δ) + 1 / 2 ^ 51)) ∧
      (EntriesNear M (Kinematics.zxyMatrix p) e → AnglesNear (zxyParams L M) p (7 * (e / δ) + 1 / 2 ^ 51)) ∧
      (EntriesNear M (Kinematics.rph2R (p 0) (p 1) (p 2)) e → AnglesNear (R2rph L M) p (7 * (e / δ) + 1 / 2 ^ 51)) := by
  have c1 := Real.cos_le_one (p 1)
  have key : ∀ M C, EntriesNear M C e → 0 ≤ e := fun M C h => (abs_nonneg _).trans (h 0 0).2.2
  have wk : 0 ≤ e → ∀ {x : ℝ}, x ≤ 64 / 10 * (e / δ) + 1 / 2 ^ 51 → x ≤ 7 * (e / δ) + 1 / 2 ^ 51 := fun e0 x h => by
    have : 0 ≤ e / δ := by positivity
    linarith
  have wk' : 0 ≤ e → ∀ {x : ℝ}, x ≤ 32 / 10 * (e / δ) + 1 / 2 ^ 52 → x ≤ 7 * (e / δ) + 1 / 2 ^ 51 := fun e0 x h => by
    have : 0 ≤ e / δ := by positivity
    norm_num at h ⊢
    linarith
  refine ⟨fun h => ?_, fun h => ?_, fun h => ?_, fun h => ?_⟩
  · have e0 := key _ _ h
    obtain ⟨a, a1, a2, a3, k, a4⟩ := atan2_near L (f := M 1 0) (g := M 0 0) (c := Real.cos (p 1)) (θ0 := p 0) (δ := δ) (e := e)
      (by simpa [Kinematics.yprMatrix, Kinematics.rphMatrix, mul_comm] using h.ab 0 0) (by simpa [Kinematics.yprMatrix, Kinematics.rphMatrix, mul_comm] using h.ab 1 0) δ0 hδ c1 h4
    obtain ⟨b, b1, b2, b3, b4⟩ := libm_asin_near L (f := (M 2 0).neg) h1 (by simpa [Kinematics.yprMatrix, Kinematics.rphMatrix] using Ab.neg (h.ab 2 0)) hδ δ0 h4
    obtain ⟨c, d1, d2, d3, l, d4⟩ := atan2_near L (f := M 2 1) (g := M 2 2) (c := Real.cos (p 1)) (θ0 := p 2) (δ := δ) (e := e)
      (by simpa [Kinematics.yprMatrix, Kinematics.rphMatrix] using h.ab 2 2) (by simpa [Kinematics.yprMatrix, Kinematics.rphMatrix] using h.ab 2 1) δ0 hδ c1 h4
    exact near_of ⟨a1, a2, a3, k, wk e0 a4⟩ ⟨b1, b2, b3, wk' e0 b4⟩ ⟨d1, d2, d3, l, wk e0 d4⟩
  · have e0 := key _ _ h
    obtain ⟨a, a1, a2, a3, k, a4⟩ := atan2_near L (f := M 1 0) (g := M 0 0) (c := Real.cos (p 1)) (θ0 := -p 0) (δ := δ) (e := e)
      (by simpa [Kinematics.zyxMatrix, Kinematics.rphMatrix, mul_comm] using h.ab 0 0) (by simpa [Kinematics.zyxMatrix, Kinematics.rphMatrix, mul_comm] using h.ab 1 0) δ0 hδ c1 h4
    obtain ⟨b, b1, b2, b3, b4⟩ := libm_asin_near L (f := M 2 0) h1 (by simpa [Kinematics.zyxMatrix, Kinematics.rphMatrix] using h.ab 2 0) hδ δ0 h4
    obtain ⟨c, d1, d2, d3, l, d4⟩ := atan2_near L (f := M 2 1) (g := M 2 2) (c := Real.cos (p 1)) (θ0 := -p 2) (δ := δ) (e := e)
      (by simpa [Kinematics.zyxMatrix, Kinematics.rphMatrix] using h.ab 2 2) (by simpa [Kinematics.zyxMatrix, Kinematics.rphMatrix] using h.ab 2 1) δ0 hδ c1 h4
    exact near_of (neg_angle ⟨a1, a2, a3, k, wk e0 a4⟩ (by ring)) ⟨b1, b2, b3, wk' e0 b4⟩ (neg_angle ⟨d1, d2, d3, l, wk e0 d4⟩ (by ring))
  · have e0 := key _ _ h
    obtain ⟨a, a1, a2, a3, k, a4⟩ := atan2_near L (f := (M 0 1).neg) (g := M 1 1) (c := Real.cos (p 1)) (θ0 := p 0) (δ := δ) (e := e)
      (by simpa [Kinematics.zxyMatrix, mul_comm] using h.ab 1 1) (by simpa [Kinematics.zxyMatrix, mul_comm] using Ab.neg (h.ab 0 1)) δ0 hδ c1 h4
    obtain ⟨b, b1, b2, b3, b4⟩ := libm_asin_near L (f := M 2 1) h1 (by simpa [Kinematics.zxyMatrix] using h.ab 2 1) hδ δ0 h4
    obtain ⟨c, d1, d2, d3, l, d4⟩ := atan2_near L (f := (M 2 0).neg) (g := M 2 2) (c := Real.cos (p 1)) (θ0 := p 2) (δ := δ) (e := e)
      (by simpa [Kinematics.zxyMatrix] using h.ab 2 2) (by simpa [Kinematics.zxyMatrix] using Ab.neg (h.ab 2 0)) δ0 hδ c1 h4
    exact near_of ⟨a1, a2, a3, k, wk e0 a4⟩ ⟨b1, b2, b3, wk' e0 b4⟩ ⟨d1, d2, d3, l, wk e0 d4⟩
  · have e0 := key _ _ h
    obtain ⟨a, a1, a2, a3, k, a4⟩ := atan2_near L (f := M 2 1) (g := M 2 2) (c := Real.cos (p 1)) (θ0 := p 0) (δ := δ) (e := e)
      (by simpa [Kinematics.rph2R, Kinematics.rphMatrix, mul_comm] using h.ab 2 2) (by simpa [Kinematics.rph2R, Kinematics.rphMatrix, mul_comm] using h.ab 2 1) δ0 hδ c1 h4
    obtain ⟨b, b1, b2, b3, b4⟩ := libm_asin_near L (φ := -p 1) (f := M 2 0) (by rwa [abs_neg]) (by simpa [Kinematics.rph2R, Kinematics.rphMatrix] using h.ab 2 0) (by rwa [Real.cos_neg]) δ0 h4
    obtain ⟨c, d1, d2, d3, l, d4⟩ := atan2_near L (f := M 1 0) (g := M 0 0) (c := Real.cos (p 1)) (θ0 := p 2) (δ := δ) (e := e)
      (by simpa [Kinematics.rph2R, Kinematics.rphMatrix, mul_comm] using h.ab 0 0) (by simpa [Kinematics.rph2R, Kinematics.rphMatrix, mul_comm] using h.ab 1 0) δ0 hδ c1 h4
    refine near_of ⟨a1, a2, a3, k, wk e0 a4⟩ (b := -b) ⟨by rw [b1]; rfl, b2.neg, by push_cast; rwa [abs_neg], ?_⟩ ⟨d1, d2, d3, l, wk e0 d4⟩
    refine le_trans (le_of_eq ?_) (wk' e0 b4)
    rw [← abs_neg]
    congr 1
    push_cast; ring

/-- **C175** Angles come back from the matrix that is computed of them, up to full turns, to within `2^-45 / δ`, where `δ` is the cosine of the middle angle (or less): for all four conventions. -/
theorem C175_round_trip {R : ℝ → ℚ} (hR : IsRndR R) (L : EulerLib fun q => R q) (p : F3) (hp : Finite p) (δ : ℝ) (h1 : |vals p 1| ≤ Real.pi / 2) (δ0 : 1 / 2 ^ 23 ≤ δ) (hδ : δ ≤ Real.cos (vals p 1)) :
    AnglesNear (yprParams L (yprMatrix L p)) (vals p) (1 / 2 ^ 45 / δ) ∧ AnglesNear (zyxParams L (zyxMatrix L p)) (vals p) (1 / 2 ^ 45 / δ) ∧
      AnglesNear (zxyParams L (zxyMatrix L p)) (vals p) (1 / 2 ^ 45 / δ) ∧ AnglesNear (R2rph L (rph2R L p)) (vals p) (1 / 2 ^ 45 / δ) := by
  have δp : 0 < δ := lt_of_lt_of_le (by norm_num) δ0
  have c1 := Real.cos_le_one (vals p 1)
  have h4 : 4 * ((7 : ℝ) / 2 ^ 51) ≤ δ * δ := by
    refine le_trans ?_ (mul_le_mul δ0 δ0 (by norm_num) δp.le)
    norm_num
  have hb : 7 * ((7 : ℝ) / 2 ^ 51 / δ) + 1 / 2 ^ 51 ≤ 1 / 2 ^ 45 / δ := by
    have e1 : 7 * ((7 : ℝ) / 2 ^ 51 / δ) + 1 / 2 ^ 51 = (49 / 2 ^ 51 + 1 / 2 ^ 51 * δ) / δ := by field_simp; ring
    rw [e1]
    refine div_le_div_of_nonneg_right ?_ δp.le
    have : 1 / 2 ^ 51 * δ ≤ 1 / 2 ^ 51 * 1 := mul_le_mul_of_nonneg_left (hδ.trans c1) (by norm_num)
    refine le_trans (add_le_add le_rfl this) (by norm_num)
  have mono : ∀ {q : F3}, AnglesNear q (vals p) (7 * ((7 : ℝ) / 2 ^ 51 / δ) + 1 / 2 ^ 51) → AnglesNear q (vals p) (1 / 2 ^ 45 / δ) := by
    rintro q ⟨a, ⟨k, b⟩, c, l, d⟩
    exact ⟨a, ⟨k, b.trans hb⟩, c.trans hb, l, d.trans hb⟩
  obtain ⟨m1, m2, m3, m4⟩ := C175_matrix hR L p hp
  have A := fun M => C175_angles_partial L M (vals p) (7 / 2 ^ 51) δ h1 δp hδ h4
  exact ⟨mono ((A _).1 m1), mono ((A _).2.1 m2), mono ((A _).2.2.1 m3), mono ((A _).2.2.2 m4)⟩

/-- **C175** The Euler angles of a transformation that was built in `n` steps are those of the exact rotation, away from the gimbal lock. -/
theorem C175_pose_partial {R : ℝ → ℚ} (hR : IsRndR R) (L : EulerLib fun q => R q) (E : Eigen fun q => R q) (b : Build) (h : b.RotationsOk) (hn : b.steps ≤ 2 ^ 40) (p : V3) (δ : ℝ) (h1 : |p 1| ≤ Real.pi / 2)
    (δ0 : 0 < δ) (hδ : δ ≤ Real.cos (p 1)) (h4 : 4 * (b.steps / 2 ^ 43) ≤ δ * δ) :
    (Kinematics.Transformation.C b.exact = Kinematics.yprMatrix p → AnglesNear (yprParams L (TransformationD.C R (b.run E))) p (7 * (b.steps / 2 ^ 43 / δ) + 1 / 2 ^ 51)) ∧
      (Kinematics.Transformation.C b.exact = Kinematics.zyxMatrix p → AnglesNear (zyxParams L (TransformationD.C R (b.run E))) p (7 * (b.steps / 2 ^ 43 / δ) + 1 / 2 ^ 51)) ∧
      (Kinematics.Transformation.C b.exact = Kinematics.zxyMatrix p → AnglesNear (zxyParams L (TransformationD.C R (b.run E))) p (7 * (b.steps / 2 ^ 43 / δ) + 1 / 2 ^ 51)) ∧
      (Kinematics.Transformation.C b.exact = Kinematics.rph2R (p 0) (p 1) (p 2) → AnglesNear (R2rph L (TransformationD.C R (b.run E))) p (7 * (b.steps / 2 ^ 43 / δ) + 1 / 2 ^ 51)) := by
  have near : EntriesNear (TransformationD.C R (b.run E)) (Kinematics.Transformation.C b.exact) (b.steps / 2 ^ 43) := fun i j =>
    ⟨((C122_matrix hR E b h).1 i j).1, ((C122_matrix hR E b h).1 i j).2, C122_entries hR E b h hn i j⟩
  obtain ⟨a1, a2, a3, a4⟩ := C175_angles_partial L (TransformationD.C R (b.run E)) p (b.steps / 2 ^ 43) δ h1 δ0 hδ h4
  exact ⟨fun e => a1 (e ▸ near), fun e => a2 (e ▸ near), fun e => a3 (e ▸ near), fun e => a4 (e ▸ near)⟩

/-- the first and third angle between -π and π, the second between -π/2 and π/2, up to a rounding -/
def InRange (p : F3) : Prop := Finite p ∧ |vals p 0| ≤ Real.pi + 1 / 2 ^ 51 ∧ |vals p 1| ≤ Real.pi / 2 + 1 / 2 ^ 51 ∧ |vals p 2| ≤ Real.pi + 1 / 2 ^ 51

/-- **C175** For every finite matrix, a rotation or not, whose entry (2,0) (for ZXY: (2,1)) is between -1 and 1 the angles are finite and in their ranges. -/
theorem C175_range_partial {R : ℝ → ℚ} (L : EulerLib fun q => R q) (M : FM3) (hM : ∀ i j, (M i j).isFinite) :
    (|valsM M 2 0| ≤ 1 → InRange (yprParams L M) ∧ InRange (zyxParams L M) ∧ InRange (R2rph L M)) ∧ (|valsM M 2 1| ≤ 1 → InRange (zxyParams L M)) := by
  have fe : ∀ i j, M i j = .fin (fval (M i j)) := by
    intro i j
    have := hM i j
    cases hm : M i j with
    | fin q => rfl
    | inf n => rw [hm] at this; exact absurd this (by simp [Fp.isFinite])
    | nan => rw [hm] at this; exact absurd this (by simp [Fp.isFinite])
  have hpi := Real.pi_lt_d2
  have at2 : ∀ y x : ℚ, ∃ r : ℚ, libm2 L.atan2 (.fin y) (.fin x) = .fin r ∧ IsDouble r ∧ |(r : ℝ)| ≤ Real.pi + 1 / 2 ^ 51 := by
    intro y x
    obtain ⟨θ, t1, -, -, t4⟩ := L.atan2_err y x
    exact ⟨_, rfl, L.atan2_double y x, by have := abs_sub_abs_le_abs_sub (L.atan2 y x : ℝ) θ; linarith⟩
  have as : ∀ m : ℚ, |(m : ℝ)| ≤ 1 → ∃ r : ℚ, libmUnit L.asin (.fin m) = .fin r ∧ IsDouble r ∧ |(r : ℝ)| ≤ Real.pi / 2 + 1 / 2 ^ 51 := by
    intro m hm
    have m1 : |m| ≤ 1 := by exact_mod_cast hm
    refine ⟨L.asin m, by simp [libmUnit, m1], L.asin_double m, ?_⟩
    have h2 := Real.arcsin_le_pi_div_two (m : ℝ)
    have h3 := Real.neg_pi_div_two_le_arcsin (m : ℝ)
    have h4 := abs_le.1 (L.asin_err m m1)
    norm_num at h4 ⊢
    rw [abs_le]; constructor <;> linarith
  have mk : ∀ a b c : ℚ, IsDouble a → IsDouble b → IsDouble c → |(a : ℝ)| ≤ Real.pi + 1 / 2 ^ 51 → |(b : ℝ)| ≤ Real.pi / 2 + 1 / 2 ^ 51 → |(c : ℝ)| ≤ Real.pi + 1 / 2 ^ 51 → InRange ![.fin a, .fin b, .fin c] := by
    intro a b c da db dc ha hb hc
    have s51 : (1 : ℝ) / 2 ^ 51 ≤ 1 / 100 := by norm_num
    have pi0 := Real.pi_pos
    refine ⟨?_, ha, hb, hc⟩
    intro i
    fin_cases i
    · exact fin_ok da (by linarith)
    · exact fin_ok db (by linarith)
    · exact fin_ok dc (by linarith)
  have ng : ∀ a : ℚ, ((-a : ℚ) : ℝ) = -(a : ℝ) := fun a => by push_cast; rfl
  refine ⟨fun h => ?_, fun h => ?_⟩
  · obtain ⟨a, a1, a2, a3⟩ := at2 (fval (M 1 0)) (fval (M 0 0))
    obtain ⟨c, c1, c2, c3⟩ := at2 (fval (M 2 1)) (fval (M 2 2))
    obtain ⟨b, b1, b2, b3⟩ := as (fval (M 2 0)) h
    obtain ⟨d, d1, d2, d3⟩ := as (-fval (M 2 0)) (by rw [ng, abs_neg]; exact h)
    rw [← fe, ← fe] at a1 c1
    rw [← fe] at b1
    have d1' : libmUnit L.asin (M 2 0).neg = .fin d := by rw [fe 2 0]; exact d1
    refine ⟨?_, ?_, ?_⟩
    · unfold yprParams; rw [a1, c1, d1']; exact mk a d c a2 d2 c2 a3 d3 c3
    · unfold zyxParams; rw [a1, c1, b1]
      exact mk (-a) b (-c) a2.neg b2 c2.neg (by rw [ng, abs_neg]; exact a3) b3 (by rw [ng, abs_neg]; exact c3)
    · unfold R2rph; rw [a1, c1, b1]
      exact mk c (-b) a c2 b2.neg a2 c3 (by rw [ng, abs_neg]; exact b3) a3
  · obtain ⟨a, a1, a2, a3⟩ := at2 (-fval (M 0 1)) (fval (M 1 1))
    obtain ⟨c, c1, c2, c3⟩ := at2 (-fval (M 2 0)) (fval (M 2 2))
    obtain ⟨b, b1, b2, b3⟩ := as (fval (M 2 1)) h
    have a1' : libm2 L.atan2 (M 0 1).neg (M 1 1) = .fin a := by rw [fe 0 1, fe 1 1]; exact a1
    have c1' : libm2 L.atan2 (M 2 0).neg (M 2 2) = .fin c := by rw [fe 2 0, fe 2 2]; exact c1
    rw [← fe] at b1
    unfold zxyParams
    rw [a1', c1', b1]
    exact mk a b c a2 b2 c2 a3 b3 c3

/-! ## The claim that fails -/

/-- the claim: every transformation has Euler angles that are numbers -/
def C175_claim {R : ℝ → ℚ} (L : EulerLib fun q => R q) (E : Eigen fun q => R q) : Prop := ∀ b : Build, b.RotationsOk → Finite (yprParams L (TransformationD.C R (b.run E)))

/-- the double next to √½ -/
def rootHalf : ℚ := 6369051672525773 / 9007199254740992

/-- a quarter of a turn about the y axis -/
def quarter : F4 := ![.fin 0, .fin rootHalf, .fin 0, .fin rootHalf]

theorem quarter_ok : (Build.make quarter ![.fin 0, .fin 0, .fin 0]).RotationsOk := by
  have big : (1 : ℚ) < tooBig := one_lt_pow₀ (by norm_num) (by norm_num)
  have d0 : IsDouble (0 : ℚ) := by simpa using isDouble_int 0 (by norm_num)
  have dr : IsDouble rootHalf := ⟨6369051672525773, -53, by norm_num, by norm_num, by unfold rootHalf; norm_num⟩
  have z : (Fp.fin 0).isFinite ∧ IsDoubleVal (.fin 0) := ⟨rfl, d0, by rw [abs_zero]; linarith⟩
  have r : (Fp.fin rootHalf).isFinite ∧ IsDoubleVal (.fin rootHalf) := ⟨rfl, dr, lt_trans (by unfold rootHalf; norm_num) big⟩
  refine ⟨?_, ?_⟩
  · intro i
    fin_cases i
    · exact z
    · exact r
    · exact z
    · exact r
  · have : Kinematics.sqNorm (vals quarter) = 2 * rootHalf * rootHalf := by
      simp only [Kinematics.sqNorm, Fin.sum_univ_succ, vals, fval, quarter]; simp; ring
    rw [Kinematics.norm, this]
    apply inR_near_one
    · rw [Real.le_sqrt' (by norm_num)]; norm_num [rootHalf]
    · rw [Real.sqrt_le_left (by norm_num)]; norm_num [rootHalf]

/-- the double next to the square root of 1 + 2^-52 is 1 -/
theorem round_sqrt {R : ℝ → ℚ} (hR : IsRndR R) : R (Real.sqrt ((1 + 1 / 2 ^ 52 : ℚ) : ℝ)) = 1 := by
  have d1 : IsDouble (1 : ℚ) := by simpa using isDouble_int 1 (by norm_num)
  set x := Real.sqrt ((1 + 1 / 2 ^ 52 : ℚ) : ℝ) with hx
  have x1 : 1 < x := by rw [hx, Real.lt_sqrt (by norm_num)]; norm_num
  have x2 : x < 1 + 1 / 2 ^ 53 := by rw [hx, Real.sqrt_lt' (by norm_num)]; norm_num
  have h := hR.near x 1 d1
  rw [Rat.cast_one, abs_of_neg (by linarith : (1 : ℝ) - x < 0)] at h
  obtain ⟨m, e, hm, he, hq⟩ := hR.mem x
  set y := R x with hy
  have h2 := abs_le.1 h
  have y1 : (1 : ℝ) ≤ y := by linarith
  have y2 : (y : ℝ) < 1 + 1 / 2 ^ 52 := by norm_num at x2 ⊢; linarith
  have y1' : (1 : ℚ) ≤ y := by exact_mod_cast y1
  have y2' : y < 1 + 1 / 2 ^ 52 := by
    have : ((y : ℚ) : ℝ) < ((1 + 1 / 2 ^ 52 : ℚ) : ℝ) := by push_cast; exact y2
    exact_mod_cast this
  have hm' : (|m| : ℚ) < 2 ^ 53 := by exact_mod_cast hm
  have mlt : (m : ℚ) < 2 ^ 53 := (abs_lt.1 hm').2
  have e52 : -52 ≤ e := by
    by_contra hc
    have : e ≤ -53 := by omega
    have h3 : (2 : ℚ) ^ e ≤ 2 ^ (-53 : ℤ) := zpow_le_zpow_right₀ (by norm_num) this
    have h4 : y ≤ m * 2 ^ (-53 : ℤ) := by
      rw [hq]
      have : (0 : ℚ) < 2 ^ e := by positivity
      have : (0 : ℚ) < m := by
        by_contra hneg
        have := not_lt.1 hneg
        nlinarith
      exact mul_le_mul_of_nonneg_left h3 this.le
    have h5 : (m : ℚ) * 2 ^ (-53 : ℤ) < 2 ^ 53 * 2 ^ (-53 : ℤ) := mul_lt_mul_of_pos_right mlt (by positivity)
    have h6 : (2 : ℚ) ^ 53 * 2 ^ (-53 : ℤ) = 1 := by norm_num
    linarith
  -- a multiple of 2^-52
  obtain ⟨n, hn⟩ : ∃ n : ℤ, y * 2 ^ 52 = n := by
    refine ⟨m * 2 ^ (e + 52).toNat, ?_⟩
    rw [hq]
    push_cast
    have hz : (2 : ℚ) ^ (e + 52).toNat = 2 ^ (e + 52) := by rw [← zpow_natCast, Int.toNat_of_nonneg (by omega)]
    rw [hz, zpow_add₀ (by norm_num)]
    norm_num
    ring
  have n1 : (2 ^ 52 : ℤ) ≤ n := by
    have : ((2 ^ 52 : ℤ) : ℚ) ≤ n := by rw [← hn]; push_cast; linarith
    exact_mod_cast this
  have n2 : n < 2 ^ 52 + 1 := by
    have : (n : ℚ) < ((2 ^ 52 + 1 : ℤ) : ℚ) := by rw [← hn]; push_cast; norm_num at y2' ⊢; linarith
    exact_mod_cast this
  have n3 : n = 2 ^ 52 := by omega
  rw [n3] at hn
  push_cast at hn
  linarith

/-- **C175** A transformation that turns by 90° about the y axis has no yaw, pitch and roll: the entry (2,0) of its matrix is 1 + 2^-52, and the pitch not a number. -/
theorem C175_negation (L : EulerLib fun q => rndEvenReal q) : ¬ C175_claim L (Eigen.plain fun q => rndEvenReal q) ∧ ¬ C175_claim L (Eigen.lanes fun q => rndEvenReal q) := by
  have hr : (fun q : ℚ => rndEvenReal q) = rndEven := funext rndEvenReal_rat
  have main : ∀ E : Eigen fun q => rndEvenReal q, squaredNorm E quarter = .fin (1 + 1 / 2 ^ 52) → ¬ C175_claim L E := by
    intro E hE h
    have hh := h _ quarter_ok 1
    have hn : KinematicsDouble.norm E quarter = .fin 1 := by
      unfold KinematicsDouble.norm
      rw [hE]
      show (if _ then _ else _) = _
      rw [if_neg (by norm_num), round_sqrt isRndR_rndEvenReal]
    have hq : ∀ i, KinematicsDouble.normalize E quarter i = quarter i := by
      intro i
      unfold KinematicsDouble.normalize
      simp only [hn]
      have f1 : ∀ x, fdiv rndEven (.fin x) (.fin 1) = rounded rndEven (.fin x) := by
        intro x
        show rounded rndEven (if (1 : ℚ) = 0 then (if x = 0 then Fp.nan else Fp.inf (decide (x < 0))) else .fin (x / 1)) = _
        rw [if_neg (by norm_num), div_one]
      have r1 : rounded rndEven (.fin rootHalf) = .fin rootHalf := by decide +kernel
      have r0 : rounded rndEven (.fin 0) = .fin 0 := by decide +kernel
      have r11 : rounded rndEven (.fin 1) = .fin 1 := by decide +kernel
      have m1 : ∀ x, fmul rndEven (.fin x) (.fin 1) = rounded rndEven (.fin x) := by
        intro x
        show rounded _ (.fin (x * 1)) = _
        rw [mul_one]
      split
      · rw [hr]
        fin_cases i
        · show fmul rndEven (.fin 0) (fdiv rndEven (.fin 1) (.fin 1)) = .fin 0
          rw [f1, r11, m1, r0]
        · show fmul rndEven (.fin rootHalf) (fdiv rndEven (.fin 1) (.fin 1)) = .fin rootHalf
          rw [f1, r11, m1, r1]
        · show fmul rndEven (.fin 0) (fdiv rndEven (.fin 1) (.fin 1)) = .fin 0
          rw [f1, r11, m1, r0]
        · show fmul rndEven (.fin rootHalf) (fdiv rndEven (.fin 1) (.fin 1)) = .fin rootHalf
          rw [f1, r11, m1, r1]
      · rw [hr]
        fin_cases i
        · show fdiv rndEven (.fin 0) (.fin 1) = .fin 0
          rw [f1, r0]
        · show fdiv rndEven (.fin rootHalf) (.fin 1) = .fin rootHalf
          rw [f1, r1]
        · show fdiv rndEven (.fin 0) (.fin 1) = .fin 0
          rw [f1, r0]
        · show fdiv rndEven (.fin rootHalf) (.fin 1) = .fin rootHalf
          rw [f1, r1]
    have hq' : ((Build.make quarter ![.fin 0, .fin 0, .fin 0]).run E).q = quarter := funext hq
    have hC : TransformationD.C rndEvenReal ((Build.make quarter ![.fin 0, .fin 0, .fin 0]).run E) 2 0 = .fin (1 + 1 / 2 ^ 52) := by
      unfold TransformationD.C
      rw [hq', hr]
      decide +kernel
    have : yprParams L (TransformationD.C rndEvenReal ((Build.make quarter ![.fin 0, .fin 0, .fin 0]).run E)) 1 = .nan := by
      show libmUnit L.asin (Fp.neg (TransformationD.C rndEvenReal ((Build.make quarter ![.fin 0, .fin 0, .fin 0]).run E) 2 0)) = _
      rw [hC]
      show (if _ then _ else _) = _
      rw [if_neg (by norm_num)]
    rw [this] at hh
    exact absurd hh.1 (by decide)
  refine ⟨main _ ?_, main _ ?_⟩
  · show (Eigen.plain fun q => rndEvenReal q).sum4 _ _ _ _ = _
    unfold Eigen.plain
    simp only [hr]
    show fadd rndEven (fadd rndEven (fadd rndEven (fmul rndEven (.fin 0) (.fin 0)) (fmul rndEven (.fin rootHalf) (.fin rootHalf))) (fmul rndEven (.fin 0) (.fin 0))) (fmul rndEven (.fin rootHalf) (.fin rootHalf)) = _
    decide +kernel
  · show (Eigen.lanes fun q => rndEvenReal q).sum4 _ _ _ _ = _
    unfold Eigen.lanes
    simp only [hr]
    show fadd rndEven (fadd rndEven (fmul rndEven (.fin 0) (.fin 0)) (fmul rndEven (.fin 0) (.fin 0))) (fadd rndEven (fmul rndEven (.fin rootHalf) (.fin rootHalf)) (fmul rndEven (.fin rootHalf) (.fin rootHalf))) = _
    decide +kernel

/-! ## The hypotheses hold -/

/-- a correctly rounded `atan2` -/
noncomputable def EulerLib.rounded : EulerLib fun q => rndEvenReal q where
  toLogLib := LogLib.rounded
  atan2 y x := rndEvenReal (Kinematics.atan2 y x)
  atan2_double _ _ := isRndR_rndEvenReal.mem _
  atan2_err y x := by
    have hpi := Real.pi_lt_d2
    have h0 := Complex.abs_arg_le_pi ⟨x, y⟩
    have hn : Real.sqrt ((x : ℝ) * x + y * y) = ‖(⟨x, y⟩ : ℂ)‖ := by
      rw [Complex.norm_def, Complex.normSq_mk]
    refine ⟨Kinematics.atan2 y x, h0, ?_, ?_, ?_⟩
    · rw [hn]; exact Complex.norm_mul_cos_arg _
    · rw [hn]; exact Complex.norm_mul_sin_arg _
    · refine (isRndR_rndEvenReal.err_abs (e := -51) (by norm_num) ?_).trans (by norm_num)
      unfold Kinematics.atan2
      norm_num
      linarith

/-- three angles, the middle one is of 60° about -/
def tilt : F3 := ![.fin 3, .fin 1, .fin (-2)]

theorem tilt_finite : Finite tilt := by
  have := finite_small (a := 3) (b := 1) (c := -2) (by norm_num) (by norm_num) (by norm_num)
  simpa [tilt] using this

theorem tilt_mid : vals tilt 1 = 1 := by simp [tilt, vals, fval]

theorem tilt_cos : 1 / 2 ≤ Real.cos (vals tilt 1) := by
  rw [tilt_mid, ← Real.cos_pi_div_three]
  refine Real.cos_le_cos_of_nonneg_of_le_pi (by norm_num) ?_ ?_
  · have := Real.pi_pos; linarith
  · have := Real.pi_gt_three; linarith

example : EntriesNear (yprMatrix EulerLib.rounded tilt) (Kinematics.yprMatrix (vals tilt)) (7 / 2 ^ 51) := (C175_matrix isRndR_rndEvenReal EulerLib.rounded tilt tilt_finite).1

example : AnglesNear (zxyParams EulerLib.rounded (zxyMatrix EulerLib.rounded tilt)) (vals tilt) (1 / 2 ^ 45 / (1 / 2)) :=
  (C175_round_trip isRndR_rndEvenReal EulerLib.rounded tilt tilt_finite (1 / 2) (by rw [tilt_mid, abs_one]; have := Real.pi_gt_three; linarith) (by norm_num) tilt_cos).2.2.1

example : AnglesNear (R2rph EulerLib.rounded (rph2R EulerLib.rounded tilt)) (vals tilt) (7 * (7 / 2 ^ 51 / (1 / 2)) + 1 / 2 ^ 51) :=
  (C175_angles_partial EulerLib.rounded (rph2R EulerLib.rounded tilt) (vals tilt) (7 / 2 ^ 51) (1 / 2) (by rw [tilt_mid, abs_one]; have := Real.pi_gt_three; linarith) (by norm_num) tilt_cos (by norm_num)).2.2.2
    (C175_matrix isRndR_rndEvenReal EulerLib.rounded tilt tilt_finite).2.2.2

/-- the identity, a transformation that was built in one step, has the angles 0 -/
example : AnglesNear (yprParams EulerLib.rounded (TransformationD.C rndEvenReal ((Build.make ![.fin 0, .fin 0, .fin 0, .fin 1] ![.fin 3, .fin 4, .fin 0]).run (Eigen.plain fun q => rndEvenReal q)))) 0
    (7 * ((Build.make ![.fin 0, .fin 0, .fin 0, .fin 1] ![.fin 3, .fin 4, .fin 0]).steps / 2 ^ 43 / 1) + 1 / 2 ^ 51) := by
  have hv : vals (![.fin 0, .fin 0, .fin 0, .fin 1] : F4) = ![0, 0, 0, 1] := by
    funext i; fin_cases i <;> simp [vals, fval]
  have hn : Kinematics.norm (![0, 0, 0, 1] : V4) = 1 := by rw [← hv]; simpa using nrm_last 1
  have ok : (Build.make ![.fin 0, .fin 0, .fin 0, .fin 1] ![.fin 3, .fin 4, .fin 0]).RotationsOk := by
    refine ⟨?_, by rw [hv, hn]; exact inR_near_one (by norm_num) (by norm_num)⟩
    have big : (1 : ℚ) < tooBig := one_lt_pow₀ (by norm_num) (by norm_num)
    have z : (Fp.fin 0).isFinite ∧ IsDoubleVal (.fin 0) := ⟨rfl, by simpa using isDouble_int 0 (by norm_num), by rw [abs_zero]; linarith⟩
    have o : (Fp.fin 1).isFinite ∧ IsDoubleVal (.fin 1) := ⟨rfl, by simpa using isDouble_int 1 (by norm_num), by rw [abs_one]; exact big⟩
    intro i
    fin_cases i
    · exact z
    · exact z
    · exact z
    · exact o
  refine (C175_pose_partial isRndR_rndEvenReal EulerLib.rounded (Eigen.plain fun q => rndEvenReal q) _ ok (by norm_num [Build.steps]) 0 1 (by simp; positivity) one_pos (by simp) (by norm_num [Build.steps])).1 ?_
  have hq : (Build.make ![.fin 0, .fin 0, .fin 0, .fin 1] ![.fin 3, .fin 4, .fin 0]).exact.q = ![0, 0, 0, 1] := by
    show (fun i => vals _ i / Kinematics.norm (vals _)) = _
    rw [hv, hn]
    funext i
    rw [div_one]
  have : Kinematics.Transformation.C (Build.make ![.fin 0, .fin 0, .fin 0, .fin 1] ![.fin 3, .fin 4, .fin 0]).exact = Kinematics.quat2r ![0, 0, 0, 1] := by
    unfold Kinematics.Transformation.C; rw [hq]
  rw [this]
  ext i j
  fin_cases i <;> fin_cases j <;> simp [Kinematics.quat2r, Kinematics.yprMatrix, Kinematics.rphMatrix]

example : InRange (yprParams EulerLib.rounded !![.fin 0, .fin 5, .fin 7; .fin 1, .fin 0, .fin 2; .fin 1, .fin (-3), .fin 0]) :=
  ((C175_range_partial EulerLib.rounded !![.fin 0, .fin 5, .fin 7; .fin 1, .fin 0, .fin 2; .fin 1, .fin (-3), .fin 0] (by intro i j; fin_cases i <;> fin_cases j <;> rfl)).1 (by simp [valsM, fval])).1

end Verif.EulerDouble
