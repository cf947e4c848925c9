import Verif.Kinematics.LogDoubleProps

/-!
# Lemmas for C174: spherical interpolation on doubles
-/

namespace Verif.KinematicsDouble

open Verif.Common
open Verif.Kinematics (V3 V4 sqNorm)

local notation "nrm" => Kinematics.norm

/-- the scalar product of two quaternions -/
def dot4 (x y : V4) : ℝ := x 0 * y 0 + x 1 * y 1 + x 2 * y 2 + x 3 * y 3

theorem qplus_inv_scalar (x y : V4) : Kinematics.qplus (Kinematics.quatInv x) y 3 = dot4 x y := by
  simp [Kinematics.qplus, Kinematics.quatInv, dot4]; ring

theorem qplus_assoc (a b c : V4) : Kinematics.qplus (Kinematics.qplus a b) c = Kinematics.qplus a (Kinematics.qplus b c) := by
  funext i; fin_cases i <;> simp [Kinematics.qplus] <;> ring

theorem qplus_inv (x : V4) : Kinematics.qplus x (Kinematics.quatInv x) = ![0, 0, 0, sqNorm x] := by
  rw [Kinematics.sq4]
  funext i; fin_cases i <;> simp [Kinematics.qplus, Kinematics.quatInv] <;> ring

theorem qplus_real (s : ℝ) (y : V4) : Kinematics.qplus ![0, 0, 0, s] y = s • y := by
  funext i; fin_cases i <;> simp [Kinematics.qplus] <;> ring

theorem qplus_smul (a : V4) (s : ℝ) (y : V4) : Kinematics.qplus a (s • y) = s • Kinematics.qplus a y := by
  funext i; fin_cases i <;> simp [Kinematics.qplus] <;> ring

section
variable {R : ℝ → ℚ} (hR : IsRndR R)
include hR

/-- a sum of a few non-negative numbers, in any order -/
theorem sumOf_abs {l : List Fp} {s : Fp} (h : SumOf (fun q => R q) l s) (hf : ∀ f ∈ l, f = .fin (fval f) ∧ IsDouble (fval f) ∧ 0 ≤ fval f)
    (hs : (l.map fun f => (fval f : ℝ)).sum + l.length * u51 ≤ 8) : Ab ((l.length - 1) * u51) s (l.map fun f => (fval f : ℝ)).sum := by
  have u0 := u51_pos
  induction h with
  | one x =>
    obtain ⟨h1, h2, h3⟩ := hf x (by simp)
    simp only [List.length_singleton, List.map_cons, List.map_nil, List.sum_cons, List.sum_nil, add_zero]
    exact (Ab.self h1 h2).mono (by simp)
  | @add l m n x y hl' hm' hn ihl ihm =>
    have hlen : (n.length : ℝ) = l.length + m.length := by rw [hn.length_eq, List.length_append]; push_cast; rfl
    have pos : ∀ {l : List Fp} {s : Fp}, SumOf (fun q => R q) l s → 1 ≤ l.length := by
      intro l s h
      induction h with
      | one x => simp
      | add _ _ hn h1 h2 => rw [hn.length_eq, List.length_append]; omega
    have e1 : (n.map fun f => (fval f : ℝ)).sum = (l.map fun f => (fval f : ℝ)).sum + (m.map fun f => (fval f : ℝ)).sum := by
      rw [(hn.map _).sum_eq, List.map_append, List.sum_append]
    have nn : ∀ k : List Fp, (∀ f ∈ k, f ∈ n) → 0 ≤ (k.map fun f => (fval f : ℝ)).sum := by
      intro k hk
      apply List.sum_nonneg
      intro a ha
      obtain ⟨f, hf1, rfl⟩ := List.mem_map.1 ha
      exact_mod_cast (hf f (hk f hf1)).2.2
    have il : ∀ f ∈ l, f ∈ n := fun f hf' => hn.mem_iff.2 (List.mem_append_left _ hf')
    have im : ∀ f ∈ m, f ∈ n := fun f hf' => hn.mem_iff.2 (List.mem_append_right _ hf')
    have nl := nn l il
    have nm := nn m im
    rw [e1, hlen] at hs
    have cl : (0 : ℝ) ≤ l.length := by positivity
    have cm : (0 : ℝ) ≤ m.length := by positivity
    have a1 := ihl (fun f h => hf f (il f h)) (by nlinarith)
    have a2 := ihm (fun f h => hf f (im f h)) (by nlinarith)
    rw [e1, hlen]
    have pl : (1 : ℝ) ≤ l.length := by exact_mod_cast pos hl'
    have pm : (1 : ℝ) ≤ m.length := by exact_mod_cast pos hm'
    exact (Ab.add hR a1 a2 (by rw [abs_of_nonneg (by linarith)]; nlinarith)).mono (by linarith)

/-- the squared length of a vector that is known up to rounding -/
theorem squaredNorm_ab (E : Eigen fun q => R q) {d : F4} {z : V4} (h : ∀ i, Ab u51 (d i) (z i)) (hz : nrm z ≤ 201 / 100) : Ab (26 * u51) (squaredNorm E d) (sqNorm z) := by
  have u0 := u51_pos
  have us : u51 ≤ 1 / 1000000 := by unfold u51; norm_num
  have zi : ∀ i, |z i| ≤ 201 / 100 := fun i => (abs_le_nrm z i).trans hz
  have P : ∀ i, ∃ p : ℚ, fmul (fun q => R q) (d i) (d i) = .fin p ∧ IsDouble p ∧ 0 ≤ p ∧ |(p : ℝ) - z i * z i| ≤ 55 / 10 * u51 := by
    intro i
    have A := Ab.mul hR (h i) (h i) (X := 21 / 10) (Y := 21 / 10) (by have := zi i; linarith) (by have := zi i; linarith) (by linarith)
    obtain ⟨p, hp, hd, he⟩ := A
    refine ⟨p, hp, hd, ?_, he.trans (by linarith)⟩
    obtain ⟨r, hr, -, -⟩ := h i
    rw [hr] at hp
    have hp' : rounded (fun q => R q) (.fin (r * r)) = .fin p := hp
    simp only [rounded] at hp'
    split at hp'
    · cases hp'; exact hR.rat.nonneg (mul_self_nonneg r)
    · cases hp'
  choose p hp hpd hp0 hpe using P
  have S := E.sum4_sum (.fin (p 0)) (.fin (p 1)) (.fin (p 2)) (.fin (p 3))
  have zz : sqNorm z ≤ 41 / 10 := by
    rw [← nrm_sq]
    have := mul_self_le_mul_self (nrm_nonneg z) hz
    norm_num at this
    linarith
  have e4 := Kinematics.sq4 z
  have d0 := abs_le.1 (hpe 0)
  have d1 := abs_le.1 (hpe 1)
  have d2 := abs_le.1 (hpe 2)
  have d3 := abs_le.1 (hpe 3)
  have A := sumOf_abs hR S (by
    intro f hf
    simp only [List.mem_cons, List.not_mem_nil, or_false] at hf
    rcases hf with rfl | rfl | rfl | rfl
    · exact ⟨rfl, hpd 0, hp0 0⟩
    · exact ⟨rfl, hpd 1, hp0 1⟩
    · exact ⟨rfl, hpd 2, hp0 2⟩
    · exact ⟨rfl, hpd 3, hp0 3⟩) (by
    simp only [List.length_cons, List.length_nil, List.map_cons, List.map_nil, List.sum_cons, List.sum_nil, fval]
    push_cast
    linarith)
  obtain ⟨s, hs, hd, he⟩ := A
  refine ⟨s, ?_, hd, ?_⟩
  · unfold squaredNorm
    simp only [hp]
    exact hs
  · simp only [List.length_cons, List.length_nil, List.map_cons, List.map_nil, List.sum_cons, List.sum_nil, fval, add_zero] at he
    push_cast at he
    have he' := abs_le.1 he
    rw [abs_le]
    constructor <;> linarith

/-- a sum or difference of two quaternions -/
theorem addsub_ab {q p : F4} (hq : Finite q) (hp : Finite p) (nq : nrm (vals q) ≤ 1001 / 1000) (np : nrm (vals p) ≤ 1001 / 1000) (i : Fin 4) :
    Ab u51 (fadd (fun q => R q) (q i) (p i)) ((vals q + vals p) i) ∧ Ab u51 (fsub (fun q => R q) (q i) (p i)) ((vals q - vals p) i) := by
  obtain ⟨e1, h1⟩ := hq.fin i
  obtain ⟨e2, h2⟩ := hp.fin i
  have qi := (abs_le_nrm (vals q) i).trans nq
  have pi := (abs_le_nrm (vals p) i).trans np
  have A1 : Ab 0 (q i) (vals q i) := Ab.self e1 h1
  have A2 : Ab 0 (p i) (vals p i) := Ab.self e2 h2
  constructor
  · exact (Ab.add hR A1 A2 (by have := abs_add_le (vals q i) (vals p i); linarith)).mono (by linarith)
  · exact (Ab.sub hR A1 A2 (by have := abs_sub (vals q i) (vals p i); linarith)).mono (by linarith)

omit hR in
theorem sq_polar (x y : V4) : sqNorm (x + y) = sqNorm (x - y) + 4 * dot4 x y := by
  rw [Kinematics.sq4, Kinematics.sq4]; simp only [Pi.add_apply, Pi.sub_apply, dot4]; ring

/-- the choice of the nearer one of the two quaternions of a rotation -/
theorem flip_dot (E : Eigen fun q => R q) {q p : F4} (hq : Finite q) (hp : Finite p) (nq : nrm (vals q) ≤ 1001 / 1000) (np : nrm (vals p) ≤ 1001 / 1000) :
    if Fp.lt (squaredNorm E fun i => fadd (fun q => R q) (q i) (p i)) (squaredNorm E fun i => fsub (fun q => R q) (q i) (p i)) then dot4 (vals q) (vals p) ≤ 13 * u51 else -(13 * u51) ≤ dot4 (vals q) (vals p) := by
  have b1 : nrm (vals q + vals p) ≤ 201 / 100 := by have := nrm_add (vals q) (vals p); linarith
  have b2 : nrm (vals q - vals p) ≤ 201 / 100 := by
    have := nrm_sub_le (vals q) 0 (vals p)
    rw [sub_zero, zero_sub, nrm_neg] at this
    linarith
  obtain ⟨s, hs, -, se⟩ := squaredNorm_ab hR E (fun i => (addsub_ab hR hq hp nq np i).1) b1
  obtain ⟨t, ht, -, te⟩ := squaredNorm_ab hR E (fun i => (addsub_ab hR hq hp nq np i).2) b2
  rw [hs, ht]
  have := sq_polar (vals q) (vals p)
  have se' := abs_le.1 se
  have te' := abs_le.1 te
  show if decide (s < t) = true then _ else _
  split
  · rename_i h
    have h1 : (s : ℝ) < t := by exact_mod_cast of_decide_eq_true h
    linarith
  · rename_i h
    have h0 : ¬ s < t := fun hh => h (decide_eq_true hh)
    have h1 : (t : ℝ) ≤ s := by exact_mod_cast not_lt.1 h0
    linarith

/-- the relative rotation -/
theorem rel_near {q p : F4} (hq : Finite q) (hp : Finite p) (nq : |nrm (vals q) - 1| ≤ 12 / 2 ^ 53) (np : |nrm (vals p) - 1| ≤ 12 / 2 ^ 53) :
    Finite (qplus (fun q => R q) (quatInv q) p) ∧ |nrm (vals (qplus (fun q => R q) (quatInv q) p)) - 1| ≤ 36 / 2 ^ 53 ∧
      nrm (vals (qplus (fun q => R q) (quatInv q) p) - Kinematics.qplus (Kinematics.quatInv (vals q)) (vals p)) ≤ 10 / 2 ^ 53 := by
  have b1 := abs_le.1 nq
  have b2 := abs_le.1 np
  have e : nrm (vals (quatInv q)) = nrm (vals q) := by rw [vals_quatInv, nrm_quatInv]
  obtain ⟨h1, h2⟩ := qplus_err hR.rat (finite_quatInv hq) hp (by rw [e]; exact inR_near_one (by norm_num at b1 ⊢; linarith) (by norm_num at b1 ⊢; linarith)) (inR_near_one (by norm_num at b2 ⊢; linarith) (by norm_num at b2 ⊢; linarith))
  rw [e] at h2
  have h3 : nrm (vals q) * nrm (vals p) ≤ (1 + 12 / 2 ^ 53) * (1 + 12 / 2 ^ 53) := mul_le_mul (by linarith) (by linarith) (nrm_nonneg _) (by norm_num)
  have h4 : 9 / 2 ^ 53 * (nrm (vals q) * nrm (vals p)) ≤ 10 / 2 ^ 53 := by
    calc _ ≤ 9 / 2 ^ 53 * ((1 + 12 / 2 ^ 53) * (1 + 12 / 2 ^ 53)) := mul_le_mul_of_nonneg_left h3 (by norm_num)
      _ ≤ _ := by norm_num
  have h5 : |nrm (Kinematics.qplus (vals (quatInv q)) (vals p)) - 1| ≤ 25 / 2 ^ 53 := by
    rw [nrm_qplus, e, show nrm (vals q) * nrm (vals p) - 1 = (nrm (vals q) - 1) + (nrm (vals p) - 1) + (nrm (vals q) - 1) * (nrm (vals p) - 1) by ring]
    have t := (abs_add_le ((nrm (vals q) - 1) + (nrm (vals p) - 1)) ((nrm (vals q) - 1) * (nrm (vals p) - 1))).trans (add_le_add_left (abs_add_le _ _) _)
    have t2 : |(nrm (vals q) - 1) * (nrm (vals p) - 1)| ≤ 12 / 2 ^ 53 * (12 / 2 ^ 53) := by rw [abs_mul]; exact mul_le_mul nq np (abs_nonneg _) (by norm_num)
    have n1 : (12 : ℝ) / 2 ^ 53 + 12 / 2 ^ 53 + 12 / 2 ^ 53 * (12 / 2 ^ 53) ≤ 25 / 2 ^ 53 := by norm_num
    linarith
  refine ⟨h1, ?_, by rw [← vals_quatInv]; exact h2.trans h4⟩
  have t := nrm_diff (vals (qplus (fun q => R q) (quatInv q) p)) (Kinematics.qplus (vals (quatInv q)) (vals p))
  have t2 := abs_sub_le (nrm (vals (qplus (fun q => R q) (quatInv q) p))) (nrm (Kinematics.qplus (vals (quatInv q)) (vals p))) 1
  have n1 : (10 : ℝ) / 2 ^ 53 + 25 / 2 ^ 53 ≤ 36 / 2 ^ 53 := by norm_num
  linarith

variable (L : LogLib fun q => R q)

/-- the rotation vector from one rotation to the other -/
theorem rel_log {q p : F4} (hq : Finite q) (hp : Finite p) (nq : |nrm (vals q) - 1| ≤ 12 / 2 ^ 53) (np : |nrm (vals p) - 1| ≤ 12 / 2 ^ 53)
    (hd : -(13 * u51) ≤ dot4 (vals q) (vals p)) :
    let w := quat2AxisAngle L (qplus (fun q => R q) (quatInv q) p)
    Finite w ∧ nrm (vals w) ≤ Real.pi + 1 / 2 ^ 43 ∧ nrm (Kinematics.qplus (vals q) (expQuat (vals w)) - vals p) ≤ 11 / 10 / 2 ^ 41 := by
  intro w
  have u0 := u51_pos
  have us : u51 ≤ 1 / 1000000 := by unfold u51; norm_num
  obtain ⟨f, n, d⟩ := rel_near hR hq hp nq np
  set r := qplus (fun q => R q) (quatInv q) p with hr
  have d3 := (abs_le_nrm _ 3).trans d
  rw [Pi.sub_apply, qplus_inv_scalar] at d3
  have d3' := (abs_le.1 d3).1
  have e10 : (10 : ℝ) / 2 ^ 53 ≤ 3 * u51 := by unfold u51; norm_num
  have r3 : -(16 * u51) ≤ vals r 3 := by linarith
  have hh : 0 < vals r 3 ∨ 1 / 2 ^ 20 ≤ nrm (head (vals r)) := by
    rcases lt_or_ge 0 (vals r 3) with h | h
    · exact .inl h
    · right
      by_contra hc
      push Not at hc
      have S := sq_head (vals r)
      rw [← nrm_sq] at S
      have g3' := (abs_le.1 n).1
      have n1 : 9 / 10 ≤ nrm (vals r) := by norm_num at g3' ⊢; linarith
      have n2 : 81 / 100 ≤ nrm (vals r) * nrm (vals r) := by nlinarith
      have n3 := nrm_nonneg (head (vals r))
      have n4 : nrm (head (vals r)) * nrm (head (vals r)) ≤ 1 / 4 := by norm_num at hc; nlinarith
      have n5 : vals r 3 * vals r 3 ≤ 1 / 4 := by nlinarith
      linarith
  obtain ⟨h1, -⟩ := log_near hR L f (n.trans (by norm_num)) hh
  have m : max 0 (-vals r 3) ≤ 16 * u51 := max_le (by linarith) (by linarith)
  refine ⟨h1.finite, ?_, ?_⟩
  · have := h1.short (by linarith)
    have e : 136 * u51 ≤ 1 / 2 ^ 43 := by unfold u51; norm_num
    linarith
  · have nq' := abs_le.1 nq
    have q0 := nrm_nonneg (vals q)
    -- q (q⁻¹ p) is p, times the square of the norm
    have id : Kinematics.qplus (vals q) (Kinematics.qplus (Kinematics.quatInv (vals q)) (vals p)) = sqNorm (vals q) • vals p := by
      rw [← qplus_assoc, qplus_inv, qplus_real]
    have t1 := nrm_sub_le (expQuat (vals w)) (vals r) (Kinematics.qplus (Kinematics.quatInv (vals q)) (vals p))
    have t2 := h1.near
    have t3 : nrm (expQuat (vals w) - Kinematics.qplus (Kinematics.quatInv (vals q)) (vals p)) ≤ 1 / 2 ^ 41 + 10 / 2 ^ 53 := by linarith
    have t4 := nrm_sub_le (Kinematics.qplus (vals q) (expQuat (vals w))) (sqNorm (vals q) • vals p) (vals p)
    rw [← id, ← qplus_sub_right, nrm_qplus, id] at t4
    have t5 : nrm (vals q) * nrm (expQuat (vals w) - Kinematics.qplus (Kinematics.quatInv (vals q)) (vals p)) ≤ (1 + 12 / 2 ^ 53) * (1 / 2 ^ 41 + 10 / 2 ^ 53) :=
      mul_le_mul (by linarith) t3 (nrm_nonneg _) (by norm_num)
    have t6 : nrm (sqNorm (vals q) • vals p - vals p) ≤ 30 / 2 ^ 53 := by
      have e : sqNorm (vals q) • vals p - vals p = (sqNorm (vals q) - 1) • vals p := by rw [sub_smul, one_smul]
      rw [e, nrm_smul, ← nrm_sq]
      have np' := abs_le.1 np
      have f1 : |nrm (vals q) * nrm (vals q) - 1| ≤ 25 / 2 ^ 53 := by
        rw [abs_le]
        norm_num at nq' ⊢
        constructor <;> nlinarith
      calc |nrm (vals q) * nrm (vals q) - 1| * nrm (vals p) ≤ 25 / 2 ^ 53 * (1 + 12 / 2 ^ 53) := mul_le_mul f1 (by linarith) (nrm_nonneg _) (by norm_num)
        _ ≤ _ := by norm_num
    norm_num at t4 t5 t6 ⊢
    linarith

/-- one point of the way -/
theorem slerp_point {q : F4} {w : F3} {t : ℚ} (hq : Finite q) (nq : |nrm (vals q) - 1| ≤ 12 / 2 ^ 53) (hw : Finite w) (nw : nrm (vals w) ≤ Real.pi + 1 / 2 ^ 43) (t0 : 0 < t) (t1 : t < 1) :
    let r := qplus (fun q => R q) q (axisAngle2quat L.toLib fun i => fmul (fun q => R q) (.fin t) (w i))
    Finite r ∧ |nrm (vals r) - 1| ≤ 31 * u51 ∧ nrm (vals r - Kinematics.qplus (vals q) (expQuat ((t : ℝ) • vals w))) ≤ 11 / 10 / 2 ^ 43 := by
  intro r
  have u0 := u51_pos
  have us : u51 ≤ 1 / 1000000 := by unfold u51; norm_num
  have hpi := Real.pi_lt_d2
  have t0' : (0 : ℝ) < t := by exact_mod_cast t0
  have t1' : (t : ℝ) < 1 := by exact_mod_cast t1
  have e43 : (1 : ℝ) / 2 ^ 43 ≤ 1 / 1000 := by norm_num
  have C : ∀ i, Ab u51 (fmul (fun q => R q) (.fin t) (w i)) (((t : ℝ) • vals w) i) := by
    intro i
    obtain ⟨e1, h1⟩ := hw.fin i
    have wi := (abs_le_nrm (vals w) i).trans nw
    have hv : ((t * fval (w i) : ℚ) : ℝ) = t * vals w i := by push_cast; rfl
    have hb : |((t * fval (w i) : ℚ) : ℝ)| ≤ 8 := by
      rw [hv, abs_mul, abs_of_pos t0']
      have := mul_le_mul t1'.le wi (abs_nonneg _) (by norm_num)
      linarith
    rw [e1]
    exact (Ab.op hR hb (x := t * vals w i) (e := 0) (by rw [hv, sub_self, abs_zero])).mono (by linarith)
  have ntw : nrm ((t : ℝ) • vals w) ≤ Real.pi + 1 / 2 ^ 43 := by
    rw [nrm_smul, abs_of_pos t0']
    have := mul_le_mul t1'.le nw (nrm_nonneg _) (by norm_num)
    linarith
  obtain ⟨f, g⟩ := near_of_ab3 C (by linarith) (by linarith)
  set v : F3 := fun i => fmul (fun q => R q) (.fin t) (w i) with hv
  have nv : nrm (vals v) ≤ 8 := by
    have := (abs_le.1 (nrm_diff (vals v) ((t : ℝ) • vals w))).2
    linarith
  obtain ⟨a1, a2, a3, -⟩ := aa_near hR L.toLib f nv
  have l := expQuat_lip (vals v) ((t : ℝ) • vals w)
  set d := axisAngle2quat L.toLib v with hd
  have dn := nrm_sub_le (vals d) (expQuat (vals v)) (expQuat ((t : ℝ) • vals w))
  have b1 := abs_le.1 nq
  have b2 := abs_le.1 a2
  obtain ⟨h1, h2⟩ := qplus_err hR.rat hq a1 (inR_near_one (by norm_num at b1 ⊢; linarith) (by norm_num at b1 ⊢; linarith)) (inR_near_one (by linarith) (by linarith))
  have e12 : (12 : ℝ) / 2 ^ 53 = 3 * u51 := by unfold u51; norm_num
  have e9 : (9 : ℝ) / 2 ^ 53 = 9 / 4 * u51 := by unfold u51; norm_num
  rw [e12] at b1 nq
  rw [e9] at h2
  have p1 : nrm (vals q) * nrm (vals d) ≤ (1 + 3 * u51) * (1 + 24 * u51) := mul_le_mul (by linarith) (by linarith) (nrm_nonneg _) (by linarith)
  have h3 : 9 / 4 * u51 * (nrm (vals q) * nrm (vals d)) ≤ 3 * u51 := by
    have p2 : (1 + 3 * u51) * (1 + 24 * u51) ≤ 4 / 3 := by nlinarith
    have := mul_le_mul_of_nonneg_left (p1.trans p2) (by linarith : 0 ≤ 9 / 4 * u51)
    linarith
  refine ⟨h1, ?_, ?_⟩
  · have t := nrm_diff (vals r) (Kinematics.qplus (vals q) (vals d))
    rw [nrm_qplus] at t
    have t2 := abs_sub_le (nrm (vals r)) (nrm (vals q) * nrm (vals d)) 1
    have t3 : |nrm (vals q) * nrm (vals d) - 1| ≤ 28 * u51 := by
      have e : nrm (vals q) * nrm (vals d) - 1 = (nrm (vals q) - 1) * nrm (vals d) + (nrm (vals d) - 1) := by ring
      rw [e]
      have f1 := abs_add_le ((nrm (vals q) - 1) * nrm (vals d)) (nrm (vals d) - 1)
      rw [abs_mul, abs_of_nonneg (nrm_nonneg (vals d))] at f1
      have f2 := mul_le_mul nq (show nrm (vals d) ≤ 11 / 10 by linarith) (nrm_nonneg _) (by linarith)
      linarith
    have h2' : nrm (vals r - Kinematics.qplus (vals q) (vals d)) ≤ 3 * u51 := h2.trans h3
    linarith
  · have T := nrm_sub_le (vals r) (Kinematics.qplus (vals q) (vals d)) (Kinematics.qplus (vals q) (expQuat ((t : ℝ) • vals w)))
    rw [← qplus_sub_right, nrm_qplus] at T
    have h2' : nrm (vals r - Kinematics.qplus (vals q) (vals d)) ≤ 3 * u51 := h2.trans h3
    have e1 : nrm (vals d - expQuat ((t : ℝ) • vals w)) ≤ 1 / 2 ^ 43 + 4 * u51 := by linarith
    have e2 : nrm (vals q) * nrm (vals d - expQuat ((t : ℝ) • vals w)) ≤ (1 + 3 * u51) * (1 / 2 ^ 43 + 4 * u51) := mul_le_mul (by linarith) e1 (nrm_nonneg _) (by linarith)
    have e3 : (1 + 3 * u51) * (1 / 2 ^ 43 + 4 * u51) + 3 * u51 ≤ 11 / 10 / 2 ^ 43 := by unfold u51; norm_num
    linarith

end

end Verif.KinematicsDouble
