import Verif.Kinematics.CovDoubleLemmas
import Verif.Common.DoubleEven

/-!
# C172: covariances of products in doubles
-/

namespace Verif.CovDouble

open Verif.KinematicsDouble

open Verif.Common Matrix
open Verif.Kinematics (V3 V4 V6 M3 M4 M6 IsCov UTransf UPoint UVec)

local notation "nrm" => Kinematics.norm

/-- a pose with a unit quaternion (as every operation leaves it, see C120) and a translation of at most `τ` along each axis -/
def Pose (q : F4) (t : F3) (τ : ℝ) : Prop := (Finite q ∧ |nrm (vals q) - 1| ≤ 12 / 2 ^ 53) ∧ Finite t ∧ ∀ i, |vals t i| ≤ τ

/-- finite entries of at most `u` -/
def Bounded {ι κ : Type} (U : Matrix ι κ Fp) (u : ℝ) : Prop := FiniteM U ∧ ∀ i j, |valsG U i j| ≤ u

/-- the numbers in a pose -/
def exactPose (q : F4) (t : F3) : Kinematics.Transformation := ⟨vals q, vals t⟩

/-- the result is finite and within `b` of the exact one -/
def Within {ι : Type} (W : Matrix ι ι Fp) (M : Matrix ι ι ℝ) (b : ℝ) : Prop := FiniteM W ∧ ∀ i j, |valsG W i j - M i j| ≤ b

theorem AccM.within {ι : Type} {W : Matrix ι ι Fp} {M : Matrix ι ι ℝ} {k : ℕ} {S b : ℝ} (h : AccM k W M S) (hk : k ≤ 100) (hS : Scale S) (hb : ((1 + eps) ^ k - 1) * S ≤ b) : Within W M b :=
  ⟨h.finite hk hS, fun i j => (h i j).err.2.2.trans hb⟩

theorem inR_const {x : ℝ} (h1 : 1 ≤ x) (h2 : x ≤ 2 ^ 20) : InR 0 20 x := ⟨by simpa using h1, h2.trans (by norm_num)⟩

section
variable {rnd : ℚ → ℚ} (hr : IsRnd rnd)
include hr

/-- **C172** The covariance of a product of uncertain transformations: each entry is finite and within `τ²u·2^-37` of `U_a + B U_b Bᵀ`, for translations of the left factor up to `τ` and covariances up to `u`, in whatever order the sums are formed. -/
theorem C172_product {q : F4} {t : F3} {Ua Ub W : FM6} {τ u : ℝ} (hT : Pose q t τ) (τ1 : 1 ≤ τ) (τ2 : τ ≤ 2 ^ (100 : ℤ)) (ha : Bounded Ua u) (hb : Bounded Ub u) (u1 : 2 ^ (-200 : ℤ) ≤ u) (u2 : u ≤ 2 ^ (200 : ℤ))
    (hW : IsMulCov rnd q t Ua Ub W) (Y : Kinematics.Transformation) :
    Within W (UTransf.mul ⟨exactPose q t, valsG Ua⟩ ⟨Y, valsG Ub⟩).U (τ ^ 2 * u / 2 ^ 37) := by
  obtain ⟨⟨hq, nq⟩, ht, hτ⟩ := hT
  obtain ⟨B, P, hB, hP, hS⟩ := hW
  have τr : InR 0 100 τ := ⟨by simpa using τ1, τ2⟩
  have ur : InR (-200) 200 u := ⟨u1, u2⟩
  have r6 : InR 0 120 (6 * τ) := ((inR_const (x := 6) (by norm_num) (by norm_num)).mul τr).mono (by norm_num) (by norm_num)
  have b := boxTimes_acc hr hq nq ht hτ τ1 (τ2.trans (zpow_le_zpow_right₀ (by norm_num) (by norm_num))) hB
  have p := prod_acc hr sum_ks6 b (hb.1.acc hb.2) hP (by simp [ks6]) ((r6.mul ur).mono (by norm_num) (by norm_num))
  simp only [ks6, List.length_cons, List.length_nil] at p
  replace p : AccM 12 P (Kinematics.boxTimes (exactPose q t).T * valsG Ub) (6 * (6 * τ * u)) := by
    push_cast at p
    norm_num at p
    exact p
  have rp : InR (-200) 600 ((6 * (6 * τ * u)) * (6 * τ)) :=
    (((inR_const (x := 6) (by norm_num) (by norm_num)).mul (r6.mul ur)).mul r6).mono (by norm_num) (by norm_num)
  have h0 := ur.pos
  have e : (6 * (6 * τ * u)) * (6 * τ) = 216 * (τ ^ 2 * u) := by ring
  have hu : u ≤ 216 * (τ ^ 2 * u) := by
    have : 1 * u ≤ τ ^ 2 * u := mul_le_mul_of_nonneg_right (one_le_pow₀ τ1) h0.le
    linarith
  have A : AccM 25 W (UTransf.mul ⟨exactPose q t, valsG Ua⟩ ⟨Y, valsG Ub⟩).U (7 * (216 * (τ ^ 2 * u))) := by
    intro i j
    have T := terms_acc hr ks6 p (B := B.transpose) (B' := (Kinematics.boxTimes (exactPose q t).T).transpose) (fun i j => b j i) (by norm_num) (rp.mono (by norm_num) (by norm_num)) i j
    rw [e] at T
    have := (hS i j).acc hr (List.Forall₂.cons ((ha.1.acc ha.2 i j).mono (k := 19) (T := 216 * (τ ^ 2 * u)) (by norm_num) hu) T) (by simp [terms, ks6]) (e ▸ rp.mono (by norm_num) (by norm_num))
    simp only [List.sum_cons, sum_ks6] at this
    simp only [terms, ks6, List.length_cons, List.length_map, List.length_nil] at this
    push_cast at this
    exact this
  refine A.within (by norm_num) ?_ ?_
  · have := scale_mul (m := 7) (e ▸ rp.mono (by norm_num) (by norm_num)) (by norm_num) (by norm_num)
    simpa using this
  · have h7 : ((1 + eps) ^ 25 - 1) * 1512 ≤ 1 / 2 ^ 37 := by unfold eps; norm_num
    have h8 : 0 ≤ τ ^ 2 * u := by positivity
    calc ((1 + eps) ^ 25 - 1) * (7 * (216 * (τ ^ 2 * u))) = (((1 + eps) ^ 25 - 1) * 1512) * (τ ^ 2 * u) := by ring
      _ ≤ 1 / 2 ^ 37 * (τ ^ 2 * u) := mul_le_mul_of_nonneg_right h7 h8
      _ = τ ^ 2 * u / 2 ^ 37 := by ring

/-- **C172** The covariance of a certain transformation times an uncertain one, within `τ²u·2^-38`. -/
theorem C172_move {q : F4} {t : F3} {U W : FM6} {τ u : ℝ} (hT : Pose q t τ) (τ1 : 1 ≤ τ) (τ2 : τ ≤ 2 ^ (120 : ℤ)) (hU : Bounded U u) (u1 : 2 ^ (-200 : ℤ) ≤ u) (u2 : u ≤ 2 ^ (200 : ℤ))
    (hW : IsMoveCov rnd q t U W) (Y : Kinematics.Transformation) :
    Within W ((exactPose q t).mulUT ⟨Y, valsG U⟩).U (τ ^ 2 * u / 2 ^ 38) := by
  obtain ⟨⟨hq, nq⟩, ht, hτ⟩ := hT
  obtain ⟨B, hB, hW⟩ := hW
  have τr : InR 0 120 τ := ⟨by simpa using τ1, τ2⟩
  have ur : InR (-200) 200 u := ⟨u1, u2⟩
  have r6 : InR 0 140 (6 * τ) := ((inR_const (x := 6) (by norm_num) (by norm_num)).mul τr).mono (by norm_num) (by norm_num)
  have b := boxTimes_acc hr hq nq ht hτ τ1 (τ2.trans (zpow_le_zpow_right₀ (by norm_num) (by norm_num))) hB
  have rp : InR (-200) 600 ((6 * (6 * τ * u)) * (6 * τ)) :=
    (((inR_const (x := 6) (by norm_num) (by norm_num)).mul (r6.mul ur)).mul r6).mono (by norm_num) (by norm_num)
  have c := conj_acc hr sum_ks6 b (hU.1.acc hU.2) hW (by simp [ks6]) ((r6.mul ur).mono (by norm_num) (by norm_num)) (by
    simp only [ks6, List.length_cons, List.length_nil]
    push_cast
    exact rp.mono (by norm_num) (by norm_num))
  simp only [ks6, List.length_cons, List.length_nil] at c
  push_cast at c
  have h0 := ur.pos
  refine AccM.within (M := ((exactPose q t).mulUT ⟨Y, valsG U⟩).U) c (by norm_num) ?_ ?_
  · have := scale_mul (m := 6) (rp.mono (c := -900) (d := 800) (by norm_num) (by norm_num)) (by norm_num) (by norm_num)
    simpa using this
  · have h7 : ((1 + eps) ^ 24 - 1) * 1296 ≤ 1 / 2 ^ 38 := by unfold eps; norm_num
    have h8 : 0 ≤ τ ^ 2 * u := by positivity
    calc ((1 + eps) ^ 24 - 1) * (6 * (6 * (6 * τ * u) * (6 * τ))) = (((1 + eps) ^ 24 - 1) * 1296) * (τ ^ 2 * u) := by ring
      _ ≤ 1 / 2 ^ 38 * (τ ^ 2 * u) := mul_le_mul_of_nonneg_right h7 h8
      _ = τ ^ 2 * u / 2 ^ 38 := by ring

/-- **C172** The covariance of a rotated vector, within `u·2^-44`. -/
theorem C172_rotate {q : F4} {t : F3} {V W : FM3} {τ u : ℝ} (hT : Pose q t τ) (hV : Bounded V u) (u1 : 2 ^ (-200 : ℤ) ≤ u) (u2 : u ≤ 2 ^ (200 : ℤ)) (hW : IsRotateCov rnd q V W) (v : V3) :
    Within W ((exactPose q t).rotateU ⟨v, valsG V⟩).E (u / 2 ^ 44) := by
  obtain ⟨⟨hq, nq⟩, -, -⟩ := hT
  have ur : InR (-200) 200 u := ⟨u1, u2⟩
  have r2 : InR 0 20 (2 : ℝ) := inR_const (by norm_num) (by norm_num)
  have rp : InR (-200) 600 ((3 * (2 * u)) * 2) := (((inR_const (x := 3) (by norm_num) (by norm_num)).mul (r2.mul ur)).mul r2).mono (by norm_num) (by norm_num)
  have c := conj_acc hr sum_ks3 (quat2r_acc hr hq nq) (hV.1.acc hV.2) hW (by simp [ks3]) ((r2.mul ur).mono (by norm_num) (by norm_num)) (by
    simp only [ks3, List.length_cons, List.length_nil]
    push_cast
    exact rp.mono (by norm_num) (by norm_num))
  simp only [ks3, List.length_cons, List.length_nil] at c
  push_cast at c
  have h0 := ur.pos
  refine AccM.within (M := ((exactPose q t).rotateU ⟨v, valsG V⟩).E) c (by norm_num) ?_ ?_
  · have := scale_mul (m := 3) (rp.mono (c := -900) (d := 800) (by norm_num) (by norm_num)) (by norm_num) (by norm_num)
    simpa using this
  · have h7 : ((1 + eps) ^ 12 - 1) * 36 ≤ 1 / 2 ^ 44 := by unfold eps; norm_num
    calc ((1 + eps) ^ 12 - 1) * (3 * (3 * (2 * u) * 2)) = (((1 + eps) ^ 12 - 1) * 36) * u := by ring
      _ ≤ 1 / 2 ^ 44 * u := mul_le_mul_of_nonneg_right h7 h0.le
      _ = u / 2 ^ 44 := by ring

/-- **C172** The covariance of the image of an uncertain point under a certain transformation, within `τ²v·2^-43`. -/
theorem C172_movePoint {q : F4} {t : F3} {V W : FM4} {τ u : ℝ} (hT : Pose q t τ) (τ1 : 1 ≤ τ) (τ2 : τ ≤ 2 ^ (100 : ℤ)) (hV : Bounded V u) (u1 : 2 ^ (-200 : ℤ) ≤ u) (u2 : u ≤ 2 ^ (200 : ℤ))
    (hW : IsMovePointCov rnd q t V W) (p : V4) :
    Within W ((exactPose q t).mulUP ⟨p, valsG V⟩).U (τ ^ 2 * u / 2 ^ 43) := by
  obtain ⟨⟨hq, nq⟩, ht, hτ⟩ := hT
  have τr : InR 0 100 τ := ⟨by simpa using τ1, τ2⟩
  have ur : InR (-200) 200 u := ⟨u1, u2⟩
  have r2 : InR 0 120 (2 * τ) := ((inR_const (x := 2) (by norm_num) (by norm_num)).mul τr).mono (by norm_num) (by norm_num)
  have rp : InR (-200) 600 ((4 * (2 * τ * u)) * (2 * τ)) :=
    (((inR_const (x := 4) (by norm_num) (by norm_num)).mul (r2.mul ur)).mul r2).mono (by norm_num) (by norm_num)
  have c := conj_acc hr sum_ks4 (matT_acc hr hq nq ht hτ τ1) (hV.1.acc hV.2) hW (by simp [ks4]) ((r2.mul ur).mono (by norm_num) (by norm_num)) (by
    simp only [ks4, List.length_cons, List.length_nil]
    push_cast
    exact rp.mono (by norm_num) (by norm_num))
  simp only [ks4, List.length_cons, List.length_nil] at c
  push_cast at c
  have h0 := ur.pos
  refine AccM.within (M := ((exactPose q t).mulUP ⟨p, valsG V⟩).U) c (by norm_num) ?_ ?_
  · have := scale_mul (m := 4) (rp.mono (c := -900) (d := 800) (by norm_num) (by norm_num)) (by norm_num) (by norm_num)
    simpa using this
  · have h7 : ((1 + eps) ^ 14 - 1) * 64 ≤ 1 / 2 ^ 43 := by unfold eps; norm_num
    have h8 : 0 ≤ τ ^ 2 * u := by positivity
    calc ((1 + eps) ^ 14 - 1) * (4 * (4 * (2 * τ * u) * (2 * τ))) = (((1 + eps) ^ 14 - 1) * 64) * (τ ^ 2 * u) := by ring
      _ ≤ 1 / 2 ^ 43 * (τ ^ 2 * u) := mul_le_mul_of_nonneg_right h7 h8
      _ = τ ^ 2 * u / 2 ^ 43 := by ring

/-- **C172** The covariance of the image of a point under an uncertain transformation, within `ρ²τ²u·2^-35` of the exact one (at the exact image), for points up to `ρ`. -/
theorem C172_image {q : F4} {t : F3} {p : F4} {U : FM6} {W : FM4} {τ ρ u : ℝ} (hT : Pose q t τ) (τ1 : 1 ≤ τ) (τ2 : τ ≤ 2 ^ (100 : ℤ)) (hp : Finite p) (hρ : ∀ i, |vals p i| ≤ ρ) (ρ1 : 2 ^ (-100 : ℤ) ≤ ρ) (ρ2 : ρ ≤ 2 ^ (100 : ℤ))
    (hU : Bounded U u) (u1 : 2 ^ (-200 : ℤ) ≤ u) (u2 : u ≤ 2 ^ (200 : ℤ)) (hW : IsImageCov rnd q t U p W) :
    Within W (UTransf.mulHP ⟨exactPose q t, valsG U⟩ (vals p)).U (ρ ^ 2 * τ ^ 2 * u / 2 ^ 35) := by
  obtain ⟨⟨hq, nq⟩, ht, hτ⟩ := hT
  have τr : InR 0 100 τ := ⟨by simpa using τ1, τ2⟩
  have ρr : InR (-100) 100 ρ := ⟨ρ1, ρ2⟩
  have ur : InR (-200) 200 u := ⟨u1, u2⟩
  have rs : InR (-100) 220 (14 * (ρ * τ)) := ((inR_const (x := 14) (by norm_num) (by norm_num)).mul (ρr.mul τr)).mono (by norm_num) (by norm_num)
  have rp : InR (-400) 800 ((6 * (14 * (ρ * τ) * u)) * (14 * (ρ * τ))) :=
    (((inR_const (x := 6) (by norm_num) (by norm_num)).mul (rs.mul ur)).mul rs).mono (by norm_num) (by norm_num)
  have j := boxMinus_acc (mulV4_acc hr hq nq ht hτ τ1 τ2 hp hρ ρ1 ρ2) rs.pos.le
  have c := conj_acc hr sum_ks6 j (hU.1.acc hU.2) hW (by simp [ks6]) ((rs.mul ur).mono (by norm_num) (by norm_num)) (by
    simp only [ks6, List.length_cons, List.length_nil]
    push_cast
    exact rp.mono (by norm_num) (by norm_num))
  simp only [ks6, List.length_cons, List.length_nil] at c
  push_cast at c
  have h0 := ur.pos
  refine AccM.within (M := (UTransf.mulHP ⟨exactPose q t, valsG U⟩ (vals p)).U) c (by norm_num) ?_ ?_
  · have := scale_mul (m := 6) (rp.mono (c := -900) (d := 800) (by norm_num) (by norm_num)) (by norm_num) (by norm_num)
    simpa using this
  · have h7 : ((1 + eps) ^ 36 - 1) * 7056 ≤ 1 / 2 ^ 35 := by unfold eps; norm_num
    have h8 : 0 ≤ ρ ^ 2 * τ ^ 2 * u := by positivity
    calc ((1 + eps) ^ 36 - 1) * (6 * (6 * (14 * (ρ * τ) * u) * (14 * (ρ * τ)))) = (((1 + eps) ^ 36 - 1) * 7056) * (ρ ^ 2 * τ ^ 2 * u) := by ring
      _ ≤ 1 / 2 ^ 35 * (ρ ^ 2 * τ ^ 2 * u) := mul_le_mul_of_nonneg_right h7 h8
      _ = ρ ^ 2 * τ ^ 2 * u / 2 ^ 35 := by ring

/-- **C172** The covariance of the image of an uncertain point under an uncertain transformation. -/
theorem C172_point {q : F4} {t : F3} {p : F4} {U : FM6} {V W : FM4} {τ ρ u v : ℝ} (hT : Pose q t τ) (τ1 : 1 ≤ τ) (τ2 : τ ≤ 2 ^ (100 : ℤ)) (hp : Finite p) (hρ : ∀ i, |vals p i| ≤ ρ) (ρ1 : 2 ^ (-100 : ℤ) ≤ ρ) (ρ2 : ρ ≤ 2 ^ (100 : ℤ))
    (hU : Bounded U u) (u1 : 2 ^ (-200 : ℤ) ≤ u) (u2 : u ≤ 2 ^ (100 : ℤ)) (hV : Bounded V v) (v1 : 2 ^ (-200 : ℤ) ≤ v) (v2 : v ≤ 2 ^ (100 : ℤ)) (hW : IsPointCov rnd q t U p V W) :
    Within W (UTransf.mulUP ⟨exactPose q t, valsG U⟩ ⟨vals p, valsG V⟩).U (ρ ^ 2 * τ ^ 2 * u / 2 ^ 34 + τ ^ 2 * v / 2 ^ 40) := by
  obtain ⟨⟨hq, nq⟩, ht, hτ⟩ := hT
  obtain ⟨P, Q, hP, hQ, hS⟩ := hW
  have τr : InR 0 100 τ := ⟨by simpa using τ1, τ2⟩
  have ρr : InR (-100) 100 ρ := ⟨ρ1, ρ2⟩
  have ur : InR (-200) 100 u := ⟨u1, u2⟩
  have vr : InR (-200) 100 v := ⟨v1, v2⟩
  have rs : InR (-100) 220 (14 * (ρ * τ)) := ((inR_const (x := 14) (by norm_num) (by norm_num)).mul (ρr.mul τr)).mono (by norm_num) (by norm_num)
  have r2 : InR 0 120 (2 * τ) := ((inR_const (x := 2) (by norm_num) (by norm_num)).mul τr).mono (by norm_num) (by norm_num)
  have rp : InR (-400) 700 ((6 * (14 * (ρ * τ) * u)) * (14 * (ρ * τ))) :=
    (((inR_const (x := 6) (by norm_num) (by norm_num)).mul (rs.mul ur)).mul rs).mono (by norm_num) (by norm_num)
  have rq : InR (-400) 700 ((4 * (2 * τ * v)) * (2 * τ)) :=
    (((inR_const (x := 4) (by norm_num) (by norm_num)).mul (r2.mul vr)).mul r2).mono (by norm_num) (by norm_num)
  have j := boxMinus_acc (mulV4_acc hr hq nq ht hτ τ1 τ2 hp hρ ρ1 ρ2) rs.pos.le
  have T := matT_acc hr hq nq ht hτ τ1
  have a := prod_acc hr sum_ks6 j (hU.1.acc hU.2) hP (by simp [ks6]) ((rs.mul ur).mono (by norm_num) (by norm_num))
  have b := prod_acc hr sum_ks4 T (hV.1.acc hV.2) hQ (by simp [ks4]) ((r2.mul vr).mono (by norm_num) (by norm_num))
  simp only [ks6, List.length_cons, List.length_nil] at a
  simp only [ks4, List.length_cons, List.length_nil] at b
  push_cast at a b
  set X := exactPose q t with hX
  set s := 6 * (14 * (ρ * τ) * u) * (14 * (ρ * τ)) with hs
  set r := 4 * (2 * τ * v) * (2 * τ) with hr'
  have rsum : InR (-400) 701 (s + r) := (rp.add rq le_rfl).mono (by norm_num) (by norm_num)
  have A : AccM 40 W (UTransf.mulUP ⟨X, valsG U⟩ ⟨vals p, valsG V⟩).U (10 * (s + r)) := by
    intro i k
    have T1 := terms_acc hr ks6 a (B := (boxMinus (mulV4 rnd q t p)).transpose) (B' := (Kinematics.boxMinus (X.mulV4 (vals p))).transpose) (fun i j' => j j' i) (by norm_num) (rp.mono (by norm_num) (by norm_num)) i k
    have T2 := terms_acc hr ks4 b (B := (matT rnd q t).transpose) (B' := X.T.transpose) (fun i j' => T j' i) (by norm_num) (rq.mono (by norm_num) (by norm_num)) i k
    have T1' := T1.imp (S := fun f x => Acc 31 f x (s + r)) fun f x h => h.mono (by norm_num) (by linarith [rq.pos])
    have T2' := T2.imp (S := fun f x => Acc 31 f x (s + r)) fun f x h => h.mono (by norm_num) (by linarith [rp.pos])
    have := (hS i k).acc hr (List.rel_append T1' T2') (by simp [terms, ks6, ks4]) (rsum.mono (by norm_num) (by norm_num))
    simp only [List.sum_append, sum_ks6, sum_ks4] at this
    simp only [terms, ks6, ks4, List.length_append, List.length_cons, List.length_map, List.length_nil] at this
    push_cast at this
    exact this
  have h0 := ur.pos
  have v0 := vr.pos
  refine A.within (by norm_num) ?_ ?_
  · have := scale_mul (m := 10) (rsum.mono (c := -900) (d := 800) (by norm_num) (by norm_num)) (by norm_num) (by norm_num)
    simpa using this
  · have h7 : ((1 + eps) ^ 40 - 1) * 11760 ≤ 1 / 2 ^ 34 := by unfold eps; norm_num
    have h7' : ((1 + eps) ^ 40 - 1) * 160 ≤ 1 / 2 ^ 40 := by unfold eps; norm_num
    have h8 : 0 ≤ ρ ^ 2 * τ ^ 2 * u := by positivity
    have h8' : 0 ≤ τ ^ 2 * v := by positivity
    calc ((1 + eps) ^ 40 - 1) * (10 * (s + r)) = (((1 + eps) ^ 40 - 1) * 11760) * (ρ ^ 2 * τ ^ 2 * u) + (((1 + eps) ^ 40 - 1) * 160) * (τ ^ 2 * v) := by rw [hs, hr']; ring
      _ ≤ 1 / 2 ^ 34 * (ρ ^ 2 * τ ^ 2 * u) + 1 / 2 ^ 40 * (τ ^ 2 * v) := add_le_add (mul_le_mul_of_nonneg_right h7 h8) (mul_le_mul_of_nonneg_right h7' h8')
      _ = ρ ^ 2 * τ ^ 2 * u / 2 ^ 34 + τ ^ 2 * v / 2 ^ 40 := by ring

end

/-- **C172** The covariance of the inverse: within `τ²u·2^-30` of `B U Bᵀ`, where `B` belongs to the computed inverse. -/
theorem C172_inverse {R : ℝ → ℚ} (hR : IsRndR R) (E : Eigen fun q => R q) (X : TransformationD) {U W : FM6} {τ u : ℝ} (hT : Pose X.q X.t τ) (τ1 : 1 ≤ τ) (τ2 : τ ≤ 2 ^ (100 : ℤ)) (hU : Bounded U u) (u1 : 2 ^ (-200 : ℤ) ≤ u) (u2 : u ≤ 2 ^ (200 : ℤ))
    (hW : IsInverseCov E X U W) (Y : Kinematics.Transformation) :
    Pose (X.inverse E).q (X.inverse E).t (13 * τ) ∧ Within W ((exactPose (X.inverse E).q (X.inverse E).t).mulUT ⟨Y, valsG U⟩).U (τ ^ 2 * u / 2 ^ 30) := by
  obtain ⟨⟨hq, nq⟩, ht, hτ⟩ := hT
  have fi := finite_quatInv hq
  have ni : |nrm (vals (quatInv X.q)) - 1| ≤ 12 / 2 ^ 53 := by rw [vals_quatInv, nrm_quatInv]; exact nq
  obtain ⟨n1, n2, -⟩ := normalize_near hR E fi (ni.trans (by norm_num))
  have nt : nrm (vals fun i => (X.t i).neg) ≤ 2 * τ := by
    rw [vals_neg, nrm_neg]
    exact (nrm_mono (w := fun _ => τ) hτ).trans (nrm_const τ (by linarith) (by norm_num))
  have lim : 2 * τ ≤ 2 ^ (200 : ℤ) := by
    have : (2 : ℝ) * 2 ^ (100 : ℤ) ≤ 2 ^ (200 : ℤ) := by norm_num
    linarith
  obtain ⟨r1, r2⟩ := quatRotate_err hR.rat fi (finite_neg ht) (ni.trans (by norm_num)) (nt.trans lim)
  have P : Pose (X.inverse E).q (X.inverse E).t (13 * τ) := by
    refine ⟨⟨n1, n2⟩, r1, fun i => ?_⟩
    have b := abs_le.1 ni
    have h3 := nrm_quatRotate_le (vals (quatInv X.q)) (vals fun i => (X.t i).neg) (by norm_num at b ⊢; linarith)
    have h4 := nrm_le_add_sub (vals (quatRotate (fun x => R x) (quatInv X.q) fun i => (X.t i).neg)) (Kinematics.quatRotate (vals (quatInv X.q)) (vals fun i => (X.t i).neg))
    have h5 := abs_le_nrm (vals (X.inverse E).t) i
    have he : eta ≤ 1 := by unfold eta; exact zpow_le_one_of_nonpos₀ (by norm_num) (by norm_num)
    have h6 : (64 / 2 ^ 53 : ℝ) * (nrm (vals fun i => (X.t i).neg) + eta) ≤ 64 / 2 ^ 53 * (3 * τ) := mul_le_mul_of_nonneg_left (by linarith) (by positivity)
    have h7 : (64 / 2 ^ 53 : ℝ) * (3 * τ) ≤ τ := by norm_num; linarith
    exact h5.trans (h4.trans (by linarith))
  refine ⟨P, ?_⟩
  obtain ⟨w1, w2⟩ := C172_move hR.rat P (by linarith) (by
    have : (13 : ℝ) * 2 ^ (100 : ℤ) ≤ 2 ^ (120 : ℤ) := by norm_num
    linarith) hU u1 u2 hW Y
  refine ⟨w1, fun i j => (w2 i j).trans ?_⟩
  have h0 : 0 < u := lt_of_lt_of_le (by positivity) u1
  have h8 : 0 ≤ τ ^ 2 * u := by positivity
  calc (13 * τ) ^ 2 * u / 2 ^ 38 = (169 / 2 ^ 38) * (τ ^ 2 * u) := by ring
    _ ≤ 1 / 2 ^ 30 * (τ ^ 2 * u) := mul_le_mul_of_nonneg_right (by norm_num) h8
    _ = τ ^ 2 * u / 2 ^ 30 := by ring

/-! ## how far from a covariance -/

theorem near_cov {ι : Type} [Fintype ι] {W : Matrix ι ι Fp} {M : Matrix ι ι ℝ} {b : ℝ} (hM : IsCov M) (h : Within W M b) :
    (∀ i j, |valsG W i j - valsG W j i| ≤ 2 * b) ∧ ∀ x : ι → ℝ, -(Fintype.card ι * b * (x ⬝ᵥ x)) ≤ x ⬝ᵥ (valsG W).mulVec x := by
  constructor
  · intro i j
    have h1 := h.2 i j
    have h2 := h.2 j i
    have e : M j i = M i j := by conv_lhs => rw [← hM.1, transpose_apply]
    rw [e] at h2
    rw [abs_le] at *
    constructor <;> linarith [h1.1, h1.2, h2.1, h2.2]
  · intro x
    have e : x ⬝ᵥ (valsG W).mulVec x = x ⬝ᵥ M.mulVec x + ∑ i, ∑ j, x i * ((valsG W i j - M i j) * x j) := by
      simp only [dotProduct, mulVec, Finset.mul_sum]
      rw [← Finset.sum_add_distrib]
      refine Finset.sum_congr rfl fun i _ => ?_
      rw [← Finset.sum_add_distrib]
      exact Finset.sum_congr rfl fun j _ => by ring
    have each : ∀ i j, -(b * ((x i * x i + x j * x j) / 2)) ≤ x i * ((valsG W i j - M i j) * x j) := by
      intro i j
      have h1 := h.2 i j
      have h3 : |x i * x j| ≤ (x i * x i + x j * x j) / 2 := by
        rw [abs_le]; constructor <;> nlinarith [sq_nonneg (x i + x j), sq_nonneg (x i - x j)]
      have h4 : |(valsG W i j - M i j) * (x i * x j)| ≤ b * ((x i * x i + x j * x j) / 2) := by
        rw [abs_mul]
        exact mul_le_mul h1 h3 (abs_nonneg _) ((abs_nonneg _).trans h1)
      have := (abs_le.1 h4).1
      linarith
    have hs : -(Fintype.card ι * b * (x ⬝ᵥ x)) ≤ ∑ i, ∑ j, x i * ((valsG W i j - M i j) * x j) := by
      have h5 : ∑ i, ∑ j, -(b * ((x i * x i + x j * x j) / 2)) ≤ ∑ i, ∑ j, x i * ((valsG W i j - M i j) * x j) :=
        Finset.sum_le_sum fun i _ => Finset.sum_le_sum fun j _ => each i j
      refine le_trans (le_of_eq ?_) h5
      simp only [Finset.sum_neg_distrib, ← Finset.mul_sum, ← Finset.sum_div, Finset.sum_add_distrib, Finset.sum_const, Finset.card_univ, nsmul_eq_mul, dotProduct]
      have e2 : ∑ i, x i * (Fintype.card ι * x i) = Fintype.card ι * ∑ i, x i * x i := by rw [Finset.mul_sum]; exact Finset.sum_congr rfl fun i _ => by ring
      rw [e2]
      ring
    have := hM.2 x
    rw [e]; linarith

/-- **C172** For covariance matrices `Ua`, `Ub`, the computed covariance of the product is symmetric up to `τ²u·2^-36`, and its quadratic form is at least `-6τ²u·2^-37` times the square of the vector. -/
theorem C172_semidefinite_partial {rnd : ℚ → ℚ} (hr : IsRnd rnd) {q : F4} {t : F3} {Ua Ub W : FM6} {τ u : ℝ} (hT : Pose q t τ) (τ1 : 1 ≤ τ) (τ2 : τ ≤ 2 ^ (100 : ℤ)) (ha : Bounded Ua u) (hb : Bounded Ub u) (u1 : 2 ^ (-200 : ℤ) ≤ u) (u2 : u ≤ 2 ^ (200 : ℤ))
    (ca : IsCov (valsG Ua)) (cb : IsCov (valsG Ub)) (hW : IsMulCov rnd q t Ua Ub W) :
    (∀ i j, |valsG W i j - valsG W j i| ≤ τ ^ 2 * u / 2 ^ 36) ∧ ∀ x : V6, -(6 * (τ ^ 2 * u / 2 ^ 37) * (x ⬝ᵥ x)) ≤ x ⬝ᵥ (valsG W).mulVec x := by
  have w := C172_product hr hT τ1 τ2 ha hb u1 u2 hW ⟨0, 0⟩
  have c : IsCov (UTransf.mul ⟨exactPose q t, valsG Ua⟩ ⟨⟨0, 0⟩, valsG Ub⟩).U := ca.add (cb.conj _)
  obtain ⟨h1, h2⟩ := near_cov c w
  refine ⟨fun i j => (h1 i j).trans (le_of_eq (by ring)), fun x => ?_⟩
  have := h2 x
  simpa using this

/-! ## every product has a value -/

theorem sumOf_exists (rnd : ℚ → ℚ) : ∀ l : List Fp, l ≠ [] → ∃ s, SumOf rnd l s
  | [x], _ => ⟨x, .one x⟩
  | x :: y :: l, _ => by
    obtain ⟨s, hs⟩ := sumOf_exists rnd (y :: l) (by simp)
    exact ⟨_, .add (.one x) hs (.refl _)⟩

theorem prod_exists (rnd : ℚ → ℚ) {ι κ μ : Type} {ks : List κ} (hks : ks ≠ []) (A : Matrix ι κ Fp) (B : Matrix κ μ Fp) : ∃ P, IsProd rnd ks A B P := by
  have : ∀ i j, ∃ s, SumOf rnd (terms rnd ks A B i j) s := fun i j => sumOf_exists rnd _ (by simpa [terms] using hks)
  choose P hP using this
  exact ⟨P, hP⟩

theorem mulCov_exists (rnd : ℚ → ℚ) (q : F4) (t : F3) (Ua Ub : FM6) : ∃ W, IsMulCov rnd q t Ua Ub W := by
  obtain ⟨K, hK⟩ := prod_exists rnd (ks := ks3) (by simp [ks3]) (fun i j => (crossMx t i j).neg) (quat2r rnd q)
  set B : FM6 := Matrix.fromBlocks (quat2r rnd q) K (fun _ _ => .fin 0) (quat2r rnd q) with hB
  obtain ⟨P, hP⟩ := prod_exists rnd (ks := ks6) (by simp [ks6]) B Ub
  have : ∀ i j, ∃ s, SumOf rnd (Ua i j :: terms rnd ks6 P B.transpose i j) s := fun i j => sumOf_exists rnd _ (by simp)
  choose W hW using this
  exact ⟨W, B, P, ⟨K, hK, hB⟩, hP, hW⟩

/-! ## a product that is no covariance -/

/-- one value, and zeros -/
def Lone (l : List Fp) (v : ℚ) : Prop := ∃ z, l.Perm (.fin v :: z) ∧ ∀ x ∈ z, x = .fin 0

theorem sumOf_lone {rnd : ℚ → ℚ} (hr : IsRnd rnd) {l : List Fp} {s : Fp} (h : SumOf rnd l s) : ∀ {v : ℚ}, IsDouble v → |v| < tooBig → Lone l v → s = .fin v := by
  have add0 : ∀ {v : ℚ}, IsDouble v → |v| < tooBig → rounded rnd (.fin v) = .fin v := by
    intro v hd hv
    have e : rnd v = v := hr.fix hd
    simp [rounded, e, hv]
  induction h with
  | one x =>
    rintro v - - ⟨z, hz, -⟩
    have := hz.length_eq
    simp at this
    rw [this] at hz
    simpa using hz
  | add hl hm hn ih₁ ih₂ =>
    rename_i l m n x y
    rintro v hd hv ⟨z, hz, h0⟩
    have d0 : IsDouble 0 := isDouble_int 0 (by norm_num)
    have b0 : |(0 : ℚ)| < tooBig := by unfold tooBig; simp
    have hp := hn.symm.trans hz
    have zeros : ∀ {k : List Fp}, k ≠ [] → (∀ x ∈ k, x = .fin 0) → Lone k 0 := by
      intro k hk h
      cases k with
      | nil => exact absurd rfl hk
      | cons a k => exact ⟨k, by rw [h a (by simp)], fun x hx => h x (by simp [hx])⟩
    have mem : Fp.fin v ∈ l ++ m := hp.symm.subset (by simp)
    have ne : ∀ {k : List Fp} {s : Fp}, SumOf rnd k s → k ≠ [] := fun hk e => by have := hk.length_pos; rw [e] at this; simp at this
    rcases List.mem_append.1 mem with h | h
    · obtain ⟨a, b, rfl⟩ := List.append_of_mem h
      have h1 : ((a ++ b) ++ m).Perm z := by
        have h2 : (a ++ .fin v :: b ++ m).Perm (.fin v :: ((a ++ b) ++ m)) := by
          simpa using (List.perm_middle (a := Fp.fin v) (l₁ := a) (l₂ := b ++ m))
        exact (List.perm_cons _).1 (h2.symm.trans hp)
      have x1 := ih₁ hd hv ⟨a ++ b, List.perm_middle, fun x hx => h0 x (h1.subset (List.mem_append_left _ hx))⟩
      have y1 := ih₂ d0 b0 (zeros (ne hm) fun x hx => h0 x (h1.subset (by simp [hx])))
      rw [x1, y1]
      show rounded rnd (.fin (v + 0)) = _
      rw [add_zero]; exact add0 hd hv
    · obtain ⟨a, b, rfl⟩ := List.append_of_mem h
      have h1 : (l ++ (a ++ b)).Perm z := by
        have h2 : (l ++ (a ++ .fin v :: b)).Perm (.fin v :: (l ++ (a ++ b))) := by
          have := (List.perm_middle (a := Fp.fin v) (l₁ := l ++ a) (l₂ := b))
          simpa using this
        exact (List.perm_cons _).1 (h2.symm.trans hp)
      have y1 := ih₂ hd hv ⟨a ++ b, List.perm_middle, fun x hx => h0 x (h1.subset (List.mem_append_right _ hx))⟩
      have x1 := ih₁ d0 b0 (zeros (ne hl) fun x hx => h0 x (h1.subset (by simp [hx])))
      rw [x1, y1]
      show rounded rnd (.fin (0 + v)) = _
      rw [zero_add]; exact add0 hd hv

/-- the value of `Lone`, if there is one -/
def loneV (l : List Fp) : Option Fp :=
  match l, l.filter (· ≠ .fin 0) with
  | [], _ => none
  | _, [] => some (.fin 0)
  | _, [x] => some x
  | _, _ => none

theorem loneV_spec {l : List Fp} {v : ℚ} (h : loneV l = some (.fin v)) : Lone l v := by
  have key : ∀ {l : List Fp} {f : List Fp}, l.filter (· ≠ .fin 0) = f → ∃ z, l.Perm (f ++ z) ∧ ∀ x ∈ z, x = .fin 0 := by
    intro l f e
    refine ⟨l.filter (fun x => !decide (x ≠ .fin 0)), ?_, fun x hx => ?_⟩
    · rw [← e]; exact (List.filter_append_perm _ l).symm
    · simpa using (List.mem_filter.1 hx).2
  unfold loneV at h
  split at h
  · cases h
  · rename_i hne e
    obtain ⟨z, hz, h0⟩ := key e
    simp only [Option.some.injEq, Fp.fin.injEq] at h
    subst h
    cases z with
    | nil => simp at hz; exact absurd hz hne
    | cons a z =>
      have := h0 a (by simp)
      subst this
      exact ⟨z, by simpa using hz, fun x hx => h0 x (by simp [hx])⟩
  · rename_i e
    obtain ⟨z, hz, h0⟩ := key e
    simp only [Option.some.injEq] at h
    subst h
    exact ⟨z, by simpa using hz, h0⟩
  · cases h

/-- one value `v` and zeros, and `v` is a double -/
def loneAt (l : List Fp) (v : ℚ) : Bool := decide (loneV l = some (.fin v)) && decide (rndEven v = v) && decide (|v| < tooBig)

theorem forced {l : List Fp} {s : Fp} {v : ℚ} (h : SumOf rndEven l s) (hv : loneAt l v = true) : s = .fin v := by
  simp only [loneAt, Bool.and_eq_true, decide_eq_true_eq] at hv
  exact sumOf_lone isRnd_rndEven h (hv.1.2 ▸ isRnd_rndEven.mem v) hv.2 (loneV_spec hv.1.1)

/-- the double next to `0.1` -/
def tenth : ℚ := 3602879701896397 / 2 ^ 55

/-- no rotation, and a translation by `(0, 7, 5)` -/
def noTurn : F4 := ![.fin 0, .fin 0, .fin 0, .fin 1]
def shift : F3 := ![.fin 0, .fin 7, .fin 5]

/-- the right factor is uncertain about its first axis only -/
def aboutX : FM6 := fun i j => if i = .inr 0 ∧ j = .inr 0 then .fin tenth else .fin 0
def certain : FM6 := fun _ _ => .fin 0

/-- what `boxTimes`, `B * U` and `B * U * B.transpose()` come to -/
def shiftK : Matrix (Fin 3) (Fin 3) ℚ := !![0, 5, -7; -5, 0, 0; 7, 0, 0]
def shiftB : FM6 := Matrix.fromBlocks (quat2r rndEven noTurn) (fun i j => .fin (shiftK i j)) (fun _ _ => .fin 0) (quat2r rndEven noTurn)
def shiftP (i j : Fin 3 ⊕ Fin 3) : ℚ := if j = .inr 0 then fval (fmul rndEven (shiftB i (.inr 0)) (.fin tenth)) else 0
def shiftW (i j : Fin 3 ⊕ Fin 3) : ℚ := fval (fmul rndEven (.fin (shiftP i (.inr 0))) (shiftB j (.inr 0)))

theorem shift_forced {W : FM6} (hW : IsMulCov rndEven noTurn shift certain aboutX W) (i j : Fin 3 ⊕ Fin 3) : W i j = .fin (shiftW i j) := by
  obtain ⟨B, P, ⟨K, hK, rfl⟩, hP, hS⟩ := hW
  have k : K = fun i j => .fin (shiftK i j) := by
    funext a b
    exact forced (hK a b) (by revert a b; decide +kernel)
  subst k
  have p : P = fun i j => .fin (shiftP i j) := by
    funext a b
    exact forced (hP a b) (by revert a b; decide +kernel)
  subst p
  exact forced (hS i j) (by revert i j; decide +kernel)

/-- the full claim: products of uncertain transformations have covariances that are symmetric and positive semidefinite -/
def C172_claim (rnd : ℚ → ℚ) : Prop :=
  ∀ (q : F4) (t : F3) (Ua Ub W : FM6), Pose q t 16 → Bounded Ua 1 → Bounded Ub 1 → IsCov (valsG Ua) → IsCov (valsG Ub) → IsMulCov rnd q t Ua Ub W → IsCov (valsG W)

theorem noTurn_pose : Pose noTurn shift 16 := by
  have d : ∀ n : ℤ, |n| < 2 ^ 53 → (Fp.fin n).isFinite ∧ IsDoubleVal (Fp.fin n) := fun n hn => ⟨rfl, isDouble_int n hn, by
    have h1 : |(n : ℚ)| < 2 ^ 53 := by exact_mod_cast hn
    exact h1.trans_le (by unfold tooBig; exact pow_le_pow_right₀ (by norm_num) (by norm_num))⟩
  have d0 := d 0 (by norm_num)
  have d1 := d 1 (by norm_num)
  have d5 := d 5 (by norm_num)
  have d7 := d 7 (by norm_num)
  norm_num at d0 d1 d5 d7
  refine ⟨⟨?_, ?_⟩, ?_, ?_⟩
  · intro i; fin_cases i
    exacts [d0, d0, d0, d1]
  · have : nrm (vals noTurn) = 1 := by
      have := nrm_last 1
      simp at this
      exact this
    rw [this]; norm_num
  · intro i; fin_cases i
    exacts [d0, d7, d5]
  · intro i; fin_cases i <;> simp [vals, shift, fval] <;> norm_num

theorem aboutX_vals : valsG aboutX = Matrix.diagonal fun i => if i = .inr 0 then (tenth : ℝ) else 0 := by
  ext i j
  unfold valsG aboutX Matrix.diagonal
  simp only [Matrix.of_apply]
  by_cases hij : i = j
  · subst hij
    by_cases h : i = .inr 0 <;> simp [h, fval]
  · by_cases h : i = .inr 0 ∧ j = .inr 0
    · exact absurd (h.1.trans h.2.symm) hij
    · simp [hij, h, fval]

theorem tenth_double : (Fp.fin tenth).isFinite ∧ IsDoubleVal (Fp.fin tenth) := by
  refine ⟨rfl, ⟨3602879701896397, -55, by norm_num, by norm_num, by unfold tenth; norm_num [zpow_neg]⟩, ?_⟩
  have : |tenth| < 1 := by unfold tenth; norm_num [abs_of_pos]
  exact this.trans_le (by unfold tooBig; exact one_le_pow₀ (by norm_num))

theorem certain_ok : Bounded certain 1 ∧ IsCov (valsG certain) := by
  have e : valsG certain = 0 := by ext i j; simp [valsG, certain, fval]
  refine ⟨⟨fun _ _ => (noTurn_pose.1.1 0), fun i j => by rw [e]; simp⟩, ?_⟩
  rw [e]; exact ⟨by simp, fun x => by simp⟩

theorem aboutX_ok : Bounded aboutX 1 ∧ IsCov (valsG aboutX) := by
  have t0 : (0 : ℝ) ≤ tenth := by unfold tenth; positivity
  refine ⟨⟨fun i j => ?_, fun i j => ?_⟩, ?_⟩
  · unfold aboutX
    split
    · exact tenth_double
    · exact noTurn_pose.1.1 0
  · unfold valsG aboutX
    split
    · simp only [fval]; rw [abs_of_nonneg t0]; unfold tenth; norm_num
    · simp [fval]
  · rw [aboutX_vals]
    exact Kinematics.cov_diagonal fun i => by split <;> [exact t0; exact le_rfl]

/-- **C172, the refuted part** The product of an exact translation and a transformation that is uncertain about one axis: whatever the order of the sums, the covariance is not symmetric, and its quadratic form has a negative value. -/
theorem C172_negation : ¬ C172_claim rndEven ∧ ∀ W, IsMulCov rndEven noTurn shift certain aboutX W →
    valsG W (.inl 1) (.inl 2) ≠ valsG W (.inl 2) (.inl 1) ∧ ∃ x : V6, x ⬝ᵥ (valsG W).mulVec x < 0 := by
  have main : ∀ W, IsMulCov rndEven noTurn shift certain aboutX W →
      valsG W (.inl 1) (.inl 2) ≠ valsG W (.inl 2) (.inl 1) ∧ ∃ x : V6, x ⬝ᵥ (valsG W).mulVec x < 0 := by
    intro W hW
    have e : ∀ i j, valsG W i j = (shiftW i j : ℝ) := fun i j => by unfold valsG; rw [shift_forced hW]; rfl
    refine ⟨?_, Sum.elim ![0, 7, 5] 0, ?_⟩
    · rw [e, e]
      have : shiftW (.inl 1) (.inl 2) ≠ shiftW (.inl 2) (.inl 1) := by decide +kernel
      exact_mod_cast this
    · have : 7 * (shiftW (.inl 1) (.inl 1) * 7 + shiftW (.inl 1) (.inl 2) * 5) + 5 * (shiftW (.inl 2) (.inl 1) * 7 + shiftW (.inl 2) (.inl 2) * 5) < 0 := by decide +kernel
      have h2 : (7 * (shiftW (.inl 1) (.inl 1) * 7 + shiftW (.inl 1) (.inl 2) * 5) + 5 * (shiftW (.inl 2) (.inl 1) * 7 + shiftW (.inl 2) (.inl 2) * 5) : ℝ) < 0 := by exact_mod_cast this
      simp only [dotProduct, mulVec, Fintype.sum_sum_type, Fin.sum_univ_three, e]
      simp
      linarith
  refine ⟨fun h => ?_, main⟩
  obtain ⟨W, hW⟩ := mulCov_exists rndEven noTurn shift certain aboutX
  have c := h noTurn shift certain aboutX W noTurn_pose certain_ok.1 aboutX_ok.1 certain_ok.2 aboutX_ok.2 hW
  obtain ⟨x, hx⟩ := (main W hW).2
  exact absurd (c.2 x) (not_le.2 hx)

/-- a case of the theorems -/
example : ∃ W, IsMulCov rndEven noTurn shift aboutX aboutX W ∧ Within W (UTransf.mul ⟨exactPose noTurn shift, valsG aboutX⟩ ⟨⟨0, 0⟩, valsG aboutX⟩).U (16 ^ 2 * 1 / 2 ^ 37) ∧
    ∀ i j, |valsG W i j - valsG W j i| ≤ 16 ^ 2 * 1 / 2 ^ 36 := by
  obtain ⟨W, hW⟩ := mulCov_exists rndEven noTurn shift aboutX aboutX
  have u1 : (2 : ℝ) ^ (-200 : ℤ) ≤ 1 := zpow_le_one_of_nonpos₀ (by norm_num) (by norm_num)
  have u2 : (1 : ℝ) ≤ 2 ^ (200 : ℤ) := by norm_num
  exact ⟨W, hW, C172_product isRnd_rndEven noTurn_pose (by norm_num) (by norm_num) aboutX_ok.1 aboutX_ok.1 u1 u2 hW _,
    (C172_semidefinite_partial isRnd_rndEven noTurn_pose (by norm_num) (by norm_num) aboutX_ok.1 aboutX_ok.1 u1 u2 aboutX_ok.2 aboutX_ok.2 hW).1⟩

theorem conj_exists (rnd : ℚ → ℚ) {ι κ : Type} {ks : List κ} (hks : ks ≠ []) (A : Matrix ι κ Fp) (U : Matrix κ κ Fp) : ∃ W, IsConj rnd ks A U W := by
  obtain ⟨P, hP⟩ := prod_exists rnd hks A U
  obtain ⟨W, hW⟩ := prod_exists rnd hks P A.transpose
  exact ⟨W, P, hP, hW⟩

theorem moveCov_exists (rnd : ℚ → ℚ) (q : F4) (t : F3) (U : FM6) : ∃ W, IsMoveCov rnd q t U W := by
  obtain ⟨K, hK⟩ := prod_exists rnd (ks := ks3) (by simp [ks3]) (fun i j => (crossMx t i j).neg) (quat2r rnd q)
  obtain ⟨W, hW⟩ := conj_exists rnd (ks := ks6) (by simp [ks6]) (Matrix.fromBlocks (quat2r rnd q) K (fun _ _ => .fin 0) (quat2r rnd q)) U
  exact ⟨W, _, ⟨K, hK, rfl⟩, hW⟩

theorem pointCov_exists (rnd : ℚ → ℚ) (q : F4) (t : F3) (U : FM6) (p : F4) (V : FM4) : ∃ W, IsPointCov rnd q t U p V W := by
  obtain ⟨P, hP⟩ := prod_exists rnd (ks := ks6) (by simp [ks6]) (boxMinus (mulV4 rnd q t p)) U
  obtain ⟨Q, hQ⟩ := prod_exists rnd (ks := ks4) (by simp [ks4]) (matT rnd q t) V
  have : ∀ i j, ∃ s, SumOf rnd (terms rnd ks6 P (boxMinus (mulV4 rnd q t p)).transpose i j ++ terms rnd ks4 Q (matT rnd q t).transpose i j) s := fun i j => sumOf_exists rnd _ (by simp [terms, ks6])
  choose W hW using this
  exact ⟨W, P, Q, hP, hQ, hW⟩

/-- a point, and a covariance of a point and of a vector -/
def somePoint : F4 := ![.fin 1, .fin 7, .fin 5, .fin 1]
def someV {n : ℕ} : Matrix (Fin n) (Fin n) Fp := fun i j => if i = j then .fin tenth else .fin 0

theorem somePoint_ok : Finite somePoint ∧ ∀ i, |vals somePoint i| ≤ 16 := by
  have a := noTurn_pose
  constructor
  · intro i; fin_cases i
    exacts [a.1.1 3, a.2.1 1, a.2.1 2, a.1.1 3]
  · intro i; fin_cases i <;> simp [vals, somePoint, fval] <;> norm_num

theorem someV_ok {n : ℕ} : Bounded (someV (n := n)) 1 := by
  have t0 : (0 : ℝ) ≤ tenth := by unfold tenth; positivity
  refine ⟨fun i j => ?_, fun i j => ?_⟩
  · unfold someV
    split
    · exact tenth_double
    · exact noTurn_pose.1.1 0
  · unfold valsG someV
    split
    · simp only [fval]; rw [abs_of_nonneg t0]; unfold tenth; norm_num
    · simp [fval]

/-- cases of the other theorems -/
example : (∃ W, IsMoveCov rndEven noTurn shift aboutX W ∧ Within W ((exactPose noTurn shift).mulUT ⟨⟨0, 0⟩, valsG aboutX⟩).U (16 ^ 2 * 1 / 2 ^ 38)) ∧
    (∃ W, IsRotateCov rndEven noTurn someV W ∧ Within W ((exactPose noTurn shift).rotateU ⟨0, valsG someV⟩).E (1 / 2 ^ 44)) ∧
    (∃ W, IsMovePointCov rndEven noTurn shift someV W ∧ Within W ((exactPose noTurn shift).mulUP ⟨0, valsG someV⟩).U (16 ^ 2 * 1 / 2 ^ 43)) ∧
    (∃ W, IsImageCov rndEven noTurn shift aboutX somePoint W ∧ Within W (UTransf.mulHP ⟨exactPose noTurn shift, valsG aboutX⟩ (vals somePoint)).U (16 ^ 2 * 16 ^ 2 * 1 / 2 ^ 35)) ∧
    (∃ W, IsPointCov rndEven noTurn shift aboutX somePoint someV W ∧ Within W (UTransf.mulUP ⟨exactPose noTurn shift, valsG aboutX⟩ ⟨vals somePoint, valsG someV⟩).U (16 ^ 2 * 16 ^ 2 * 1 / 2 ^ 34 + 16 ^ 2 * 1 / 2 ^ 40)) ∧
    ∃ W, IsInverseCov (R := rndEvenReal) (Eigen.plain _) ⟨noTurn, shift⟩ aboutX W ∧ FiniteM W := by
  have u1 : (2 : ℝ) ^ (-200 : ℤ) ≤ 1 := zpow_le_one_of_nonpos₀ (by norm_num) (by norm_num)
  have u2 : (1 : ℝ) ≤ 2 ^ (200 : ℤ) := by norm_num
  have u3 : (1 : ℝ) ≤ 2 ^ (100 : ℤ) := by norm_num
  have r1 : (2 : ℝ) ^ (-100 : ℤ) ≤ 16 := (zpow_le_one_of_nonpos₀ (by norm_num) (by norm_num)).trans (by norm_num)
  obtain ⟨W1, h1⟩ := moveCov_exists rndEven noTurn shift aboutX
  obtain ⟨W2, h2⟩ := conj_exists rndEven (ks := ks3) (by simp [ks3]) (quat2r rndEven noTurn) someV
  obtain ⟨W3, h3⟩ := conj_exists rndEven (ks := ks4) (by simp [ks4]) (matT rndEven noTurn shift) someV
  obtain ⟨W4, h4⟩ := conj_exists rndEven (ks := ks6) (by simp [ks6]) (boxMinus (mulV4 rndEven noTurn shift somePoint)) aboutX
  obtain ⟨W5, h5⟩ := pointCov_exists rndEven noTurn shift aboutX somePoint someV
  obtain ⟨W6, h6⟩ := moveCov_exists (fun q => rndEvenReal q) (TransformationD.inverse (R := rndEvenReal) (Eigen.plain _) ⟨noTurn, shift⟩).q (TransformationD.inverse (R := rndEvenReal) (Eigen.plain _) ⟨noTurn, shift⟩).t aboutX
  refine ⟨⟨W1, h1, C172_move isRnd_rndEven noTurn_pose (by norm_num) (by norm_num) aboutX_ok.1 u1 u2 h1 _⟩, ⟨W2, h2, C172_rotate isRnd_rndEven noTurn_pose someV_ok u1 u2 h2 _⟩,
    ⟨W3, h3, C172_movePoint isRnd_rndEven noTurn_pose (by norm_num) (by norm_num) someV_ok u1 u2 h3 _⟩,
    ⟨W4, h4, C172_image isRnd_rndEven noTurn_pose (by norm_num) (by norm_num) somePoint_ok.1 somePoint_ok.2 r1 (by norm_num) aboutX_ok.1 u1 u2 h4⟩,
    ⟨W5, h5, C172_point isRnd_rndEven noTurn_pose (by norm_num) (by norm_num) somePoint_ok.1 somePoint_ok.2 r1 (by norm_num) aboutX_ok.1 u1 u3 someV_ok u1 u3 h5⟩,
    ⟨W6, h6, (C172_inverse isRndR_rndEvenReal (Eigen.plain _) ⟨noTurn, shift⟩ noTurn_pose (by norm_num) (by norm_num) aboutX_ok.1 u1 u2 h6 ⟨0, 0⟩).2.1⟩⟩

end Verif.CovDouble
