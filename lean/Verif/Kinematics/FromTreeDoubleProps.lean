import Verif.Kinematics.FromTreeDouble
import Verif.Kinematics.FromTreeProps
import Verif.Kinematics.TransfDoubleProps
import Verif.PTree.CodecsProps

/-!
# C169: transformations in configuration files, on doubles
-/

namespace Verif.KinematicsDouble

open Verif.Common Verif.PTree Verif.PTree.Codecs
open Verif.Kinematics (andThen qName tName V3 V4)

local notation "nrm" => Kinematics.norm

/-! ## Specification -/

/-- the text of a decimal number, with an optional sign, between white space -/
def NumText (s : Str) (x : ℚ) : Prop :=
  ∃ w sg neg t w' q, s = w ++ sg ++ t ++ w' ∧ Blank w ∧ Blank w' ∧ Sign sg neg ∧ DecText t q ∧ x = if neg then -q else q

/-- the keys of the quaternion -/
def qKeys : Fin 4 → Str := !["q_a_b/x".toList, "q_a_b/y".toList, "q_a_b/z".toList, "q_a_b/w".toList]

/-- the keys of the translation -/
def tKeys : Fin 3 → Str := !["t_a_b_a/x".toList, "t_a_b_a/y".toList, "t_a_b_a/z".toList]

/-- the entry holds the text of this number -/
def Holds (t : PTree.Tree) (ns key : Str) (x : ℚ) : Prop := ∃ d, get Codecs.strCodec t ns key = .value d ∧ NumText d x

/-- a nearest double -/
def Nearest (f : Fp) (x : ℚ) : Prop := ∃ r, f = .fin r ∧ IsDouble r ∧ ∀ y, IsDouble y → |r - x| ≤ |y - x|

/-! ## Lemmas -/

theorem childKey {T} (c : Codec T) (t : PTree.Tree) {ns : Str} (hns : Namespace ns) :
    (get c t (childNamespace ns qName) ['x'] = get c t ns (qKeys 0)) ∧ (get c t (childNamespace ns qName) ['y'] = get c t ns (qKeys 1)) ∧
    (get c t (childNamespace ns qName) ['z'] = get c t ns (qKeys 2)) ∧ (get c t (childNamespace ns qName) ['w'] = get c t ns (qKeys 3)) ∧
    (get c t (childNamespace ns tName) ['x'] = get c t ns (tKeys 0)) ∧ (get c t (childNamespace ns tName) ['y'] = get c t ns (tKeys 1)) ∧
    (get c t (childNamespace ns tName) ['z'] = get c t ns (tKeys 2)) :=
  ⟨(C25_child_get hns _ _ c t).1, (C25_child_get hns _ _ c t).1, (C25_child_get hns _ _ c t).1, (C25_child_get hns _ _ c t).1,
    (C25_child_get hns _ _ c t).1, (C25_child_get hns _ _ c t).1, (C25_child_get hns _ _ c t).1⟩

variable {R : ℝ → ℚ} (hR : IsRndR R) (near : ℚ → ℤ)

theorem isDouble_big : IsDouble (2 ^ 1023) := ⟨1, 1023, by norm_num, by norm_num, by norm_num⟩

include hR in
theorem getDouble_holds {t : PTree.Tree} {ns key : Str} {x : ℚ} (h : Holds t ns key x) (hx : |x| ≤ 2 ^ 1023) :
    ∃ r, getDouble R near t ns key = .value (.fin r) ∧ IsDouble r ∧ |r| ≤ 2 ^ 1023 ∧ (∀ y, IsDouble y → |r - x| ≤ |y - x|) ∧
      |r - x| ≤ |x| / 2 ^ 53 + tiny := by
  obtain ⟨d, h1, w, sg, neg, s, w', q, rfl, hw, hw', hsg, ht, rfl⟩ := h
  have hr := hR.rat
  have hq0 : 0 ≤ q := by
    obtain ⟨i, fr, f, ex, e, rfl, hi, hf, hex, hne, rfl⟩ := ht
    exact mul_nonneg (Nat.cast_nonneg _) (zpow_nonneg (by norm_num) _)
  have habs : |if neg = true then -q else q| = q := by cases neg <;> simp [abs_of_nonneg hq0]
  rw [habs] at hx
  set rnd : ℚ → ℚ := fun q => R q with hrnd
  have hb : rnd q ≤ 2 ^ 1023 := hr.le_of_le isDouble_big hx
  have hp : 0 ≤ rnd q := hr.nonneg hq0
  have hlt : rnd q < 2 ^ 1024 := lt_of_le_of_lt hb (pow_lt_pow_right₀ (by norm_num) (by norm_num))
  have hg : get (doubleCodec near rnd) t ns key = .value (.finite neg (rnd q)) :=
    (C168_getDouble near t ns key).1 _ |>.mpr ⟨_, h1, w, sg, neg, s, w', q, rfl, hw, hw', hsg, ht, hlt, rfl⟩
  refine ⟨if neg then -rnd q else rnd q, ?_, ?_, ?_, ?_, ?_⟩
  · unfold getDouble
    rw [← hrnd, hg]
    rfl
  · cases neg
    · exact hr.mem q
    · exact (hr.mem q).neg
  · cases neg <;> simp [abs_of_nonneg hp, hb]
  · intro y hy
    cases neg
    · exact hr.near q y hy
    · have := hr.near q (-y) hy.neg
      simp only [if_true]
      rw [show -rnd q - -q = -(rnd q - q) by ring, abs_neg, show y - -q = -(-y - q) by ring, abs_neg]
      exact this
  · have := hr.err_any q
    rw [abs_of_nonneg hq0] at this
    rw [habs]
    cases neg
    · exact this
    · simp only [if_true]
      rw [show -rnd q - -q = -(rnd q - q) by ring, abs_neg]
      exact this

/-- directions of vectors that are close -/
theorem dir_close {n : ℕ} (u v : Fin n → ℝ) (hu : 0 < nrm u) (hv : 0 < nrm v) :
    nrm ((nrm u)⁻¹ • u - (nrm v)⁻¹ • v) ≤ 2 * nrm (u - v) / nrm v := by
  have e : (nrm u)⁻¹ • u - (nrm v)⁻¹ • v = ((nrm u)⁻¹ - (nrm v)⁻¹) • u + (nrm v)⁻¹ • (u - v) := by
    rw [sub_smul, smul_sub]; abel
  rw [e]
  refine (nrm_add _ _).trans ?_
  rw [nrm_smul, nrm_smul, abs_of_pos (inv_pos.2 hv)]
  have e2 : |(nrm u)⁻¹ - (nrm v)⁻¹| * nrm u = |nrm v - nrm u| / nrm v := by
    rw [inv_sub_inv hu.ne' hv.ne', abs_div, abs_mul, abs_of_pos hu, abs_of_pos hv]
    field_simp
  rw [e2]
  have := nrm_diff v u
  rw [nrm_sub_rev] at this
  have h3 : |nrm v - nrm u| / nrm v ≤ nrm (u - v) / nrm v := div_le_div_of_nonneg_right this hv.le
  rw [inv_mul_eq_div]
  calc _ ≤ nrm (u - v) / nrm v + nrm (u - v) / nrm v := by linarith
    _ = _ := by ring

include hR in
theorem divide_err (E : Eigen fun q => R q) (b : Bool) {q : F4} (hq : Finite q) (nq : InR (-200) 200 (nrm (vals q))) :
    Finite (divideByNorm E b q) ∧ nrm (vals (divideByNorm E b q) - (nrm (vals q))⁻¹ • vals q) ≤ 12 / 2 ^ 53 :=
  normalize_err hR { E with byReciprocal := b } hq nq


/-- normalising twice -/
theorem dir_unit {n : ℕ} {v : Fin n → ℝ} (h : 0 < nrm v) : nrm ((nrm v)⁻¹ • v) = 1 := by
  rw [nrm_smul, abs_of_pos (inv_pos.2 h), inv_mul_cancel₀ h.ne']

include hR in
theorem mkQT_err (E : Eigen fun q => R q) (b : Bool) {q : F4} (hq : Finite q) (nq : InR (-200) 200 (nrm (vals q))) (t : F3) :
    Finite (TransformationD.mkQT E (divideByNorm E b q) t).q ∧ |nrm (vals (TransformationD.mkQT E (divideByNorm E b q) t).q) - 1| ≤ 12 / 2 ^ 53 ∧
    nrm (vals (TransformationD.mkQT E (divideByNorm E b q) t).q - (nrm (vals q))⁻¹ • vals q) ≤ 36 / 2 ^ 53 := by
  obtain ⟨d1, d2⟩ := divide_err hR E b hq nq
  set d := divideByNorm E b q with hd
  have hu := dir_unit nq.pos
  have n1 := nrm_diff (vals d) ((nrm (vals q))⁻¹ • vals q)
  rw [hu] at n1
  have n2 := n1.trans d2
  have n3 := abs_le.1 n2
  have hin : InR (-200) 200 (nrm (vals d)) := inR_near_one (by norm_num at n3 ⊢; linarith) (by norm_num at n3 ⊢; linarith)
  obtain ⟨e1, e2⟩ := normalize_err hR E d1 hin
  have hu2 := dir_unit hin.pos
  have n4 := nrm_diff (vals (normalize E d)) ((nrm (vals d))⁻¹ • vals d)
  rw [hu2] at n4
  refine ⟨e1, n4.trans e2, ?_⟩
  have e : (nrm (vals d))⁻¹ • vals d - vals d = ((nrm (vals d))⁻¹ - 1) • vals d := by rw [sub_smul, one_smul]
  have e3 : nrm ((nrm (vals d))⁻¹ • vals d - vals d) = |nrm (vals d) - 1| := by
    have h := hin.pos
    rw [e, nrm_smul, show (nrm (vals d))⁻¹ - 1 = -((nrm (vals d) - 1) / nrm (vals d)) by field_simp; ring, abs_neg, abs_div, abs_of_pos h,
      div_mul_cancel₀ _ h.ne']
  have t1 := nrm_sub_le (vals (normalize E d)) ((nrm (vals d))⁻¹ • vals d) ((nrm (vals q))⁻¹ • vals q)
  have t2 := nrm_sub_le ((nrm (vals d))⁻¹ • vals d) (vals d) ((nrm (vals q))⁻¹ • vals q)
  change nrm (vals (normalize E d) - _) ≤ _
  rw [e3] at t2
  have : (36 : ℝ) / 2 ^ 53 = 12 / 2 ^ 53 + (12 / 2 ^ 53 + 12 / 2 ^ 53) := by norm_num
  linarith

theorem round_near {z : V4} {q x : Fin 4 → ℚ} (hQv : z - (fun i => (x i : ℝ)) = fun i => ((q i - x i : ℚ) : ℝ))
    (hq5 : ∀ i, |q i - x i| ≤ |x i| / 2 ^ 53 + tiny) (nx : InR (-150) 150 (nrm fun i => (x i : ℝ))) :
    nrm (z - fun i => (x i : ℝ)) ≤ 2 / 2 ^ 53 * nrm (fun i => (x i : ℝ)) ∧ InR (-200) 200 (nrm z) := by
  set y : V4 := fun i => (x i : ℝ) with hy
  have hpos := nx.pos
  have ht0 : (0 : ℝ) < tiny := by exact_mod_cast tiny_pos
  have hd : nrm (z - y) ≤ 2 / 2 ^ 53 * nrm y := by
    have h1 : nrm (z - y) ≤ nrm ((fun i => |y i| / 2 ^ 53) + fun _ => (tiny : ℝ)) := by
      rw [hQv]
      refine nrm_mono fun i => ?_
      have := hq5 i
      have h : |((q i - x i : ℚ) : ℝ)| ≤ |(x i : ℝ)| / 2 ^ 53 + tiny := by exact_mod_cast this
      exact h
    have h2 : nrm (fun i => |y i| / 2 ^ 53) ≤ 1 / 2 ^ 53 * nrm y := by
      rw [← nrm_abs y]
      refine nrm_le_of (by norm_num) fun i => ?_
      rw [abs_of_nonneg (by positivity)]
      exact le_of_eq (by ring)
    have h3 := nrm_const (n := 4) (tiny : ℝ) ht0.le le_rfl
    have h4 := nrm_add (fun i => |y i| / 2 ^ 53) (fun _ => (tiny : ℝ))
    have h5 : 2 * (tiny : ℝ) ≤ 1 / 2 ^ 53 * nrm y := by
      have h6 := tiny_le (S := nrm y) ⟨le_trans (zpow_le_zpow_right₀ (by norm_num) (by norm_num)) nx.1,
        nx.2.trans (zpow_le_zpow_right₀ (by norm_num) (by norm_num))⟩
      norm_num at h6 ⊢
      linarith
    have : 2 / 2 ^ 53 * nrm y = 1 / 2 ^ 53 * nrm y + 1 / 2 ^ 53 * nrm y := by ring
    linarith
  have hN := abs_le.1 ((nrm_diff (z) y).trans hd)
  have hQn : InR (-200) 200 (nrm (z)) := by
    have e1 : (2 : ℝ) ^ (-200 : ℤ) ≤ 2 ^ (-150 : ℤ) / 2 := by
      rw [show (-200 : ℤ) = (-150) + (-50) by norm_num, zpow_add₀ (by norm_num), div_eq_mul_inv]
      refine mul_le_mul_of_nonneg_left ?_ (by positivity)
      norm_num [zpow_neg]
    have e2 : (2 : ℝ) ^ (150 : ℤ) * 2 ≤ 2 ^ (200 : ℤ) := by
      rw [show (200 : ℤ) = 150 + 50 by norm_num, zpow_add₀ (by norm_num)]
      refine mul_le_mul_of_nonneg_left ?_ (by positivity)
      norm_num
    have h1 := nx.1
    have h2 := nx.2
    have h3 : 2 / 2 ^ 53 * nrm y ≤ nrm y / 2 := by norm_num; linarith
    have h4 := hN.1
    have h5 := hN.2
    unfold InR
    generalize (2 : ℝ) ^ (-150 : ℤ) = A at *
    generalize (2 : ℝ) ^ (-200 : ℤ) = B at *
    generalize (2 : ℝ) ^ (150 : ℤ) = C at *
    generalize (2 : ℝ) ^ (200 : ℤ) = D at *
    exact ⟨by linarith only [h1, h3, h4, e1], by linarith only [h2, h3, h5, hpos, e2]⟩
  exact ⟨hd, hQn⟩

/-! ## The property -/

include hR in
/-- **C169** If the seven entries hold decimal numbers (those of the quaternion of a norm between 2⁻¹⁵⁰ and 2¹⁵⁰), the result has the nearest
doubles as translation, and a quaternion within 40/2⁵³ of the unit quaternion in the direction of the numbers that were written. -/
theorem C169_reads (E : Eigen fun q => R q) (b : Bool) (t : PTree.Tree) {ns : Str} (hns : Namespace ns) (x : Fin 4 → ℚ) (v : Fin 3 → ℚ)
    (hx : ∀ i, Holds t ns (qKeys i) (x i)) (hv : ∀ i, Holds t ns (tKeys i) (v i)) (hv' : ∀ i, |v i| ≤ 2 ^ 1023)
    (nx : InR (-150) 150 (nrm fun i => (x i : ℝ))) :
    ∃ X, transformationFromTree E near b t ns = .value X ∧ Finite X.q ∧ Finite X.t ∧ |nrm (vals X.q) - 1| ≤ 12 / 2 ^ 53 ∧
      nrm (vals X.q - (nrm fun i => (x i : ℝ))⁻¹ • fun i => (x i : ℝ)) ≤ 40 / 2 ^ 53 ∧ ∀ i, Nearest (X.t i) (v i) := by
  set y : V4 := fun i => (x i : ℝ) with hy
  have hx' : ∀ i, |x i| ≤ 2 ^ 1023 := by
    intro i
    have h1 := (abs_le_nrm y i).trans nx.2
    have h2 : (2 : ℝ) ^ (150 : ℤ) ≤ 2 ^ (1023 : ℕ) := by
      rw [← zpow_natCast]; exact zpow_le_zpow_right₀ (by norm_num) (by norm_num)
    have h3 := h1.trans h2
    have h4 : |(x i : ℝ)| ≤ ((2 ^ 1023 : ℚ) : ℝ) := by rw [Rat.cast_pow, Rat.cast_ofNat]; exact h3
    rw [← Rat.cast_abs] at h4
    exact Rat.cast_le.1 h4
  choose q hq1 hq2 hq3 hq4 hq5 using fun i => getDouble_holds hR near (hx i) (hx' i)
  choose w hw1 hw2 hw3 hw4 hw5 using fun i => getDouble_holds hR near (hv i) (hv' i)
  have k := childKey (doubleCodec near fun q => R q) t hns
  have hlt : (2 : ℚ) ^ 1023 < tooBig := pow_lt_pow_right₀ (by norm_num) (by norm_num)
  let Q : F4 := fun i => .fin (q i)
  have hQ : Finite Q := fun i => ⟨rfl, hq2 i, (hq3 i).trans_lt hlt⟩
  have hQv : vals Q - y = fun i => ((q i - x i : ℚ) : ℝ) := by
    funext i
    exact (Rat.cast_sub _ _).symm
  have hpos := nx.pos
  obtain ⟨hd, hQn⟩ := round_near hQv (fun i => hq5 i) nx
  obtain ⟨m1, m2, m3⟩ := mkQT_err hR E b hQ hQn fun i => .fin (w i)
  refine ⟨TransformationD.mkQT E (divideByNorm E b Q) fun i => .fin (w i), ?_, m1, fun i => ⟨rfl, hw2 i, (hw3 i).trans_lt hlt⟩, m2, ?_,
    fun i => ⟨w i, rfl, hw2 i, hw4 i⟩⟩
  · have g : ∀ ns key, getDouble R near t ns key = andThen (get (doubleCodec near fun q => R q) t ns key) fun v => .value (ofF64 v) := fun _ _ => rfl
    unfold transformationFromTree quaternionFromTree vector3FromTree
    have c0 : getDouble R near t (childNamespace ns qName) ['x'] = .value (.fin (q 0)) := by rw [g, k.1, ← g]; exact hq1 0
    have c1 : getDouble R near t (childNamespace ns qName) ['y'] = .value (.fin (q 1)) := by rw [g, k.2.1, ← g]; exact hq1 1
    have c2 : getDouble R near t (childNamespace ns qName) ['z'] = .value (.fin (q 2)) := by rw [g, k.2.2.1, ← g]; exact hq1 2
    have c3 : getDouble R near t (childNamespace ns qName) ['w'] = .value (.fin (q 3)) := by rw [g, k.2.2.2.1, ← g]; exact hq1 3
    have c4 : getDouble R near t (childNamespace ns tName) ['x'] = .value (.fin (w 0)) := by rw [g, k.2.2.2.2.1, ← g]; exact hw1 0
    have c5 : getDouble R near t (childNamespace ns tName) ['y'] = .value (.fin (w 1)) := by rw [g, k.2.2.2.2.2.1, ← g]; exact hw1 1
    have c6 : getDouble R near t (childNamespace ns tName) ['z'] = .value (.fin (w 2)) := by rw [g, k.2.2.2.2.2.2, ← g]; exact hw1 2
    rw [c0, c1, c2, c3, c4, c5, c6]
    simp only [andThen]
    have eQ : (![.fin (q 0), .fin (q 1), .fin (q 2), .fin (q 3)] : F4) = Q := by funext i; fin_cases i <;> rfl
    have eW : (![.fin (w 0), .fin (w 1), .fin (w 2)] : F3) = fun i => .fin (w i) := by funext i; fin_cases i <;> rfl
    rw [eQ, eW]
  · have d := dir_close (vals Q) y hQn.pos hpos
    clear hx' hv' hq3 hw3 hlt
    have e : 2 * nrm (vals Q - y) / nrm y ≤ 4 / 2 ^ 53 := by
      rw [div_le_iff₀ hpos]
      calc _ ≤ 2 * (2 / 2 ^ 53 * nrm y) := by linarith
        _ = _ := by ring
    have t1 := nrm_sub_le (vals (TransformationD.mkQT E (divideByNorm E b Q) fun i => .fin (w i)).q) ((nrm (vals Q))⁻¹ • vals Q) ((nrm y)⁻¹ • y)
    have : (40 : ℝ) / 2 ^ 53 = 36 / 2 ^ 53 + 4 / 2 ^ 53 := by norm_num
    linarith

/-- the seven keys in the order in which they are read -/
def allKeys : List Str := ["q_a_b/x", "q_a_b/y", "q_a_b/z", "q_a_b/w", "t_a_b_a/x", "t_a_b_a/y", "t_a_b_a/z"].map String.toList

/-- **C169** In all other cases an exception is thrown, that of the first entry (in the order of the list) that is missing or not a number in the range of a
double. -/
theorem C169_errors (E : Eigen fun q => R q) (b : Bool) (t : PTree.Tree) {ns : Str} (hns : Namespace ns) :
    (∀ (pre post : List Str) (k : Str), allKeys = pre ++ k :: post → (∀ k' ∈ pre, ∃ v, get (doubleCodec near fun q => R q) t ns k' = .value v) →
      (get (doubleCodec near fun q => R q) t ns k = .badKey → transformationFromTree E near b t ns = .badKey) ∧
      (get (doubleCodec near fun q => R q) t ns k = .badValue → transformationFromTree E near b t ns = .badValue)) ∧
    ((∃ X, transformationFromTree E near b t ns = .value X) ↔ ∀ k ∈ allKeys, ∃ v, get (doubleCodec near fun q => R q) t ns k = .value v) := by
  obtain ⟨k1, k2, k3, k4, k5, k6, k7⟩ := childKey (doubleCodec near fun q => R q) t hns
  unfold transformationFromTree quaternionFromTree vector3FromTree getDouble
  rw [k1, k2, k3, k4, k5, k6, k7]
  simp only [qKeys, tKeys, Matrix.cons_val]
  have ha : allKeys = ["q_a_b/x".toList, "q_a_b/y".toList, "q_a_b/z".toList, "q_a_b/w".toList, "t_a_b_a/x".toList, "t_a_b_a/y".toList, "t_a_b_a/z".toList] := rfl
  rw [ha]
  generalize "q_a_b/x".toList = a1
  generalize "q_a_b/y".toList = a2
  generalize "q_a_b/z".toList = a3
  generalize "q_a_b/w".toList = a4
  generalize "t_a_b_a/x".toList = a5
  generalize "t_a_b_a/y".toList = a6
  generalize "t_a_b_a/z".toList = a7
  clear ha k1 k2 k3 k4 k5 k6 k7
  generalize get (doubleCodec near fun q => R q) t ns = g
  constructor
  · intro pre post p he hpre
    have hlen : pre.length < 7 := by
      have := congrArg List.length he
      simp at this
      omega
    have hp : p = [a1, a2, a3, a4, a5, a6, a7][pre.length]'(by simpa using hlen) := by
      simp [he]
    have hpr : pre = [a1, a2, a3, a4, a5, a6, a7].take pre.length := by simp [he]
    rw [hpr] at hpre
    clear hpr he
    revert hp hpre hlen
    generalize pre.length = n
    intro hpre hlen hp
    have cases7 : n = 0 ∨ n = 1 ∨ n = 2 ∨ n = 3 ∨ n = 4 ∨ n = 5 ∨ n = 6 := by omega
    rcases cases7 with rfl | rfl | rfl | rfl | rfl | rfl | rfl <;>
      simp at hp hpre <;> subst hp <;>
      constructor <;> intro hb <;> simp [hb, andThen]
    all_goals
      first
        | (obtain ⟨⟨a, ha⟩, ⟨b, hb'⟩, ⟨d, hd⟩, ⟨e, he'⟩, ⟨f, hf⟩, ⟨g, hg⟩⟩ := hpre; simp [ha, hb', hd, he', hf, hg, hb, andThen])
        | (obtain ⟨⟨a, ha⟩, ⟨b, hb'⟩, ⟨d, hd⟩, ⟨e, he'⟩, ⟨f, hf⟩⟩ := hpre; simp [ha, hb', hd, he', hf, hb, andThen])
        | (obtain ⟨⟨a, ha⟩, ⟨b, hb'⟩, ⟨d, hd⟩, ⟨e, he'⟩⟩ := hpre; simp [ha, hb', hd, he', hb, andThen])
        | (obtain ⟨⟨a, ha⟩, ⟨b, hb'⟩, ⟨d, hd⟩⟩ := hpre; simp [ha, hb', hd, hb, andThen])
        | (obtain ⟨⟨a, ha⟩, ⟨b, hb'⟩⟩ := hpre; simp [ha, hb', hb, andThen])
        | (obtain ⟨a, ha⟩ := hpre; simp [ha, hb, andThen])
  · simp only [List.mem_cons, List.not_mem_nil, or_false, forall_eq_or_imp, forall_eq]
    cases g a1 <;> simp only [andThen] <;> try simp
    cases g a2 <;> simp only [andThen] <;> try simp
    cases g a3 <;> simp only [andThen] <;> try simp
    cases g a4 <;> simp only [andThen] <;> try simp
    cases g a5 <;> simp only [andThen] <;> try simp
    cases g a6 <;> simp only [andThen] <;> try simp
    cases g a7 <;> simp only [andThen] <;> simp

/-! ## Storing and reading again -/

/-- a number of entries below a path are written -/
def puts (t : PTree.Tree) (P : List Key) : List (List Key × Str) → PTree.Tree
  | [] => t
  | (k, v) :: l => puts (putFrags t (P ++ k) v) P l

theorem getData_puts (P : List Key) (n : ℕ) : ∀ (l : List (List Key × Str)) (t : PTree.Tree) (k : List Key) (v : Str),
    (∀ e ∈ l, e.1.length = n) → (l.map Prod.fst).Nodup → k.length = n → ((k, v) ∈ l ∨ (k ∉ l.map Prod.fst ∧ getData t (P ++ k) = some v)) →
    getData (puts t P l) (P ++ k) = some v
  | [], _, _, _, _, _, _, h => by simpa [puts] using h
  | (k', v') :: l, t, k, v, hl, hn, hk, h => by
    simp only [List.map_cons, List.nodup_cons] at hn
    unfold puts
    refine getData_puts P n l _ k v (fun e he => hl e (by simp [he])) hn.2 hk ?_
    simp only [List.mem_cons, List.map_cons] at h
    rcases h with (h | h) | h
    · obtain ⟨rfl, rfl⟩ := Prod.mk.inj h
      right
      exact ⟨hn.1, by rw [getData_putFrags, if_pos rfl]⟩
    · exact .inl h
    · right
      simp only [not_or] at h
      refine ⟨h.1.2, ?_⟩
      rw [getData_putFrags, if_neg (by simpa using h.1.1), h.2]

/-- the texts that `store` writes -/
def storeList (near : ℚ → ℤ) (X : TransformationD) : List (List Key × Str) :=
  [([qName, ['x']], printDouble near (toF64 (X.q 0))), ([qName, ['y']], printDouble near (toF64 (X.q 1))),
   ([qName, ['z']], printDouble near (toF64 (X.q 2))), ([qName, ['w']], printDouble near (toF64 (X.q 3))),
   ([tName, ['x']], printDouble near (toF64 (X.t 0))), ([tName, ['y']], printDouble near (toF64 (X.t 1))),
   ([tName, ['z']], printDouble near (toF64 (X.t 2)))]

theorem set_at (R : ℝ → ℚ) (t : PTree.Tree) {ns : Str} (hns : Namespace ns) (g : Str) (k : Char) (hg : '/' ∉ g) (hg0 : g ≠ [])
    (hk : k ≠ '/') (x : F64) : set (doubleCodec near fun q => R q) t (childNamespace ns g) [k] x =
      some (putFrags t (names '/' ns.tail ++ [g, [k]]) (printDouble near x)) := by
  obtain ⟨h1, h2⟩ := Kinematics.path_of hns g k hg hg0 hk
  rw [set_eq _ (.child _ _ hns) _ h2, h1]
  rfl

theorem store_eq (R : ℝ → ℚ) (t : PTree.Tree) {ns : Str} (hns : Namespace ns) (X : TransformationD) :
    store R near t ns X = some (puts t (names '/' ns.tail) (storeList near X)) := by
  unfold store
  simp only [set_at near R _ hns qName _ (by decide) (by decide) (by decide : 'x' ≠ '/'),
    set_at near R _ hns qName _ (by decide) (by decide) (by decide : 'y' ≠ '/'),
    set_at near R _ hns qName _ (by decide) (by decide) (by decide : 'z' ≠ '/'),
    set_at near R _ hns qName _ (by decide) (by decide) (by decide : 'w' ≠ '/'),
    set_at near R _ hns tName _ (by decide) (by decide) (by decide : 'x' ≠ '/'),
    set_at near R _ hns tName _ (by decide) (by decide) (by decide : 'y' ≠ '/'),
    set_at near R _ hns tName _ (by decide) (by decide) (by decide : 'z' ≠ '/'), Option.bind_some]
  rfl

theorem ofF64_toF64 (x : Fp) : ofF64 (toF64 x) = x := by
  cases x with
  | fin q =>
    by_cases h : q < 0
    · simp [toF64, ofF64, h, abs_of_neg h]
    · simp [toF64, ofF64, h, abs_of_nonneg (not_lt.1 h)]
  | inf neg => rfl
  | nan => rfl

include hR in
theorem getDouble_stored (hn : IsNearest near) (t : PTree.Tree) {ns : Str} (hns : Namespace ns) (X : TransformationD) {g : Str} {k : Char} {x : Fp}
    (hg : '/' ∉ g) (hg0 : g ≠ []) (hk : k ≠ '/') (hm : ([g, [k]], printDouble near (toF64 x)) ∈ storeList near X) (hx : x.isFinite ∧ IsDoubleVal x) :
    getDouble R near (puts t (names '/' ns.tail) (storeList near X)) (childNamespace ns g) [k] = .value x := by
  obtain ⟨h1, h2⟩ := Kinematics.path_of hns g k hg hg0 hk
  have hp : parseDouble (fun q => R q) (printDouble near (toF64 x)) = some (toF64 x) := by
    rw [parseDouble_iff]
    obtain ⟨hf, hd⟩ := hx
    cases x with
    | fin q => exact doubleText_print hn hR.rat _ ⟨abs_nonneg _, by
        rcases abs_choice q with h | h <;> rw [h]
        exacts [hd.1, hd.1.neg], hd.2⟩
    | inf neg => simp [Fp.isFinite] at hf
    | nan => simp [Fp.isFinite] at hf
  unfold getDouble
  rw [get_eq _ (.child _ _ hns) _ h2, h1, getData_puts _ 2 _ t _ _ (by simp [storeList]) (by simp [storeList, qName, tName]) rfl (.inl hm)]
  simp only [readAs, doubleCodec, hp, andThen, ofF64_toF64]

include hR in
theorem stored_read (hn : IsNearest near) (E : Eigen fun q => R q) (b : Bool) (t : PTree.Tree) {ns : Str} (hns : Namespace ns)
    (X : TransformationD) (hq : Finite X.q) (ht : Finite X.t) :
    ∃ t', store R near t ns X = some t' ∧ transformationFromTree E near b t' ns = .value (.mkQT E (divideByNorm E b X.q) X.t) := by
  refine ⟨_, store_eq near R t hns X, ?_⟩
  unfold transformationFromTree quaternionFromTree vector3FromTree
  rw [getDouble_stored hR near hn t hns X (x := X.q 0) (by decide) (by decide) (by decide) (by simp [storeList]) (hq 0),
    getDouble_stored hR near hn t hns X (x := X.q 1) (by decide) (by decide) (by decide) (by simp [storeList]) (hq 1),
    getDouble_stored hR near hn t hns X (x := X.q 2) (by decide) (by decide) (by decide) (by simp [storeList]) (hq 2),
    getDouble_stored hR near hn t hns X (x := X.q 3) (by decide) (by decide) (by decide) (by simp [storeList]) (hq 3),
    getDouble_stored hR near hn t hns X (x := X.t 0) (by decide) (by decide) (by decide) (by simp [storeList]) (ht 0),
    getDouble_stored hR near hn t hns X (x := X.t 1) (by decide) (by decide) (by decide) (by simp [storeList]) (ht 1),
    getDouble_stored hR near hn t hns X (x := X.t 2) (by decide) (by decide) (by decide) (by simp [storeList]) (ht 2)]
  simp only [andThen]
  congr 2
  · congr 1; funext i; fin_cases i <;> rfl
  · funext i; fin_cases i <;> rfl

include hR in
/-- **C169** A transformation of the library that is stored as seven numbers and read again, any number of times: every cycle succeeds, the
translation is the same bit for bit, the quaternion stays normalised and moves by at most 48/2⁵³ in each cycle. -/
theorem C169_reload (hn : IsNearest near) (E : Eigen fun q => R q) (b : Bool) (t : PTree.Tree) {ns : Str} (hns : Namespace ns) (n : ℕ)
    (X : TransformationD) (hq : Finite X.q) (nq : |nrm (vals X.q) - 1| ≤ 12 / 2 ^ 53) (ht : Finite X.t) :
    ∃ Y, reload E near b t ns n X = some Y ∧ Y.t = X.t ∧ Finite Y.q ∧ |nrm (vals Y.q) - 1| ≤ 12 / 2 ^ 53 ∧
      nrm (vals Y.q - vals X.q) ≤ n * (48 / 2 ^ 53) := by
  induction n generalizing X with
  | zero => exact ⟨X, rfl, rfl, hq, nq, by simp [nrm_zero]⟩
  | succ n ih =>
    have n3 := abs_le.1 nq
    have hin : InR (-200) 200 (nrm (vals X.q)) := inR_near_one (by norm_num at n3 ⊢; linarith) (by norm_num at n3 ⊢; linarith)
    obtain ⟨t', s1, s2⟩ := stored_read hR near hn E b t hns X hq ht
    obtain ⟨m1, m2, m3⟩ := mkQT_err hR E b hq hin X.t
    obtain ⟨Y, y1, y2, y3, y4, y5⟩ := ih (.mkQT E (divideByNorm E b X.q) X.t) m1 m2 ht
    refine ⟨Y, ?_, y2, y3, y4, ?_⟩
    · unfold reload
      rw [s1]
      simp only [Option.bind_some, s2]
      exact y1
    · have h := hin.pos
      have e3 : nrm ((nrm (vals X.q))⁻¹ • vals X.q - vals X.q) = |nrm (vals X.q) - 1| := by
        have e : (nrm (vals X.q))⁻¹ • vals X.q - vals X.q = ((nrm (vals X.q))⁻¹ - 1) • vals X.q := by rw [sub_smul, one_smul]
        rw [e, nrm_smul, show (nrm (vals X.q))⁻¹ - 1 = -((nrm (vals X.q) - 1) / nrm (vals X.q)) by field_simp; ring, abs_neg, abs_div,
          abs_of_pos h, div_mul_cancel₀ _ h.ne']
      have t1 := nrm_sub_le (vals (TransformationD.mkQT E (divideByNorm E b X.q) X.t).q) ((nrm (vals X.q))⁻¹ • vals X.q) (vals X.q)
      have t2 := nrm_sub_le (vals Y.q) (vals (TransformationD.mkQT E (divideByNorm E b X.q) X.t).q) (vals X.q)
      push_cast
      have : (48 : ℝ) / 2 ^ 53 = 36 / 2 ^ 53 + 12 / 2 ^ 53 := by norm_num
      linarith

/-! ## Instances -/

/-- a configuration with a transformation below `/cam` -/
def config : PTree.Tree :=
  .node [] [("cam".toList, .node [] [
    ("q_a_b".toList, .node [] [("x".toList, .node "0.1".toList []), ("y".toList, .node " -.2 ".toList []), ("z".toList, .node "3e-1".toList []), ("w".toList, .node "1".toList [])]),
    ("t_a_b_a".toList, .node [] [("x".toList, .node "+0.7".toList []), ("y".toList, .node "1e10".toList []), ("z".toList, .node "-0".toList [])])])]

theorem exp_none_dec {t i fr f : Str} {q : ℚ} (ht : t = i ++ fr) (hi : AllDigits i) (hf : FracText fr f) (hne : i ++ f ≠ [])
    (hq : q = (Nat.ofDigitChars 10 (i ++ f) 0 : ℚ) * 10 ^ (-(f.length : ℤ))) : DecText t q :=
  ⟨i, fr, f, [], 0, by simpa using ht, hi, hf, .none, hne, by rw [hq]; norm_num⟩

theorem config_q (i : Fin 4) : Holds config "/cam/".toList (qKeys i) ((![1 / 10, -1 / 5, 3 / 10, 1] : Fin 4 → ℚ) i) := by
  fin_cases i
  · refine ⟨"0.1".toList, by decide +kernel, [], [], false, "0.1".toList, [], 1 / 10, rfl, by simp [Blank], by simp [Blank], .none, ?_, rfl⟩
    exact exp_none_dec (i := ['0']) (fr := ['.', '1']) (f := ['1']) rfl (by simp [AllDigits]) (.some (by simp [AllDigits])) (by simp) (by decide +kernel)
  · refine ⟨" -.2 ".toList, by decide +kernel, [' '], ['-'], true, ".2".toList, [' '], 1 / 5, rfl, by simp [Blank], by simp [Blank], .minus, ?_, by decide +kernel⟩
    exact exp_none_dec (i := []) (fr := ['.', '2']) (f := ['2']) rfl (by simp [AllDigits]) (.some (by simp [AllDigits])) (by simp) (by decide +kernel)
  · refine ⟨"3e-1".toList, by decide +kernel, [], [], false, "3e-1".toList, [], 3 / 10, rfl, by simp [Blank], by simp [Blank], .none, ?_, rfl⟩
    exact ⟨['3'], [], [], ['e', '-', '1'], -1, rfl, by simp [AllDigits], .none,
      .some (c := 'e') (sg := ['-']) (neg := true) (d := ['1']) (by decide) .minus (by simp [AllDigits]) (by decide), by simp, by decide +kernel⟩
  · refine ⟨"1".toList, by decide +kernel, [], [], false, "1".toList, [], 1, rfl, by simp [Blank], by simp [Blank], .none, ?_, rfl⟩
    exact exp_none_dec (i := ['1']) (f := []) rfl (by simp [AllDigits]) .none (by simp) (by decide +kernel)

theorem config_t (i : Fin 3) : Holds config "/cam/".toList (tKeys i) ((![7 / 10, 10 ^ 10, 0] : Fin 3 → ℚ) i) := by
  fin_cases i
  · refine ⟨"+0.7".toList, by decide +kernel, [], ['+'], false, "0.7".toList, [], 7 / 10, rfl, by simp [Blank], by simp [Blank], .plus, ?_, rfl⟩
    exact exp_none_dec (i := ['0']) (fr := ['.', '7']) (f := ['7']) rfl (by simp [AllDigits]) (.some (by simp [AllDigits])) (by simp) (by decide +kernel)
  · refine ⟨"1e10".toList, by decide +kernel, [], [], false, "1e10".toList, [], 10 ^ 10, rfl, by simp [Blank], by simp [Blank], .none, ?_, rfl⟩
    exact ⟨['1'], [], [], ['e', '1', '0'], 10, rfl, by simp [AllDigits], .none,
      .some (c := 'e') (sg := []) (neg := false) (d := ['1', '0']) (by decide) .none (by simp [AllDigits]) (by decide), by simp, by decide +kernel⟩
  · refine ⟨"-0".toList, by decide +kernel, [], ['-'], true, "0".toList, [], 0, rfl, by simp [Blank], by simp [Blank], .minus, ?_, by decide +kernel⟩
    exact exp_none_dec (i := ['0']) (f := []) rfl (by simp [AllDigits]) .none (by simp) (by decide +kernel)

/-- this configuration is read, on every machine, and what was read survives a million cycles of writing and reading -/
example (hn : IsNearest near) (hR : IsRndR R) (E : Eigen fun q => R q) (b : Bool) :
    ∃ X Y, transformationFromTree E near b config "/cam/".toList = .value X ∧ reload E near b config "/cam/".toList 1000000 X = some Y ∧ Y.t = X.t ∧
      nrm (vals Y.q - vals X.q) ≤ 1 / 10 ^ 8 := by
  have hns : Namespace "/cam/".toList := .child (rootNamespace []) "cam".toList (.root [])
  have hbig : ∀ x : ℚ, |x| ≤ 10 ^ 11 → |x| ≤ 2 ^ 1023 := fun x h => h.trans (by
    calc (10 : ℚ) ^ 11 ≤ 2 ^ 40 := by norm_num
      _ ≤ _ := pow_le_pow_right₀ (by norm_num) (by norm_num))
  obtain ⟨X, h1, h2, h3, h4, -⟩ := C169_reads hR near E b config hns _ _ config_q config_t
    (fun i => hbig _ (by fin_cases i <;> norm_num)) (by
      have : nrm (fun i => (((![1 / 10, -1 / 5, 3 / 10, 1] : Fin 4 → ℚ) i : ℚ) : ℝ)) = Real.sqrt (114 / 100) := by
        rw [Kinematics.norm, Kinematics.sq4]
        congr 1
        simp
        norm_num
      rw [this]
      have a : (1 : ℝ) ≤ Real.sqrt (114 / 100) := by rw [Real.one_le_sqrt]; norm_num
      have c : Real.sqrt (114 / 100) ≤ 2 := by rw [Real.sqrt_le_left (by norm_num)]; norm_num
      exact ⟨le_trans (zpow_le_one_of_nonpos₀ (by norm_num) (by norm_num)) a,
        c.trans (by simpa using zpow_le_zpow_right₀ (a := (2 : ℝ)) (by norm_num) (show (1 : ℤ) ≤ 150 by norm_num))⟩)
  obtain ⟨Y, y1, y2, -, -, y5⟩ := C169_reload hR near hn E b config hns 1000000 X h2 h4 h3
  exact ⟨X, Y, h1, y1, y2, y5.trans (by norm_num)⟩

/-- and a configuration without a translation is refused -/
example (E : Eigen fun q => R q) (b : Bool) : transformationFromTree E near b (.node [] []) "/cam/".toList = .badKey :=
  ((C169_errors near E b _ (ns := "/cam/".toList) (.child (rootNamespace []) "cam".toList (.root []))).1 [] _ _ rfl (by simp)).1 rfl

end Verif.KinematicsDouble
