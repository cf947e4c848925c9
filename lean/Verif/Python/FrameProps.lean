import Verif.Python.Frame
import Verif.Kinematics.ThreePointProps

/-! # C143: drawn coordinate frames -/

namespace Verif.Python.Frame

open Verif.Kinematics

/-- the two ends of a drawn line -/
def Line.start (l : Line) : V3 := ![l.xs 0, l.ys 0, l.zs 0]
def Line.stop (l : Line) : V3 := ![l.xs 1, l.ys 1, l.zs 1]

/-- the unit vectors along the axes -/
def e (i : Fin 3) : V3 := fun j => if j = i then 1 else 0

/-- the rigid motion of points by a rotation and a translation -/
def move (C : M3) (t p : V3) : V3 := C.mulVec p + t

theorem ends (C : M3) (t : V3) (s w : ℝ) (k : Fin 3) :
    let l := plot3D (twoPoints (rt2Transform C t * pointsInFrame s) 0 (Fin.succ k)) "" w
    l.start = move C t 0 ∧ l.stop = move C t (s • e k) := by
  constructor
  · ext i
    fin_cases i <;>
      simp [Line.start, plot3D, twoPoints, pointsInFrame, rt2Transform, move, Matrix.mul_apply, Fin.sum_univ_succ, Matrix.mulVec, dotProduct]
  · ext i
    fin_cases k <;> fin_cases i <;>
      simp [Line.stop, plot3D, twoPoints, pointsInFrame, rt2Transform, move, Matrix.mul_apply, Fin.sum_univ_succ, Matrix.mulVec, dotProduct, e]

theorem col_inner {C : M3} (h : IsRotation C) (i j : Fin 3) : Kinematics.inner (C.mulVec (e i)) (C.mulVec (e j)) = if i = j then 1 else 0 := by
  have h2 := congrFun (congrFun h.2.1 i) j
  rw [Matrix.one_apply] at h2
  rw [← h2]
  unfold Kinematics.inner
  rw [Matrix.mul_apply]
  refine Finset.sum_congr rfl fun k _ => ?_
  have : ∀ i, C.mulVec (e i) k = C k i := by
    intro i
    simp [Matrix.mulVec, dotProduct, e]
  rw [this, this]; rfl

/-- **C143** For every rigid transformation, size and line width: three lines, red, green and blue in this order, from the image of the origin to the images of the points at distance `size` on the axes; they have length `|size|`, are perpendicular to each other, and form a right-handed frame (for `size > 0`); the two-dimensional version draws the first two of them. -/
theorem C143_frame (C : M3) (hC : IsRotation C) (t : V3) (size w : ℝ) :
    ∃ l : Fin 3 → Line, plotCoordinateFrame (rt2Transform C t) size w = [l 0, l 1, l 2] ∧
      plot2DCoordinateFrame (rt2Transform C t) size w = [l 0, l 1] ∧
      (l 0).format = "r-" ∧ (l 1).format = "g-" ∧ (l 2).format = "b-" ∧
      (∀ k, (l k).linewidth = w ∧ (l k).start = move C t 0 ∧ (l k).stop = move C t (size • e k) ∧ Kinematics.norm ((l k).stop - (l k).start) = |size|) ∧
      (∀ i j, i ≠ j → Kinematics.inner ((l i).stop - (l i).start) ((l j).stop - (l j).start) = 0) ∧
      cross ((l 0).stop - (l 0).start) ((l 1).stop - (l 1).start) = size • ((l 2).stop - (l 2).start) := by
  let fmt : Fin 3 → String := ![("r-" : String), "g-", "b-"]
  have hends : ∀ k : Fin 3, (plot3D (twoPoints (rt2Transform C t * pointsInFrame size) 0 (Fin.succ k)) (fmt k) w).start = move C t 0 ∧
      (plot3D (twoPoints (rt2Transform C t * pointsInFrame size) 0 (Fin.succ k)) (fmt k) w).stop = move C t (size • e k) :=
    fun k => ends C t size w k
  have hdiff : ∀ k : Fin 3, move C t (size • e k) - move C t 0 = size • C.mulVec (e k) := by
    intro k
    simp only [move, Matrix.mulVec_smul, Matrix.mulVec_zero, zero_add, add_sub_cancel_right]
  refine ⟨fun k => plot3D (twoPoints (rt2Transform C t * pointsInFrame size) 0 (Fin.succ k)) (fmt k) w, rfl, rfl, rfl, rfl, rfl, ?_, ?_, ?_⟩
  · intro k
    obtain ⟨h1, h2⟩ := hends k
    refine ⟨rfl, h1, h2, ?_⟩
    show Kinematics.norm (_ - _) = _
    rw [h1, h2, hdiff]
    have hi := col_inner hC k k
    rw [if_pos rfl] at hi
    unfold Kinematics.norm sqNorm
    have : ∑ i, (size • C.mulVec (e k)) i * (size • C.mulVec (e k)) i = size ^ 2 := by
      have e1 : ∑ i, (size • C.mulVec (e k)) i * (size • C.mulVec (e k)) i = size ^ 2 * Kinematics.inner (C.mulVec (e k)) (C.mulVec (e k)) := by
        unfold Kinematics.inner
        rw [Finset.mul_sum]
        refine Finset.sum_congr rfl fun i _ => ?_
        simp only [Pi.smul_apply, smul_eq_mul]; ring
      rw [e1, hi, mul_one]
    rw [this, Real.sqrt_sq_eq_abs]
  · intro i j hij
    show Kinematics.inner (_ - _) (_ - _) = 0
    rw [(hends i).1, (hends i).2, (hends j).1, (hends j).2, hdiff, hdiff]
    have hi := col_inner hC i j
    rw [if_neg hij] at hi
    have e1 : Kinematics.inner (size • C.mulVec (e i)) (size • C.mulVec (e j)) = size ^ 2 * Kinematics.inner (C.mulVec (e i)) (C.mulVec (e j)) := by
      unfold Kinematics.inner
      rw [Finset.mul_sum]
      refine Finset.sum_congr rfl fun i _ => ?_
      simp only [Pi.smul_apply, smul_eq_mul]; ring
    rw [e1, hi, mul_zero]
  · show cross (_ - _) (_ - _) = size • (_ - _)
    rw [(hends 0).1, (hends 0).2, (hends 1).1, (hends 1).2, (hends 2).1, (hends 2).2, hdiff, hdiff, hdiff]
    have hx : cross (C.mulVec (e 0)) (C.mulVec (e 1)) = C.mulVec (e 2) := by
      rw [rot_cross hC]
      congr 1
      ext i; fin_cases i <;> simp [cross, e]
    have e1 : cross (size • C.mulVec (e 0)) (size • C.mulVec (e 1)) = size • size • cross (C.mulVec (e 0)) (C.mulVec (e 1)) := by
      ext i; fin_cases i <;> simp [cross] <;> ring
    rw [e1, hx]

/-- Concrete: a quarter turn about z, moved by (1, 2, 3): the x axis is drawn from (1, 2, 3) to (1, 4, 3) with size 2. -/
example : IsRotation !![0, -1, 0; 1, 0, 0; 0, 0, 1] ∧
    move !![0, -1, 0; 1, 0, 0; 0, 0, 1] ![1, 2, 3] ((2 : ℝ) • e 0) = ![1, 4, 3] := by
  refine ⟨⟨?_, ?_, ?_⟩, ?_⟩
  · ext i j; fin_cases i <;> fin_cases j <;> simp [Matrix.mul_apply, Fin.sum_univ_succ]
  · ext i j; fin_cases i <;> fin_cases j <;> simp [Matrix.mul_apply, Fin.sum_univ_succ]
  · simp [Matrix.det_fin_three]
  · ext i; fin_cases i <;> simp [move, e, Matrix.mulVec, dotProduct, Fin.sum_univ_succ]
    norm_num

end Verif.Python.Frame
