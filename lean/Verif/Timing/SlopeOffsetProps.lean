import Verif.Timing.SlopeOffset
import Verif.Timing.IntProps

/-!
# C171: slope and offset of a timestamp corrector describe the line it uses
-/

namespace Verif.Timing.Machine

open Verif.Common
open Verif.Timing.Corrector (Point lineAt cross)

/-- the exact slope of the line through two points -/
def slopeOf (a b : Point) : ℚ := (b.y - a.y) / (b.x - a.x)

/-- the exact value of that line at remote time 0 -/
def offsetOf (a b : Point) : ℚ := lineAt a b 0

theorem lineAt_eq (a b : Point) (r : ℚ) : lineAt a b r = offsetOf a b + slopeOf a b * r := by
  simp only [lineAt, offsetOf, slopeOf]
  ring

/-- the error of a slope computed from rounded differences -/
theorem slope_err {rnd : ℚ → ℚ} (h : IsRnd rnd) {dy dx dy' dx' : ℚ} (hdx : 0 < dx) (h1 : |dy' - dy| ≤ |dy| / 2 ^ 53) (h2 : |dx' - dx| ≤ |dx| / 2 ^ 53) :
    |rnd (dy' / dx') - dy / dx| ≤ |dy / dx| * 5 / 2 ^ 53 + tiny := by
  have e1 := quot_err hdx h1 h2
  set s := dy / dx with hs
  have a1 := h.err_any (dy' / dx')
  have a2 : |dy' / dx'| ≤ |s| * (1 + 3 / 2 ^ 53) := by
    have : dy' / dx' = (dy' / dx' - s) + s := by ring
    rw [this]
    refine (abs_add_le _ _).trans ?_
    linarith
  have : rnd (dy' / dx') - s = (rnd (dy' / dx') - dy' / dx') + (dy' / dx' - s) := by ring
  rw [this]
  refine (abs_add_le _ _).trans ?_
  have ps := abs_nonneg s
  have : |dy' / dx'| / 2 ^ 53 ≤ |s| * (1 + 3 / 2 ^ 53) / 2 ^ 53 := by gcongr
  linarith

/-- the error of `x * dy / dx` with all operations rounded -/
theorem shift_err {rnd : ℚ → ℚ} (h : IsRnd rnd) {x dy dx x' dy' dx' : ℚ} (hdx : 1 / 2 ^ 64 ≤ dx) (h0 : |x' - x| ≤ |x| / 2 ^ 53) (h1 : |dy' - dy| ≤ |dy| / 2 ^ 53)
    (h2 : |dx' - dx| ≤ |dx| / 2 ^ 53) :
    |rnd (rnd (x' * dy') / dx') - x * dy / dx| ≤ |x * dy / dx| * 7 / 2 ^ 53 + 2 ^ 66 * tiny := by
  have t0 := tiny_pos
  have hp : (0 : ℚ) < 1 / 2 ^ 64 := by norm_num
  have hdx0 : 0 < dx := hp.trans_le hdx
  have px := abs_nonneg x
  have pd := abs_nonneg dy
  have pxd : 0 ≤ |x| * |dy| := by positivity
  have e1 : |x' * dy' - x * dy| ≤ |x| * |dy| * (2 / 2 ^ 53 + 1 / 2 ^ 106) := by
    have : x' * dy' - x * dy = (x' - x) * dy + x * (dy' - dy) + (x' - x) * (dy' - dy) := by ring
    rw [this]
    have t1 : |(x' - x) * dy| ≤ |x| / 2 ^ 53 * |dy| := by rw [abs_mul]; gcongr
    have t2 : |x * (dy' - dy)| ≤ |x| * (|dy| / 2 ^ 53) := by rw [abs_mul]; gcongr
    have t3 : |(x' - x) * (dy' - dy)| ≤ (|x| / 2 ^ 53) * (|dy| / 2 ^ 53) := by rw [abs_mul]; gcongr
    refine (abs_sum3 t1 t2 t3).trans (le_of_eq ?_)
    ring
  set m := rnd (x' * dy') with hm
  have a1 := h.err_any (x' * dy')
  have a2 : |x' * dy'| ≤ |x| * |dy| * (1 + 3 / 2 ^ 53) := by
    have : x' * dy' = (x' * dy' - x * dy) + x * dy := by ring
    rw [this]
    refine (abs_add_le _ _).trans ?_
    rw [abs_mul x dy]
    nlinarith
  have e2 : |m - x * dy| ≤ |x| * |dy| * (7 / 2) / 2 ^ 53 + tiny := by
    have : m - x * dy = (m - x' * dy') + (x' * dy' - x * dy) := by ring
    rw [this]
    refine (abs_add_le _ _).trans ?_
    rw [← hm] at a1
    have : |x' * dy'| / 2 ^ 53 ≤ |x| * |dy| * (1 + 3 / 2 ^ 53) / 2 ^ 53 := by gcongr
    nlinarith
  have py : dx * (1 - 1 / 2 ^ 53) ≤ dx' := by
    rw [abs_of_pos hdx0] at h2
    have := (abs_le.1 h2).1
    linarith
  have p0 : 0 < dx' := lt_of_lt_of_le (by nlinarith) py
  have e3 : |m / dx' - x * dy / dx| ≤ |x * dy / dx| * 5 / 2 ^ 53 + 2 ^ 65 * tiny := by
    have e : m / dx' - x * dy / dx = ((m - x * dy) * dx - x * dy * (dx' - dx)) / (dx' * dx) := by field_simp; ring
    rw [e, abs_div, abs_div, abs_of_pos hdx0, abs_of_pos (mul_pos p0 hdx0), div_le_iff₀ (mul_pos p0 hdx0), abs_mul x dy]
    have n1 : |(m - x * dy) * dx - x * dy * (dx' - dx)| ≤ |x| * |dy| * dx * (9 / 2) / 2 ^ 53 + tiny * dx := by
      refine (abs_sub _ _).trans ?_
      rw [abs_mul, abs_mul, abs_of_pos hdx0, abs_mul x dy]
      rw [abs_of_pos hdx0] at h2
      have t1 : |m - x * dy| * dx ≤ (|x| * |dy| * (7 / 2) / 2 ^ 53 + tiny) * dx := by gcongr
      have t2 : |x| * |dy| * |dx' - dx| ≤ |x| * |dy| * (dx / 2 ^ 53) := by gcongr
      linarith
    refine n1.trans ?_
    have e2 : (|x| * |dy| / dx * 5 / 2 ^ 53 + 2 ^ 65 * tiny) * (dx' * dx) = |x| * |dy| * (5 / 2 ^ 53) * dx' + 2 ^ 65 * tiny * (dx' * dx) := by field_simp
    rw [e2]
    have u1 : |x| * |dy| * (5 / 2 ^ 53) * (dx * (1 - 1 / 2 ^ 53)) ≤ |x| * |dy| * (5 / 2 ^ 53) * dx' := by gcongr
    have u2 : tiny * dx ≤ 2 ^ 65 * tiny * (dx' * dx) := by
      have : 1 ≤ 2 ^ 65 * dx' := by nlinarith
      nlinarith [mul_pos t0 hdx0]
    have hxy : 0 ≤ |x| * |dy| * dx := by positivity
    nlinarith
  set s := x * dy / dx with hs
  have a3 := h.err_any (m / dx')
  have ps := abs_nonneg s
  have a4 : |m / dx'| ≤ |s| * (1 + 5 / 2 ^ 53) + 2 ^ 65 * tiny := by
    have : m / dx' = (m / dx' - s) + s := by ring
    rw [this]
    refine (abs_add_le _ _).trans ?_
    linarith
  have : rnd (m / dx') - s = (rnd (m / dx') - m / dx') + (m / dx' - s) := by ring
  rw [this]
  refine (abs_add_le _ _).trans ?_
  have : |m / dx'| / 2 ^ 53 ≤ (|s| * (1 + 5 / 2 ^ 53) + 2 ^ 65 * tiny) / 2 ^ 53 := by gcongr
  nlinarith

/-- the error of `y + x * dy / dx` with all operations rounded -/
theorem offset_err {rnd : ℚ → ℚ} (h : IsRnd rnd) {y y' ey x dy dx x' dy' dx' : ℚ} (hy : IsDouble y') (hey : |y' - y| ≤ ey) (hdx : 1 / 2 ^ 64 ≤ dx) (h0 : |x' - x| ≤ |x| / 2 ^ 53)
    (h1 : |dy' - dy| ≤ |dy| / 2 ^ 53) (h2 : |dx' - dx| ≤ |dx| / 2 ^ 53) :
    |rnd (y' + rnd (rnd (x' * dy') / dx')) - (y + x * dy / dx)| ≤ |y + x * dy / dx| / 2 ^ 53 + 2 * ey + |x * dy / dx| / 2 ^ 50 + 2 ^ 67 * tiny := by
  have t0 := tiny_pos
  have e1 := shift_err h hdx h0 h1 h2
  have e2 := h.err_add hy (h.mem (rnd (x' * dy') / dx'))
  set m := rnd (rnd (x' * dy') / dx') with hm
  set s := x * dy / dx with hs
  have pe : 0 ≤ ey := (abs_nonneg _).trans hey
  have ps := abs_nonneg s
  have a1 : |y' + m - (y + s)| ≤ ey + (|s| * 7 / 2 ^ 53 + 2 ^ 66 * tiny) := by
    have : y' + m - (y + s) = (y' - y) + (m - s) := by ring
    rw [this]
    exact (abs_add_le _ _).trans (by linarith)
  have a2 : |y' + m| ≤ |y + s| + |y' + m - (y + s)| := by
    have : y' + m = (y + s) + (y' + m - (y + s)) := by ring
    conv_lhs => rw [this]
    exact abs_add_le _ _
  have : rnd (y' + m) - (y + s) = (rnd (y' + m) - (y' + m)) + (y' + m - (y + s)) := by ring
  rw [this]
  refine (abs_add_le _ _).trans ?_
  have a3 : |y' + m| / 2 ^ 53 ≤ (|y + s| + (ey + (|s| * 7 / 2 ^ 53 + 2 ^ 66 * tiny))) / 2 ^ 53 := by gcongr; linarith
  nlinarith
/-- with at least three points in the hull the segment index is inside it -/
theorem segment_ex {T : Type} {A : Arith T} {val : T → ℚ} {V : Pt T → Prop} (hS : Safe A val V) (obs : List (Pt T)) (hV : ∀ p ∈ obs, V p) (hl : 3 ≤ (feed A .fresh obs).hull.length) :
    ∃ a b, (feed A .fresh obs).hull[(feed A .fresh obs).mid]? = some a ∧ (feed A .fresh obs).hull[(feed A .fresh obs).mid + 1]? = some b ∧ val a.x < val b.x ∧ a ∈ accepted val obs ∧ b ∈ accepted val obs ∧
      [a, b].Sublist (accepted val obs) := by
  have hk := feed_kept hS obs hV
  have key : ∃ a b, (feed A .fresh obs).hull[(feed A .fresh obs).mid]? = some a ∧ (feed A .fresh obs).hull[(feed A .fresh obs).mid + 1]? = some b := by
    clear hk
    induction obs using List.reverseRecOn with
    | nil => simp [feed, Corr.fresh] at hl
    | append_singleton obs p ih =>
      have hk := feed_kept hS obs (fun q hq => hV q (by simp [hq]))
      have hs := step hS hk (fun q hq => hV q (by simp [accepted_subset _ _ q hq])) (hV p (by simp))
      rw [feed_snoc] at hl ⊢
      by_cases hc : ∃ q, (accepted val obs).getLast? = some q ∧ val p.x ≤ val q.x
      · rw [hs.1 hc] at hl ⊢
        exact ih (fun q hq => hV q (by simp [hq])) hl
      · push Not at hc
        obtain ⟨h', -, h2, -, -, h5⟩ := hs.2 hc
        obtain ⟨q, m, a, b, v, -, -, ha, hb, -⟩ := h5 (by rw [← h2]; exact hl)
        exact ⟨a, b, ha, hb⟩
  obtain ⟨a, b, ha, hb⟩ := key
  obtain ⟨hi, ea⟩ := List.getElem?_eq_some_iff.1 ha
  obtain ⟨hi', eb⟩ := List.getElem?_eq_some_iff.1 hb
  have hab : val a.x < val b.x := by
    have := List.pairwise_iff_getElem.1 hk.inc _ _ hi hi' (by omega)
    rwa [ea, eb] at this
  refine ⟨a, b, ha, hb, hab, hk.sub.subset (List.mem_of_getElem? ha), hk.sub.subset (List.mem_of_getElem? hb), ?_⟩
  refine List.Sublist.trans ?_ hk.sub
  have e : (feed A .fresh obs).hull.drop (feed A .fresh obs).mid = a :: b :: (feed A .fresh obs).hull.drop ((feed A .fresh obs).mid + 2) := by
    rw [List.drop_eq_getElem_cons hi, List.drop_eq_getElem_cons hi', ea, eb]
  refine List.Sublist.trans ?_ (List.drop_sublist (feed A .fresh obs).mid _)
  rw [e]
  exact ((List.nil_sublist _).cons₂ b).cons₂ a

theorem onSegment_eq {T : Type} {f : Pt T → Pt T → Option Fp} {c : Corr T} (hl : 3 ≤ c.hull.length) {a b : Pt T} (ha : c.hull[c.mid]? = some a) (hb : c.hull[c.mid + 1]? = some b)
    {v : Fp} (e : f a b = some v) : onSegment f c = .value v := by
  unfold onSegment
  rw [if_neg (by omega), ha, hb]
  simp only [e]

/-- the values of slope and offset of two points, far from overflow -/
theorem dblLine_eq {rnd : ℚ → ℚ} (h : IsRnd rnd) {a b : Pt Fp} (ha : Fine a) (hb : Fine b) (hgap : fval a.x + 1 / 2 ^ 64 ≤ fval b.x) :
    ∃ S O, (dblLine rnd).slope a b = some (.fin S) ∧ (dblLine rnd).offset a b = some (.fin O) ∧
      |S - slopeOf (toQ a) (toQ b)| ≤ |slopeOf (toQ a) (toQ b)| * 5 / 2 ^ 53 + tiny ∧
      |O - offsetOf (toQ a) (toQ b)| ≤ |offsetOf (toQ a) (toQ b)| / 2 ^ 53 + |slopeOf (toQ a) (toQ b) * fval a.x| / 2 ^ 50 + 2 ^ 67 * tiny := by
  obtain ⟨ax, ay⟩ := a
  obtain ⟨bx, by'⟩ := b
  obtain ⟨⟨ax, rfl, dax, bax⟩, ⟨ay, rfl, day, bay⟩⟩ := ha
  obtain ⟨⟨bx, rfl, dbx, bbx⟩, ⟨b', rfl, dby, bby⟩⟩ := hb
  simp only [fval] at hgap
  obtain ⟨s1, c1⟩ := fsub_eq h bby bay
  obtain ⟨s2, -⟩ := fsub_eq h bbx bax
  have h64 : (0 : ℚ) < 1 / 2 ^ 64 := by norm_num
  have hdx : 1 / 2 ^ 64 ≤ rnd (bx - ax) := by
    refine h.ge_of_ge ?_ (by linarith)
    have := isDouble_pow (-64) (by norm_num)
    rwa [show (2 : ℚ) ^ (-64 : ℤ) = 1 / 2 ^ 64 by rw [zpow_neg]; norm_num] at this
  have hdx0 : 0 < rnd (bx - ax) := lt_of_lt_of_le h64 hdx
  have hq : ∀ {z : ℚ} {n : ℕ}, |z| ≤ 2 ^ n → |z / rnd (bx - ax)| ≤ 2 ^ (n + 64) := by
    intro z n hz
    rw [abs_div, abs_of_pos hdx0, div_le_iff₀ hdx0]
    refine hz.trans ?_
    have : (2 : ℚ) ^ (n + 64) * (1 / 2 ^ 64) ≤ 2 ^ (n + 64) * rnd (bx - ax) := by gcongr
    refine le_trans (le_of_eq ?_) this
    rw [pow_add]
    field_simp
  have e1 : ∀ {z : ℚ} {n : ℕ}, |z| ≤ 2 ^ n → n + 64 ≤ 1022 → fdiv rnd (.fin z) (.fin (rnd (bx - ax))) = .fin (rnd (z / rnd (bx - ax))) := by
    intro z n hz hn
    simp only [fdiv, Fp.div]
    rw [if_neg hdx0.ne']
    exact rounded_of_le h _ hn (hq hz)
  obtain ⟨e2, c2⟩ := fmul_eq h (show |(-ax)| ≤ 2 ^ 64 by rw [abs_neg]; exact bax) c1 (by norm_num)
  have c3 := rnd_abs_le h (hq c2)
  set M := rnd (rnd (-ax * rnd (b' - ay)) / rnd (bx - ax)) with hM
  have e3 : fadd rnd (.fin ay) (.fin M) = .fin (rnd (ay + M)) := by
    simp only [fadd, Fp.add]
    refine rounded_of_le h 194 (by norm_num) ((abs_add_le _ _).trans ?_)
    have : (2 : ℚ) ^ 64 + 2 ^ (64 + 65 + 64) ≤ 2 ^ 194 := by norm_num
    linarith
  refine ⟨rnd (rnd (b' - ay) / rnd (bx - ax)), rnd (ay + M), ?_, ?_, ?_, ?_⟩
  · simp only [dblLine, s1, s2, e1 c1 (by norm_num)]
  · simp only [dblLine, s1, s2, Fp.neg, e2, e1 c2 (by norm_num), ← hM, e3]
  · exact slope_err h (by linarith : 0 < bx - ax) (h.err_sub dby day) (h.err_sub dbx dax)
  · have z : |(-ax) - (-ax)| ≤ |(-ax)| / 2 ^ 53 := by rw [sub_self, abs_zero]; positivity
    have := offset_err h (y := ay) (ey := 0) day (by rw [sub_self, abs_zero]) (by linarith : 1 / 2 ^ 64 ≤ bx - ax) z (h.err_sub dby day) (h.err_sub dbx dax)
    have o1 : offsetOf (toQ ⟨.fin ax, .fin ay⟩) (toQ ⟨.fin bx, .fin b'⟩) = ay + -ax * (b' - ay) / (bx - ax) := by
      simp only [offsetOf, lineAt, toQ, fval]
      ring
    have o2 : |slopeOf (toQ ⟨.fin ax, .fin ay⟩) (toQ ⟨.fin bx, .fin b'⟩) * fval (.fin ax)| = |-ax * (b' - ay) / (bx - ax)| := by
      rw [← abs_neg]
      congr 1
      simp only [slopeOf, toQ, fval]
      ring
    rw [o1, o2]
    linarith

/-- **C171** (doubles) For remote and local times of at most 2^64, accepted remote times at least 2^-64 apart: once three points are kept, `getSlope` and `getOffset` are the slope and the offset of the line
that `getLocalTime` uses, up to rounding: the slope has a relative error of 5 / 2^53, the offset an error that grows with the remote times; so `getOffset() + getSlope() * r` (evaluated exactly) differs from
`getLocalTime(r)` by the sizes of the numbers involved, remote times included, times about 2^-48. -/
theorem C171_double_partial {rnd : ℚ → ℚ} (h : IsRnd rnd) (obs : List (Pt Fp)) (hf : ∀ q ∈ obs, Fine q)
    (hg : (accepted fval obs).Pairwise fun a b => fval a.x + 1 / 2 ^ 64 ≤ fval b.x) (hl : 3 ≤ (feed (dbl rnd) .fresh obs).hull.length) :
    ∃ a b S O, a ∈ obs ∧ b ∈ obs ∧ fval a.x < fval b.x ∧
      getSlope (dblLine rnd) (feed (dbl rnd) .fresh obs) = .value (.fin S) ∧ getOffset (dblLine rnd) (feed (dbl rnd) .fresh obs) = .value (.fin O) ∧
      |S - slopeOf (toQ a) (toQ b)| ≤ |slopeOf (toQ a) (toQ b)| * 5 / 2 ^ 53 + tiny ∧
      |O - offsetOf (toQ a) (toQ b)| ≤ |offsetOf (toQ a) (toQ b)| / 2 ^ 53 + |slopeOf (toQ a) (toQ b) * fval a.x| / 2 ^ 50 + 2 ^ 67 * tiny ∧
      ∀ r, Bounded (2 ^ 64) r → ∃ V, getLocalTime (dbl rnd) (feed (dbl rnd) .fresh obs) r = .value (.fin V) ∧
        |V - (O + S * fval r)| ≤ (|lineAt (toQ a) (toQ b) (fval r)| + |offsetOf (toQ a) (toQ b)|) / 2 ^ 53 + |slopeOf (toQ a) (toQ b)| * (|fval a.x| + |fval r|) / 2 ^ 48 + 2 ^ 70 * tiny := by
  have hB : ∀ q ∈ obs, Bounded limit q.x := by
    intro q hq
    obtain ⟨⟨v, e, d, b⟩, -⟩ := hf q hq
    exact ⟨v, e, d, b.trans (pow_le_limit 64 (by norm_num))⟩
  obtain ⟨a, b, ha, hb, hab, ma, mb, hsub⟩ := segment_ex (dbl_safe h) obs hB hl
  have hgap : fval a.x + 1 / 2 ^ 64 ≤ fval b.x := by
    have := hg.sublist hsub
    simpa using this
  have fa := hf a (accepted_subset _ _ a ma)
  have fb := hf b (accepted_subset _ _ b mb)
  obtain ⟨S, O, eS, eO, hS, hO⟩ := dblLine_eq h fa fb hgap
  refine ⟨a, b, S, O, accepted_subset _ _ a ma, accepted_subset _ _ b mb, hab, onSegment_eq hl ha hb eS, onSegment_eq hl ha hb eO, hS, hO, fun r hr => ?_⟩
  obtain ⟨V, eV, hV⟩ := dbl_line h fa fb hr hgap
  refine ⟨V, ?_, ?_⟩
  · unfold getLocalTime
    rw [if_neg (by omega), ha, hb]
    simp only [eV]
  · have br : |fval r| ≤ 2 ^ 64 := by
      obtain ⟨q, rfl, -, hq⟩ := hr
      exact hq
    have t0 := tiny_pos
    set s := slopeOf (toQ a) (toQ b) with hs
    set o := offsetOf (toQ a) (toQ b) with ho
    set L := lineAt (toQ a) (toQ b) (fval r) with hL
    have eL : L = o + s * fval r := lineAt_eq _ _ _
    have eA : fval a.y = o + s * fval a.x := by
      rw [ho, hs, ← lineAt_eq]
      simp [lineAt, toQ]
    have p1 : |L - fval a.y| ≤ |s| * (|fval a.x| + |fval r|) := by
      rw [eL, eA, show o + s * fval r - (o + s * fval a.x) = s * (fval r - fval a.x) by ring, abs_mul]
      gcongr
      exact (abs_sub _ _).trans (by linarith)
    have p2 : |(S - s) * fval r| ≤ (|s| * 5 / 2 ^ 53 + tiny) * |fval r| := by
      rw [abs_mul]
      gcongr
    have e : V - (O + S * fval r) = (V - L) + -(O - o) + -((S - s) * fval r) := by rw [eL]; ring
    rw [e]
    refine (abs_sum3 hV ((abs_neg _).le.trans hO) ((abs_neg _).le.trans p2)).trans ?_
    rw [abs_mul s]
    have q1 := abs_nonneg s
    have q2 := mul_nonneg q1 (abs_nonneg (fval a.x))
    have q3 := mul_nonneg q1 (abs_nonneg (fval r))
    have q4 : tiny * |fval r| ≤ tiny * 2 ^ 64 := by gcongr
    nlinarith

/-- **C171** (claim) For times in seconds since 1970 (below 2^31), at least a microsecond apart, `getOffset() + getSlope() * r` is `getLocalTime(r)` to the nanosecond. -/
def C171_claim : Prop := ∀ (rnd : ℚ → ℚ), IsRnd rnd → ∀ (obs : List (Pt Fp)) (r : Fp) (S O V : ℚ), (∀ q ∈ obs, Bounded (2 ^ 31) q.x ∧ Bounded (2 ^ 31) q.y) → Bounded (2 ^ 31) r →
  ((accepted fval obs).Pairwise fun a b => fval a.x + 1 / 10 ^ 6 ≤ fval b.x) → 3 ≤ (feed (dbl rnd) .fresh obs).hull.length →
  getSlope (dblLine rnd) (feed (dbl rnd) .fresh obs) = .value (.fin S) → getOffset (dblLine rnd) (feed (dbl rnd) .fresh obs) = .value (.fin O) →
  getLocalTime (dbl rnd) (feed (dbl rnd) .fresh obs) r = .value (.fin V) → |V - (O + S * fval r)| ≤ 1 / 10 ^ 9

theorem bounded_int {B : ℚ} (n : ℤ) (h1 : |n| < 2 ^ 53) (h2 : |(n : ℚ)| ≤ B) : Bounded B (.fin n) := ⟨n, rfl, isDouble_int n h1, h2⟩

/-- **C171** (refuted) A remote clock in seconds since 1970 and a local clock that started 684 s ago: the two answers differ by more than 178 ns. -/
theorem C171_negation : ¬ C171_claim := by
  intro H
  have hb : ∀ n : ℤ, |n| < 2 ^ 31 → Bounded (2 ^ 31) (.fin n) := fun n hn =>
    bounded_int n (hn.trans (by norm_num)) (by exact_mod_cast hn.le)
  have e : accepted fval [⟨.fin 1599958197, .fin 684⟩, ⟨.fin 1599958204, .fin 690⟩, ⟨.fin 1599958206, .fin 693⟩] =
      [⟨.fin 1599958197, .fin 684⟩, ⟨.fin 1599958204, .fin 690⟩, ⟨.fin 1599958206, .fin 693⟩] := by decide +kernel
  have key := H rndNearest isRnd_rndNearest [⟨.fin 1599958197, .fin 684⟩, ⟨.fin 1599958204, .fin 690⟩, ⟨.fin 1599958206, .fin 693⟩] (.fin 1599958206)
    (rndNearest (6 / 7)) (rndNearest (684 + rndNearest (rndNearest (-1599958197 * 6) / 7))) (rndNearest (684 + rndNearest (rndNearest (6 / 7) * 9))) (by
    intro q hq
    simp only [List.mem_cons, List.not_mem_nil, or_false] at hq
    rcases hq with rfl | rfl | rfl
    · exact ⟨by exact_mod_cast hb 1599958197 (by norm_num), by exact_mod_cast hb 684 (by norm_num)⟩
    · exact ⟨by exact_mod_cast hb 1599958204 (by norm_num), by exact_mod_cast hb 690 (by norm_num)⟩
    · exact ⟨by exact_mod_cast hb 1599958206 (by norm_num), by exact_mod_cast hb 693 (by norm_num)⟩) (by exact_mod_cast hb 1599958206 (by norm_num))
    (by rw [e]; simp [fval]; norm_num) (by decide +kernel) (by decide +kernel) (by decide +kernel) (by decide +kernel)
  revert key
  decide +kernel

/-! ## int64 -/

theorem int_err {rnd : ℚ → ℚ} (h : IsRnd rnd) (y : ℤ) : |rnd y - y| ≤ |(y : ℚ)| / 2 ^ 53 := h.err_mult ⟨y * 2 ^ 1074, by
    push_cast
    rw [zpow_neg, mul_assoc, show (2 : ℚ) ^ 1074 * (2 ^ (1074 : ℤ))⁻¹ = 1 by
      rw [show (2 : ℚ) ^ (1074 : ℤ) = 2 ^ (1074 : ℕ) from zpow_natCast _ _]
      exact mul_inv_cancel₀ (by positivity), mul_one]⟩

theorem int_abs {n : ℤ} {k : ℕ} (h : |n| < 2 ^ k) : |(n : ℚ)| ≤ 2 ^ k := by exact_mod_cast h.le

theorem i64Line_eq {rnd : ℚ → ℚ} (h : IsRnd rnd) {a b : Pt ℤ} (hx : |a.x| < 2 ^ 62) (hy : |a.y| < 2 ^ 61) (hdx : |b.x - a.x| < 2 ^ 31) (hdy : |b.y - a.y| < 2 ^ 31) (hlt : a.x < b.x) :
    ∃ O, (i64Line rnd).slope a b = some (.fin (rnd (slopeOf (intQ a) (intQ b)))) ∧ (i64Line rnd).offset a b = some (.fin O) ∧
      |O - offsetOf (intQ a) (intQ b)| ≤ (|offsetOf (intQ a) (intQ b)| + 2 * |(a.y : ℚ)|) / 2 ^ 53 + |slopeOf (intQ a) (intQ b) * a.x| / 2 ^ 50 + 2 ^ 67 * tiny := by
  have hnx : |-a.x| < 2 ^ 62 := by rwa [abs_neg]
  have fx : ∀ n : ℤ, |n| < 2 ^ 31 → rnd n = n := fun n hn => h.fix (isDouble_int n (hn.trans (by norm_num)))
  have hd1 : (1 : ℚ) ≤ ((b.x - a.x : ℤ) : ℚ) := by exact_mod_cast (by omega : 1 ≤ b.x - a.x)
  have hd0 : (0 : ℚ) < ((b.x - a.x : ℤ) : ℚ) := by linarith
  have hq : ∀ {z : ℚ} {n : ℕ}, |z| ≤ 2 ^ n → |z / ((b.x - a.x : ℤ) : ℚ)| ≤ 2 ^ n := by
    intro z n hz
    rw [abs_div, abs_of_pos hd0, div_le_iff₀ hd0]
    refine hz.trans ?_
    exact le_mul_of_one_le_right (by positivity) hd1
  have e1 : ∀ {z : ℚ} {n : ℕ}, |z| ≤ 2 ^ n → n ≤ 1022 → fdiv rnd (.fin z) (.fin ((b.x - a.x : ℤ) : ℚ)) = .fin (rnd (z / ((b.x - a.x : ℤ) : ℚ))) := by
    intro z n hz hn
    simp only [fdiv, Fp.div]
    rw [if_neg hd0.ne']
    exact rounded_of_le h _ hn (hq hz)
  have c0 := rnd_abs_le h (int_abs hnx)
  obtain ⟨e2, c2⟩ := fmul_eq h c0 (int_abs hdy) (by norm_num)
  have c3 := rnd_abs_le h (hq c2)
  set M := rnd (rnd (rnd (-a.x : ℤ) * ((b.y - a.y : ℤ) : ℚ)) / ((b.x - a.x : ℤ) : ℚ)) with hM
  have e3 : fadd rnd (.fin (rnd a.y)) (.fin M) = .fin (rnd (rnd a.y + M)) := by
    simp only [fadd, Fp.add]
    refine rounded_of_le h 194 (by norm_num) ((abs_add_le _ _).trans ?_)
    have : (2 : ℚ) ^ 61 + 2 ^ (62 + 31) ≤ 2 ^ 194 := by norm_num
    have := rnd_abs_le h (int_abs hy)
    linarith
  have f1 := fits_of (hdy.trans (by norm_num : (2 : ℤ) ^ 31 < 2 ^ 63))
  have f2 := fits_of (hdx.trans (by norm_num : (2 : ℤ) ^ 31 < 2 ^ 63))
  have f3 := fits_of (hnx.trans (by norm_num : (2 : ℤ) ^ 62 < 2 ^ 63))
  refine ⟨rnd (rnd a.y + M), ?_, ?_, ?_⟩
  · simp only [i64Line, f1, f2, Option.bind_eq_bind, Option.bind_some, fx _ hdy, fx _ hdx, e1 (int_abs hdy) (by norm_num)]
    simp only [slopeOf, intQ, Int.cast_sub]
  · simp only [i64Line, f1, f2, f3, Option.bind_eq_bind, Option.bind_some, fx _ hdy, fx _ hdx, e2, e1 c2 (by norm_num), ← hM, e3]
  · have z : ∀ q : ℚ, |q - q| ≤ |q| / 2 ^ 53 := fun q => by rw [sub_self, abs_zero]; positivity
    have := offset_err h (h.mem (a.y : ℚ)) (int_err h a.y) (by
      refine le_trans ?_ hd1
      norm_num : (1 : ℚ) / 2 ^ 64 ≤ ((b.x - a.x : ℤ) : ℚ)) (int_err h (-a.x)) (z ((b.y - a.y : ℤ) : ℚ)) (z ((b.x - a.x : ℤ) : ℚ))
    have o1 : offsetOf (intQ a) (intQ b) = (a.y : ℚ) + ((-a.x : ℤ) : ℚ) * ((b.y - a.y : ℤ) : ℚ) / ((b.x - a.x : ℤ) : ℚ) := by
      simp only [offsetOf, lineAt, intQ]
      push_cast
      ring
    have o2 : |slopeOf (intQ a) (intQ b) * a.x| = |((-a.x : ℤ) : ℚ) * ((b.y - a.y : ℤ) : ℚ) / ((b.x - a.x : ℤ) : ℚ)| := by
      rw [← abs_neg]
      congr 1
      simp only [slopeOf, intQ]
      push_cast
      ring
    rw [o1, o2]
    rw [← hM] at this
    linarith

/-- **C171** (int64) For observations close together (`Close`): once three points are kept, neither call has undefined behaviour, the slope is the exact slope of the line that `getLocalTime` uses, correctly rounded, and the offset
has an error that grows with the times; for remote times within 2^31 of the observations `getOffset() + getSlope() * r` (evaluated exactly) differs from `getLocalTime(r)` by one unit and the sizes of the numbers involved times about 2^-49. -/
theorem C171_int64_partial {rnd : ℚ → ℚ} (h : IsRnd rnd) (obs : List (Pt ℤ)) (hc : Close obs) (hl : 3 ≤ (feed (i64 rnd) .fresh obs).hull.length) :
    ∃ a b O, a ∈ obs ∧ b ∈ obs ∧ a.x < b.x ∧
      getSlope (i64Line rnd) (feed (i64 rnd) .fresh obs) = .value (.fin (rnd (slopeOf (intQ a) (intQ b)))) ∧
      getOffset (i64Line rnd) (feed (i64 rnd) .fresh obs) = .value (.fin O) ∧
      |O - offsetOf (intQ a) (intQ b)| ≤ (|offsetOf (intQ a) (intQ b)| + 2 * |(a.y : ℚ)|) / 2 ^ 53 + |slopeOf (intQ a) (intQ b) * a.x| / 2 ^ 50 + 2 ^ 67 * tiny ∧
      ∀ r : ℤ, (∀ q ∈ obs, |r - q.x| < 2 ^ 31) → ∃ V, getLocalTime (i64 rnd) (feed (i64 rnd) .fresh obs) r = .value V ∧
        |(V : ℚ) - (O + rnd (slopeOf (intQ a) (intQ b)) * r)| ≤
          1 + (|lineAt (intQ a) (intQ b) r| + 4 * |(a.y : ℚ)| + |offsetOf (intQ a) (intQ b)|) / 2 ^ 53 + |slopeOf (intQ a) (intQ b)| * (|(a.x : ℚ)| + |(r : ℚ)|) / 2 ^ 49 + 2 ^ 70 * tiny := by
  obtain ⟨a, b, ha, hb, hab, ma, mb, -⟩ := segment_ex (i64_safe h hc) obs (fun _ hp => hp) hl
  have ma := accepted_subset _ _ a ma
  have mb := accepted_subset _ _ b mb
  have hab : a.x < b.x := by simpa [ival] using hab
  obtain ⟨O, eS, eO, hO⟩ := i64Line_eq h (hc.x a ma) (hc.y a ma) (hc.dx b mb a ma) (hc.dy b mb a ma) hab
  refine ⟨a, b, O, ma, mb, hab, onSegment_eq hl ha hb eS, onSegment_eq hl ha hb eO, hO, fun r hr => ?_⟩
  have hline := line_eq h (hc.y a ma) (hc.dy b mb a ma) (hc.dx b mb a ma) hab (hr a ma)
  have hV := (i64_line_err h (hc.y a ma) (hc.dy b mb a ma) (by omega : 0 < b.x - a.x) (hc.dx b mb a ma) (hr a ma)).le
  refine ⟨trunc (rnd (rnd a.y + rnd (rnd (rnd (b.y - a.y : ℤ) / rnd (b.x - a.x : ℤ)) * rnd (r - a.x : ℤ)))), ?_, ?_⟩
  · unfold getLocalTime
    rw [if_neg (by omega), ha, hb]
    simp only [hline]
  · set V := trunc (rnd (rnd a.y + rnd (rnd (rnd (b.y - a.y : ℤ) / rnd (b.x - a.x : ℤ)) * rnd (r - a.x : ℤ)))) with hVd
    have br : |(r : ℚ)| ≤ 2 ^ 63 := by
      have := hr a ma
      have hx := hc.x a ma
      refine int_abs (n := r) (k := 63) ?_
      rw [abs_lt] at *
      omega
    have t0 := tiny_pos
    have eL : lineAt (intQ a) (intQ b) r = (a.y : ℚ) + ((b.y - a.y : ℤ) : ℚ) / ((b.x - a.x : ℤ) : ℚ) * ((r - a.x : ℤ) : ℚ) := by
      simp only [lineAt, intQ]
      push_cast
      rfl
    rw [← eL] at hV
    set s := slopeOf (intQ a) (intQ b) with hs
    set o := offsetOf (intQ a) (intQ b) with ho
    set L := lineAt (intQ a) (intQ b) r with hL
    have eLs : L = o + s * r := lineAt_eq _ _ _
    have eA : (a.y : ℚ) = o + s * a.x := by
      rw [ho, hs, ← lineAt_eq]
      simp [lineAt, intQ]
    have ed : ((b.y - a.y : ℤ) : ℚ) / ((b.x - a.x : ℤ) : ℚ) * ((r - a.x : ℤ) : ℚ) = s * (r - a.x) := by
      rw [hs]
      simp only [slopeOf, intQ]
      push_cast
      rfl
    rw [ed] at hV
    have p1 : |s * ((r : ℚ) - a.x)| ≤ |s| * (|(a.x : ℚ)| + |(r : ℚ)|) := by
      rw [abs_mul]
      gcongr
      exact (abs_sub _ _).trans (by linarith)
    have p2 : |(rnd s - s) * r| ≤ (|s| / 2 ^ 53 + tiny) * |(r : ℚ)| := by
      rw [abs_mul]
      have := h.err_any s
      gcongr
    have e : (V : ℚ) - (O + rnd s * r) = (V - L) + -(O - o) + -((rnd s - s) * r) := by rw [eLs]; ring
    rw [e]
    refine (abs_sum3 hV ((abs_neg _).le.trans hO) ((abs_neg _).le.trans p2)).trans ?_
    rw [abs_mul s (a.x : ℚ)]
    have q1 := abs_nonneg s
    have q2 := mul_nonneg q1 (abs_nonneg (a.x : ℚ))
    have q3 := mul_nonneg q1 (abs_nonneg (r : ℚ))
    have q4 : tiny * |(r : ℚ)| ≤ tiny * 2 ^ 63 := by gcongr
    nlinarith

/-- **C171** Both calls throw exactly while fewer than two points are kept. -/
theorem C171_throws {rnd : ℚ → ℚ} (c : Corr Fp) (d : Corr ℤ) :
    ((getSlope (dblLine rnd) c = .threw ↔ c.hull.length < 2) ∧ (getOffset (dblLine rnd) c = .threw ↔ c.hull.length < 2)) ∧
    ((getSlope (i64Line rnd) d = .threw ↔ d.hull.length < 2) ∧ (getOffset (i64Line rnd) d = .threw ↔ d.hull.length < 2)) := by
  have key : ∀ {T : Type} (f : Pt T → Pt T → Option Fp) (c : Corr T), onSegment f c = .threw ↔ c.hull.length < 2 := by
    intro T f c
    unfold onSegment
    constructor
    · intro he
      by_contra hn
      rw [if_neg hn] at he
      split at he
      · split at he <;> simp at he
      · simp at he
    · intro hl
      rw [if_pos hl]
  exact ⟨⟨key _ _, key _ _⟩, key _ _, key _ _⟩

/-- Concrete: nanoseconds near 2^60, slope 2. -/
example : Close [⟨2 ^ 60, 2 ^ 59⟩, ⟨2 ^ 60 + 4096, 2 ^ 59 + 8192⟩, ⟨2 ^ 60 + 8192, 2 ^ 59 + 20000⟩] ∧
    (feed (i64 rndNearest) .fresh [⟨2 ^ 60, 2 ^ 59⟩, ⟨2 ^ 60 + 4096, 2 ^ 59 + 8192⟩, ⟨2 ^ 60 + 8192, 2 ^ 59 + 20000⟩]).hull.length = 3 ∧
    getSlope (i64Line rndNearest) (feed (i64 rndNearest) .fresh [⟨2 ^ 60, 2 ^ 59⟩, ⟨2 ^ 60 + 4096, 2 ^ 59 + 8192⟩, ⟨2 ^ 60 + 8192, 2 ^ 59 + 20000⟩]) = .value (.fin 2) ∧
    getOffset (i64Line rndNearest) (feed (i64 rndNearest) .fresh [⟨2 ^ 60, 2 ^ 59⟩, ⟨2 ^ 60 + 4096, 2 ^ 59 + 8192⟩, ⟨2 ^ 60 + 8192, 2 ^ 59 + 20000⟩]) = .value (.fin (2 ^ 59 - 2 ^ 61)) :=
  ⟨by constructor <;> simp, by decide +kernel, by decide +kernel, by decide +kernel⟩

/-- Concrete: the observations of the refutation meet the hypotheses of `C171_double_partial`. -/
example : (feed (dbl rndNearest) .fresh [⟨.fin 1599958197, .fin 684⟩, ⟨.fin 1599958204, .fin 690⟩, ⟨.fin 1599958206, .fin 693⟩]).hull.length = 3 ∧
    ∀ q ∈ [(⟨.fin 1599958197, .fin 684⟩ : Pt Fp), ⟨.fin 1599958204, .fin 690⟩, ⟨.fin 1599958206, .fin 693⟩], Fine q := by
  refine ⟨by decide +kernel, ?_⟩
  intro q hq
  simp only [List.mem_cons, List.not_mem_nil, or_false] at hq
  rcases hq with rfl | rfl | rfl
  · exact_mod_cast fine_int (x := 1599958197) (y := 684) (by norm_num) (by norm_num)
  · exact_mod_cast fine_int (x := 1599958204) (y := 690) (by norm_num) (by norm_num)
  · exact_mod_cast fine_int (x := 1599958206) (y := 693) (by norm_num) (by norm_num)

end Verif.Timing.Machine
