import Verif.Timing.MachineProps

/-!
# C113: `TimestampCorrector<double>`: how good the results are
-/

namespace Verif.Timing.Machine

open Verif.Common
open Verif.Timing.Corrector (Point lineAt cross)

/-- an observation with times of at most 2^64 -/
def Fine (p : Pt Fp) : Prop := Bounded (2 ^ 64) p.x ∧ Bounded (2 ^ 64) p.y

/-- the observation as exact numbers -/
def toQ (p : Pt Fp) : Point := ⟨fval p.x, fval p.y⟩

/-! ## Errors of products and quotients -/

theorem abs_sum3 {x y z a b c : ℚ} (hx : |x| ≤ a) (hy : |y| ≤ b) (hz : |z| ≤ c) : |x + y + z| ≤ a + b + c :=
  (abs_add_le _ _).trans (add_le_add ((abs_add_le _ _).trans (add_le_add hx hy)) hz)

theorem mul_err {rnd : ℚ → ℚ} (h : IsRnd rnd) {x y x' y' : ℚ} (hx : |x' - x| ≤ |x| / 2 ^ 53) (hy : |y' - y| ≤ |y| / 2 ^ 53) :
    |rnd (x' * y') - x * y| ≤ |x| * |y| / 2 ^ 51 + tiny := by
  have px := abs_nonneg x
  have py := abs_nonneg y
  have pxy : 0 ≤ |x| * |y| := mul_nonneg px py
  have d1 : |x' * y' - x * y| ≤ |x| * |y| * (2 / 2 ^ 53 + 1 / 2 ^ 106) := by
    have e : x' * y' - x * y = (x' - x) * y + x * (y' - y) + (x' - x) * (y' - y) := by ring
    rw [e]
    have t1 : |(x' - x) * y| ≤ |x| / 2 ^ 53 * |y| := by rw [abs_mul]; gcongr
    have t2 : |x * (y' - y)| ≤ |x| * (|y| / 2 ^ 53) := by rw [abs_mul]; gcongr
    have t3 : |(x' - x) * (y' - y)| ≤ |x| / 2 ^ 53 * (|y| / 2 ^ 53) := by rw [abs_mul]; gcongr
    refine (abs_sum3 t1 t2 t3).trans (le_of_eq (by ring))
  have d2 := h.err_any (x' * y')
  have d3 : |x' * y'| ≤ |x| * |y| * 2 := by
    have e : x' * y' = (x' * y' - x * y) + x * y := by ring
    rw [e]
    refine (abs_add_le _ _).trans ?_
    rw [abs_mul x y]
    nlinarith
  have d2' : |rnd (x' * y') - x' * y'| ≤ |x| * |y| * (1 / 2 ^ 53 * (1 + 1 / 2 ^ 51)) + tiny := by
    have d4 : |x' * y'| ≤ |x| * |y| * (1 + 1 / 2 ^ 51) := by
      have e : x' * y' = (x' * y' - x * y) + x * y := by ring
      rw [e]
      refine (abs_add_le _ _).trans ?_
      rw [abs_mul x y]
      nlinarith
    refine d2.trans ?_
    have : |x' * y'| / 2 ^ 53 ≤ |x| * |y| * (1 + 1 / 2 ^ 51) / 2 ^ 53 := by gcongr
    linarith
  have e : rnd (x' * y') - x * y = (rnd (x' * y') - x' * y') + (x' * y' - x * y) := by ring
  rw [e]
  refine (abs_add_le _ _).trans ?_
  nlinarith

/-! ## Operations far from overflow -/

theorem pow_le_limit (n : ℕ) (hn : n ≤ 1022) : (2 : ℚ) ^ n ≤ limit := by
  unfold limit
  exact pow_le_pow_right₀ (by norm_num) hn

theorem rnd_abs_le {rnd : ℚ → ℚ} (h : IsRnd rnd) {x : ℚ} {n : ℕ} (hx : |x| ≤ 2 ^ n) : |rnd x| ≤ 2 ^ n := by
  have hd : IsDouble ((2 : ℚ) ^ n) := by
    have := isDouble_pow (n : ℤ) (by omega)
    rwa [zpow_natCast] at this
  exact abs_le.2 ⟨h.ge_of_ge hd.neg (abs_le.1 hx).1, h.le_of_le hd (abs_le.1 hx).2⟩

theorem rounded_of_le {rnd : ℚ → ℚ} (h : IsRnd rnd) {x : ℚ} (n : ℕ) (hn : n ≤ 1022) (hx : |x| ≤ 2 ^ n) : rounded rnd (.fin x) = .fin (rnd x) :=
  (rounded_fin h (hx.trans (by linarith [pow_le_limit n hn, limit_pos]))).1

theorem fsub_eq {rnd : ℚ → ℚ} (h : IsRnd rnd) {a b : ℚ} (ha : |a| ≤ 2 ^ 64) (hb : |b| ≤ 2 ^ 64) :
    fsub rnd (.fin a) (.fin b) = .fin (rnd (a - b)) ∧ |rnd (a - b)| ≤ 2 ^ 65 := by
  have hs : |a - b| ≤ 2 ^ 65 := (abs_sub _ _).trans (by linarith)
  refine ⟨?_, rnd_abs_le h hs⟩
  simp only [fsub, Fp.sub, Fp.neg, Fp.add, ← sub_eq_add_neg]
  exact rounded_of_le h 65 (by norm_num) hs

theorem fmul_eq {rnd : ℚ → ℚ} (h : IsRnd rnd) {a b : ℚ} {m n : ℕ} (ha : |a| ≤ 2 ^ m) (hb : |b| ≤ 2 ^ n) (hmn : m + n ≤ 1022) :
    fmul rnd (.fin a) (.fin b) = .fin (rnd (a * b)) ∧ |rnd (a * b)| ≤ 2 ^ (m + n) := by
  have hs : |a * b| ≤ 2 ^ (m + n) := by rw [abs_mul, pow_add]; gcongr
  refine ⟨?_, rnd_abs_le h hs⟩
  simp only [fmul, Fp.mul]
  exact rounded_of_le h _ hmn hs

/-! ## The decisions of the hull -/

/-- if the test says that `t` is above the line through `a` and `p`, it is not much below it -/
theorem above_err {rnd : ℚ → ℚ} (h : IsRnd rnd) {a p t : Pt Fp} (ha : Fine a) (hp : Fine p) (ht : Fine t) (e : (dbl rnd).above a p t = some true) :
    -((|fval p.x - fval a.x| * |fval t.y - fval a.y| + |fval p.y - fval a.y| * |fval t.x - fval a.x|) / 2 ^ 51 + 2 * tiny) ≤
      cross (toQ a) (toQ p) (toQ t) := by
  obtain ⟨ax, ay⟩ := a
  obtain ⟨px, py⟩ := p
  obtain ⟨tx, ty⟩ := t
  obtain ⟨⟨ax, rfl, dax, bax⟩, ⟨ay, rfl, day, bay⟩⟩ := ha
  obtain ⟨⟨px, rfl, dpx, bpx⟩, ⟨py, rfl, dpy, bpy⟩⟩ := hp
  obtain ⟨⟨tx, rfl, dtx, btx⟩, ⟨ty, rfl, dty, bty⟩⟩ := ht
  obtain ⟨s1, c1⟩ := fsub_eq h bpx bax
  obtain ⟨s2, c2⟩ := fsub_eq h bty bay
  obtain ⟨s3, c3⟩ := fsub_eq h bpy bay
  obtain ⟨s4, c4⟩ := fsub_eq h btx bax
  obtain ⟨m1, g1⟩ := fmul_eq h c1 c2 (by norm_num)
  obtain ⟨m2, g2⟩ := fmul_eq h c3 c4 (by norm_num)
  set P := rnd (rnd (px - ax) * rnd (ty - ay)) with hP
  set Q := rnd (rnd (py - ay) * rnd (tx - ax)) with hQ
  have s5 : fsub rnd (.fin P) (.fin Q) = .fin (rnd (P - Q)) := by
    simp only [fsub, Fp.sub, Fp.neg, Fp.add, ← sub_eq_add_neg]
    exact rounded_of_le h 131 (by norm_num) ((abs_sub _ _).trans (by
      have e131 : (2 : ℚ) ^ 131 = 2 ^ (65 + 65) + 2 ^ (65 + 65) := by norm_num
      linarith))
  have hpq : Q ≤ P := by
    rw [← h.sub_nonneg_iff (h.mem _) (h.mem _)]
    simp only [dbl, fdet, s1, s2, s3, s4, m1, m2, s5, Option.some.injEq, Fp.le, Fp.lt, Fp.eq, Bool.or_eq_true, decide_eq_true_eq] at e
    rcases e with e | e
    · exact e.le
    · exact e.le
  have e1 := mul_err h (h.err_sub dpx dax) (h.err_sub dty day)
  have e2 := mul_err h (h.err_sub dpy day) (h.err_sub dtx dax)
  rw [← hP] at e1
  rw [← hQ] at e2
  have a1 := (abs_le.1 e1).2
  have a2 := (abs_le.1 e2).1
  simp only [cross, toQ, fval]
  have : |px - ax| * |ty - ay| / 2 ^ 51 + |py - ay| * |tx - ax| / 2 ^ 51 = (|px - ax| * |ty - ay| + |py - ay| * |tx - ax|) / 2 ^ 51 := by ring
  linarith

/-- how far an observation can be below the line when it is dropped, if local times differ by at most `Y` and remote times by at least 2^-64 -/
def slack (Y : ℚ) : ℚ := Y / 2 ^ 50 + 2 ^ 65 * tiny

theorem above_line {rnd : ℚ → ℚ} (h : IsRnd rnd) {a p t : Pt Fp} (ha : Fine a) (hp : Fine p) (ht : Fine t) (e : (dbl rnd).above a p t = some true)
    {Y : ℚ} (y1 : |fval t.y - fval a.y| ≤ Y) (y2 : |fval p.y - fval a.y| ≤ Y) (x1 : fval a.x + 1 / 2 ^ 64 ≤ fval t.x) (x2 : fval t.x + 1 / 2 ^ 64 ≤ fval p.x) :
    lineAt (toQ a) (toQ p) (toQ t).x ≤ (toQ t).y + slack Y := by
  have hc := above_err h ha hp ht e
  have hY : 0 ≤ Y := (abs_nonneg _).trans y1
  have hΔ : 1 / 2 ^ 64 ≤ fval p.x - fval a.x := by
    have : (0 : ℚ) < 1 / 2 ^ 64 := by norm_num
    linarith
  have hΔ0 : 0 < fval p.x - fval a.x := lt_of_lt_of_le (by norm_num) hΔ
  rw [abs_of_pos hΔ0, abs_of_pos (a := fval t.x - fval a.x) (by
    have : (0 : ℚ) < 1 / 2 ^ 64 := by norm_num
    linarith)] at hc
  have hb : (fval p.x - fval a.x) * |fval t.y - fval a.y| + |fval p.y - fval a.y| * (fval t.x - fval a.x) ≤ (fval p.x - fval a.x) * (2 * Y) := by
    have t1 : (fval p.x - fval a.x) * |fval t.y - fval a.y| ≤ (fval p.x - fval a.x) * Y := by gcongr
    have t2 : |fval p.y - fval a.y| * (fval t.x - fval a.x) ≤ Y * (fval p.x - fval a.x) := by
      have h64 : (0 : ℚ) < 1 / 2 ^ 64 := by norm_num
      apply mul_le_mul y2 (by linarith) (by linarith) hY
    linarith
  have ht0 := tiny_pos
  have h64 : tiny ≤ (fval p.x - fval a.x) * (2 ^ 64 * tiny) := by
    have : 1 ≤ (fval p.x - fval a.x) * 2 ^ 64 := by
      have := mul_le_mul_of_nonneg_right hΔ (by norm_num : (0 : ℚ) ≤ 2 ^ 64)
      norm_num at this ⊢
      linarith
    nlinarith
  have hcross : -((fval p.x - fval a.x) * slack Y) ≤ cross (toQ a) (toQ p) (toQ t) := by
    refine le_trans (neg_le_neg ?_) hc
    unfold slack
    have : ((fval p.x - fval a.x) * |fval t.y - fval a.y| + |fval p.y - fval a.y| * (fval t.x - fval a.x)) / 2 ^ 51 ≤ (fval p.x - fval a.x) * (2 * Y) / 2 ^ 51 := by
      gcongr
    nlinarith
  have hline : lineAt (toQ a) (toQ p) (toQ t).x - (toQ t).y = -cross (toQ a) (toQ p) (toQ t) / (fval p.x - fval a.x) := by
    simp only [lineAt, cross, toQ]
    field_simp
    ring
  have : -cross (toQ a) (toQ p) (toQ t) / (fval p.x - fval a.x) ≤ slack Y := by
    rw [div_le_iff₀ hΔ0]
    linarith
  linarith

/-! ## Dropping points -/

theorem drop_left {a t p : Point} {E : ℚ} (hE : 0 ≤ E) (h1 : a.x < t.x) (h2 : t.x < p.x) (hl : lineAt a p t.x ≤ t.y + E) (x : ℚ) (hx : a.x ≤ x) (hx' : x ≤ t.x) :
    lineAt a p x ≤ lineAt a t x + E := by
  have p1 : 0 < t.x - a.x := by linarith
  have p2 : 0 < p.x - a.x := by linarith
  set s := (p.y - a.y) / (p.x - a.x) - (t.y - a.y) / (t.x - a.x) with hs
  have e1 : lineAt a p x - lineAt a t x = s * (x - a.x) := by simp only [lineAt, hs]; ring
  have e2 : lineAt a p t.x - t.y = s * (t.x - a.x) := by
    simp only [lineAt, hs]; field_simp; ring
  rcases le_or_gt s 0 with hc | hc
  · have : s * (x - a.x) ≤ 0 := mul_nonpos_of_nonpos_of_nonneg hc (by linarith)
    linarith
  · have : s * (x - a.x) ≤ s * (t.x - a.x) := by gcongr
    linarith

theorem drop_right {a t p : Point} {E : ℚ} (hE : 0 ≤ E) (h1 : a.x < t.x) (h2 : t.x < p.x) (hl : lineAt a p t.x ≤ t.y + E) (x : ℚ) (hx : t.x ≤ x) (hx' : x ≤ p.x) :
    lineAt a p x ≤ lineAt t p x + E := by
  have p1 : 0 < p.x - t.x := by linarith
  have p2 : 0 < p.x - a.x := by linarith
  set s := (p.y - t.y) / (p.x - t.x) - (p.y - a.y) / (p.x - a.x) with hs
  have e1 : lineAt a p x - lineAt t p x = s * (p.x - x) := by simp only [lineAt, hs]; field_simp; ring
  have e2 : lineAt a p t.x - t.y = s * (p.x - t.x) := by
    simp only [lineAt, hs]; field_simp; ring
  rcases le_or_gt s 0 with hc | hc
  · have : s * (p.x - x) ≤ 0 := mul_nonpos_of_nonpos_of_nonneg hc (by linarith)
    linarith
  · have : s * (p.x - x) ≤ s * (p.x - t.x) := by gcongr
    linarith

/-- along the chain (latest point first) no observation is more than `E` below -/
def Cov (obs : List (Pt Fp)) (E : ℚ) : List (Pt Fp) → Prop
  | b :: a :: r => (∀ o ∈ obs, fval a.x ≤ fval o.x → fval o.x ≤ fval b.x → lineAt (toQ a) (toQ b) (toQ o).x ≤ (toQ o).y + E) ∧ Cov obs E (a :: r)
  | _ => True

theorem Cov.mono {obs : List (Pt Fp)} {E E' : ℚ} (hE : E ≤ E') : ∀ {l}, Cov obs E l → Cov obs E' l
  | [], _ => trivial
  | [_], _ => trivial
  | b :: a :: r, h => ⟨fun o ho h1 h2 => (h.1 o ho h1 h2).trans (by linarith), Cov.mono hE h.2⟩

/-- the observations of a run: fine, with different enough remote times, and local times that differ by at most `Y` -/
structure Good (Y : ℚ) (obs : List (Pt Fp)) : Prop where
  fine : ∀ p ∈ obs, Fine p
  gap : obs.Pairwise fun a b => fval a.x + 1 / 2 ^ 64 ≤ fval b.x
  spread : ∀ p ∈ obs, ∀ q ∈ obs, |fval p.y - fval q.y| ≤ Y

theorem slack_nonneg {Y : ℚ} (hY : 0 ≤ Y) : 0 ≤ slack Y := by
  unfold slack
  have := tiny_pos
  positivity

theorem pop_cov {rnd : ℚ → ℚ} (h : IsRnd rnd) {Y : ℚ} (hY : 0 ≤ Y) {obs : List (Pt Fp)} {p : Pt Fp} : ∀ (st st' : List (Pt Fp)) (E : ℚ),
    (∀ q ∈ p :: st, Fine q) → ((p :: st).Pairwise fun b a => fval a.x + 1 / 2 ^ 64 ≤ fval b.x) → (∀ q ∈ p :: st, ∀ q' ∈ p :: st, |fval q.y - fval q'.y| ≤ Y) →
    Cov obs E (p :: st) → popLoop (dbl rnd) p st = some st' → Cov obs (E + (st.length - st'.length : ℕ) * slack Y) (p :: st')
  | [], st', E, _, _, _, hc, e => by
    simp only [popLoop, Option.some.injEq] at e
    subst e
    simp [Cov]
  | [t], st', E, _, _, _, hc, e => by
    simp only [popLoop, Option.some.injEq] at e
    subst e
    simpa using hc
  | t :: a :: r, st', E, hf, hg, hs, hc, e => by
    simp only [popLoop] at e
    have hsl := slack_nonneg hY
    split at e
    · rename_i ha
      have g1 : fval a.x + 1 / 2 ^ 64 ≤ fval t.x := by
        have := (List.pairwise_cons.1 (List.pairwise_cons.1 hg).2).1 a (by simp)
        exact this
      have g2 : fval t.x + 1 / 2 ^ 64 ≤ fval p.x := (List.pairwise_cons.1 hg).1 t (by simp)
      have h64 : (0 : ℚ) < 1 / 2 ^ 64 := by norm_num
      have hl := above_line h (hf a (by simp)) (hf p (by simp)) (hf t (by simp)) ha (hs t (by simp) a (by simp)) (hs p (by simp) a (by simp)) g1 g2
      have l1 : (toQ a).x < (toQ t).x := by simp only [toQ]; linarith
      have l2 : (toQ t).x < (toQ p).x := by simp only [toQ]; linarith
      have hc' : Cov obs (E + slack Y) (p :: a :: r) := by
        refine ⟨fun o ho h1 h2 => ?_, (hc.2.2).mono (by linarith)⟩
        rcases le_total (fval o.x) (fval t.x) with hot | hot
        · have d := drop_left hsl l1 l2 hl (toQ o).x h1 hot
          have := hc.2.1 o ho h1 hot
          linarith
        · have d := drop_right hsl l1 l2 hl (toQ o).x hot h2
          have := hc.1 o ho hot h2
          linarith
      have ih := pop_cov h hY (a :: r) st' (E + slack Y)
        (fun q hq => hf q (by simp only [List.mem_cons] at hq ⊢; tauto))
        (by
          rw [List.pairwise_cons] at hg ⊢
          exact ⟨fun x hx => hg.1 x (List.mem_cons_of_mem _ hx), (List.pairwise_cons.1 hg.2).2⟩)
        (fun q hq q' hq' => hs q (by simp only [List.mem_cons] at hq ⊢; tauto) q' (by simp only [List.mem_cons] at hq' ⊢; tauto)) hc' e
      have hlen := (popLoop_suffix (dbl rnd) p _ _ e).1.length_le
      refine ih.mono (le_of_eq ?_)
      have : ((t :: a :: r).length - st'.length : ℕ) = ((a :: r).length - st'.length : ℕ) + 1 := by
        simp only [List.length_cons] at hlen ⊢
        omega
      rw [this]
      push_cast
      ring
    · cases e
      simpa using hc
    · cases e

theorem cov_snoc {obs : List (Pt Fp)} {E : ℚ} (hE : 0 ≤ E) {p : Pt Fp} : ∀ {st : List (Pt Fp)}, Cov obs E st → (∀ a ∈ st, fval a.x < fval p.x) →
    Cov (obs ++ [p]) E st
  | [], _, _ => trivial
  | [_], _, _ => trivial
  | b :: a :: r, h, hlt => by
    refine ⟨fun o ho h1 h2 => ?_, cov_snoc hE h.2 fun x hx => hlt x (List.mem_cons_of_mem _ hx)⟩
    rcases List.mem_append.1 ho with ho | ho
    · exact h.1 o ho h1 h2
    · simp only [List.mem_singleton] at ho
      subst ho
      have := hlt b (by simp)
      linarith

/-- **C113** the hull in doubles: after any observations with times of at most 2^64, accepted ones at least 2^-64 apart and local times within `Y`, no accepted observation is below the hull by more than
its number of dropped points times `Y` / 2^50 (and a tiny constant). -/
theorem hull_cov {rnd : ℚ → ℚ} (h : IsRnd rnd) {Y : ℚ} (hY : 0 ≤ Y) (obs : List (Pt Fp)) (hf : ∀ p ∈ obs, Fine p) (hg : Good Y (accepted fval obs)) :
    Cov (accepted fval obs) (((accepted fval obs).length - (feed (dbl rnd) .fresh obs).hull.length : ℕ) * slack Y) (feed (dbl rnd) .fresh obs).hull.reverse := by
  have hS := dbl_safe h
  have hB : ∀ p : Pt Fp, Fine p → Bounded limit p.x := by
    rintro p ⟨⟨q, e, d, b⟩, -⟩
    exact ⟨q, e, d, b.trans (pow_le_limit 64 (by norm_num))⟩
  induction obs using List.reverseRecOn with
  | nil => simp [feed, Corr.fresh, Cov]
  | append_singleton obs p ih =>
    have hfo : ∀ q ∈ obs, Fine q := fun q hq => hf q (by simp [hq])
    have hk := feed_kept hS obs fun q hq => hB q (hfo q hq)
    have hst := step hS hk (fun q hq => hB q (hfo q (accepted_subset _ _ q hq))) (hB p (hf p (by simp)))
    rw [feed_snoc]
    rw [accepted_snoc] at hg ⊢
    -- an accepted observation
    have acc : (∀ q, (accepted fval obs).getLast? = some q → fval q.x < fval p.x) → Good Y (accepted fval obs ++ [p]) →
        Cov (accepted fval obs ++ [p]) (((accepted fval obs ++ [p]).length - (correct (dbl rnd) (feed (dbl rnd) .fresh obs) p.x p.y).2.hull.length : ℕ) * slack Y)
          (correct (dbl rnd) (feed (dbl rnd) .fresh obs) p.x p.y).2.hull.reverse := by
      intro hlt hg
      have hgo : Good Y (accepted fval obs) := ⟨fun q hq => hg.fine q (by simp [hq]), (List.pairwise_append.1 hg.gap).1,
        fun q hq q' hq' => hg.spread q (by simp [hq]) q' (by simp [hq'])⟩
      have ih := ih hfo hgo
      obtain ⟨h', e1, e2, hk', -⟩ := hst.2 hlt
      rw [e2]
      set hull := (feed (dbl rnd) .fresh obs).hull with hhull
      have hsl := slack_nonneg hY
      have hlen := hk.sub.length_le
      have hgap : ((p :: hull.reverse).Pairwise fun b a => fval a.x + 1 / 2 ^ 64 ≤ fval b.x) := by
        have : (hull ++ [p]).Pairwise fun a b => fval a.x + 1 / 2 ^ 64 ≤ fval b.x := hg.gap.sublist (hk.sub.append (List.Sublist.refl _))
        have := List.pairwise_reverse.2 this
        simpa using this
      have h64 : (0 : ℚ) < 1 / 2 ^ 64 := by norm_num
      have hmem : ∀ q ∈ p :: hull.reverse, q ∈ accepted fval obs ++ [p] := by
        intro q hq
        rcases List.mem_cons.1 hq with rfl | hq
        · simp
        · exact List.mem_append_left _ (hk.sub.subset (by simpa using hq))
      -- with the new point pushed and nothing dropped
      have hpush : Cov (accepted fval obs ++ [p]) (((accepted fval obs).length - hull.length : ℕ) * slack Y) (p :: hull.reverse) := by
        have hb := cov_snoc (p := p) (by positivity) ih (fun a ha => by
          have := (List.pairwise_cons.1 hgap).1 a ha
          linarith)
        cases hr : hull.reverse with
        | nil => simp [Cov]
        | cons t r =>
          rw [hr] at hb
          refine ⟨fun o ho h1 h2 => ?_, hb⟩
          have htp : fval t.x < fval p.x := by
            have := (List.pairwise_cons.1 hgap).1 t (by rw [hr]; simp)
            linarith
          have hE : (0 : ℚ) ≤ ((accepted fval obs).length - hull.length : ℕ) * slack Y := by positivity
          rcases List.mem_append.1 ho with ho | ho
          · -- an old observation: it is the latest one itself
            have hlast : (accepted fval obs).getLast? = some t := by
              rw [← hk.last]
              have := congrArg List.head? hr
              rw [List.head?_reverse] at this
              exact this
            obtain ⟨ini, hini⟩ := List.getLast?_eq_some_iff.1 hlast
            rw [hini] at ho
            have hot : o = t := by
              rcases List.mem_append.1 ho with ho | ho
              · have := hgo.gap
                rw [hini] at this
                have := (List.pairwise_append.1 this).2.2 o ho t (by simp)
                linarith
              · simpa using ho
            subst hot
            have : lineAt (toQ o) (toQ p) (toQ o).x = (toQ o).y := Corrector.lineAt_left _ _
            linarith
          · simp only [List.mem_singleton] at ho
            subst ho
            have : lineAt (toQ t) (toQ o) (toQ o).x = (toQ o).y := Corrector.lineAt_right (a := toQ t) (b := toQ o) htp
            linarith
      simp only [pushHull] at e1
      split at e1
      · cases e1
        rw [List.reverse_append]
        simp only [List.reverse_cons, List.reverse_nil, List.nil_append, List.cons_append]
        refine hpush.mono (le_of_eq ?_)
        simp
      · simp only [Option.map_eq_some_iff] at e1
        obtain ⟨st', hs', rfl⟩ := e1
        have hp := pop_cov h hY _ _ _ (fun q hq => hg.fine q (hmem q hq)) hgap (fun q hq q' hq' => hg.spread q (hmem q hq) q' (hmem q' hq')) hpush hs'
        rw [List.reverse_append, List.reverse_reverse]
        simp only [List.reverse_cons, List.reverse_nil, List.nil_append, List.cons_append]
        refine hp.mono (le_of_eq ?_)
        have hl' := (popLoop_suffix (dbl rnd) p _ _ hs').1.length_le
        rw [← add_mul]
        congr 1
        simp only [List.length_append, List.length_reverse, List.length_cons, List.length_nil] at hl' ⊢
        have : ((accepted fval obs).length - hull.length) + (hull.length - st'.length) = (accepted fval obs).length + (0 + 1) - (st'.length + (0 + 1)) := by omega
        exact_mod_cast this
      · cases e1
    cases hq : (accepted fval obs).getLast? with
    | none =>
      rw [hq] at hg
      exact acc (fun q hq' => by rw [hq] at hq'; cases hq') hg
    | some q =>
      rw [hq] at hg
      simp only at hg ⊢
      by_cases hc : fval q.x < fval p.x
      · rw [if_pos hc] at hg ⊢
        exact acc (fun q' hq' => by rw [hq] at hq'; cases hq'; exact hc) hg
      · rw [if_neg hc] at hg ⊢
        rw [hst.1 ⟨q, hq, not_lt.1 hc⟩]
        exact ih hfo hg

theorem cov_at {obs : List (Pt Fp)} {E : ℚ} {a b : Pt Fp} {post : List (Pt Fp)} : ∀ {pre : List (Pt Fp)}, Cov obs E (pre ++ b :: a :: post) →
    ∀ o ∈ obs, fval a.x ≤ fval o.x → fval o.x ≤ fval b.x → lineAt (toQ a) (toQ b) (toQ o).x ≤ (toQ o).y + E
  | [], h => h.1
  | [c], h => cov_at (pre := []) h.2
  | c :: d :: pre, h => cov_at (pre := d :: pre) h.2

/-- **C113** (the hull) After any observations with times of at most 2^64, of which the accepted ones are at least 2^-64 apart and have local times within `Y`, no accepted observation is
below the piece of the hull over it by more than `Y` / 2^50 (and a tiny constant) for every accepted observation that was dropped from the hull. -/
theorem C113_hull_partial {rnd : ℚ → ℚ} (h : IsRnd rnd) {Y : ℚ} (hY : 0 ≤ Y) (obs : List (Pt Fp)) (hf : ∀ p ∈ obs, Fine p) (hg : Good Y (accepted fval obs))
    (i : ℕ) (a b o : Pt Fp) (ha : (feed (dbl rnd) .fresh obs).hull[i]? = some a) (hb : (feed (dbl rnd) .fresh obs).hull[i + 1]? = some b) (ho : o ∈ accepted fval obs)
    (h1 : fval a.x ≤ fval o.x) (h2 : fval o.x ≤ fval b.x) :
    lineAt (toQ a) (toQ b) (fval o.x) ≤
      fval o.y + ((accepted fval obs).length - (feed (dbl rnd) .fresh obs).hull.length : ℕ) * (Y / 2 ^ 50 + 2 ^ 65 * tiny) := by
  have hc := hull_cov h hY obs hf hg
  set l := (feed (dbl rnd) .fresh obs).hull with hl
  have e : l = l.take i ++ a :: b :: l.drop (i + 2) := by
    obtain ⟨hi, ea⟩ := List.getElem?_eq_some_iff.1 ha
    obtain ⟨hi', eb⟩ := List.getElem?_eq_some_iff.1 hb
    conv_lhs => rw [← List.take_append_drop i l, List.drop_eq_getElem_cons hi, List.drop_eq_getElem_cons hi', ea, eb]
  have e' : l.reverse = (l.drop (i + 2)).reverse ++ b :: a :: (l.take i).reverse := by
    conv_lhs => rw [e]
    simp
  rw [e'] at hc
  exact cov_at hc o ho h1 h2

/-! ## The returned value -/

theorem quot_err {x y x' y' : ℚ} (hy : 0 < y) (hx' : |x' - x| ≤ |x| / 2 ^ 53) (hy' : |y' - y| ≤ |y| / 2 ^ 53) : |x' / y' - x / y| ≤ |x / y| * 3 / 2 ^ 53 := by
  have py : y * (1 - 1 / 2 ^ 53) ≤ y' := by
    rw [abs_of_pos hy] at hy'
    have := (abs_le.1 hy').1
    linarith
  have p0 : 0 < y' := lt_of_lt_of_le (by nlinarith) py
  have e : x' / y' - x / y = ((x' - x) * y - x * (y' - y)) / (y' * y) := by field_simp; ring
  rw [e, abs_div, abs_div, abs_of_pos hy, abs_of_pos (mul_pos p0 hy), div_le_iff₀ (mul_pos p0 hy)]
  have n1 : |(x' - x) * y - x * (y' - y)| ≤ |x| * y * (2 / 2 ^ 53) := by
    refine (abs_sub _ _).trans ?_
    rw [abs_mul, abs_mul, abs_of_pos hy]
    rw [abs_of_pos hy] at hy'
    have t1 : |x' - x| * y ≤ |x| / 2 ^ 53 * y := by gcongr
    have t2 : |x| * |y' - y| ≤ |x| * (y / 2 ^ 53) := by gcongr
    linarith
  refine n1.trans ?_
  have e2 : |x| / y * 3 / 2 ^ 53 * (y' * y) = |x| * (3 / 2 ^ 53) * y' := by field_simp
  rw [e2]
  have : |x| * (3 / 2 ^ 53) * (y * (1 - 1 / 2 ^ 53)) ≤ |x| * (3 / 2 ^ 53) * y' := by gcongr
  have hxy : 0 ≤ |x| * y := by positivity
  nlinarith

/-- the error of `y + dy / dx * d` with all operations rounded -/
theorem line_err {rnd : ℚ → ℚ} (h : IsRnd rnd) {y dy dx d dy' dx' d' : ℚ} (hy : IsDouble y) (hdx : 0 < dx) (h1 : |dy' - dy| ≤ |dy| / 2 ^ 53) (h2 : |dx' - dx| ≤ |dx| / 2 ^ 53)
    (h3 : |d' - d| ≤ |d| / 2 ^ 53) (hd : |d| ≤ 2 ^ 65) :
    |rnd (y + rnd (rnd (dy' / dx') * d')) - (y + dy / dx * d)| ≤ |y + dy / dx * d| / 2 ^ 53 + |dy / dx * d| / 2 ^ 49 + 2 ^ 68 * tiny := by
  have t0 := tiny_pos
  have e1 := quot_err hdx h1 h2
  set s := dy / dx with hs
  set q := rnd (dy' / dx') with hq
  have e2 : |q - s| ≤ |s| * 5 / 2 ^ 53 + tiny := by
    have a1 := h.err_any (dy' / dx')
    have a2 : |dy' / dx'| ≤ |s| * (1 + 3 / 2 ^ 53) := by
      have : dy' / dx' = (dy' / dx' - s) + s := by ring
      rw [this]
      refine (abs_add_le _ _).trans ?_
      linarith
    have : q - s = (q - dy' / dx') + (dy' / dx' - s) := by ring
    rw [this]
    refine (abs_add_le _ _).trans ?_
    have ps := abs_nonneg s
    have : |dy' / dx'| / 2 ^ 53 ≤ |s| * (1 + 3 / 2 ^ 53) / 2 ^ 53 := by gcongr
    linarith
  have pd := abs_nonneg d
  have ps := abs_nonneg s
  have psd : 0 ≤ |s| * |d| := by positivity
  have e3 : |q * d' - s * d| ≤ |s| * |d| * 7 / 2 ^ 53 + 2 * tiny * |d| := by
    have : q * d' - s * d = (q - s) * d + s * (d' - d) + (q - s) * (d' - d) := by ring
    rw [this]
    have t1 : |(q - s) * d| ≤ (|s| * 5 / 2 ^ 53 + tiny) * |d| := by rw [abs_mul]; gcongr
    have t2 : |s * (d' - d)| ≤ |s| * (|d| / 2 ^ 53) := by rw [abs_mul]; gcongr
    have t3 : |(q - s) * (d' - d)| ≤ (|s| * 5 / 2 ^ 53 + tiny) * (|d| / 2 ^ 53) := by rw [abs_mul]; gcongr
    refine (abs_sum3 t1 t2 t3).trans ?_
    have : 0 ≤ tiny * |d| := by positivity
    nlinarith
  set m := rnd (q * d') with hm
  have e4 : |m - s * d| ≤ |s| * |d| * 9 / 2 ^ 53 + 2 ^ 67 * tiny := by
    have a1 := h.err_any (q * d')
    have a2 : |q * d'| ≤ |s| * |d| * (1 + 7 / 2 ^ 53) + 2 * tiny * |d| := by
      have : q * d' = (q * d' - s * d) + s * d := by ring
      rw [this]
      refine (abs_add_le _ _).trans ?_
      rw [abs_mul s d]
      linarith
    have : m - s * d = (m - q * d') + (q * d' - s * d) := by ring
    rw [this]
    refine (abs_add_le _ _).trans ?_
    have a3 : |q * d'| / 2 ^ 53 ≤ (|s| * |d| * (1 + 7 / 2 ^ 53) + 2 * tiny * |d|) / 2 ^ 53 := by gcongr
    have a4 : tiny * |d| ≤ tiny * 2 ^ 65 := by gcongr
    nlinarith
  have e5 := h.err_add hy (h.mem (q * d'))
  rw [← hm] at e5
  have a6 : |y + m| ≤ |y + s * d| + |m - s * d| := by
    have : y + m = (y + s * d) + (m - s * d) := by ring
    rw [this]
    exact abs_add_le _ _
  have : rnd (y + m) - (y + s * d) = (rnd (y + m) - (y + m)) + (m - s * d) := by ring
  rw [this]
  refine (abs_add_le _ _).trans ?_
  rw [abs_mul s d]
  have a7 : |y + m| / 2 ^ 53 ≤ (|y + s * d| + (|s| * |d| * 9 / 2 ^ 53 + 2 ^ 67 * tiny)) / 2 ^ 53 := by gcongr; linarith
  nlinarith

/-- the line through two points at a third time, far from overflow -/
theorem dbl_line {rnd : ℚ → ℚ} (h : IsRnd rnd) {a b : Pt Fp} {r : Fp} (ha : Fine a) (hb : Fine b) (hr : Bounded (2 ^ 64) r) (hgap : fval a.x + 1 / 2 ^ 64 ≤ fval b.x) :
    ∃ V, (dbl rnd).line a b r = some (.fin V) ∧
      |V - lineAt (toQ a) (toQ b) (fval r)| ≤
        |lineAt (toQ a) (toQ b) (fval r)| / 2 ^ 53 + |lineAt (toQ a) (toQ b) (fval r) - fval a.y| / 2 ^ 49 + 2 ^ 68 * tiny := by
  obtain ⟨ax, ay⟩ := a
  obtain ⟨bx, by'⟩ := b
  obtain ⟨⟨ax, rfl, dax, bax⟩, ⟨ay, rfl, day, bay⟩⟩ := ha
  obtain ⟨⟨bx, rfl, dbx, bbx⟩, ⟨b', rfl, dby, bby⟩⟩ := hb
  obtain ⟨r, rfl, dr, br⟩ := hr
  simp only [fval] at hgap
  obtain ⟨s1, c1⟩ := fsub_eq h bby bay
  obtain ⟨s2, -⟩ := fsub_eq h bbx bax
  obtain ⟨s3, c3⟩ := fsub_eq h br bax
  have h64 : (0 : ℚ) < 1 / 2 ^ 64 := by norm_num
  have hdx : 1 / 2 ^ 64 ≤ rnd (bx - ax) := by
    refine h.ge_of_ge ?_ (by linarith)
    have := isDouble_pow (-64) (by norm_num)
    rwa [show (2 : ℚ) ^ (-64 : ℤ) = 1 / 2 ^ 64 by rw [zpow_neg]; norm_num] at this
  have hdx0 : 0 < rnd (bx - ax) := lt_of_lt_of_le h64 hdx
  have hq : |rnd (b' - ay) / rnd (bx - ax)| ≤ 2 ^ 129 := by
    rw [abs_div, abs_of_pos hdx0, div_le_iff₀ hdx0]
    refine c1.trans ?_
    have : (2 : ℚ) ^ 129 * (1 / 2 ^ 64) ≤ 2 ^ 129 * rnd (bx - ax) := by gcongr
    refine le_trans (le_of_eq ?_) this
    norm_num
  have e1 : fdiv rnd (.fin (rnd (b' - ay))) (.fin (rnd (bx - ax))) = .fin (rnd (rnd (b' - ay) / rnd (bx - ax))) := by
    simp only [fdiv, Fp.div]
    rw [if_neg hdx0.ne']
    exact rounded_of_le h 129 (by norm_num) hq
  obtain ⟨e2, c2⟩ := fmul_eq h (rnd_abs_le h hq) c3 (by norm_num)
  set M := rnd (rnd (rnd (b' - ay) / rnd (bx - ax)) * rnd (r - ax)) with hM
  have e3 : fadd rnd (.fin ay) (.fin M) = .fin (rnd (ay + M)) := by
    simp only [fadd, Fp.add]
    refine rounded_of_le h 195 (by norm_num) ((abs_add_le _ _).trans ?_)
    have : (2 : ℚ) ^ 64 + 2 ^ (129 + 65) ≤ 2 ^ 195 := by norm_num
    linarith
  refine ⟨rnd (ay + M), ?_, ?_⟩
  · simp only [dbl, s1, s2, s3, e1, e2, e3]
  · have hd : |r - ax| ≤ 2 ^ 65 := (abs_sub _ _).trans (by linarith)
    have := line_err h day (by linarith : 0 < bx - ax) (h.err_sub dby day) (h.err_sub dbx dax) (h.err_sub dr dax) hd
    have e4 : lineAt (toQ ⟨.fin ax, .fin ay⟩) (toQ ⟨.fin bx, .fin b'⟩) (fval (.fin r)) = ay + (b' - ay) / (bx - ax) * (r - ax) := by
      simp only [lineAt, toQ, fval]
    rw [e4]
    simp only [fval, add_sub_cancel_left]
    exact this

/-- **C113** (the returned value) For remote and local times of at most 2^64, accepted remote times at least 2^-64 apart: from the third kept point on, the returned value is a finite double, and differs
from the exact value of the line through the two neighbours of the hull around the computed midpoint by at most half a unit in the last place of the result, plus the change along the line times 2^-49, plus a tiny constant. -/
theorem C113_accuracy_partial {rnd : ℚ → ℚ} (h : IsRnd rnd) (obs : List (Pt Fp)) (p : Pt Fp) (hf : ∀ q ∈ obs ++ [p], Fine q)
    (hg : (accepted fval (obs ++ [p])).Pairwise fun a b => fval a.x + 1 / 2 ^ 64 ≤ fval b.x) (hacc : ∀ q, (accepted fval obs).getLast? = some q → fval q.x < fval p.x)
    (hl : 3 ≤ (correct (dbl rnd) (feed (dbl rnd) .fresh obs) p.x p.y).2.hull.length) :
    ∃ c q a b V, correct (dbl rnd) (feed (dbl rnd) .fresh obs) p.x p.y = (.value (.fin V), c) ∧
      c.hull.head? = some q ∧ c.hull[c.mid]? = some a ∧ c.hull[c.mid + 1]? = some b ∧
      fval a.x < rnd (rnd (fval q.x + fval p.x) / 2) ∧ rnd (rnd (fval q.x + fval p.x) / 2) ≤ fval b.x ∧
      |V - lineAt (toQ a) (toQ b) (fval p.x)| ≤
        |lineAt (toQ a) (toQ b) (fval p.x)| / 2 ^ 53 + |lineAt (toQ a) (toQ b) (fval p.x) - fval a.y| / 2 ^ 49 + 2 ^ 68 * tiny := by
  have hB : ∀ q ∈ obs ++ [p], Bounded limit q.x := by
    intro q hq
    obtain ⟨⟨v, e, d, b⟩, -⟩ := hf q hq
    exact ⟨v, e, d, b.trans (pow_le_limit 64 (by norm_num))⟩
  have hS := dbl_safe h
  obtain ⟨-, -, -, hs⟩ := C112_safe_partial h obs p hB
  obtain ⟨c, ec, -, hs⟩ := hs hacc
  rw [ec] at hl
  obtain ⟨q, a, b, hq, ha, hb, h1, h2, hv⟩ := hs hl
  have hk := feed_kept hS (obs ++ [p]) hB
  rw [feed_snoc, ec] at hk
  obtain ⟨hi, ea⟩ := List.getElem?_eq_some_iff.1 ha
  obtain ⟨hi', eb⟩ := List.getElem?_eq_some_iff.1 hb
  have hgap : fval a.x + 1 / 2 ^ 64 ≤ fval b.x := by
    have := List.pairwise_iff_getElem.1 (hg.sublist hk.sub) c.mid (c.mid + 1) hi hi' (by omega)
    rwa [ea, eb] at this
  have hin : ∀ x ∈ c.hull, Fine x := fun x hx => hf x (accepted_subset _ _ x (hk.sub.subset hx))
  obtain ⟨V, e, hV⟩ := dbl_line h (hin a (ea ▸ List.getElem_mem _)) (hin b (eb ▸ List.getElem_mem _)) (hf p (by simp)).1 hgap
  refine ⟨c, q, a, b, V, ?_, hq, ha, hb, h1, h2, hV⟩
  have : (dbl rnd).line a b p.x = some (fadd rnd a.y (fmul rnd (fdiv rnd (fsub rnd b.y a.y) (fsub rnd b.x a.x)) (fsub rnd p.x a.x))) := rfl
  rw [this, Option.some.injEq] at e
  rw [e] at hv
  exact Prod.ext hv ec

/-- **C113** (claim) With small times the returned local time is never later than the measured one. -/
def C113_claim : Prop := ∀ (rnd : ℚ → ℚ), IsRnd rnd → ∀ (obs : List (Pt Fp)) (p : Pt Fp) (V : ℚ), (∀ q ∈ obs ++ [p], Fine q) →
  (correct (dbl rnd) (feed (dbl rnd) .fresh obs) p.x p.y).1 = .value (.fin V) → V ≤ fval p.y

theorem fine_int {x y : ℤ} (hx : |x| < 2 ^ 53) (hy : |y| < 2 ^ 53) : Fine ⟨.fin x, .fin y⟩ := by
  have b : ∀ n : ℤ, |n| < 2 ^ 53 → |(n : ℚ)| ≤ 2 ^ 64 := by
    intro n hn
    have : |(n : ℚ)| < 2 ^ 53 := by exact_mod_cast hn
    exact this.le.trans (by norm_num)
  exact ⟨⟨x, rfl, isDouble_int x hx, b x hx⟩, ⟨y, rfl, isDouble_int y hy, b y hy⟩⟩

/-- **C113** the observations (0, 0), (7, 29), (14, 58) are on a line, but the third result is 58 + 2^-47. -/
theorem C113_negation : ¬ C113_claim := by
  intro H
  have := H rndNearest isRnd_rndNearest [⟨.fin 0, .fin 0⟩, ⟨.fin 7, .fin 29⟩] ⟨.fin 14, .fin 58⟩ (58 + 1 / 2 ^ 47) (by
    intro q hq
    simp only [List.cons_append, List.nil_append, List.mem_cons, List.not_mem_nil, or_false] at hq
    rcases hq with rfl | rfl | rfl
    · exact_mod_cast fine_int (x := 0) (y := 0) (by norm_num) (by norm_num)
    · exact_mod_cast fine_int (x := 7) (y := 29) (by norm_num) (by norm_num)
    · exact_mod_cast fine_int (x := 14) (y := 58) (by norm_num) (by norm_num)) (by decide +kernel)
  simp only [fval] at this
  norm_num at this

/-- Concrete: these observations are far enough apart and all are kept. -/
example : Good 58 (accepted fval [⟨.fin 0, .fin 0⟩, ⟨.fin 7, .fin 29⟩, ⟨.fin 14, .fin 58⟩]) ∧
    (feed (dbl rndNearest) .fresh [⟨.fin 0, .fin 0⟩, ⟨.fin 7, .fin 29⟩, ⟨.fin 14, .fin 58⟩]).hull.length = 3 := by
  have e : accepted fval [⟨.fin 0, .fin 0⟩, ⟨.fin 7, .fin 29⟩, ⟨.fin 14, .fin 58⟩] = [⟨.fin 0, .fin 0⟩, ⟨.fin 7, .fin 29⟩, ⟨.fin 14, .fin 58⟩] := by
    decide +kernel
  refine ⟨⟨?_, ?_, ?_⟩, by decide +kernel⟩
  · rw [e]
    intro q hq
    simp only [List.mem_cons, List.not_mem_nil, or_false] at hq
    rcases hq with rfl | rfl | rfl
    · exact_mod_cast fine_int (x := 0) (y := 0) (by norm_num) (by norm_num)
    · exact_mod_cast fine_int (x := 7) (y := 29) (by norm_num) (by norm_num)
    · exact_mod_cast fine_int (x := 14) (y := 58) (by norm_num) (by norm_num)
  · rw [e]
    simp [fval]
    norm_num
  · rw [e]
    simp [fval]
    norm_num

end Verif.Timing.Machine
