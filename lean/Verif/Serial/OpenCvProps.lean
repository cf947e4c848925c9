import Verif.Serial.OpenCv
import Verif.Serial.MacroProps

/-!
# C77, C78: comparison and serialization of OpenCV matrices
-/

namespace Verif.Serial.Cv

/-! ## Specification -/

/-- a proper matrix: rows do not overlap and every element is in the memory -/
structure Proper (es : ElemSize) (m : CvMat) : Prop where
  step : m.width es ≤ m.step
  off : m.off ≤ m.buf.length
  mem : ∀ r, r < m.rows → m.off + m.step * r + m.width es ≤ m.buf.length

/-- the same size and type and the same elements, byte by byte -/
def SameMat (es : ElemSize) (a b : CvMat) : Prop :=
  a.rows = b.rows ∧ a.cols = b.cols ∧ a.type = b.type ∧
    ∀ r c, r < a.rows → c < a.width es → a.byte r c = b.byte r c

/-! ## C77 -/

/-- **C77, the claim**: `isBinaryEqual` reads no memory outside of the matrices and is true iff they are the same. -/
def C77_claim : Prop := ∀ (es : ElemSize) (depth : Nat → Nat) (m1 m2 : CvMat) (s : St), Proper es m1 → Proper es m2 →
  ∃ b s', isBinaryEqual es depth m1 m2 s = some (b, s') ∧ (b = true ↔ SameMat es m1 m2)

theorem byte_some {es : ElemSize} {m : CvMat} (h : Proper es m) {r c : Nat} (hr : r < m.rows) (hc : c < m.width es) :
    ∃ x, m.byte r c = some x := by
  have := h.mem r hr
  refine ⟨m.buf[m.off + m.step * r + c]'(by omega), ?_⟩
  exact List.getElem?_eq_getElem _

theorem head_run (es : ElemSize) (depth : Nat → Nat) (m1 m2 : CvMat) (s : St) :
    ∃ s', run (headChecks es depth m1 m2) s = some (m1.rows == m2.rows, s') :=
  ⟨_, C74_first_partial ⟨.same, 0, m1.rows == m2.rows⟩ [⟨.same, 1, m1.cols == m2.cols⟩, ⟨.same, 2, depth m1.type == depth m2.type⟩,
    ⟨.same, 3, m1.type == m2.type⟩, ⟨.same, 4, es m1.type == es m2.type⟩] s⟩

theorem byte_run (b : Bool) (s : St) : ∃ s', run (checkSame 5 b) s = some (b, s') :=
  ⟨_, (C74_single_partial ⟨.same, 5, b⟩ true s).1⟩

theorem cmpRow_spec (m1 m2 : CvMat) (r : Nat) (cs : List Nat) (e : Bool) (s : St)
    (h1 : ∀ c ∈ cs, ∃ x, m1.byte r c = some x) (h2 : ∀ c ∈ cs, ∃ x, m2.byte r c = some x) :
    ∃ b s', cmpRow m1 m2 r cs e s = some (b, s') ∧ (b = true ↔ e = true ∧ ∀ c ∈ cs, m1.byte r c = m2.byte r c) := by
  induction cs generalizing e s with
  | nil => exact ⟨e, s, rfl, by simp⟩
  | cons c cs ih =>
    cases e
    · exact ⟨false, s, by simp [cmpRow], by simp⟩
    · obtain ⟨x, hx⟩ := h1 c (by simp)
      obtain ⟨y, hy⟩ := h2 c (by simp)
      obtain ⟨s1, hs1⟩ := byte_run (x == y) s
      obtain ⟨b, s', hb, hi⟩ := ih (x == y) s1 (fun c hc => h1 c (by simp [hc])) (fun c hc => h2 c (by simp [hc]))
      refine ⟨b, s', ?_, ?_⟩
      · simp [cmpRow, hx, hy, hs1, hb]
      · rw [hi]
        simp [hx, hy]

theorem cmpRows_spec (m1 m2 : CvMat) (w : Nat) (rs : List Nat) (e : Bool) (s : St)
    (h1 : ∀ r ∈ rs, ∀ c < w, ∃ x, m1.byte r c = some x) (h2 : ∀ r ∈ rs, ∀ c < w, ∃ x, m2.byte r c = some x) :
    ∃ b s', cmpRows m1 m2 w rs e s = some (b, s') ∧ (b = true ↔ e = true ∧ ∀ r ∈ rs, ∀ c < w, m1.byte r c = m2.byte r c) := by
  induction rs generalizing e s with
  | nil => exact ⟨e, s, rfl, by simp⟩
  | cons r rs ih =>
    obtain ⟨b1, s1, hb1, hi1⟩ := cmpRow_spec m1 m2 r (List.range w) e s (fun c hc => h1 r (by simp) c (by simpa using hc))
      (fun c hc => h2 r (by simp) c (by simpa using hc))
    obtain ⟨b, s', hb, hi⟩ := ih b1 s1 (fun r hr => h1 r (by simp [hr])) (fun r hr => h2 r (by simp [hr]))
    refine ⟨b, s', by simp [cmpRows, hb1, hb], ?_⟩
    rw [hi, hi1]
    simp [and_assoc]

/-- **C77, what holds**: for matrices of the same number of columns and the same type the claim holds; and matrices
with different numbers of rows are always told apart. -/
theorem C77_partial (es : ElemSize) (depth : Nat → Nat) (m1 m2 : CvMat) (s : St) (h1 : Proper es m1) (h2 : Proper es m2)
    (h : m1.rows ≠ m2.rows ∨ (m1.cols = m2.cols ∧ m1.type = m2.type)) :
    ∃ b s', isBinaryEqual es depth m1 m2 s = some (b, s') ∧ (b = true ↔ SameMat es m1 m2) := by
  obtain ⟨s0, hs0⟩ := head_run es depth m1 m2 s
  by_cases hr : m1.rows = m2.rows
  · obtain ⟨hc, ht⟩ := h.resolve_left (by simp [hr])
    have hw : m1.width es = m2.width es := by simp [CvMat.width, hc, ht]
    obtain ⟨b, s', hb, hi⟩ := cmpRows_spec m1 m2 (m1.width es) (List.range m1.rows) true s0
      (fun r hr' c hc' => byte_some h1 (by simpa using hr') hc')
      (fun r hr' c hc' => byte_some h2 (by rw [← hr]; simpa using hr') (by rw [← hw]; exact hc'))
    refine ⟨b, s', ?_, ?_⟩
    · simp [isBinaryEqual, hs0, hr, ← hb]
    · rw [hi]
      simp only [SameMat, hr, hc, ht, List.mem_range, true_and]
      exact ⟨fun h r c hr hc => h r hr c hc, fun h r hr c hc => h r c hr hc⟩
  · refine ⟨false, s0, ?_, ?_⟩
    · have : (m1.rows == m2.rows) = false := by simpa using hr
      rw [this] at hs0
      simp [isBinaryEqual, hs0]
    · simp [SameMat, hr]

/-- **C77, what holds** in general: with equal numbers of rows only the first `cols * elemSize` bytes *of the first
matrix* of every row are compared, if they are in the memory of the second. -/
theorem C77_prefix_partial (es : ElemSize) (depth : Nat → Nat) (m1 m2 : CvMat) (s : St) (h1 : Proper es m1) (hr : m1.rows = m2.rows)
    (h2 : ∀ r < m2.rows, ∀ c < m1.width es, ∃ x, m2.byte r c = some x) :
    ∃ b s', isBinaryEqual es depth m1 m2 s = some (b, s') ∧
      (b = true ↔ ∀ r < m1.rows, ∀ c < m1.width es, m1.byte r c = m2.byte r c) := by
  obtain ⟨s0, hs0⟩ := head_run es depth m1 m2 s
  obtain ⟨b, s', hb, hi⟩ := cmpRows_spec m1 m2 (m1.width es) (List.range m1.rows) true s0
    (fun r hr' c hc' => byte_some h1 (by simpa using hr') hc') (fun r hr' c hc' => h2 r (by rw [← hr]; simpa using hr') c hc')
  refine ⟨b, s', ?_, by rw [hi]; simp⟩
  simp [isBinaryEqual, hs0, hr, ← hb]

/-- **C77** the claim is false: a 1 x 1 matrix "equals" the 1 x 2 matrix that begins with its element. -/
theorem C77_negation : ¬ C77_claim := by
  intro h
  let m1 : CvMat := ⟨1, 1, 0, 1, 0, [7]⟩
  let m2 : CvMat := ⟨1, 2, 0, 2, 0, [7, 8]⟩
  obtain ⟨b, s', hb, hi⟩ := h (fun _ => 1) id m1 m2 ⟨false, []⟩ ⟨by decide, by decide, by simp [m1, CvMat.width]⟩
    ⟨by decide, by decide, by simp [m2, CvMat.width]⟩
  have : isBinaryEqual (fun _ => 1) id m1 m2 ⟨false, []⟩ = some (true, ⟨false, []⟩) := by decide
  rw [hb] at this
  cases this
  have := (hi.1 rfl).2.1
  simp [m1, m2] at this

/-- **C77** the claim is false in a worse way: comparing a 1 x 2 with a 1 x 1 matrix reads outside of the memory. -/
theorem C77_overread : ∃ m1 m2 : CvMat, Proper (fun _ => 1) m1 ∧ Proper (fun _ => 1) m2 ∧
    isBinaryEqual (fun _ => 1) id m1 m2 ⟨false, []⟩ = none := by
  refine ⟨⟨1, 2, 0, 2, 0, [7, 8]⟩, ⟨1, 1, 0, 1, 0, [7]⟩, ⟨by decide, by decide, ?_⟩, ⟨by decide, by decide, ?_⟩, by decide⟩ <;> simp [CvMat.width]

/-- Concrete: a view of two rows into a wider matrix against a compact matrix. -/
example : ∃ m1 m2 : CvMat, Proper (fun _ => 1) m1 ∧ Proper (fun _ => 1) m2 ∧ m1.step ≠ m2.step ∧ m1.cols = m2.cols ∧ m1.type = m2.type ∧
    isBinaryEqual (fun _ => 1) id m1 m2 ⟨false, []⟩ = some (true, ⟨false, []⟩) := by
  refine ⟨⟨2, 2, 0, 3, 1, [0, 1, 2, 0, 3, 4]⟩, ⟨2, 2, 0, 2, 0, [1, 2, 3, 4]⟩, ⟨by decide, by decide, ?_⟩, ⟨by decide, by decide, ?_⟩, by decide, rfl, rfl, by decide⟩
  · intro r hr; simp [CvMat.width] at hr ⊢; omega
  · intro r hr; simp [CvMat.width] at hr ⊢; omega

/-! ## C78 -/

/-- **C78, the claim**: a matrix is read back from the archive as it was, into any matrix, the rest of the archive is
untouched. -/
def C78_claim : Prop := ∀ (es : ElemSize) (junk : Nat → UInt8) (m d : CvMat) (rest : List BItem), Proper es m → Proper es d →
  ∃ ts N, save es m = some ts ∧ load es junk d (ts ++ rest) = some (N, rest) ∧ SameMat es N m

theorem takeBytes_map (bs : List UInt8) (rest : List BItem) : takeBytes bs.length (bs.map .byte ++ rest) = some (bs, rest) := by
  induction bs with
  | nil => rfl
  | cons b l ih => simp [takeBytes, ih]

theorem sum_const (n w : Nat) : (List.map (fun _ => w) (List.range n)).sum = n * w := by
  induction n with
  | zero => simp
  | succ n ih => rw [List.range_succ, List.map_append, List.sum_append, ih, Nat.succ_mul]; simp

theorem flat_get (f : Nat → Nat → UInt8) (n w : Nat) (r c : Nat) (hr : r < n) (hc : c < w) :
    ((List.range n).flatMap fun r => (List.range w).map fun c => f r c)[w * r + c]? = some (f r c) := by
  induction n with
  | zero => omega
  | succ n ih =>
    rw [List.range_succ, List.flatMap_append]
    have hlen : ((List.range n).flatMap fun r => (List.range w).map fun c => f r c).length = n * w := by
      simp [List.length_flatMap, sum_const]
    by_cases h : r < n
    · rw [List.getElem?_append_left, ih h]
      rw [hlen]
      have : w * r + w ≤ n * w := by
        have := Nat.mul_le_mul_left w (show r + 1 ≤ n from h)
        rw [Nat.mul_comm n w]
        simpa [Nat.mul_succ] using this
      omega
    · obtain rfl : r = n := by omega
      rw [List.getElem?_append_right (by rw [hlen, Nat.mul_comm w r]; omega), hlen]
      have : w * r + c - r * w = c := by rw [Nat.mul_comm w r]; omega
      simp [this, hc]

theorem clone_proper (es : ElemSize) (m : CvMat) : (m.clone es).buf.length = m.rows * m.width es := by
  simp [CvMat.clone, List.length_flatMap, sum_const]

theorem clone_byte {es : ElemSize} {m : CvMat} (h : Proper es m) {r c : Nat} (hr : r < m.rows) (hc : c < m.width es) :
    (m.clone es).byte r c = m.byte r c := by
  obtain ⟨x, hx⟩ := byte_some h hr hc
  have := flat_get (fun r c => (m.byte r c).getD 0) m.rows (m.width es) r c hr hc
  simp only [CvMat.byte, CvMat.clone, Nat.zero_add]
  simp only [CvMat.byte] at this hx
  rw [this, hx]
  rfl

/-- the block of bytes a compact matrix writes -/
theorem compact_save (es : ElemSize) (m : CvMat) (hs : m.step = m.width es) (hm : m.off + m.step * m.rows ≤ m.buf.length) :
    ∃ bs : List UInt8, bs.length = m.rows * m.width es ∧ (m.buf.drop m.off).take (m.step * m.rows) = bs ∧
      ∀ r c, r < m.rows → c < m.width es → bs[m.width es * r + c]? = m.byte r c := by
  refine ⟨_, ?_, rfl, ?_⟩
  · rw [List.length_take, List.length_drop, hs, Nat.mul_comm]
    rw [hs] at hm
    rw [Nat.mul_comm] at hm
    omega
  · intro r c hr hc
    have : m.width es * r + c < m.step * m.rows := by
      rw [hs]
      have := Nat.mul_le_mul_left (m.width es) (show r + 1 ≤ m.rows from hr)
      rw [Nat.mul_succ] at this
      omega
    rw [List.getElem?_take_of_lt this, List.getElem?_drop, CvMat.byte, hs, Nat.add_assoc]

/-- reading a block of bytes into a matrix that is compact after `create` -/
theorem load_compact (es : ElemSize) (junk : Nat → UInt8) (d : CvMat) (hd : Proper es d) (r c t : Nat) (bs : List UInt8) (rest : List BItem)
    (hb : bs.length = r * (c * es t)) (hcomp : d.rows = r → d.cols = c → d.type = t → d.step = d.width es) :
    ∃ N, load es junk d (.int r :: .int c :: .int t :: (bs.map .byte ++ rest)) = some (N, rest) ∧
      N.rows = r ∧ N.cols = c ∧ N.type = t ∧ ∀ i j, i < r → j < c * es t → N.byte i j = bs[c * es t * i + j]? := by
  have hcr : ∃ D : CvMat, d.create es junk r c t = D ∧ D.rows = r ∧ D.cols = c ∧ D.type = t ∧ D.step = c * es t ∧
      D.off + D.step * D.rows ≤ D.buf.length := by
    unfold CvMat.create
    split
    · rename_i h
      obtain ⟨h1, h2, h3, h4⟩ := h
      have hst := hcomp h1 h2 h3
      have hw : d.width es = c * es t := by simp [CvMat.width, h2, h3]
      refine ⟨d, rfl, h1, h2, h3, by rw [hst, hw], ?_⟩
      rcases Nat.eq_zero_or_pos d.rows with h0 | hpos
      · rw [h0]
        have : d.off ≤ d.buf.length := by
          exact hd.off
        simpa using this
      · have := hd.mem (d.rows - 1) (by omega)
        have e : d.step * d.rows = d.step * (d.rows - 1) + d.step := by
          rw [← Nat.mul_succ]; congr 1; omega
        rw [e]
        rw [hst] at this ⊢
        omega
    · exact ⟨_, rfl, rfl, rfl, rfl, rfl, by simp [Nat.mul_comm]⟩
  obtain ⟨D, hD, h1, h2, h3, h4, h5⟩ := hcr
  have htb : takeBytes (D.step * D.rows) (bs.map .byte ++ rest) = some (bs, rest) := by
    rw [h4, h1, Nat.mul_comm, ← hb]
    exact takeBytes_map bs rest
  refine ⟨{ D with buf := D.buf.take D.off ++ bs ++ D.buf.drop (D.off + D.step * D.rows) }, ?_, h1, h2, h3, ?_⟩
  rotate_left
  · intro i j hi hj
    have hlt : c * es t * i + j < bs.length := by
      rw [hb, Nat.mul_comm r]
      have := Nat.mul_le_mul_left (c * es t) (show i + 1 ≤ r from hi)
      rw [Nat.mul_succ] at this
      omega
    simp only [CvMat.byte]
    rw [h4, List.append_assoc, List.getElem?_append_right (by simp; omega)]
    have hoff : (D.buf.take D.off).length = D.off := by
      rw [List.length_take]; omega
    rw [hoff, List.getElem?_append_left (by omega)]
    congr 1
    omega
  · simp only [load, hD, htb]
    rw [if_pos h5]

/-- **C78, what holds**: the round trip is exact for every matrix, also for views into larger ones, except a single
row of a view (`m.rows = 1` with a step that is not the width), and into every matrix except a view of exactly the same size
and type. -/
theorem C78_partial (es : ElemSize) (junk : Nat → UInt8) (m d : CvMat) (rest : List BItem) (hm : Proper es m) (hd : Proper es d)
    (h1 : m.rows = 1 → m.step = m.width es)
    (h2 : d.rows = m.rows → d.cols = m.cols → d.type = m.type → d.step = d.width es) :
    ∃ ts N, save es m = some ts ∧ load es junk d (ts ++ rest) = some (N, rest) ∧ SameMat es N m := by
  have key : ∀ m' : CvMat, m' = (if m.continuous es then m else m.clone es) → m'.rows = m.rows → m'.cols = m.cols → m'.type = m.type →
      (m.rows ≠ 0 → m'.step = m'.width es) → m'.off + m'.step * m'.rows ≤ m'.buf.length →
      (∀ r c, r < m.rows → c < m.width es → m'.byte r c = m.byte r c) →
      ∃ ts N, save es m = some ts ∧ load es junk d (ts ++ rest) = some (N, rest) ∧ SameMat es N m := by
    intro m' hm' hr hc ht hst hlen hby
    have hw : m'.width es = m.width es := by simp [CvMat.width, hc, ht]
    have hbs : ∃ bs : List UInt8, bs.length = m.rows * m.width es ∧ (m'.buf.drop m'.off).take (m'.step * m'.rows) = bs ∧
        ∀ r c, r < m.rows → c < m.width es → bs[m.width es * r + c]? = m.byte r c := by
      by_cases h0 : m.rows = 0
      · refine ⟨[], by simp [h0], by simp [hr, h0], fun r c hr => by omega⟩
      · obtain ⟨bs, a, b, e⟩ := compact_save es m' (hst h0) hlen
        refine ⟨bs, by rw [a, hr, hw], b, fun r c hr' hc' => ?_⟩
        rw [← hby r c hr' hc', ← hw]
        exact e r c (by rw [hr]; exact hr') (by rw [hw]; exact hc')
    obtain ⟨bs, hl, hb, hbyte⟩ := hbs
    obtain ⟨N, hN, n1, n2, n3, n4⟩ := load_compact es junk d hd m.rows m.cols m.type bs rest hl h2
    refine ⟨.int m.rows :: .int m.cols :: .int m.type :: bs.map .byte, N, ?_, ?_, n1, n2, n3, ?_⟩
    · simp only [save, ← hm']
      rw [if_pos hlen, hb, hr, hc, ht]
    · exact hN
    · intro r c hr' hc'
      rw [n1] at hr'
      have hcw : c < m.width es := by simpa [CvMat.width, n2, n3] using hc'
      rw [n4 r c hr' hcw, ← hbyte r c hr' hcw]
      rfl
  by_cases hcont : m.continuous es = true
  · refine key m (by simp [hcont]) rfl rfl rfl ?_ ?_ (fun _ _ _ _ => rfl)
    · intro h0
      simp only [CvMat.continuous, Bool.or_eq_true, decide_eq_true_eq] at hcont
      rcases hcont with h | h
      · exact h1 (by omega)
      · exact h
    · by_cases h0 : m.rows = 0
      · simpa [h0] using hm.off
      · have hs : m.step = m.width es := by
          simp only [CvMat.continuous, Bool.or_eq_true, decide_eq_true_eq] at hcont
          rcases hcont with h | h
          · exact h1 (by omega)
          · exact h
        have := hm.mem (m.rows - 1) (by omega)
        have e : m.step * m.rows = m.step * (m.rows - 1) + m.step := by
          rw [← Nat.mul_succ]; congr 1; omega
        rw [e]
        rw [hs] at this ⊢
        omega
  · refine key (m.clone es) (by simp [hcont]) rfl rfl rfl (fun _ => rfl) ?_ (fun r c hr hc => clone_byte hm hr hc)
    rw [clone_proper]
    show 0 + m.width es * m.rows ≤ _
    rw [Nat.mul_comm]
    omega

/-- **C78** the claim is false for a view that is one row: bytes beyond the row are written, and the next thing in the
archive is not found where it should be. -/
theorem C78_row_negation : ¬ C78_claim := by
  intro h
  let m : CvMat := ⟨1, 1, 0, 3, 0, [1, 2, 3, 4, 5, 6]⟩
  obtain ⟨ts, N, hs, hl, -⟩ := h (fun _ => 1) (fun _ => 0) m ⟨0, 0, 0, 0, 0, []⟩ [.int 5] ⟨by decide, by decide, by simp [m, CvMat.width]⟩
    ⟨by decide, by decide, by simp⟩
  have e : save (fun _ => 1) m = some [.int 1, .int 1, .int 0, .byte 1, .byte 2, .byte 3] := by decide
  rw [e] at hs
  cases hs
  have e2 : (load (fun _ => 1) (fun _ => 0) ⟨0, 0, 0, 0, 0, []⟩ ([.int 1, .int 1, .int 0, .byte 1, .byte 2, .byte 3] ++ [.int 5])).map Prod.snd =
      some [.byte 2, .byte 3, .int 5] := by decide
  rw [hl] at e2
  simp at e2

/-- **C78** the claim is false for a one-row view at the end of its matrix in a worse way: bytes outside of the memory are
written to the archive. -/
theorem C78_overread : ∃ m : CvMat, Proper (fun _ => 1) m ∧ save (fun _ => 1) m = none := by
  refine ⟨⟨1, 1, 0, 3, 4, [1, 2, 3, 4, 5, 6]⟩, ⟨by decide, by decide, ?_⟩, by decide⟩
  intro r hr
  simp [CvMat.width] at hr ⊢
  omega

/-- **C78** the claim is false for loading into a view of the same size: the bytes of the second row are looked for
behind the gap. -/
theorem C78_view_negation : ¬ C78_claim := by
  intro h
  let m : CvMat := ⟨2, 1, 0, 1, 0, [1, 2]⟩
  let d : CvMat := ⟨2, 1, 0, 2, 0, [0, 0, 0, 0]⟩
  obtain ⟨ts, N, hs, hl, -⟩ := h (fun _ => 1) (fun _ => 0) m d [.int 5] ⟨by decide, by decide, by intro r hr; simp [m, CvMat.width] at hr ⊢; omega⟩
    ⟨by decide, by decide, by intro r hr; simp [d, CvMat.width] at hr ⊢; omega⟩
  have e : save (fun _ => 1) m = some [.int 2, .int 1, .int 0, .byte 1, .byte 2] := by decide
  rw [e] at hs
  cases hs
  have e2 : load (fun _ => 1) (fun _ => 0) d ([.int 2, .int 1, .int 0, .byte 1, .byte 2] ++ [.int 5]) = none := by decide
  rw [hl] at e2
  simp at e2

/-- Concrete: a 2 x 2 view of a 2 x 3 matrix, loaded into a default-constructed matrix. -/
example : ∃ m d : CvMat, Proper (fun _ => 1) m ∧ Proper (fun _ => 1) d ∧ m.continuous (fun _ => 1) = false ∧
    (save (fun _ => 1) m).bind (fun ts => load (fun _ => 1) (fun _ => 0) d (ts ++ [.int 9])) =
      some (⟨2, 2, 0, 2, 0, [1, 2, 4, 5]⟩, [.int 9]) := by
  refine ⟨⟨2, 2, 0, 3, 0, [1, 2, 3, 4, 5, 6]⟩, ⟨0, 0, 0, 0, 0, []⟩, ⟨by decide, by decide, ?_⟩, ⟨by decide, by decide, by simp⟩, by decide, by decide⟩
  intro r hr
  simp [CvMat.width] at hr ⊢
  omega

open Boost

/-- **C78** points and key points are read back exactly, in every format. -/
theorem C78_keypoints {α τ : Type} (xml : Bool) (c : Codec α τ) (hc : ∀ x, c.dec (c.enc x) = some x) (rest : List (Item τ)) :
    (∀ p d : Point2f α, loadPoint xml c d (savePoint xml c p ++ rest) = ⟨none, p, rest⟩) ∧
    (∀ k d : KeyPoint α, loadKey xml c d (saveKey xml c k ++ rest) = ⟨none, k, rest⟩) := by
  have hp : ∀ p : Point2f α, Reads (fun _ => True ∧ True) (loadPoint xml c) (savePoint xml c p) p := fun p =>
    reads_load2 _ _ _ (reads_tag xml "p.x" (reads_scal c p.x (hc _))) (reads_tag xml "p.y" (reads_scal c p.y (hc _))) (nvp_ne _ _ (by simp))
  refine ⟨fun p d => (hp p).ok d rest ⟨trivial, trivial⟩, fun k d => ?_⟩
  have h1 := reads_load2 (Prod.mk : α → α → α × α) Prod.fst Prod.snd (reads_tag xml "k.octave" (reads_scal c k.octave (hc _)))
    (reads_tag xml "k.class_id" (reads_scal c k.classId (hc _))) (nvp_ne _ _ (by simp))
  have h2 := reads_load2 (Prod.mk : α → α × α → _) Prod.fst Prod.snd (reads_tag xml "k.response" (reads_scal c k.response (hc _))) h1
    (by cases xml <;> simp [nvp])
  have h3 := reads_load2 (Prod.mk : α → α × α × α → _) Prod.fst Prod.snd (reads_tag xml "k.angle" (reads_scal c k.angle (hc _))) h2
    (by cases xml <;> simp [nvp])
  have h4 := reads_load2 (Prod.mk : α → α × α × α × α → _) Prod.fst Prod.snd (reads_tag xml "k.size" (reads_scal c k.size (hc _))) h3
    (by cases xml <;> simp [nvp])
  have h5 := reads_load2 (fun a (b : α × α × α × α × α) => (⟨a, b.1, b.2.1, b.2.2.1, b.2.2.2.1, b.2.2.2.2⟩ : KeyPoint α)) KeyPoint.pt
    (fun k => (k.size, k.angle, k.response, k.octave, k.classId)) (reads_tag xml "k.pt" (hp k.pt)) h4 (by cases xml <;> simp [nvp])
  exact h5.ok d rest ⟨⟨trivial, trivial⟩, trivial, trivial, trivial, trivial, trivial⟩

end Verif.Serial.Cv
