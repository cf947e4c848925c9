import Verif.Archive.Disk
import Verif.Archive.Invariant

/-!
# Helper lemmas for C123
-/

namespace Verif.Archive

/-- the stream after the bytes `w` have been written to it; `R` is the room the device had -/
structure Tracks (R : Nat) (s : Stream) (w : List Byte) : Prop where
  room : s.file.length + s.room = R
  pre : s.file ++ s.pending <+: w
  all : s.good = true → s.dead = false → s.file ++ s.pending = w
  bad : s.good = false → s.room = 0 ∧ s.pending = [] ∧ s.file.length < w.length

theorem Tracks.start (R : Nat) (c : Option Nat) : Tracks R ⟨[], R, [], true, c⟩ [] :=
  ⟨by simp, by simp, by simp, by simp⟩

theorem dead_tick {s : Stream} (h : s.dead = true) : s.tick.dead = true := by
  simp only [Stream.dead, beq_iff_eq, Stream.tick] at h ⊢
  rw [h]; rfl

theorem Tracks.hand {R : Nat} {s : Stream} {w : List Byte} (h : Tracks R s w) (hg : s.good = true) (k : Nat) : Tracks R (s.hand k) w := by
  unfold Stream.hand
  split
  · rename_i hk
    refine ⟨?_, ?_, ?_, ?_⟩
    · have := h.room; simp only [List.length_append] at *; omega
    · simpa using h.pre
    · intro _ hd
      have := h.all hg hd
      simpa using this
    · intro hb; simp only at hb; rw [hg] at hb; cases hb
  · rename_i hk
    have hpre : s.file ++ (s.pending.take k).take s.room <+: w := by
      refine List.IsPrefix.trans ?_ h.pre
      rw [List.prefix_append_right_inj]
      exact (List.take_prefix _ _).trans (List.take_prefix _ _)
    refine ⟨?_, ?_, ?_, ?_⟩
    · have := h.room; simp only [List.length_append, List.length_take] at *; omega
    · simpa using hpre
    · intro hb; cases hb
    · intro _
      refine ⟨rfl, rfl, ?_⟩
      have h1 := h.pre.length_le
      simp only [List.length_append, List.length_take] at *
      omega

theorem Tracks.tick {R : Nat} {s : Stream} {w : List Byte} (h : Tracks R s w) (hd : s.dead = false) : Tracks R s.tick w :=
  ⟨h.room, h.pre, fun hg _ => h.all hg hd, h.bad⟩

theorem Tracks.grow {R : Nat} {s : Stream} {w : List Byte} (h : Tracks R s w) (bs : List Byte) (hn : s.dead = true ∨ s.good = false) : Tracks R s (w ++ bs) := by
  refine ⟨h.room, h.pre.trans (List.prefix_append _ _), fun hg hd => ?_, fun hb => ?_⟩
  · rcases hn with e | e
    · rw [hd] at e; cases e
    · rw [hg] at e; cases e
  · obtain ⟨h1, h2, h3⟩ := h.bad hb
    exact ⟨h1, h2, by simp only [List.length_append]; omega⟩

theorem Tracks.write {R : Nat} {s : Stream} {w : List Byte} (P : Policy) (h : Tracks R s w) (bs : List Byte) : Tracks R (s.write P bs) (w ++ bs) := by
  unfold Stream.write
  cases hd : s.dead with
  | true => simpa using h.grow bs (.inl hd)
  | false =>
    cases hg : s.good with
    | false => simpa using (h.grow bs (.inr hg)).tick hd
    | true =>
      simp only [Bool.false_eq_true, if_false, if_true]
      have h1 : Tracks R { s with pending := s.pending ++ bs } (w ++ bs) := by
        refine ⟨h.room, ?_, fun _ hd' => ?_, fun hb => ?_⟩
        · have := h.all hg hd
          simp only [← List.append_assoc, this]
          exact List.prefix_rfl
        · have := h.all hg hd
          simp only [← List.append_assoc, this]
        · simp only at hb; rw [hg] at hb; cases hb
      have h2 := (h1.hand hg (P s.pending bs)).tick (by unfold Stream.hand; split <;> exact hd)
      rwa [hg] at h2

theorem Tracks.close {R : Nat} {s : Stream} {w : List Byte} (h : Tracks R s w) : s.close.file <+: w ∧ (s.dead = false → s.close.file = w.take R) := by
  unfold Stream.close
  cases hd : s.dead with
  | true => exact ⟨by simpa using (List.prefix_append _ _).trans h.pre, by intro h; cases h⟩
  | false =>
    simp only [Bool.false_eq_true, if_false, true_implies]
    suffices e : (s.hand s.pending.length).file = w.take R from ⟨by rw [e]; exact List.take_prefix _ _, e⟩
    have hr := h.room
    cases hg : s.good with
    | false =>
      obtain ⟨h1, h2, h3⟩ := h.bad hg
      have h4 := h.pre
      rw [h2, List.append_nil] at h4
      simp only [Stream.hand, h2, List.length_nil, List.take_nil, Nat.zero_le, if_true, List.append_nil]
      rw [h1, Nat.add_zero] at hr
      rw [← hr]
      exact (List.prefix_iff_eq_take.1 h4)
    | true =>
      have hw := h.all hg hd
      unfold Stream.hand
      rw [List.take_length]
      split
      · rename_i hk
        simp only
        rw [hw, List.take_of_length_le]
        rw [← hw, List.length_append]; omega
      · rename_i hk
        simp only
        have e : R - s.file.length = s.room := by rw [← hr]; simp
        rw [← hw, List.take_append, List.take_of_length_le (l := s.file) (by rw [← hr]; exact Nat.le_add_right _ _), e]

theorem write_dead {P : Policy} {s : Stream} (bs : List Byte) (h : s.dead = true) : s.write P bs = s := by
  unfold Stream.write; rw [h]; simp

/-- a matrix block -/
theorem matrixS {R : Nat} {s : Stream} {w : List Byte} (P : Policy) (h : Tracks R s w) (n : Name) (m : Mat) :
    Tracks R (writeMatrixBlockS P s n m).1 (w ++ (writeMatrixBlock n m).bytes) ∧ (writeMatrixBlockS P s n m).2 = (writeMatrixBlock n m).res := by
  unfold writeMatrixBlockS writeMatrixBlock
  cases hv : validateName n with
  | false => exact ⟨by simpa using h.write P [magicMatrix], by simp⟩
  | true =>
    simp only [if_true]
    refine ⟨?_, trivial⟩
    have := (((((h.write P [magicMatrix]).write P (paddedName n)).write P (leBytes 4 (m.rows % 2 ^ 32))).write P (leBytes 4 (m.cols % 2 ^ 32))).write P
      ((dataBytes m.data).take ((m.rows % 2 ^ 32 * (m.cols % 2 ^ 32) % 2 ^ 32 * 8) % 2 ^ 32))).write P [magicEnd]
    simpa only [List.append_assoc, List.cons_append, List.nil_append] using this

theorem stringS {R : Nat} {s : Stream} {w : List Byte} (P : Policy) (h : Tracks R s w) (n : Name) (v : List Byte) :
    Tracks R (writeStringBlockS P s n v).1 (w ++ (writeStringBlock n v).bytes) ∧ (writeStringBlockS P s n v).2 = (writeStringBlock n v).res := by
  unfold writeStringBlockS writeStringBlock
  cases hv : validateName n with
  | false => exact ⟨by simpa using h.write P [magicString], by simp⟩
  | true =>
    simp only [if_true]
    refine ⟨?_, trivial⟩
    have := ((((h.write P [magicString]).write P (paddedName n)).write P (leBytes 4 (v.length % 2 ^ 32))).write P (v.take (v.length % 2 ^ 32))).write P [magicEnd]
    simpa only [List.append_assoc, List.cons_append, List.nil_append] using this


theorem blocksS {V : Type} {R : Nat} {s : Stream} {w : List Byte} (wS : Stream → Name → V → Stream × Res) (wB : Name → V → Written)
    (hw : ∀ s w n v, Tracks R s w → Tracks R (wS s n v).1 (w ++ (wB n v).bytes) ∧ (wS s n v).2 = (wB n v).res)
    (F : List Name) (m : Map V) (hg : s.good = true) (h : Tracks R s w) :
    ∃ w', Tracks R (saveBlocksS wS F s m).1 w' ∧ w' <+: w ++ (writeAll wB F m).bytes ∧
      ((saveBlocksS wS F s m).2 = .ok → w' = w ++ (writeAll wB F m).bytes ∧ (writeAll wB F m).res = .ok ∧ (saveBlocksS wS F s m).1.good = true) ∧
      ((saveBlocksS wS F s m).2 = .threw → (w' = w ++ (writeAll wB F m).bytes ∧ (writeAll wB F m).res = .threw) ∨ (saveBlocksS wS F s m).1.good = false) := by
  induction m generalizing s w with
  | nil =>
    refine ⟨w, ?_, by simp [writeAll], ?_, ?_⟩
    · simpa [saveBlocksS] using h
    · intro _; exact ⟨by simp [writeAll], rfl, hg⟩
    · intro e; cases e
  | cons p ps ih =>
    obtain ⟨n, v⟩ := p
    simp only [saveBlocksS, writeAll]
    cases hsel : selected F n with
    | false => simpa using ih hg h
    | true =>
      simp only [if_true]
      obtain ⟨h1, h2⟩ := hw s w n v h
      cases hS : wS s n v with
      | mk s' r =>
        rw [hS] at h1 h2
        simp only at h1 h2
        cases hB : wB n v with
        | mk bs rb =>
          rw [hB] at h1 h2
          simp only at h1 h2
          subst h2
          cases r with
          | threw => exact ⟨w ++ bs, h1, by simp, by simp, by simp⟩
          | ok =>
            simp only
            cases hg' : s'.good with
            | false =>
              refine ⟨w ++ bs, h1, ?_, ?_, ?_⟩
              · rw [← List.append_assoc]; exact List.prefix_append _ _
              · simp
              · intro _; right; simpa using hg'
            | true =>
              simp only [if_true]
              obtain ⟨w', i1, i2, i3, i4⟩ := ih hg' h1
              rw [List.append_assoc] at i2 i3 i4
              exact ⟨w', i1, i2, i3, i4⟩

/-- all of `save` -/
theorem saveS_tracks (P : Policy) (R : Nat) (c : Option Nat) (a : Archive) (F : List Name) :
    ∃ w, Tracks R (saveS P ⟨[], R, [], true, c⟩ a F).1 w ∧ w <+: (save a F).bytes ∧
      ((saveS P ⟨[], R, [], true, c⟩ a F).2 = .ok → w = (save a F).bytes ∧ (save a F).res = .ok ∧ (saveS P ⟨[], R, [], true, c⟩ a F).1.good = true) ∧
      ((saveS P ⟨[], R, [], true, c⟩ a F).2 = .threw → (w = (save a F).bytes ∧ (save a F).res = .threw) ∨ (saveS P ⟨[], R, [], true, c⟩ a F).1.good = false) := by
  obtain ⟨w, h1, h2, h3, h4⟩ := blocksS (writeMatrixBlockS P) writeMatrixBlock (fun s w n v h => matrixS P h n v) F a.values rfl (Tracks.start R c)
  unfold saveS save
  cases hs : saveBlocksS (writeMatrixBlockS P) F ⟨[], R, [], true, c⟩ a.values with
  | mk s r =>
    rw [hs] at h1 h3 h4
    simp only [List.nil_append] at h1 h2 h3 h4
    cases hb : writeAll writeMatrixBlock F a.values with
    | mk bs rb =>
      rw [hb] at h2 h3 h4
      simp only at h2 h3 h4
      cases r with
      | threw =>
        simp only
        refine ⟨w, h1, ?_, by simp, fun _ => ?_⟩
        · cases rb with
          | threw => exact h2
          | ok => exact h2.trans (List.prefix_append _ _)
        · rcases h4 rfl with ⟨e1, e2⟩ | e
          · left; subst e2; exact ⟨e1, rfl⟩
          · right; exact e
      | ok =>
        obtain ⟨e1, e2, e3⟩ := h3 rfl
        subst e1 e2
        simp only
        obtain ⟨w', i1, i2, i3, i4⟩ := blocksS (writeStringBlockS P) writeStringBlock (fun s w n v h => stringS P h n v) F a.strings e3 h1
        exact ⟨w', i1, i2, i3, i4⟩

end Verif.Archive

namespace Verif.Archive

/-- whatever every write preserves holds after `save` -/
theorem saveS_inv {P : Policy} {I : Stream → Prop} (hw : ∀ s bs, I s → I (s.write P bs)) {s : Stream} (h : I s) (a : Archive) (F : List Name) : I (saveS P s a F).1 := by
  have hm : ∀ s n m, I s → I (writeMatrixBlockS P s n m).1 := by
    intro s n m h
    unfold writeMatrixBlockS
    cases validateName n with
    | false => exact hw _ _ h
    | true => exact hw _ _ (hw _ _ (hw _ _ (hw _ _ (hw _ _ (hw _ _ h)))))
  have hs : ∀ s n v, I s → I (writeStringBlockS P s n v).1 := by
    intro s n v h
    unfold writeStringBlockS
    cases validateName n with
    | false => exact hw _ _ h
    | true => exact hw _ _ (hw _ _ (hw _ _ (hw _ _ (hw _ _ h))))
  have hl : ∀ {V : Type} (w : Stream → Name → V → Stream × Res), (∀ s n v, I s → I (w s n v).1) → ∀ (m : Map V) s, I s → I (saveBlocksS w F s m).1 := by
    intro V w hw m
    induction m with
    | nil => intro s h; exact h
    | cons p ps ih =>
      intro s h
      obtain ⟨n, v⟩ := p
      simp only [saveBlocksS]
      split
      · have := hw s n v h
        cases hr : w s n v with
        | mk s' r =>
          rw [hr] at this
          cases r with
          | threw => exact this
          | ok =>
            simp only
            split
            · exact ih s' this
            · exact this
      · exact ih s h
  unfold saveS
  have h1 := hl _ hm a.values s h
  cases hr : saveBlocksS (writeMatrixBlockS P) F s a.values with
  | mk s' r =>
    rw [hr] at h1
    cases r with
    | threw => exact h1
    | ok => exact hl _ hs a.strings s' h1

theorem write_calls {P : Policy} (s : Stream) (bs : List Byte) (h : s.calls = none) : (s.write P bs).calls = none := by
  unfold Stream.write
  have hd : s.dead = false := by simp [Stream.dead, h]
  rw [hd]
  simp only [Bool.false_eq_true, if_false]
  split
  · unfold Stream.hand
    split <;> simp [Stream.tick, h]
  · simp [Stream.tick, h]

theorem write_pending {P : Policy} {B : Nat} (hP : ∀ p b : List Byte, p.length + b.length ≤ P p b + B) (s : Stream) (bs : List Byte) (h : s.pending.length ≤ B) : (s.write P bs).pending.length ≤ B := by
  unfold Stream.write
  split
  · exact h
  · split
    · have := hP s.pending bs
      unfold Stream.hand
      split
      · simp only [Stream.tick, List.length_drop, List.length_append]; omega
      · simp [Stream.tick]
    · exact h

/-- nothing has reached the device yet -/
structure Quiet (R : Nat) (s : Stream) (w : List Byte) : Prop where
  file : s.file = []
  room : s.room = R
  good : s.good = true
  calls : s.calls = none
  pending : s.pending = w

theorem Quiet.write {R N : Nat} {s : Stream} {w : List Byte} (h : Quiet R s w) (bs : List Byte) (hn : (w ++ bs).length < N) : Quiet R (s.write (buffered N) bs) (w ++ bs) := by
  have hd : s.dead = false := by simp [Stream.dead, h.calls]
  have hk : buffered N s.pending bs = 0 := by
    simp only [buffered, h.pending]
    rw [List.length_append] at hn
    rw [if_pos hn]
  unfold Stream.write
  rw [hd, h.good, hk]
  simp only [Bool.false_eq_true, if_false, if_true, Stream.hand, List.take_zero, List.length_nil, Nat.zero_le, List.append_nil, Nat.sub_zero, List.drop_zero]
  exact ⟨h.file, h.room, rfl, by simp [Stream.tick, h.calls], by simp [Stream.tick, h.pending]⟩

theorem quiet_matrix {R N : Nat} {s : Stream} {w : List Byte} (h : Quiet R s w) (n : Name) (m : Mat) (hn : (w ++ (writeMatrixBlock n m).bytes).length < N) :
    Quiet R (writeMatrixBlockS (buffered N) s n m).1 (w ++ (writeMatrixBlock n m).bytes) := by
  unfold writeMatrixBlock writeMatrixBlockS at *
  cases hv : validateName n with
  | false =>
    rw [hv] at hn
    simpa using h.write [magicMatrix] (by simpa using hn)
  | true =>
    rw [hv] at hn
    simp only [if_true] at hn ⊢
    simp only [List.length_append, List.length_cons, List.length_nil] at hn
    have := (((((h.write (N := N) [magicMatrix] ?_).write (N := N) (paddedName n) ?_).write (N := N) (leBytes 4 (m.rows % 2 ^ 32)) ?_).write (N := N) (leBytes 4 (m.cols % 2 ^ 32)) ?_).write (N := N)
      ((dataBytes m.data).take ((m.rows % 2 ^ 32 * (m.cols % 2 ^ 32) % 2 ^ 32 * 8) % 2 ^ 32)) ?_).write (N := N) [magicEnd] ?_
    · simpa only [List.append_assoc, List.cons_append, List.nil_append] using this
    all_goals
      simp only [List.length_append, List.length_cons, List.length_nil]
      omega

theorem quiet_string {R N : Nat} {s : Stream} {w : List Byte} (h : Quiet R s w) (n : Name) (v : List Byte) (hn : (w ++ (writeStringBlock n v).bytes).length < N) :
    Quiet R (writeStringBlockS (buffered N) s n v).1 (w ++ (writeStringBlock n v).bytes) := by
  unfold writeStringBlock writeStringBlockS at *
  cases hv : validateName n with
  | false =>
    rw [hv] at hn
    simpa using h.write [magicString] (by simpa using hn)
  | true =>
    rw [hv] at hn
    simp only [if_true] at hn ⊢
    simp only [List.length_append, List.length_cons, List.length_nil] at hn
    have := ((((h.write (N := N) [magicString] ?_).write (N := N) (paddedName n) ?_).write (N := N) (leBytes 4 (v.length % 2 ^ 32)) ?_).write (N := N) (v.take (v.length % 2 ^ 32)) ?_).write (N := N) [magicEnd] ?_
    · simpa only [List.append_assoc, List.cons_append, List.nil_append] using this
    all_goals
      simp only [List.length_append, List.length_cons, List.length_nil]
      omega

theorem quiet_blocks {V : Type} {R N : Nat} {s : Stream} {w : List Byte} (wS : Stream → Name → V → Stream × Res) (wB : Name → V → Written)
    (hw : ∀ s w n v, Quiet R s w → (w ++ (wB n v).bytes).length < N → Quiet R (wS s n v).1 (w ++ (wB n v).bytes)) (hr : ∀ s n v, (wS s n v).2 = (wB n v).res)
    (F : List Name) (m : Map V) (h : Quiet R s w) (hn : (w ++ (writeAll wB F m).bytes).length < N) :
    Quiet R (saveBlocksS wS F s m).1 (w ++ (writeAll wB F m).bytes) ∧ (saveBlocksS wS F s m).2 = (writeAll wB F m).res := by
  induction m generalizing s w with
  | nil => exact ⟨by simpa [saveBlocksS, writeAll] using h, rfl⟩
  | cons p ps ih =>
    obtain ⟨n, v⟩ := p
    simp only [saveBlocksS, writeAll] at hn ⊢
    cases hsel : selected F n with
    | false =>
      rw [hsel] at hn
      simpa using ih h (by simpa using hn)
    | true =>
      rw [hsel] at hn
      simp only [if_true] at hn ⊢
      have h2 := hr s n v
      have h1 := hw s w n v h
      cases hS : wS s n v with
      | mk s' r =>
        rw [hS] at h1 h2
        simp only at h1 h2
        cases hB : wB n v with
        | mk bs rb =>
          rw [hB] at h1 h2 hn
          simp only at h1 h2
          subst h2
          cases r with
          | threw => exact ⟨h1 hn, rfl⟩
          | ok =>
            simp only at hn ⊢
            have h3 := h1 (by simp only [List.length_append] at hn ⊢; omega)
            rw [h3.good]
            simp only [if_true]
            have := ih h3 (by simpa only [List.append_assoc] using hn)
            simpa only [List.append_assoc] using this

theorem quiet_save {R N : Nat} (a : Archive) (F : List Name) (hn : (save a F).bytes.length < N) :
    Quiet R (saveS (buffered N) ⟨[], R, [], true, none⟩ a F).1 (save a F).bytes ∧ (saveS (buffered N) ⟨[], R, [], true, none⟩ a F).2 = (save a F).res := by
  have q0 : Quiet R ⟨[], R, [], true, none⟩ [] := ⟨rfl, rfl, rfl, rfl, rfl⟩
  have hm : ∀ s n m, (writeMatrixBlockS (buffered N) s n m).2 = (writeMatrixBlock n m).res := by
    intro s n m
    unfold writeMatrixBlockS writeMatrixBlock
    cases validateName n <;> simp
  have hs : ∀ s n v, (writeStringBlockS (buffered N) s n v).2 = (writeStringBlock n v).res := by
    intro s n v
    unfold writeStringBlockS writeStringBlock
    cases validateName n <;> simp
  have B1 := quiet_blocks (N := N) (writeMatrixBlockS (buffered N)) writeMatrixBlock (fun s w n v => fun h1 h2 => quiet_matrix h1 n v h2) hm F a.values q0
  unfold save at hn
  unfold saveS save
  cases hb : writeAll writeMatrixBlock F a.values with
  | mk bs rb =>
    rw [hb] at hn B1
    simp only [List.nil_append] at B1
    cases rb with
    | threw =>
      obtain ⟨h1, h2⟩ := B1 hn
      cases hr : saveBlocksS (writeMatrixBlockS (buffered N)) F ⟨[], R, [], true, none⟩ a.values with
      | mk s r =>
        rw [hr] at h1 h2
        simp only at h2
        subst h2
        exact ⟨h1, rfl⟩
    | ok =>
      simp only at hn
      obtain ⟨h1, h2⟩ := B1 (by simp only [List.length_append] at hn; omega)
      cases hr : saveBlocksS (writeMatrixBlockS (buffered N)) F ⟨[], R, [], true, none⟩ a.values with
      | mk s r =>
        rw [hr] at h1 h2
        simp only at h1 h2
        subst h2
        simp only
        exact quiet_blocks (N := N) (writeStringBlockS (buffered N)) writeStringBlock (fun s w n v => fun h1 h2 => quiet_string h1 n v h2) hs F a.strings h1 hn

end Verif.Archive
