import Verif.Archive.Props
import Verif.Archive.DiskLemmas

/-!
# C123: saves that fail or are interrupted
-/

namespace Verif.Archive

/-! ## specification -/

/-- the entries of `a'` are the first ones of `a`: matrices in order of their names, then strings -/
def Leading (a' a : Archive) : Prop := a'.values <+: a.values ∧ a'.strings <+: a.strings ∧ (a'.strings ≠ [] → a'.values = a.values)

/-- after every write at most `B` bytes wait in the buffer -/
def KeepsAtMost (P : Policy) (B : Nat) : Prop := ∀ p b : List Byte, p.length + b.length ≤ P p b + B

/-! ## the file -/

/-- **C123** Wherever the process dies, however full the disk and however the stream buffers: the file has its old content (if it was not even opened) or a leading part of what a complete save writes. -/
theorem C123_prefix (P : Policy) (old : List Byte) (R : Nat) (c : Option Nat) (a : Archive) (F : List Name) :
    (c = some 0 ∧ (saveFile P old R c a F).file = old) ∨ (saveFile P old R c a F).file <+: (save a F).bytes := by
  unfold saveFile
  split
  · rename_i h; exact .inl ⟨h, rfl⟩
  · right
    obtain ⟨w, h1, h2, -, -⟩ := saveS_tracks P R (c.map (· - 1)) a F
    exact h1.close.1.trans h2

theorem live (P : Policy) (R : Nat) (a : Archive) (F : List Name) : (saveS P ⟨[], R, [], true, none⟩ a F).1.dead = false := by
  have := saveS_inv (P := P) (I := fun s => s.calls = none) (fun s bs h => write_calls s bs h) (s := ⟨[], R, [], true, none⟩) rfl a F
  simp [Stream.dead, this]

theorem saveFile_live (P : Policy) (old : List Byte) (R : Nat) (a : Archive) (F : List Name) :
    saveFile P old R none a F = ⟨(saveS P ⟨[], R, [], true, none⟩ a F).1.close.file, some (saveS P ⟨[], R, [], true, none⟩ a F).2⟩ := by
  unfold saveFile
  rw [if_neg (by simp)]
  simp [live P R a F]

/-- **C123** If there is room for the file, it is written completely, and the call ends as it does on a perfect stream. -/
theorem C123_complete (P : Policy) (old : List Byte) (R : Nat) (a : Archive) (F : List Name) (hR : (save a F).bytes.length ≤ R) :
    saveFile P old R none a F = ⟨(save a F).bytes, some (save a F).res⟩ := by
  rw [saveFile_live]
  obtain ⟨w, h1, h2, h3, h4⟩ := saveS_tracks P R none a F
  have hc := h1.close.2 (live P R a F)
  have hgood : (saveS P ⟨[], R, [], true, none⟩ a F).1.good = true := by
    cases hg : (saveS P ⟨[], R, [], true, none⟩ a F).1.good with
    | true => rfl
    | false =>
      obtain ⟨e1, -, e3⟩ := h1.bad hg
      have := h1.room
      have := h2.length_le
      omega
  have key : w = (save a F).bytes ∧ (saveS P ⟨[], R, [], true, none⟩ a F).2 = (save a F).res := by
    cases hr : (saveS P ⟨[], R, [], true, none⟩ a F).2 with
    | ok => exact ⟨(h3 hr).1, (h3 hr).2.1.symm⟩
    | threw =>
      rcases h4 hr with ⟨e1, e2⟩ | e
      · exact ⟨e1, e2.symm⟩
      · rw [hgood] at e; cases e
  rw [hc, key.1, key.2, List.take_of_length_le hR]

/-- **C123** No false alarm: if an archive that can be saved is reported as not saved, the disk was too small and part of the file is missing. -/
theorem C123_alarm (P : Policy) (old : List Byte) (R : Nat) (a : Archive) (F : List Name) (hs : (save a F).res = .ok) (h : (saveFile P old R none a F).res = some .threw) :
    R < (save a F).bytes.length ∧ (saveFile P old R none a F).file.length < (save a F).bytes.length := by
  have hR : R < (save a F).bytes.length := by
    rcases Nat.lt_or_ge R (save a F).bytes.length with hn | hn
    · exact hn
    · rw [C123_complete P old R a F hn, hs] at h
      simp at h
  refine ⟨hR, ?_⟩
  rw [saveFile_live]
  obtain ⟨w, h1, h2, -, -⟩ := saveS_tracks P R none a F
  simp only [h1.close.2 (live P R a F), List.length_take]
  omega

/-- the claim that a normal return means that the file is complete, for a stream with a buffer of `N` bytes -/
def C123_claim (N : Nat) : Prop :=
  ∀ (old : List Byte) (R : Nat) (a : Archive) (F : List Name), Reachable a → (saveFile (buffered N) old R none a F).res = some .ok → (saveFile (buffered N) old R none a F).file = (save a F).bytes

/-- **C123** An archive smaller than the buffer is always reported as saved, whatever became of the file: nobody looks at the result of closing it. -/
theorem C123_small_negation (N : Nat) (old : List Byte) (R : Nat) (a : Archive) (F : List Name) (hs : (save a F).res = .ok) (hn : (save a F).bytes.length < N) :
    saveFile (buffered N) old R none a F = ⟨(save a F).bytes.take R, some .ok⟩ := by
  rw [saveFile_live]
  obtain ⟨w, h1, h2, h3, -⟩ := saveS_tracks (buffered N) R none a F
  obtain ⟨-, q2⟩ := quiet_save (R := R) a F hn
  rw [hs] at q2
  rw [h1.close.2 (live _ R a F), q2, (h3 q2).1]

/-- **C123** With the buffer of the usual libraries (8191 bytes) the claim fails: on a full disk an archive of one number is "saved" into an empty file. -/
theorem C123_negation : ¬ C123_claim 8191 := by
  intro h
  have hr : Reachable (setScalar empty nameA 5).2 := Reachable.step (op := .setScalar nameA 5) .init trivial rfl
  have hl : (save (setScalar empty nameA 5).2 []).bytes.length = 50 := by decide
  have hs : (save (setScalar empty nameA 5).2 []).res = .ok := by decide
  have e := C123_small_negation 8191 [] 0 (setScalar empty nameA 5).2 [] hs (by rw [hl]; omega)
  have := h [] 0 _ [] hr (by rw [e])
  rw [e] at this
  simp only [List.take_zero] at this
  rw [← this] at hl
  simp at hl

/-- **C123** What a normal return does promise: only bytes that were still in the buffer can be missing. -/
theorem C123_loss_partial (P : Policy) (B : Nat) (hP : KeepsAtMost P B) (old : List Byte) (R : Nat) (a : Archive) (F : List Name) (h : (saveFile P old R none a F).res = some .ok) :
    (save a F).res = .ok ∧ (save a F).bytes.length ≤ (saveFile P old R none a F).file.length + B := by
  rw [saveFile_live] at h ⊢
  simp only [Option.some.injEq] at h
  obtain ⟨w, h1, h2, h3, -⟩ := saveS_tracks P R none a F
  obtain ⟨e1, e2, e3⟩ := h3 h
  have hd := live P R a F
  have hp : (saveS P ⟨[], R, [], true, none⟩ a F).1.pending.length ≤ B :=
    saveS_inv (I := fun s => s.pending.length ≤ B) (fun s bs hs => write_pending hP s bs hs) (by simp) a F
  have hw := h1.all e3 hd
  refine ⟨e2, ?_⟩
  simp only [h1.close.2 hd, List.length_take]
  have hl := congrArg List.length hw
  have hr := h1.room
  rw [List.length_append] at hl
  rw [← e1]
  omega

/-- **C123** In particular the claim holds of a stream without buffer. -/
theorem C123_unbuffered_partial (old : List Byte) (R : Nat) (a : Archive) (F : List Name) (h : (saveFile (buffered 0) old R none a F).res = some .ok) :
    (saveFile (buffered 0) old R none a F).file = (save a F).bytes := by
  have h1 := (C123_loss_partial (buffered 0) 0 (by intro p b; simp [buffered]) old R a F h).2
  rcases C123_prefix (buffered 0) old R none a F with ⟨e, -⟩ | e
  · cases e
  · exact e.eq_of_length_le (by omega)

/-- the claim that an interrupted save leaves the old or the new content -/
def C123_atomic_claim (P : Policy) : Prop :=
  ∀ (old : List Byte) (c : Option Nat) (R : Nat) (a : Archive) (F : List Name), (saveFile P old R c a F).file = old ∨ (saveFile P old R c a F).file = (save a F).bytes

/-- **C123** Saves are not atomic, with any buffering: the old file is emptied first. -/
theorem C123_atomic_negation (P : Policy) : ¬ C123_atomic_claim P := by
  intro h
  have hl : (save (setScalar empty nameA 5).2 []).bytes.length = 50 := by decide
  -- killed right after opening
  have e : (saveFile P [1] 100 (some 1) (setScalar empty nameA 5).2 []).file = [] := by
    unfold saveFile
    rw [if_neg (by simp)]
    have hd : ∀ s : Stream, (s.calls = some 0 ∧ s.file = []) → ((saveS P s (setScalar empty nameA 5).2 []).1.calls = some 0 ∧ (saveS P s (setScalar empty nameA 5).2 []).1.file = []) := fun s hs =>
      saveS_inv (P := P) (I := fun s => s.calls = some 0 ∧ s.file = []) (fun s bs hs => by rw [write_dead bs (by simp [Stream.dead, hs.1])]; exact hs) hs _ _
    obtain ⟨h1, h2⟩ := hd ⟨[], 100, [], true, some 0⟩ ⟨rfl, rfl⟩
    show (Stream.close _).file = []
    rw [Stream.close, if_pos (by unfold Stream.dead; simp only [beq_iff_eq]; exact h1)]
    exact h2
  rcases h [1] (some 1) 100 (setScalar empty nameA 5).2 [] with h | h
  · rw [e] at h; cases h
  · rw [e] at h; rw [← h] at hl; simp at hl

/-! ## reading what is left -/

theorem prefix_append_cases {p x y : List Byte} (h : p <+: x ++ y) : (p <+: x ∧ p.length < x.length) ∨ ∃ q, p = x ++ q ∧ q <+: y := by
  rcases Nat.lt_or_ge p.length x.length with hl | hl
  · exact .inl ⟨List.prefix_of_prefix_length_le h (List.prefix_append x y) (Nat.le_of_lt hl), hl⟩
  · right
    obtain ⟨q, rfl⟩ := List.prefix_of_prefix_length_le (List.prefix_append x y) h hl
    exact ⟨q, rfl, (List.prefix_append_right_inj _).1 h⟩

theorem load_prefix {V : Type} (w : Name → V → Written) (mk : V → Block) (ok : V → Prop)
    (hw : ∀ n v rest, validateName n = true → ok v → (w n v).res = .ok ∧ (w n v).bytes ≠ [] ∧ readBlock ((w n v).bytes ++ rest) = .block n (mk v) rest)
    (F G : List Name) (m : Map V) (hm : ∀ p ∈ m, selected F p.1 = true → validateName p.1 = true ∧ ok p.2) :
    ∀ (a : Archive) (p : List Byte), p <+: (writeAll w F m).bytes → (∃ m', m' <+: m ∧ p = (writeAll w F m').bytes) ∨ load a G p = .ub := by
  induction m with
  | nil =>
    intro a p hp
    simp only [writeAll, List.prefix_nil] at hp
    exact .inl ⟨[], List.prefix_rfl, by simpa [writeAll] using hp⟩
  | cons q ps ih =>
    intro a p hp
    obtain ⟨n, v⟩ := q
    have ih := ih (fun q hq => hm q (List.mem_cons_of_mem _ hq))
    simp only [writeAll] at hp
    cases hsel : selected F n with
    | false =>
      rw [hsel] at hp
      rcases ih a p (by simpa using hp) with ⟨m', h1, h2⟩ | h
      · exact .inl ⟨(n, v) :: m', by simpa using h1, by simp [writeAll, hsel, h2]⟩
      · exact .inr h
    | true =>
      rw [hsel] at hp
      obtain ⟨hv, hok⟩ := hm (n, v) (by simp) hsel
      have h0 := hw n v
      cases hwr : w n v with
      | mk bs res =>
        rw [hwr] at hp h0
        have hres := (h0 [] hv hok).1
        simp only at hres
        subst hres
        simp only [if_true] at hp
        rcases prefix_append_cases hp with ⟨h1, h2⟩ | ⟨q, rfl, hq⟩
        · by_cases hp0 : p = []
          · exact .inl ⟨[], List.nil_prefix, by simpa [writeAll] using hp0⟩
          · right
            have h3 := (h0 [] hv hok).2.2
            rw [List.append_nil] at h3
            have h4 := readBlock_take (k := p.length) h3 (by simpa using h2)
            rw [← List.prefix_iff_eq_take.1 h1] at h4
            unfold load
            cases p with
            | nil => exact absurd rfl hp0
            | cons x xs => simp only [List.length_cons, loadLoop, h4]
        · obtain ⟨-, h2, h3⟩ := h0 q hv hok
          rw [load_block (by simp [h2]) h3 hv]
          rcases ih (if selected G n then store a n (mk v) else a) q hq with ⟨m', h1, h2⟩ | h
          · exact .inl ⟨(n, v) :: m', by simpa using h1, by simp [writeAll, hsel, hwr, h2]⟩
          · exact .inr h

/-- **C123** Reading such a leftover: either `load` runs into undefined behaviour (the file ends inside an entry), or it ends between two entries and `load` silently delivers the first entries and nothing else. It never throws. -/
theorem C123_leftover (a b : Archive) (F G : List Name) (ha : Reachable a) (hs : Savable a F) (p : List Byte) (hp : p <+: (save a F).bytes) :
    load b G p = .ub ∨ ∃ a' c, Leading a' a ∧ p = (save a' F).bytes ∧ load b G p = .ok c ∧
      ∀ n, ((InFilter F n ∧ InFilter G n) → getMatrix c n = (getMatrix a' n).or (getMatrix b n) ∧ getString c n = (getString a' n).or (getString b n)) ∧
        (¬ (InFilter F n ∧ InFilter G n) → getMatrix c n = getMatrix b n ∧ getString c n = getString b n) := by
  have ia := inv_reachable ha
  have hm : ∀ p ∈ a.values, selected F p.1 = true → validateName p.1 = true ∧ p.2.Fits := by
    intro p hp hsel
    obtain ⟨n, m⟩ := p
    obtain ⟨g, r1, r2, r3⟩ := hs.1 n m hsel (lookup_of_mem ia.sv hp)
    exact ⟨(goodName_iff n).2 g, ia.wf _ hp, r1, r2, r3⟩
  have hstr : ∀ p ∈ a.strings, selected F p.1 = true → validateName p.1 = true ∧ p.2.length < 2 ^ 32 := by
    intro p hp hsel
    obtain ⟨n, s⟩ := p
    exact ⟨ia.names _ hp, hs.2 n s hsel (lookup_of_mem ia.ss hp)⟩
  have w1 : ∀ n v rest, validateName n = true → Mat.Fits v → (writeMatrixBlock n v).res = .ok ∧ (writeMatrixBlock n v).bytes ≠ [] ∧ readBlock ((writeMatrixBlock n v).bytes ++ rest) = .block n (.matrix v) rest :=
    fun n v rest h1 h2 => ⟨(read_matrix_block h1 h2 rest).1, by simp [writeMatrixBlock, h1], (read_matrix_block h1 h2 rest).2⟩
  have w2 : ∀ n (v : List Byte) rest, validateName n = true → v.length < 2 ^ 32 → (writeStringBlock n v).res = .ok ∧ (writeStringBlock n v).bytes ≠ [] ∧ readBlock ((writeStringBlock n v).bytes ++ rest) = .block n (.string v) rest :=
    fun n v rest h1 h2 => ⟨(read_string_block h1 h2 rest).1, by simp [writeStringBlock, h1], (read_string_block h1 h2 rest).2⟩
  have res1 := fun m hm => (load_writeAll writeMatrixBlock .matrix Mat.Fits w1 F G m hm b []).1
  -- a leading part can be loaded
  have good : ∀ a', Leading a' a → ∃ c, load b G (save a' F).bytes = .ok c ∧
      ∀ n, ((InFilter F n ∧ InFilter G n) → getMatrix c n = (getMatrix a' n).or (getMatrix b n) ∧ getString c n = (getString a' n).or (getString b n)) ∧
        (¬ (InFilter F n ∧ InFilter G n) → getMatrix c n = getMatrix b n ∧ getString c n = getString b n) := by
    rintro a' ⟨l1, l2, -⟩
    have ia' : Inv a' := ⟨List.Pairwise.sublist l1.sublist ia.sv, List.Pairwise.sublist l2.sublist ia.ss, fun p hp => ia.wf p (l1.subset hp), fun p hp => ia.names p (l2.subset hp)⟩
    have hs' : Savable a' F := by
      refine ⟨fun n m hsel hg => hs.1 n m hsel ?_, fun n s hsel hg => hs.2 n s hsel ?_⟩
      · exact lookup_of_mem ia.sv (l1.subset (lookup_some_mem hg))
      · exact lookup_of_mem ia.ss (l2.subset (lookup_some_mem hg))
    exact (transfer_inv a' b F G ia' hs').2
  have bytes : ∀ a', a'.values <+: a.values → (save a' F).bytes = (writeAll writeMatrixBlock F a'.values).bytes ++ (writeAll writeStringBlock F a'.strings).bytes := by
    intro a' l1
    have h1 := res1 a'.values (fun p hp => hm p (l1.subset hp))
    unfold save
    cases hw : writeAll writeMatrixBlock F a'.values with
    | mk bs r => rw [hw] at h1; simp only at h1; subst h1; rfl
  have fin : ∀ p a', Leading a' a → p = (save a' F).bytes → load b G p = .ub ∨ ∃ a' c, Leading a' a ∧ p = (save a' F).bytes ∧ load b G p = .ok c ∧
      ∀ n, ((InFilter F n ∧ InFilter G n) → getMatrix c n = (getMatrix a' n).or (getMatrix b n) ∧ getString c n = (getString a' n).or (getString b n)) ∧
        (¬ (InFilter F n ∧ InFilter G n) → getMatrix c n = getMatrix b n ∧ getString c n = getString b n) := by
    intro p a' hl he
    obtain ⟨c, h1, h2⟩ := good a' hl
    exact .inr ⟨a', c, hl, he, by rw [he]; exact h1, h2⟩
  rw [bytes a List.prefix_rfl] at hp
  rcases prefix_append_cases hp with ⟨h1, -⟩ | ⟨q, rfl, hq⟩
  · rcases load_prefix writeMatrixBlock .matrix Mat.Fits w1 F G a.values hm b p h1 with ⟨m', e1, e2⟩ | h
    · refine fin _ ⟨m', []⟩ ⟨e1, List.nil_prefix, fun h => absurd rfl h⟩ ?_
      rw [bytes ⟨m', []⟩ e1, e2]
      simp [writeAll]
    · exact .inl h
  · have hl := (load_writeAll writeMatrixBlock .matrix Mat.Fits w1 F G a.values hm b q).2
    rcases load_prefix writeStringBlock .string (fun s => s.length < 2 ^ 32) w2 F G a.strings hstr (storeAll .matrix F G b a.values) q hq with ⟨m', e1, e2⟩ | h
    · refine fin _ ⟨a.values, m'⟩ ⟨List.prefix_rfl, e1, fun _ => rfl⟩ ?_
      rw [bytes ⟨a.values, m'⟩ List.prefix_rfl, e2]
    · exact .inl (hl.trans h)

/-! ## examples -/

/-- the hypotheses are met, and every outcome occurs -/
example : (save exampleArchive []).bytes.length = 98 ∧ (saveFile (buffered 64) [7] 60 none exampleArchive []).res = some .threw ∧
    (saveFile (buffered 64) [7] 98 none exampleArchive []).res = some .ok ∧ (saveFile (buffered 64) [7] 97 none exampleArchive []).res = some .ok ∧
    (saveFile (buffered 64) [7] 97 none exampleArchive []).file.length = 97 ∧ (saveFile (buffered 64) [7] 98 (some 5) exampleArchive []).res = none := by decide

example : KeepsAtMost (buffered 8191) 8190 := by
  intro p b
  simp only [buffered]
  split <;> omega

/-- a leftover that ends between two entries: the string is silently missing -/
example : load empty [] ((save exampleArchive []).bytes.take 58) = .ok ⟨exampleArchive.values, []⟩ := by decide

end Verif.Archive
