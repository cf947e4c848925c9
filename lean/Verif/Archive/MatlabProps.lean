import Verif.Archive.MatlabLemmas
import Verif.Archive.Props

/-!
# C137–C140: matrix archives exchanged between C++ and Matlab
-/

namespace Verif.Archive.Mlab

/-! ## Specification -/

/-- a Matlab value as the C++ matrix with the same coefficients -/
def asMat : MVal → Option Mat
  | .num [r, c] d => some ⟨r, c, d⟩
  | _ => none

/-- a Matlab row of characters as the C++ string with the same codes -/
def asStr : MVal → Option (List Byte)
  | .chr [1, _] codes => some (codes.map (BitVec.ofNat 8))
  | _ => none

/-- Matlab's value for a C++ matrix and for a C++ string -/
def ofMat (m : Mat) : MVal := .num [m.rows, m.cols] m.data
def ofStr (t : List Byte) : MVal := .chr [1, t.length] (t.map BitVec.toNat)

/-- values the format is made for: non-empty two-dimensional matrices, non-empty rows of ASCII characters -/
def Storable : MVal → Prop
  | .num [r, c] d => d.length = r * c ∧ 0 < r * c ∧ r < 2 ^ 32 ∧ c < 2 ^ 32
  | .chr [1, k] codes => codes.length = k ∧ 0 < k ∧ k < 2 ^ 32 ∧ ∀ c ∈ codes, c < 128
  | _ => False

/-- the C++ reader computes the number of coefficients in 32 bits -/
def FitsCpp : MVal → Prop
  | .num [r, c] _ => r * c < 2 ^ 32
  | _ => True

/-- a struct with different field names of at most 32 characters and storable values -/
structure Good (s : Struct) : Prop where
  nodup : (s.map Prod.fst).Nodup
  vals : ∀ p ∈ s, GoodName p.1 ∧ Storable p.2

/-- the encoding of the file writes ASCII characters as they are (all the encodings Matlab offers for text files that C++ can read: UTF-8, ISO-8859-1, Windows-1252, US-ASCII) -/
def AsciiEnc (enc : Nat → List Byte) : Prop := ∀ c, c < 128 → enc c = [BitVec.ofNat 8 c]

/-! ## from C++ to Matlab -/

theorem writeMatrix_block {n : Name} {m : Mat} (hn : validateName n = true) (hm : m.Fits) :
    writeMatrixBlock n m = ⟨blockBytes n (.matrix m), .ok⟩ := by
  obtain ⟨hwf, hr, hc, hs⟩ := hm
  unfold Mat.WF at hwf
  have e1 : m.rows % 2 ^ 32 = m.rows := Nat.mod_eq_of_lt hr
  have e2 : m.cols % 2 ^ 32 = m.cols := Nat.mod_eq_of_lt hc
  have e3 : m.rows * m.cols % 2 ^ 32 = m.rows * m.cols := Nat.mod_eq_of_lt (by omega)
  have e4 : m.rows * m.cols * 8 % 2 ^ 32 = m.rows * m.cols * 8 := Nat.mod_eq_of_lt hs
  have ht : (dataBytes m.data).take (m.rows * m.cols * 8) = dataBytes m.data := by
    apply List.take_of_length_le
    rw [dataBytes_length, hwf]; omega
  simp only [writeMatrixBlock, hn, if_true, e1, e2, e3, e4, ht, blockBytes]

theorem writeString_block {n : Name} {t : List Byte} (hn : validateName n = true) (ht : t.length < 2 ^ 32) :
    writeStringBlock n t = ⟨blockBytes n (.string t), .ok⟩ := by
  have e1 : t.length % 2 ^ 32 = t.length := Nat.mod_eq_of_lt ht
  simp only [writeStringBlock, hn, if_true, e1, List.take_length, blockBytes]

/-- the selected entries of a map, as blocks -/
def picked {V : Type} (mk : V → Block) (F : List Name) (m : Map V) : List (Name × Block) :=
  (m.filter fun p => selected F p.1).map fun p => (p.1, mk p.2)

theorem writeAll_file {V : Type} (w : Name → V → Written) (mk : V → Block) (F : List Name) (m : Map V)
    (h : ∀ p ∈ m, selected F p.1 = true → w p.1 p.2 = ⟨blockBytes p.1 (mk p.2), .ok⟩) :
    writeAll w F m = ⟨fileOf (picked mk F m), .ok⟩ := by
  induction m with
  | nil => rfl
  | cons p m ih =>
    obtain ⟨n, v⟩ := p
    have ih := ih fun q hq => h q (by simp [hq])
    cases hs : selected F n with
    | false => simp [writeAll, hs, ih, picked]
    | true =>
      have := h (n, v) (by simp) hs
      simp only at this
      simp [writeAll, hs, ih, this, picked, fileOf]

/-- the entries of an archive that the filter selects, as blocks, in the order of the file -/
def archiveBlocks (a : Archive) (F : List Name) : List (Name × Block) := picked .matrix F a.values ++ picked .string F a.strings

theorem save_file {a : Archive} {F : List Name} (ia : Inv a) (hs : Savable a F) :
    save a F = ⟨fileOf (archiveBlocks a F), .ok⟩ ∧ ∀ p ∈ archiveBlocks a F, validateName p.1 = true ∧ Block.Ok p.2 := by
  have hm : ∀ p ∈ a.values, selected F p.1 = true → validateName p.1 = true ∧ p.2.Fits := by
    intro p hp hsel
    obtain ⟨n, m⟩ := p
    obtain ⟨g, r1, r2, r3⟩ := hs.1 n m hsel (lookup_of_mem ia.sv hp)
    exact ⟨(goodName_iff n).2 g, ia.wf _ hp, r1, r2, r3⟩
  have hstr : ∀ p ∈ a.strings, selected F p.1 = true → validateName p.1 = true ∧ p.2.length < 2 ^ 32 := by
    intro p hp hsel
    obtain ⟨n, s⟩ := p
    exact ⟨ia.names _ hp, hs.2 n s hsel (lookup_of_mem ia.ss hp)⟩
  constructor
  · unfold save
    rw [writeAll_file writeMatrixBlock .matrix F a.values (fun p hp h => writeMatrix_block (hm p hp h).1 (hm p hp h).2),
      writeAll_file writeStringBlock .string F a.strings (fun p hp h => writeString_block (hstr p hp h).1 (hstr p hp h).2)]
    simp [archiveBlocks, fileOf]
  · intro p hp
    rcases List.mem_append.1 hp with h | h
    · simp only [picked, List.mem_map, List.mem_filter] at h
      obtain ⟨q, ⟨hq, hsel⟩, rfl⟩ := h
      obtain ⟨h1, h2⟩ := hm q hq hsel
      exact ⟨h1, h2.1, h2.2.1, h2.2.2.1⟩
    · simp only [picked, List.mem_map, List.mem_filter] at h
      obtain ⟨q, ⟨hq, hsel⟩, rfl⟩ := h
      exact hstr q hq hsel

theorem field_apply_picked {V : Type} (mk : V → Block) (F : List Name) (m : Map V) (hs : Sorted m) (s : Struct) (n : Name) :
    field (apply s (picked mk F m)) n = if selected F n then (match lookup m n with | some v => some (toVal (mk v)) | none => field s n) else field s n := by
  have hnd : ((picked mk F m).map Prod.fst).Nodup := by
    have : (m.map Prod.fst).Nodup := by
      rw [List.Nodup, List.pairwise_map]
      exact hs.imp fun h => nameLt_ne h
    unfold picked
    rw [List.map_map]
    exact (List.Sublist.map Prod.fst List.filter_sublist).nodup this
  cases hsel : selected F n with
  | false =>
    simp only [Bool.false_eq_true, if_false]
    apply field_apply_not_mem
    intro hmem
    simp only [picked, List.map_map, List.mem_map, List.mem_filter, Function.comp] at hmem
    obtain ⟨q, ⟨_, h1⟩, rfl⟩ := hmem
    rw [hsel] at h1; cases h1
  | true =>
    simp only [if_true]
    cases hl : lookup m n with
    | none =>
      apply field_apply_not_mem
      intro hmem
      simp only [picked, List.map_map, List.mem_map, List.mem_filter, Function.comp] at hmem
      obtain ⟨q, ⟨h0, _⟩, rfl⟩ := hmem
      rw [lookup_of_mem hs (v := q.2) h0] at hl; cases hl
    | some v =>
      apply field_apply_mem _ _ hnd
      simp only [picked, List.mem_map, List.mem_filter]
      exact ⟨(n, v), ⟨lookup_some_mem hl, hsel⟩, rfl⟩

/-- **C137, the claim as a user reads it** (false): Matlab gets every matrix and every string of an archive saved by C++. -/
def C137_claim : Prop := ∀ a, Reachable a → Savable a [] → ∃ s, loadMatrixArchive (save a []).bytes = .ok s ∧
  (∀ n m, getMatrix a n = some m → field s n = some (ofMat m)) ∧ (∀ n t, getString a n = some t → field s n = some (ofStr t))

/-- **C137, what holds**: Matlab loads every file that C++ saves, without an error; every string arrives as it is, and every matrix of which the archive does not hold a string of the same name;
there are no other fields. -/
theorem C137_fields_partial (a : Archive) (ha : Reachable a) (F : List Name) (hs : Savable a F) :
    (save a F).res = .ok ∧ ∃ s, loadMatrixArchive (save a F).bytes = .ok s ∧
      ∀ n, (InFilter F n → field s n = ((getString a n).map ofStr).or ((getMatrix a n).map ofMat)) ∧ (¬ InFilter F n → field s n = none) := by
  have ia := inv_reachable ha
  obtain ⟨h1, h2⟩ := save_file ia hs
  refine ⟨by rw [h1], apply [] (archiveBlocks a F), ?_, ?_⟩
  · rw [h1]
    have := loadFrom_file (archiveBlocks a F) h2 [] []
    rw [List.append_nil, loadFrom_nil] at this
    exact this
  · intro n
    have e : apply [] (archiveBlocks a F) = apply (apply [] (picked .matrix F a.values)) (picked .string F a.strings) := by
      simp [apply, archiveBlocks]
    rw [e, field_apply_picked _ _ _ ia.ss, field_apply_picked _ _ _ ia.sv, ← selected_iff]
    constructor
    · intro h
      simp only [h, if_true, getString, getMatrix]
      cases lookup a.strings n with
      | some t => rfl
      | none =>
        cases lookup a.values n with
        | some m => rfl
        | none => rfl
    · intro h
      simp [h, field]

/-- **C137, refuted**: of a matrix and a string of the same name, Matlab gets the string only. -/
theorem C137_negation : ¬ C137_claim := by
  intro h
  have r1 : Reachable (setString empty nameA [1]).2 := Reachable.step (op := .setString nameA [1]) .init trivial rfl
  have r2 : Reachable (setScalar (setString empty nameA [1]).2 nameA 7).2 := Reachable.step (op := .setScalar nameA 7) r1 trivial rfl
  have e : (setScalar (setString empty nameA [1]).2 nameA 7).2 = ⟨[(nameA, ⟨1, 1, [7]⟩)], [(nameA, [1])]⟩ := by decide
  rw [e] at r2
  have sv : Savable ⟨[(nameA, ⟨1, 1, [7]⟩)], [(nameA, [1])]⟩ [] := by
    constructor
    · intro n m _ hm
      simp only [getMatrix, lookup] at hm
      split at hm
      · rename_i hn; subst hn
        simp only [Option.some.injEq] at hm; subst hm
        exact ⟨(goodName_iff _).1 (by decide), by decide, by decide, by decide⟩
      · cases hm
    · intro n m _ hm
      simp only [getString, lookup] at hm
      split at hm
      · simp only [Option.some.injEq] at hm; subst hm; decide
      · cases hm
  obtain ⟨s, hs, h1, h2⟩ := h _ r2 sv
  have a1 := h1 nameA ⟨1, 1, [7]⟩ (by decide)
  have a2 := h2 nameA [1] (by decide)
  rw [a1] at a2
  exact absurd a2 (by decide)

/-- an archive with different names for matrices and strings arrives completely -/
theorem C137_complete_partial (a : Archive) (ha : Reachable a) (hs : Savable a []) (hd : ∀ n, ¬ (getMatrix a n ≠ none ∧ getString a n ≠ none)) :
    ∃ s, loadMatrixArchive (save a []).bytes = .ok s ∧
      (∀ n m, getMatrix a n = some m → field s n = some (ofMat m)) ∧ (∀ n t, getString a n = some t → field s n = some (ofStr t)) ∧
      (∀ n, getMatrix a n = none → getString a n = none → field s n = none) := by
  obtain ⟨_, s, h1, h2⟩ := C137_fields_partial a ha [] hs
  refine ⟨s, h1, ?_, ?_, ?_⟩
  · intro n m hm
    rw [(h2 n).1 (Or.inl rfl)]
    have : getString a n = none := by
      cases hg : getString a n with
      | none => rfl
      | some t => exact absurd ⟨by rw [hm]; simp, by rw [hg]; simp⟩ (hd n)
    simp [this, hm]
  · intro n t ht
    rw [(h2 n).1 (Or.inl rfl)]; simp [ht]
  · intro n hm ht
    rw [(h2 n).1 (Or.inl rfl)]; simp [hm, ht]

/-! ## from Matlab to C++ and back to Matlab -/

/-- the block of a storable value -/
def blockOf : MVal → Block
  | .num [r, c] d => .matrix ⟨r, c, d⟩
  | .chr _ codes => .string (codes.map (BitVec.ofNat 8))
  | _ => .string []

theorem toNat_ascii {codes : List Nat} (h : ∀ c ∈ codes, c < 128) : (codes.map (BitVec.ofNat 8)).map BitVec.toNat = codes := by
  rw [List.map_map]
  conv => rhs; rw [← List.map_id codes]
  apply List.map_congr_left
  intro c hc
  have := h c hc
  simp only [Function.comp, BitVec.toNat_ofNat, id]
  omega

theorem flatMap_ascii {enc : Nat → List Byte} (he : AsciiEnc enc) {codes : List Nat} (h : ∀ c ∈ codes, c < 128) :
    codes.flatMap enc = codes.map (BitVec.ofNat 8) := by
  induction codes with
  | nil => rfl
  | cons c cs ih => rw [List.flatMap_cons, he c (h c (by simp)), ih fun d hd => h d (by simp [hd])]; rfl

theorem storable_block {enc : Nat → List Byte} (he : AsciiEnc enc) (n : Name) {v : MVal} (h : Storable v) :
    writeField enc n v = ⟨blockBytes n (blockOf v), .ok⟩ ∧ Block.Ok (blockOf v) ∧ toVal (blockOf v) = v := by
  unfold Storable at h
  split at h
  · rename_i r c d
    obtain ⟨h1, h2, h3, h4⟩ := h
    refine ⟨?_, ⟨h1, h3, h4⟩, rfl⟩
    have e1 : min r (2 ^ 32 - 1) = r := by omega
    have e2 : min c (2 ^ 32 - 1) = c := by omega
    have e3 : count [r, c] ≠ 0 := by simp only [count, List.foldr, Nat.mul_one]; omega
    simp only [writeField, e3, if_false, blockBytes, blockOf]
    simp [u32, e1, e2]
  · rename_i k codes
    obtain ⟨h1, h2, h3, h4⟩ := h
    refine ⟨?_, ?_, ?_⟩
    · have e1 : min k (2 ^ 32 - 1) = k := by omega
      have e3 : count [1, k] ≠ 0 := by simp [count]; omega
      simp only [writeField, e3, if_false, blockBytes, blockOf, flatMap_ascii he h4]
      simp [u32, e1, h1]
    · simp only [Block.Ok, blockOf, List.length_map, h1]; exact h3
    · simp only [toVal, blockOf, toNat_ascii h4, List.length_map, h1]
  · exact h.elim

/-- a good struct as blocks -/
def structBlocks (s : Struct) : List (Name × Block) := s.map fun p => (p.1, blockOf p.2)

theorem structBlocks_ok {s : Struct} (hs : ∀ p ∈ s, GoodName p.1 ∧ Storable p.2) : ∀ p ∈ structBlocks s, validateName p.1 = true ∧ Block.Ok p.2 := by
  intro p hp
  simp only [structBlocks, List.mem_map] at hp
  obtain ⟨q, hq, rfl⟩ := hp
  have he : AsciiEnc fun c => [BitVec.ofNat 8 c] := fun c _ => rfl
  exact ⟨(goodName_iff _).2 (hs q hq).1, (storable_block he q.1 (hs q hq).2).2.1⟩

theorem writeFields_good {enc : Nat → List Byte} (he : AsciiEnc enc) {s : Struct} (hs : ∀ p ∈ s, GoodName p.1 ∧ Storable p.2) (more : Struct) :
    writeFields enc (s ++ more) = ⟨fileOf (structBlocks s) ++ (writeFields enc more).bytes, (writeFields enc more).res⟩ := by
  induction s with
  | nil => simp [structBlocks, fileOf]
  | cons p s ih =>
    obtain ⟨n, v⟩ := p
    have h := (storable_block he n (hs (n, v) (by simp)).2).1
    have ih := ih fun q hq => hs q (by simp [hq])
    rw [List.cons_append]
    simp only [writeFields, h, ih]
    simp [structBlocks, fileOf]

theorem nameOk_good {n : Name} (h : GoodName n) : nameOk n = true := by
  have hv := (goodName_iff n).2 h
  obtain ⟨_, h2, h3, h4⟩ := h
  unfold nameOk
  cases n with
  | nil => rfl
  | cons c cs =>
    have hc := h3 c rfl
    simp only [List.tail_cons] at h4
    simp only [Bool.and_eq_true, List.all_cons, List.all_eq_true]
    refine ⟨by simp only [fixedNameSize, gt_iff_lt, Bool.not_eq_true', decide_eq_false_iff_not]; omega, by simp [hc], ?_⟩
    intro d hd
    have hu : d.toNat = 95 → d = underscore := fun e => BitVec.eq_of_toNat_eq (by rw [e]; rfl)
    rcases h4 d hd with h | h | h
    · simp [h]
    · simp [h.1, h.2]
    · simp [hu h]

theorem save_good {enc : Nat → List Byte} (he : AsciiEnc enc) {s : Struct} (hs : Good s) (file : List Byte) (app : Bool) :
    saveMatrixArchive enc file s app = ⟨(if app then file else []) ++ fileOf (structBlocks s), .ok⟩ := by
  have h1 : (s.all fun f => nameOk f.1) = true := by
    rw [List.all_eq_true]
    exact fun p hp => nameOk_good (hs.vals p hp).1
  have h2 := writeFields_good he hs.vals []
  rw [List.append_nil] at h2
  unfold saveMatrixArchive
  rw [if_pos h1, h2]
  simp [writeFields]

theorem apply_structBlocks (s0 : Struct) {s : Struct} (hs : Good s) (n : Name) :
    field (apply s0 (structBlocks s)) n = (field s n).or (field s0 n) := by
  have hf : (structBlocks s).map Prod.fst = s.map Prod.fst := by simp [structBlocks]
  cases h : field s n with
  | none =>
    rw [field_apply_not_mem]
    · rfl
    · rw [hf, ← field_none_iff]; exact h
  | some v =>
    have hmem : (n, v) ∈ s := by
      clear hf hs
      induction s with
      | nil => cases h
      | cons p s ih =>
        obtain ⟨m, w⟩ := p
        simp only [field] at h
        split at h
        · rename_i e; cases h; simp [e]
        · exact List.mem_cons_of_mem _ (ih h)
    have he : AsciiEnc fun c => [BitVec.ofNat 8 c] := fun c _ => rfl
    have ht := (storable_block he n (hs.vals _ hmem).2).2.2
    rw [field_apply_mem s0 (structBlocks s) (by rw [hf]; exact hs.nodup) n (blockOf v) (by simp only [structBlocks, List.mem_map]; exact ⟨_, hmem, rfl⟩), ht]
    rfl

/-- **C138, Matlab to Matlab**: a good struct saved and loaded is the same struct, the fields in the same order. -/
theorem C138_roundtrip (enc : Nat → List Byte) (he : AsciiEnc enc) (s : Struct) (hs : Good s) (file : List Byte) :
    (saveMatrixArchive enc file s false).res = .ok ∧ loadMatrixArchive (saveMatrixArchive enc file s false).bytes = .ok s := by
  rw [save_good he hs]
  refine ⟨rfl, ?_⟩
  have := loadFrom_file (structBlocks s) (structBlocks_ok hs.vals) [] []
  rw [List.append_nil, loadFrom_nil] at this
  simp only [Bool.false_eq_true, if_false, List.nil_append]
  refine this.trans ?_
  congr 1
  rw [apply_new _ _ (by simp only [structBlocks, List.map_map, List.map_nil, List.nil_append]; exact hs.nodup)]
  simp only [structBlocks, List.map_map, List.nil_append]
  conv => rhs; rw [← List.map_id s]
  apply List.map_congr_left
  intro p hp
  simp only [Function.comp, id, (storable_block (enc := enc) he p.1 (hs.vals p hp).2).2.2]

theorem readBlock_block {n : Name} {b : Block} (hn : validateName n = true) (hb : Block.Ok b) (hc : ∀ m, b = .matrix m → m.rows * m.cols < 2 ^ 32)
    (rest : List Byte) : readBlock (blockBytes n b ++ rest) = .block n b rest := by
  have hl := (valid_chars hn).1
  cases b with
  | string t =>
    have := (read_string_block hn hb rest).2
    rwa [writeString_block hn hb] at this
  | matrix m =>
    obtain ⟨hwf, hr, hcol⟩ := hb
    unfold Mat.WF at hwf
    have hrc := hc m rfl
    have e3 : m.rows * m.cols % 2 ^ 32 = m.rows * m.cols := Nat.mod_eq_of_lt hrc
    simp only [blockBytes]
    rw [show ∀ l : List Byte, magicMatrix :: l = [magicMatrix] ++ l from fun _ => rfl]
    simp only [List.append_assoc]
    unfold readBlock
    rw [readBytes_append' 1 [magicMatrix] _ rfl]
    simp only
    rw [if_neg (by decide), if_pos trivial]
    rw [readBytes_append' fixedNameSize (paddedName n) _ (paddedName_length hl)]
    simp only [decode_padded hn]
    unfold readMatrix
    rw [readBytes_append' 4 (leBytes 4 m.rows) _ (leBytes_length _ _)]
    simp only
    rw [readBytes_append' 4 (leBytes 4 m.cols) _ (leBytes_length _ _)]
    simp only
    rw [leNat_leBytes 4 m.rows (by omega), leNat_leBytes 4 m.cols (by omega), if_pos hrc, e3]
    rw [readBytes_append' (m.rows * m.cols * 8) (dataBytes m.data) _ (by rw [dataBytes_length, hwf]; omega)]
    simp only [words_dataBytes]
    unfold readEnd
    rw [readBytes_append' 1 [magicEnd] rest rfl]
    simp

/-- what C++ holds after loading several blocks -/
def stored (a : Archive) (L : List (Name × Block)) : Archive := L.foldl (fun a p => store a p.1 p.2) a

theorem load_file (L : List (Name × Block)) (hL : ∀ p ∈ L, validateName p.1 = true ∧ Block.Ok p.2 ∧ ∀ m, p.2 = .matrix m → m.rows * m.cols < 2 ^ 32)
    (a : Archive) (rest : List Byte) : load a [] (fileOf L ++ rest) = load (stored a L) [] rest := by
  induction L generalizing a with
  | nil => rfl
  | cons p L ih =>
    obtain ⟨n, b⟩ := p
    have h : validateName n = true ∧ Block.Ok b ∧ ∀ m, b = .matrix m → m.rows * m.cols < 2 ^ 32 := hL (n, b) (by simp)
    simp only [fileOf, List.flatMap_cons, List.append_assoc]
    rw [load_block (by rw [blockBytes_eq]; simp) (readBlock_block h.1 h.2.1 h.2.2 _) h.1]
    have : selected [] n = true := rfl
    rw [if_pos this]
    exact ih (fun q hq => hL q (by simp [hq])) _

theorem stored_get (L : List (Name × Block)) (hnd : (L.map Prod.fst).Nodup) (a : Archive) (n : Name) :
    getMatrix (stored a L) n = (match L.find? (fun p => p.1 = n) with | some (_, .matrix m) => some m | _ => getMatrix a n) ∧
    getString (stored a L) n = (match L.find? (fun p => p.1 = n) with | some (_, .string t) => some t | _ => getString a n) := by
  induction L generalizing a with
  | nil => exact ⟨rfl, rfl⟩
  | cons p L ih =>
    obtain ⟨k, b⟩ := p
    have e : stored a ((k, b) :: L) = stored (store a k b) L := rfl
    simp only [List.map_cons, List.nodup_cons] at hnd
    have ih := ih hnd.2 (store a k b)
    rw [e, ih.1, ih.2]
    by_cases hk : k = n
    · subst hk
      have hf : L.find? (fun p => p.1 = k) = none := by
        rw [List.find?_eq_none]
        intro q hq hqk
        simp only [decide_eq_true_eq] at hqk
        exact hnd.1 (List.mem_map.2 ⟨q, hq, hqk⟩)
      rw [hf, List.find?_cons_of_pos (by simp)]
      cases b <;> simp [store, getMatrix, getString, lookup_insert]
    · rw [List.find?_cons_of_neg (by simpa using hk)]
      have h1 : getMatrix (store a k b) n = getMatrix a n := by cases b <;> simp [store, getMatrix, lookup_insert, Ne.symm hk]
      have h2 : getString (store a k b) n = getString a n := by cases b <;> simp [store, getString, lookup_insert, Ne.symm hk]
      rw [h1, h2]
      exact ⟨rfl, rfl⟩

theorem find_structBlocks (s : Struct) (n : Name) : (structBlocks s).find? (fun p => p.1 = n) = (field s n).map fun v => (n, blockOf v) := by
  induction s with
  | nil => rfl
  | cons p s ih =>
    obtain ⟨k, v⟩ := p
    have e : structBlocks ((k, v) :: s) = (k, blockOf v) :: structBlocks s := rfl
    rw [e]
    by_cases hk : k = n
    · subst hk; rw [List.find?_cons_of_pos (by simp)]; simp [field]
    · rw [List.find?_cons_of_neg (by simpa using hk), ih]; simp [field, Ne.symm hk]

theorem field_mem {s : Struct} {n : Name} {v : MVal} (h : field s n = some v) : (n, v) ∈ s := by
  induction s with
  | nil => cases h
  | cons p s ih =>
    obtain ⟨m, w⟩ := p
    simp only [field] at h
    split at h
    · rename_i e; cases h; simp [e]
    · exact List.mem_cons_of_mem _ (ih h)

theorem stored_struct (a : Archive) {s : Struct} (hs : Good s) (n : Name) :
    getMatrix (stored a (structBlocks s)) n = ((field s n).bind asMat).or (getMatrix a n) ∧
    getString (stored a (structBlocks s)) n = ((field s n).bind asStr).or (getString a n) := by
  have hf : (structBlocks s).map Prod.fst = s.map Prod.fst := by simp [structBlocks]
  obtain ⟨h1, h2⟩ := stored_get (structBlocks s) (by rw [hf]; exact hs.nodup) a n
  rw [h1, h2, find_structBlocks]
  cases h : field s n with
  | none => exact ⟨rfl, rfl⟩
  | some v =>
    have hv := (hs.vals _ (field_mem h)).2
    simp only at hv
    unfold Storable at hv
    split at hv
    · exact ⟨rfl, rfl⟩
    · exact ⟨rfl, rfl⟩
    · exact hv.elim

theorem structBlocks_cpp {s : Struct} (hs : Good s) (hc : ∀ p ∈ s, FitsCpp p.2) :
    ∀ p ∈ structBlocks s, validateName p.1 = true ∧ Block.Ok p.2 ∧ ∀ m, p.2 = .matrix m → m.rows * m.cols < 2 ^ 32 := by
  intro p hp
  obtain ⟨h1, h2⟩ := structBlocks_ok hs.vals p hp
  refine ⟨h1, h2, ?_⟩
  simp only [structBlocks, List.mem_map] at hp
  obtain ⟨q, hq, rfl⟩ := hp
  have hf := hc q hq
  have hv := (hs.vals q hq).2
  intro m hm
  unfold Storable at hv
  split at hv
  · rename_i heq
    simp only [heq, blockOf, Block.matrix.injEq] at hm
    rw [heq] at hf
    subst hm; exact hf
  · rename_i heq
    simp [heq, blockOf] at hm
  · exact hv.elim

/-- **C138, Matlab to C++, the claim as a user reads it** (false): if `saveMatrixArchive` does not raise an error, C++ loads every field of the struct. -/
def C138_claim : Prop := ∀ enc, AsciiEnc enc → ∀ (s : Struct), (s.map Prod.fst).Nodup → (∀ p ∈ s, identifier p.1 = true) →
  (saveMatrixArchive enc [] s false).res = .ok → ∃ c, load empty [] (saveMatrixArchive enc [] s false).bytes = .ok c ∧
    ∀ n v, field s n = some v → getMatrix c n ≠ none ∨ getString c n ≠ none

/-- **C138, Matlab to C++, what holds**: a struct with storable values, of fewer than 2³² coefficients each, is saved without an error and loaded by C++ completely:
matrices with the same sizes and coefficients, rows of ASCII characters as strings with the same characters, nothing else; and what the C++ archive held before under other names stays. -/
theorem C138_to_cpp_partial (enc : Nat → List Byte) (he : AsciiEnc enc) (s : Struct) (hs : Good s) (hc : ∀ p ∈ s, FitsCpp p.2) (file : List Byte) (a : Archive) :
    (saveMatrixArchive enc file s false).res = .ok ∧ ∃ c, load a [] (saveMatrixArchive enc file s false).bytes = .ok c ∧
      ∀ n, getMatrix c n = ((field s n).bind asMat).or (getMatrix a n) ∧ getString c n = ((field s n).bind asStr).or (getString a n) := by
  rw [save_good he hs]
  refine ⟨rfl, stored a (structBlocks s), ?_, stored_struct a hs⟩
  simp only [Bool.false_eq_true, if_false, List.nil_append]
  have := load_file _ (structBlocks_cpp hs hc) a []
  rw [List.append_nil] at this
  rw [this]; rfl

/-- **C138, refuted (character matrices)**: a matrix of characters with two rows is saved without an error, and neither C++ nor Matlab can load the file. -/
theorem C138_two_rows (enc : Nat → List Byte) (he : AsciiEnc enc) (file : List Byte) :
    (saveMatrixArchive enc file [(nameA, .chr [2, 1] [97, 98])] false).res = .ok ∧
    load empty [] (saveMatrixArchive enc file [(nameA, .chr [2, 1] [97, 98])] false).bytes = .threw empty ∧
    loadMatrixArchive (saveMatrixArchive enc file [(nameA, .chr [2, 1] [97, 98])] false).bytes = .error := by
  have e : saveMatrixArchive enc file [(nameA, .chr [2, 1] [97, 98])] false = ⟨83 :: (List.replicate 31 32 ++ [97, 1, 0, 0, 0, 97, 98, 66]), .ok⟩ := by
    have e1 := he 97 (by decide)
    have e2 := he 98 (by decide)
    have hn : nameOk nameA = true := by decide
    simp only [saveMatrixArchive, List.all_cons, List.all_nil, hn, Bool.and_true, if_true, writeFields, writeField]
    simp [count, e1, e2]
    decide
  rw [e]
  exact ⟨rfl, by decide, by decide⟩

theorem C138_negation : ¬ C138_claim := by
  intro h
  have he : AsciiEnc fun c => [BitVec.ofNat 8 c] := fun c _ => rfl
  obtain ⟨h1, h2, _⟩ := C138_two_rows _ he []
  obtain ⟨c, hc, _⟩ := h _ he [(nameA, .chr [2, 1] [97, 98])] (by decide) (by decide) h1
  rw [h2] at hc
  cases hc

/-- **C138, refuted (other characters)**: a character that the encoding writes as two bytes or more (in UTF-8: every character outside ASCII; `y`, the second byte, is never the letter B) is saved without
an error, and neither C++ nor Matlab can load the file: the size counts characters, not bytes. -/
theorem C138_not_ascii (enc : Nat → List Byte) (code : Nat) (x y : Byte) (more file : List Byte) (h : enc code = x :: y :: more) (hy : y ≠ 66) :
    (saveMatrixArchive enc file [(nameA, .chr [1, 1] [code])] false).res = .ok ∧
    load empty [] (saveMatrixArchive enc file [(nameA, .chr [1, 1] [code])] false).bytes = .threw empty ∧
    loadMatrixArchive (saveMatrixArchive enc file [(nameA, .chr [1, 1] [code])] false).bytes = .error := by
  have hv : validateName nameA = true := by decide
  have e : saveMatrixArchive enc file [(nameA, .chr [1, 1] [code])] false = ⟨magicString :: (paddedName nameA ++ (leBytes 4 1 ++ ([x] ++ (y :: (more ++ [magicEnd]))))), .ok⟩ := by
    have hn : nameOk nameA = true := by decide
    simp only [saveMatrixArchive, List.all_cons, List.all_nil, hn, Bool.and_true, if_true, writeFields, writeField]
    simp [count, h, u32]
  rw [e]
  refine ⟨rfl, ?_, ?_⟩
  · have hr : readBlock (magicString :: (paddedName nameA ++ (leBytes 4 1 ++ ([x] ++ (y :: (more ++ [magicEnd])))))) = .threw := by
      rw [show ∀ l : List Byte, magicString :: l = [magicString] ++ l from fun _ => rfl]
      unfold readBlock
      rw [readBytes_append' 1 [magicString] _ rfl]
      simp only [if_true]
      rw [readBytes_append' fixedNameSize (paddedName nameA) _ (paddedName_length (valid_chars hv).1)]
      simp only [decode_padded hv]
      unfold readString
      rw [readBytes_append' 4 (leBytes 4 1) _ (leBytes_length _ _)]
      simp only
      rw [leNat_leBytes 4 1 (by decide), readBytes_append' 1 [x] _ rfl]
      simp only
      unfold readEnd
      rw [show y :: (more ++ [magicEnd]) = [y] ++ (more ++ [magicEnd]) from rfl, readBytes_append' 1 [y] _ rfl]
      simp only [List.cons.injEq, and_true]
      rw [if_neg (show ¬ y = magicEnd from hy)]
    unfold load
    simp only [List.length_cons, loadLoop, hr]
  · show loadFrom [] _ = _
    have hr : readValue magicString (leBytes 4 1 ++ ([x] ++ (y :: (more ++ [magicEnd])))) = some (.chr [1, 1] [x.toNat], y :: (more ++ [magicEnd])) := by
      have := readChars_eq [x] (y :: (more ++ [magicEnd])) 1 (by decide)
      rw [take_append_len 1 _ _ rfl, drop_append_len 1 _ _ rfl] at this
      exact this
    rw [loadFrom_cons, readField_padded hv (Or.inl rfl), hr]
    simp only [endMark]
    rw [if_neg (show ¬ y = magicEnd from hy)]
    rfl

/-- **C138, errors**: an unacceptable name raises an error before the file is touched.  If a value is of an unsupported class or empty, the file holds exactly the fields before it, and they can be loaded. -/
theorem C138_errors (enc : Nat → List Byte) (he : AsciiEnc enc) (file : List Byte) (s : Struct) (app : Bool) :
    ((∃ p ∈ s, identifier p.1 = true ∧ 32 < p.1.length) → saveMatrixArchive enc file s app = ⟨file, .threw⟩) ∧
    (∀ before n v after, s = before ++ (n, v) :: after → Good before → (∀ p ∈ s, identifier p.1 = true ∧ p.1.length ≤ 32) →
      (v = .other ∨ (∃ dims d, v = .num dims d ∧ count dims = 0) ∨ ∃ dims d, v = .chr dims d ∧ count dims = 0) →
      (saveMatrixArchive enc file s false).res = .threw ∧ loadMatrixArchive (saveMatrixArchive enc file s false).bytes = .ok before) := by
  constructor
  · rintro ⟨p, hp, _, hl⟩
    unfold saveMatrixArchive
    rw [if_neg]
    intro hall
    rw [List.all_eq_true] at hall
    have := hall p hp
    simp only [nameOk, fixedNameSize, Bool.and_eq_true, Bool.not_eq_true', decide_eq_false_iff_not] at this
    simp at this; omega
  · intro before n v after hs hg hid hv
    have hn : (s.all fun f => nameOk f.1) = true := by
      rw [List.all_eq_true]
      intro p hp
      apply nameOk_good
      obtain ⟨h1, h2⟩ := hid p hp
      refine (goodName_iff _).1 ?_
      unfold validateName
      obtain ⟨nm, _⟩ := p
      cases nm with
      | nil => simp [identifier] at h1
      | cons c cs =>
        simp only [identifier] at h1
        simp only at h2
        rw [if_neg (by simp [fixedNameSize]; simpa using h2)]
        exact h1
    have hw : writeField enc n v = ⟨[], .threw⟩ := by
      rcases hv with rfl | ⟨dims, d, rfl, h0⟩ | ⟨dims, d, rfl, h0⟩
      · rfl
      · simp [writeField, h0]
      · simp [writeField, h0]
    have hb := (C138_roundtrip enc he before hg file).2
    rw [save_good he hg] at hb
    have hall : writeFields enc s = ⟨fileOf (structBlocks before), .threw⟩ := by
      rw [hs, writeFields_good he hg.vals]
      simp [writeFields, hw]
    unfold saveMatrixArchive
    rw [if_pos hn, hall]
    exact ⟨rfl, hb⟩

/-- **C138, refuted (errors)**: an array with three dimensions raises an error after a part of its block has been written: the file, fields before it included, can no longer be loaded by Matlab, and C++ reads
past its end. -/
theorem C138_three_dims (enc : Nat → List Byte) :
    (saveMatrixArchive enc [] [(nameB, .num [1, 1] [5]), (nameA, .num [1, 1, 2] [5, 6])] false).res = .threw ∧
    loadMatrixArchive (saveMatrixArchive enc [] [(nameB, .num [1, 1] [5]), (nameA, .num [1, 1, 2] [5, 6])] false).bytes = .error ∧
    load empty [] (saveMatrixArchive enc [] [(nameB, .num [1, 1] [5]), (nameA, .num [1, 1, 2] [5, 6])] false).bytes = .ub := by
  have e : saveMatrixArchive enc [] [(nameB, .num [1, 1] [5]), (nameA, .num [1, 1, 2] [5, 6])] false =
      saveMatrixArchive (fun _ => []) [] [(nameB, .num [1, 1] [5]), (nameA, .num [1, 1, 2] [5, 6])] false := rfl
  rw [e]
  decide

/-! ## C139: several saves -/

/-- a history of calls of `saveMatrixArchive` on a file that does not exist at first, the latest first: the struct and whether to append -/
abbrev History := List (Struct × Bool)

/-- the file after the calls -/
def fileAfter (enc : Nat → List Byte) : History → List Byte
  | [] => []
  | (s, app) :: older => (saveMatrixArchive enc (fileAfter enc older) s app).bytes

/-- Specification: the value last saved under the name, since the last call that did not append -/
def latest {V : Type} (f : MVal → Option V) : History → Name → Option V
  | [], _ => none
  | (s, app) :: older, n => ((field s n).bind f).or (if app then latest f older n else none)

/-- all blocks in the file -/
def historyBlocks : History → List (Name × Block)
  | [] => []
  | (s, app) :: older => (if app then historyBlocks older else []) ++ structBlocks s

theorem fileAfter_eq {enc : Nat → List Byte} (he : AsciiEnc enc) (h : History) (hg : ∀ p ∈ h, Good p.1) :
    fileAfter enc h = fileOf (historyBlocks h) := by
  induction h with
  | nil => rfl
  | cons p h ih =>
    obtain ⟨s, app⟩ := p
    have ih := ih fun q hq => hg q (by simp [hq])
    simp only [fileAfter, historyBlocks]
    rw [save_good he (hg (s, app) (by simp)), ih]
    cases app <;> simp [fileOf]

theorem historyBlocks_ok (h : History) (hg : ∀ p ∈ h, Good p.1) : ∀ p ∈ historyBlocks h, validateName p.1 = true ∧ Block.Ok p.2 := by
  induction h with
  | nil => intro p hp; cases hp
  | cons q h ih =>
    obtain ⟨s, app⟩ := q
    intro p hp
    simp only [historyBlocks, List.mem_append] at hp
    rcases hp with hp | hp
    · cases app
      · simp at hp
      · exact ih (fun q hq => hg q (by simp [hq])) p (by simpa using hp)
    · exact structBlocks_ok (hg (s, app) (by simp)).vals p hp

/-- **C139, Matlab**: after any number of saves, overwriting and appending, Matlab loads the file and finds under every name the value last saved. -/
theorem C139_matlab (enc : Nat → List Byte) (he : AsciiEnc enc) (h : History) (hg : ∀ p ∈ h, Good p.1) :
    ∃ s, loadMatrixArchive (fileAfter enc h) = .ok s ∧ ∀ n, field s n = latest some h n := by
  rw [fileAfter_eq he h hg]
  have := loadFrom_file (historyBlocks h) (historyBlocks_ok h hg) [] []
  rw [List.append_nil, loadFrom_nil] at this
  refine ⟨_, this, ?_⟩
  clear this
  induction h with
  | nil => intro n; rfl
  | cons p h ih =>
    obtain ⟨s, app⟩ := p
    have ih := ih fun q hq => hg q (by simp [hq])
    intro n
    have e : apply [] (historyBlocks ((s, app) :: h)) = apply (if app then apply [] (historyBlocks h) else []) (structBlocks s) := by
      cases app <;> simp [apply, historyBlocks]
    rw [e, apply_structBlocks _ (hg (s, app) (by simp))]
    simp only [latest, Option.bind_some]
    cases app
    · simp [field]
    · simp [ih n]

/-- **C139, C++**: after any number of saves by Matlab, C++ loads the file and finds under every name the matrix last saved and the string last saved. -/
theorem C139_cpp_partial (enc : Nat → List Byte) (he : AsciiEnc enc) (h : History) (hg : ∀ p ∈ h, Good p.1) (hc : ∀ p ∈ h, ∀ q ∈ p.1, FitsCpp q.2) :
    ∃ c, load empty [] (fileAfter enc h) = .ok c ∧ ∀ n, getMatrix c n = latest asMat h n ∧ getString c n = latest asStr h n := by
  have hok : ∀ p ∈ historyBlocks h, validateName p.1 = true ∧ Block.Ok p.2 ∧ ∀ m, p.2 = .matrix m → m.rows * m.cols < 2 ^ 32 := by
    clear he
    induction h with
    | nil => intro p hp; cases hp
    | cons q h ih =>
      obtain ⟨s, app⟩ := q
      intro p hp
      simp only [historyBlocks, List.mem_append] at hp
      rcases hp with hp | hp
      · cases app
        · simp at hp
        · exact ih (fun q hq => hg q (by simp [hq])) (fun q hq => hc q (by simp [hq])) p (by simpa using hp)
      · exact structBlocks_cpp (hg (s, app) (by simp)) (hc (s, app) (by simp)) p hp
  rw [fileAfter_eq he h hg]
  have := load_file (historyBlocks h) hok empty []
  rw [List.append_nil] at this
  refine ⟨_, this, ?_⟩
  clear this hok
  induction h with
  | nil => intro n; exact ⟨rfl, rfl⟩
  | cons p h ih =>
    obtain ⟨s, app⟩ := p
    have ih := ih (fun q hq => hg q (by simp [hq])) (fun q hq => hc q (by simp [hq]))
    intro n
    have e : stored empty (historyBlocks ((s, app) :: h)) = stored (if app then stored empty (historyBlocks h) else empty) (structBlocks s) := by
      cases app <;> simp [stored, historyBlocks]
    obtain ⟨h1, h2⟩ := stored_struct (if app then stored empty (historyBlocks h) else empty) (hg (s, app) (by simp)) n
    rw [e, h1, h2]
    simp only [latest]
    cases app
    · simp [empty, getMatrix, getString, lookup]
    · simp [ih n]

/-- **C139, the claim as a user reads it** (false): after any number of saves by Matlab, C++ and Matlab find the same entries in the file. -/
def C139_claim : Prop := ∀ enc, AsciiEnc enc → ∀ (h : History), (∀ p ∈ h, Good p.1) → (∀ p ∈ h, ∀ q ∈ p.1, FitsCpp q.2) → ∀ s c,
  loadMatrixArchive (fileAfter enc h) = .ok s → load empty [] (fileAfter enc h) = .ok c →
  ∀ n, getMatrix c n = (field s n).bind asMat ∧ getString c n = (field s n).bind asStr

/-- two saves: a matrix, then, appended, a string of the same name -/
def twoKinds : History := [([(nameA, .chr [1, 1] [97])], true), ([(nameA, .num [1, 1] [5])], false)]

theorem twoKinds_good : (∀ p ∈ twoKinds, Good p.1) ∧ (∀ p ∈ twoKinds, ∀ q ∈ p.1, FitsCpp q.2) := by
  have hn : GoodName nameA := (goodName_iff _).1 (by decide)
  constructor
  · intro p hp
    simp only [twoKinds, List.mem_cons, List.not_mem_nil, or_false] at hp
    rcases hp with rfl | rfl
    · refine ⟨by decide, ?_⟩
      intro q hq
      simp only [List.mem_cons, List.not_mem_nil, or_false] at hq
      subst hq
      exact ⟨hn, by simp [Storable]⟩
    · refine ⟨by decide, ?_⟩
      intro q hq
      simp only [List.mem_cons, List.not_mem_nil, or_false] at hq
      subst hq
      exact ⟨hn, by simp [Storable]⟩
  · intro p hp q hq
    simp only [twoKinds, List.mem_cons, List.not_mem_nil, or_false] at hp
    rcases hp with rfl | rfl <;> (simp only [List.mem_cons, List.not_mem_nil, or_false] at hq; subst hq; simp [FitsCpp])

/-- **C139, refuted**: if a name changes its kind, C++ finds the old value as well. -/
theorem C139_negation : ¬ C139_claim := by
  intro h
  have he : AsciiEnc fun c => [BitVec.ofNat 8 c] := fun c _ => rfl
  obtain ⟨s, h1, h2⟩ := C139_matlab _ he twoKinds twoKinds_good.1
  obtain ⟨c, h3, h4⟩ := C139_cpp_partial _ he twoKinds twoKinds_good.1 twoKinds_good.2
  have a1 := (h _ he twoKinds twoKinds_good.1 twoKinds_good.2 s c h1 h3 nameA).1
  rw [(h4 nameA).1, h2 nameA] at a1
  exact absurd a1 (by decide)

/-- **C139, Matlab appends to a file of C++**: Matlab then finds its own fields and, under other names, what C++ saved; C++ finds under every name the matrix and the string last saved. -/
theorem C139_append_to_cpp (enc : Nat → List Byte) (he : AsciiEnc enc) (a : Archive) (ha : Reachable a) (ha' : Savable a []) (s : Struct) (hs : Good s) (hc : ∀ p ∈ s, FitsCpp p.2) :
    (saveMatrixArchive enc (save a []).bytes s true).res = .ok ∧
    (∃ r, loadMatrixArchive (saveMatrixArchive enc (save a []).bytes s true).bytes = .ok r ∧
      ∀ n, field r n = (field s n).or (((getString a n).map ofStr).or ((getMatrix a n).map ofMat))) ∧
    ∃ c, load empty [] (saveMatrixArchive enc (save a []).bytes s true).bytes = .ok c ∧
      ∀ n, getMatrix c n = ((field s n).bind asMat).or (getMatrix a n) ∧ getString c n = ((field s n).bind asStr).or (getString a n) := by
  have ia := inv_reachable ha
  obtain ⟨h1, h2⟩ := save_file ia ha'
  rw [save_good he hs]
  refine ⟨rfl, ?_, ?_⟩
  · obtain ⟨_, r, hr, hf⟩ := C137_fields_partial a ha [] ha'
    have e1 := loadFrom_file (archiveBlocks a []) h2 [] []
    rw [List.append_nil, loadFrom_nil] at e1
    have e2 : loadMatrixArchive (save a []).bytes = loadFrom [] (fileOf (archiveBlocks a [])) := by rw [h1]; rfl
    rw [e2, e1] at hr
    simp only [LoadResult.ok.injEq] at hr
    refine ⟨apply r (structBlocks s), ?_, ?_⟩
    · show loadFrom [] _ = _
      have e3 := loadFrom_file (structBlocks s) (structBlocks_ok hs.vals) r []
      rw [List.append_nil, loadFrom_nil] at e3
      simp only [if_true, h1]
      rw [loadFrom_file _ h2, hr, e3]
    · intro n
      rw [apply_structBlocks _ hs, (hf n).1 (Or.inl rfl)]
  · have hok : ∀ p ∈ archiveBlocks a [], validateName p.1 = true ∧ Block.Ok p.2 ∧ ∀ m, p.2 = .matrix m → m.rows * m.cols < 2 ^ 32 := by
      intro p hp
      refine ⟨(h2 p hp).1, (h2 p hp).2, ?_⟩
      intro m hm
      rcases List.mem_append.1 hp with h | h
      · simp only [picked, List.mem_map, List.mem_filter] at h
        obtain ⟨q, ⟨hq, _⟩, rfl⟩ := h
        simp only [Block.matrix.injEq] at hm
        subst hm
        have := (ha'.1 q.1 q.2 rfl (lookup_of_mem ia.sv hq)).2.2.2
        omega
      · simp only [picked, List.mem_map, List.mem_filter] at h
        obtain ⟨q, _, rfl⟩ := h
        cases hm
    have e0 := load_file (archiveBlocks a []) hok empty []
    rw [List.append_nil] at e0
    have e1 := (C19_round_trip a ha ha').2
    rw [h1] at e1
    have e2 : stored empty (archiveBlocks a []) = a := by
      have : load empty [] (fileOf (archiveBlocks a [])) = .ok (stored empty (archiveBlocks a [])) := e0
      rw [this] at e1
      exact LoadRes.ok.inj e1
    refine ⟨stored a (structBlocks s), ?_, stored_struct a hs⟩
    simp only [if_true, h1]
    have e3 := load_file _ (structBlocks_cpp hs hc) a []
    rw [List.append_nil] at e3
    rw [load_file _ hok, e2, e3]
    rfl

/-! ## C140: files that are cut off -/

/-- **C140, the claim as a user reads it** (false): if Matlab loads a file that was cut off at any point without an error, every field it finds is as it was saved. -/
def C140_claim : Prop := ∀ enc, AsciiEnc enc → ∀ (s : Struct), Good s → ∀ (k : Nat) (r : Struct),
  loadMatrixArchive ((saveMatrixArchive enc [] s false).bytes.take k) = .ok r → ∀ n v, field r n = some v → field s n = some v

/-- **C140, what holds**: a file saved by Matlab and cut off at any point raises an error or loads as the first fields of the struct, completely, followed perhaps by a string field of which only a beginning is there. -/
theorem C140_matlab_partial (enc : Nat → List Byte) (he : AsciiEnc enc) (s : Struct) (hs : Good s) (k : Nat) (r : Struct)
    (hr : loadMatrixArchive ((saveMatrixArchive enc [] s false).bytes.take k) = .ok r) :
    ∃ j, j ≤ s.length ∧ (r = s.take j ∨ ∃ n l codes i, s[j]? = some (n, .chr [1, l] codes) ∧ i < l ∧ r = s.take j ++ [(n, .chr [1, i] (codes.take i))]) := by
  rw [save_good he hs] at hr
  simp only [Bool.false_eq_true, if_false, List.nil_append] at hr
  have key : ∀ j, apply [] ((structBlocks s).take j) = s.take j := by
    intro j
    have hnd : (((structBlocks s).take j).map Prod.fst).Nodup := by
      rw [List.map_take]
      have : (structBlocks s).map Prod.fst = s.map Prod.fst := by simp [structBlocks]
      rw [this]
      exact (List.take_sublist _ _).nodup hs.nodup
    rw [apply_new _ _ (by simpa using hnd)]
    simp only [structBlocks, List.nil_append, ← List.map_take, List.map_map]
    conv => rhs; rw [← List.map_id (s.take j)]
    apply List.map_congr_left
    intro p hp
    simp only [Function.comp, id, (storable_block (enc := enc) he p.1 (hs.vals p (List.mem_of_mem_take hp)).2).2.2]
  rcases loadFrom_cut (structBlocks s) (structBlocks_ok hs.vals) [] k with h | ⟨j, hj, h⟩
  · have hr' : loadFrom [] ((fileOf (structBlocks s)).take k) = .ok r := hr
    rw [h] at hr'; cases hr'
  · have hr' : loadFrom [] ((fileOf (structBlocks s)).take k) = .ok r := hr
    refine ⟨j, by simpa [structBlocks] using hj, ?_⟩
    rcases h with h | ⟨n, t, i, h1, h2, h⟩
    · left
      rw [h, key] at hr'
      cases hr'; rfl
    · right
      rw [h, key] at hr'
      simp only [structBlocks, List.getElem?_map, Option.map_eq_some_iff] at h1
      obtain ⟨⟨n', v⟩, hv, he'⟩ := h1
      simp only [Prod.mk.injEq] at he'
      obtain ⟨rfl, hb⟩ := he'
      have hmem : (n', v) ∈ s := List.mem_of_getElem? hv
      have hst := (hs.vals _ hmem).2
      simp only at hst
      unfold Storable at hst
      split at hst
      · simp [blockOf] at hb
      · rename_i l codes
        simp only [blockOf, Block.string.injEq] at hb
        subst hb
        rw [List.length_map, hst.1] at h2
        refine ⟨n', l, codes, i, hv, h2, ?_⟩
        simp only [LoadResult.ok.injEq] at hr'
        have hnew : field (s.take j) n' = none := by
          rw [field_none_iff]
          intro hm
          have hlt : j < s.length := by
            rcases List.getElem?_eq_some_iff.1 hv with ⟨h, _⟩; exact h
          have hsplit : s.map Prod.fst = (s.take j).map Prod.fst ++ n' :: (s.drop (j + 1)).map Prod.fst := by
            conv => lhs; rw [← List.take_append_drop j s]
            rw [List.map_append, List.drop_eq_getElem_cons hlt, List.map_cons]
            have : s[j] = (n', .chr [1, l] codes) := by
              rcases List.getElem?_eq_some_iff.1 hv with ⟨_, h⟩; exact h
            rw [this]
          have := hs.nodup
          rw [hsplit, List.nodup_append] at this
          exact this.2.2 n' hm n' (by simp) rfl
        rw [← hr', setField_new _ _ _ hnew]
        congr 1
        have hasc : ∀ c ∈ codes.take i, c < 128 := fun c hc => hst.2.2.2 c (List.mem_of_mem_take hc)
        simp only [toVal, ← List.map_take, toNat_ascii hasc, List.length_map, List.length_take, hst.1]
        rw [Nat.min_eq_left (by omega)]
      · exact hst.elim

/-- **C140, a file saved by C++**, cut off at any point: Matlab raises an error, or finds under every name either nothing, or the matrix or string of that name, or the beginning of that string. -/
theorem C140_cpp_file_partial (a : Archive) (ha : Reachable a) (hs : Savable a []) (k : Nat) (r : Struct)
    (hr : loadMatrixArchive ((save a []).bytes.take k) = .ok r) (n : Name) (v : MVal) (hv : field r n = some v) :
    (∃ m, getMatrix a n = some m ∧ v = ofMat m) ∨ ∃ t i, getString a n = some t ∧ v = ofStr (t.take i) := by
  have ia := inv_reachable ha
  obtain ⟨h1, h2⟩ := save_file ia hs
  have hr' : loadFrom [] ((fileOf (archiveBlocks a [])).take k) = .ok r := by rw [h1] at hr; exact hr
  have hmem : ∀ p ∈ archiveBlocks a [], (∃ m, p.2 = .matrix m ∧ getMatrix a p.1 = some m) ∨ ∃ t, p.2 = .string t ∧ getString a p.1 = some t := by
    intro p hp
    rcases List.mem_append.1 hp with h | h
    · simp only [picked, List.mem_map, List.mem_filter] at h
      obtain ⟨q, ⟨hq, _⟩, rfl⟩ := h
      exact Or.inl ⟨q.2, rfl, lookup_of_mem ia.sv hq⟩
    · simp only [picked, List.mem_map, List.mem_filter] at h
      obtain ⟨q, ⟨hq, _⟩, rfl⟩ := h
      exact Or.inr ⟨q.2, rfl, lookup_of_mem ia.ss hq⟩
  have hap : ∀ (L : List (Name × Block)) (s : Struct), field (apply s L) n = some v → field s n = some v ∨ ∃ p ∈ L, p.1 = n ∧ v = toVal p.2 := by
    intro L
    induction L with
    | nil => intro s h; exact Or.inl h
    | cons q L ih =>
      intro s h
      have e : apply s (q :: L) = apply (setField s q.1 (toVal q.2)) L := rfl
      rw [e] at h
      rcases ih _ h with h | ⟨p, hp, h⟩
      · rw [field_setField] at h
        split at h
        · rename_i hq
          exact Or.inr ⟨q, by simp, hq.symm, (Option.some.inj h).symm⟩
        · exact Or.inl h
      · exact Or.inr ⟨p, by simp [hp], h⟩
  have fin : ∀ p ∈ archiveBlocks a [], p.1 = n → v = toVal p.2 →
      (∃ m, getMatrix a n = some m ∧ v = ofMat m) ∨ ∃ t i, getString a n = some t ∧ v = ofStr (t.take i) := by
    rintro p hp rfl hpv
    rcases hmem p hp with ⟨m, hm, hg⟩ | ⟨t, ht, hg⟩
    · left; exact ⟨m, hg, by rw [hpv, hm]; rfl⟩
    · right; exact ⟨t, t.length, hg, by rw [hpv, ht, List.take_length]; rfl⟩
  rcases loadFrom_cut (archiveBlocks a []) h2 [] k with h | ⟨j, _, h | ⟨n', t, i, h3, _, h⟩⟩
  · rw [h] at hr'; cases hr'
  · rw [h] at hr'
    simp only [LoadResult.ok.injEq] at hr'
    subst hr'
    rcases hap _ _ hv with h | ⟨p, hp, h4, h5⟩
    · cases h
    · exact fin p (List.mem_of_mem_take hp) h4 h5
  · rw [h] at hr'
    simp only [LoadResult.ok.injEq] at hr'
    subst hr'
    rw [field_setField] at hv
    split at hv
    · rename_i hnn
      subst hnn
      rcases hmem _ (List.mem_of_getElem? h3) with ⟨m, hm, _⟩ | ⟨t', ht, hg⟩
      · cases hm
      · simp only [Block.string.injEq] at ht
        subst ht
        exact Or.inr ⟨t, i, hg, (Option.some.inj hv).symm⟩
    · rcases hap _ _ hv with h | ⟨p, hp, h4, h5⟩
      · cases h
      · exact fin p (List.mem_of_mem_take hp) h4 h5

/-- the struct `a = 'ab'` of the refutation -/
def abStruct : Struct := [(nameA, .chr [1, 2] [97, 98])]

theorem abStruct_good : Good abStruct := by
  refine ⟨by decide, ?_⟩
  intro q hq
  simp only [abStruct, List.mem_cons, List.not_mem_nil, or_false] at hq
  subst hq
  exact ⟨(goodName_iff _).1 (by decide), by simp [Storable]⟩

/-- **C140, refuted**: a file cut off within a string is loaded without an error, with a part of the string. -/
theorem C140_negation : ¬ C140_claim := by
  intro h
  have he : AsciiEnc fun c => [BitVec.ofNat 8 c] := fun c _ => rfl
  have := h _ he abStruct abStruct_good 38 [(nameA, .chr [1, 1] [97])] (by decide) nameA (.chr [1, 1] [97]) (by decide)
  exact absurd this (by decide)

/-! ## the hypotheses are met -/

/-- a struct with a matrix of two rows and three columns and a string -/
def exStruct : Struct := [(nameB, .num [2, 3] [1, 2, 3, 4, 5, 6]), (nameA, .chr [1, 2] [97, 98])]

theorem exStruct_good : Good exStruct ∧ ∀ p ∈ exStruct, FitsCpp p.2 := by
  refine ⟨⟨by decide, ?_⟩, ?_⟩
  · intro q hq
    simp only [exStruct, List.mem_cons, List.not_mem_nil, or_false] at hq
    rcases hq with rfl | rfl
    · exact ⟨(goodName_iff _).1 (by decide), by simp [Storable]⟩
    · exact ⟨(goodName_iff _).1 (by decide), by simp [Storable]⟩
  · intro q hq
    simp only [exStruct, List.mem_cons, List.not_mem_nil, or_false] at hq
    rcases hq with rfl | rfl <;> simp [FitsCpp]

example : AsciiEnc fun c => if c < 128 then [BitVec.ofNat 8 c] else [195, BitVec.ofNat 8 (c % 64 + 128)] := fun c h => by simp [h]
example : loadMatrixArchive (saveMatrixArchive (fun c => [BitVec.ofNat 8 c]) [] exStruct false).bytes = .ok exStruct := (C138_roundtrip _ (fun _ _ => rfl) _ exStruct_good.1 []).2
example : ∃ a, Reachable a ∧ Savable a [] ∧ getMatrix a nameA = some ⟨1, 1, [7]⟩ ∧ getString a nameB = some [1, 2] ∧ ∀ n, ¬ (getMatrix a n ≠ none ∧ getString a n ≠ none) := by
  have r1 : Reachable (setString empty nameB [1, 2]).2 := Reachable.step (op := .setString nameB [1, 2]) .init trivial rfl
  have r2 : Reachable (setScalar (setString empty nameB [1, 2]).2 nameA 7).2 := Reachable.step (op := .setScalar nameA 7) r1 trivial rfl
  have e : (setScalar (setString empty nameB [1, 2]).2 nameA 7).2 = ⟨[(nameA, ⟨1, 1, [7]⟩)], [(nameB, [1, 2])]⟩ := by decide
  rw [e] at r2
  refine ⟨_, r2, ⟨?_, ?_⟩, by decide, by decide, ?_⟩
  · intro n m _ hm
    simp only [getMatrix, lookup] at hm
    split at hm
    · rename_i hn; subst hn
      simp only [Option.some.injEq] at hm; subst hm
      exact ⟨(goodName_iff _).1 (by decide), by decide, by decide, by decide⟩
    · cases hm
  · intro n m _ hm
    simp only [getString, lookup] at hm
    split at hm
    · simp only [Option.some.injEq] at hm; subst hm; decide
    · cases hm
  · intro n
    simp only [getMatrix, getString, lookup]
    by_cases h1 : n = nameA
    · subst h1; decide
    · simp [h1]
example : (∀ p ∈ twoKinds, Good p.1) ∧ latest some twoKinds nameA = some (.chr [1, 1] [97]) ∧ latest asMat twoKinds nameA = some ⟨1, 1, [5]⟩ := ⟨twoKinds_good.1, by decide, by decide⟩
example : loadMatrixArchive ((saveMatrixArchive (fun c => [BitVec.ofNat 8 c]) [] exStruct false).bytes.take 90) = .ok (exStruct.take 1) := by decide

end Verif.Archive.Mlab
