import Verif.Archive.Matlab
import Verif.Archive.Invariant

/-!
# Lemmas on the Matlab side of the matrix archive
-/

namespace Verif.Archive.Mlab

/-- the bytes of a block, as both programs write it -/
def blockBytes (n : Name) : Block → List Byte
  | .matrix m => magicMatrix :: (paddedName n ++ leBytes 4 m.rows ++ leBytes 4 m.cols ++ dataBytes m.data ++ [magicEnd])
  | .string t => magicString :: (paddedName n ++ leBytes 4 t.length ++ t ++ [magicEnd])

/-- the block is within the format -/
def Block.Ok : Block → Prop
  | .matrix m => m.WF ∧ m.rows < 2 ^ 32 ∧ m.cols < 2 ^ 32
  | .string t => t.length < 2 ^ 32

/-- the Matlab value of a block -/
def toVal : Block → MVal
  | .matrix m => .num [m.rows, m.cols] m.data
  | .string t => .chr [1, t.length] (t.map BitVec.toNat)

theorem identifier_of_valid {n : Name} (h : validateName n = true) : identifier n = true := by
  unfold validateName at h
  split at h
  · cases h
  · cases n with
    | nil => cases h
    | cons c cs => exact h

theorem trim_padded {n : Name} (h : validateName n = true) : trim (paddedName n) = n := by
  have h0 := decode_padded h
  unfold decodeName at h0
  rwa [takeWhile_all] at h0
  intro b hb
  simp only [paddedName, List.mem_append, List.mem_replicate] at hb
  rcases hb with ⟨_, hb⟩ | hb
  · rw [hb]; decide
  · exact ((valid_chars h).2.2 b hb).2

theorem take_append_len {α : Type} (n : Nat) (xs rest : List α) (h : xs.length = n) : (xs ++ rest).take n = xs := by
  subst h; simp

theorem drop_append_len {α : Type} (n : Nat) (xs rest : List α) (h : xs.length = n) : (xs ++ rest).drop n = rest := by
  subst h; simp

/-- what the two readers do after the name -/
def readValue (start : Byte) (bs : List Byte) : Option (MVal × List Byte) := if start = magicString then readChars bs else readNums bs

theorem readField_padded {n : Name} (hn : validateName n = true) {start : Byte} (hs : start = magicString ∨ start = magicMatrix) (bs : List Byte) :
    readField start (paddedName n ++ bs) = match readValue start bs with
      | none => none
      | some (v, rest) => (endMark rest).map fun rest => (n, v, rest) := by
  obtain ⟨hl, hne, _⟩ := valid_chars hn
  have e1 : (paddedName n ++ bs).take fixedNameSize = paddedName n := take_append_len _ _ _ (paddedName_length hl)
  have e2 : (paddedName n ++ bs).drop fixedNameSize = bs := drop_append_len _ _ _ (paddedName_length hl)
  unfold readField
  rw [if_neg (by rcases hs with h | h <;> simp [h]), e1, e2, trim_padded hn]
  simp only [hne, if_false, identifier_of_valid hn, if_true, readValue]
  cases (if start = magicString then readChars bs else readNums bs) with
  | none => rfl
  | some p =>
    obtain ⟨v, rest⟩ := p
    simp only
    cases endMark rest <;> rfl

/-- a field that ends before its sizes are complete -/
theorem readField_short {start : Byte} {bs : List Byte} (h : readValue start (bs.drop 32) = none) : readField start bs = none := by
  unfold readField
  split
  · rfl
  · simp only
    split
    · rfl
    · have : (if start = magicString then readChars (bs.drop fixedNameSize) else readNums (bs.drop fixedNameSize)) = none := h
      rw [this]

theorem readChars_eq (t rest : List Byte) (L : Nat) (hL : L < 2 ^ 32) :
    readChars (leBytes 4 L ++ (t ++ rest)) = some (.chr [1, ((t ++ rest).take L).length] (((t ++ rest).take L).map BitVec.toNat), (t ++ rest).drop L) := by
  have hl := leBytes_length 4 L
  unfold readChars
  rw [if_neg (by simp [hl]), take_append_len _ _ _ hl, drop_append_len _ _ _ hl, leNat_leBytes 4 L (by omega)]

theorem readNums_eq (r c : Nat) (hr : r < 2 ^ 32) (hc : c < 2 ^ 32) (bs : List Byte) :
    readNums (leBytes 4 r ++ (leBytes 4 c ++ bs)) =
      if (bs.take (8 * (r * c))).length < 8 * (r * c) then none else some (.num [r, c] (words (bs.take (8 * (r * c)))), bs.drop (8 * (r * c))) := by
  have h1 := leBytes_length 4 r
  have h2 := leBytes_length 4 c
  have e8 : (leBytes 4 r ++ (leBytes 4 c ++ bs)).drop 8 = bs := by
    rw [← List.append_assoc]; exact drop_append_len _ _ _ (by simp [h1, h2])
  unfold readNums
  rw [if_neg (by simp [h1, h2]; omega), take_append_len _ _ _ h1, drop_append_len _ _ _ h1, take_append_len _ _ _ h2, e8, leNat_leBytes 4 r (by omega), leNat_leBytes 4 c (by omega)]

/-- the start mark -/
def mark : Block → Byte
  | .matrix _ => magicMatrix
  | .string _ => magicString

/-- the sizes and the data -/
def body : Block → List Byte
  | .matrix m => leBytes 4 m.rows ++ (leBytes 4 m.cols ++ dataBytes m.data)
  | .string t => leBytes 4 t.length ++ t

theorem blockBytes_eq (n : Name) (b : Block) : blockBytes n b = mark b :: (paddedName n ++ (body b ++ [magicEnd])) := by
  cases b <;> simp [blockBytes, mark, body]

theorem readValue_body {b : Block} (hb : Block.Ok b) (rest : List Byte) :
    readValue (mark b) (body b ++ rest) = some (toVal b, rest) := by
  cases b with
  | matrix m =>
    obtain ⟨hwf, hr, hc⟩ := hb
    unfold Mat.WF at hwf
    have hlen : (dataBytes m.data).length = 8 * (m.rows * m.cols) := by rw [dataBytes_length, hwf]
    simp only [readValue, mark, body, List.append_assoc]
    rw [if_neg (by decide), readNums_eq _ _ hr hc, take_append_len _ _ _ hlen, drop_append_len _ _ _ hlen, if_neg (by omega), words_dataBytes]
    rfl
  | string t =>
    simp only [readValue, mark, body, List.append_assoc, if_true]
    rw [readChars_eq _ _ _ hb, take_append_len _ _ _ rfl, drop_append_len _ _ _ rfl]
    rfl

theorem mark_or (b : Block) : mark b = magicString ∨ mark b = magicMatrix := by cases b <;> simp [mark]

/-- a complete block -/
theorem readField_block {n : Name} {b : Block} (hn : validateName n = true) (hb : Block.Ok b) (rest : List Byte) :
    readField (mark b) ((paddedName n ++ (body b ++ [magicEnd])) ++ rest) = some (n, toVal b, rest) := by
  rw [List.append_assoc, List.append_assoc, readField_padded hn (mark_or b), readValue_body hb]
  simp [endMark]

theorem body_length_ge (b : Block) : 4 ≤ (body b).length := by
  cases b <;> simp [body, leBytes_length]

/-- the possible readings of a block that is cut off -/
theorem readField_cut {n : Name} {b : Block} (hn : validateName n = true) (hb : Block.Ok b) (k : Nat)
    (hk : k < (paddedName n ++ (body b ++ [magicEnd])).length) :
    readField (mark b) ((paddedName n ++ (body b ++ [magicEnd])).take k) = none ∨
    readField (mark b) ((paddedName n ++ (body b ++ [magicEnd])).take k) = some (n, toVal b, []) ∨
    ∃ t i, b = .string t ∧ i < t.length ∧
      readField (mark b) ((paddedName n ++ (body b ++ [magicEnd])).take k) = some (n, toVal (.string (t.take i)), []) := by
  obtain ⟨hl, _, _⟩ := valid_chars hn
  have hp := paddedName_length hl
  rw [List.length_append, List.length_append, hp, List.length_singleton] at hk
  by_cases h32 : k < 32
  · left
    apply readField_short
    have : ((paddedName n ++ (body b ++ [magicEnd])).take k).drop 32 = [] := by
      apply List.drop_of_length_le
      rw [List.length_take]; omega
    rw [this]
    unfold readValue; split <;> simp [readChars, readNums]
  · obtain ⟨j, rfl⟩ : ∃ j, k = 32 + j := ⟨k - 32, by omega⟩
    have e : (paddedName n ++ (body b ++ [magicEnd])).take (32 + j) = paddedName n ++ (body b).take j := by
      rw [List.take_append, hp, List.take_of_length_le (by omega), show 32 + j - 32 = j by omega, List.take_append_of_le_length (by omega)]
    rw [e, readField_padded hn (mark_or b)]
    by_cases hj : j = (body b).length
    · have := readValue_body hb []
      rw [List.append_nil] at this
      rw [hj, List.take_length, this]
      simp [endMark]
    · have hj : j < (body b).length := by omega
      cases b with
      | matrix m =>
        left
        obtain ⟨hwf, hr, hc⟩ := hb
        unfold Mat.WF at hwf
        have hlen : (dataBytes m.data).length = 8 * (m.rows * m.cols) := by rw [dataBytes_length, hwf]
        have : readValue (mark (.matrix m)) ((body (.matrix m)).take j) = none := by
          have e0 : ∀ x, readValue (mark (.matrix m)) x = readNums x := fun x => if_neg (show magicMatrix ≠ magicString by decide)
          rw [e0]
          by_cases h8 : j < 8
          · unfold readNums
            rw [if_pos (by rw [List.length_take]; omega)]
          · obtain ⟨i, rfl⟩ : ∃ i, j = 8 + i := ⟨j - 8, by omega⟩
            have e : (body (.matrix m)).take (8 + i) = leBytes 4 m.rows ++ (leBytes 4 m.cols ++ (dataBytes m.data).take i) := by
              simp only [body]
              rw [List.take_append, leBytes_length, List.take_of_length_le (by rw [leBytes_length]; omega), List.take_append, leBytes_length,
                List.take_of_length_le (by rw [leBytes_length]; omega)]
              congr 3
              omega
            rw [e, readNums_eq _ _ hr hc, if_pos]
            simp only [body, List.length_append, leBytes_length, hlen] at hj
            simp only [List.length_take, hlen]; omega
        rw [this]
      | string t =>
        by_cases h4 : j < 4
        · left
          have : readValue (mark (.string t)) ((body (.string t)).take j) = none := by
            simp only [readValue, mark, if_true]
            unfold readChars
            rw [if_pos (by rw [List.length_take]; omega)]
          rw [this]
        · right; right
          obtain ⟨i, rfl⟩ : ∃ i, j = 4 + i := ⟨j - 4, by omega⟩
          simp only [body, List.length_append, leBytes_length] at hj
          refine ⟨t, i, rfl, by omega, ?_⟩
          have e : (body (.string t)).take (4 + i) = leBytes 4 t.length ++ (t.take i ++ []) := by
            simp only [body, List.append_nil]
            rw [List.take_append, leBytes_length, List.take_of_length_le (by rw [leBytes_length]; omega)]
            congr 2
            omega
          have e2 : (t.take i ++ []).take t.length = t.take i := by
            rw [List.append_nil, List.take_of_length_le]
            rw [List.length_take]; omega
          have e3 : (t.take i ++ []).drop t.length = [] := by
            rw [List.append_nil, List.drop_of_length_le]
            rw [List.length_take]; omega
          simp only [readValue, mark, if_true]
          rw [e, readChars_eq _ _ _ hb, e2, e3]
          simp [endMark, toVal]

/-! ## the loop -/

theorem readField_rest {start : Byte} {bs : List Byte} {n : Name} {v : MVal} {rest : List Byte} (h : readField start bs = some (n, v, rest)) :
    rest.length ≤ bs.length := by
  unfold readField at h
  split at h
  · cases h
  simp only at h
  split at h
  · cases h
  have key : ∀ (w : MVal) (r : List Byte), (if start = magicString then readChars (bs.drop fixedNameSize) else readNums (bs.drop fixedNameSize)) = some (w, r) →
      r.length ≤ bs.length := by
    intro w r hr
    split at hr
    · unfold readChars at hr
      split at hr
      · cases hr
      · simp only [Option.some.injEq, Prod.mk.injEq] at hr
        rw [← hr.2]; simp only [List.length_drop]; omega
    · unfold readNums at hr
      split at hr
      · cases hr
      · simp only at hr
        split at hr
        · cases hr
        · simp only [Option.some.injEq, Prod.mk.injEq] at hr
          rw [← hr.2]; simp only [List.length_drop]; omega
  split at h
  · cases h
  · rename_i w r hr
    have hk := key w r hr
    split at h
    · cases h
    · rename_i r' he
      split at h
      · simp only [Option.some.injEq, Prod.mk.injEq] at h
        rw [← h.2.2]
        cases r with
        | nil => simp [endMark] at he; subst he; omega
        | cons x xs =>
          simp only [endMark] at he
          split at he
          · simp at he; subst he; simp at hk; omega
          · cases he
      · cases h

theorem loadFields_fuel : ∀ (k fuel : Nat) (s : Struct) (bs : List Byte), bs.length ≤ k → bs.length ≤ fuel →
    loadFields fuel s bs = loadFields k s bs := by
  intro k
  induction k with
  | zero =>
    intro fuel s bs h _
    have : bs = [] := List.length_eq_zero_iff.1 (by omega)
    subst this
    cases fuel <;> rfl
  | succ k ih =>
    intro fuel s bs h hf
    cases bs with
    | nil => cases fuel <;> rfl
    | cons b bs =>
      cases fuel with
      | zero => simp at hf
      | succ f =>
        simp only [loadFields]
        cases hr : readField b bs with
        | none => rfl
        | some p =>
          obtain ⟨n, v, rest⟩ := p
          have := readField_rest hr
          simp only [List.length_cons] at h hf
          exact ih f _ rest (by omega) (by omega)

/-- the loop with enough fuel, from any struct -/
def loadFrom (s : Struct) (bs : List Byte) : LoadResult := loadFields bs.length s bs

theorem loadFrom_cons {s : Struct} {b : Byte} {bs : List Byte} : loadFrom s (b :: bs) = match readField b bs with
    | none => .error
    | some (n, v, rest) => loadFrom (setField s n v) rest := by
  unfold loadFrom
  simp only [List.length_cons, loadFields]
  cases hr : readField b bs with
  | none => rfl
  | some p =>
    obtain ⟨n, v, rest⟩ := p
    exact loadFields_fuel _ _ _ _ (Nat.le_refl _) (readField_rest hr)

theorem loadFrom_nil (s : Struct) : loadFrom s [] = .ok s := rfl

theorem loadFrom_block {n : Name} {b : Block} (hn : validateName n = true) (hb : Block.Ok b) (s : Struct) (rest : List Byte) :
    loadFrom s (blockBytes n b ++ rest) = loadFrom (setField s n (toVal b)) rest := by
  rw [blockBytes_eq, List.cons_append, loadFrom_cons, readField_block hn hb]

/-- the bytes of several blocks -/
def fileOf (L : List (Name × Block)) : List Byte := L.flatMap fun p => blockBytes p.1 p.2

/-- the fields after reading several blocks -/
def apply (s : Struct) (L : List (Name × Block)) : Struct := L.foldl (fun s p => setField s p.1 (toVal p.2)) s

theorem loadFrom_file (L : List (Name × Block)) (hL : ∀ p ∈ L, validateName p.1 = true ∧ Block.Ok p.2) (s : Struct) (rest : List Byte) :
    loadFrom s (fileOf L ++ rest) = loadFrom (apply s L) rest := by
  induction L generalizing s with
  | nil => rfl
  | cons p L ih =>
    obtain ⟨n, b⟩ := p
    have h := hL (n, b) (by simp)
    simp only [fileOf, List.flatMap_cons, List.append_assoc]
    rw [loadFrom_block h.1 h.2]
    exact ih (fun q hq => hL q (by simp [hq])) _

/-- what can be read from a file that is cut off -/
theorem loadFrom_cut (L : List (Name × Block)) (hL : ∀ p ∈ L, validateName p.1 = true ∧ Block.Ok p.2) (s : Struct) (k : Nat) :
    loadFrom s ((fileOf L).take k) = .error ∨
    ∃ j, j ≤ L.length ∧ (loadFrom s ((fileOf L).take k) = .ok (apply s (L.take j)) ∨
      ∃ n t i, L[j]? = some (n, .string t) ∧ i < t.length ∧
        loadFrom s ((fileOf L).take k) = .ok (setField (apply s (L.take j)) n (toVal (.string (t.take i))))) := by
  induction L generalizing s k with
  | nil => right; exact ⟨0, by simp, Or.inl (by simp [fileOf, apply, loadFrom_nil])⟩
  | cons p L ih =>
    obtain ⟨n, b⟩ := p
    have h : validateName n = true ∧ Block.Ok b := hL (n, b) (by simp)
    have ih := ih (fun q hq => hL q (by simp [hq]))
    have e : fileOf ((n, b) :: L) = blockBytes n b ++ fileOf L := by simp [fileOf]
    rw [e]
    by_cases hk : (blockBytes n b).length ≤ k
    · have et : (blockBytes n b ++ fileOf L).take k = blockBytes n b ++ (fileOf L).take (k - (blockBytes n b).length) := by
        rw [List.take_append, List.take_of_length_le hk]
      rw [et, loadFrom_block h.1 h.2]
      rcases ih (setField s n (toVal b)) (k - (blockBytes n b).length) with h1 | ⟨j, hj, h1⟩
      · exact Or.inl h1
      · right
        refine ⟨j + 1, by simp; omega, ?_⟩
        rcases h1 with h1 | ⟨m, t, i, h2, h3, h1⟩
        · left; rw [h1]; rfl
        · right; exact ⟨m, t, i, by simpa using h2, h3, by rw [h1]; rfl⟩
    · rw [List.take_append_of_le_length (by omega), blockBytes_eq]
      rw [blockBytes_eq, List.length_cons] at hk
      cases k with
      | zero => right; exact ⟨0, by simp, Or.inl (by simp [apply, loadFrom_nil])⟩
      | succ k =>
        rw [List.take_succ_cons, loadFrom_cons]
        rcases readField_cut h.1 h.2 k (by omega) with h1 | h1 | ⟨t, i, hbt, hi, h1⟩
        · left; rw [h1]
        · right
          refine ⟨1, by simp, Or.inl ?_⟩
          rw [h1]; simp [apply, loadFrom_nil]
        · right
          subst hbt
          refine ⟨0, by simp, Or.inr ⟨n, t, i, by simp, hi, ?_⟩⟩
          rw [h1]; simp [apply, loadFrom_nil]

/-! ## fields -/

theorem field_setField (s : Struct) (n k : Name) (v : MVal) : field (setField s n v) k = if k = n then some v else field s k := by
  induction s with
  | nil => simp [setField, field]
  | cons p s ih =>
    obtain ⟨m, w⟩ := p
    simp only [setField]
    by_cases h : n = m
    · subst h
      simp only [if_true, field]
      by_cases hk : k = n <;> simp [hk]
    · simp only [h, if_false, field, ih]
      by_cases hk : k = m
      · subst hk; simp [Ne.symm h]
      · simp [hk]

theorem setField_new (s : Struct) (n : Name) (v : MVal) (h : field s n = none) : setField s n v = s ++ [(n, v)] := by
  induction s with
  | nil => rfl
  | cons p s ih =>
    obtain ⟨m, w⟩ := p
    simp only [field] at h
    by_cases hm : n = m
    · simp [hm] at h
    · simp only [hm, if_false] at h
      simp [setField, hm, ih h]

theorem field_none_iff (s : Struct) (n : Name) : field s n = none ↔ n ∉ s.map Prod.fst := by
  induction s with
  | nil => simp [field]
  | cons p s ih =>
    obtain ⟨m, w⟩ := p
    simp only [field]
    by_cases hm : n = m
    · simp [hm]
    · simp [hm, ih]

theorem apply_new (s : Struct) (L : List (Name × Block)) (hn : (s.map Prod.fst ++ L.map Prod.fst).Nodup) :
    apply s L = s ++ L.map fun p => (p.1, toVal p.2) := by
  induction L generalizing s with
  | nil => simp [apply]
  | cons p L ih =>
    obtain ⟨n, b⟩ := p
    have hnot : field s n = none := by
      rw [field_none_iff]
      intro hm
      rw [List.nodup_append] at hn
      exact hn.2.2 n hm n (by simp) rfl
    have : apply s ((n, b) :: L) = apply (setField s n (toVal b)) L := rfl
    rw [this, setField_new _ _ _ hnot, ih]
    · simp
    · simpa using hn

theorem field_apply_not_mem (s : Struct) (L : List (Name × Block)) (n : Name) (h : n ∉ L.map Prod.fst) : field (apply s L) n = field s n := by
  induction L generalizing s with
  | nil => rfl
  | cons p L ih =>
    obtain ⟨m, b⟩ := p
    have : apply s ((m, b) :: L) = apply (setField s m (toVal b)) L := rfl
    simp only [List.map_cons, List.mem_cons, not_or] at h
    rw [this, ih _ h.2, field_setField, if_neg h.1]

theorem field_apply_mem (s : Struct) (L : List (Name × Block)) (hnd : (L.map Prod.fst).Nodup) (n : Name) (b : Block) (h : (n, b) ∈ L) :
    field (apply s L) n = some (toVal b) := by
  induction L generalizing s with
  | nil => cases h
  | cons p L ih =>
    obtain ⟨m, c⟩ := p
    have e : apply s ((m, c) :: L) = apply (setField s m (toVal c)) L := rfl
    simp only [List.map_cons, List.nodup_cons] at hnd
    rw [e]
    rcases List.mem_cons.1 h with h | h
    · cases h
      rw [field_apply_not_mem _ _ _ hnd.1, field_setField, if_pos rfl]
    · exact ih _ hnd.2 h

end Verif.Archive.Mlab
