import Verif.Archive.Model

/-!
# Helper lemmas for the MatrixArchive properties
-/

namespace Verif.Archive

/-! ## the order on names -/

theorem nameLt_irrefl (x : Name) : nameLt x x = false := by
  induction x with
  | nil => rfl
  | cons a as ih => simp [nameLt, ih]

theorem nameLt_trans : ∀ {x y z : Name}, nameLt x y = true → nameLt y z = true → nameLt x z = true
  | _, [], _, h, _ => by simp [nameLt] at h
  | _, _ :: _, [], _, h => by simp [nameLt] at h
  | [], _ :: _, _ :: _, _, _ => rfl
  | a :: as, b :: bs, c :: cs, h1, h2 => by
    simp only [nameLt, Bool.or_eq_true, decide_eq_true_eq, Bool.and_eq_true, beq_iff_eq] at *
    rcases h1 with h1 | ⟨h1, h1'⟩
    · rcases h2 with h2 | ⟨h2, _⟩ <;> left <;> omega
    · rcases h2 with h2 | ⟨h2, h2'⟩
      · left; omega
      · right; exact ⟨by omega, nameLt_trans h1' h2'⟩

theorem nameLt_total : ∀ (x y : Name), nameLt x y = true ∨ x = y ∨ nameLt y x = true
  | [], [] => by simp
  | [], _ :: _ => by simp [nameLt]
  | _ :: _, [] => by simp [nameLt]
  | a :: as, b :: bs => by
    simp only [nameLt, Bool.or_eq_true, decide_eq_true_eq, Bool.and_eq_true, beq_iff_eq]
    rcases Nat.lt_trichotomy a.toNat b.toNat with h | h | h
    · exact Or.inl (Or.inl h)
    · rcases nameLt_total as bs with g | g | g
      · exact Or.inl (Or.inr ⟨h, g⟩)
      · exact Or.inr (Or.inl (by rw [BitVec.eq_of_toNat_eq h, g]))
      · exact Or.inr (Or.inr (Or.inr ⟨h.symm, g⟩))
    · exact Or.inr (Or.inr (Or.inl h))

theorem nameLt_ne {x y : Name} (h : nameLt x y = true) : x ≠ y := by
  rintro rfl; rw [nameLt_irrefl] at h; cases h

/-! ## maps -/

/-- strictly sorted keys: the representation invariant of `std::map` -/
def Sorted {V : Type} (m : Map V) : Prop := m.Pairwise fun a b => nameLt a.1 b.1 = true

theorem lookup_insert {V : Type} (m : Map V) (k : Name) (v : V) (k' : Name) :
    lookup (insert m k v) k' = if k' = k then some v else lookup m k' := by
  induction m with
  | nil => simp [insert, lookup]
  | cons p rest ih =>
    obtain ⟨kp, vp⟩ := p
    simp only [insert]
    split
    · simp [lookup]
    · split
      · rename_i h; subst h
        simp only [lookup]
        split <;> rfl
      · rename_i h
        simp only [lookup, ih]
        by_cases h1 : k' = kp
        · subst h1
          simp [Ne.symm h]
        · simp [h1]

theorem lookup_none_of_lt {V : Type} {m : Map V} {k : Name} (h : ∀ p ∈ m, nameLt k p.1 = true) :
    lookup m k = none := by
  induction m with
  | nil => rfl
  | cons p rest ih =>
    have := nameLt_ne (h p (by simp))
    simp only [lookup, this, if_false]
    exact ih fun q hq => h q (by simp [hq])

theorem lookup_some_mem {V : Type} {m : Map V} {k : Name} {v : V} (h : lookup m k = some v) :
    (k, v) ∈ m := by
  induction m with
  | nil => simp [lookup] at h
  | cons p rest ih =>
    obtain ⟨kp, vp⟩ := p
    simp only [lookup] at h
    split at h
    · rename_i e; subst e; simp at h; subst h; simp
    · exact List.mem_cons_of_mem _ (ih h)

theorem lookup_of_mem {V : Type} {m : Map V} (hs : Sorted m) {k : Name} {v : V} (h : (k, v) ∈ m) :
    lookup m k = some v := by
  induction m with
  | nil => simp at h
  | cons p rest ih =>
    obtain ⟨kp, vp⟩ := p
    rw [Sorted, List.pairwise_cons] at hs
    simp only [lookup]
    rcases List.mem_cons.1 h with h | h
    · simp at h; simp [h.1, h.2]
    · have := nameLt_ne (hs.1 _ h)
      simp only at this
      rw [if_neg (Ne.symm this)]
      exact ih hs.2 h

theorem lookup_erase {V : Type} {m : Map V} (hs : Sorted m) (k k' : Name) :
    lookup (erase m k) k' = if k' = k then none else lookup m k' := by
  induction m with
  | nil => simp [erase, lookup]
  | cons p rest ih =>
    obtain ⟨kp, vp⟩ := p
    rw [Sorted, List.pairwise_cons] at hs
    simp only [erase]
    split
    · rename_i h; subst h
      by_cases h1 : k' = k
      · subst h1; simp only [if_true]
        exact lookup_none_of_lt fun q hq => hs.1 q hq
      · simp [h1, lookup]
    · rename_i h
      simp only [lookup, ih hs.2]
      by_cases h1 : k' = kp
      · subst h1; simp [Ne.symm h]
      · simp [h1]

theorem mem_insert {V : Type} {m : Map V} {k : Name} {v : V} {p : Name × V}
    (h : p ∈ insert m k v) : p = (k, v) ∨ p ∈ m := by
  induction m with
  | nil => simpa [insert] using h
  | cons q rest ih =>
    obtain ⟨kq, vq⟩ := q
    simp only [insert] at h
    split at h
    · simpa using h
    · split at h
      · rcases List.mem_cons.1 h with h | h
        · exact Or.inl h
        · exact Or.inr (List.mem_cons_of_mem _ h)
      · rcases List.mem_cons.1 h with h | h
        · right; rw [h]; simp
        · rcases ih h with h | h
          · exact Or.inl h
          · exact Or.inr (List.mem_cons_of_mem _ h)

theorem sorted_insert {V : Type} {m : Map V} (hs : Sorted m) (k : Name) (v : V) :
    Sorted (insert m k v) := by
  induction m with
  | nil => simp [insert, Sorted]
  | cons q rest ih =>
    obtain ⟨kq, vq⟩ := q
    have hs' := hs
    rw [Sorted, List.pairwise_cons] at hs
    simp only [insert]
    split
    · rename_i hlt
      rw [Sorted, List.pairwise_cons]
      refine ⟨?_, hs'⟩
      intro p hp
      rcases List.mem_cons.1 hp with h | h
      · rw [h]; exact hlt
      · exact nameLt_trans hlt (hs.1 p h)
    · split
      · rename_i h; subst h
        rw [Sorted, List.pairwise_cons]
        exact ⟨hs.1, hs.2⟩
      · rename_i h1 h2
        rw [Sorted, List.pairwise_cons]
        refine ⟨?_, ih hs.2⟩
        intro p hp
        rcases mem_insert hp with h | h
        · rw [h]
          rcases nameLt_total k kq with g | g | g
          · exact absurd g h1
          · exact absurd g h2
          · exact g
        · exact hs.1 p h

theorem mem_erase {V : Type} {m : Map V} {k : Name} {p : Name × V} (h : p ∈ erase m k) : p ∈ m := by
  induction m with
  | nil => simp [erase] at h
  | cons q rest ih =>
    obtain ⟨kq, vq⟩ := q
    simp only [erase] at h
    split at h
    · exact List.mem_cons_of_mem _ h
    · rcases List.mem_cons.1 h with h | h
      · rw [h]; simp
      · exact List.mem_cons_of_mem _ (ih h)

theorem sorted_erase {V : Type} {m : Map V} (hs : Sorted m) (k : Name) : Sorted (erase m k) := by
  induction m with
  | nil => simp [erase, Sorted]
  | cons q rest ih =>
    obtain ⟨kq, vq⟩ := q
    rw [Sorted, List.pairwise_cons] at hs
    simp only [erase]
    split
    · exact hs.2
    · rw [Sorted, List.pairwise_cons]
      exact ⟨fun p hp => hs.1 p (mem_erase hp), ih hs.2⟩

theorem erase_of_none {V : Type} {m : Map V} {k : Name} (h : lookup m k = none) : erase m k = m := by
  induction m with
  | nil => rfl
  | cons q rest ih =>
    obtain ⟨kq, vq⟩ := q
    simp only [lookup] at h
    split at h
    · cases h
    · rename_i hne
      simp only [erase, hne, if_false, ih h]

/-- two sorted maps with the same content are the same list -/
theorem sorted_ext {V : Type} : ∀ {m m' : Map V}, Sorted m → Sorted m' →
    (∀ k, lookup m k = lookup m' k) → m = m'
  | [], [], _, _, _ => rfl
  | [], (k, v) :: rest, _, _, h => by have := h k; simp [lookup] at this
  | (k, v) :: rest, [], _, _, h => by have := h k; simp [lookup] at this
  | (k, v) :: rest, (k', v') :: rest', hs, hs', h => by
    have hs0 := hs
    have hs0' := hs'
    rw [Sorted, List.pairwise_cons] at hs hs'
    have hk : k = k' := by
      rcases nameLt_total k k' with g | g | g
      · have h1 := h k
        have h2 : lookup ((k', v') :: rest') k = none := by
          apply lookup_none_of_lt
          intro p hp
          rcases List.mem_cons.1 hp with e | e
          · rw [e]; exact g
          · exact nameLt_trans g (hs'.1 p e)
        rw [h2] at h1
        simp [lookup] at h1
      · exact g
      · have h1 := h k'
        have h2 : lookup ((k, v) :: rest) k' = none := by
          apply lookup_none_of_lt
          intro p hp
          rcases List.mem_cons.1 hp with e | e
          · rw [e]; exact g
          · exact nameLt_trans g (hs.1 p e)
        rw [h2] at h1
        simp [lookup] at h1
    subst hk
    have hv := h k
    simp [lookup] at hv
    subst hv
    congr 1
    apply sorted_ext hs.2 hs'.2
    intro x
    have hx := h x
    simp only [lookup] at hx
    by_cases hxk : x = k
    · subst hxk
      rw [lookup_none_of_lt fun q hq => hs.1 q hq, lookup_none_of_lt fun q hq => hs'.1 q hq]
    · simpa [hxk] using hx

/-! ## bytes -/

theorem leBytes_length (n v : Nat) : (leBytes n v).length = n := by
  induction n generalizing v with
  | zero => rfl
  | succ n ih => simp [leBytes, ih]

theorem leNat_leBytes (n v : Nat) (h : v < 256 ^ n) : leNat (leBytes n v) = v := by
  induction n generalizing v with
  | zero => simp at h; simp [leBytes, leNat, h]
  | succ n ih =>
    simp only [leBytes, leNat]
    rw [ih (v / 256) (by rw [Nat.pow_succ] at h; omega)]
    simp
    omega

theorem dataBytes_length (d : List (BitVec 64)) : (dataBytes d).length = 8 * d.length := by
  induction d with
  | nil => rfl
  | cons x xs ih =>
    simp only [dataBytes, List.flatMap_cons, List.length_append, leBytes_length, List.length_cons] at *
    omega

theorem words_dataBytes (d : List (BitVec 64)) : words (dataBytes d) = d := by
  induction d with
  | nil => rfl
  | cons x xs ih =>
    have h1 : dataBytes (x :: xs) = leBytes 8 x.toNat ++ dataBytes xs := by simp [dataBytes]
    have h2 : leNat (leBytes 8 x.toNat) = x.toNat := by
      apply leNat_leBytes
      have := x.isLt
      have p : (256 : Nat) ^ 8 = 2 ^ 64 := by decide
      rw [p]; exact this
    have h3 : ∃ b0 b1 b2 b3 b4 b5 b6 b7, leBytes 8 x.toNat = [b0, b1, b2, b3, b4, b5, b6, b7] := by
      simp [leBytes]
    obtain ⟨b0, b1, b2, b3, b4, b5, b6, b7, hb⟩ := h3
    rw [h1, hb]
    simp only [List.cons_append, List.nil_append, words]
    rw [ih, ← hb, h2]
    simp

theorem words_length (n : Nat) : ∀ (bs : List Byte), bs.length = 8 * n → (words bs).length = n := by
  induction n with
  | zero => intro bs h; have : bs = [] := by simpa using h
            subst this; rfl
  | succ n ih =>
    intro bs h
    match bs, h with
    | b0 :: b1 :: b2 :: b3 :: b4 :: b5 :: b6 :: b7 :: rest, h =>
      simp only [words, List.length_cons]
      rw [ih rest (by simp only [List.length_cons] at h; omega)]
    | [], h => simp at h
    | [_], h => simp at h; omega
    | [_, _], h => simp at h; omega
    | [_, _, _], h => simp at h; omega
    | [_, _, _, _], h => simp at h; omega
    | [_, _, _, _, _], h => simp at h; omega
    | [_, _, _, _, _, _], h => simp at h; omega
    | [_, _, _, _, _, _, _], h => simp at h; omega

theorem readBytes_append (xs rest : List Byte) : readBytes xs.length (xs ++ rest) = some (xs, rest) := by
  simp [readBytes]

theorem readBytes_append' (n : Nat) (xs rest : List Byte) (h : xs.length = n) :
    readBytes n (xs ++ rest) = some (xs, rest) := by
  subst h; exact readBytes_append xs rest

/-! ## names in files -/

theorem alpha_props {b : Byte} (h : (isAlnum b || b == underscore) = true) :
    isSpace b = false ∧ (b != 0) = true := by
  have hx : b.toNat = 95 ∨ (65 ≤ b.toNat ∧ b.toNat ≤ 90) ∨ (97 ≤ b.toNat ∧ b.toNat ≤ 122) ∨
      (48 ≤ b.toNat ∧ b.toNat ≤ 57) := by
    simp only [isAlnum, isAlpha, Bool.or_eq_true, Bool.and_eq_true, decide_eq_true_eq, beq_iff_eq] at h
    rcases h with (⟨h | h⟩ | h) | h
    · right; left; exact h
    · right; right; left; exact h
    · right; right; right; exact h
    · left; rw [h]; rfl
  constructor
  · simp only [isSpace, Bool.or_eq_false_iff, beq_eq_false_iff_ne, Bool.and_eq_false_iff,
      decide_eq_false_iff_not]
    omega
  · simp only [bne_iff_ne, ne_eq]
    rintro rfl
    simp at hx

theorem valid_chars {n : Name} (h : validateName n = true) :
    n.length ≤ 32 ∧ n ≠ [] ∧ ∀ b ∈ n, isSpace b = false ∧ (b != 0) = true := by
  unfold validateName at h
  split at h
  · cases h
  · rename_i hl
    simp only [fixedNameSize, gt_iff_lt, Bool.or_eq_true, decide_eq_true_eq, beq_iff_eq, not_or] at hl
    refine ⟨by omega, ?_, ?_⟩
    · rintro rfl; simp at hl
    · intro b hb
      apply alpha_props
      cases n with
      | nil => simp at hb
      | cons c cs =>
        simp only [Bool.and_eq_true, List.all_eq_true] at h
        rcases List.mem_cons.1 hb with e | e
        · rw [e]; simp [isAlnum, h.1]
        · exact h.2 b e

theorem dropWhile_none {p : Byte → Bool} {l : List Byte} (h : ∀ b, l.head? = some b → p b = false) :
    l.dropWhile p = l := by
  cases l with
  | nil => rfl
  | cons x xs => simp [h x (by simp)]

theorem takeWhile_all {p : Byte → Bool} {l : List Byte} (h : ∀ b ∈ l, p b = true) :
    l.takeWhile p = l := by
  induction l with
  | nil => rfl
  | cons x xs ih =>
    rw [List.takeWhile_cons, if_pos (h x (by simp)), ih fun b hb => h b (by simp [hb])]

theorem dropWhile_replicate (p : Byte → Bool) (b : Byte) (k : Nat) (l : List Byte) (hb : p b = true) :
    (List.replicate k b ++ l).dropWhile p = l.dropWhile p := by
  induction k with
  | zero => simp
  | succ k ih => simp [List.replicate_succ, hb, ih]

theorem paddedName_length {n : Name} (h : n.length ≤ 32) : (paddedName n).length = 32 := by
  simp [paddedName, fixedNameSize]; omega

theorem decode_padded {n : Name} (h : validateName n = true) : decodeName (paddedName n) = n := by
  obtain ⟨hl, hne, hc⟩ := valid_chars h
  unfold decodeName
  have ht : (paddedName n).takeWhile (fun b => b != 0) = paddedName n := by
    apply takeWhile_all
    intro b hb
    simp only [paddedName, List.mem_append, List.mem_replicate] at hb
    rcases hb with ⟨_, hb⟩ | hb
    · rw [hb]; decide
    · exact (hc b hb).2
  rw [ht]
  unfold trim paddedName
  rw [dropWhile_replicate _ _ _ _ (by decide)]
  rw [dropWhile_none (l := n)]
  · rw [dropWhile_none, List.reverse_reverse]
    intro b hb
    exact (hc b (by rw [List.head?_reverse] at hb; exact List.mem_of_getLast? hb)).1
  · intro b hb
    exact (hc b (List.mem_of_head? hb)).1

/-! ## blocks -/

/-- block sizes fit the 32-bit header fields -/
def Mat.Fits (m : Mat) : Prop := m.WF ∧ m.rows < 2 ^ 32 ∧ m.cols < 2 ^ 32 ∧ m.rows * m.cols * 8 < 2 ^ 32

theorem read_matrix_block {n : Name} {m : Mat} (hn : validateName n = true) (hm : m.Fits)
    (rest : List Byte) :
    (writeMatrixBlock n m).res = .ok ∧
    readBlock ((writeMatrixBlock n m).bytes ++ rest) = .block n (.matrix m) rest := by
  obtain ⟨hwf, hr, hc, hs⟩ := hm
  unfold Mat.WF at hwf
  have hl := (valid_chars hn).1
  refine ⟨by simp [writeMatrixBlock, hn], ?_⟩
  have e1 : m.rows % 2 ^ 32 = m.rows := Nat.mod_eq_of_lt hr
  have e2 : m.cols % 2 ^ 32 = m.cols := Nat.mod_eq_of_lt hc
  have hrc : m.rows * m.cols < 2 ^ 32 := by omega
  have e3 : m.rows * m.cols % 2 ^ 32 = m.rows * m.cols := Nat.mod_eq_of_lt hrc
  have e4 : m.rows * m.cols * 8 % 2 ^ 32 = m.rows * m.cols * 8 := Nat.mod_eq_of_lt hs
  have ht : (dataBytes m.data).take (m.rows * m.cols * 8) = dataBytes m.data := by
    apply List.take_of_length_le
    rw [dataBytes_length, hwf]; omega
  simp only [writeMatrixBlock, hn, if_true, e1, e2, e3, e4, ht]
  rw [show ∀ l : List Byte, magicMatrix :: l = [magicMatrix] ++ l from fun _ => rfl]
  simp only [List.append_assoc]
  unfold readBlock
  rw [readBytes_append' 1 [magicMatrix] _ rfl]
  simp only
  rw [if_neg (by decide), if_pos trivial]
  rw [readBytes_append' fixedNameSize (paddedName n) _ (paddedName_length hl)]
  simp only [decode_padded hn]
  unfold readMatrix
  rw [readBytes_append' 4 (leBytes 4 m.rows) _ (leBytes_length _ _)]
  simp only
  rw [readBytes_append' 4 (leBytes 4 m.cols) _ (leBytes_length _ _)]
  simp only
  rw [leNat_leBytes 4 m.rows (by omega), leNat_leBytes 4 m.cols (by omega), if_pos hrc, e3]
  rw [readBytes_append' (m.rows * m.cols * 8) (dataBytes m.data) _
    (by rw [dataBytes_length, hwf]; omega)]
  simp only [words_dataBytes]
  unfold readEnd
  rw [readBytes_append' 1 [magicEnd] rest rfl]
  simp

theorem read_string_block {n : Name} {s : List Byte} (hn : validateName n = true)
    (hs : s.length < 2 ^ 32) (rest : List Byte) :
    (writeStringBlock n s).res = .ok ∧
    readBlock ((writeStringBlock n s).bytes ++ rest) = .block n (.string s) rest := by
  have hl := (valid_chars hn).1
  refine ⟨by simp [writeStringBlock, hn], ?_⟩
  have e1 : s.length % 2 ^ 32 = s.length := Nat.mod_eq_of_lt hs
  simp only [writeStringBlock, hn, if_true, e1, List.take_length]
  rw [show ∀ l : List Byte, magicString :: l = [magicString] ++ l from fun _ => rfl]
  simp only [List.append_assoc]
  unfold readBlock
  rw [readBytes_append' 1 [magicString] _ rfl]
  simp only [if_true]
  rw [readBytes_append' fixedNameSize (paddedName n) _ (paddedName_length hl)]
  simp only [decode_padded hn]
  unfold readString
  rw [readBytes_append' 4 (leBytes 4 s.length) _ (leBytes_length _ _)]
  simp only
  rw [leNat_leBytes 4 s.length (by omega), readBytes_append' s.length s _ rfl]
  simp only
  unfold readEnd
  rw [readBytes_append' 1 [magicEnd] rest rfl]
  simp

/-! ## the load loop -/

theorem readBytes_some {n : Nat} {bs x rest : List Byte} (h : readBytes n bs = some (x, rest)) :
    n ≤ bs.length ∧ x = bs.take n ∧ rest = bs.drop n := by
  unfold readBytes at h
  split at h
  · simp at h; exact ⟨by assumption, h.1.symm, h.2.symm⟩
  · cases h

theorem readEnd_rest {n n' : Name} {b b' : Block} {bs rest : List Byte}
    (h : readEnd n b bs = .block n' b' rest) : n' = n ∧ b' = b ∧ rest.length < bs.length := by
  unfold readEnd at h
  split at h
  · cases h
  · rename_i e r hr
    obtain ⟨h1, h2, h3⟩ := readBytes_some hr
    split at h
    · simp at h
      obtain ⟨rfl, rfl, rfl⟩ := h
      refine ⟨rfl, rfl, ?_⟩
      rw [h3]; simp; omega
    · cases h

theorem readMatrix_rest {n n' : Name} {b' : Block} {bs rest : List Byte}
    (h : readMatrix n bs = .block n' b' rest) :
    n' = n ∧ (∃ m : Mat, b' = .matrix m ∧ m.WF) ∧ rest.length < bs.length := by
  unfold readMatrix at h
  split at h
  · cases h
  · rename_i r bs1 h1
    split at h
    · cases h
    · rename_i c bs2 h2
      simp only at h
      split at h
      · rename_i hlt
        split at h
        · cases h
        · rename_i d bs3 h3
          obtain ⟨g1, g2, g3⟩ := readEnd_rest h
          obtain ⟨a1, a2, a3⟩ := readBytes_some h1
          obtain ⟨b1, b2, b3⟩ := readBytes_some h2
          obtain ⟨c1, c2, c3⟩ := readBytes_some h3
          refine ⟨g1, ⟨_, g2, ?_⟩, ?_⟩
          · unfold Mat.WF
            simp only
            apply words_length
            rw [c2, List.length_take]
            rw [Nat.mod_eq_of_lt hlt] at c1 ⊢
            omega
          · rw [c3] at g3
            rw [a3] at b3
            rw [b3] at g3
            simp only [List.length_drop] at g3
            omega
      · cases h

theorem readString_rest {n n' : Name} {b' : Block} {bs rest : List Byte}
    (h : readString n bs = .block n' b' rest) :
    n' = n ∧ (∃ s, b' = .string s) ∧ rest.length < bs.length := by
  unfold readString at h
  split at h
  · cases h
  · rename_i l bs1 h1
    split at h
    · cases h
    · rename_i s bs2 h2
      obtain ⟨g1, g2, g3⟩ := readEnd_rest h
      obtain ⟨a1, a2, a3⟩ := readBytes_some h1
      obtain ⟨b1, b2, b3⟩ := readBytes_some h2
      refine ⟨g1, ⟨_, g2⟩, ?_⟩
      rw [b3, a3] at g3
      simp only [List.length_drop] at g3
      omega

theorem readBlock_rest {bs : List Byte} {n : Name} {b : Block} {rest : List Byte}
    (h : readBlock bs = .block n b rest) :
    rest.length < bs.length ∧ (∀ m, b = .matrix m → m.WF) := by
  unfold readBlock at h
  split at h
  · cases h
  · rename_i st bs1 h1
    obtain ⟨a1, a2, a3⟩ := readBytes_some h1
    split at h
    · split at h
      · cases h
      · rename_i nb bs2 h2
        obtain ⟨b1, b2, b3⟩ := readBytes_some h2
        obtain ⟨_, ⟨s, hs⟩, hl⟩ := readString_rest h
        refine ⟨?_, ?_⟩
        · rw [b3, a3] at hl; simp only [List.length_drop] at hl; omega
        · intro m hm; rw [hs] at hm; cases hm
    · split at h
      · split at h
        · cases h
        · rename_i nb bs2 h2
          obtain ⟨b1, b2, b3⟩ := readBytes_some h2
          obtain ⟨_, ⟨m', hm', hwf⟩, hl⟩ := readMatrix_rest h
          refine ⟨?_, ?_⟩
          · rw [b3, a3] at hl; simp only [List.length_drop] at hl; omega
          · intro m hm; rw [hm'] at hm; cases hm; exact hwf
      · cases h

/-- enough fuel is enough -/
theorem loadLoop_fuel (G : List Name) : ∀ (k fuel : Nat) (a : Archive) (bs : List Byte),
    bs.length ≤ k → k ≤ fuel → loadLoop G fuel a bs = loadLoop G k a bs := by
  intro k
  induction k with
  | zero =>
    intro fuel a bs h _
    have : bs = [] := by simpa using h
    subst this
    cases fuel <;> rfl
  | succ k ih =>
    intro fuel a bs h hf
    cases bs with
    | nil => cases fuel <;> rfl
    | cons b bs =>
      obtain ⟨f, rfl⟩ : ∃ f, fuel = f + 1 := ⟨fuel - 1, by omega⟩
      simp only [loadLoop]
      cases hb : readBlock (b :: bs) with
      | ub => rfl
      | threw => rfl
      | block n blk rest =>
        have hl := (readBlock_rest hb).1
        simp only [List.length_cons] at h hl
        simp only
        rw [ih f (store a n blk) rest (by omega) (by omega), ih f a rest (by omega) (by omega)]

/-- the effect of one well-formed block at the front of the file -/
theorem load_block {G : List Name} {a : Archive} {bs rest : List Byte} {n : Name} {blk : Block}
    (hne : bs ≠ []) (h : readBlock bs = .block n blk rest) (hv : validateName n = true) :
    load a G bs = load (if selected G n then store a n blk else a) G rest := by
  have hl := (readBlock_rest h).1
  unfold load
  cases bs with
  | nil => exact absurd rfl hne
  | cons b bs =>
    simp only [List.length_cons, loadLoop, h, hv, if_true]
    simp only [List.length_cons] at hl
    rw [loadLoop_fuel G rest.length bs.length (store a n blk) rest (Nat.le_refl _) (by omega),
      loadLoop_fuel G rest.length bs.length a rest (Nat.le_refl _) (by omega)]
    split <;> rfl

/-- what loading a sequence of entries does to the archive -/
def storeAll {V : Type} (mk : V → Block) (F G : List Name) : Archive → Map V → Archive
  | a, [] => a
  | a, (n, v) :: rest =>
    storeAll mk F G (if selected F n && selected G n then store a n (mk v) else a) rest

theorem load_writeAll {V : Type} (w : Name → V → Written) (mk : V → Block) (ok : V → Prop)
    (hw : ∀ n v rest, validateName n = true → ok v →
      (w n v).res = .ok ∧ (w n v).bytes ≠ [] ∧ readBlock ((w n v).bytes ++ rest) = .block n (mk v) rest)
    (F G : List Name) (m : Map V) (hm : ∀ p ∈ m, selected F p.1 = true → validateName p.1 = true ∧ ok p.2)
    (a : Archive) (rest : List Byte) :
    (writeAll w F m).res = .ok ∧
    load a G ((writeAll w F m).bytes ++ rest) = load (storeAll mk F G a m) G rest := by
  induction m generalizing a with
  | nil => exact ⟨rfl, rfl⟩
  | cons p ps ih =>
    obtain ⟨n, v⟩ := p
    have ih := fun a => ih (fun q hq => hm q (List.mem_cons_of_mem _ hq)) a
    simp only [writeAll, storeAll]
    cases hsel : selected F n with
    | false => simpa using ih a
    | true =>
      obtain ⟨hv, hok⟩ := hm (n, v) (by simp) hsel
      obtain ⟨h1, h2, h3⟩ := hw n v ((writeAll w F ps).bytes ++ rest) hv hok
      simp only [if_true, Bool.true_and]
      cases hwr : w n v with
      | mk bs res =>
        rw [hwr] at h1 h2 h3
        simp only at h1 h2 h3
        subst h1
        simp only [List.append_assoc]
        refine ⟨(ih a).1, ?_⟩
        rw [load_block (by simp [h2]) h3 hv]
        exact (ih _).2

theorem storeAll_matrix (F G : List Name) (m : Map Mat) (hs : Sorted m) (a : Archive) :
    (storeAll .matrix F G a m).strings = a.strings ∧
    (Sorted a.values → Sorted (storeAll .matrix F G a m).values) ∧
    ∀ n, lookup (storeAll .matrix F G a m).values n =
      if selected F n && selected G n then (lookup m n).or (lookup a.values n)
      else lookup a.values n := by
  induction m generalizing a with
  | nil =>
    refine ⟨rfl, fun h => h, ?_⟩
    intro n
    simp [storeAll, lookup]
  | cons p ps ih =>
    obtain ⟨n', v⟩ := p
    rw [Sorted, List.pairwise_cons] at hs
    obtain ⟨i1, i2, i3⟩ := ih hs.2 (if selected F n' && selected G n' then store a n' (.matrix v) else a)
    simp only [storeAll]
    refine ⟨?_, ?_, ?_⟩
    · rw [i1]; split <;> rfl
    · intro h
      apply i2
      split
      · exact sorted_insert h n' v
      · exact h
    · intro n
      rw [i3 n]
      simp only [lookup]
      by_cases hn : n = n'
      · subst hn
        have hnone : lookup ps n = none := lookup_none_of_lt fun q hq => hs.1 q hq
        cases hsel : (selected F n && selected G n) with
        | true => simp [hnone, store, lookup_insert]
        | false => simp
      · simp only [if_neg hn]
        have : lookup (if selected F n' && selected G n' then store a n' (.matrix v) else a).values n
            = lookup a.values n := by
          split
          · simp [store, lookup_insert, hn]
          · rfl
        rw [this]

theorem storeAll_string (F G : List Name) (m : Map (List Byte)) (hs : Sorted m) (a : Archive) :
    (storeAll .string F G a m).values = a.values ∧
    (Sorted a.strings → Sorted (storeAll .string F G a m).strings) ∧
    ∀ n, lookup (storeAll .string F G a m).strings n =
      if selected F n && selected G n then (lookup m n).or (lookup a.strings n)
      else lookup a.strings n := by
  induction m generalizing a with
  | nil =>
    refine ⟨rfl, fun h => h, ?_⟩
    intro n
    simp [storeAll, lookup]
  | cons p ps ih =>
    obtain ⟨n', v⟩ := p
    rw [Sorted, List.pairwise_cons] at hs
    obtain ⟨i1, i2, i3⟩ := ih hs.2 (if selected F n' && selected G n' then store a n' (.string v) else a)
    simp only [storeAll]
    refine ⟨?_, ?_, ?_⟩
    · rw [i1]; split <;> rfl
    · intro h
      apply i2
      split
      · exact sorted_insert h n' v
      · exact h
    · intro n
      rw [i3 n]
      simp only [lookup]
      by_cases hn : n = n'
      · subst hn
        have hnone : lookup ps n = none := lookup_none_of_lt fun q hq => hs.1 q hq
        cases hsel : (selected F n && selected G n) with
        | true => simp [hnone, store, lookup_insert]
        | false => simp
      · simp only [if_neg hn]
        have : lookup (if selected F n' && selected G n' then store a n' (.string v) else a).strings n
            = lookup a.strings n := by
          split
          · simp [store, lookup_insert, hn]
          · rfl
        rw [this]

/-! ## truncated files -/

theorem readBytes_take (n k : Nat) (bs : List Byte) (hk : k ≤ bs.length) :
    readBytes n (bs.take k) =
      if n ≤ k then some (bs.take n, (bs.drop n).take (k - n)) else none := by
  unfold readBytes
  have hl : (bs.take k).length = k := by simp; omega
  rw [hl]
  split
  · rw [List.take_take, List.drop_take, Nat.min_eq_left (by assumption)]
  · rfl

theorem readEnd_take {n n' : Name} {b b' : Block} {bs rest : List Byte} {k : Nat}
    (h : readEnd n b bs = .block n' b' rest) (hk : k + rest.length < bs.length) :
    readEnd n b (bs.take k) = .ub := by
  unfold readEnd at h ⊢
  split at h
  · cases h
  · rename_i e r hr
    obtain ⟨h1, h2, h3⟩ := readBytes_some hr
    split at h
    · simp at h
      obtain ⟨_, _, rfl⟩ := h
      rw [readBytes_take _ _ _ (by omega), if_neg]
      rw [h3, List.length_drop] at hk
      omega
    · cases h

theorem readMatrix_take {n n' : Name} {b' : Block} {bs rest : List Byte} {k : Nat}
    (h : readMatrix n bs = .block n' b' rest) (hk : k + rest.length < bs.length) :
    readMatrix n (bs.take k) = .ub := by
  unfold readMatrix at h ⊢
  split at h
  · cases h
  · rename_i r bs1 h1
    split at h
    · cases h
    · rename_i c bs2 h2
      simp only at h
      split at h
      · rename_i hlt
        split at h
        · cases h
        · rename_i d bs3 h3
          obtain ⟨a1, a2, a3⟩ := readBytes_some h1
          obtain ⟨b1, b2, b3⟩ := readBytes_some h2
          obtain ⟨c1, c2, c3⟩ := readBytes_some h3
          rw [readBytes_take _ _ _ (by omega)]
          by_cases hk1 : 4 ≤ k
          · rw [if_pos hk1]
            simp only
            rw [← a2, ← a3, readBytes_take _ _ _ (by rw [a3, List.length_drop]; omega)]
            by_cases hk2 : 4 ≤ k - 4
            · rw [if_pos hk2]
              simp only
              rw [← b2, ← b3, if_pos hlt]
              have hl2 : bs2.length = bs.length - 8 := by
                rw [b3, a3]; simp only [List.length_drop]; omega
              rw [readBytes_take _ _ _ (by omega)]
              by_cases hk3 : leNat r * leNat c % 2 ^ 32 * 8 ≤ k - 4 - 4
              · rw [if_pos hk3]
                simp only
                rw [← c2, ← c3]
                apply readEnd_take h
                rw [c3, List.length_drop]
                omega
              · rw [if_neg hk3]
            · rw [if_neg hk2]
          · rw [if_neg hk1]
      · cases h

theorem readString_take {n n' : Name} {b' : Block} {bs rest : List Byte} {k : Nat}
    (h : readString n bs = .block n' b' rest) (hk : k + rest.length < bs.length) :
    readString n (bs.take k) = .ub := by
  unfold readString at h ⊢
  split at h
  · cases h
  · rename_i r bs1 h1
    split at h
    · cases h
    · rename_i d bs3 h3
      obtain ⟨a1, a2, a3⟩ := readBytes_some h1
      obtain ⟨c1, c2, c3⟩ := readBytes_some h3
      have hl : bs1.length = bs.length - 4 := by rw [a3, List.length_drop]
      rw [readBytes_take _ _ _ (by omega)]
      by_cases hk1 : 4 ≤ k
      · rw [if_pos hk1]
        simp only
        rw [← a2, ← a3, readBytes_take _ _ _ (by omega)]
        by_cases hk3 : leNat r ≤ k - 4
        · rw [if_pos hk3]
          simp only
          rw [← c2, ← c3]
          apply readEnd_take h
          rw [c3, List.length_drop]
          omega
        · rw [if_neg hk3]
      · rw [if_neg hk1]

theorem readBlock_take {n : Name} {b : Block} {bs rest : List Byte} {k : Nat}
    (h : readBlock bs = .block n b rest) (hk : k + rest.length < bs.length) :
    readBlock (bs.take k) = .ub := by
  unfold readBlock at h ⊢
  split at h
  · cases h
  · rename_i st bs1 h1
    obtain ⟨a1, a2, a3⟩ := readBytes_some h1
    have hl1 : bs1.length = bs.length - 1 := by rw [a3, List.length_drop]
    rw [readBytes_take _ _ _ (by omega)]
    by_cases hk1 : 1 ≤ k
    · rw [if_pos hk1]
      simp only
      rw [← a2, ← a3]
      split at h
      · rename_i hst
        rw [if_pos hst]
        split at h
        · cases h
        · rename_i nb bs2 h2
          obtain ⟨b1, b2, b3⟩ := readBytes_some h2
          rw [readBytes_take _ _ _ (by omega)]
          by_cases hk2 : fixedNameSize ≤ k - 1
          · rw [if_pos hk2]
            simp only
            rw [← b2, ← b3]
            apply readString_take h
            rw [b3, List.length_drop]; omega
          · rw [if_neg hk2]
      · rename_i hst
        rw [if_neg hst]
        split at h
        · rename_i hst2
          rw [if_pos hst2]
          split at h
          · cases h
          · rename_i nb bs2 h2
            obtain ⟨b1, b2, b3⟩ := readBytes_some h2
            rw [readBytes_take _ _ _ (by omega)]
            by_cases hk2 : fixedNameSize ≤ k - 1
            · rw [if_pos hk2]
              simp only
              rw [← b2, ← b3]
              apply readMatrix_take h
              rw [b3, List.length_drop]; omega
            · rw [if_neg hk2]
        · cases h
    · rw [if_neg hk1]

end Verif.Archive
