import Verif.Common.HashIdSpec

/-!
# Helper lemmas for C10-C12
-/

namespace Verif.HashId

theorem digitVal_lt {c : Char} {d : Nat} (h : digitVal c = some d) : d < 16 := by
  unfold digitVal at h
  simp only [Char.reduceToNat] at h
  split at h
  · simp at h; omega
  · split at h
    · simp at h; omega
    · split at h
      · simp at h; omega
      · simp at h

theorem digit_not_space {c : Char} (h : isHexDigit c = true) : isSpace c = false := by
  unfold isHexDigit digitVal at h
  simp only [Char.reduceToNat] at h
  unfold isSpace
  split at h
  · simp; omega
  · split at h
    · simp; omega
    · split at h
      · simp; omega
      · simp at h

theorem stripSign_digit {c : Char} {cs : List Char} (h : isHexDigit c = true) :
    stripSign (c :: cs) = (false, c :: cs) := by
  unfold stripSign
  split
  · rename_i heq; simp only [List.cons.injEq] at heq; rw [heq.1] at h; exact absurd h (by decide)
  · rename_i heq; simp only [List.cons.injEq] at heq; rw [heq.1] at h; exact absurd h (by decide)
  · rfl

theorem stripSign_other {c : Char} {cs : List Char} (h1 : c ≠ '-') (h2 : c ≠ '+') :
    stripSign (c :: cs) = (false, c :: cs) := by
  unfold stripSign
  split
  · rename_i heq; simp only [List.cons.injEq] at heq; exact absurd heq.1 h1
  · rename_i heq; simp only [List.cons.injEq] at heq; exact absurd heq.1 h2
  · rfl

theorem stripPrefix_two (c1 c2 : Char) : stripPrefix [c1, c2] = [c1, c2] := by
  unfold stripPrefix
  split
  · rename_i heq; simp at heq
  · rename_i heq; simp at heq
  · rfl

theorem stripPrefix_one (c : Char) : stripPrefix [c] = [c] := by
  unfold stripPrefix
  split
  · rename_i heq; simp at heq
  · rename_i heq; simp at heq
  · rfl

theorem isHexDigit_iff (c : Char) : isHexDigit c = true ↔ ∃ d, digitVal c = some d := by
  unfold isHexDigit; exact Option.isSome_iff_exists

theorem stoul16_pair (c1 c2 : Char) :
    (stoul16 [c1, c2]).map (· % 256) = pairByte c1 c2 := by
  have hsp : ∀ c, isSpace c = true → digitVal c = none := by
    intro c hc
    cases hd : digitVal c with
    | none => rfl
    | some d =>
      have := digit_not_space ((isHexDigit_iff c).2 ⟨d, hd⟩)
      rw [hc] at this; simp at this
  cases h1 : digitVal c1 with
  | some a =>
    have hx : isHexDigit c1 = true := (isHexDigit_iff c1).2 ⟨a, h1⟩
    have ha := digitVal_lt h1
    unfold stoul16
    simp only [List.dropWhile, digit_not_space hx, stripSign_digit hx, stripPrefix_two, hx]
    cases h2 : digitVal c2 with
    | some b =>
      have hb := digitVal_lt h2
      simp only [digits, h1, h2, pairByte]
      simp
      omega
    | none =>
      simp only [digits, h1, h2, pairByte]
      simp
      omega
  | none =>
    have hx : isHexDigit c1 = false := by simp [isHexDigit, h1]
    by_cases hs : isSpace c1 = true
    · -- leading white space
      have hne : c1 ≠ '-' := by rintro rfl; revert hs; decide
      cases h2 : digitVal c2 with
      | some b =>
        have hx2 : isHexDigit c2 = true := (isHexDigit_iff c2).2 ⟨b, h2⟩
        have hb := digitVal_lt h2
        unfold stoul16
        simp only [List.dropWhile, hs, digit_not_space hx2, stripSign_digit hx2, stripPrefix_one, hx2,
          digits, h2, pairByte, h1, hne]
        simp
        omega
      | none =>
        have hx2 : isHexDigit c2 = false := by simp [isHexDigit, h2]
        unfold stoul16
        simp only [pairByte, h1, h2]
        simp only [List.dropWhile, hs]
        by_cases hs2 : isSpace c2 = true
        · simp [hs2, stripSign, stripPrefix]
        · simp only [hs2]
          by_cases hm : c2 = '-'
          · subst hm; simp [stripSign, stripPrefix]
          · by_cases hp : c2 = '+'
            · subst hp; simp [stripSign, stripPrefix]
            · simp [stripSign_other hm hp, stripPrefix_one, hx2]
    · have hs' : isSpace c1 = false := by simpa using hs
      by_cases hm : c1 = '-'
      · subst hm
        unfold stoul16
        simp only [List.dropWhile, hs', stripSign, stripPrefix_one, pairByte, h1]
        cases h2 : digitVal c2 with
        | some b =>
          have hx2 : isHexDigit c2 = true := (isHexDigit_iff c2).2 ⟨b, h2⟩
          have hb := digitVal_lt h2
          simp only [hx2, digits, h2]
          simp
          omega
        | none =>
          have hx2 : isHexDigit c2 = false := by simp [isHexDigit, h2]
          simp [hx2]
      · by_cases hp : c1 = '+'
        · subst hp
          unfold stoul16
          simp only [List.dropWhile, hs', stripSign, stripPrefix_one, pairByte, h1]
          cases h2 : digitVal c2 with
          | some b =>
            have hx2 : isHexDigit c2 = true := (isHexDigit_iff c2).2 ⟨b, h2⟩
            have hb := digitVal_lt h2
            simp only [hx2, digits, h2]
            simp
            omega
          | none =>
            have hx2 : isHexDigit c2 = false := by simp [isHexDigit, h2]
            simp [hx2]
        · unfold stoul16
          simp only [List.dropWhile, hs', stripSign_other hm hp, stripPrefix_two, hx]
          cases h2 : digitVal c2 <;> simp [pairByte, h1, h2, hm, hp, hs']

theorem pairByte_hex {c1 c2 : Char} (h1 : isHexDigit c1 = true) (h2 : isHexDigit c2 = true) :
    pairByte c1 c2 = some (twoDigits c1 c2) := by
  obtain ⟨a, ha⟩ := (isHexDigit_iff c1).1 h1
  obtain ⟨b, hb⟩ := (isHexDigit_iff c2).1 h2
  simp [pairByte, twoDigits, ha, hb]

theorem ext_bytes {a b : HashId} (h : a.bytes = b.bytes) : a = b := by
  cases a; cases b; simp_all

/-- If every remaining pair parses, the loop returns `true` with exactly those bytes written. -/
theorem hexLoop_ok (s : List Char) (v : Nat → Nat) (n i : Nat) (h : HashId) (hn : i + n ≤ 16)
    (hv : ∀ k, i ≤ k → k < i + n → stoul16 ((s.drop (2 * k)).take 2) = some (v k)) :
    ∃ h', hexLoop s n i h = .returned true h' ∧
      ∀ k, k < 16 → h'.bytes[k]? =
        if i ≤ k ∧ k < i + n then some (BitVec.ofNat 8 (v k)) else h.bytes[k]? := by
  induction n generalizing i h with
  | zero =>
    refine ⟨h, rfl, ?_⟩
    intro k _
    rw [if_neg (by omega)]
  | succ n ih =>
    have hi := hv i (Nat.le_refl _) (by omega)
    obtain ⟨h', e, hb⟩ := ih (i + 1) (setByte h i (BitVec.ofNat 8 (v i))) (by omega)
      (fun k h1 h2 => hv k (by omega) (by omega))
    refine ⟨h', ?_, ?_⟩
    · simp only [hexLoop, hi]; exact e
    · intro k hk
      rw [hb k hk]
      by_cases hki : k = i
      · subst hki
        rw [if_neg (by omega), if_pos (by omega)]
        simp only [setByte]
        rw [List.getElem?_set]
        simp [h.size_eq, hk]
      · by_cases hc : i + 1 ≤ k ∧ k < i + 1 + n
        · rw [if_pos hc, if_pos (by omega)]
        · rw [if_neg hc, if_neg (by omega)]
          simp only [setByte]
          rw [List.getElem?_set]
          simp [Ne.symm hki]

/-- If the first failing pair is the `j`-th one, the loop throws with the first `j` bytes
already overwritten. -/
theorem hexLoop_threw (s : List Char) (v : Nat → Nat) (j n i : Nat) (h : HashId) (hn : i + n ≤ 16)
    (hij : i ≤ j) (hj : j < i + n)
    (hv : ∀ k, i ≤ k → k < j → stoul16 ((s.drop (2 * k)).take 2) = some (v k))
    (hf : stoul16 ((s.drop (2 * j)).take 2) = none) :
    ∃ h', hexLoop s n i h = .threw h' ∧
      ∀ k, k < 16 → h'.bytes[k]? =
        if i ≤ k ∧ k < j then some (BitVec.ofNat 8 (v k)) else h.bytes[k]? := by
  induction n generalizing i h with
  | zero => omega
  | succ n ih =>
    by_cases hij' : i = j
    · subst hij'
      refine ⟨h, by simp [hexLoop, hf], ?_⟩
      intro k _
      rw [if_neg (by omega)]
    · have hi := hv i (Nat.le_refl _) (by omega)
      obtain ⟨h', e, hb⟩ := ih (i + 1) (setByte h i (BitVec.ofNat 8 (v i))) (by omega)
        (by omega) (by omega) (fun k h1 h2 => hv k (by omega) (by omega))
      refine ⟨h', ?_, ?_⟩
      · simp only [hexLoop, hi]; exact e
      · intro k hk
        rw [hb k hk]
        by_cases hki : k = i
        · subst hki
          rw [if_neg (by omega), if_pos (by omega)]
          simp only [setByte]
          rw [List.getElem?_set]
          simp [h.size_eq, hk]
        · by_cases hc : i + 1 ≤ k ∧ k < j
          · rw [if_pos hc, if_pos (by omega)]
          · rw [if_neg hc, if_neg (by omega)]
            simp only [setByte]
            rw [List.getElem?_set]
            simp [Ne.symm hki]

theorem take2_drop (s : List Char) (k : Nat) (c1 c2 : Char)
    (h1 : s[2 * k]? = some c1) (h2 : s[2 * k + 1]? = some c2) :
    (s.drop (2 * k)).take 2 = [c1, c2] := by
  obtain ⟨l1, e1⟩ := List.getElem?_eq_some_iff.1 h1
  obtain ⟨l2, e2⟩ := List.getElem?_eq_some_iff.1 h2
  rw [List.drop_eq_getElem_cons l1, List.drop_eq_getElem_cons l2]
  simp [e1, e2]

theorem nibble_hex (n : Nat) (h : n < 16) :
    digitVal (kHexConversion[n]?.getD '?') = some n := by
  have : ∀ n : Fin 16, digitVal (kHexConversion[n.val]?.getD '?') = some n.val := by decide
  exact this ⟨n, h⟩

/-- the two characters of byte `k` of `hexString` -/
theorem hexString_pair (bs : List (BitVec 8)) (k : Nat) (b : BitVec 8) (hb : bs[k]? = some b)
    (f g : BitVec 8 → Char) :
    (bs.flatMap fun b => [f b, g b])[2 * k]? = some (f b) ∧
    (bs.flatMap fun b => [f b, g b])[2 * k + 1]? = some (g b) := by
  induction bs generalizing k with
  | nil => simp at hb
  | cons x xs ih =>
    cases k with
    | zero => simp at hb; subst hb; simp
    | succ k =>
      simp only [List.getElem?_cons_succ] at hb
      have := ih k hb
      simp only [List.flatMap_cons]
      have e1 : 2 * (k + 1) = (2 * k) + 1 + 1 := by omega
      rw [e1]
      simpa using this

theorem hexString_length (h : HashId) : (hexString h).length = 32 := by
  unfold hexString
  rw [List.length_flatMap]
  have : ∀ bs : List (BitVec 8), (bs.map fun _ => 2).sum = 2 * bs.length := by
    intro bs; induction bs with
    | nil => rfl
    | cons _ _ ih => simp only [List.map_cons, List.sum_cons, ih, List.length_cons]; omega
  simpa [h.size_eq] using this h.bytes

theorem shr4_toNat (b : BitVec 8) : (b >>> 4).toNat = b.toNat / 16 := by
  simp [BitVec.toNat_ushiftRight, Nat.shiftRight_eq_div_pow]

theorem and15_toNat (b : BitVec 8) : (b &&& 0xf).toNat = b.toNat % 16 := by
  simp only [BitVec.toNat_and, BitVec.toNat_ofNat]
  exact Nat.and_two_pow_sub_one_eq_mod b.toNat 4

/-! ## Words -/

theorem leNat_lt (bs : List (BitVec 8)) : leNat bs < 256 ^ bs.length := by
  induction bs with
  | nil => simp [leNat]
  | cons b bs ih =>
    simp only [leNat, List.length_cons, Nat.pow_succ]
    have := b.isLt
    omega

theorem leNat_inj : ∀ (xs ys : List (BitVec 8)), xs.length = ys.length → leNat xs = leNat ys → xs = ys
  | [], [], _, _ => rfl
  | [], _ :: _, h, _ => by simp at h
  | _ :: _, [], h, _ => by simp at h
  | x :: xs, y :: ys, h, e => by
    simp only [leNat] at e
    have hx := x.isLt
    have hy := y.isLt
    have e1 : x.toNat = y.toNat := by omega
    have e2 : leNat xs = leNat ys := by omega
    have := leNat_inj xs ys (by simpa using h) e2
    rw [this, BitVec.eq_of_toNat_eq e1]

theorem leNat_leBytes (n v : Nat) (h : v < 256 ^ n) : leNat (leBytes n v) = v := by
  induction n generalizing v with
  | zero => simp at h; simp [leBytes, leNat, h]
  | succ n ih =>
    simp only [leBytes, leNat]
    rw [ih (v / 256) (by rw [Nat.pow_succ] at h; omega)]
    simp
    omega

theorem word0_toNat (h : HashId) : (word0 h).toNat = leNat (h.bytes.take 8) := by
  unfold word0
  have hl : (h.bytes.take 8).length = 8 := by simp [h.size_eq]
  have := leNat_lt (h.bytes.take 8)
  rw [hl] at this
  rw [BitVec.toNat_ofNat, Nat.mod_eq_of_lt (by omega)]

theorem word1_toNat (h : HashId) : (word1 h).toNat = leNat (h.bytes.drop 8) := by
  unfold word1
  have hl : (h.bytes.drop 8).length = 8 := by simp [h.size_eq]
  have := leNat_lt (h.bytes.drop 8)
  rw [hl] at this
  rw [BitVec.toNat_ofNat, Nat.mod_eq_of_lt (by omega)]

theorem words_ext (a b : HashId) (h0 : word0 a = word0 b) (h1 : word1 a = word1 b) : a = b := by
  have e0 := congrArg BitVec.toNat h0
  have e1 := congrArg BitVec.toNat h1
  rw [word0_toNat, word0_toNat] at e0
  rw [word1_toNat, word1_toNat] at e1
  have t0 := leNat_inj _ _ (by simp [a.size_eq, b.size_eq]) e0
  have t1 := leNat_inj _ _ (by simp [a.size_eq, b.size_eq]) e1
  apply ext_bytes
  rw [← List.take_append_drop 8 a.bytes, t0, t1, List.take_append_drop]

end Verif.HashId
