import Verif.Common.HashIdLemmas

/-!
# Properties C10, C11, C12: `sm::HashId`
-/

namespace Verif.HashId

/-! ## C10 -/

/-- C10: a hex string always consists of 32 lowercase hexadecimal digits. -/
theorem C10_hexString_form (h : HashId) :
    (hexString h).length = 32 ∧ ∀ c ∈ hexString h, c ∈ "0123456789abcdef".toList := by
  refine ⟨hexString_length h, ?_⟩
  intro c hc
  unfold hexString at hc
  rw [List.mem_flatMap] at hc
  obtain ⟨b, _, hb⟩ := hc
  have key : ∀ n, n < 16 → kHexConversion[n]?.getD '?' ∈ "0123456789abcdef".toList := by
    intro n hn
    have : ∀ n : Fin 16, kHexConversion[n.val]?.getD '?' ∈ "0123456789abcdef".toList := by decide
    exact this ⟨n, hn⟩
  have hlt := b.isLt
  simp only [List.mem_cons, List.not_mem_nil, or_false] at hb
  rcases hb with rfl | rfl
  · exact key _ (by rw [shr4_toNat]; omega)
  · exact key _ (by rw [and15_toNat]; omega)

/-- C10: reading back the hex string into any object succeeds and restores the id. -/
theorem C10_round_trip (h target : HashId) :
    fromHexString target (hexString h) = .returned true h := by
  unfold fromHexString
  rw [if_neg (by simp [hexString_length])]
  have hv : ∀ k, 0 ≤ k → k < 0 + 16 → stoul16 (((hexString h).drop (2 * k)).take 2)
      = some ((fun k => (h.bytes[k]?.getD 0).toNat) k) := by
    intro k _ hk
    have hk' : k < h.bytes.length := by rw [h.size_eq]; omega
    have hb : h.bytes[k]? = some h.bytes[k] := List.getElem?_eq_getElem hk'
    obtain ⟨p1, p2⟩ := hexString_pair h.bytes k h.bytes[k] hb
      (fun b => kHexConversion[(b >>> 4).toNat]?.getD '?')
      (fun b => kHexConversion[(b &&& 0xf).toNat]?.getD '?')
    rw [take2_drop (hexString h) k _ _ p1 p2]
    have hlt := (h.bytes[k]).isLt
    have d1 := nibble_hex ((h.bytes[k]) >>> 4).toNat (by rw [shr4_toNat]; omega)
    have d2 := nibble_hex ((h.bytes[k]) &&& 0xf).toNat (by rw [and15_toNat]; omega)
    have x1 := (isHexDigit_iff _).2 ⟨_, d1⟩
    have x2 := (isHexDigit_iff _).2 ⟨_, d2⟩
    simp only [hb, Option.getD_some]
    unfold stoul16
    simp only [List.dropWhile, digit_not_space x1, stripSign_digit x1, stripPrefix_two, x1, digits, d1, d2]
    rw [shr4_toNat, and15_toNat]
    simp
    omega
  obtain ⟨h', e, hb⟩ := hexLoop_ok (hexString h) _ 16 0 target (by omega) hv
  rw [e]
  congr 1
  apply ext_bytes
  apply List.ext_getElem?
  intro k
  by_cases hk : k < 16
  · rw [hb k hk, if_pos (by omega)]
    have hk' : k < h.bytes.length := by rw [h.size_eq]; omega
    simp [List.getElem?_eq_getElem hk']
  · rw [List.getElem?_eq_none (by rw [h'.size_eq]; omega),
      List.getElem?_eq_none (by rw [h.size_eq]; omega)]

/-- C10: different ids have different hex strings. -/
theorem C10_hexString_injective (a b : HashId) : hexString a = hexString b ↔ a = b := by
  constructor
  · intro h
    have h1 := C10_round_trip a invalid
    rw [h, C10_round_trip b invalid] at h1
    injection h1 with _ h1
    exact h1.symm
  · rintro rfl; rfl

example : String.ofList (hexString (fromUint64 0x0123456789abcdef 0xff)) =
    "efcdab8967452301ff00000000000000" := by decide

/-! ## C11 -/

/-- The claim of C11: success exactly on 32 hex digits, and otherwise `false` is returned with the
object unchanged. -/
def C11_claim : Prop :=
  ∀ (h : HashId) (s : List Char),
    (IsHex32 s → ∃ h', fromHexString h s = .returned true h') ∧
    (¬ IsHex32 s → fromHexString h s = .returned false h)

/-- C11 is false of the code: a malformed string can be accepted … -/
theorem C11_accepts_malformed :
    ∃ s : List Char, ¬ IsHex32 s ∧ ∃ h', fromHexString invalid s = .returned true h' := by
  refine ⟨"-1 f0xfg000000000000000000000000".toList, ?_, ?_⟩
  · intro h
    exact absurd (h.2 '-' (by decide)) (by decide)
  · exact ⟨⟨[0xff, 0x0f, 0, 0x0f, 0, 0, 0, 0, 0, 0, 0, 0, 0, 0, 0, 0], rfl⟩, by decide⟩

/-- … and another one throws after having overwritten part of the id. -/
theorem C11_throws_half_written :
    ∃ (s : List Char) (h' : HashId), fromHexString invalid s = .threw h' ∧ h' ≠ invalid := by
  refine ⟨"ffzz0000000000000000000000000000".toList,
    ⟨[0xff, 0, 0, 0, 0, 0, 0, 0, 0, 0, 0, 0, 0, 0, 0, 0], rfl⟩, by decide, by decide⟩

/-- C11 is refuted by the code. -/
theorem C11_negation : ¬ C11_claim := by
  intro h
  obtain ⟨s, hs, h', e⟩ := C11_accepts_malformed
  rw [(h invalid s).2 hs] at e
  simp at e

/-- C11, what does hold: (1) on 32 hexadecimal digits (either case) the call succeeds and byte `k`
becomes the number written by characters `2k` and `2k+1`; (2) on any other length the call returns
`false` and changes nothing; (3) on 32 arbitrary characters it returns `true` iff every pair is
one of: two digits, digit + other, (space or sign) + digit — with the given value — and otherwise it
throws, having overwritten exactly the bytes of the pairs before the first bad one.
Missing from the full claim: rejection of malformed pairs with the object unchanged. -/
theorem C11_partial (h : HashId) (s : List Char) :
    (IsHex32 s → ∃ h', fromHexString h s = .returned true h' ∧
      ∀ k c1 c2, s[2 * k]? = some c1 → s[2 * k + 1]? = some c2 →
        h'.bytes[k]? = some (BitVec.ofNat 8 (twoDigits c1 c2))) ∧
    (s.length ≠ 32 → fromHexString h s = .returned false h) ∧
    (s.length = 32 →
      (∃ h', fromHexString h s = .returned true h' ∧
        ∀ k c1 c2, s[2 * k]? = some c1 → s[2 * k + 1]? = some c2 →
          ∃ b, pairByte c1 c2 = some b ∧ h'.bytes[k]? = some (BitVec.ofNat 8 b)) ∨
      (∃ (j : Nat) (h' : HashId), j < 16 ∧ fromHexString h s = .threw h' ∧
        (∃ c1 c2, s[2 * j]? = some c1 ∧ s[2 * j + 1]? = some c2 ∧ pairByte c1 c2 = none) ∧
        (∀ k, j ≤ k → h'.bytes[k]? = h.bytes[k]?) ∧
        (∀ k c1 c2, k < j → s[2 * k]? = some c1 → s[2 * k + 1]? = some c2 →
          ∃ b, pairByte c1 c2 = some b ∧ h'.bytes[k]? = some (BitVec.ofNat 8 b)))) := by
  -- a fact common to all parts
  have pair : ∀ k, s.length = 32 → k < 16 →
      ∃ c1 c2, s[2 * k]? = some c1 ∧ s[2 * k + 1]? = some c2 ∧
        (s.drop (2 * k)).take 2 = [c1, c2] := by
    intro k hs hk
    have l1 : 2 * k < s.length := by omega
    have l2 : 2 * k + 1 < s.length := by omega
    exact ⟨s[2 * k], s[2 * k + 1], List.getElem?_eq_getElem l1, List.getElem?_eq_getElem l2,
      take2_drop s k _ _ (List.getElem?_eq_getElem l1) (List.getElem?_eq_getElem l2)⟩
  have part3 : s.length = 32 →
      (∃ h', fromHexString h s = .returned true h' ∧
        ∀ k c1 c2, s[2 * k]? = some c1 → s[2 * k + 1]? = some c2 →
          ∃ b, pairByte c1 c2 = some b ∧ h'.bytes[k]? = some (BitVec.ofNat 8 b)) ∨
      (∃ (j : Nat) (h' : HashId), j < 16 ∧ fromHexString h s = .threw h' ∧
        (∃ c1 c2, s[2 * j]? = some c1 ∧ s[2 * j + 1]? = some c2 ∧ pairByte c1 c2 = none) ∧
        (∀ k, j ≤ k → h'.bytes[k]? = h.bytes[k]?) ∧
        (∀ k c1 c2, k < j → s[2 * k]? = some c1 → s[2 * k + 1]? = some c2 →
          ∃ b, pairByte c1 c2 = some b ∧ h'.bytes[k]? = some (BitVec.ofNat 8 b))) := by
    intro hs
    let v : Nat → Nat := fun k => (stoul16 ((s.drop (2 * k)).take 2)).getD 0
    have hbyte : ∀ k c1 c2, s[2 * k]? = some c1 → s[2 * k + 1]? = some c2 →
        stoul16 ((s.drop (2 * k)).take 2) = some (v k) →
        ∃ b, pairByte c1 c2 = some b ∧ BitVec.ofNat 8 (v k) = BitVec.ofNat 8 b := by
      intro k c1 c2 h1 h2 hst
      rw [take2_drop s k c1 c2 h1 h2] at hst
      have := stoul16_pair c1 c2
      rw [hst] at this
      refine ⟨v k % 256, this.symm, ?_⟩
      apply BitVec.eq_of_toNat_eq
      simp
    by_cases hall : ∀ k, k < 16 → stoul16 ((s.drop (2 * k)).take 2) = some (v k)
    · left
      obtain ⟨h', e, hb⟩ := hexLoop_ok s v 16 0 h (by omega) (fun k _ hk => hall k (by omega))
      refine ⟨h', ?_, ?_⟩
      · unfold fromHexString; rw [if_neg (by omega)]; exact e
      · intro k c1 c2 h1 h2
        obtain ⟨l2, _⟩ := List.getElem?_eq_some_iff.1 h2
        obtain ⟨b, hb1, hb2⟩ := hbyte k c1 c2 h1 h2 (hall k (by omega))
        refine ⟨b, hb1, ?_⟩
        rw [hb k (by omega), if_pos (by omega), hb2]
    · right
      have : ∃ j, j < 16 ∧ stoul16 ((s.drop (2 * j)).take 2) = none := by
        apply Classical.byContradiction
        intro hcon
        apply hall
        intro k hk
        cases hx : stoul16 ((s.drop (2 * k)).take 2) with
        | none => exact absurd ⟨k, hk, hx⟩ hcon
        | some w => simp [v, hx]
      -- least such index
      have least : ∃ j, j < 16 ∧ stoul16 ((s.drop (2 * j)).take 2) = none ∧
          ∀ k, k < j → stoul16 ((s.drop (2 * k)).take 2) = some (v k) := by
        obtain ⟨j, hj, hjn⟩ := this
        induction j using Nat.strongRecOn with
        | _ j ih =>
          by_cases hex : ∃ k, k < j ∧ stoul16 ((s.drop (2 * k)).take 2) = none
          · obtain ⟨k, hk, hkn⟩ := hex
            exact ih k hk (by omega) hkn
          · refine ⟨j, hj, hjn, ?_⟩
            intro k hk
            cases hx : stoul16 ((s.drop (2 * k)).take 2) with
            | none => exact absurd ⟨k, hk, hx⟩ hex
            | some w => simp [v, hx]
      obtain ⟨j, hj, hjn, hjl⟩ := least
      obtain ⟨h', e, hb⟩ := hexLoop_threw s v j 16 0 h (by omega) (by omega) (by omega)
        (fun k _ hk => hjl k hk) hjn
      refine ⟨j, h', hj, ?_, ?_, ?_, ?_⟩
      · unfold fromHexString; rw [if_neg (by omega)]; exact e
      · obtain ⟨c1, c2, g1, g2, g3⟩ := pair j hs hj
        refine ⟨c1, c2, g1, g2, ?_⟩
        have := stoul16_pair c1 c2
        rw [← g3, hjn] at this
        exact this.symm
      · intro k hk
        by_cases hk16 : k < 16
        · rw [hb k hk16, if_neg (by omega)]
        · rw [List.getElem?_eq_none (by rw [h'.size_eq]; omega),
            List.getElem?_eq_none (by rw [h.size_eq]; omega)]
      · intro k c1 c2 hk h1 h2
        obtain ⟨b, hb1, hb2⟩ := hbyte k c1 c2 h1 h2 (hjl k hk)
        refine ⟨b, hb1, ?_⟩
        rw [hb k (by omega), if_pos (by omega), hb2]
  refine ⟨?_, ?_, part3⟩
  · intro ⟨hs, hx⟩
    have hx' : ∀ (k : Nat) (c : Char), s[k]? = some c → isHexDigit c = true := by
      intro k c hc
      exact hx c (List.mem_of_getElem? hc)
    rcases part3 hs with ⟨h', e, hb⟩ | ⟨j, h', hj, e, ⟨c1, c2, h1, h2, hn⟩, _⟩
    · refine ⟨h', e, ?_⟩
      intro k c1 c2 h1 h2
      obtain ⟨b, hb1, hb2⟩ := hb k c1 c2 h1 h2
      rw [pairByte_hex (hx' _ _ h1) (hx' _ _ h2)] at hb1
      simp at hb1
      rw [hb1]; exact hb2
    · rw [pairByte_hex (hx' _ _ h1) (hx' _ _ h2)] at hn
      simp at hn
  · intro hs
    unfold fromHexString
    rw [if_pos hs]

example : IsHex32 "00112233445566778899AABBccddeeff".toList := by
  constructor <;> decide

/-! ## C12 -/

/-- The 128-bit ids ordered lexicographically by (first word, second word). -/
def key (h : HashId) : Nat := (toUint64 h).1.toNat * 2 ^ 64 + (toUint64 h).2.toNat

/-- C12: `<` is the strict total order of the numbers `key`, `==` is equality of objects, and the
other operators are the derived ones; ids that compare equal hash equally. -/
theorem C12_order :
    (∀ a b : HashId, eq a b = true ↔ a = b) ∧
    (∀ a b : HashId, ne a b = !eq a b) ∧
    (∀ a b : HashId, lt a b = true ↔ key a < key b) ∧
    (∀ a b : HashId, gt a b = lt b a) ∧
    (∀ a b : HashId, key a = key b ↔ a = b) ∧
    (∀ a b : HashId, lt a b = true ∨ eq a b = true ∨ lt b a = true) ∧
    (∀ a b : HashId, eq a b = true → hashToSizeT a = hashToSizeT b ∧
      hashToSizeTFast a = hashToSizeTFast b) := by
  have heq : ∀ a b : HashId, eq a b = true ↔ a = b := by
    intro a b
    constructor
    · intro h
      simp only [eq, Bool.and_eq_true, beq_iff_eq] at h
      exact words_ext a b h.1 h.2
    · rintro rfl; simp [eq]
  have hlt : ∀ a b : HashId, lt a b = true ↔ key a < key b := by
    intro a b
    unfold lt key toUint64
    have l1 := (word1 a).isLt
    have l2 := (word1 b).isLt
    by_cases h : word0 a = word0 b
    · simp only [h, beq_self_eq_true, if_true, BitVec.ult, decide_eq_true_eq]
      omega
    · have hb : (word0 a == word0 b) = false := by simp [h]
      have hne : (word0 a).toNat ≠ (word0 b).toNat := fun e => h (BitVec.eq_of_toNat_eq e)
      simp only [hb, BitVec.ult]
      simp only [Bool.false_eq_true, if_false, decide_eq_true_eq]
      omega
  have hkey : ∀ a b : HashId, key a = key b ↔ a = b := by
    intro a b
    constructor
    · intro h
      unfold key toUint64 at h
      have l1 := (word1 a).isLt
      have l2 := (word1 b).isLt
      apply words_ext
      · apply BitVec.eq_of_toNat_eq; simp only at h; omega
      · apply BitVec.eq_of_toNat_eq; simp only at h; omega
    · rintro rfl; rfl
  refine ⟨heq, fun _ _ => rfl, hlt, ?_, hkey, ?_, ?_⟩
  · intro a b
    unfold gt lt
    by_cases h : word0 a = word0 b
    · simp [h]
    · simp [h, Ne.symm h]
  · intro a b
    rw [hlt, hlt, heq, ← hkey]
    omega
  · intro a b h
    rw [(heq a b).1 h]
    exact ⟨rfl, rfl⟩

/-- C12: `isValid()` is false exactly for the default/invalid id; word access round-trips. -/
theorem C12_validity_and_words :
    (∀ h : HashId, isValid h = false ↔ h = invalid) ∧
    (∀ h : HashId, isValid h = false ↔ ∀ b ∈ h.bytes, b = 0) ∧
    (∀ a b : BitVec 64, toUint64 (fromUint64 a b) = (a, b)) ∧
    (∀ h : HashId, fromUint64 (toUint64 h).1 (toUint64 h).2 = h) := by
  have hw : ∀ a b : BitVec 64, toUint64 (fromUint64 a b) = (a, b) := by
    intro a b
    unfold toUint64
    have t : (fromUint64 a b).bytes.take 8 = leBytes 8 a.toNat := by
      simp only [fromUint64]
      rw [List.take_append_of_le_length (by simp [leBytes_length]),
        List.take_of_length_le (by simp [leBytes_length])]
    have d : (fromUint64 a b).bytes.drop 8 = leBytes 8 b.toNat := by
      simp only [fromUint64]
      rw [List.drop_append_of_le_length (by simp [leBytes_length]),
        List.drop_eq_nil_of_le (by simp [leBytes_length]), List.nil_append]
    have la := a.isLt
    have lb := b.isLt
    have p : (256 : Nat) ^ 8 = 2 ^ 64 := by decide
    have e0 : word0 (fromUint64 a b) = a := by
      apply BitVec.eq_of_toNat_eq
      rw [word0_toNat, t, leNat_leBytes _ _ (by rw [p]; exact la)]
    have e1 : word1 (fromUint64 a b) = b := by
      apply BitVec.eq_of_toNat_eq
      rw [word1_toNat, d, leNat_leBytes _ _ (by rw [p]; exact lb)]
    rw [e0, e1]
  have hinv : ∀ h : HashId, isValid h = false ↔ h = invalid := by
    intro h
    constructor
    · intro hh
      simp only [isValid, Bool.or_eq_false_iff, bne_eq_false_iff_eq] at hh
      apply words_ext
      · rw [hh.1]; decide
      · rw [hh.2]; decide
    · rintro rfl; decide
  refine ⟨hinv, ?_, hw, ?_⟩
  · intro h
    rw [hinv]
    constructor
    · rintro rfl b hb
      exact List.eq_of_mem_replicate hb
    · intro hb
      apply ext_bytes
      rw [List.eq_replicate_iff.2 ⟨h.size_eq, hb⟩]
      rfl
  · intro h
    have := hw (toUint64 h).1 (toUint64 h).2
    have h1 := congrArg Prod.fst this
    have h2 := congrArg Prod.snd this
    exact words_ext _ _ h1 h2

example : lt (fromUint64 1 5) (fromUint64 2 0) = true ∧ isValid (fromUint64 0 1) = true := by decide

/-- C12: the hash looks at the whole id: ids that differ in one of their two 64-bit words only never
collide (in either hash). -/
theorem C12_hash_sensitive (a b : HashId) (hab : a ≠ b)
    (h : (toUint64 a).1 = (toUint64 b).1 ∨ (toUint64 a).2 = (toUint64 b).2) :
    hashToSizeT a ≠ hashToSizeT b ∧ hashToSizeTFast a ≠ hashToSizeTFast b := by
  have inj : ∀ x y : BitVec 64, x * kPrime = y * kPrime → x = y := by
    intro x y hxy
    have hk : kPrime * (14886173955864302971 : BitVec 64) = 1 := by decide
    have := congrArg (· * (14886173955864302971 : BitVec 64)) hxy
    simp only [BitVec.mul_assoc, hk] at this
    simpa using this
  have xinj : ∀ z x y : BitVec 64, z ^^^ x = z ^^^ y → x = y := by
    intro z x y hxy
    have := congrArg (z ^^^ ·) hxy
    simpa [← BitVec.xor_assoc] using this
  have xinj' : ∀ z x y : BitVec 64, x ^^^ z = y ^^^ z → x = y := by
    intro z x y hxy
    rw [BitVec.xor_comm x, BitVec.xor_comm y] at hxy
    exact xinj _ _ _ hxy
  simp only [toUint64] at h
  unfold hashToSizeT hashToSizeTFast
  rcases h with h | h
  · rw [h]
    have hne : word1 a ≠ word1 b := fun e => hab (words_ext a b h e)
    exact ⟨fun e => hne (xinj _ _ _ (inj _ _ e)), fun e => hne (xinj _ _ _ e)⟩
  · rw [h]
    have hne : word0 a ≠ word0 b := fun e => hab (words_ext a b e h)
    exact ⟨fun e => hne (xinj _ _ _ (inj _ _ (xinj' _ _ _ (inj _ _ e)))), fun e => hne (xinj _ _ _ (xinj' _ _ _ e))⟩

example : fromUint64 1 2 ≠ fromUint64 1 3 ∧ (toUint64 (fromUint64 1 2)).1 = (toUint64 (fromUint64 1 3)).1 := by
  constructor <;> decide

end Verif.HashId
