import Verif.PTree.JsonGrammar

/-!
# C163: exactly the files of the grammar are loaded, with the tree they stand for
-/

namespace Verif.PTree.JsonFile

open Verif.PTree

/-! ## white space -/

theorem isWs_iff (c : Char) : isWs c = true ↔ c ∈ [' ', '\t', '\n', '\r'] := by simp [isWs, or_assoc]

theorem ws_all {w : Str} (h : Ws w) : ∀ c ∈ w, isWs c = true := fun c hc => (isWs_iff c).2 (h c hc)

theorem ws_split (s : Str) : ∃ w, Ws w ∧ s = w ++ s.dropWhile isWs := by
  refine ⟨s.takeWhile isWs, fun c hc => (isWs_iff c).1 ?_, (List.takeWhile_append_dropWhile).symm⟩
  have := List.all_takeWhile (p := isWs) (l := s)
  exact List.all_eq_true.1 this c hc

theorem ws_drop {w : Str} (h : Ws w) {r : Str} (hr : ∀ c, r.head? = some c → isWs c = false) : (w ++ r).dropWhile isWs = r := by
  cases r with
  | nil => rw [dropWs w [] (ws_all h)]; rfl
  | cons c r => exact dropWs_stop w c r (ws_all h) (hr c rfl)

/-! ## strings -/

theorem hexVal_iff (c : Char) (n : Nat) : hexVal c = some n ↔ HexDigit c n := by
  have e1 : "0123456789abcdef".toList = (List.range 16).map fun n => if n < 10 then Char.ofNat (48 + n) else Char.ofNat (87 + n) := by decide
  have e2 : "0123456789ABCDEF".toList = (List.range 16).map fun n => if n < 10 then Char.ofNat (48 + n) else Char.ofNat (55 + n) := by decide
  unfold HexDigit
  constructor
  · intro h
    unfold hexVal at h
    simp only at h
    have ofc : Char.ofNat c.toNat = c := Char.ofNat_toNat c
    split at h
    · rename_i hc
      simp only [Option.some.injEq] at h
      left
      rw [e1]
      have hn : n < 16 := by omega
      simp only [List.getElem?_map, List.getElem?_range hn, Option.map_some, Option.some.injEq]
      rw [if_pos (by omega), show 48 + n = c.toNat by omega, ofc]
    split at h
    · rename_i hc
      simp only [Option.some.injEq] at h
      right
      rw [e2]
      have hn : n < 16 := by omega
      simp only [List.getElem?_map, List.getElem?_range hn, Option.map_some, Option.some.injEq]
      rw [if_neg (by omega), show 55 + n = c.toNat by omega, ofc]
    split at h
    · rename_i hc
      simp only [Option.some.injEq] at h
      left
      rw [e1]
      have hn : n < 16 := by omega
      simp only [List.getElem?_map, List.getElem?_range hn, Option.map_some, Option.some.injEq]
      rw [if_neg (by omega), show 87 + n = c.toNat by omega, ofc]
    · simp at h
  · rintro (h | h)
    · have hn : n < 16 := by
        refine Nat.lt_of_not_le fun hc => ?_
        rw [List.getElem?_eq_none (by exact hc)] at h
        simp at h
      have : ∀ m, m < 16 → ∀ c, "0123456789abcdef".toList[m]? = some c → hexVal c = some m := by
        intro m hm c hc
        have k : ∀ m, m < 16 → ("0123456789abcdef".toList[m]?).bind hexVal = some m := by decide
        have := k m hm
        rwa [hc] at this
      exact this n hn c h
    · have hn : n < 16 := by
        refine Nat.lt_of_not_le fun hc => ?_
        rw [List.getElem?_eq_none (by exact hc)] at h
        simp at h
      have : ∀ m, m < 16 → ∀ c, "0123456789ABCDEF".toList[m]? = some c → hexVal c = some m := by
        intro m hm c hc
        have k : ∀ m, m < 16 → ("0123456789ABCDEF".toList[m]?).bind hexVal = some m := by decide
        have := k m hm
        rwa [hc] at this
      exact this n hn c h

theorem hexQuad_of {h : Str} {n : Nat} (hh : Hex4 h n) (r : Str) : hexQuad (h ++ r) = some (n, r) := by
  obtain ⟨a, b, c, d, na, nb, nc, nd, rfl, ha, hb, hc, hd, rfl⟩ := hh
  simp only [List.cons_append, List.nil_append, hexQuad, (hexVal_iff _ _).2 ha, (hexVal_iff _ _).2 hb, (hexVal_iff _ _).2 hc, (hexVal_iff _ _).2 hd,
    Option.bind_some, Option.map_some, Option.some.injEq, Prod.mk.injEq, and_true]
  omega

theorem of_hexQuad {s : Str} {x : Nat × Str} (h : hexQuad s = some x) : ∃ q, Hex4 q x.1 ∧ s = q ++ x.2 := by
  unfold hexQuad at h
  split at h
  · rename_i a b c d r
    simp only [Option.bind_eq_some_iff, Option.map_eq_some_iff] at h
    obtain ⟨na, ha, nb, hb, nc, hc, nd, hd, rfl⟩ := h
    exact ⟨[a, b, c, d], ⟨a, b, c, d, na, nb, nc, nd, rfl, (hexVal_iff _ _).1 ha, (hexVal_iff _ _).1 hb, (hexVal_iff _ _).1 hc, (hexVal_iff _ _).1 hd, by simp only; omega⟩, rfl⟩
  · simp at h

theorem hex4_lt {h : Str} {n : Nat} (hh : Hex4 h n) : n < 65536 := by
  obtain ⟨a, b, c, d, na, nb, nc, nd, rfl, ha, hb, hc, hd, rfl⟩ := hh
  have key : ∀ c n, HexDigit c n → n < 16 := by
    rintro c n (h | h)
    all_goals
      refine Nat.lt_of_not_le fun hc => ?_
      rw [List.getElem?_eq_none (by exact hc)] at h
      simp at h
  have := key _ _ ha; have := key _ _ hb; have := key _ _ hc; have := key _ _ hd
  omega

theorem utf8_eq (c : Char) : utf8 c.toNat = utf8Bytes c := by
  unfold utf8 utf8Bytes String.utf8EncodeChar
  have hc : c.toNat < 0x110000 := by
    have := c.valid
    rcases this with h | h
    · have : c.toNat < 0xD800 := h
      omega
    · exact h.2
  have e : c.val.toNat = c.toNat := rfl
  simp only [e]
  have m64 : ∀ k, k % 64 < 64 := fun k => Nat.mod_lt _ (by omega)
  have b8 : ∀ k, k < 256 → (UInt8.ofNat k).toNat = k := fun k hk => by simp; omega
  split
  · rename_i h
    rw [if_pos (by omega)]
    simp only [List.map_cons, List.map_nil, b8 _ (by omega : c.toNat < 256)]
  split
  · rename_i h1 h2
    rw [if_neg (by omega), if_pos (by omega)]
    have := m64 c.toNat
    simp only [List.map_cons, List.map_nil]
    rw [b8 _ (by omega), b8 _ (by omega), Nat.add_comm 0xC0, Nat.add_comm 0x80]
  split
  · rename_i h1 h2 h3
    rw [if_neg (by omega), if_neg (by omega), if_pos (by omega)]
    have := m64 c.toNat
    have := m64 (c.toNat / 64)
    simp only [List.map_cons, List.map_nil]
    rw [b8 _ (by omega), b8 _ (by omega), b8 _ (by omega), Nat.add_comm 0xE0, Nat.add_comm 0x80, Nat.add_comm 0x80]
  · rename_i h1 h2 h3
    rw [if_neg (by omega), if_neg (by omega), if_neg (by omega)]
    have := m64 c.toNat
    have := m64 (c.toNat / 64)
    have := m64 (c.toNat / 4096)
    simp only [List.map_cons, List.map_nil]
    rw [b8 _ (by omega), b8 _ (by omega), b8 _ (by omega), b8 _ (by omega), Nat.add_comm 0xF0, Nat.add_comm 0x80, Nat.add_comm 0x80, Nat.add_comm 0x80]

theorem toNat_ofNat_valid {n : Nat} (h : n < 0xD800 ∨ (0xDFFF < n ∧ n < 0x110000)) : (Char.ofNat n).toNat = n := by
  have : n.isValidChar := h
  simp [Char.ofNat, this, Char.toNat, Char.ofNatAux]

theorem trailing_of {a : Char} {t : Str} (h : (a.toNat < 0x80 ∧ t.length = 0) ∨ (0xC0 ≤ a.toNat ∧ a.toNat < 0xE0 ∧ t.length = 1) ∨
    (0xE0 ≤ a.toNat ∧ a.toNat < 0xF0 ∧ t.length = 2) ∨ (0xF0 ≤ a.toNat ∧ a.toNat < 0xF8 ∧ t.length = 3)) : trailing a = some t.length := by
  unfold trailing
  simp only
  rcases h with ⟨h, e⟩ | ⟨h, h', e⟩ | ⟨h, h', e⟩ | ⟨h, h', e⟩ <;> rw [e]
  · rw [if_pos h]
  · rw [if_neg (by omega), if_neg (by omega), if_pos h']
  · rw [if_neg (by omega), if_neg (by omega), if_neg (by omega), if_pos h']
  · rw [if_neg (by omega), if_neg (by omega), if_neg (by omega), if_neg (by omega), if_pos h']

theorem of_trailing {a : Char} {k : Nat} {t : Str} (h : trailing a = some k) (ht : t.length = k) : (a.toNat < 0x80 ∧ t.length = 0) ∨ (0xC0 ≤ a.toNat ∧ a.toNat < 0xE0 ∧ t.length = 1) ∨
    (0xE0 ≤ a.toNat ∧ a.toNat < 0xF0 ∧ t.length = 2) ∨ (0xF0 ≤ a.toNat ∧ a.toNat < 0xF8 ∧ t.length = 3) := by
  unfold trailing at h
  simp only at h
  split at h
  · simp at h; omega
  split at h
  · simp at h
  split at h
  · simp at h; omega
  split at h
  · simp at h; omega
  split at h
  · simp at h; omega
  · simp at h

/-- the rest of a character -/
theorem str_conts : ∀ (t : Str) (f : Nat) (s : Str), (∀ c ∈ t, Cont c) → str (t.length + f) t.length (t ++ s) = (str f 0 s).map fun x => (t ++ x.1, x.2)
  | [], f, s, _ => by simp
  | c :: t, f, s, h => by
    have e : (c :: t).length + f = (t.length + f) + 1 := by simp; omega
    rw [e]
    show str (t.length + f + 1) (t.length + 1) (c :: (t ++ s)) = _
    rw [str, if_pos ((isCont_iff c).2 (h c (by simp))), str_conts t f s fun d hd => h d (by simp [hd])]
    cases str f 0 s <;> rfl

theorem of_str_conts : ∀ (k f : Nat) (s : Str) (x : Str × Str), str f k s = some x →
    ∃ t g s' y, t.length = k ∧ (∀ c ∈ t, Cont c) ∧ s = t ++ s' ∧ g ≤ f ∧ str g 0 s' = some y ∧ x = (t ++ y.1, y.2)
  | 0, f, s, x, h => ⟨[], f, s, x, rfl, by simp, rfl, Nat.le_refl _, h, rfl⟩
  | k + 1, 0, s, x, h => by simp [str] at h
  | k + 1, f + 1, [], x, h => by simp [str] at h
  | k + 1, f + 1, c :: s, x, h => by
    rw [str] at h
    split at h
    · rename_i hc
      rw [Option.map_eq_some_iff] at h
      obtain ⟨y, hy, rfl⟩ := h
      obtain ⟨t, g, s', z, h1, h2, h3, h4, h5, h6⟩ := of_str_conts k f s y hy
      refine ⟨c :: t, g, s', z, by simp [h1], ?_, by rw [h3]; rfl, by omega, h5, by rw [h6]; rfl⟩
      intro d hd
      rcases List.mem_cons.1 hd with rfl | hd
      · exact (isCont_iff _).1 hc
      · exact h2 d hd
    · simp at h

/-- the reader takes what the grammar has -/
theorem str_of {s m : Str} (h : StrText s m) : ∀ (f : Nat) (r : Str), s.length + 1 ≤ f → str f 0 (s ++ '"' :: r) = some (m, r) := by
  induction h with
  | nil =>
    intro f r hf
    obtain ⟨f, rfl⟩ : ∃ g, f = g + 1 := ⟨f - 1, by simp at hf; omega⟩
    rw [List.nil_append, str, if_pos rfl]
  | @char u s m hu h1 h2 _ ih =>
    intro f r hf
    obtain ⟨a, t, rfl, ht, hc⟩ := hu
    have hf' : t.length + s.length + 2 ≤ f := by simp at hf; omega
    obtain ⟨g, rfl⟩ : ∃ g, f = t.length + g + 1 := ⟨f - 1 - t.length, by omega⟩
    have tr := trailing_of hc
    have na : a ≠ '"' := by
      rintro rfl
      have : t.length = 0 := by
        have e : trailing '"' = some 0 := by decide
        rw [e] at tr
        exact (Option.some.inj tr).symm
      exact h1 (by rw [List.length_eq_zero_iff.1 this])
    have nb : a ≠ '\\' := by
      rintro rfl
      have : t.length = 0 := by
        have e : trailing '\\' = some 0 := by decide
        rw [e] at tr
        exact (Option.some.inj tr).symm
      exact h2 (by rw [List.length_eq_zero_iff.1 this])
    show str (t.length + g + 1) 0 (a :: (t ++ s ++ '"' :: r)) = _
    rw [str, if_neg na, if_neg nb, tr, Option.bind_some, List.append_assoc, str_conts t g _ ht, ih g r (by omega)]
    rfl
  | @esc c d s m hc _ ih =>
    intro f r hf
    obtain ⟨f, rfl⟩ : ∃ g, f = g + 1 := ⟨f - 1, by simp at hf; omega⟩
    have he : ∀ y, escape (c :: y) = some ([d], y) := by
      intro y
      simp only [simpleEscapes, List.mem_cons, List.not_mem_nil, or_false, Prod.mk.injEq] at hc
      rcases hc with ⟨rfl, rfl⟩ | ⟨rfl, rfl⟩ | ⟨rfl, rfl⟩ | ⟨rfl, rfl⟩ | ⟨rfl, rfl⟩ | ⟨rfl, rfl⟩ | ⟨rfl, rfl⟩ | ⟨rfl, rfl⟩ <;> rfl
    show str (f + 1) 0 ('\\' :: c :: (s ++ '"' :: r)) = _
    rw [str, if_neg (by decide), if_pos rfl, he, Option.bind_some, ih f r (by simp at hf; omega)]
    rfl
  | @uni h s m c hh _ ih =>
    intro f r hf
    obtain ⟨f, rfl⟩ : ∃ g, f = g + 1 := ⟨f - 1, by simp at hf; omega⟩
    have hv : ¬ (0xD800 ≤ c.toNat ∧ c.toNat < 0xE000) := by
      have := c.valid
      rcases this with h | h
      · have : c.toNat < 0xD800 := h
        omega
      · have : 0xDFFF < c.toNat := h.1
        omega
    show str (f + 1) 0 ('\\' :: 'u' :: (h ++ s ++ '"' :: r)) = _
    have he : escape ('u' :: (h ++ s ++ '"' :: r)) = some (utf8Bytes c, s ++ '"' :: r) := by
      show (hexQuad (h ++ s ++ '"' :: r)).bind codepointRef = _
      rw [List.append_assoc, hexQuad_of hh, Option.bind_some, codepointRef]
      rw [if_neg (by omega), if_neg (by omega), utf8_eq]
    rw [str, if_neg (by decide), if_pos rfl, he, Option.bind_some, ih f r (by simp at hf; omega)]
    rfl
  | @pair h l s m c a b hh hl a1 a2 b1 b2 hc _ ih =>
    intro f r hf
    obtain ⟨f, rfl⟩ : ∃ g, f = g + 1 := ⟨f - 1, by simp at hf; omega⟩
    show str (f + 1) 0 ('\\' :: 'u' :: (h ++ '\\' :: 'u' :: (l ++ s) ++ '"' :: r)) = _
    have he : escape ('u' :: (h ++ '\\' :: 'u' :: (l ++ s) ++ '"' :: r)) = some (utf8Bytes c, s ++ '"' :: r) := by
      show (hexQuad (h ++ '\\' :: 'u' :: (l ++ s) ++ '"' :: r)).bind codepointRef = _
      rw [List.append_assoc, hexQuad_of hh, Option.bind_some, codepointRef]
      rw [if_pos (by omega)]
      show lowHalf a ('\\' :: 'u' :: (l ++ s ++ '"' :: r)) = _
      rw [lowHalf, List.append_assoc, hexQuad_of hl, Option.bind_some]
      simp only
      rw [if_pos (by omega), ← hc, utf8_eq]
    rw [str, if_neg (by decide), if_pos rfl, he, Option.bind_some, ih f r (by simp at hf; omega)]
    rfl

/-- and nothing else -/
theorem of_escape {s : Str} {x : Str × Str} (h : escape s = some x) : ∃ e, s = e ++ x.2 ∧ ∀ v m, StrText v m → StrText ('\\' :: (e ++ v)) (x.1 ++ m) := by
  cases s with
  | nil => simp [escape] at h
  | cons c r =>
    have key : ∀ d : Char, (c, d) ∈ simpleEscapes → some ([d], r) = some x → ∃ e, c :: r = e ++ x.2 ∧ ∀ v m, StrText v m → StrText ('\\' :: (e ++ v)) (x.1 ++ m) := by
      intro d hd h
      simp only [Option.some.injEq] at h
      subst h
      exact ⟨[c], rfl, fun v m hv => .esc hd hv⟩
    simp only [escape] at h
    split at h; · rename_i hc; subst hc; exact key _ (by decide) h
    split at h; · rename_i hc; subst hc; exact key _ (by decide) h
    split at h; · rename_i hc; subst hc; exact key _ (by decide) h
    split at h; · rename_i hc; subst hc; exact key _ (by decide) h
    split at h; · rename_i hc; subst hc; exact key _ (by decide) h
    split at h; · rename_i hc; subst hc; exact key _ (by decide) h
    split at h; · rename_i hc; subst hc; exact key _ (by decide) h
    split at h; · rename_i hc; subst hc; exact key _ (by decide) h
    split at h
    · rename_i hc
      subst hc
      rw [Option.bind_eq_some_iff] at h
      obtain ⟨q, hq0, hq⟩ := h
      obtain ⟨q', hq1, rfl⟩ := of_hexQuad hq0
      have hlt := hex4_lt hq1
      unfold codepointRef at hq
      split at hq
      · rename_i hhi
        unfold lowHalf at hq
        split at hq
        · rename_i r' hr'
          rw [Option.bind_eq_some_iff] at hq
          obtain ⟨z, hz0, hz⟩ := hq
          obtain ⟨l, hl, rfl⟩ := of_hexQuad hz0
          split at hz
          · rename_i hlo
            have h1 := Option.some.inj hz
            subst h1
            have hv : (Char.ofNat (0x10000 + (q.1 - 0xD800) * 1024 + (z.1 - 0xDC00))).toNat = 0x10000 + (q.1 - 0xD800) * 1024 + (z.1 - 0xDC00) :=
              toNat_ofNat_valid (.inr ⟨by omega, by omega⟩)
            refine ⟨'u' :: (q' ++ '\\' :: 'u' :: l), by rw [hr']; simp, fun v m hm => ?_⟩
            have := StrText.pair (c := Char.ofNat (0x10000 + (q.1 - 0xD800) * 1024 + (z.1 - 0xDC00))) hq1 hl hhi.1 (by omega) hlo.1 (by omega) hv hm
            rw [← utf8_eq, hv] at this
            simpa using this
          · simp at hz
        · simp at hq
      split at hq
      · simp at hq
      · rename_i h1 h2
        simp only [Option.some.injEq] at hq
        subst hq
        have hv : (Char.ofNat q.1).toNat = q.1 := toNat_ofNat_valid (by omega)
        refine ⟨'u' :: q', by simp, fun v m hm => ?_⟩
        have := StrText.uni (c := Char.ofNat q.1) (by rw [hv]; exact hq1) hm
        rw [← utf8_eq, hv] at this
        simpa using this
    · simp at h

theorem of_str : ∀ (n f : Nat) (s : Str) (x : Str × Str), f ≤ n → str f 0 s = some x → ∃ v, StrText v x.1 ∧ s = v ++ '"' :: x.2
  | 0, f, s, x, hf, h => by
    have : f = 0 := by omega
    subst this
    simp [str] at h
  | n + 1, 0, s, x, hf, h => by simp [str] at h
  | n + 1, f + 1, [], x, hf, h => by simp [str] at h
  | n + 1, f + 1, c :: r, x, hf, h => by
    simp only [str] at h
    split at h
    · rename_i hc
      subst hc
      simp at h; subst h
      exact ⟨[], .nil, rfl⟩
    split at h
    · rename_i hc
      subst hc
      rw [Option.bind_eq_some_iff] at h
      obtain ⟨e, he, h⟩ := h
      rw [Option.map_eq_some_iff] at h
      obtain ⟨y, hy, rfl⟩ := h
      obtain ⟨q, hq1, hq2⟩ := of_escape he
      obtain ⟨v, hv1, hv2⟩ := of_str n f e.2 y (by omega) hy
      refine ⟨'\\' :: (q ++ v), hq2 v y.1 hv1, ?_⟩
      rw [hq1, hv2]; simp
    · rename_i h1 h2
      rw [Option.bind_eq_some_iff] at h
      obtain ⟨k, hk, h⟩ := h
      rw [Option.map_eq_some_iff] at h
      obtain ⟨y, hy, rfl⟩ := h
      obtain ⟨t, g, s', z, t1, t2, t3, t4, t5, t6⟩ := of_str_conts k f r y hy
      obtain ⟨v, hv1, hv2⟩ := of_str n g s' z (by omega) t5
      refine ⟨(c :: t) ++ v, ?_, by rw [t3, hv2, t6]; simp⟩
      rw [t6]
      have := StrText.char (u := c :: t) ⟨c, t, rfl, t2, of_trailing hk t1⟩ (fun h => h1 (by simpa using congrArg List.head? h)) (fun h => h2 (by simpa using congrArg List.head? h)) hv1
      simpa using this

/-! ## numbers -/

theorem isDigit_iff (c : Char) : isDigit c = true ↔ c ∈ "0123456789".toList := by
  have e : "0123456789".toList = (List.range 10).map fun n => Char.ofNat (48 + n) := by decide
  rw [e]
  simp only [isDigit, Bool.and_eq_true, decide_eq_true_eq, List.mem_map, List.mem_range]
  constructor
  · rintro ⟨h1, h2⟩
    exact ⟨c.toNat - 48, by omega, by rw [show 48 + (c.toNat - 48) = c.toNat by omega]; exact Char.ofNat_toNat c⟩
  · rintro ⟨n, hn, rfl⟩
    rw [toNat_ofNat (by omega)]
    omega

/-- no character that could go on with a number -/
def Stop (r : Str) : Prop := ∀ c, r.head? = some c → isDigit c = false ∧ c ≠ '.' ∧ c ≠ 'e' ∧ c ≠ 'E'

theorem takeWhile_stop {p : Char → Bool} {ds r : Str} (h : ∀ c ∈ ds, p c = true) (hr : ∀ c, r.head? = some c → p c = false) :
    (ds ++ r).takeWhile p = ds ∧ (ds ++ r).dropWhile p = r := by
  rw [List.takeWhile_append_of_pos h, List.dropWhile_append_of_pos h]
  cases r with
  | nil => simp
  | cons c r => simp [hr c rfl]

theorem digits1_of {ds r : Str} (h : Digits ds) (hr : ∀ c, r.head? = some c → isDigit c = false) : digits1 (ds ++ r) = some (ds, r) := by
  obtain ⟨h1, h2⟩ := takeWhile_stop (p := isDigit) (fun c hc => (isDigit_iff c).2 (h.2 c hc)) hr
  unfold digits1
  rw [h1, h2, if_neg]
  simpa using h.1

theorem of_digits1 {s : Str} {x : Str × Str} (h : digits1 s = some x) : Digits x.1 ∧ s = x.1 ++ x.2 := by
  unfold digits1 at h
  split at h
  · simp at h
  · rename_i hn
    simp only [Option.some.injEq] at h
    subst h
    refine ⟨⟨by simpa using hn, fun c hc => (isDigit_iff c).1 ?_⟩, List.takeWhile_append_dropWhile.symm⟩
    exact List.all_eq_true.1 (List.all_takeWhile (p := isDigit) (l := s)) c hc

theorem digits_head {ds : Str} (h : Digits ds) : ∃ c r, ds = c :: r ∧ isDigit c = true := by
  cases ds with
  | nil => exact absurd rfl h.1
  | cons c r => exact ⟨c, r, rfl, (isDigit_iff c).2 (h.2 c (by simp))⟩

theorem intPart_of {i r : Str} (h : i = ['0'] ∨ Digits i ∧ i.head? ≠ some '0') (hr : ∀ c, r.head? = some c → isDigit c = false) : intPart (i ++ r) = some (i, r) := by
  rcases h with rfl | ⟨h1, h2⟩
  · rfl
  · obtain ⟨c, d, rfl, hc⟩ := digits_head h1
    have hn : c ≠ '0' := by simpa using h2
    have : intPart (c :: (d ++ r)) = digits1 (c :: (d ++ r)) := by
      rw [intPart]
      intro r' he
      exact hn (List.cons.inj he).1
    exact this.trans (digits1_of h1 hr)

theorem of_intPart {s : Str} {x : Str × Str} (h : intPart s = some x) : (x.1 = ['0'] ∨ Digits x.1 ∧ x.1.head? ≠ some '0') ∧ s = x.1 ++ x.2 := by
  unfold intPart at h
  split at h
  · simp only [Option.some.injEq] at h
    subst h
    exact ⟨.inl rfl, rfl⟩
  · rename_i hn
    obtain ⟨h1, h2⟩ := of_digits1 h
    refine ⟨.inr ⟨h1, fun h0 => ?_⟩, h2⟩
    obtain ⟨c, d, e, -⟩ := digits_head h1
    rw [e] at h0
    simp only [List.head?_cons, Option.some.injEq] at h0
    rw [e, h0] at h2
    exact hn _ h2

theorem fracPart_of {f r : Str} (h : f = [] ∨ ∃ ds, f = '.' :: ds ∧ Digits ds) (hr : ∀ c, r.head? = some c → isDigit c = false ∧ c ≠ '.') :
    fracPart (f ++ r) = some (f, r) := by
  rcases h with rfl | ⟨ds, rfl, h⟩
  · rw [List.nil_append, fracPart]
    intro r' he
    exact (hr '.' (by rw [he]; rfl)).2 rfl
  · show (digits1 (ds ++ r)).map _ = _
    rw [digits1_of h fun c hc => (hr c hc).1]
    rfl

theorem of_fracPart {s : Str} {x : Str × Str} (h : fracPart s = some x) : (x.1 = [] ∨ ∃ ds, x.1 = '.' :: ds ∧ Digits ds) ∧ s = x.1 ++ x.2 := by
  unfold fracPart at h
  split at h
  · rw [Option.map_eq_some_iff] at h
    obtain ⟨y, hy, rfl⟩ := h
    obtain ⟨h1, h2⟩ := of_digits1 hy
    exact ⟨.inr ⟨y.1, rfl, h1⟩, by rw [h2]; rfl⟩
  · simp only [Option.some.injEq] at h
    subst h
    exact ⟨.inl rfl, rfl⟩

theorem expPart_of {e r : Str} (h : e = [] ∨ ∃ c g ds, e = c :: (g ++ ds) ∧ (c = 'e' ∨ c = 'E') ∧ (g = [] ∨ g = ['+'] ∨ g = ['-']) ∧ Digits ds)
    (hr : ∀ c, r.head? = some c → isDigit c = false ∧ c ≠ 'e' ∧ c ≠ 'E') : expPart (e ++ r) = some (e, r) := by
  rcases h with rfl | ⟨c, g, ds, rfl, hc, hg, hd⟩
  · cases r with
    | nil => rfl
    | cons c r =>
      have := hr c rfl
      rw [List.nil_append, expPart, if_neg (by simp [this])]
  · have hs : sign (g ++ ds ++ r) = (g, ds ++ r) := by
      rcases hg with rfl | rfl | rfl
      · obtain ⟨x, y, rfl, hx⟩ := digits_head hd
        show sign (x :: (y ++ r)) = _
        rw [sign]
        · rfl
        · intro r' he
          have := (List.cons.inj he).1
          subst this
          exact absurd hx (by decide)
        · intro r' he
          have := (List.cons.inj he).1
          subst this
          exact absurd hx (by decide)
      · rfl
      · rfl
    show expPart (c :: (g ++ ds ++ r)) = _
    rw [expPart, if_pos hc, hs]
    simp only
    rw [digits1_of hd fun c hc => (hr c hc).1]
    rfl

theorem of_sign (s : Str) : ((sign s).1 = [] ∨ (sign s).1 = ['+'] ∨ (sign s).1 = ['-']) ∧ s = (sign s).1 ++ (sign s).2 := by
  unfold sign
  split
  · exact ⟨.inr (.inl rfl), rfl⟩
  · exact ⟨.inr (.inr rfl), rfl⟩
  · exact ⟨.inl rfl, rfl⟩

theorem of_expPart {s : Str} {x : Str × Str} (h : expPart s = some x) :
    (x.1 = [] ∨ ∃ c g ds, x.1 = c :: (g ++ ds) ∧ (c = 'e' ∨ c = 'E') ∧ (g = [] ∨ g = ['+'] ∨ g = ['-']) ∧ Digits ds) ∧ s = x.1 ++ x.2 := by
  unfold expPart at h
  split at h
  · rename_i c r
    split at h
    · rename_i hc
      rw [Option.map_eq_some_iff] at h
      obtain ⟨y, hy, rfl⟩ := h
      obtain ⟨h1, h2⟩ := of_digits1 hy
      obtain ⟨g1, g2⟩ := of_sign r
      refine ⟨.inr ⟨c, _, _, rfl, hc, g1, h1⟩, ?_⟩
      simp only [List.cons_append, List.append_assoc]
      rw [← h2, ← g2]
    · simp only [Option.some.injEq] at h
      subst h
      exact ⟨.inl rfl, rfl⟩
  · simp only [Option.some.injEq] at h
    subst h
    exact ⟨.inl rfl, rfl⟩

theorem number_of {s r : Str} (h : NumText s) (hr : Stop r) : number (s ++ r) = some (s, r) := by
  obtain ⟨m, i, f, e, rfl, hm, hi, hf, he⟩ := h
  have h3 : expPart (e ++ r) = some (e, r) := expPart_of he fun c hc => ⟨(hr c hc).1, (hr c hc).2.2⟩
  have s2 : ∀ c, (e ++ r).head? = some c → isDigit c = false ∧ c ≠ '.' := by
    intro c hc
    rcases he with rfl | ⟨d, g, ds, rfl, hd, -, -⟩
    · exact ⟨(hr c hc).1, (hr c hc).2.1⟩
    · have : d = c := by simpa using hc
      subst this
      rcases hd with rfl | rfl <;> decide
  have h2 : fracPart (f ++ (e ++ r)) = some (f, e ++ r) := fracPart_of hf s2
  have s1 : ∀ c, (f ++ (e ++ r)).head? = some c → isDigit c = false := by
    intro c hc
    rcases hf with rfl | ⟨ds, rfl, -⟩
    · exact (s2 c hc).1
    · have : '.' = c := by simpa using hc
      subst this
      decide
  have h1 : intPart (i ++ (f ++ (e ++ r))) = some (i, f ++ (e ++ r)) := intPart_of hi s1
  have hd : ∀ c r', i = c :: r' → c ≠ '-' := by
    intro c r' h
    subst h
    rcases hi with h0 | ⟨h0, -⟩
    · have := (List.cons.inj h0).1
      subst this; decide
    · rintro rfl
      have := (isDigit_iff '-').2 (h0.2 '-' (by simp))
      exact absurd this (by decide)
  have hne : i ≠ [] := by
    rcases hi with rfl | ⟨h0, -⟩
    · simp
    · exact h0.1
  unfold number
  have hm' : (if (m ++ (i ++ (f ++ e)) ++ r).head? = some '-' then ['-'] else []) = m := by
    rcases hm with rfl | rfl
    · obtain ⟨c, r', rfl⟩ : ∃ c r', i = c :: r' := by
        cases i with
        | nil => exact absurd rfl hne
        | cons c r' => exact ⟨c, r', rfl⟩
      have := hd c r' rfl
      rw [if_neg]
      simpa using this
    · rfl
  simp only [hm']
  have hdrop : (m ++ (i ++ (f ++ e)) ++ r).drop m.length = i ++ (f ++ (e ++ r)) := by simp
  rw [hdrop, h1, Option.bind_some, h2, Option.bind_some, h3, Option.map_some]

theorem of_number {s : Str} {x : Str × Str} (h : number s = some x) : NumText x.1 ∧ s = x.1 ++ x.2 := by
  unfold number at h
  simp only at h
  rw [Option.bind_eq_some_iff] at h
  obtain ⟨i, hi, h⟩ := h
  rw [Option.bind_eq_some_iff] at h
  obtain ⟨f, hf, h⟩ := h
  rw [Option.map_eq_some_iff] at h
  obtain ⟨e, he, rfl⟩ := h
  obtain ⟨i1, i2⟩ := of_intPart hi
  obtain ⟨f1, f2⟩ := of_fracPart hf
  obtain ⟨e1, e2⟩ := of_expPart he
  have key : s = (if s.head? = some '-' then ['-'] else []) ++ s.drop (if s.head? = some '-' then ['-'] else []).length := by
    split
    · rename_i hm
      cases s with
      | nil => simp at hm
      | cons c r =>
        have : c = '-' := by simpa using hm
        subst this
        rfl
    · rfl
  refine ⟨⟨_, _, _, _, rfl, ?_, i1, f1, e1⟩, ?_⟩
  · split
    · exact .inr rfl
    · exact .inl rfl
  · conv => lhs; rw [key, i2, f2, e2]
    simp

/-! ## values -/

theorem stop_ws {w r : Str} (hw : Ws w) (hr : Stop r) : Stop (w ++ r) := by
  cases w with
  | nil => exact hr
  | cons c w =>
    intro d hd
    have : c = d := by simpa using hd
    subst this
    have := hw c (by simp)
    simp only [List.mem_cons, List.not_mem_nil, or_false] at this
    rcases this with rfl | rfl | rfl | rfl <;> decide

theorem stop_sep {c : Char} (h : c = ',' ∨ c = '}' ∨ c = ']') (r : Str) : Stop (c :: r) := by
  intro d hd
  have : c = d := by simpa using hd
  subst this
  rcases h with rfl | rfl | rfl <;> decide

theorem num_head {s : Str} (h : NumText s) : ∃ c r, s = c :: r ∧ (c = '-' ∨ isDigit c = true) := by
  obtain ⟨m, i, f, e, rfl, hm, hi, hf, he⟩ := h
  rcases hm with rfl | rfl
  · rcases hi with rfl | ⟨hi, -⟩
    · exact ⟨_, _, rfl, .inr (by decide)⟩
    · obtain ⟨c, r, rfl, hc⟩ := digits_head hi
      exact ⟨c, _, rfl, .inr hc⟩
  · exact ⟨_, _, rfl, .inl rfl⟩

theorem digit_or_minus {c : Char} (h : c = '-' ∨ isDigit c = true) :
    isWs c = false ∧ c ≠ '"' ∧ c ≠ 't' ∧ c ≠ 'f' ∧ c ≠ 'n' ∧ c ≠ '{' ∧ c ≠ '[' ∧ c ≠ '}' ∧ c ≠ ']' ∧ c.toNat < 0x80 := by
  rcases h with rfl | h
  · decide
  · have := (isDigit_iff c).1 h
    have key : ∀ c ∈ "0123456789".toList, isWs c = false ∧ c ≠ '"' ∧ c ≠ 't' ∧ c ≠ 'f' ∧ c ≠ 'n' ∧ c ≠ '{' ∧ c ≠ '[' ∧ c ≠ '}' ∧ c ≠ ']' ∧ c.toNat < 0x80 := by decide
    exact key c this

theorem val_head {v : Str} {t : Tree} (h : Val v t) : ∃ c r, v = c :: r ∧ isWs c = false ∧ c ≠ '}' ∧ c ≠ ']' ∧ c.toNat < 0x80 := by
  cases h with
  | str _ => exact ⟨_, _, rfl, by decide⟩
  | num h =>
    obtain ⟨c, r, rfl, hc⟩ := num_head h
    have := digit_or_minus hc
    exact ⟨c, r, rfl, this.1, this.2.2.2.2.2.2.2.1, this.2.2.2.2.2.2.2.2.1, this.2.2.2.2.2.2.2.2.2⟩
  | lit h => rcases h with rfl | rfl | rfl <;> exact ⟨_, _, rfl, by decide⟩
  | emptyObject _ => exact ⟨_, _, rfl, by decide⟩
  | emptyArray _ => exact ⟨_, _, rfl, by decide⟩
  | object _ => exact ⟨_, _, rfl, by decide⟩
  | array _ => exact ⟨_, _, rfl, by decide⟩

theorem keyOf_of {obj : Bool} {p : Str} {k : Key} (h : KeyText obj p k) (r : Str) : keyOf obj (p ++ r) = some (k, r) := by
  cases h with
  | element => rfl
  | @member a q m b ha hq hb =>
    have e1 : (a ++ '"' :: (q ++ '"' :: (b ++ [':'])) ++ r).dropWhile isWs = '"' :: (q ++ '"' :: (b ++ ':' :: r)) := by
      have : a ++ '"' :: (q ++ '"' :: (b ++ [':'])) ++ r = a ++ '"' :: (q ++ '"' :: (b ++ ':' :: r)) := by simp
      rw [this]
      exact dropWs_stop a '"' _ (ws_all ha) (by decide)
    unfold keyOf
    rw [if_pos rfl, e1, List.head?_cons, if_pos rfl, List.tail_cons]
    rw [str_of hq _ _ (by simp; omega), Option.bind_some]
    simp only
    rw [dropWs_stop b ':' r (ws_all hb) (by decide), List.head?_cons, if_pos rfl, List.tail_cons]

theorem head_eq {s : Str} {c : Char} (h : s.head? = some c) : s = c :: s.tail := by
  cases s with
  | nil => simp at h
  | cons d s => simp at h; subst h; rfl

theorem of_keyOf {obj : Bool} {s : Str} {x : Key × Str} (h : keyOf obj s = some x) : ∃ p, KeyText obj p x.1 ∧ s = p ++ x.2 := by
  unfold keyOf at h
  split at h
  · rename_i ho
    subst ho
    split at h
    · rename_i hq
      rw [Option.bind_eq_some_iff] at h
      obtain ⟨y, hy, h⟩ := h
      split at h
      · rename_i hc
        simp only [Option.some.injEq] at h
        subst h
        obtain ⟨v, hv1, hv2⟩ := of_str _ _ _ _ (Nat.le_refl _) hy
        obtain ⟨a, ha1, ha2⟩ := ws_split s
        obtain ⟨b, hb1, hb2⟩ := ws_split y.2
        refine ⟨_, .member ha1 hv1 hb1, ?_⟩
        conv => lhs; rw [ha2, head_eq hq, hv2, hb2, head_eq hc]
        simp
      · simp at h
    · simp at h
  · rename_i ho
    have : obj = false := by simpa using ho
    subst this
    simp only [Option.some.injEq] at h
    subst h
    exact ⟨[], .element, rfl⟩

/-- the character that closes an object or array -/
def close (obj : Bool) : Char := if obj then '}' else ']'

theorem scalar_num {s r : Str} (h : NumText s) (hr : Stop r) : scalar (s ++ r) = some (s, r) := by
  obtain ⟨c, q, rfl, hc⟩ := num_head h
  have := digit_or_minus hc
  unfold scalar
  have hh : (c :: q ++ r).head? = some c := rfl
  rw [hh]
  simp only [Option.some.injEq]
  rw [if_neg this.2.1, if_neg this.2.2.1, if_neg this.2.2.2.1, if_neg this.2.2.2.2.1]
  exact number_of h hr

theorem items_no_close {obj : Bool} {s : Str} {ks : List (Key × Tree)} (h : Items obj s ks) (r : Str) : ((s ++ r).dropWhile isWs).head? ≠ some (close obj) := by
  have key : ∀ {p a v q : Str} {k : Key} {t : Tree}, KeyText obj p k → Ws a → Val v t → ((p ++ (a ++ (v ++ q))).dropWhile isWs).head? ≠ some (close obj) := by
    intro p a v q k t hp ha hv
    cases hp with
    | @member a' k' m b ha' _ _ =>
      have : a' ++ '"' :: (k' ++ '"' :: (b ++ [':'])) ++ (a ++ (v ++ q)) = a' ++ '"' :: (k' ++ '"' :: (b ++ ':' :: (a ++ (v ++ q)))) := by simp
      rw [this, dropWs_stop a' '"' _ (ws_all ha') (by decide)]
      simp [close]
    | element =>
      obtain ⟨c, w, rfl, h1, h2, h3, -⟩ := val_head hv
      show ((a ++ c :: (w ++ q)).dropWhile isWs).head? ≠ _
      rw [dropWs_stop a c _ (ws_all ha) h1]
      simpa [close] using h3
  cases h with
  | @last _ p a v b k t hp ha hv hb =>
    have := key (q := b ++ r) hp ha hv
    simpa using this
  | @more _ p a v b s' k t ks' hp ha hv hb _ =>
    have := key (q := b ++ ',' :: (s' ++ r)) hp ha hv
    simpa using this

theorem read_of (n : Nat) :
    (∀ v t, v.length ≤ n → Val v t → ∀ a r f, Ws a → Stop r → 2 * v.length ≤ f → value f (a ++ (v ++ r)) = some (t, r)) ∧
    (∀ obj s ks, s.length ≤ n → Items obj s ks → ∀ r f, 2 * s.length + 1 ≤ f → items obj f (s ++ close obj :: r) = some (ks, r)) := by
  induction n with
  | zero =>
    refine ⟨fun v t hn h => ?_, fun obj s ks hn h => ?_⟩
    · obtain ⟨c, r, rfl, -⟩ := val_head h
      simp at hn
    · have hs : s = [] := List.length_eq_zero_iff.1 (by omega)
      cases h with
      | last _ _ hv _ =>
        obtain ⟨c, r, rfl, -⟩ := val_head hv
        simp at hs
      | more _ _ hv _ _ =>
        obtain ⟨c, r, rfl, -⟩ := val_head hv
        simp at hs
  | succ n ih =>
    obtain ⟨ihv, ihi⟩ := ih
    have V : ∀ v t, v.length ≤ n + 1 → Val v t → ∀ a r f, Ws a → Stop r → 2 * v.length ≤ f → value f (a ++ (v ++ r)) = some (t, r) := by
      intro v t hn h a r f ha hr hf
      obtain ⟨c, v', hv', hc, -⟩ := val_head h
      have hd : (a ++ (v ++ r)).dropWhile isWs = v ++ r := by
        rw [hv']; exact dropWs_stop a c _ (ws_all ha) hc
      have hl : 1 ≤ v.length := by rw [hv']; simp
      obtain ⟨f, rfl⟩ : ∃ g, f = g + 1 := ⟨f - 1, by omega⟩
      rw [value, hd]
      cases h with
      | @str q m hq =>
        have e : '"' :: (q ++ ['"']) ++ r = '"' :: (q ++ '"' :: r) := by simp
        rw [e, List.head?_cons, if_neg (by decide), if_neg (by decide), scalar, List.head?_cons, if_pos rfl, List.tail_cons, str_of hq _ _ (by simp)]
        rfl
      | num h =>
        obtain ⟨d, w, rfl, hd'⟩ := num_head h
        have hne := digit_or_minus hd'
        have hh : (d :: w ++ r).head? = some d := rfl
        rw [hh]
        simp only [Option.some.injEq]
        rw [if_neg hne.2.2.2.2.2.1, if_neg hne.2.2.2.2.2.2.1, scalar_num h hr]
        rfl
      | lit h =>
        have hp : ∀ w : Str, w.isPrefixOf (w ++ r) = true := fun w => List.isPrefixOf_iff_prefix.2 (List.prefix_append _ _)
        rcases h with rfl | rfl | rfl
        · have : scalar ("true".toList ++ r) = some ("true".toList, r) := by
            unfold scalar
            rw [if_neg (by simp), if_pos (by simp), if_pos (hp _)]
            rfl
          rw [this, if_neg (by simp), if_neg (by simp)]
          rfl
        · have : scalar ("false".toList ++ r) = some ("false".toList, r) := by
            unfold scalar
            rw [if_neg (by simp), if_neg (by simp), if_pos (by simp), if_pos (hp _)]
            rfl
          rw [this, if_neg (by simp), if_neg (by simp)]
          rfl
        · have : scalar ("null".toList ++ r) = some ("null".toList, r) := by
            unfold scalar
            rw [if_neg (by simp), if_neg (by simp), if_neg (by simp), if_pos (by simp), if_pos (hp _)]
            rfl
          rw [this, if_neg (by simp), if_neg (by simp)]
          rfl
      | @emptyObject w hw =>
        have e : '{' :: (w ++ ['}']) ++ r = '{' :: (w ++ '}' :: r) := by simp
        rw [e, List.head?_cons, if_pos rfl, List.tail_cons, dropWs_stop w '}' r (ws_all hw) (by decide), List.head?_cons, if_pos rfl, List.tail_cons]
      | @emptyArray w hw =>
        have e : '[' :: (w ++ [']']) ++ r = '[' :: (w ++ ']' :: r) := by simp
        rw [e, List.head?_cons, if_neg (by decide), if_pos rfl, List.tail_cons, dropWs_stop w ']' r (ws_all hw) (by decide), List.head?_cons, if_pos rfl, List.tail_cons]
      | @object s ks hs =>
        have e : '{' :: (s ++ ['}']) ++ r = '{' :: (s ++ '}' :: r) := by simp
        have hn' : s.length ≤ n := by simp at hn; omega
        have i1 : ((s ++ '}' :: r).dropWhile isWs).head? ≠ some '}' := items_no_close hs ('}' :: r)
        have i2 : items true f (s ++ '}' :: r) = some (ks, r) := ihi true s ks hn' hs r f (by simp at hf; omega)
        rw [e, List.head?_cons, if_pos rfl, List.tail_cons, if_neg i1, i2]
        rfl
      | @array s ks hs =>
        have e : '[' :: (s ++ [']']) ++ r = '[' :: (s ++ ']' :: r) := by simp
        have hn' : s.length ≤ n := by simp at hn; omega
        have i1 : ((s ++ ']' :: r).dropWhile isWs).head? ≠ some ']' := items_no_close hs (']' :: r)
        have i2 : items false f (s ++ ']' :: r) = some (ks, r) := ihi false s ks hn' hs r f (by simp at hf; omega)
        rw [e, List.head?_cons, if_neg (by decide), if_pos rfl, List.tail_cons, if_neg i1, i2]
        rfl
    refine ⟨V, fun obj s ks hn h r f hf => ?_⟩
    obtain ⟨f, rfl⟩ : ∃ g, f = g + 1 := ⟨f - 1, by omega⟩
    have wsc : isWs ',' = false := by decide
    have wso : isWs (close obj) = false := by cases obj <;> decide
    cases h with
    | @last _ p a v b k t hp ha hv hb =>
      have e : p ++ (a ++ (v ++ b)) ++ close obj :: r = p ++ (a ++ (v ++ (b ++ close obj :: r))) := by simp
      have hs : Stop (b ++ close obj :: r) := stop_ws hb (stop_sep (by cases obj <;> simp [close]) r)
      simp only [List.length_append] at hn hf
      rw [items, e, keyOf_of hp, Option.bind_some]
      simp only
      rw [V v t (by omega) hv a _ f ha hs (by omega), Option.bind_some]
      simp only
      rw [dropWs_stop b _ r (ws_all hb) wso, List.head?_cons, if_neg (by cases obj <;> simp [close])]
      rw [if_pos (by cases obj <;> rfl), List.tail_cons]
    | @more _ p a v b s' k t ks' hp ha hv hb hs' =>
      have e : p ++ (a ++ (v ++ (b ++ ',' :: s'))) ++ close obj :: r = p ++ (a ++ (v ++ (b ++ ',' :: (s' ++ close obj :: r)))) := by simp
      have hs : Stop (b ++ ',' :: (s' ++ close obj :: r)) := stop_ws hb (stop_sep (.inl rfl) _)
      simp only [List.length_append, List.length_cons] at hn hf
      have i2 := ihi obj s' ks' (by omega) hs' r f (by omega)
      rw [items, e, keyOf_of hp, Option.bind_some]
      simp only
      rw [V v t (by omega) hv a _ f ha hs (by omega), Option.bind_some]
      simp only
      rw [dropWs_stop b _ _ (ws_all hb) wsc, List.head?_cons, if_pos rfl, List.tail_cons, i2]
      rfl

theorem of_scalar {s : Str} {x : Str × Str} (h : scalar s = some x) : ∃ v, Val v (.node x.1 []) ∧ s = v ++ x.2 := by
  have lit : ∀ w : Str, (w = "true".toList ∨ w = "false".toList ∨ w = "null".toList) → (if w.isPrefixOf s then some (w, s.drop w.length) else none) = some x → ∃ v, Val v (.node x.1 []) ∧ s = v ++ x.2 := by
    intro w hw h
    split at h
    · rename_i hp
      simp only [Option.some.injEq] at h
      subst h
      obtain ⟨r, rfl⟩ := List.isPrefixOf_iff_prefix.1 hp
      exact ⟨w, .lit hw, by simp⟩
    · simp at h
  unfold scalar at h
  split at h
  · rename_i hh
    obtain ⟨v, h1, h2⟩ := of_str _ _ _ _ (Nat.le_refl _) h
    refine ⟨_, .str h1, ?_⟩
    rw [head_eq hh, h2]; simp
  split at h
  · exact lit _ (.inl rfl) h
  split at h
  · exact lit _ (.inr (.inl rfl)) h
  split at h
  · exact lit _ (.inr (.inr rfl)) h
  · obtain ⟨h1, h2⟩ := of_number h
    exact ⟨_, .num h1, h2⟩

theorem of_read (f : Nat) :
    (∀ s x, value f s = some x → ∃ a v, Ws a ∧ Val v x.1 ∧ s = a ++ (v ++ x.2)) ∧
    (∀ obj s x, items obj f s = some x → ∃ v, Items obj v x.1 ∧ s = v ++ close obj :: x.2) := by
  induction f with
  | zero => exact ⟨fun s x h => by simp [value] at h, fun obj s x h => by simp [items] at h⟩
  | succ f ih =>
    obtain ⟨ihv, ihi⟩ := ih
    constructor
    · intro s x h
      obtain ⟨a, ha1, ha2⟩ := ws_split s
      rw [value] at h
      split at h
      · rename_i h0
        split at h
        · rename_i h1
          simp only [Option.some.injEq] at h
          subst h
          obtain ⟨w, hw1, hw2⟩ := ws_split (s.dropWhile isWs).tail
          refine ⟨a, _, ha1, .emptyObject hw1, ?_⟩
          conv => lhs; rw [ha2, head_eq h0, hw2, head_eq h1]
          simp
        · rw [Option.map_eq_some_iff] at h
          obtain ⟨y, hy, rfl⟩ := h
          obtain ⟨v, hv1, hv2⟩ := ihi _ _ _ hy
          refine ⟨a, _, ha1, .object hv1, ?_⟩
          conv => lhs; rw [ha2, head_eq h0, hv2]
          simp [close]
      split at h
      · rename_i h0
        split at h
        · rename_i h1
          simp only [Option.some.injEq] at h
          subst h
          obtain ⟨w, hw1, hw2⟩ := ws_split (s.dropWhile isWs).tail
          refine ⟨a, _, ha1, .emptyArray hw1, ?_⟩
          conv => lhs; rw [ha2, head_eq h0, hw2, head_eq h1]
          simp
        · rw [Option.map_eq_some_iff] at h
          obtain ⟨y, hy, rfl⟩ := h
          obtain ⟨v, hv1, hv2⟩ := ihi _ _ _ hy
          refine ⟨a, _, ha1, .array hv1, ?_⟩
          conv => lhs; rw [ha2, head_eq h0, hv2]
          simp [close]
      · rw [Option.map_eq_some_iff] at h
        obtain ⟨y, hy, rfl⟩ := h
        obtain ⟨v, hv1, hv2⟩ := of_scalar hy
        refine ⟨a, v, ha1, hv1, ?_⟩
        conv => lhs; rw [ha2, hv2]
    · intro obj s x h
      rw [items, Option.bind_eq_some_iff] at h
      obtain ⟨k, hk, h⟩ := h
      rw [Option.bind_eq_some_iff] at h
      obtain ⟨v, hv, h⟩ := h
      obtain ⟨p, hp1, hp2⟩ := of_keyOf hk
      obtain ⟨a, w, ha, hw1, hw2⟩ := ihv _ _ hv
      obtain ⟨b, hb1, hb2⟩ := ws_split v.2
      split at h
      · rename_i hc
        rw [Option.map_eq_some_iff] at h
        obtain ⟨y, hy, rfl⟩ := h
        obtain ⟨u, hu1, hu2⟩ := ihi _ _ _ hy
        refine ⟨_, .more hp1 ha hw1 hb1 hu1, ?_⟩
        conv => lhs; rw [hp2, hw2, hb2, head_eq hc, hu2]
        simp
      by_cases hc : (v.2.dropWhile isWs).head? = some (if obj then '}' else ']')
      · rw [if_pos hc] at h
        simp only [Option.some.injEq] at h
        subst h
        refine ⟨_, .last hp1 ha hw1 hb1, ?_⟩
        conv => lhs; rw [hp2, hw2, hb2, head_eq hc]
        simp [close]
      · rw [if_neg hc] at h
        simp at h

theorem skipBom_of {b s : Str} (hb : b <+: bom) (hs : ∃ c r, s = c :: r ∧ c.toNat < 0x80) : skipBom (b ++ s) = s := by
  obtain ⟨c, r, rfl, hc⟩ := hs
  have n1 : c ≠ Char.ofNat 0xEF := by rintro rfl; exact absurd hc (by decide)
  have n2 : c ≠ Char.ofNat 0xBB := by rintro rfl; exact absurd hc (by decide)
  have n3 : c ≠ Char.ofNat 0xBF := by rintro rfl; exact absurd hc (by decide)
  have : b = [] ∨ b = [Char.ofNat 0xEF] ∨ b = [Char.ofNat 0xEF, Char.ofNat 0xBB] ∨ b = bom := by
    obtain ⟨t, ht⟩ := hb
    unfold bom at ht ⊢
    rcases b with _ | ⟨x, _ | ⟨y, _ | ⟨z, _ | ⟨w, b⟩⟩⟩⟩
    · exact .inl rfl
    · simp at ht; right; left; rw [ht.1]
    · simp at ht; right; right; left; rw [ht.1, ht.2.1]
    · simp at ht; right; right; right; rw [ht.1, ht.2.1, ht.2.2.1]
    · simp at ht
  rcases this with rfl | rfl | rfl | rfl
  · show skipBom (c :: r) = _
    rw [skipBom, if_neg n1]
  · show skipBom (Char.ofNat 0xEF :: c :: r) = _
    rw [skipBom, if_pos rfl, List.head?_cons, if_neg (by simpa using n2)]
  · show skipBom (Char.ofNat 0xEF :: Char.ofNat 0xBB :: c :: r) = _
    rw [skipBom, if_pos rfl, List.head?_cons, if_pos rfl, List.tail_cons, List.head?_cons, if_neg (by simpa using n3)]
  · rfl

theorem of_skipBom (s : Str) : ∃ b, b <+: bom ∧ s = b ++ skipBom s := by
  unfold skipBom
  split
  · rename_i a r
    split
    · rename_i ha
      subst ha
      split
      · rename_i hb
        have e := head_eq hb
        split
        · rename_i hc
          have e2 := head_eq hc
          refine ⟨bom, List.prefix_refl _, ?_⟩
          conv => lhs; rw [e, e2]
          rfl
        · refine ⟨[Char.ofNat 0xEF, Char.ofNat 0xBB], ⟨[Char.ofNat 0xBF], rfl⟩, ?_⟩
          conv => lhs; rw [e]
          rfl
      · exact ⟨[Char.ofNat 0xEF], ⟨[Char.ofNat 0xBB, Char.ofNat 0xBF], rfl⟩, rfl⟩
    · exact ⟨[], List.nil_prefix, rfl⟩
  · exact ⟨[], List.nil_prefix, rfl⟩

/-! ## C163 -/

/-- **C163** A text is read as the tree `t` exactly if it is a JSON text that stands for `t`. -/
theorem C163_read (s : Str) (t : Tree) : readJson s = some t ↔ JsonText s t := by
  constructor
  · intro h
    unfold readJson at h
    rw [Option.bind_eq_some_iff] at h
    obtain ⟨x, hx, h⟩ := h
    split at h
    · rename_i he
      simp only [Option.some.injEq] at h
      subst h
      obtain ⟨b, hb1, hb2⟩ := of_skipBom s
      obtain ⟨a, v, ha, hv, e⟩ := (of_read _).1 _ _ hx
      obtain ⟨c, hc1, hc2⟩ := ws_split x.2
      refine ⟨b, a, v, c, ?_, hb1, ha, hv, hc1⟩
      rw [List.isEmpty_iff.1 he, List.append_nil] at hc2
      conv => lhs; rw [hb2, e, hc2]
    · simp at h
  · rintro ⟨b, a, v, c, rfl, hb, ha, hv, hc⟩
    have hst : Stop c := by
      have := stop_ws hc (r := []) (fun d hd => by simp at hd)
      simpa using this
    have hsk : skipBom (b ++ (a ++ (v ++ c))) = a ++ (v ++ c) := by
      apply skipBom_of hb
      cases a with
      | nil =>
        obtain ⟨d, r, rfl, -, -, -, h⟩ := val_head hv
        exact ⟨d, _, rfl, h⟩
      | cons d a =>
        refine ⟨d, _, rfl, ?_⟩
        have := ha d (by simp)
        simp only [List.mem_cons, List.not_mem_nil, or_false] at this
        rcases this with rfl | rfl | rfl | rfl <;> decide
    unfold readJson
    rw [hsk, (read_of v.length).1 v t (Nat.le_refl _) hv a c _ ha hst (by simp only [List.length_append]; omega), Option.bind_some]
    have := dropWs c [] (ws_all hc)
    rw [List.append_nil] at this
    simp only [this, List.dropWhile_nil, List.isEmpty_nil, if_true]

/-- **C163** A JSON text stands for one tree only. -/
theorem C163_unique (s : Str) (t t' : Tree) (h : JsonText s t) (h' : JsonText s t') : t = t' := by
  rw [← C163_read] at h h'
  exact Option.some.inj (h.symm.trans h')

/-- **C163** `load` of a file whose name ends in `.json`: a JSON text gives its tree, anything else is refused and leaves the tree as it was. -/
theorem C163_load (F : Formats) (hr : F.read .json = readJson) (d : Disk) (path : Str) (hp : ".json".toList <:+ path) (s : Str) (hd : d.content path = some s) (t0 : Tree) :
    (∀ t, JsonText s t → load F d path t0 = (none, t)) ∧ ((∀ t, ¬ JsonText s t) → load F d path t0 = (some .parser, t0)) := by
  obtain ⟨-, h2, h3, -⟩ := C95_errors F [] d path t0 .json hp
  refine ⟨fun t ht => h3 s t hd (by rw [hr]; exact (C163_read s t).2 ht), fun h => h2 s hd ?_⟩
  rw [hr]
  cases hc : readJson s with
  | none => rfl
  | some t => exact absurd ((C163_read s t).1 hc) (h t)

/-- a text in the style of another program: no white space, an escaped character beyond 16 bits, a number, an array with white space -/
example : JsonText "{\"k\":\"\\uD834\\uDD1E\", \"n\" : [ -1.5e+3 ,null]}\n".toList
    (.node [] [("k".toList, .node [Char.ofNat 0xF0, Char.ofNat 0x9D, Char.ofNat 0x84, Char.ofNat 0x9E] []), ("n".toList, .node [] [([], .node "-1.5e+3".toList []), ([], .node "null".toList [])])]) := by
  have w0 : Ws [] := by simp [Ws]
  have w1 : Ws [' '] := by simp [Ws]
  have one : ∀ c : Char, c.toNat < 0x80 → c ≠ '"' → c ≠ '\\' → StrText [c] [c] := fun c h h1 h2 => StrText.char (u := [c]) (s := []) (m := []) ⟨c, [], rfl, by simp, .inl ⟨h, rfl⟩⟩ (by simpa using h1) (by simpa using h2) .nil
  have s1 : StrText "\\uD834\\uDD1E".toList [Char.ofNat 0xF0, Char.ofNat 0x9D, Char.ofNat 0x84, Char.ofNat 0x9E] := by
    have h1 : Hex4 "D834".toList 0xD834 := ⟨'D', '8', '3', '4', 13, 8, 3, 4, rfl, .inr rfl, .inl rfl, .inl rfl, .inl rfl, rfl⟩
    have h2 : Hex4 "DD1E".toList 0xDD1E := ⟨'D', 'D', '1', 'E', 13, 13, 1, 14, rfl, .inr rfl, .inr rfl, .inl rfl, .inr rfl, rfl⟩
    exact StrText.pair (c := Char.ofNat 0x1D11E) h1 h2 (by decide) (by decide) (by decide) (by decide) (by decide) .nil
  have n1 : NumText "-1.5e+3".toList :=
    ⟨['-'], ['1'], ['.', '5'], ['e', '+', '3'], rfl, .inr rfl, .inr ⟨⟨by simp, by decide⟩, by simp⟩, .inr ⟨['5'], rfl, by simp, by decide⟩, .inr ⟨'e', ['+'], ['3'], rfl, .inl rfl, .inr (.inl rfl), by simp, by decide⟩⟩
  have a1 : Items false " -1.5e+3 ,null".toList [([], .node "-1.5e+3".toList []), ([], .node "null".toList [])] :=
    .more .element w1 (.num n1) w1 (.last (a := []) (b := []) .element w0 (.lit (.inr (.inr rfl))) w0)
  have m2 : Items true " \"n\" : [ -1.5e+3 ,null]".toList [("n".toList, .node [] [([], .node "-1.5e+3".toList []), ([], .node "null".toList [])])] :=
    .last (a := [' ']) (b := []) (.member w1 (one 'n' (by decide) (by decide) (by decide)) w1) w1 (.array a1) w0
  have m1 := Items.more (a := []) (b := []) (.member (a := []) (b := []) w0 (one 'k' (by decide) (by decide) (by decide)) w0) w0 (.str s1) w0 m2
  exact ⟨[], [], _, ['\n'], rfl, List.nil_prefix, w0, .object m1, by simp [Ws]⟩

end Verif.PTree.JsonFile
