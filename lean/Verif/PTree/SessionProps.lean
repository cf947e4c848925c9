import Verif.PTree.Session
import Verif.PTree.CodecsProps
import Verif.PTree.InfoFileProps
import Verif.PTree.XmlFileProps
import Verif.PTree.IniFileProps
import Verif.PTree.JsonFileProps

/-!
# C170: values survive configuration files
-/

namespace Verif.PTree.Session

open Verif.Common Verif.PTree Verif.PTree.Codecs
open Verif.PTree.InfoFile (Inside)

/-! ## Specification -/

/-- a letter, a digit or an underscore -/
def IdChar (c : Char) : Prop := c ∈ "abcdefghijklmnopqrstuvwxyzABCDEFGHIJKLMNOPQRSTUVWXYZ0123456789_".toList

/-- an identifier -/
def Ident (k : Str) : Prop := k ≠ [] ∧ ∀ c ∈ k, IdChar c

/-- the entry a statement sets -/
def Setting.path (s : Setting) : List Key := entryPath s.ns s.key

/-- a value that its type can hold; `TextOk` are the strings in question -/
def Value.Ok (TextOk : Str → Prop) : Value → Prop
  | .str v => TextOk v
  | .int n => -2147483648 ≤ n ∧ n ≤ 2147483647
  | .bool _ => True
  | .dbl x => x.Valid ∧ x.num ≠ none

/-- the statement is called on a view of the tree, its key consists of identifiers, and the value is in order -/
def Setting.Ok (TextOk : Str → Prop) (s : Setting) : Prop :=
  Namespace s.ns ∧ CleanEnd s.ns s.key ∧ s.path ≠ [] ∧ (∀ k ∈ s.path, Ident k) ∧ s.value.Ok TextOk

/-- the getter of the type gives the value -/
def Reads (near : ℚ → ℤ) (rnd : ℚ → ℚ) (t : Tree) (ns key : Str) : Value → Prop
  | .str v => get Codecs.strCodec t ns key = .value v
  | .int n => get intCodec t ns key = .value n
  | .bool b => get boolCodec t ns key = .value b
  | .dbl x => get (doubleCodec near rnd) t ns key = .value x

/-- The tree holds what the program has set: under every name of an entry (through whatever view) the getter of its type gives the value
that was set last, and entries that were not set, and do not lead to one that was, do not exist. -/
def Kept (near : ℚ → ℤ) (rnd : ℚ → ℚ) (prog : List Setting) (t : Tree) : Prop :=
  (∀ pre s post, prog = pre ++ s :: post → (∀ s' ∈ post, s'.path ≠ s.path) →
    ∀ ns key, Namespace ns → CleanEnd ns key → entryPath ns key = s.path → Reads near rnd t ns key s.value) ∧
  ∀ ns key, Namespace ns → CleanEnd ns key → entryPath ns key ≠ [] →
    (doesKeyExist t ns key = true ↔ ∃ s ∈ prog, entryPath ns key <+: s.path)

/-- no entry is below another one -/
def NoNesting (prog : List Setting) : Prop := ∀ s ∈ prog, ∀ s' ∈ prog, s.path <+: s'.path → s.path = s'.path

/-! ## Lemmas: texts of numbers -/

/-- a character of a number or of `true` and `false` -/
def NumChar (c : Char) : Prop := c ∈ "0123456789.e+-truefalse".toList

instance (c : Char) : Decidable (NumChar c) := inferInstanceAs (Decidable (_ ∈ _))

theorem numChar_digit {c : Char} (h : c.isDigit = true) : NumChar c := by
  rw [isDigit_iff] at h
  unfold NumChar
  simp at h ⊢
  tauto

theorem numChar_digits (n : ℕ) : ∀ c ∈ Nat.toDigits 10 n, NumChar c := fun c hc =>
  numChar_digit ((isDigit_iff c).2 (allDigits_toDigits n c hc))

theorem numChar_int (n : ℤ) : ∀ c ∈ printInt n, NumChar c := by
  intro c hc
  unfold printInt at hc
  rw [List.mem_append] at hc
  rcases hc with hc | hc
  · split at hc <;> simp at hc
    subst hc; decide
  · exact numChar_digits _ c hc

theorem mem_strip {f : Str} {c : Char} (h : c ∈ stripZeros f) : c ∈ f := by
  unfold stripZeros at h
  rw [List.mem_reverse] at h
  exact List.mem_reverse.1 ((List.dropWhile_suffix _).subset h)

theorem numChar_frac {f : Str} (hf : ∀ c ∈ f, NumChar c) : ∀ c ∈ fracText f, NumChar c := by
  intro c hc
  unfold fracText at hc
  split at hc
  · simp at hc
  · rw [List.mem_cons] at hc
    rcases hc with rfl | hc
    · decide
    · exact hf c (mem_strip hc)

theorem numChar_exp (x : ℤ) : ∀ c ∈ expText x, NumChar c := by
  intro c hc
  unfold expText at hc
  simp only [List.mem_cons] at hc
  rcases hc with rfl | rfl | hc
  · decide
  · split <;> decide
  · split at hc
    · rw [List.mem_cons] at hc
      rcases hc with rfl | hc
      · decide
      · exact numChar_digits _ c hc
    · exact numChar_digits _ c hc

theorem numChar_g (m : ℕ) (x : ℤ) : ∀ c ∈ gText m x, NumChar c := by
  intro c hc
  have hd := numChar_digits m
  unfold gText at hc
  simp only at hc
  split at hc
  · split at hc
    · rw [List.mem_append] at hc
      rcases hc with hc | hc
      · exact hd c (List.mem_of_mem_take hc)
      · exact numChar_frac (fun c hc => hd c (List.mem_of_mem_drop hc)) c hc
    · rw [List.mem_cons] at hc
      rcases hc with rfl | hc
      · decide
      · refine numChar_frac (fun c hc => ?_) c hc
        rw [List.mem_append] at hc
        rcases hc with hc | hc
        · rw [List.eq_of_mem_replicate hc]; decide
        · exact hd c hc
  · simp only [List.mem_append] at hc
    rcases hc with (hc | hc) | hc
    · exact hd c (List.mem_of_mem_take hc)
    · exact numChar_frac (fun c hc => hd c (List.mem_of_mem_drop hc)) c hc
    · exact numChar_exp _ c hc

/-- the text that a statement writes -/
def Value.text (near : ℚ → ℤ) : Value → Str
  | .str v => v
  | .int n => printInt n
  | .bool b => printBool b
  | .dbl x => printDouble near x

theorem numChar_text (near : ℚ → ℤ) {P : Str → Prop} (v : Value) (h : v.Ok P) : (∀ c ∈ v.text near, NumChar c) ∨ P (v.text near) := by
  cases v with
  | str v => exact .inr h
  | int n => exact .inl (numChar_int n)
  | bool b =>
    left
    change ∀ c ∈ printBool b, NumChar c
    cases b <;> decide
  | dbl x =>
    left
    cases x with
    | inf => exact absurd rfl h.2
    | nan => exact absurd rfl h.2
    | finite neg a =>
      intro c hc
      unfold Value.text printDouble at hc
      simp only [List.mem_append] at hc
      rcases hc with hc | hc
      · split at hc <;> simp at hc
        subst hc; decide
      · split at hc
        · simp at hc; subst hc; decide
        · exact numChar_g _ _ c hc

/-! ## Lemmas: trees -/

/-- no repeated keys, at any level -/
inductive Distinct : Tree → Prop
  | mk (t : Tree) : (t.kids.map Prod.fst).Nodup → (∀ e ∈ t.kids, Distinct e.2) → Distinct t

theorem setKid_keys (ks : List (Key × Tree)) (k : Key) (t : Tree) :
    (setKid ks k t).map Prod.fst = if k ∈ ks.map Prod.fst then ks.map Prod.fst else ks.map Prod.fst ++ [k] := by
  induction ks with
  | nil => simp [setKid]
  | cons a rest ih =>
    obtain ⟨x, u⟩ := a
    simp only [setKid]
    by_cases h : k = x
    · simp [h]
    · simp only [h, if_false, List.map_cons, ih, List.mem_cons, false_or]
      split <;> simp

theorem mem_setKid {ks : List (Key × Tree)} {k : Key} {t : Tree} {e : Key × Tree} (h : e ∈ setKid ks k t) : e ∈ ks ∨ e = (k, t) := by
  induction ks with
  | nil => simpa [setKid] using h
  | cons a rest ih =>
    obtain ⟨x, u⟩ := a
    simp only [setKid] at h
    split at h
    · rename_i hk
      subst hk
      rw [List.mem_cons] at h
      rcases h with h | h
      · exact .inr h
      · exact .inl (by simp [h])
    · rw [List.mem_cons] at h
      rcases h with h | h
      · exact .inl (by simp [h])
      · rcases ih h with h | h
        · exact .inl (by simp [h])
        · exact .inr h

theorem findKid_mem {ks : List (Key × Tree)} {k : Key} {t : Tree} (h : findKid ks k = some t) : (k, t) ∈ ks := by
  induction ks with
  | nil => simp [findKid] at h
  | cons a rest ih =>
    obtain ⟨x, u⟩ := a
    simp only [findKid] at h
    split at h
    · simp at h; simp_all
    · simp [ih h]

theorem mem_findKid {ks : List (Key × Tree)} (hn : (ks.map Prod.fst).Nodup) {k : Key} {t : Tree} (h : (k, t) ∈ ks) : findKid ks k = some t := by
  induction ks with
  | nil => simp at h
  | cons a rest ih =>
    obtain ⟨x, u⟩ := a
    simp only [List.map_cons, List.nodup_cons] at hn
    simp only [findKid]
    rw [List.mem_cons] at h
    rcases h with h | h
    · obtain ⟨rfl, rfl⟩ := Prod.mk.inj h; simp
    · rw [if_neg]
      · exact ih hn.2 h
      · rintro rfl
        exact hn.1 (List.mem_map.2 ⟨_, h, rfl⟩)

theorem distinct_empty : Distinct .empty := .mk _ (by simp [Tree.empty, Tree.kids]) (by simp [Tree.empty, Tree.kids])

theorem distinct_put (p : List Key) (v : Str) : ∀ t, Distinct t → Distinct (putFrags t p v) := by
  induction p with
  | nil =>
    rintro t ⟨_, h1, h2⟩
    exact .mk _ h1 h2
  | cons f fs ih =>
    rintro ⟨d, ks⟩ ⟨_, h1, h2⟩
    simp only [Tree.kids] at h1 h2
    refine .mk _ ?_ ?_
    · simp only [putFrags, Tree.kids, setKid_keys]
      split
      · exact h1
      · rename_i hf
        exact List.nodup_append.2 ⟨h1, by simp, by rintro a ha b hb rfl; simp at hb; subst hb; exact hf ha⟩
    · intro e he
      simp only [putFrags, Tree.kids] at he
      rcases mem_setKid he with he | rfl
      · exact h2 e he
      · refine ih _ ?_
        cases h : findKid ks f with
        | none => exact distinct_empty
        | some c => exact h2 _ (findKid_mem h)

/-- every entry inside a tree without repeated keys has a path -/
theorem inside_path {k : Key} {s : Tree} : ∀ {t : Tree}, Inside k s t → Distinct t → ∃ p, p.getLast? = some k ∧ getChild t p = some s := by
  intro t h
  induction h with
  | child hm =>
    rintro ⟨_, h1, h2⟩
    exact ⟨[k], rfl, by rw [getChild_cons, mem_findKid h1 hm]; rfl⟩
  | @deeper r t' k' hm _ ih =>
    rintro ⟨_, h1, h2⟩
    obtain ⟨p, hp, hc⟩ := ih (h2 _ hm)
    refine ⟨k' :: p, ?_, by rw [getChild_cons, mem_findKid h1 hm]; exact hc⟩
    cases p with
    | nil => simp at hp
    | cons a p => simpa using hp

theorem getChild_append (t : Tree) (p q : List Key) : getChild t (p ++ q) = (getChild t p).bind (getChild · q) := by
  induction p generalizing t with
  | nil => rfl
  | cons f fs ih =>
    rw [List.cons_append, getChild_cons, getChild_cons]
    cases findKid t.kids f with
    | none => rfl
    | some c => exact ih c

/-! ## Lemmas: programs -/

section
variable (near : ℚ → ℤ) (rnd : ℚ → ℚ)

theorem perform_eq {P : Str → Prop} (t : Tree) {s : Setting} (h : s.Ok P) : perform near rnd t s = some (putFrags t s.path (s.value.text near)) := by
  obtain ⟨h1, h2, -⟩ := h
  unfold perform
  cases hv : s.value with
  | str v => exact set_eq Codecs.strCodec h1 _ h2 t v
  | int n => exact set_eq intCodec h1 _ h2 t n
  | bool b => exact set_eq boolCodec h1 _ h2 t b
  | dbl x => exact set_eq (doubleCodec near rnd) h1 _ h2 t x

/-- the tree a program makes -/
def made (t : Tree) : List Setting → Tree
  | [] => t
  | s :: l => made (putFrags t s.path (s.value.text near)) l

theorem run_eq {P : Str → Prop} : ∀ (prog : List Setting) (t : Tree), (∀ s ∈ prog, s.Ok P) → run near rnd t prog = some (made near t prog)
  | [], _, _ => rfl
  | s :: l, t, h => by
    unfold run made
    rw [perform_eq near rnd t (h s (by simp)), Option.bind_some]
    exact run_eq l _ fun s' hs => h s' (by simp [hs])

theorem made_append (t : Tree) : ∀ (l l' : List Setting) , made near t (l ++ l') = made near (made near t l) l' := by
  intro l
  induction l generalizing t with
  | nil => intro _; rfl
  | cons s l ih => intro l'; exact ih _ l'

theorem distinct_made : ∀ (l : List Setting) (t : Tree), Distinct t → Distinct (made near t l)
  | [], _, h => h
  | s :: l, t, h => distinct_made l _ (distinct_put _ _ t h)

/-- what is stored after a program, seen from its end -/
theorem getData_made (q : List Key) (hq : q ≠ []) : ∀ l : List Setting,
    (∀ pre s post, l = pre ++ s :: post → (∀ s' ∈ post, s'.path ≠ s.path) → q = s.path → getData (made near .empty l) q = some (s.value.text near)) ∧
    ((∀ s ∈ l, s.path ≠ q) → (∃ s ∈ l, q <+: s.path) → getData (made near .empty l) q = some []) ∧
    ((∀ s ∈ l, ¬ q <+: s.path) → getData (made near .empty l) q = none) := by
  intro l
  induction l using List.reverseRecOn with
  | nil =>
    refine ⟨by simp, by simp, fun _ => ?_⟩
    simp [made, getData_empty, hq]
  | append_singleton l s ih =>
    obtain ⟨i1, i2, i3⟩ := ih
    rw [made_append]
    simp only [made, getData_putFrags]
    refine ⟨?_, ?_, ?_⟩
    · intro pre s' post he hp hs
      by_cases hpost : post = []
      · subst hpost
        have := List.append_inj' he rfl
        obtain ⟨rfl, h2⟩ := this
        simp only [List.cons.injEq, and_true] at h2
        subst h2
        rw [if_pos hs]
      · obtain ⟨post', x, rfl⟩ := List.eq_nil_or_concat post |>.resolve_left hpost
        rw [List.concat_eq_append] at he hp
        rw [show pre ++ s' :: (post' ++ [x]) = (pre ++ s' :: post') ++ [x] by simp] at he
        obtain ⟨h1, h2⟩ := List.append_inj' he rfl
        simp only [List.cons.injEq, and_true] at h2
        subst h2
        rw [if_neg (by rw [hs]; exact (hp s (by simp)).symm)]
        rw [i1 pre s' post' h1 (fun s'' hs'' => hp s'' (by simp [hs''])) hs]
    · intro hne hex
      rw [if_neg (hne s (by simp)).symm]
      by_cases hl : ∃ s ∈ l, q <+: s.path
      · rw [i2 (fun s hs => hne s (by simp [hs])) hl]
      · have hl' : ∀ s ∈ l, ¬ q <+: s.path := fun s hs hp => hl ⟨s, hs, hp⟩
        rw [i3 hl']
        obtain ⟨s', hs', hp⟩ := hex
        rw [List.mem_append, List.mem_singleton] at hs'
        rcases hs' with hs' | rfl
        · exact absurd hp (hl' s' hs')
        · simp [hp]
    · intro hno
      have h1 := hno s (by simp)
      rw [if_neg (by rintro rfl; exact h1 (List.prefix_rfl)), i3 fun s hs => hno s (by simp [hs])]
      simp [h1]

/-- the last statement for an entry -/
theorem exists_last (q : List Key) : ∀ l : List Setting, (∃ s ∈ l, s.path = q) →
    ∃ pre s post, l = pre ++ s :: post ∧ (∀ s' ∈ post, s'.path ≠ s.path) ∧ s.path = q := by
  intro l
  induction l with
  | nil => simp
  | cons s l ih =>
    intro h
    by_cases hl : ∃ s ∈ l, s.path = q
    · obtain ⟨pre, s', post, rfl, h2, h3⟩ := ih hl
      exact ⟨s :: pre, s', post, rfl, h2, h3⟩
    · obtain ⟨s', hs', hq⟩ := h
      rw [List.mem_cons] at hs'
      rcases hs' with rfl | hs'
      · exact ⟨[], s', l, rfl, fun s'' h2 he => hl ⟨s'', h2, he.trans hq⟩, hq⟩
      · exact absurd ⟨s', hs', hq⟩ hl

theorem getData_made_some {q : List Key} (hq : q ≠ []) {l : List Setting} {d : Str} (h : getData (made near .empty l) q = some d) :
    (∃ s ∈ l, q <+: s.path) ∧ (d = [] ∨ ∃ s ∈ l, s.path = q ∧ d = s.value.text near) := by
  obtain ⟨g1, g2, g3⟩ := getData_made near q hq l
  by_cases hex : ∃ s ∈ l, q <+: s.path
  · refine ⟨hex, ?_⟩
    by_cases heq : ∃ s ∈ l, s.path = q
    · obtain ⟨pre, s, post, e1, e2, e3⟩ := exists_last q l heq
      rw [g1 pre s post e1 e2 e3.symm] at h
      right
      exact ⟨s, by simp [e1], e3, (Option.some.inj h).symm⟩
    · rw [g2 (fun s hs he => heq ⟨s, hs, he⟩) hex] at h
      exact .inl (Option.some.inj h).symm
  · rw [g3 fun s hs hp => hex ⟨s, hs, hp⟩] at h
    cases h

theorem made_data : ∀ (l : List Setting) (t : Tree), (∀ s ∈ l, s.path ≠ []) → (made near t l).data = t.data
  | [], _, _ => rfl
  | s :: l, t, h => by
    unfold made
    rw [made_data l _ fun s' hs => h s' (by simp [hs])]
    have := h s (by simp)
    cases hp : s.path with
    | nil => exact absurd hp this
    | cons f fs => rfl

/-- what is inside the tree that a program makes -/
theorem inside_made {l : List Setting} (hl : ∀ s ∈ l, ∀ k ∈ s.path, Ident k) {k : Key} {u : Tree} (h : Inside k u (made near .empty l)) :
    Ident k ∧ (u.data = [] ∨ ∃ s ∈ l, u.data = s.value.text near) ∧ (NoNesting l → u.data = [] ∨ u.kids = []) := by
  obtain ⟨p, hp, hc⟩ := inside_path h (distinct_made near l _ distinct_empty)
  have hp0 : p ≠ [] := by rintro rfl; simp at hp
  have hd : getData (made near .empty l) p = some u.data := by rw [getData, hc]; rfl
  obtain ⟨⟨s, hs, hpre⟩, h2⟩ := getData_made_some near hp0 hd
  refine ⟨hl s hs k (hpre.subset (List.mem_of_getLast? hp)), ?_, ?_⟩
  · rcases h2 with h2 | ⟨s', hs', -, h2⟩
    exacts [.inl h2, .inr ⟨s', hs', h2⟩]
  · intro hnn
    rcases h2 with h2 | ⟨s', hs', h3, h2⟩
    · exact .inl h2
    · right
      by_contra hk
      obtain ⟨e, he⟩ := List.exists_mem_of_ne_nil _ hk
      have hdist : Distinct u := by
        clear h2 hs' h3 hd hpre hs h
        have := distinct_made near l _ distinct_empty
        revert this hc
        generalize made near .empty l = t
        clear hp hp0 hk he
        induction p generalizing t with
        | nil => intro hc; simp only [getChild_nil, Option.some.injEq] at hc; subst hc; exact id
        | cons f fs ih =>
          intro hc hd
          rw [getChild_cons] at hc
          obtain ⟨c, h1, h2⟩ := Option.bind_eq_some_iff.1 hc
          cases hd with
          | mk _ a b => exact ih c h2 (b _ (findKid_mem h1))
      have hc2 : getData (made near .empty l) (p ++ [e.1]) = some e.2.data := by
        rw [getData, getChild_append, hc, Option.bind_some, getChild_cons]
        cases hdist with
        | mk _ a b => rw [mem_findKid a (show (e.1, e.2) ∈ u.kids from he)]; rfl
      obtain ⟨⟨s2, hs2, hpre2⟩, -⟩ := getData_made_some near (by simp) hc2
      have hpp : p <+: s2.path := (List.prefix_append p _).trans hpre2
      have := hnn s' hs' s2 hs2 (by rw [h3]; exact hpp)
      rw [← this, h3] at hpre2
      have := hpre2.length_le
      simp at this

variable {near rnd}

theorem readAs_text {P : Str → Prop} (hn : IsNearest near) (hr : IsRnd rnd) {t : Tree} {ns key : Str} (hns : Namespace ns) (hc : CleanEnd ns key)
    {v : Value} (hv : v.Ok P) (h : getData t (entryPath ns key) = some (v.text near)) : Reads near rnd t ns key v := by
  cases v with
  | str v => exact (get_eq _ hns key hc t).trans (by rw [h]; rfl)
  | int n =>
    refine (get_eq _ hns key hc t).trans ?_
    rw [h]
    simp only [Value.text]
    rw [readAs_value]
    exact (parseInt_iff _ _).2 (intText_print n hv.1 hv.2)
  | bool b =>
    refine (get_eq _ hns key hc t).trans ?_
    rw [h]
    simp only [Value.text]
    rw [readAs_value]
    cases b <;> decide
  | dbl x =>
    refine (get_eq _ hns key hc t).trans ?_
    rw [h]
    simp only [Value.text]
    rw [readAs_value]
    cases x with
    | inf => exact absurd rfl hv.2
    | nan => exact absurd rfl hv.2
    | finite neg a => exact (parseDouble_iff _ _ _).2 (doubleText_print hn hr neg hv.1)

/-- trees that agree with the made one at all entries keep the values -/
theorem kept_of {P : Str → Prop} (hn : IsNearest near) (hr : IsRnd rnd) {l : List Setting} (hl : ∀ s ∈ l, s.Ok P) {t : Tree}
    (ht : ∀ q, q ≠ [] → getData t q = getData (made near .empty l) q) : Kept near rnd l t := by
  constructor
  · intro pre s post he hp ns key hns hc hpath
    have hs := hl s (by simp [he])
    have hq : entryPath ns key ≠ [] := by rw [hpath]; exact hs.2.2.1
    refine readAs_text hn hr hns hc hs.2.2.2.2 ?_
    rw [ht _ hq]
    exact (getData_made near _ hq l).1 pre s post he hp hpath
  · intro ns key hns hc hq
    rw [doesKeyExist_eq hns key hc, ht _ hq]
    constructor
    · intro h
      obtain ⟨d, hd⟩ := Option.isSome_iff_exists.1 h
      exact (getData_made_some near hq hd).1
    · intro h
      by_cases heq : ∃ s ∈ l, s.path = entryPath ns key
      · obtain ⟨pre, s, post, e1, e2, e3⟩ := exists_last _ l heq
        rw [(getData_made near _ hq l).1 pre s post e1 e2 e3.symm]; rfl
      · rw [(getData_made near _ hq l).2.1 (fun s hs he => heq ⟨s, hs, he⟩) h]; rfl

theorem num_visible {d : Str} (h : ∀ c ∈ d, NumChar c) : XmlFile.NoZero d ∧ XmlFile.Words d ∧ XmlFile.Visible d ∧ JsonFile.Utf8 d ∧ IniFile.OneLine d := by
  have n : ∀ c, NumChar c → c ≠ Char.ofNat 0 ∧ c ∉ [' ', '\n', '\r', '\t'] ∧ c.toNat < 0x80 ∧ ¬ IniFile.Space c := by
    intro c hc
    unfold NumChar at hc
    have : ∀ c ∈ "0123456789.e+-truefalse".toList, c ≠ Char.ofNat 0 ∧ c ∉ [' ', '\n', '\r', '\t'] ∧ c.toNat < 0x80 ∧ ¬ IniFile.Space c := by
      unfold IniFile.Space; decide
    exact this c hc
  refine ⟨fun h0 => (n _ (h _ h0)).1 rfl, ?_, ?_, ?_, ?_, ?_, ?_⟩
  · cases d with
    | nil => exact ⟨[], by simp, rfl⟩
    | cons c d => exact ⟨[c :: d], by
        intro w hw
        simp only [List.mem_singleton] at hw
        subst hw
        exact ⟨by simp, fun x hx => (n _ (h _ hx)).2.1⟩, rfl⟩
  · cases d with
    | nil => exact .inr (by simp)
    | cons c d => exact .inl ⟨c, by simp, (n _ (h _ (by simp))).2.1⟩
  · induction d with
    | nil => exact .nil
    | cons c d ih => exact .one (n _ (h _ (by simp))).2.2.1 (ih fun x hx => h x (by simp [hx]))
  · exact fun c hc => (n _ (h _ (List.mem_of_mem_head? hc))).2.2.2
  · exact fun c hc => (n _ (h _ (List.mem_of_getLast? hc))).2.2.2
  · exact fun h0 => (n _ (h _ h0)).2.1 (by simp)

theorem ident_chars {k : Str} (h : Ident k) : XmlFile.ElemName k ∧ JsonFile.Utf8 k ∧ InfoFile.Bare k ∧ k.head? ≠ some '#' ∧
    IniFile.OneLine k ∧ '=' ∉ k ∧ ']' ∉ k ∧ ∀ c ∈ k.head?, c ∉ [';', '#', '['] := by
  have n : ∀ c, IdChar c → c ≠ Char.ofNat 0 ∧ c ∉ [' ', '\n', '\r', '\t', '/', '>', '?', '!', '#', '=', ']', ';', '[', '{', '}', '"'] ∧ c.toNat < 0x80 ∧
      ¬ IniFile.Space c := by
    have : ∀ c ∈ "abcdefghijklmnopqrstuvwxyzABCDEFGHIJKLMNOPQRSTUVWXYZ0123456789_".toList, c ≠ Char.ofNat 0 ∧
        c ∉ [' ', '\n', '\r', '\t', '/', '>', '?', '!', '#', '=', ']', ';', '[', '{', '}', '"'] ∧ c.toNat < 0x80 ∧ ¬ IniFile.Space c := by
      unfold IniFile.Space; decide
    exact fun c hc => this c hc
  obtain ⟨h0, h⟩ := h
  have nm : ∀ c, c ∈ [' ', '\n', '\r', '\t', '/', '>', '?', '!', '#', '=', ']', ';', '[', '{', '}', '"'] → c ∉ k := fun c hc hk => (n _ (h _ hk)).2.1 hc
  refine ⟨⟨h0, fun hh => nm '!' (by simp) (List.mem_of_mem_head? hh), fun hz => (n _ (h _ hz)).1 rfl, fun c hc hm => nm c ?_ hc⟩, ?_, ⟨h0, fun c hc hm => nm c ?_ hc⟩,
    fun hh => nm '#' (by simp) (List.mem_of_mem_head? hh), ⟨fun c hc => (n _ (h _ (List.mem_of_mem_head? hc))).2.2.2,
    fun c hc => (n _ (h _ (List.mem_of_getLast? hc))).2.2.2, nm _ (by simp)⟩, nm _ (by simp), nm _ (by simp), fun c hc hm => nm c ?_ (List.mem_of_mem_head? hc)⟩
  · simp at hm ⊢; tauto
  · clear h0 nm
    induction k with
    | nil => exact .nil
    | cons c d ih => exact .one (n _ (h _ (by simp))).2.2.1 (ih fun x hx => h x (by simp [hx]))
  · simp at hm ⊢; tauto
  · simp at hm ⊢; tauto

theorem mem_inside {t : Tree} {e : Key × Tree} (h : e ∈ t.kids) : Inside e.1 e.2 t := .child (by simpa using h)

theorem findKid_perm {ks ks' : List (Key × Tree)} (h : ks.Perm ks') (hn : (ks.map Prod.fst).Nodup) (k : Key) : findKid ks k = findKid ks' k := by
  have hn' : (ks'.map Prod.fst).Nodup := (h.map Prod.fst).nodup_iff.1 hn
  cases h1 : findKid ks k with
  | some t => exact (mem_findKid hn' (h.mem_iff.1 (findKid_mem h1))).symm
  | none =>
    cases h2 : findKid ks' k with
    | none => rfl
    | some t => rw [mem_findKid hn (h.mem_iff.2 (findKid_mem h2))] at h1; cases h1

variable (hn : IsNearest near) (hr : IsRnd rnd)
include hn hr

/-! ## The property -/

/-- **C170** In the program itself: every statement succeeds and afterwards the tree holds what was set.  All strings are allowed. -/
theorem C170_session (prog : List Setting) (h : ∀ s ∈ prog, s.Ok fun _ => True) :
    ∃ t, run near rnd .empty prog = some t ∧ Kept near rnd prog t :=
  ⟨_, run_eq near rnd prog _ h, kept_of hn hr h fun _ _ => rfl⟩

/-- **C170** Through an INFO file: all strings are allowed, and values beside children. -/
theorem C170_info (F : Formats) (files : Str → Option Str) (hw : F.write .info = fun t => some (InfoFile.writeInfo t))
    (hrd : F.read .info = InfoFile.readInfo files) (junk : Str) (d : Disk) (path : Str) (hp : ".info".toList <:+ path) (hd : d.writable path = true)
    (prog : List Setting) (h : ∀ s ∈ prog, s.Ok fun _ => True) (t0 : Tree) :
    ∃ t t', run near rnd .empty prog = some t ∧ (save F junk d path t).1 = none ∧ load F (save F junk d path t).2 path t0 = (none, t') ∧
      Kept near rnd prog t' := by
  have hok : InfoFile.EntriesOk (made near .empty prog) := by
    intro k s hi
    obtain ⟨h1, -⟩ := inside_made near (fun s hs => (h s hs).2.2.2.1) hi
    obtain ⟨-, -, b1, b2, -⟩ := ident_chars h1
    exact ⟨fun hb => b2 hb.2, fun hb => hb.1 b1⟩
  obtain ⟨s1, s2⟩ := (InfoFile.C157_save_load_partial F files hw hrd junk d path hp hd (made near .empty prog) t0).1 hok
    (made_data near prog _ fun s hs => (h s hs).2.2.1)
  exact ⟨_, _, run_eq near rnd prog _ h, s1, s2, kept_of hn hr h fun _ _ => rfl⟩

/-- **C170** Through an XML file, written and read with the same setting of the flag `human readable`: strings without zero characters that are
words with single blanks between them (human readable), or that are not white space only (otherwise; blanks are kept). -/
theorem C170_xml (F : Formats) (human ignoreComments validate : Bool) (hw : F.write .xml = fun t => some (XmlFile.writeXml human t))
    (hrd : F.read .xml = XmlFile.readXml (XmlFile.readOptions human ignoreComments validate)) (junk : Str) (d : Disk) (path : Str)
    (hp : ".xml".toList <:+ path) (hd : d.writable path = true) (prog : List Setting)
    (h : ∀ s ∈ prog, s.Ok fun v => XmlFile.NoZero v ∧ if human = true then XmlFile.Words v else XmlFile.Visible v) (t0 : Tree) :
    ∃ t t', run near rnd .empty prog = some t ∧ (save F junk d path t).1 = none ∧ load F (save F junk d path t).2 path t0 = (none, t') ∧
      Kept near rnd prog t' := by
  have hok : XmlFile.EntriesOk human human (made near .empty prog) := by
    refine ⟨made_data near prog _ fun s hs => (h s hs).2.2.1, fun k s hi => ?_⟩
    obtain ⟨h1, h2, -⟩ := inside_made near (fun s hs => (h s hs).2.2.2.1) hi
    refine ⟨(ident_chars h1).1, ?_⟩
    have : XmlFile.NoZero s.data ∧ if human = true then XmlFile.Words s.data else XmlFile.Visible s.data := by
      rcases h2 with h2 | ⟨s', hs', h2⟩
      · have := num_visible (d := []) (by simp)
        rw [h2]
        exact ⟨this.1, by cases human <;> simp [this.2]⟩
      · rw [h2]
        rcases numChar_text near _ (h s' hs').2.2.2.2 with h3 | h3
        · have := num_visible h3
          exact ⟨this.1, by cases human <;> simp [this.2]⟩
        · exact h3
    exact ⟨this.1, this.2, fun a b => by simp [a] at b⟩
  obtain ⟨s1, s2⟩ := XmlFile.C158_save_load_partial F human human ignoreComments validate hw hrd junk d path hp hd _ t0 hok
  exact ⟨_, _, run_eq near rnd prog _ h, s1, s2, kept_of hn hr h fun _ _ => rfl⟩

/-- **C170** Through a JSON file: all strings in UTF-8, but no entry below another one that was set. -/
theorem C170_json (F : Formats) (hw : F.write .json = JsonFile.writeJson) (hrd : F.read .json = JsonFile.readJson) (junk : Str) (d : Disk) (path : Str)
    (hp : ".json".toList <:+ path) (hd : d.writable path = true) (prog : List Setting) (h : ∀ s ∈ prog, s.Ok JsonFile.Utf8) (hnn : NoNesting prog)
    (t0 : Tree) :
    ∃ t t', run near rnd .empty prog = some t ∧ (save F junk d path t).1 = none ∧ load F (save F junk d path t).2 path t0 = (none, t') ∧
      Kept near rnd prog t' := by
  have h0 := made_data near prog .empty fun s hs => (h s hs).2.2.1
  have hin := fun {k u} => inside_made near (k := k) (u := u) (fun s hs => (h s hs).2.2.2.1)
  obtain ⟨s1, s2⟩ := (JsonFile.C160_save_load_partial F hw hrd junk d path hp hd (made near .empty prog) t0).1
    ⟨h0, fun k s hi => (hin hi).2.2 hnn⟩ ⟨by rw [h0]; exact .nil, fun k s hi => ⟨(ident_chars (hin hi).1).2.1, by
      rcases (hin hi).2.1 with h2 | ⟨s', hs', h2⟩
      · rw [h2]; exact .nil
      · rw [h2]
        rcases numChar_text near _ (h s' hs').2.2.2.2 with h3 | h3
        · exact (num_visible h3).2.2.2.1
        · exact h3⟩⟩
  exact ⟨_, _, run_eq near rnd prog _ h, s1, s2, kept_of hn hr h fun _ _ => rfl⟩

/-- **C170** Through an INI file: keys of one or two identifiers, no entry below another one that was set, strings of one line without white
space around them. -/
theorem C170_ini (F : Formats) (hw : F.write .ini = IniFile.writeIni) (hrd : F.read .ini = IniFile.readIni) (junk : Str) (d : Disk) (path : Str)
    (hp : ".ini".toList <:+ path) (hd : d.writable path = true) (prog : List Setting) (h : ∀ s ∈ prog, s.Ok IniFile.OneLine) (hnn : NoNesting prog)
    (h2 : ∀ s ∈ prog, s.path.length ≤ 2) (t0 : Tree) :
    ∃ t t', run near rnd .empty prog = some t ∧ (save F junk d path t).1 = none ∧ load F (save F junk d path t).2 path t0 = (none, t') ∧
      Kept near rnd prog t' := by
  have h0 := made_data near prog .empty fun s hs => (h s hs).2.2.1
  have hin := fun {k u} => inside_made near (k := k) (u := u) (fun s hs => (h s hs).2.2.2.1)
  have hdist := distinct_made near prog _ distinct_empty
  have hdata : ∀ {k u}, Inside k u (made near .empty prog) → IniFile.OneLine u.data := by
    intro k u hi
    rcases (hin hi).2.1 with h2 | ⟨s', hs', h2⟩
    · rw [h2]; exact (num_visible (d := []) (by simp)).2.2.2.2
    · rw [h2]
      rcases numChar_text near _ (h s' hs').2.2.2.2 with h3 | h3
      · exact (num_visible h3).2.2.2.2
      · exact h3
  cases hdist with
  | mk _ d1 d2 =>
    have sect : ∀ e ∈ (made near .empty prog).kids, e.2.kids ≠ [] → e.2.data = [] ∧ (e.2.kids.map Prod.fst).Nodup ∧ ∀ f ∈ e.2.kids, f.2.kids = [] := by
      intro e he hk
      refine ⟨((hin (mem_inside he)).2.2 hnn).resolve_right hk, ?_, ?_⟩
      · cases d2 e he with
        | mk _ a _ => exact a
      · intro f hf
        by_contra hne
        obtain ⟨g, hg⟩ := List.exists_mem_of_ne_nil _ hne
        have hc : getData (made near .empty prog) [e.1, f.1, g.1] = some g.2.data := by
          cases d2 e he with
          | mk _ a b =>
            cases b f hf with
            | mk _ a' _ =>
              rw [getData, getChild_cons, mem_findKid d1 (show (e.1, e.2) ∈ _ from he), Option.bind_some, getChild_cons,
                mem_findKid a (show (f.1, f.2) ∈ _ from hf), Option.bind_some, getChild_cons, mem_findKid a' (show (g.1, g.2) ∈ _ from hg)]
              rfl
        obtain ⟨⟨s, hs, hpre⟩, -⟩ := getData_made_some near (by simp) hc
        have := hpre.length_le
        have := h2 s hs
        simp at *
        omega
    obtain ⟨txt, hs⟩ := (IniFile.C159_saved_partial (made near .empty prog)).2 ⟨h0, d1, sect⟩
    have leaf : ∀ {k u}, Inside k u (made near .empty prog) → u.kids = [] → IniFile.LeafOk (k, u) := by
      intro k u hi hk
      obtain ⟨-, -, -, -, c1, c2, -, c4⟩ := ident_chars (hin hi).1
      exact ⟨⟨(hin hi).1.1, c1, c2, c4⟩, hdata hi, hk⟩
    have hread := IniFile.C159_order_partial _ txt hs (fun e he hk => leaf (mem_inside he) hk) (fun e he hk => by
      obtain ⟨a, b, c⟩ := sect e he hk
      obtain ⟨-, -, -, -, c1, -, c3, -⟩ := ident_chars (hin (mem_inside he)).1
      exact ⟨⟨c1, c3⟩, a, hk, b, fun f hf => leaf (.deeper (show (e.1, e.2) ∈ _ from he) (mem_inside hf)) (c f hf)⟩)
    have hfm : formatOf path = some .ini := ((C95_format path).1 .ini).2 hp
    refine ⟨_, _, run_eq near rnd prog _ h, by simp [save, hfm, hd, hw, hs], by simp [save, load, hfm, hd, hw, hrd, hs, hread]; rfl, kept_of hn hr h ?_⟩
    intro q hq
    cases q with
    | nil => exact absurd rfl hq
    | cons f fs =>
      rw [getData_cons, getData_cons]
      congr 1
      exact (findKid_perm (List.filter_append_perm _ _).symm d1 f).symm

end

/-! ## Instances -/

/-- a program: a rate is set twice, a name with quotation marks and blanks, a flag, and the double next to a tenth through a child view -/
def exProg : List Setting :=
  [⟨rootNamespace [], "camera/rate".toList, .int 20⟩, ⟨rootNamespace [], "name".toList, .str "the \"left\" one".toList⟩,
   ⟨rootNamespace [], "/camera/rate".toList, .int (-30)⟩, ⟨childNamespace (rootNamespace []) "camera".toList, "on".toList, .bool true⟩,
   ⟨childNamespace (rootNamespace []) "camera".toList, "gain".toList, .dbl (.finite true (3602879701896397 / 2 ^ 55))⟩]

theorem exTenth : (F64.finite true (3602879701896397 / 2 ^ 55)).Valid :=
  ⟨by norm_num, ⟨3602879701896397, -55, by norm_num, by norm_num, by norm_num [zpow_neg]⟩, by
    refine lt_of_le_of_lt (b := (1 : ℚ)) (by norm_num) (one_lt_pow₀ (by norm_num) (by norm_num))⟩

theorem exProg_ok {P : Str → Prop} (hP : P "the \"left\" one".toList) : ∀ s ∈ exProg, s.Ok P := by
  have id : ∀ p : List Key, (p.all fun k => !k.isEmpty && k.all fun c => "abcdefghijklmnopqrstuvwxyzABCDEFGHIJKLMNOPQRSTUVWXYZ0123456789_".toList.contains c) = true →
      ∀ k ∈ p, Ident k := by
    intro p hp k hk
    have := List.all_eq_true.1 hp k hk
    simp only [Bool.and_eq_true, Bool.not_eq_true', List.all_eq_true, List.contains_iff_mem] at this
    exact ⟨by simpa using this.1, this.2⟩
  intro s hs
  simp only [exProg, List.mem_cons, List.not_mem_nil, or_false] at hs
  rcases hs with rfl | rfl | rfl | rfl | rfl
  · exact ⟨.root [], by decide, by decide, id _ (by decide), by simp [Value.Ok]⟩
  · exact ⟨.root [], by decide, by decide, id _ (by decide), hP⟩
  · exact ⟨.root [], by decide, by decide, id _ (by decide), by simp [Value.Ok]⟩
  · exact ⟨.child _ "camera".toList (.root []), by decide, by decide, id _ (by decide), trivial⟩
  · exact ⟨.child _ "camera".toList (.root []), by decide, by decide, id _ (by decide), exTenth, by simp [F64.num]⟩

theorem exProg_flat : NoNesting exProg ∧ ∀ s ∈ exProg, s.path.length ≤ 2 := by
  constructor
  · intro s hs s' hs'
    have : ∀ p ∈ exProg.map Setting.path, ∀ p' ∈ exProg.map Setting.path, p <+: p' → p = p' := by decide
    exact this _ (List.mem_map_of_mem hs) _ (List.mem_map_of_mem hs')
  · intro s hs
    have : ∀ p ∈ exProg.map Setting.path, p.length ≤ 2 := by decide
    exact this _ (List.mem_map_of_mem hs)

theorem exProg_string : XmlFile.Words "the \"left\" one".toList ∧ JsonFile.Utf8 "the \"left\" one".toList ∧ IniFile.OneLine "the \"left\" one".toList := by
  refine ⟨⟨["the".toList, "\"left\"".toList, "one".toList], by decide, by decide⟩, ?_, by unfold IniFile.OneLine IniFile.Space; decide⟩
  have : ∀ s : Str, (∀ c ∈ s, c.toNat < 0x80) → JsonFile.Utf8 s := by
    intro s
    induction s with
    | nil => exact fun _ => .nil
    | cons c s ih => exact fun h => .one (h c (by simp)) (ih fun x hx => h x (by simp [hx]))
  exact this _ (by decide)

/-- the hypotheses of all five theorems are met by this program, and the rate read after loading is the second one -/
example {near : ℚ → ℤ} (hn : IsNearest near) {rnd : ℚ → ℚ} (hr : IsRnd rnd) (F : Formats) (files : Str → Option Str)
    (hi : F.write .info = fun t => some (InfoFile.writeInfo t)) (hi' : F.read .info = InfoFile.readInfo files)
    (hj : F.write .json = JsonFile.writeJson) (hj' : F.read .json = JsonFile.readJson) (hk : F.write .ini = IniFile.writeIni)
    (hk' : F.read .ini = IniFile.readIni) (hx : F.write .xml = fun t => some (XmlFile.writeXml true t))
    (hx' : F.read .xml = XmlFile.readXml (XmlFile.readOptions true true true)) (ext : Str)
    (he : ext ∈ [".info".toList, ".json".toList, ".ini".toList, ".xml".toList]) :
    ∃ t t', run near rnd .empty exProg = some t ∧
      load F (save F [] ⟨fun _ => none, fun _ => true⟩ ("c".toList ++ ext) t).2 ("c".toList ++ ext) .empty = (none, t') ∧
      get intCodec t' (childNamespace (rootNamespace []) "camera".toList) "rate".toList = .value (-30) := by
  have fin : ∀ t', Kept near rnd exProg t' → get intCodec t' (childNamespace (rootNamespace []) "camera".toList) "rate".toList = .value (-30) := fun t' hk =>
    hk.1 [⟨rootNamespace [], "camera/rate".toList, .int 20⟩, ⟨rootNamespace [], "name".toList, .str "the \"left\" one".toList⟩]
      ⟨rootNamespace [], "/camera/rate".toList, .int (-30)⟩ _ rfl (by decide) _ _ (.child _ _ (.root [])) (by decide) (by decide)
  obtain ⟨s1, s2, s3⟩ := exProg_string
  simp only [List.mem_cons, List.not_mem_nil, or_false] at he
  rcases he with rfl | rfl | rfl | rfl
  · obtain ⟨t, t', a, -, b, c⟩ := C170_info hn hr F files hi hi' [] ⟨fun _ => none, fun _ => true⟩ _ (List.suffix_append "c".toList _) rfl exProg
      (exProg_ok trivial) .empty
    exact ⟨t, t', a, b, fin _ c⟩
  · obtain ⟨t, t', a, -, b, c⟩ := C170_json hn hr F hj hj' [] ⟨fun _ => none, fun _ => true⟩ _ (List.suffix_append "c".toList _) rfl exProg
      (exProg_ok s2) exProg_flat.1 .empty
    exact ⟨t, t', a, b, fin _ c⟩
  · obtain ⟨t, t', a, -, b, c⟩ := C170_ini hn hr F hk hk' [] ⟨fun _ => none, fun _ => true⟩ _ (List.suffix_append "c".toList _) rfl exProg
      (exProg_ok s3) exProg_flat.1 exProg_flat.2 .empty
    exact ⟨t, t', a, b, fin _ c⟩
  · obtain ⟨t, t', a, -, b, c⟩ := C170_xml hn hr F true true true hx hx' [] ⟨fun _ => none, fun _ => true⟩ _ (List.suffix_append "c".toList _) rfl exProg
      (exProg_ok ⟨by unfold XmlFile.NoZero; decide, by simpa using s1⟩) .empty
    exact ⟨t, t', a, b, fin _ c⟩

end Verif.PTree.Session
