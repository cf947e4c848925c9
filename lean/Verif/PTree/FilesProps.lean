import Verif.PTree.Files
import Verif.Common.StringsProps
import Mathlib.Tactic.SplitIfs

/-!
# C95: files are read and written in the format of their extension; C96: `findFile`
-/

namespace Verif.PTree

open Verif.Strings (ensureTrailingBackslash C17_ensureTrailingBackslash)

/-- the ending of the files of a format -/
def FileFormat.ending : FileFormat → Str
  | .xml => ".xml".toList
  | .ini => ".ini".toList
  | .json => ".json".toList
  | .info => ".info".toList

theorem takeWhile_reverse_suffix (x : Char) (l e : Str) (he : x ∉ e) (h : e <:+ l) :
    e <:+ (l.reverse.takeWhile (· ≠ x)).reverse := by
  obtain ⟨a, rfl⟩ := h
  have : (a ++ e).reverse.takeWhile (· ≠ x) = e.reverse ++ a.reverse.takeWhile (· ≠ x) := by
    rw [List.reverse_append, List.takeWhile_append_of_pos]
    intro c hc
    have : c ∈ e := by simpa using hc
    simpa using fun h : c = x => he (h ▸ this)
  rw [this, List.reverse_append, List.reverse_reverse]
  exact List.suffix_append _ _

theorem takeWhile_reverse_exact (x : Char) (a e : Str) (he : x ∉ e) :
    ((a ++ x :: e).reverse.takeWhile (· ≠ x)).reverse = e := by
  have : (a ++ x :: e).reverse.takeWhile (· ≠ x) = e.reverse ++ (x :: a.reverse).takeWhile (· ≠ x) := by
    have h1 : (a ++ x :: e).reverse = e.reverse ++ (x :: a.reverse) := by simp
    rw [h1, List.takeWhile_append_of_pos]
    intro c hc
    have : c ∈ e := by simpa using hc
    simpa using fun h : c = x => he (h ▸ this)
  rw [this]
  simp

theorem takeWhile_reverse_is_suffix (p : Char → Bool) (l : Str) : (l.reverse.takeWhile p).reverse <:+ l := by
  have : l.reverse.takeWhile p <+: l.reverse := List.takeWhile_prefix _
  simpa using List.reverse_suffix.2 this

/-- the extension without its dot is a given nonempty word (without dots and slashes) exactly if the path ends so -/
theorem extension_iff (path e : Str) (he : e ≠ []) (h1 : '.' ∉ e) (h2 : '/' ∉ e) :
    (extensionOf path).tail = e ↔ '.' :: e <:+ path := by
  constructor
  · intro h
    unfold extensionOf at h
    simp only at h
    split at h
    · exact absurd h.symm he
    · rename_i hdot
      split at h
      · rename_i hm
        simp only [List.tail_cons] at h
        have hf : fileNameOf path <:+ path := by
          unfold fileNameOf at hdot ⊢
          simp only at hdot ⊢
          split
          · rename_i h0
            rw [if_pos h0] at hdot
            split
            · simp
            · rename_i hp; simp [hp] at hdot
          · exact takeWhile_reverse_is_suffix _ _
        refine List.IsSuffix.trans ?_ hf
        subst h
        -- `'.' :: (f.reverse.takeWhile …).reverse` is a suffix of `f`
        have : ∀ f : Str, '.' ∈ f → '.' :: (f.reverse.takeWhile (· ≠ '.')).reverse <:+ f := by
          intro f hf
          have hr : '.' ∈ f.reverse := by simpa using hf
          have : ∀ g : Str, '.' ∈ g → (g.takeWhile (· ≠ '.')) ++ ['.'] <+: g := by
            intro g
            induction g with
            | nil => simp
            | cons c g ih =>
              intro hg
              by_cases hc : c = '.'
              · subst hc; simp
              · rw [List.takeWhile_cons, if_pos (by simpa using hc)]
                rcases List.mem_cons.1 hg with h | h
                · exact absurd h.symm hc
                · simpa [List.cons_prefix_cons] using ih h
          have := List.reverse_suffix.2 (this f.reverse hr)
          simpa using this
        exact this _ hm
      · exact absurd h.symm he
  · rintro ⟨a, rfl⟩
    have hs : '/' ∉ '.' :: e := by simp [h2]
    have hsuf : '.' :: e <:+ ((a ++ '.' :: e).reverse.takeWhile (· ≠ '/')).reverse :=
      takeWhile_reverse_suffix '/' _ _ hs (List.suffix_append _ _)
    have hne : ((a ++ '.' :: e).reverse.takeWhile (· ≠ '/')).reverse ≠ [] := by
      intro h; rw [h] at hsuf; simp at hsuf
    have hf : fileNameOf (a ++ '.' :: e) = ((a ++ '.' :: e).reverse.takeWhile (· ≠ '/')).reverse := by
      unfold fileNameOf
      simp only
      rw [if_neg hne]
    obtain ⟨b, hb⟩ := hsuf
    unfold extensionOf
    simp only
    rw [hf, ← hb]
    have n1 : b ++ '.' :: e ≠ ['.'] := by
      intro h
      cases b with
      | nil => simp at h; exact he h
      | cons c b => simp at h
    have n2 : b ++ '.' :: e ≠ ['.', '.'] := by
      intro h
      cases b with
      | nil => simp at h; subst h; simp at h1
      | cons c b =>
        cases b with
        | nil => simp at h; exact he h.2
        | cons d b => simp at h
    rw [if_neg (by simp [n1, n2]), if_pos (by simp), List.tail_cons, takeWhile_reverse_exact _ _ _ h1]

/-! ## C95 -/

/-- **C95** The format is that of the ending of the file name, exactly (case-sensitive); every other name is refused. -/
theorem C95_format (path : Str) :
    (∀ f, formatOf path = some f ↔ f.ending <:+ path) ∧
    (formatOf path = none ↔ ∀ f : FileFormat, ¬ f.ending <:+ path) := by
  have hx := extension_iff path "xml".toList (by decide) (by decide) (by decide)
  have hi := extension_iff path "ini".toList (by decide) (by decide) (by decide)
  have hj := extension_iff path "json".toList (by decide) (by decide) (by decide)
  have hf := extension_iff path "info".toList (by decide) (by decide) (by decide)
  have key : ∀ f, formatOf path = some f ↔ f.ending <:+ path := by
    intro f
    have e : (match f with
      | .xml => (extensionOf path).tail = "xml".toList
      | .ini => (extensionOf path).tail = "ini".toList
      | .json => (extensionOf path).tail = "json".toList
      | .info => (extensionOf path).tail = "info".toList) ↔ f.ending <:+ path := by
      cases f
      · exact hx
      · exact hi
      · exact hj
      · exact hf
    rw [← e]
    unfold formatOf
    simp only
    constructor
    · intro h
      by_cases a : (extensionOf path).tail = "xml".toList
      · rw [if_pos a] at h; injection h with h; subst h; exact a
      · rw [if_neg a] at h
        by_cases b : (extensionOf path).tail = "ini".toList
        · rw [if_pos b] at h; injection h with h; subst h; exact b
        · rw [if_neg b] at h
          by_cases c : (extensionOf path).tail = "json".toList
          · rw [if_pos c] at h; injection h with h; subst h; exact c
          · rw [if_neg c] at h
            by_cases g : (extensionOf path).tail = "info".toList
            · rw [if_pos g] at h; injection h with h; subst h; exact g
            · rw [if_neg g] at h; injection h
    · intro h
      cases f <;> simp only at h <;> rw [h] <;> decide
  refine ⟨key, ?_⟩
  constructor
  · intro h f hf
    rw [(key f).2 hf] at h
    simp at h
  · intro h
    cases hc : formatOf path with
    | none => rfl
    | some f => exact absurd ((key f).1 hc) (h f)

/-- **C95** `save` and `load`: what was saved under a name is loaded from it (if the format can express the tree); no other file
changes; a name without a known ending is refused without touching the tree or any file; a failing load leaves the tree as it was. -/
theorem C95_save_load (F : Formats) (junk : Str) (d : Disk) (path : Str) (t t0 : Tree) :
    (∀ f s, f.ending <:+ path → d.writable path = true → F.write f t = some s → F.read f s = some t →
      (save F junk d path t).1 = none ∧ load F (save F junk d path t).2 path t0 = (none, t)) ∧
    (∀ p, p ≠ path → (save F junk d path t).2.content p = d.content p) ∧
    ((∀ f : FileFormat, ¬ f.ending <:+ path) → save F junk d path t = (some .format, d) ∧ load F d path t0 = (some .format, t0)) ∧
    (∀ e, (load F d path t0).1 = some e → (load F d path t0).2 = t0) := by
  obtain ⟨h1, h2⟩ := C95_format path
  refine ⟨fun f s hf hw hs hr => ?_, fun p hp => ?_, fun h => ?_, fun e he => ?_⟩
  · have hf' := (h1 f).2 hf
    simp [save, load, hf', hw, hs, hr]
  · unfold save
    split
    · rfl
    · split
      · split <;> simp [hp]
      · rfl
  · have := h2.2 h
    simp [save, load, this]
  · unfold load at he ⊢
    split at he
    · rfl
    · split at he
      · simp at he
      · rfl

/-- **C95** What a load and a save report: a file that is not there or that its reader does not accept gives the error of the parser and leaves
the tree as it was; a file that it accepts replaces the whole tree; a file that cannot be written, or a tree the format cannot express, is
reported, and in the first case the file keeps its contents. -/
theorem C95_errors (F : Formats) (junk : Str) (d : Disk) (path : Str) (t : Tree) (f : FileFormat) (hf : f.ending <:+ path) :
    (d.content path = none → load F d path t = (some .parser, t)) ∧
    (∀ s, d.content path = some s → F.read f s = none → load F d path t = (some .parser, t)) ∧
    (∀ s t', d.content path = some s → F.read f s = some t' → load F d path t = (none, t')) ∧
    (d.writable path = false → save F junk d path t = (some .parser, d)) ∧
    (d.writable path = true → F.write f t = none → (save F junk d path t).1 = some .parser) ∧
    ((save F junk d path t).1 = none → ∃ s, F.write f t = some s ∧ (save F junk d path t).2.content path = some s) := by
  have hf' := ((C95_format path).1 f).2 hf
  refine ⟨fun h => ?_, fun s h hr => ?_, fun s t' h hr => ?_, fun h => ?_, fun h hw => ?_, fun h => ?_⟩
  · simp [load, hf', h]
  · simp [load, hf', h, hr]
  · simp [load, hf', h, hr]
  · simp [save, hf', h]
  · simp [save, hf', h, hw]
  · unfold save at h ⊢
    simp only [hf'] at h ⊢
    by_cases hw : d.writable path = true
    · simp only [hw, if_true] at h ⊢
      cases hs : F.write f t with
      | none => simp [hs] at h
      | some s => exact ⟨s, rfl, by simp⟩
    · simp [hw] at h

example : FileFormat.ini.ending <:+ "a.ini".toList := by decide

/-- Concrete: `conf.xml` is XML, `conf.XML`, `conf` and `dir.xml/` are refused, `.info` is INFO. -/
example : formatOf "d/conf.xml".toList = some .xml ∧ formatOf "conf.XML".toList = none ∧ formatOf "conf".toList = none ∧
    formatOf "dir.xml/".toList = none ∧ formatOf "a.b.json".toList = some .json ∧ formatOf ".info".toList = some .info := by
  decide

/-! ## C96 -/

/-- **C96** `findFile` returns a path exactly if the variable is set and the file exists in the directory it names; the path is the
directory and the name with a slash between them (none added if the directory ends in one).  In all other cases it throws. -/
theorem C96_findFile (env : Str → Option Str) (isFile : Str → Bool) (name var : Str) :
    (∀ p, findFile env isFile name var = .ok p ↔
      ∃ dir, env var = some dir ∧ isFile p = true ∧
        p = if dir.getLast? = some '/' then dir ++ name else dir ++ '/' :: name) ∧
    (∀ e, findFile env isFile name var = .error e → e = .runtime ∧
      (env var = none ∨ ∃ dir, env var = some dir ∧
        isFile (if dir.getLast? = some '/' then dir ++ name else dir ++ '/' :: name) = false)) := by
  have hj : ∀ dir : Str, ensureTrailingBackslash dir ++ name = if dir.getLast? = some '/' then dir ++ name else dir ++ '/' :: name := by
    intro dir
    obtain ⟨_, h2, h3, _⟩ := C17_ensureTrailingBackslash dir
    by_cases h : dir.getLast? = some '/'
    · rw [if_pos h, h3.2 h]
    · rw [if_neg h]
      rcases h2 with h2 | h2
      · exact absurd (h3.1 h2) h
      · rw [h2]; simp
  unfold findFile
  cases he : env var with
  | none => simp
  | some dir =>
    simp only [hj]
    constructor
    · intro p
      constructor
      · intro h
        split_ifs at h with hd hi hi
        all_goals first
          | (injection h with h; exact ⟨dir, rfl, h ▸ hi, by rw [← h]; simp [hd]⟩)
          | injection h
      · rintro ⟨dir', hd, hi, rfl⟩
        simp only [Option.some.injEq] at hd
        subst hd
        rw [if_pos hi]
    · intro e h
      split_ifs at h with hd hi hi
      all_goals first
        | (injection h with h; exact ⟨h.symm, .inr ⟨dir, rfl, by simpa [hd] using hi⟩⟩)
        | injection h

/-- Concrete; a variable that is set to nothing makes `findFile` look in the root directory. -/
example : (∃ p, findFile (fun _ => some "/etc".toList) (fun _ => true) "a".toList "V".toList = .ok p ∧ p = "/etc/a".toList) ∧
    (∃ p, findFile (fun _ => some []) (fun _ => true) "a".toList "V".toList = .ok p ∧ p = "/a".toList) ∧
    findFile (fun _ => none) (fun _ => true) "a".toList "V".toList = .error .runtime :=
  ⟨⟨_, rfl, rfl⟩, ⟨_, rfl, rfl⟩, rfl⟩

end Verif.PTree
