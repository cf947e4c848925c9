import Verif.Archive.Lsma
import Verif.Archive.Props

/-! # C144: `lsma` lists the contents of archives -/

namespace Verif.Archive.Lsma

open Verif.Archive

/-- `l` lists the entries of a partial map, each name once, in increasing order of the names -/
def Lists {V : Type} (l : List (Name × V)) (get : Name → Option V) : Prop :=
  l.Pairwise (fun x y => nameLt x.1 y.1 = true) ∧ ∀ n v, (n, v) ∈ l ↔ get n = some v

/-- the listing of one archive: a line `name : value` for every string, then for every matrix a line `name :` and the matrix, all sorted by name and with the same prefix -/
def IsListing (text : Mat → List Byte) (pre : List Byte) (a : Archive) (out : List Byte) : Prop :=
  ∃ strs mats, Lists strs (getString a) ∧ Lists mats (getMatrix a) ∧
    out = (strs.map fun s => pre ++ s.1 ++ ascii " : " ++ s.2 ++ ascii "\n").flatten ++
      (mats.map fun m => pre ++ m.1 ++ ascii " :\n" ++ text m.2 ++ ascii "\n").flatten

/-- the listings of several archives one after the other -/
inductive IsListings (text : Mat → List Byte) (pre : List Byte → List Byte) : List (List Byte × Archive) → List Byte → Prop
  | nil : IsListings text pre [] []
  | cons {path a files o r} : IsListing text (pre path) a o → IsListings text pre files r → IsListings text pre ((path, a) :: files) (o ++ r)

theorem lists_of {V : Type} {m : Map V} (h : Sorted m) : Lists m (lookup m) :=
  ⟨h, fun n v => ⟨fun hm => lookup_of_mem h hm, fun hl => lookup_some_mem hl⟩⟩

theorem listing {a : Archive} (ha : Reachable a) (text : Mat → List Byte) (pre : List Byte) : IsListing text pre a (listArchive text pre a) := by
  have ia := inv_reachable ha
  refine ⟨a.strings, a.values, lists_of ia.ss, lists_of ia.sv, ?_⟩
  simp [listArchive, List.flatMap]

theorem listFiles_good (text : Mat → List Byte) (file : List Byte → Option (List Byte)) (argc : Nat) :
    ∀ (files : List (List Byte × Archive)) (more : List (List Byte)),
      (∀ f ∈ files, Reachable f.2 ∧ Savable f.2 [] ∧ file f.1 = some (save f.2 []).bytes) →
      ∃ out, IsListings text (fun p => if argc > 2 then p ++ ascii ":" else []) files out ∧
        listFiles text file argc (files.map Prod.fst ++ more) =
          ⟨out ++ (listFiles text file argc more).out, (listFiles text file argc more).exit⟩ := by
  intro files more
  induction files with
  | nil => intro _; exact ⟨[], .nil, rfl⟩
  | cons f rest ih =>
    intro h
    obtain ⟨path, a⟩ := f
    obtain ⟨out, h1, h2⟩ := ih fun f hf => h f (List.mem_cons_of_mem _ hf)
    obtain ⟨ha, hs, hfile⟩ := h (path, a) (by simp)
    have hload := (C19_round_trip a ha hs).2
    simp only at hfile hload
    refine ⟨_, .cons (listing ha text _) h1, ?_⟩
    simp only [List.map_cons, List.cons_append, listFiles, hfile, hload, h2, List.append_assoc]

/-- **C144** For any files written by `save` from any archives, `lsma` prints exactly their contents: file by file in the order of the arguments, every string and every matrix once, sorted by name; each line of a name begins with the file's name if there are several files; the exit code is 0. -/
theorem C144_lists (text : Mat → List Byte) (file : List Byte → Option (List Byte)) (files : List (List Byte × Archive)) (hne : files ≠ [])
    (h : ∀ f ∈ files, Reachable f.2 ∧ Savable f.2 [] ∧ file f.1 = some (save f.2 []).bytes) :
    (main text file (files.map Prod.fst)).exit = .code 0 ∧
    (files.length = 1 → IsListings text (fun _ => []) files (main text file (files.map Prod.fst)).out) ∧
    (2 ≤ files.length → IsListings text (fun p => p ++ ascii ":") files (main text file (files.map Prod.fst)).out) := by
  have hlen : ¬ (files.map Prod.fst).length + 1 < 2 := by
    have := List.length_pos_iff.2 hne
    simp; omega
  obtain ⟨out, h1, h2⟩ := listFiles_good text file ((files.map Prod.fst).length + 1) files [] h
  rw [List.append_nil] at h2
  have e : main text file (files.map Prod.fst) = ⟨out, .code 0⟩ := by
    unfold main
    rw [if_neg hlen, h2]
    simp [listFiles]
  rw [e]
  refine ⟨rfl, ?_, ?_⟩
  · intro hl
    have : ¬ (files.map Prod.fst).length + 1 > 2 := by simp; omega
    simp only [if_neg this] at h1
    exact h1
  · intro hl
    have : (files.map Prod.fst).length + 1 > 2 := by simp; omega
    simpa only [if_pos this] using h1

/-- **C144** A file that cannot be opened, or that `load` refuses, ends the program with an uncaught exception after the files before it have been listed completely; nothing after it is listed.  Without arguments nothing is listed and the exit code is -1. -/
theorem C144_failure (text : Mat → List Byte) (file : List Byte → Option (List Byte)) (files : List (List Byte × Archive)) (bad : List Byte)
    (more : List (List Byte)) (h : ∀ f ∈ files, Reachable f.2 ∧ Savable f.2 [] ∧ file f.1 = some (save f.2 []).bytes)
    (hbad : file bad = none ∨ ∃ bytes a, file bad = some bytes ∧ load empty [] bytes = .threw a) :
    (∃ pre, ((pre = fun p => p ++ ascii ":") ∨ files = []) ∧ IsListings text pre files (main text file (files.map Prod.fst ++ bad :: more)).out) ∧
    (main text file (files.map Prod.fst ++ bad :: more)).exit = .terminated ∧
    main text file [] = ⟨[], .code (-1)⟩ := by
  have hlen : ¬ (files.map Prod.fst ++ bad :: more).length + 1 < 2 := by simp; omega
  obtain ⟨out, h1, h2⟩ := listFiles_good text file ((files.map Prod.fst ++ bad :: more).length + 1) files (bad :: more) h
  have hb : listFiles text file ((files.map Prod.fst ++ bad :: more).length + 1) (bad :: more) = ⟨[], .terminated⟩ := by
    rcases hbad with hb | ⟨bytes, a, hb, hl⟩
    · simp [listFiles, hb]
    · simp [listFiles, hb, hl]
  rw [hb, List.append_nil] at h2
  have e : main text file (files.map Prod.fst ++ bad :: more) = ⟨out, .terminated⟩ := by
    unfold main
    rw [if_neg hlen, h2]
  rw [e]
  refine ⟨⟨_, ?_, h1⟩, rfl, rfl⟩
  cases files with
  | nil => exact Or.inr rfl
  | cons f rest =>
    left
    funext p
    rw [if_pos (by simp; omega)]

/-- Concrete: an archive with a scalar and a string. -/
def exArchive : Archive := (setString (setScalar empty [97] 0).2 [98] [104, 105]).2

theorem exReachable : Reachable exArchive :=
  .step (op := .setString [98] [104, 105]) (.step (op := .setScalar [97] 0) .init trivial rfl) trivial rfl

example : (main (fun _ => [48]) (fun p => if p = [120] then some (save exArchive []).bytes else none) [[120]]) =
    ⟨ascii "b : hi\na :\n0\n", .code 0⟩ := by decide +kernel

example : (main (fun _ => [48]) (fun p => if p = [120] then some (save exArchive []).bytes else none) [[120], [121]]) =
    ⟨ascii "x:b : hi\nx:a :\n0\n", .terminated⟩ := by decide +kernel

end Verif.Archive.Lsma
