import Verif.PTree.IniFileProps
import Mathlib.Data.List.Forall2
import Mathlib.Data.List.SplitOn

/-!
# The grammar of INI files, and the tree a file stands for

Independent of the reader.  A file consists of lines: blank lines and comments, sections `[name]` and entries `key = value`.  The entries
before the first section are children of the tree, each section that has entries is a child with these entries as children.
-/

namespace Verif.PTree.IniFile

open Verif.PTree

/-- only white space -/
def Blank (w : Str) : Prop := ∀ c ∈ w, Space c

/-- no white space at the ends -/
def Trimmed (s : Str) : Prop := (∀ c ∈ s.head?, ¬ Space c) ∧ (∀ c ∈ s.getLast?, ¬ Space c)

/-- what a line says -/
inductive Item
  | nothing
  | entry (k : Key) (v : Str)
  | sec (n : Key)

/-- a line and what it says -/
inductive LineMeans : Str → Item → Prop
  | blank {w : Str} : Blank w → LineMeans w .nothing
  | comment {w r : Str} {c : Char} : Blank w → c = ';' ∨ c = '#' → LineMeans (w ++ c :: r) .nothing
  | sec {w a n b r : Str} : Blank w → Blank a → Trimmed n → ']' ∉ n → Blank b → LineMeans (w ++ '[' :: (a ++ (n ++ (b ++ ']' :: r)))) (.sec n)
  | entry {w k a b v e : Str} {c : Char} : Blank w → Trimmed (c :: k) → '=' ∉ c :: k → c ≠ ';' → c ≠ '#' → c ≠ '[' → Blank a → Blank b → Trimmed v → Blank e →
      LineMeans (w ++ (c :: k ++ (a ++ '=' :: (b ++ (v ++ e))))) (.entry (c :: k) v)

/-- the entries before the first section, and the sections with their entries -/
def groups : List Item → List (Key × Str) × List (Key × List (Key × Str))
  | [] => ([], [])
  | .nothing :: r => groups r
  | .entry k v :: r => ((k, v) :: (groups r).1, (groups r).2)
  | .sec n :: r => ([], (n, (groups r).1) :: (groups r).2)

/-- the entries as children -/
def leaves (es : List (Key × Str)) : List (Key × Tree) := es.map fun e => (e.1, .node e.2 [])

/-- the sections that have entries, as children -/
def sectionKids (ss : List (Key × List (Key × Str))) : List (Key × Tree) := (ss.filter fun x => !x.2.isEmpty).map fun x => (x.1, .node [] (leaves x.2))

/-- no key twice -/
def NoDup (es : List (Key × Str)) : Prop := (es.map Prod.fst).Nodup

/-- no section has the name of a key or section (with entries) before it, and no key occurs twice in a section -/
def SectionsOk : List Key → List (Key × List (Key × Str)) → Prop
  | _, [] => True
  | used, (n, es) :: r => n ∉ used ∧ NoDup es ∧ SectionsOk (if es = [] then used else used ++ [n]) r

/-- a whole file and its tree -/
def IniText (s : Str) (t : Tree) : Prop :=
  ∃ (ls : List Str) (its : List Item), s = List.intercalate ['\n'] ls ∧ ls ≠ [] ∧ (∀ l ∈ ls, '\n' ∉ l) ∧ List.Forall₂ LineMeans ls its ∧
    NoDup (groups its).1 ∧ SectionsOk ((groups its).1.map Prod.fst) (groups its).2 ∧ t = .node [] (leaves (groups its).1 ++ sectionKids (groups its).2)

end Verif.PTree.IniFile
