import Verif.PTree.Model

/-!
# What `PropertyTree` users rely on (C25–C28), stated without the model's helpers
-/

namespace Verif.PTree

/-- The names in a path string: cut at every separator; one separator at the end adds no name. -/
def names (sep : Char) (s : Str) : List Key :=
  if (s.splitOn sep).getLast? = some [] then (s.splitOn sep).dropLast else s.splitOn sep

/-- namespaces a view can have: the root view and child views of views -/
inductive Namespace : Str → Prop
  | root (base : Str) : Namespace (rootNamespace base)
  | child (ns c : Str) : Namespace ns → Namespace (childNamespace ns c)

def isAbsolute (key : Str) : Prop := key.head? = some '/'

instance (key : Str) : Decidable (isAbsolute key) := inferInstanceAs (Decidable (_ = _))

/-- the absolute spelling of a key used through a view -/
def absKey (ns key : Str) : Str := if isAbsolute key then key else ns ++ key

/-- the key `a/b` -/
def joinKey (a b : Str) : Str :=
  if isAbsolute b then b
  else if a = [] then b
  else if a.getLast? = some '/' then a ++ b
  else a ++ '/' :: b

/-- the names that lead from the root to the entry a key denotes -/
def entryPath (ns key : Str) : List Key := names '/' (absKey ns key).tail

/-- the key's absolute spelling does not end in two slashes -/
def CleanEnd (ns key : Str) : Prop := ¬ ['/', '/'] <:+ absKey ns key

instance (ns key : Str) : Decidable (CleanEnd ns key) := inferInstanceAs (Decidable (¬ _))

/-- what a getter gives for an entry holding `d` -/
def readAs {T} (c : Codec T) (d : Str) : GetRes T :=
  match c.parse d with
  | some v => .value v
  | none => .badValue

mutual
/-- the keys boost can address: not empty, without the default separator `.`, siblings distinct -/
def GoodKeys : Tree → Prop
  | .node _ ks => (ks.map Prod.fst).Nodup ∧ GoodKids ks
def GoodKids : List (Key × Tree) → Prop
  | [] => True
  | (k, t) :: rest => k ≠ [] ∧ '.' ∉ k ∧ GoodKeys t ∧ GoodKids rest
end

/-- the entries of `src` that an update transfers -/
def Transfers (src : Tree) (ignoreEmpty : Bool) (p : List Key) (d : Str) : Prop :=
  getData src p = some d ∧ ¬ (ignoreEmpty = true ∧ ∀ c ∈ d, c = ' ' ∨ c = '\n' ∨ c = '\t' ∨ c = '\r')

end Verif.PTree
