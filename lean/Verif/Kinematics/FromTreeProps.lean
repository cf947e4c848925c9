import Verif.Kinematics.FromTree
import Verif.Kinematics.TransfProps
import Verif.PTree.Props

/-!
# C92: transformations in property trees
-/

namespace Verif.Kinematics

open Verif.PTree

/-- the number stored under the names `p` below the view's namespace: missing, not a number, or the number -/
def numberAt (c : Codec ℝ) (t : PTree.Tree) (ns : Str) (p : List Key) : GetRes ℝ :=
  match getData t (names '/' ns.tail ++ p) with
  | none => .badKey
  | some d => readAs c d

/-- the seven entries of a transformation, in the order in which they are read -/
def entries : List (List Key) :=
  [[qName, ['x']], [qName, ['y']], [qName, ['z']], [qName, ['w']], [tName, ['x']], [tName, ['y']], [tName, ['z']]]

theorem splitOn_none (g : Str) (hg : '/' ∉ g) : g.splitOn '/' = [g] := by
  exact List.splitOn_eq_singleton hg

theorem names_key (g : Str) (k : Char) (hg : '/' ∉ g) (hk : k ≠ '/') : names '/' (g ++ ['/', k]) = [g, [k]] := by
  have h1 : (g ++ '/' :: [k]).splitOn '/' = g.splitOn '/' ++ [k].splitOn '/' :=
    List.splitOn_append_cons_self _ _
  have h2 : g.splitOn '/' = [g] := splitOn_none g hg
  have h3 : [k].splitOn '/' = [[k]] := splitOn_none _ (by simpa using hk.symm)
  unfold names
  rw [h1, h2, h3]
  simp

theorem path_of {ns : Str} (hns : Namespace ns) (g : Str) (k : Char) (hg : '/' ∉ g) (hg0 : g ≠ []) (hk : k ≠ '/') :
    entryPath (childNamespace ns g) [k] = names '/' ns.tail ++ [g, [k]] ∧ CleanEnd (childNamespace ns g) [k] := by
  have hj : joinKey g [k] = g ++ ['/', k] := by
    have hl : g.getLast? ≠ some '/' := fun h => hg (List.mem_of_getLast? h)
    simp [joinKey, isAbsolute, hk, hg0, hl]
  constructor
  · have h := (C25_child_views hns g [k]).2.2.2
    have : entryPath (childNamespace ns g) [k] = entryPath ns (g ++ ['/', k]) := by
      unfold entryPath; rw [h, hj]
    rw [this, C25_below_namespace hns _ ?_, names_key g k hg hk]
    intro ha
    cases g with
    | nil => exact hg0 rfl
    | cons a g =>
      simp only [isAbsolute, List.cons_append, List.head?_cons, Option.some.injEq] at ha
      exact hg (by simp [ha])
  · unfold CleanEnd
    intro hs
    have : absKey (childNamespace ns g) [k] = childNamespace ns g ++ [k] := by simp [absKey, isAbsolute, hk]
    rw [this] at hs
    have := List.IsSuffix.getLast hs (by simp)
    simp at this
    exact hk this.symm

theorem get_numberAt (c : Codec ℝ) (t : PTree.Tree) {ns : Str} (hns : Namespace ns) (g : Str) (k : Char) (hg : '/' ∉ g) (hg0 : g ≠ [])
    (hk : k ≠ '/') : get c t (childNamespace ns g) [k] = numberAt c t ns [g, [k]] := by
  obtain ⟨h1, h2⟩ := path_of hns g k hg hg0 hk
  rw [get_eq c (.child _ _ hns) _ h2, h1]
  rfl

/-- the numbers at some entries, or the first failure -/
def numbersAt (c : Codec ℝ) (t : PTree.Tree) (ns : Str) : List (List Key) → GetRes (List ℝ)
  | [] => .value []
  | p :: ps => andThen (numberAt c t ns p) fun x => andThen (numbersAt c t ns ps) fun xs => .value (x :: xs)

theorem fromTree_eq (c : Codec ℝ) (t : PTree.Tree) {ns : Str} (hns : Namespace ns) :
    transformationFromTree c t ns = andThen (numberAt c t ns [qName, ['x']]) fun qx =>
      andThen (numberAt c t ns [qName, ['y']]) fun qy => andThen (numberAt c t ns [qName, ['z']]) fun qz =>
      andThen (numberAt c t ns [qName, ['w']]) fun qw => andThen (numberAt c t ns [tName, ['x']]) fun tx =>
      andThen (numberAt c t ns [tName, ['y']]) fun ty => andThen (numberAt c t ns [tName, ['z']]) fun tz =>
      .value (.mkQT (fun i => (![qx, qy, qz, qw] : V4) i / norm (![qx, qy, qz, qw] : V4)) ![tx, ty, tz]) := by
  unfold transformationFromTree quaternionFromTree vector3FromTree
  simp only [get_numberAt c t hns qName _ (by decide) (by decide) (by decide : 'x' ≠ '/'),
    get_numberAt c t hns qName _ (by decide) (by decide) (by decide : 'y' ≠ '/'),
    get_numberAt c t hns qName _ (by decide) (by decide) (by decide : 'z' ≠ '/'),
    get_numberAt c t hns qName _ (by decide) (by decide) (by decide : 'w' ≠ '/'),
    get_numberAt c t hns tName _ (by decide) (by decide) (by decide : 'x' ≠ '/'),
    get_numberAt c t hns tName _ (by decide) (by decide) (by decide : 'y' ≠ '/'),
    get_numberAt c t hns tName _ (by decide) (by decide) (by decide : 'z' ≠ '/')]
  cases numberAt c t ns [qName, ['x']] <;> simp only [andThen]
  cases numberAt c t ns [qName, ['y']] <;> simp only [andThen]
  cases numberAt c t ns [qName, ['z']] <;> simp only [andThen]
  cases numberAt c t ns [qName, ['w']] <;> simp only [andThen]
  cases numberAt c t ns [tName, ['x']] <;> simp only [andThen]
  cases numberAt c t ns [tName, ['y']] <;> simp only [andThen]
  cases numberAt c t ns [tName, ['z']] <;> simp only [andThen]

/-- **C92** If the seven entries hold numbers, and the first four are not all zero, the result is the transformation with the
unit quaternion in their direction and the translation as stored; it is a rigid transformation. -/
theorem C92_reads (c : Codec ℝ) (t : PTree.Tree) {ns : Str} (hns : Namespace ns) (q : V4) (v : V3) (hq : q ≠ 0)
    (hx : numberAt c t ns [qName, ['x']] = .value (q 0)) (hy : numberAt c t ns [qName, ['y']] = .value (q 1))
    (hz : numberAt c t ns [qName, ['z']] = .value (q 2)) (hw : numberAt c t ns [qName, ['w']] = .value (q 3))
    (h0 : numberAt c t ns [tName, ['x']] = .value (v 0)) (h1 : numberAt c t ns [tName, ['y']] = .value (v 1))
    (h2 : numberAt c t ns [tName, ['z']] = .value (v 2)) :
    ∃ X : Transformation, transformationFromTree c t ns = .value X ∧ X.t = v ∧ IsUnit4 X.q ∧
      (∃ s : ℝ, 0 < s ∧ ∀ i, q i = s * X.q i) ∧ IsRigid X.T := by
  have eq : (![q 0, q 1, q 2, q 3] : V4) = q := by ext i; fin_cases i <;> rfl
  have ev : (![v 0, v 1, v 2] : V3) = v := by ext i; fin_cases i <;> rfl
  have hu := normalized_unit hq
  refine ⟨⟨fun i => q i / norm q, v⟩, ?_, rfl, hu, ?_, ?_⟩
  · rw [fromTree_eq c t hns, hx, hy, hz, hw, h0, h1, h2]
    simp only [andThen, eq, ev]
    rw [mkQT_unit hu]
  · have hp : 0 < norm q := by
      unfold norm
      apply Real.sqrt_pos.mpr
      have : sqNorm q ≠ 0 := by
        intro h
        apply hq
        unfold sqNorm at h
        rw [Finset.sum_eq_zero_iff_of_nonneg (fun i _ => mul_self_nonneg _)] at h
        funext i
        simpa using h i (Finset.mem_univ i)
      exact lt_of_le_of_ne (Finset.sum_nonneg fun i _ => mul_self_nonneg _) (Ne.symm this)
    exact ⟨norm q, hp, fun i => by field_simp⟩
  · have := (C57_unit _ (Built.mkQT q v hq)).2.2
    exact this

/-- **C92** In all other cases an exception is thrown, that of the first entry in the order `q_a_b/x`, `y`, `z`, `w`,
`t_a_b_a/x`, `y`, `z` that is missing or not a number: `InvalidKeyException` if it is missing, `InvalidValueException` if it is
not a number. -/
theorem C92_errors (c : Codec ℝ) (t : PTree.Tree) {ns : Str} (hns : Namespace ns) :
    (∀ (pre post : List (List Key)) (p : List Key), entries = pre ++ p :: post →
      (∀ p' ∈ pre, ∃ x, numberAt c t ns p' = .value x) →
      (numberAt c t ns p = .badKey → transformationFromTree c t ns = .badKey) ∧
      (numberAt c t ns p = .badValue → transformationFromTree c t ns = .badValue)) ∧
    ((∃ X, transformationFromTree c t ns = .value X) ↔ ∀ p ∈ entries, ∃ x, numberAt c t ns p = .value x) := by
  rw [fromTree_eq c t hns]
  constructor
  · intro pre post p he hpre
    have hlen : pre.length < 7 := by
      have := congrArg List.length he
      simp [entries] at this
      omega
    have hp : p = entries[pre.length]'(by simpa [entries] using hlen) := by
      simp [he]
    have hpr : pre = entries.take pre.length := by simp [he]
    rw [hpr] at hpre
    clear hpr he
    revert hp hpre hlen
    generalize pre.length = n
    intro hpre hlen hp
    have cases7 : n = 0 ∨ n = 1 ∨ n = 2 ∨ n = 3 ∨ n = 4 ∨ n = 5 ∨ n = 6 := by omega
    rcases cases7 with rfl | rfl | rfl | rfl | rfl | rfl | rfl <;>
      simp [entries] at hp hpre <;> subst hp <;>
      constructor <;> intro hb <;> simp [hb, andThen]
    all_goals
      first
        | (obtain ⟨⟨a, ha⟩, ⟨b, hb'⟩, ⟨d, hd⟩, ⟨e, he'⟩, ⟨f, hf⟩, ⟨g, hg⟩⟩ := hpre; simp [ha, hb', hd, he', hf, hg, hb, andThen])
        | (obtain ⟨⟨a, ha⟩, ⟨b, hb'⟩, ⟨d, hd⟩, ⟨e, he'⟩, ⟨f, hf⟩⟩ := hpre; simp [ha, hb', hd, he', hf, hb, andThen])
        | (obtain ⟨⟨a, ha⟩, ⟨b, hb'⟩, ⟨d, hd⟩, ⟨e, he'⟩⟩ := hpre; simp [ha, hb', hd, he', hb, andThen])
        | (obtain ⟨⟨a, ha⟩, ⟨b, hb'⟩, ⟨d, hd⟩⟩ := hpre; simp [ha, hb', hd, hb, andThen])
        | (obtain ⟨⟨a, ha⟩, ⟨b, hb'⟩⟩ := hpre; simp [ha, hb', hb, andThen])
        | (obtain ⟨a, ha⟩ := hpre; simp [ha, hb, andThen])
  · simp only [entries, List.mem_cons, List.not_mem_nil, or_false, forall_eq_or_imp, forall_eq]
    cases numberAt c t ns [qName, ['x']] <;> simp only [andThen] <;> try simp
    cases numberAt c t ns [qName, ['y']] <;> simp only [andThen] <;> try simp
    cases numberAt c t ns [qName, ['z']] <;> simp only [andThen] <;> try simp
    cases numberAt c t ns [qName, ['w']] <;> simp only [andThen] <;> try simp
    cases numberAt c t ns [tName, ['x']] <;> simp only [andThen] <;> try simp
    cases numberAt c t ns [tName, ['y']] <;> simp only [andThen] <;> try simp
    cases numberAt c t ns [tName, ['z']] <;> simp only [andThen] <;> simp

/-- writing a transformation as this library reads it: the seven numbers under their keys -/
def store (c : Codec ℝ) (t : PTree.Tree) (ns : Str) (q : V4) (v : V3) : Option PTree.Tree :=
  let qn := childNamespace ns qName
  let tn := childNamespace ns tName
  (set c t qn ['x'] (q 0)).bind fun t => (set c t qn ['y'] (q 1)).bind fun t => (set c t qn ['z'] (q 2)).bind fun t =>
  (set c t qn ['w'] (q 3)).bind fun t => (set c t tn ['x'] (v 0)).bind fun t => (set c t tn ['y'] (v 1)).bind fun t =>
  set c t tn ['z'] (v 2)

theorem set_numberAt (c : Codec ℝ) (t : PTree.Tree) {ns : Str} (hns : Namespace ns) (g : Str) (k : Char) (hg : '/' ∉ g) (hg0 : g ≠ [])
    (hk : k ≠ '/') (x : ℝ) : set c t (childNamespace ns g) [k] x = some (putFrags t (names '/' ns.tail ++ [g, [k]]) (c.print x)) := by
  obtain ⟨h1, h2⟩ := path_of hns g k hg hg0 hk
  rw [set_eq c (.child _ _ hns) _ h2, h1]

theorem numberAt_put (c : Codec ℝ) (t : PTree.Tree) (ns : Str) (p p' : List Key) (x : ℝ) (hl : p.length = p'.length)
    (hx : c.parse (c.print x) = some x) :
    (p' = p → numberAt c (putFrags t (names '/' ns.tail ++ p) (c.print x)) ns p' = .value x) ∧
    (p' ≠ p → numberAt c (putFrags t (names '/' ns.tail ++ p) (c.print x)) ns p' = numberAt c t ns p') := by
  constructor
  · rintro rfl
    unfold numberAt
    rw [getData_putFrags, if_pos rfl]
    simp [readAs, hx]
  · intro hne
    unfold numberAt
    rw [getData_putFrags, if_neg (by simpa using hne)]
    have : ¬ (names '/' ns.tail ++ p' <+: names '/' ns.tail ++ p) := by
      rw [List.prefix_append_right_inj]
      intro h
      exact hne (h.eq_of_length hl.symm)
    cases getData t (names '/' ns.tail ++ p') <;> simp [this]

/-- **C92** A transformation whose seven numbers were written under these keys, with conversions that round-trip, is read back:
exactly if its quaternion is a unit quaternion, normalised otherwise. -/
theorem C92_roundtrip (c : Codec ℝ) (t : PTree.Tree) {ns : Str} (hns : Namespace ns)
    (q : V4) (v : V3) (hq : q ≠ 0) (hcq : ∀ i, c.parse (c.print (q i)) = some (q i))
    (hcv : ∀ i, c.parse (c.print (v i)) = some (v i)) :
    ∃ t' X, store c t ns q v = some t' ∧ transformationFromTree c t' ns = .value X ∧ X.t = v ∧
      (IsUnit4 q → X.q = q) ∧ (∃ s : ℝ, 0 < s ∧ ∀ i, q i = s * X.q i) ∧ IsUnit4 X.q := by
  let P := names '/' ns.tail
  let t1 := putFrags t (P ++ [qName, ['x']]) (c.print (q 0))
  let t2 := putFrags t1 (P ++ [qName, ['y']]) (c.print (q 1))
  let t3 := putFrags t2 (P ++ [qName, ['z']]) (c.print (q 2))
  let t4 := putFrags t3 (P ++ [qName, ['w']]) (c.print (q 3))
  let t5 := putFrags t4 (P ++ [tName, ['x']]) (c.print (v 0))
  let t6 := putFrags t5 (P ++ [tName, ['y']]) (c.print (v 1))
  let t7 := putFrags t6 (P ++ [tName, ['z']]) (c.print (v 2))
  have hs : store c t ns q v = some t7 := by
    unfold store
    simp only [set_numberAt c _ hns qName _ (by decide) (by decide) (by decide : 'x' ≠ '/'),
      set_numberAt c _ hns qName _ (by decide) (by decide) (by decide : 'y' ≠ '/'),
      set_numberAt c _ hns qName _ (by decide) (by decide) (by decide : 'z' ≠ '/'),
      set_numberAt c _ hns qName _ (by decide) (by decide) (by decide : 'w' ≠ '/'),
      set_numberAt c _ hns tName _ (by decide) (by decide) (by decide : 'x' ≠ '/'),
      set_numberAt c _ hns tName _ (by decide) (by decide) (by decide : 'y' ≠ '/'),
      set_numberAt c _ hns tName _ (by decide) (by decide) (by decide : 'z' ≠ '/'), Option.bind_some]
    rfl
  have keep : ∀ (t : PTree.Tree) (g g' : Str) (k k' : Char) (x : ℝ), c.parse (c.print x) = some x → (g', k') ≠ (g, k) →
      numberAt c (putFrags t (P ++ [g, [k]]) (c.print x)) ns [g', [k']] = numberAt c t ns [g', [k']] := by
    intro t g g' k k' x hc h
    refine (numberAt_put c t ns [g, [k]] [g', [k']] x rfl hc).2 ?_
    intro e
    apply h
    simpa using e
  have new : ∀ (t : PTree.Tree) (g : Str) (k : Char) (x : ℝ), c.parse (c.print x) = some x →
      numberAt c (putFrags t (P ++ [g, [k]]) (c.print x)) ns [g, [k]] = .value x := by
    intro t g k x hc
    exact (numberAt_put c t ns [g, [k]] [g, [k]] x rfl hc).1 rfl
  obtain ⟨X, h1, h2, h3, ⟨s, hs0, hsq⟩, _⟩ := C92_reads c t7 hns q v hq
    (by simp only [t7, t6, t5, t4, t3, t2, t1]
        rw [keep _ _ _ _ _ _ (by simp [hcq, hcv]) (by decide), keep _ _ _ _ _ _ (by simp [hcq, hcv]) (by decide), keep _ _ _ _ _ _ (by simp [hcq, hcv]) (by decide), keep _ _ _ _ _ _ (by simp [hcq, hcv]) (by decide),
          keep _ _ _ _ _ _ (by simp [hcq, hcv]) (by decide), keep _ _ _ _ _ _ (by simp [hcq, hcv]) (by decide), new _ _ _ _ (by simp [hcq, hcv])])
    (by simp only [t7, t6, t5, t4, t3, t2, t1]
        rw [keep _ _ _ _ _ _ (by simp [hcq, hcv]) (by decide), keep _ _ _ _ _ _ (by simp [hcq, hcv]) (by decide), keep _ _ _ _ _ _ (by simp [hcq, hcv]) (by decide), keep _ _ _ _ _ _ (by simp [hcq, hcv]) (by decide),
          keep _ _ _ _ _ _ (by simp [hcq, hcv]) (by decide), new _ _ _ _ (by simp [hcq, hcv])])
    (by simp only [t7, t6, t5, t4, t3, t2, t1]
        rw [keep _ _ _ _ _ _ (by simp [hcq, hcv]) (by decide), keep _ _ _ _ _ _ (by simp [hcq, hcv]) (by decide), keep _ _ _ _ _ _ (by simp [hcq, hcv]) (by decide), keep _ _ _ _ _ _ (by simp [hcq, hcv]) (by decide), new _ _ _ _ (by simp [hcq, hcv])])
    (by simp only [t7, t6, t5, t4, t3, t2, t1]
        rw [keep _ _ _ _ _ _ (by simp [hcq, hcv]) (by decide), keep _ _ _ _ _ _ (by simp [hcq, hcv]) (by decide), keep _ _ _ _ _ _ (by simp [hcq, hcv]) (by decide), new _ _ _ _ (by simp [hcq, hcv])])
    (by simp only [t7, t6, t5, t4, t3, t2, t1]
        rw [keep _ _ _ _ _ _ (by simp [hcq, hcv]) (by decide), keep _ _ _ _ _ _ (by simp [hcq, hcv]) (by decide), new _ _ _ _ (by simp [hcq, hcv])])
    (by simp only [t7, t6, t5, t4, t3, t2, t1]
        rw [keep _ _ _ _ _ _ (by simp [hcq, hcv]) (by decide), new _ _ _ _ (by simp [hcq, hcv])])
    (by simp only [t7, t6, t5, t4, t3, t2, t1]
        rw [new _ _ _ _ (by simp [hcv])])
  refine ⟨t7, X, hs, h1, h2, fun hu => ?_, ⟨s, hs0, hsq⟩, h3⟩
  have hs1 : s = 1 := by
    unfold IsUnit4 at hu h3
    rw [hsq 0, hsq 1, hsq 2, hsq 3] at hu
    have : s ^ 2 = 1 := by nlinarith
    nlinarith
  funext i
  rw [hsq i, hs1, one_mul]

/-- a codec that writes the numbers zero and one -/
noncomputable def bitCodec : Codec ℝ :=
  ⟨fun x => if x = 0 then ['0'] else ['1'], fun s => if s = ['0'] then some 0 else if s = ['1'] then some 1 else none⟩

example : ∃ (c : Codec ℝ) (ns : Str) (q : V4) (v : V3), Namespace ns ∧ q ≠ 0 ∧ (∀ i, c.parse (c.print (q i)) = some (q i)) ∧
    (∀ i, c.parse (c.print (v i)) = some (v i)) := by
  refine ⟨bitCodec, _, ![1, 0, 0, 1], ![1, 1, 0], .root [], fun h => by simpa using congrFun h 3, fun i => ?_, fun i => ?_⟩ <;>
    fin_cases i <;> simp [bitCodec]

end Verif.Kinematics
