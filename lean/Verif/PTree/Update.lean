import Verif.PTree.Lemmas

/-!
# Lemmas about `update`
-/

namespace Verif.PTree

/-! ## the traversal, by fragments -/

mutual
def travF (pre : List Key) : Tree → List (List Key × Str)
  | .node d ks => (pre, d) :: travFKids pre ks
def travFKids (pre : List Key) : List (Key × Tree) → List (List Key × Str)
  | [] => []
  | (k, t) :: rest => travF (pre ++ [k]) t ++ travFKids pre rest
end

def PathStr (s : Str) (pre : List Key) : Prop :=
  (s = [] ∧ pre = []) ∨ (s ≠ [] ∧ s.getLast? ≠ some '.' ∧ names '.' s = pre)

theorem PathStr.mkPath {s : Str} {pre : List Key} (h : PathStr s pre) : mkPath s '.' = ⟨pre, false⟩ := by
  unfold PTree.mkPath
  rw [reduceAll_eq]
  rcases h with ⟨rfl, rfl⟩ | ⟨_, h2, h3⟩
  · simp [names]
  · simp [h2, h3]

theorem PathStr.join {s : Str} {pre : List Key} (h : PathStr s pre) {k : Key} (hk : k ≠ []) (hd : '.' ∉ k) :
    PathStr (joinPath s k) (pre ++ [k]) := by
  have hl : k.getLast? ≠ some '.' := by
    intro h; exact hd (List.mem_of_getLast? h)
  unfold joinPath
  rw [if_neg hk]
  rcases h with ⟨rfl, rfl⟩ | ⟨h1, h2, h3⟩
  · exact .inr ⟨hk, hl, names_single _ _ hk hd⟩
  · rw [if_neg h1]
    refine .inr ⟨by simp, ?_, ?_⟩
    · rw [List.getLast?_append, List.getLast?_cons, List.getLast?_eq_some_getLast hk]
      rw [List.getLast?_eq_some_getLast hk] at hl
      simpa using hl
    · rw [names_append, splitOn_eq_names _ _ h1 h2, h3, names_single _ _ hk hd]

mutual
theorem traverse_eq : ∀ (t : Tree), GoodKeys t → ∀ (s : Str) (pre : List Key), PathStr s pre →
    (traverse s t).map (fun x => (PTree.mkPath x.1 '.', x.2)) =
      (travF pre t).map (fun x => ((⟨x.1, false⟩ : Path), x.2))
  | .node d ks, h, s, pre, hp => by
    unfold traverse travF
    rw [List.map_cons, List.map_cons, hp.mkPath, traverseKids_eq ks h.2 s pre hp]
theorem traverseKids_eq : ∀ (ks : List (Key × Tree)), GoodKids ks → ∀ (s : Str) (pre : List Key), PathStr s pre →
    (traverseKids s ks).map (fun x => (PTree.mkPath x.1 '.', x.2)) =
      (travFKids pre ks).map (fun x => ((⟨x.1, false⟩ : Path), x.2))
  | [], _, s, pre, hp => rfl
  | (k, t) :: rest, h, s, pre, hp => by
    unfold GoodKids at h
    unfold traverseKids travFKids
    rw [List.map_append, List.map_append, traverse_eq t h.2.2.1 _ _ (hp.join h.1 h.2.1),
      traverseKids_eq rest h.2.2.2 s pre hp]
end

theorem findKid_mem {ks : List (Key × Tree)} {k : Key} {t : Tree} (h : findKid ks k = some t) : (k, t) ∈ ks := by
  induction ks with
  | nil => simp [findKid] at h
  | cons a rest ih =>
    obtain ⟨x, u⟩ := a
    simp only [findKid] at h
    split at h
    · simp_all
    · simp [ih h]

mutual
theorem mem_travF : ∀ (t : Tree), GoodKeys t → ∀ (pre p : List Key) (d : Str),
    (p, d) ∈ travF pre t ↔ ∃ q, p = pre ++ q ∧ getData t q = some d
  | .node e ks, h, pre, p, d => by
    unfold travF
    rw [List.mem_cons, mem_travFKids ks h.1 h.2 pre p d]
    constructor
    · rintro (h | ⟨k, q, h⟩)
      · simp at h
        exact ⟨[], by simp [h.1], by simp [getData_nil, Tree.data, h.2]⟩
      · exact ⟨k :: q, h⟩
    · rintro ⟨q, rfl, hq⟩
      cases q with
      | nil => simp [getData_nil, Tree.data] at hq; simp [hq]
      | cons k q => exact .inr ⟨k, q, rfl, hq⟩
theorem mem_travFKids : ∀ (ks : List (Key × Tree)), (ks.map Prod.fst).Nodup → GoodKids ks →
    ∀ (pre p : List Key) (d : Str),
    (p, d) ∈ travFKids pre ks ↔ ∃ k q, p = pre ++ k :: q ∧ getData (.node [] ks) (k :: q) = some d
  | [], _, _, pre, p, d => by simp [travFKids, getData_cons, Tree.kids, findKid]
  | (k, t) :: rest, hn, h, pre, p, d => by
    unfold GoodKids at h
    simp only [List.map_cons, List.nodup_cons] at hn
    unfold travFKids
    rw [List.mem_append, mem_travF t h.2.2.1, mem_travFKids rest hn.2 h.2.2.2]
    simp only [getData_cons, Tree.kids, findKid]
    constructor
    · rintro (⟨q, rfl, hq⟩ | ⟨k', q, rfl, hq⟩)
      · exact ⟨k, q, by simp, by simp [hq]⟩
      · refine ⟨k', q, rfl, ?_⟩
        cases hf : findKid rest k' with
        | none => simp [hf] at hq
        | some u =>
          have hm := findKid_mem hf
          have : k' ≠ k := by
            rintro rfl
            exact hn.1 (List.mem_map.2 ⟨_, hm, rfl⟩)
          simpa [this, hf] using hq
    · rintro ⟨k', q, rfl, hq⟩
      by_cases hk : k' = k
      · subst hk
        simp at hq
        exact .inl ⟨q, by simp, hq⟩
      · rw [if_neg hk] at hq
        exact .inr ⟨k', q, rfl, hq⟩
end

/-! ## folding the writes -/

def updF (create ie : Bool) (dest : Tree) : List (List Key × Str) → UpdRes
  | [] => .ok dest
  | (p, d) :: rest =>
    if ie && isBlank d then updF create ie dest rest
    else if !create && (getData dest p).isNone then .threw dest
    else updF create ie (putFrags dest p d) rest

theorem updateAll_eq (create ie : Bool) (L : List (Str × Str)) (L' : List (List Key × Str))
    (h : L.map (fun x => (mkPath x.1 '.', x.2)) = L'.map (fun x => ((⟨x.1, false⟩ : Path), x.2))) :
    ∀ dest, updateAll create ie dest L = updF create ie dest L' := by
  induction L generalizing L' with
  | nil => cases L' <;> simp_all [updateAll, updF]
  | cons a rest ih =>
    cases L' with
    | nil => simp at h
    | cons b rest' =>
      obtain ⟨s, d⟩ := a
      obtain ⟨p, d'⟩ := b
      simp only [List.map_cons, List.cons.injEq, Prod.mk.injEq] at h
      obtain ⟨⟨h1, rfl⟩, h2⟩ := h
      intro dest
      have hput : put dest ⟨p, false⟩ d = some (putFrags dest p d) := by
        unfold put; split <;> simp
      simp only [updateAll, updF, updateOne, h1, hput]
      by_cases c1 : (ie && isBlank d) = true
      · simp only [c1, if_true]
        exact ih rest' h2 dest
      · simp only [c1, if_false, Bool.false_eq_true]
        by_cases c2 : (!create && (getData dest p).isNone) = true
        · simp only [c2, if_true]
        · simp only [c2, if_false, Bool.false_eq_true]
          exact ih rest' h2 _

theorem update_eq (dest src : Tree) (h : GoodKeys src) (create ie : Bool) :
    update dest src create ie = updF create ie dest (travF [] src) :=
  updateAll_eq create ie _ _ (traverse_eq src h [] [] (.inl ⟨rfl, rfl⟩)) dest

/-- the writes actually made -/
def writes (ie : Bool) (L : List (List Key × Str)) : List (List Key × Str) :=
  L.filter fun x => !(ie && isBlank x.2)

theorem updF_create (ie : Bool) (L : List (List Key × Str)) : ∀ dest,
    updF true ie dest L = .ok ((writes ie L).foldl (fun t x => putFrags t x.1 x.2) dest) := by
  induction L with
  | nil => intro; rfl
  | cons a rest ih =>
    intro dest
    obtain ⟨p, d⟩ := a
    simp only [updF, writes, List.filter_cons]
    by_cases h : (ie && isBlank d) = true
    · simp only [h, if_true, Bool.not_true, Bool.false_eq_true, if_false]
      exact ih dest
    · simp only [h, Bool.not_true, Bool.false_and, Bool.false_eq_true, if_false, if_true, Bool.not_false]
      exact ih _

theorem foldl_getData (L : List (List Key × Str))
    (hL : ∀ p d d', (p, d) ∈ L → (p, d') ∈ L → d = d') : ∀ (t : Tree) (p : List Key),
    (∀ d, (p, d) ∈ L → getData (L.foldl (fun t x => putFrags t x.1 x.2) t) p = some d) ∧
    ((∀ d, (p, d) ∉ L) →
      (∀ x, getData t p = some x → getData (L.foldl (fun t x => putFrags t x.1 x.2) t) p = some x) ∧
      (getData t p = none → (∃ q d, (q, d) ∈ L ∧ p <+: q) →
        getData (L.foldl (fun t x => putFrags t x.1 x.2) t) p = some []) ∧
      (getData t p = none → (¬ ∃ q d, (q, d) ∈ L ∧ p <+: q) →
        getData (L.foldl (fun t x => putFrags t x.1 x.2) t) p = none)) := by
  induction L with
  | nil => intro t p; simp
  | cons a rest ih =>
    obtain ⟨q, e⟩ := a
    intro t p
    have ih' := ih (fun p d d' h h' => hL p d d' (by simp [h]) (by simp [h'])) (putFrags t q e) p
    simp only [List.foldl_cons]
    refine ⟨fun d hd => ?_, fun hd => ?_⟩
    · by_cases hr : ∃ d', (p, d') ∈ rest
      · obtain ⟨d', hr⟩ := hr
        rw [ih'.1 d' hr, hL p d d' hd (by simp [hr])]
      · have hr' : ∀ d', (p, d') ∉ rest := fun d' h => hr ⟨d', h⟩
        simp only [List.mem_cons, hr', or_false, Prod.mk.injEq] at hd
        refine (ih'.2 hr').1 d ?_
        rw [getData_putFrags, hd.1, hd.2]
        simp
    · have hr' : ∀ d', (p, d') ∉ rest := fun d' h => hd d' (by simp [h])
      have hq : p ≠ q := by
        rintro rfl; exact hd e (by simp)
      obtain ⟨i1, i2, i3⟩ := ih'.2 hr'
      rw [getData_putFrags, if_neg hq] at i1 i2 i3
      refine ⟨fun x hx => ?_, fun hn he => ?_, fun hn he => ?_⟩
      · rw [hx] at i1; exact i1 x rfl
      · rw [hn] at i1 i2
        by_cases hpq : p <+: q
        · simp only [hpq, if_true] at i1; exact i1 _ rfl
        · simp only [hpq, if_false] at i2
          refine i2 trivial ?_
          obtain ⟨q', d', h, hp⟩ := he
          simp only [List.mem_cons, Prod.mk.injEq] at h
          rcases h with h | h
          · exact absurd (h.1 ▸ hp) hpq
          · exact ⟨q', d', h, hp⟩
      · rw [hn] at i3
        have hpq : ¬ p <+: q := fun h => he ⟨q, e, by simp, h⟩
        simp only [hpq, if_false] at i3
        exact i3 trivial (fun ⟨q', d', h, hp⟩ => he ⟨q', d', by simp [h], hp⟩)

theorem foldl_same (L : List (List Key × Str)) (t : Tree) (h : ∀ p d, (p, d) ∈ L → getData t p = some d) :
    L.foldl (fun t x => putFrags t x.1 x.2) t = t := by
  induction L with
  | nil => rfl
  | cons a rest ih =>
    obtain ⟨p, d⟩ := a
    rw [List.foldl_cons, putFrags_same p d t (h p d (by simp)), ih (fun p d hm => h p d (by simp [hm]))]

theorem getData_prefix (p q : List Key) (h : q <+: p) : ∀ t : Tree, (getData t p).isSome = true → (getData t q).isSome = true := by
  induction q generalizing p with
  | nil => intro t _; simp [getData_nil]
  | cons g gs ih =>
    intro t hp
    cases p with
    | nil => simp at h
    | cons f fs =>
      rw [List.cons_prefix_cons] at h
      obtain ⟨rfl, h⟩ := h
      rw [getData_cons] at hp ⊢
      cases hk : findKid t.kids g with
      | none => simp [hk] at hp
      | some c =>
        simp [hk] at hp ⊢
        exact ih fs h c hp

theorem putFrags_present (t : Tree) (p : List Key) (v : Str) (h : (getData t p).isSome = true) (q : List Key) :
    (getData (putFrags t p v) q).isSome = (getData t q).isSome := by
  rw [getData_putFrags]
  by_cases hq : q = p
  · subst hq; simp [h]
  · rw [if_neg hq]
    cases hd : getData t q with
    | some d => rfl
    | none =>
      by_cases hp : q <+: p
      · have := getData_prefix p q hp t h
        simp [hd] at this
      · simp [hp]

theorem updF_update (ie : Bool) (L : List (List Key × Str)) : ∀ dest,
    ((∀ p d, (p, d) ∈ writes ie L → (getData dest p).isSome = true) →
      updF false ie dest L = .ok ((writes ie L).foldl (fun t x => putFrags t x.1 x.2) dest) ∧
      ∀ q, (getData ((writes ie L).foldl (fun t x => putFrags t x.1 x.2) dest) q).isSome = (getData dest q).isSome) ∧
    ((∃ p d, (p, d) ∈ writes ie L ∧ getData dest p = none) →
      ∃ t, updF false ie dest L = .threw t ∧ ∀ q, (getData t q).isSome = (getData dest q).isSome) := by
  induction L with
  | nil => intro dest; simp [writes, updF]
  | cons a rest ih =>
    intro dest
    obtain ⟨p, d⟩ := a
    simp only [updF, writes, List.filter_cons]
    by_cases h : (ie && isBlank d) = true
    · simp only [h, if_true, Bool.not_true, Bool.false_eq_true, if_false]
      exact ih dest
    · simp only [h, Bool.not_false, Bool.true_and, Bool.false_eq_true, if_false, if_true]
      cases hd : getData dest p with
      | none =>
        simp only [Option.isNone_none, if_true]
        refine ⟨fun hall => ?_, fun _ => ⟨dest, rfl, fun _ => rfl⟩⟩
        have := hall p d (by simp)
        simp [hd] at this
      | some x =>
        simp only [Option.isNone_some, Bool.false_eq_true, if_false, List.foldl_cons]
        have hp : (getData dest p).isSome = true := by simp [hd]
        have hpres := putFrags_present dest p d hp
        have ih' := ih (putFrags dest p d)
        refine ⟨fun hall => ?_, ?_⟩
        · have := ih'.1 (fun q e hq => by rw [hpres]; exact hall q e (List.mem_cons_of_mem _ hq))
          exact ⟨this.1, fun q => (this.2 q).trans (hpres q)⟩
        · rintro ⟨q, e, hq, hn⟩
          have hq' : (q, e) ∈ writes ie rest := by
            rcases List.mem_cons.1 hq with hq | hq
            · simp only [Prod.mk.injEq] at hq
              rw [hq.1, hd] at hn; simp at hn
            · exact hq
          have hn' : getData (putFrags dest p d) q = none := by
            have := hpres q; rw [hn] at this; simpa using this
          obtain ⟨t, ht, hs⟩ := ih'.2 ⟨q, e, hq', hn'⟩
          exact ⟨t, ht, fun q => by rw [hs q, hpres]⟩

theorem isBlank_iff (d : Str) : isBlank d = true ↔ ∀ c ∈ d, c = ' ' ∨ c = '\n' ∨ c = '\t' ∨ c = '\r' := by
  unfold isBlank
  rw [List.all_eq_true]
  simp [or_assoc]

theorem mem_writes {src : Tree} (h : GoodKeys src) (ie : Bool) (p : List Key) (d : Str) :
    (p, d) ∈ writes ie (travF [] src) ↔ Transfers src ie p d := by
  unfold writes Transfers
  rw [List.mem_filter, mem_travF src h, ← isBlank_iff]
  simp
  intro _
  cases ie <;> simp

end Verif.PTree
