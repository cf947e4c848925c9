import Verif.PTree.InfoGrammarLemmas
import Verif.PTree.IniFileProps

/-!
# Property C166: every INFO file is loaded as what it says
-/

namespace Verif.PTree.InfoFile

open Verif.PTree

/-- no word or string comes first -/
def NoData (r : List Tok) : Prop := ∀ t ∈ r.head?, ∀ v, t ≠ .word v ∧ t ≠ .str v ∧ t ≠ .part v

/-! ## from the grammar to the reader -/

/-- more children -/
def RS.plus (p : RS) (ks : List (Key × Tree)) (st : St) : RS := { p with top := { p.top with kids := p.top.kids ++ ks }, st := st }

theorem plus_plus (p : RS) (a b : List (Key × Tree)) (s t : St) : (p.plus a s).plus b t = p.plus (a ++ b) t := by
  simp [RS.plus]

/-- the reader behind a key -/
def pending (p : RS) (k : Key) (v : Str) (js : List (Key × Tree)) (st : St) : RS :=
  ⟨{ p.top with kids := p.top.kids ++ (k, .node v []) :: js }, p.below, some p.top.kids.length, st⟩

/-- the state at the end of a gap -/
def gapSt (g : List Tok) (st : St) : St := if g = [] then st else if st = .data then .key else st

theorem gap_run {g : List Tok} {ks : List (Key × Tree)} (h : Gap g ks) : ∀ p : RS, trun p g = some (p.plus ks (gapSt g p.st)) := by
  induction h with
  | nil => intro p; simp [trun, RS.plus, gapSt]
  | @nl g ks _ ih =>
    intro p
    simp only [trun, tstep, Option.bind_some, ih]
    cases hp : p.st <;> simp [RS.plus, gapSt]
  | @inc g js ks _ ih =>
    intro p
    simp only [trun, tstep, Option.bind_some, ih]
    cases hp : p.st <;> simp [RS.plus, gapSt]

theorem push_pending (p : RS) (k : Key) : p.push k = pending p k [] [] .data := by
  simp [RS.push, pending]

theorem modify_mid {α} (f : α → α) (x : α) : ∀ (l r : List α), (l ++ x :: r).modify l.length f = l ++ f x :: r
  | [], r => by simp
  | a :: l, r => by simp [modify_mid f x l r]

theorem setData_pending (p : RS) (k : Key) (v : Str) (js : List (Key × Tree)) (st : St) (f : Str → Str) (more : Bool) :
    (pending p k v js st).setData f more = pending p k (f v) js (if more then .cont else .key) := by
  simp only [RS.setData, pending]
  rw [modify_mid]
  rfl

theorem gap_pending {g : List Tok} {is : List (Key × Tree)} (h : Gap g is) (p : RS) (k : Key) (v : Str) (js : List (Key × Tree)) (st : St) :
    trun (pending p k v js st) g = some (pending p k v (js ++ is) (gapSt g st)) := by
  rw [gap_run h]
  simp [RS.plus, pending]

theorem open_pending (p : RS) (k : Key) (v : Str) (js : List (Key × Tree)) (st : St) :
    (pending p k v js st).open = some ⟨⟨k, v, [], js⟩, p.top :: p.below, none, .key⟩ := by
  simp [RS.open, pending, Tree.data, Tree.kids]

theorem parts_run {b : Bool} {d : List Tok} {v : Str} {js : List (Key × Tree)} (h : Parts b d v js) :
    ∀ (p : RS) (k : Key) (v0 : Str) (j0 : List (Key × Tree)) (st : St), st = .data ∧ v0 = [] ∨ st = .cont →
      trun (pending p k v0 j0 st) d = some (pending p k (v0 ++ v) (j0 ++ js) (if b then .key else .cont)) := by
  induction h with
  | @last v =>
    intro p k v0 j0 st hst
    rcases hst with ⟨rfl, rfl⟩ | rfl
    · simp only [trun, tstep, show (pending p k [] j0 St.data).st = .data from rfl, setData_pending, Option.bind_some]; simp
    · simp only [trun, tstep, show (pending p k v0 j0 St.cont).st = .cont from rfl, setData_pending, Option.bind_some]; simp
  | @more b v v' g d js ks hg _ ih =>
    intro p k v0 j0 st hst
    have h1 : tstep (pending p k v0 j0 st) (.part v) = some (pending p k (v0 ++ v) j0 .cont) := by
      rcases hst with ⟨rfl, rfl⟩ | rfl
      · simp only [tstep, show (pending p k [] j0 St.data).st = .data from rfl, setData_pending]; simp
      · simp only [tstep, show (pending p k v0 j0 St.cont).st = .cont from rfl, setData_pending]; simp
    have h2 : gapSt g .cont = .cont := by simp [gapSt]
    rw [trun, h1, Option.bind_some, trun_append, gap_pending hg, Option.bind_some, h2, ih p k _ _ .cont (Or.inr rfl)]
    simp
  | @cut v g js hg =>
    intro p k v0 j0 st hst
    have h1 : tstep (pending p k v0 j0 st) (.part v) = some (pending p k (v0 ++ v) j0 .cont) := by
      rcases hst with ⟨rfl, rfl⟩ | rfl
      · simp only [tstep, show (pending p k [] j0 St.data).st = .data from rfl, setData_pending]; simp
      · simp only [tstep, show (pending p k v0 j0 St.cont).st = .cont from rfl, setData_pending]; simp
    have h2 : gapSt g .cont = .cont := by simp [gapSt]
    rw [trun, h1, Option.bind_some, gap_pending hg, h2]
    simp

theorem data_run {d r : List Tok} {v : Str} {js : List (Key × Tree)} (h : Data d v js r) (p : RS) (k : Key) :
    ∃ st, trun (pending p k [] [] .data) d = some (pending p k v js st) ∧ (st = .key ∨ st = .data ∧ NoData r) := by
  cases h with
  | none hr => exact ⟨.data, rfl, Or.inr ⟨rfl, hr⟩⟩
  | word =>
    refine ⟨.key, ?_, Or.inl rfl⟩
    simp only [trun, tstep, show (pending p k [] [] St.data).st = .data from rfl, setData_pending, Option.bind_some]; simp
  | string hp =>
    refine ⟨.key, ?_, Or.inl rfl⟩
    rw [parts_run hp p k [] [] .data (Or.inl ⟨rfl, rfl⟩)]
    simp

theorem key_run {t : Tok} {k : Key} (h : IsKey t k) (p : RS) (hp : p.st = .key) : tstep p t = some (pending p k [] [] .data) := by
  rcases h with rfl | rfl <;> simp [tstep, hp, push_pending]

theorem key_noData {t : Tok} {k : Key} (h : IsKey t k) {r : List Tok} (hn : NoData (t :: r)) : False := by
  have := hn t (by simp) k
  rcases h with rfl | rfl
  · exact this.1 rfl
  · exact this.2.1 rfl

theorem children_run {top : Bool} {ts : List Tok} {ks : List (Key × Tree)} (h : Children top ts ks) :
    ∀ p : RS, p.st = .key ∨ p.st = .data ∧ NoData ts →
      ∃ last st, trun p ts = some ⟨{ p.top with kids := p.top.kids ++ ks }, p.below, last, st⟩ ∧ (top = false → st ≠ .cont) := by
  induction h with
  | nil =>
    intro p hp
    refine ⟨p.last, p.st, by simp [trun], fun _ => ?_⟩
    rcases hp with h | ⟨h, -⟩ <;> rw [h] <;> decide
  | @nl top r ks _ ih =>
    intro p hp
    have : (if p.st = .data then St.key else p.st) = .key := by rcases hp with h | ⟨h, -⟩ <;> simp [h]
    obtain ⟨l, s, h1, h2⟩ := ih { p with st := .key } (Or.inl rfl)
    exact ⟨l, s, by simp only [trun, tstep, this, Option.bind_some]; exact h1, h2⟩
  | @inc top r js ks _ ih =>
    intro p hp
    have : (if p.st = .data then St.key else p.st) = .key := by rcases hp with h | ⟨h, -⟩ <;> simp [h]
    obtain ⟨l, s, h1, h2⟩ := ih (p.plus js .key) (Or.inl rfl)
    refine ⟨l, s, ?_, h2⟩
    simp only [trun, tstep, this, Option.bind_some]
    simp only [RS.plus, List.append_assoc] at h1
    exact h1
  | @leaf top t k d r v js ks hk hd _ ih =>
    intro p hp
    have hpk : p.st = .key := by
      rcases hp with h | ⟨-, h⟩
      · exact h
      · exact (key_noData hk h).elim
    obtain ⟨st, h1, h2⟩ := data_run hd p k
    obtain ⟨l, s, h3, h4⟩ := ih (pending p k v js st) h2
    refine ⟨l, s, ?_, h4⟩
    rw [trun, key_run hk p hpk, Option.bind_some, trun_append, h1, Option.bind_some, h3]
    simp [pending]
  | @node top t k d g b r v js is bs ks hk hd hg _ _ ihb ihr =>
    intro p hp
    have hpk : p.st = .key := by
      rcases hp with h | ⟨-, h⟩
      · exact h
      · exact (key_noData hk h).elim
    obtain ⟨st, h1, h2⟩ := data_run hd p k
    have hst : gapSt g st ≠ .cont := by rcases h2 with rfl | ⟨rfl, -⟩ <;> unfold gapSt <;> split <;> simp
    obtain ⟨l, s, h3, h4⟩ := ihb ⟨⟨k, v, [], js ++ is⟩, p.top :: p.below, none, .key⟩ (Or.inl rfl)
    obtain ⟨l', s', h5, h6⟩ := ihr ⟨{ p.top with kids := p.top.kids ++ (k, .node v bs) :: (js ++ is) }, p.below, none, .key⟩ (Or.inl rfl)
    refine ⟨l', s', ?_, h6⟩
    rw [trun, key_run hk p hpk, Option.bind_some, trun_append, h1, Option.bind_some, trun_append, gap_pending hg, Option.bind_some, trun, tstep,
      if_neg (show ¬ (pending p k v (js ++ is) (gapSt g st)).st = .cont from hst), open_pending, Option.bind_some, trun_append, h3, Option.bind_some, trun, tstep,
      if_neg (h4 rfl), RS.close]
    simp only [Option.bind_some, List.nil_append]
    rw [h5]
    simp
  | @«open» t k d v js hk hd =>
    intro p hp
    have hpk : p.st = .key := by
      rcases hp with h | ⟨-, h⟩
      · exact h
      · exact (key_noData hk h).elim
    refine ⟨some p.top.kids.length, .cont, ?_, fun h => by cases h⟩
    rw [trun, key_run hk p hpk, Option.bind_some, parts_run hd p k [] [] .data (Or.inl ⟨rfl, rfl⟩)]
    simp [pending]

/-! ## from the reader to the grammar -/

theorem gap_split : ∀ ts : List Tok, ∃ g is r, ts = g ++ r ∧ Gap g is ∧ (∀ t ∈ r.head?, t ≠ .nl ∧ ∀ ks, t ≠ .inc ks)
  | [] => ⟨[], [], [], rfl, .nil, by simp⟩
  | t :: ts => by
    obtain ⟨g, is, r, h1, h2, h3⟩ := gap_split ts
    cases t with
    | nl => exact ⟨.nl :: g, is, r, by rw [h1]; rfl, .nl h2, h3⟩
    | inc ks => exact ⟨.inc ks :: g, ks ++ is, r, by rw [h1]; rfl, .inc h2, h3⟩
    | _ => exact ⟨[], [], _ :: ts, rfl, .nil, by simp⟩

theorem gap_children {g : List Tok} {is : List (Key × Tree)} (h : Gap g is) {top : Bool} {r : List Tok} {ks : List (Key × Tree)} (hr : Children top r ks) :
    Children top (g ++ r) (is ++ ks) := by
  induction h with
  | nil => exact hr
  | nl _ ih => exact .nl ih
  | inc _ ih => rw [List.append_assoc]; exact .inc ih

theorem data_mono {d r r' : List Tok} {v : Str} {js : List (Key × Tree)} (h : Data d v js r) (hr : ∀ t ∈ r'.head?, t ∈ r.head?) : Data d v js r' := by
  cases h with
  | none h => exact .none fun t ht => h t (hr t ht)
  | word => exact .word
  | string h => exact .string h

theorem setData_below (p : RS) (f : Str → Str) (m : Bool) : (p.setData f m).below = p.below ∧ (p.setData f m).st = (if m then .cont else .key) := ⟨rfl, rfl⟩

/-- a continued string -/
theorem parts_split : ∀ (n : Nat) (ts : List Tok) (v : Str) (p q : RS), ts.length ≤ n → p.st = .cont → trun p ts = some q →
    (∃ v' js, Parts false (.part v :: ts) v' js) ∨
    ∃ d r v' js p', ts = d ++ r ∧ Parts true (.part v :: d) v' js ∧ trun p d = some p' ∧ p'.st = .key ∧ p'.below = p.below := by
  intro n
  induction n with
  | zero =>
    intro ts v p q hl _ _
    cases ts with
    | nil => exact Or.inl ⟨v, [], .cut .nil⟩
    | cons _ _ => simp at hl
  | succ n ih =>
    intro ts v p q hl hp h
    obtain ⟨g, is, r, rfl, hg, hr⟩ := gap_split ts
    have hst : gapSt g p.st = .cont := by simp [gapSt, hp]
    rw [trun_append, gap_run hg, Option.bind_some, hst] at h
    cases r with
    | nil => rw [List.append_nil]; exact Or.inl ⟨v, is, .cut hg⟩
    | cons t r =>
      have hc : (p.plus is .cont).st = .cont := rfl
      have hr' := hr t (by simp)
      cases t with
      | nl => exact absurd rfl hr'.1
      | inc ks => exact absurd rfl (hr'.2 ks)
      | lbrace => simp [trun, tstep, hc] at h
      | rbrace => simp [trun, tstep, hc] at h
      | word w => simp [trun, tstep, hc] at h
      | str w =>
        refine Or.inr ⟨g ++ [.str w], r, v ++ w, is ++ [], (p.plus is .cont).setData (· ++ w) false, by simp, .more hg .last, ?_, rfl, rfl⟩
        rw [trun_append, gap_run hg, Option.bind_some, hst]
        simp [trun, tstep, hc]
      | part w =>
        simp only [List.length_append, List.length_cons] at hl
        simp only [trun, tstep, hc, Option.bind_some] at h
        rcases ih r w _ q (by omega) rfl h with ⟨v', js, h1⟩ | ⟨d, r', v', js, p', rfl, h1, h2, h3, h4⟩
        · exact Or.inl ⟨v ++ v', is ++ js, .more hg h1⟩
        · refine Or.inr ⟨g ++ .part w :: d, r', v ++ v', is ++ js, p', by simp, .more hg h1, ?_, h3, by rw [h4]; rfl⟩
          rw [trun_append, gap_run hg, Option.bind_some, hst]
          simp only [trun, tstep, hc, Option.bind_some]
          exact h2

/-- what a successful run says about the tokens: they are a list of children; or a list of children is followed by a brace that closes the
enclosing list; or a brace is not closed -/
def Out (ts : List Tok) (n : Nat) (q : RS) : Prop :=
  (∃ ks, Children true ts ks) ∨ (∃ t1 t2 ks, ts = t1 ++ .rbrace :: t2 ∧ Children false t1 ks) ∨ n < q.below.length

theorem open_some {p o : RS} (h : p.open = some o) : ∃ f, o.below = f :: p.below ∧ o.last = none ∧ o.st = .key := by
  unfold RS.open at h
  split at h
  · cases h
  · split at h
    · cases h
    · simp only [Option.some.injEq] at h
      subst h
      exact ⟨_, rfl, rfl, rfl⟩

/-- behind a key and its data -/
theorem after_data {n : Nat}
    (ih : ∀ (ts : List Tok) (p q : RS), ts.length ≤ n → trun p ts = some q → (p.st = .key ∨ p.st = .data ∧ NoData ts) →
      (p.last = none ∨ ∀ t ∈ ts.head?, t ≠ .nl ∧ t ≠ .lbrace ∧ ∀ ks, t ≠ .inc ks) → Out ts p.below.length q)
    {t : Tok} {k : Key} {d rest : List Tok} {v : Str} {js : List (Key × Tree)} (hk : IsKey t k) (hd : Data d v js rest) (p q : RS)
    (hl : rest.length ≤ n) (h : trun p rest = some q) (hp : p.st = .key ∨ p.st = .data ∧ NoData rest) : Out (t :: (d ++ rest)) p.below.length q := by
  obtain ⟨g, is, r, rfl, hg, hr⟩ := gap_split rest
  rw [trun_append, gap_run hg, Option.bind_some] at h
  simp only [List.length_append] at hl
  have hst : gapSt g p.st = .key ∨ gapSt g p.st = .data ∧ NoData r := by
    rcases hp with hp | ⟨hp, hn⟩
    · left; simp [gapSt, hp]
    · cases g with
      | nil => right; exact ⟨by simp [gapSt, hp], hn⟩
      | cons x g => left; simp [gapSt, hp]
  by_cases hb : ∃ r', r = .lbrace :: r'
  · obtain ⟨r, rfl⟩ := hb
    have hnc : ¬ (p.plus is (gapSt g p.st)).st = .cont := by
      rcases hst with h' | ⟨h', -⟩ <;> simp [RS.plus, h']
    rw [trun, tstep, if_neg hnc, Option.bind_eq_some_iff] at h
    obtain ⟨o, ho, h⟩ := h
    obtain ⟨f, o1, o2, o3⟩ := open_some ho
    simp only [List.length_cons] at hl
    rcases ih r o q (by omega) h (Or.inl o3) (Or.inl o2) with ⟨ks, hks⟩ | ⟨b, r2, bs, rfl, hb⟩ | hlt
    · obtain ⟨l, s, e, -⟩ := children_run hks o (Or.inl o3)
      rw [e, Option.some.injEq] at h
      subst h
      right; right
      simp only [o1, List.length_cons]
      simp [RS.plus]
    · obtain ⟨l, s, e, hs⟩ := children_run hb o (Or.inl o3)
      rw [trun_append, e, Option.bind_some, trun, tstep, if_neg (hs rfl), RS.close] at h
      simp only [o1, Option.bind_some] at h
      simp only [List.length_append, List.length_cons] at hl
      rcases ih r2 _ q (by omega) h (Or.inl rfl) (Or.inl rfl) with ⟨ks, hks⟩ | ⟨t1, t2, ks, rfl, hks⟩ | hlt
      · exact Or.inl ⟨_, .node hk hd hg hb hks⟩
      · refine Or.inr (Or.inl ⟨t :: (d ++ (g ++ .lbrace :: (b ++ .rbrace :: t1))), t2, _, by simp, .node hk (data_mono hd ?_) hg hb hks⟩)
        intro x hx
        cases g <;> simpa using hx
      · exact Or.inr (Or.inr hlt)
    · right; right
      rw [o1] at hlt
      simp only [List.length_cons] at hlt
      have : (p.plus is (gapSt g p.st)).below = p.below := rfl
      rw [this] at hlt
      omega
  · have hh : ∀ x ∈ r.head?, x ≠ .nl ∧ x ≠ .lbrace ∧ ∀ ks, x ≠ .inc ks := by
      intro x hx
      refine ⟨(hr x hx).1, ?_, (hr x hx).2⟩
      rintro rfl
      cases r with
      | nil => simp at hx
      | cons y r =>
        simp only [List.head?_cons, Option.mem_def, Option.some.injEq] at hx
        exact hb ⟨r, by rw [hx]⟩
    rcases ih r _ q (by omega) h hst (Or.inr hh) with ⟨ks, hks⟩ | ⟨t1, t2, ks, rfl, hks⟩ | hlt
    · exact Or.inl ⟨_, .leaf hk hd (gap_children hg hks)⟩
    · refine Or.inr (Or.inl ⟨t :: (d ++ (g ++ t1)), t2, _, by simp, .leaf hk (data_mono hd ?_) (gap_children hg hks)⟩)
      intro x hx
      cases g with
      | nil =>
        cases t1 with
        | nil => simp at hx
        | cons y t1 => simpa using hx
      | cons y g => simpa using hx
    · exact Or.inr (Or.inr hlt)

theorem run_out : ∀ (n : Nat) (ts : List Tok) (p q : RS), ts.length ≤ n → trun p ts = some q → (p.st = .key ∨ p.st = .data ∧ NoData ts) →
    (p.last = none ∨ ∀ t ∈ ts.head?, t ≠ .nl ∧ t ≠ .lbrace ∧ ∀ ks, t ≠ .inc ks) → Out ts p.below.length q := by
  intro n
  induction n with
  | zero =>
    intro ts p q hl _ _ _
    cases ts with
    | nil => exact Or.inl ⟨[], .nil⟩
    | cons _ _ => simp at hl
  | succ n ih =>
    intro ts p q hl h hp hlast
    cases ts with
    | nil => exact Or.inl ⟨[], .nil⟩
    | cons t ts =>
      simp only [List.length_cons] at hl
      have hkey : ∀ k, IsKey t k → Out (t :: ts) p.below.length q := by
        intro k hk
        have hpk : p.st = .key := by
          rcases hp with h | ⟨-, h⟩
          · exact h
          · exact (key_noData hk h).elim
        rw [trun, key_run hk p hpk, Option.bind_some] at h
        have hst : (pending p k [] [] .data).st = .data := rfl
        have none_case : NoData ts → Out (t :: ts) p.below.length q := fun hn => by
          have := after_data (d := []) ih hk (.none hn) (pending p k [] [] .data) q (by omega) h (Or.inr ⟨rfl, hn⟩)
          exact this
        cases ts with
        | nil => exact none_case (by simp [NoData])
        | cons u ts =>
          simp only [List.length_cons] at hl
          cases u with
          | word v =>
            simp only [trun, tstep, hst, Option.bind_some] at h
            have := after_data (d := [.word v]) ih hk .word ((pending p k [] [] .data).setData (fun _ => v) false) q (by omega) h (Or.inl rfl)
            exact this
          | str v =>
            simp only [trun, tstep, hst, Option.bind_some] at h
            have := after_data (d := [.str v]) ih hk (.string .last) ((pending p k [] [] .data).setData (fun _ => v) false) q (by omega) h (Or.inl rfl)
            exact this
          | part v =>
            simp only [trun, tstep, hst, Option.bind_some] at h
            rcases parts_split _ ts v _ q (Nat.le_refl _) rfl h with ⟨v', js, h1⟩ | ⟨d, r, v', js, p', rfl, h1, h2, h3, h4⟩
            · exact Or.inl ⟨_, .open hk h1⟩
            · rw [trun_append, h2, Option.bind_some] at h
              simp only [List.length_append] at hl
              have := after_data (d := .part v :: d) ih hk (.string h1) p' q (by omega) h (Or.inl h3)
              rw [h4] at this
              exact this
          | _ => exact none_case (by simp [NoData])
      have hl0 : t = .nl ∨ t = .lbrace ∨ (∃ ks, t = .inc ks) → p.last = none := by
        intro ht
        rcases hlast with h0 | h0
        · exact h0
        · have := h0 t (by simp)
          rcases ht with h1 | h1 | ⟨ks, h1⟩
          · exact absurd h1 this.1
          · exact absurd h1 this.2.1
          · exact absurd h1 (this.2.2 ks)
      have hst0 : (if p.st = .data then St.key else p.st) = .key := by rcases hp with h | ⟨h, -⟩ <;> simp [h]
      cases t with
      | word k => exact hkey k (Or.inl rfl)
      | str k => exact hkey k (Or.inr rfl)
      | part v =>
        rcases hp with hp | ⟨-, hp⟩
        · simp [trun, tstep, hp] at h
        · exact absurd rfl (hp (.part v) (by simp) v).2.2
      | lbrace =>
        have h0 := hl0 (Or.inr (Or.inl rfl))
        rw [trun, tstep] at h
        split at h
        · simp at h
        · simp [RS.open, h0] at h
      | rbrace => exact Or.inr (Or.inl ⟨[], ts, [], rfl, .nil⟩)
      | nl =>
        have h0 := hl0 (Or.inl rfl)
        simp only [trun, tstep, hst0, Option.bind_some] at h
        rcases ih ts _ q (by omega) h (Or.inl rfl) (Or.inl h0) with ⟨ks, hks⟩ | ⟨t1, t2, ks, rfl, hks⟩ | hlt
        · exact Or.inl ⟨_, .nl hks⟩
        · exact Or.inr (Or.inl ⟨.nl :: t1, t2, _, rfl, .nl hks⟩)
        · exact Or.inr (Or.inr hlt)
      | inc js =>
        have h0 := hl0 (Or.inr (Or.inr ⟨js, rfl⟩))
        simp only [trun, tstep, hst0, Option.bind_some] at h
        rcases ih ts _ q (by omega) h (Or.inl rfl) (Or.inl h0) with ⟨ks, hks⟩ | ⟨t1, t2, ks, rfl, hks⟩ | hlt
        · exact Or.inl ⟨_, .inc hks⟩
        · exact Or.inr (Or.inl ⟨.inc js :: t1, t2, _, rfl, .inc hks⟩)
        · exact Or.inr (Or.inr hlt)

/-- the reader at the beginning -/
def start : RS := ⟨⟨[], [], [], []⟩, [], none, .key⟩

/-- acceptance is being a list of children -/
theorem accept_iff (ts : List Tok) (ks : List (Key × Tree)) :
    (∃ f l s, trun start ts = some ⟨f, [], l, s⟩ ∧ f.kids = ks) ↔ Children true ts ks := by
  constructor
  · rintro ⟨f, l, s, h, rfl⟩
    rcases run_out _ ts start _ (Nat.le_refl _) h (Or.inl rfl) (Or.inl rfl) with ⟨ks, hks⟩ | ⟨t1, t2, ks, rfl, hks⟩ | hlt
    · obtain ⟨l', s', e, -⟩ := children_run hks start (Or.inl rfl)
      rw [h] at e
      simp only [Option.some.injEq, RS.mk.injEq] at e
      rw [e.1]
      simpa [start] using hks
    · obtain ⟨l', s', e, hs⟩ := children_run hks start (Or.inl rfl)
      rw [trun_append, e, Option.bind_some, trun, tstep, if_neg (hs rfl), RS.close] at h
      simp [start] at h
    · simp [start] at hlt
  · intro h
    obtain ⟨l, s, e, -⟩ := children_run h start (Or.inl rfl)
    exact ⟨_, l, s, e, by simp [start]⟩

/-! ## lines -/

theorem takeWhile_cut (s r : Str) : (s ++ Char.ofNat 0 :: r).takeWhile (· ≠ Char.ofNat 0) = s.takeWhile (· ≠ Char.ofNat 0) := by
  induction s with
  | nil => simp
  | cons c s ih =>
    by_cases hc : c = Char.ofNat 0
    · simp [hc]
    · simp only [List.cons_append, List.takeWhile_cons, hc, ne_eq, not_false_eq_true, decide_true, if_true, ih]

theorem cut_split (l : Str) : ∃ s, l.takeWhile (· ≠ Char.ofNat 0) = s ∧ Char.ofNat 0 ∉ s ∧ (l = s ∨ ∃ r, l = s ++ Char.ofNat 0 :: r) := by
  induction l with
  | nil => exact ⟨[], rfl, by simp, Or.inl rfl⟩
  | cons c l ih =>
    by_cases hc : c = Char.ofNat 0
    · exact ⟨[], by simp [hc], by simp, Or.inr ⟨l, by rw [hc]; rfl⟩⟩
    · obtain ⟨s, h1, h2, h3⟩ := ih
      refine ⟨c :: s, by simp only [List.takeWhile_cons, hc, ne_eq, not_false_eq_true, decide_true, if_true, h1], ?_, ?_⟩
      · simp only [List.mem_cons, not_or]; exact ⟨fun h => hc h.symm, h2⟩
      · rcases h3 with rfl | ⟨r, rfl⟩
        · exact Or.inl rfl
        · exact Or.inr ⟨r, rfl⟩

theorem include_word (s : Str) (hs : ∀ c ∈ s.head?, White c ∨ c = ';') : readWord ("include".toList ++ s) = some ("include".toList, s) := by
  refine readWord_spells ?_ hs
  refine spells_word _ (Nat.le_refl _) (fun c hc => ?_) rfl
  simp only [String.reduceToList, List.mem_cons, List.not_mem_nil, or_false] at hc
  rcases hc with rfl | rfl | rfl | rfl | rfl | rfl | rfl <;> simp [White]

theorem includeName_of {b c e raw name : Str} (hb : Blank b) (hc : Blank c) (he : Blank e) (h0 : c ≠ []) (hr : Spells (· ≠ '"') raw name) :
    includeName (b ++ ("include".toList ++ (c ++ '"' :: (raw ++ '"' :: e)))) = some name := by
  have h1 : (b ++ ("include".toList ++ (c ++ '"' :: (raw ++ '"' :: e)))).dropWhile isSpaceC = "include".toList ++ (c ++ '"' :: (raw ++ '"' :: e)) :=
    skip_stop (c := 'i') hb (by simp [White]) _
  have h2 : ∀ x ∈ (c ++ '"' :: (raw ++ '"' :: e)).head?, White x ∨ x = ';' := by
    cases c with
    | nil => exact absurd rfl h0
    | cons y c =>
      intro x hx
      simp only [List.cons_append, List.head?_cons, Option.mem_def, Option.some.injEq] at hx
      subst hx
      exact Or.inl (hc _ (by simp))
  have h3 : readString false (raw ++ '"' :: e) = some (name, false, e.dropWhile isSpaceC) := by
    refine readString_str false hr ?_
    intro b r hb' h
    have : '\\' ∈ e := by rw [h]; simp
    have := he _ this
    simp [White] at this
  unfold includeName
  rw [h1, include_word _ h2]
  simp only [if_true]
  rw [skip_stop hc (by simp [White])]
  simp only [h3, skip_all he]
  rfl

theorem escapes_letter : ∀ p ∈ escapes, p.2 ∉ "include".toList := by
  intro p hp
  simp only [escapes, List.mem_cons, List.not_mem_nil, or_false] at hp
  rcases hp with rfl | rfl | rfl | rfl | rfl | rfl | rfl | rfl | rfl | rfl | rfl <;> simp

theorem spells_plain {ok : Char → Prop} {raw v : Str} (h : Spells ok raw v) (hv : ∀ p ∈ escapes, p.2 ∉ v) : raw = v := by
  induction h with
  | nil => rfl
  | plain _ _ _ ih => rw [ih fun p hp hm => hv p hp (by simp [hm])]
  | @esc d c r v hd _ ih => exact absurd (by simp) (hv _ hd)

theorem includeName_some {r name : Str} (h : includeName r = some name) :
    ∃ b c raw e, Blank b ∧ Blank c ∧ Blank e ∧ c ≠ [] ∧ Spells (· ≠ '"') raw name ∧ r = b ++ ("include".toList ++ (c ++ '"' :: (raw ++ '"' :: e))) := by
  obtain ⟨b, u, hb, hs, hd, hu⟩ := blank_split r
  unfold includeName at h
  rw [hd] at h
  split at h
  · cases h
  · rename_i w r1 hw
    obtain ⟨raw0, hu0, hsp, hst, -⟩ := readWord_some hw
    split at h
    · rename_i hwi
      subst hwi
      have := spells_plain hsp escapes_letter
      subst this
      obtain ⟨c, u1, hc, hs1, hd1, hu1⟩ := blank_split r1
      rw [hd1] at h
      split at h
      · rename_i r2
        split at h
        · cases h
        · rename_i nm more r3 hrs
          split at h
          · rename_i h3
            simp only [Option.some.injEq] at h
            subst h
            obtain ⟨raw, s, ht, hsp', hor⟩ := readString_some hrs
            rcases hor with ⟨-, rfl, -⟩ | ⟨hm, -⟩
            · rw [dropWhile_twice] at h3
              have he : Blank s := by
                obtain ⟨w, x, hw', hx, hdx, -⟩ := blank_split s
                rw [h3] at hdx
                subst hdx
                rw [hx, List.append_nil]
                exact hw'
              refine ⟨b, c, raw, s, hb, hc, he, ?_, hsp', ?_⟩
              · rintro rfl
                have := hst '"' (by rw [hs1]; simp)
                simp [White] at this
              · rw [hs, hu0, hs1, ht]
            · cases hm
          · cases h
      · cases h
    · cases h

theorem lineStep_means {inc : Str → Option (List (Key × Tree))} {l : Str} {ts : List Tok} (h : LineMeans (fun name ks => inc name = some ks) l ts) :
    ∀ p : RS, p.st ≠ .data → lineStep inc p l = trun p ts := by
  induction h with
  | @toks s ts h0 hh ht =>
    intro p hp
    have h1 : s.takeWhile (· ≠ Char.ofNat 0) = s := takeWhile_nonul s fun c hc he => h0 (he ▸ hc)
    unfold lineStep
    rw [h1]
    simp only
    split
    · rename_i r hr
      obtain ⟨w, u, hw, hs, hd, -⟩ := blank_split s
      rw [hd] at hr
      subst hr
      exact absurd hs (hh w r hw)
    · exact readLine_toks ht _ p (Nat.le_refl _)
  | @incl a b c e raw name ks ha hb hc he h0 hr hi hne =>
    intro p hp
    have hbl : ∀ w : Str, Blank w → Char.ofNat 0 ∉ w := fun w hw hm => by have := hw _ hm; simp [White] at this
    have h1 : (a ++ '#' :: (b ++ ("include".toList ++ (c ++ '"' :: (raw ++ '"' :: e))))).takeWhile (· ≠ Char.ofNat 0) =
        a ++ '#' :: (b ++ ("include".toList ++ (c ++ '"' :: (raw ++ '"' :: e)))) := by
      refine takeWhile_nonul _ fun x hx hxe => ?_
      subst hxe
      have ha' := hbl a ha
      have hb' := hbl b hb
      have hc' := hbl c hc
      have he' := hbl e he
      simp [ha', hb', hc', he', h0] at hx
    unfold lineStep
    rw [h1]
    simp only
    rw [skip_stop ha (by simp [White])]
    simp only [includeName_of hb hc he hne hr, Option.bind_some, hi, Option.map_some]
    simp only [trun, tstep, Option.bind_some, hp, if_false]
  | @cut s r ts _ ih =>
    intro p hp
    rw [← ih p hp]
    unfold lineStep
    rw [takeWhile_cut]

theorem lineStep_some {inc : Str → Option (List (Key × Tree))} {l : Str} {p q : RS} (h : lineStep inc p l = some q) :
    ∃ ts, LineMeans (fun name ks => inc name = some ks) l ts := by
  obtain ⟨s, hs, h0, hl⟩ := cut_split l
  suffices hm : ∃ ts, LineMeans (fun name ks => inc name = some ks) s ts by
    obtain ⟨ts, hm⟩ := hm
    rcases hl with rfl | ⟨r, rfl⟩
    · exact ⟨ts, hm⟩
    · exact ⟨ts, .cut hm⟩
  unfold lineStep at h
  rw [hs] at h
  simp only at h
  obtain ⟨a, u, ha, hsa, hd, -⟩ := blank_split s
  split at h
  · rename_i r hr
    rw [hd] at hr
    subst hr
    rw [Option.map_eq_some_iff] at h
    obtain ⟨ks, h1, -⟩ := h
    rw [Option.bind_eq_some_iff] at h1
    obtain ⟨name, h2, h3⟩ := h1
    obtain ⟨b, c, raw, e, hb, hc, he, hne, hsp, rfl⟩ := includeName_some h2
    refine ⟨[.inc ks], ?_⟩
    rw [hsa]
    refine .incl ha hb hc he ?_ hsp h3 hne
    intro hm
    exact h0 (by rw [hsa]; simp [hm])
  · rename_i hno
    obtain ⟨ts, hts⟩ := readLine_some _ p q s h
    refine ⟨ts ++ [.nl], .toks h0 ?_ hts⟩
    intro w r hw he
    exact hno r (by rw [he]; exact skip_stop hw (by simp [White]) r)

/-- the state behind a line -/
theorem means_state {incl : Str → List (Key × Tree) → Prop} {l : Str} {ts : List Tok} (h : LineMeans incl l ts) {p q : RS} (hr : trun p ts = some q) : q.st ≠ .data := by
  induction h with
  | @toks s ts _ _ _ =>
    rw [trun_append, Option.bind_eq_some_iff] at hr
    obtain ⟨p', -, h2⟩ := hr
    simp only [trun, tstep, Option.bind_some, Option.some.injEq] at h2
    subst h2
    simp only
    split <;> simp_all
  | incl =>
    simp only [trun, tstep, Option.bind_some, Option.some.injEq] at hr
    subst hr
    simp only
    split <;> simp_all
  | cut _ ih => exact ih hr

theorem linesStep_means {inc : Str → Option (List (Key × Tree))} {ls : List Str} {tss : List (List Tok)}
    (h : List.Forall₂ (LineMeans fun name ks => inc name = some ks) ls tss) : ∀ p : RS, p.st ≠ .data → linesStep inc p ls = trun p tss.flatten := by
  induction h with
  | nil => intro p _; rfl
  | @cons l ts ls tss h1 _ ih =>
    intro p hp
    rw [linesStep, lineStep_means h1 p hp, List.flatten_cons, trun_append]
    cases hq : trun p ts with
    | none => rfl
    | some q => exact ih q (means_state h1 hq)

theorem linesStep_some {inc : Str → Option (List (Key × Tree))} : ∀ {ls : List Str} {p q : RS}, linesStep inc p ls = some q →
    ∃ tss, List.Forall₂ (LineMeans fun name ks => inc name = some ks) ls tss
  | [], _, _, _ => ⟨[], .nil⟩
  | l :: ls, p, q, h => by
    rw [linesStep, Option.bind_eq_some_iff] at h
    obtain ⟨p', h1, h2⟩ := h
    obtain ⟨ts, hts⟩ := lineStep_some h1
    obtain ⟨tss, htss⟩ := linesStep_some h2
    exact ⟨ts :: tss, .cons hts htss⟩

/-! ## texts -/

theorem readText_iff (inc : Str → Option (List (Key × Tree))) (s : Str) (ks : List (Key × Tree)) :
    readText inc s = some ks ↔ Text (fun name ks => inc name = some ks) s ks := by
  have hm : readText inc s = some ks ↔ ∃ f l st, linesStep inc start (s.splitOn '\n') = some ⟨f, [], l, st⟩ ∧ f.kids = ks := by
    unfold readText
    rw [show (⟨⟨[], [], [], []⟩, [], none, .key⟩ : RS) = start from rfl]
    rcases linesStep inc start (s.splitOn '\n') with _ | ⟨f, _ | _, l, st⟩ <;> simp
  rw [hm]
  constructor
  · rintro ⟨f, l, st, h, hk⟩
    obtain ⟨tss, ht⟩ := linesStep_some h
    rw [linesStep_means ht _ (by decide)] at h
    refine ⟨s.splitOn '\n', tss, (List.intercalate_splitOn '\n').symm, List.splitOn_ne_nil _ _, fun l hl => IniFile.splitOn_noNl _ s (Nat.le_refl _) l hl, ht, ?_⟩
    exact (accept_iff _ _).1 ⟨f, l, st, h, hk⟩
  · rintro ⟨ls, tss, rfl, h0, hnl, ht, hc⟩
    obtain ⟨f, l, st, h, hk⟩ := (accept_iff _ _).2 hc
    refine ⟨f, l, st, ?_, hk⟩
    rw [List.splitOn_intercalate '\n' hnl h0, linesStep_means ht _ (by decide)]
    exact h

theorem text_congr {i j : Str → List (Key × Tree) → Prop} (h : ∀ n ks, i n ks ↔ j n ks) (s : Str) (ks : List (Key × Tree)) : Text i s ks ↔ Text j s ks := by
  have : i = j := by funext n ks; exact propext (h n ks)
  rw [this]

theorem readKids_iff (files : Str → Option Str) : ∀ (n : Nat) (s : Str) (ks : List (Key × Tree)), readKids files n s = some ks ↔ TextUpTo files n s ks
  | 0, s, ks => by
    rw [readKids, readText_iff, TextUpTo]
    exact text_congr (by simp) s ks
  | n + 1, s, ks => by
    rw [readKids, readText_iff, TextUpTo]
    refine text_congr (fun name js => ?_) s ks
    rw [Option.bind_eq_some_iff]
    constructor
    · rintro ⟨t, h1, h2⟩; exact ⟨t, h1, (readKids_iff files n t js).1 h2⟩
    · rintro ⟨t, h1, h2⟩; exact ⟨t, h1, (readKids_iff files n t js).2 h2⟩

/-! ## C166 -/

/-- **C166** The reader accepts exactly the INFO files, and gives each one its tree. -/
theorem C166_read (files : Str → Option Str) (s : Str) (t : Tree) : readInfo files s = some t ↔ InfoText files s t := by
  unfold readInfo InfoText
  rw [Option.map_eq_some_iff]
  constructor
  · rintro ⟨ks, h, rfl⟩; exact ⟨ks, (readKids_iff files _ s ks).1 h, rfl⟩
  · rintro ⟨ks, h, rfl⟩; exact ⟨ks, (readKids_iff files _ s ks).2 h, rfl⟩

/-- **C166** An INFO file stands for one tree only. -/
theorem C166_unique (files : Str → Option Str) (s : Str) (t t' : Tree) (h : InfoText files s t) (h' : InfoText files s t') : t = t' := by
  rw [← C166_read] at h h'
  exact Option.some.inj (h.symm.trans h')

/-- **C166** `load` of a file whose name ends in `.info`: an INFO file gives its tree, anything else is refused and leaves the tree as it was. -/
theorem C166_load (F : Formats) (files : Str → Option Str) (hr : F.read .info = readInfo files) (d : Disk) (path : Str) (hp : ".info".toList <:+ path) (s : Str)
    (hd : d.content path = some s) (t0 : Tree) :
    (∀ t, InfoText files s t → load F d path t0 = (none, t)) ∧ ((∀ t, ¬ InfoText files s t) → load F d path t0 = (some .parser, t0)) := by
  obtain ⟨-, h2, h3, -⟩ := C95_errors F [] d path t0 .info hp
  refine ⟨fun t ht => h3 s t hd (by rw [hr]; exact (C166_read files s t).2 ht), fun h => h2 s hd ?_⟩
  rw [hr]
  cases hc : readInfo files s with
  | none => rfl
  | some t => exact absurd ((C166_read files s t).1 hc) (h t)

/-- a file in a style of its own -/
def infoSample : Str := "; sensors\ncamera { topic /cam0  rate \"12 \\\"Hz\\\"\" }\n\nnote \"first \" \\ ; goes on\n  \"second\"\n{\nx 1\n}\nend\n".toList

/-- several entries in one line, escapes, a string over two lines, a brace in a line of its own -/
example : InfoText (fun _ => none) infoSample (.node [] [
    ("camera".toList, .node [] [("topic".toList, .node "/cam0".toList []), ("rate".toList, .node "12 \"Hz\"".toList [])]),
    ("note".toList, .node "first second".toList [("x".toList, .node "1".toList [])]), ("end".toList, .node [] [])]) := by
  rw [← C166_read, readInfo, readKids]
  unfold infoSample
  cbv

/-- an included file -/
example : InfoText (fun n => if n = ['m'] then some "x 1".toList else none) "c\n{\n#include \"m\"\n}".toList
    (.node [] [(['c'], .node [] [(['x'], .node ['1'] [])])]) := by
  have hw : ∀ c : Char, ¬ White c → c ≠ ';' → c ≠ '\\' → c ≠ '{' ∧ c ≠ '}' ∧ c ≠ '"' → LineToks [c] [.word [c]] := by
    intro c h1 h2 h3 h4
    exact .word (w := []) (raw := [c]) (s := []) (by simp [Blank]) (by simp) (by simpa using h4) (.plain h3 ⟨h1, h2⟩ .nil) (by simp) (.done (Or.inl (by simp [Blank])))
  refine ⟨_, ⟨["c".toList, "{".toList, "#include \"m\"".toList, "}".toList], [[.word ['c'], .nl], [.lbrace, .nl], [.inc [(['x'], .node ['1'] [])]], [.rbrace, .nl]], rfl, by simp,
    by decide, ?_, ?_⟩, rfl⟩
  · refine .cons (.toks (by decide) ?_ (hw 'c' (by simp [White]) (by decide) (by decide) (by decide))) (.cons (.toks (ts := [.lbrace]) (by decide) ?_ ?_) (.cons ?_ (.cons (.toks (ts := [.rbrace]) (by decide) ?_ ?_) .nil)))
    · intro w r _ h
      have : '#' ∈ ['c'] := by rw [h]; simp
      simp at this
    · intro w r _ h
      have : '#' ∈ "{".toList := by rw [h]; simp
      simp at this
    · exact .lbrace (w := []) (by simp [Blank]) (.done (Or.inl (by simp [Blank])))
    · refine .incl (a := []) (b := []) (c := [' ']) (e := []) (raw := ['m']) (name := ['m']) (by simp [Blank]) (by simp [Blank]) (by simp [Blank, White]) (by simp [Blank]) (by decide)
        (.plain (by decide) (by decide) .nil) ⟨"x 1".toList, by simp, ?_⟩ (by simp)
      refine ⟨["x 1".toList], [[.word ['x'], .word ['1'], .nl]], rfl, by simp, by decide, .cons (.toks (ts := [.word ['x'], .word ['1']]) (by decide) ?_ ?_) .nil, ?_⟩
      · intro w r _ h
        have : '#' ∈ "x 1".toList := by rw [h]; simp
        simp at this
      · refine .word (w := []) (raw := ['x']) (s := [' ', '1']) (by simp [Blank]) (by simp) (by simp) (.plain (by decide) (by simp [White]) .nil) (by simp [White]) ?_
        exact .word (w := [' ']) (raw := ['1']) (s := []) (by simp [Blank, White]) (by simp) (by simp) (.plain (by decide) (by simp [White]) .nil) (by simp) (.done (Or.inl (by simp [Blank])))
      · exact .leaf (d := [.word ['1']]) (Or.inl rfl) .word (.nl .nil)
    · intro w r _ h
      have : '#' ∈ "}".toList := by rw [h]; simp
      simp at this
    · exact .rbrace (w := []) (by simp [Blank]) (.done (Or.inl (by simp [Blank])))
  · exact .node (d := []) (g := [.nl]) (b := [.nl, .inc _]) (r := [.nl]) (Or.inl rfl) (.none (by simp)) (.nl .nil) (.nl (.inc .nil)) (.nl .nil)

/-- a brace that is not closed, and one that encloses nothing's children -/
example : ∀ t, ¬ InfoText (fun _ => none) "a { b".toList t := by
  intro t h
  rw [← C166_read, show readInfo (fun _ => none) "a { b".toList = none by rw [readInfo, readKids]; cbv] at h
  cases h

example : ∀ t, ¬ InfoText (fun _ => none) "a { b } { c }".toList t := by
  intro t h
  rw [← C166_read, show readInfo (fun _ => none) "a { b } { c }".toList = none by rw [readInfo, readKids]; cbv] at h
  cases h

end Verif.PTree.InfoFile
