import Verif.Serial.Boost

/-!
# Lemmas about loaders

`Reads P L w o`: the loader `L`, given an object that satisfies `P` (its compile-time type), reads exactly the items
`w` into the object `o`; on a part of `w` it throws.
-/

namespace Verif.Serial.Boost

variable {α τ σ ρ γ : Type}

/-- an item that is not a tag -/
def Item.isValue : Item τ → Bool
  | .op _ => false
  | .cl _ => false
  | _ => true

structure Reads (P : σ → Prop) (L : Loader σ τ) (w : List (Item τ)) (o : σ) : Prop where
  ok : ∀ d rest, P d → L d (w ++ rest) = ⟨none, o, rest⟩
  cut : ∀ d q x w', P d → w = q ++ x :: w' → (L d q).err ≠ none
  mangle : ∀ d q x w' m, P d → w = q ++ x :: w' → m.isValue = true →
    (L d (q ++ [m])).err ≠ none ∨ (L d (q ++ [m])).rest = []

theorem snoc_split {w : List (Item τ)} {y : Item τ} {q : List (Item τ)} {x : Item τ} {w' : List (Item τ)}
    (h : w ++ [y] = q ++ x :: w') : (∃ w'', w = q ++ x :: w'') ∨ (q = w ∧ x = y ∧ w' = []) := by
  rcases List.eq_nil_or_concat w' with rfl | ⟨l, z, rfl⟩
  · right
    have h' : w ++ [y] = q ++ [x] := h
    have := List.append_inj' h' rfl
    exact ⟨this.1.symm, by simpa using this.2.symm, rfl⟩
  · left
    have h' : w ++ [y] = (q ++ x :: l) ++ [z] := by simpa using h
    exact ⟨l, (List.append_inj' h' rfl).1⟩

theorem append_split {w1 w2 q w' : List (Item τ)} {x : Item τ} (h : w1 ++ w2 = q ++ x :: w') :
    (∃ w'', w1 = q ++ x :: w'') ∨ ∃ q2, q = w1 ++ q2 ∧ w2 = q2 ++ x :: w' := by
  rcases List.append_eq_append_iff.1 h with ⟨a, ha, hb⟩ | ⟨a, ha, hb⟩
  · exact .inr ⟨a, ha, hb⟩
  · cases a with
    | nil => exact .inr ⟨[], by simpa using ha.symm, by simpa using hb.symm⟩
    | cons y l =>
      left
      simp only [List.cons_append, List.cons.injEq] at hb
      obtain ⟨rfl, -⟩ := hb
      exact ⟨l, ha⟩

theorem Reads.mono {P Q : σ → Prop} {L : Loader σ τ} {w : List (Item τ)} {o : σ} (h : Reads P L w o) (hPQ : ∀ d, Q d → P d) :
    Reads Q L w o :=
  ⟨fun d rest hd => h.ok d rest (hPQ d hd), fun d q x w' hd => h.cut d q x w' (hPQ d hd),
    fun d q x w' m hd => h.mangle d q x w' m (hPQ d hd)⟩

theorem reads_num (n : Nat) : Reads (fun _ => True) (loadNum (τ := τ)) [.num n] n := by
  refine ⟨fun d rest _ => rfl, fun d q x w' _ h => ?_, fun d q x w' m _ h _ => ?_⟩
  · obtain ⟨rfl, -, -⟩ : q = [] ∧ x = .num n ∧ w' = [] := by
      cases q with
      | nil => simpa using h.symm
      | cons y l => simp at h
    simp [loadNum]
  · obtain ⟨rfl, -, -⟩ : q = [] ∧ x = .num n ∧ w' = [] := by
      cases q with
      | nil => simpa using h.symm
      | cons y l => simp at h
    cases m <;> simp [loadNum]

theorem reads_scal (c : Codec α τ) (x : α) (hx : c.dec (c.enc x) = some x) :
    Reads (fun _ => True) (loadScal c) [.scal (c.enc x)] x := by
  refine ⟨fun d rest _ => by simp [loadScal, hx], fun d q y w' _ h => ?_, fun d q y w' m _ h _ => ?_⟩
  · obtain ⟨rfl, -, -⟩ : q = [] ∧ y = .scal (c.enc x) ∧ w' = [] := by
      cases q with
      | nil => simpa using h.symm
      | cons y l => simp at h
    simp [loadScal]
  · obtain ⟨rfl, -, -⟩ : q = [] ∧ y = .scal (c.enc x) ∧ w' = [] := by
      cases q with
      | nil => simpa using h.symm
      | cons y l => simp at h
    cases m with
    | scal t => cases h : c.dec t <;> simp [loadScal, h]
    | _ => simp [loadScal]

theorem reads_tag (xml : Bool) (name : String) {P : σ → Prop} {L : Loader σ τ} {w : List (Item τ)} {o : σ} (h : Reads P L w o) :
    Reads P (withTag xml name L) (nvp xml name w) o := by
  cases xml
  · exact ⟨by simpa [withTag, nvp] using h.ok, by simpa [withTag, nvp] using h.cut, by simpa [withTag, nvp] using h.mangle⟩
  · refine ⟨fun d rest hd => ?_, fun d q x w' hd hw => ?_, fun d q x w' m hd hw hm => ?_⟩
    · have := h.ok d (.cl name :: rest) hd
      simp [withTag, nvp, this]
    · simp only [nvp, if_true] at hw
      cases q with
      | nil => simp [withTag]
      | cons y l =>
        simp only [List.cons_append, List.cons.injEq] at hw
        obtain ⟨rfl, hw⟩ := hw
        rcases snoc_split hw with ⟨w'', hw⟩ | ⟨rfl, -, -⟩
        · have := h.cut d l x w'' hd hw
          simp only [withTag, if_true]
          cases he : (L d l).err with
          | none => exact absurd he this
          | some e => simp
        · have := h.ok d [] hd
          rw [List.append_nil] at this
          simp [withTag, this]
    · left
      simp only [nvp, if_true] at hw
      cases q with
      | nil => cases m <;> simp [withTag, Item.isValue] at hm ⊢
      | cons y l =>
        simp only [List.cons_append, List.cons.injEq] at hw
        obtain ⟨rfl, hw⟩ := hw
        simp only [withTag, if_true, List.cons_append]
        rcases snoc_split hw with ⟨w'', hw⟩ | ⟨rfl, -, -⟩
        · rcases h.mangle d l x w'' m hd hw hm with he | hr
          · cases he' : (L d (l ++ [m])).err with
            | none => exact absurd he' he
            | some e => simp
          · rw [hr]
            cases (L d (l ++ [m])).err <;> simp
        · have := h.ok d [m] hd
          rw [this]
          cases m <;> simp [Item.isValue] at hm ⊢

theorem reads_top (xml : Bool) (name : String) {P : σ → Prop} {L : Loader σ τ} {w : List (Item τ)} {o : σ} (h : Reads P L w o) :
    Reads P (withTop xml L) (nvp xml name w) o := by
  cases xml
  · exact ⟨by simpa [withTop, nvp] using h.ok, by simpa [withTop, nvp] using h.cut, by simpa [withTop, nvp] using h.mangle⟩
  · refine ⟨fun d rest hd => ?_, fun d q x w' hd hw => ?_, fun d q x w' m hd hw hm => ?_⟩
    · have := h.ok d (.cl name :: rest) hd
      simp [withTop, nvp, this]
    · simp only [nvp, if_true] at hw
      cases q with
      | nil => simp [withTop]
      | cons y l =>
        simp only [List.cons_append, List.cons.injEq] at hw
        obtain ⟨rfl, hw⟩ := hw
        rcases snoc_split hw with ⟨w'', hw⟩ | ⟨rfl, -, -⟩
        · have := h.cut d l x w'' hd hw
          simp only [withTop, if_true]
          cases he : (L d l).err with
          | none => exact absurd he this
          | some e => simp
        · have := h.ok d [] hd
          rw [List.append_nil] at this
          simp [withTop, this]
    · left
      simp only [nvp, if_true] at hw
      cases q with
      | nil => cases m <;> simp [withTop, Item.isValue] at hm ⊢
      | cons y l =>
        simp only [List.cons_append, List.cons.injEq] at hw
        obtain ⟨rfl, hw⟩ := hw
        simp only [withTop, if_true, List.cons_append]
        rcases snoc_split hw with ⟨w'', hw⟩ | ⟨rfl, -, -⟩
        · rcases h.mangle d l x w'' m hd hw hm with he | hr
          · cases he' : (L d (l ++ [m])).err with
            | none => exact absurd he' he
            | some e => simp
          · rw [hr]
            cases (L d (l ++ [m])).err <;> simp
        · have := h.ok d [m] hd
          rw [this]
          cases m <;> simp [Item.isValue] at hm ⊢

/-- what is left of an empty rest -/
theorem top_mangle (name : String) {P : σ → Prop} {L : Loader σ τ} {w : List (Item τ)} {o : σ} (h : Reads P L w o)
    (d : σ) (q : List (Item τ)) (x : Item τ) (w' : List (Item τ)) (m : Item τ) (hd : P d)
    (hw : nvp true name w = q ++ x :: w') (hm : m.isValue = true) : (withTop true L d (q ++ [m])).err ≠ none := by
  simp only [nvp, if_true] at hw
  cases q with
  | nil => cases m <;> simp [withTop, Item.isValue] at hm ⊢
  | cons y l =>
    simp only [List.cons_append, List.cons.injEq] at hw
    obtain ⟨rfl, hw⟩ := hw
    simp only [withTop, if_true, List.cons_append]
    rcases snoc_split hw with ⟨w'', hw⟩ | ⟨rfl, -, -⟩
    · rcases h.mangle d l x w'' m hd hw hm with he | hr
      · cases he' : (L d (l ++ [m])).err with
        | none => exact absurd he' he
        | some e => simp
      · rw [hr]
        cases (L d (l ++ [m])).err <;> simp
    · have := h.ok d [m] hd
      rw [this]
      cases m <;> simp [Item.isValue] at hm ⊢

theorem reads_load2 {P1 : σ → Prop} {P2 : ρ → Prop} {L1 : Loader σ τ} {L2 : Loader ρ τ} {w1 w2 : List (Item τ)} {o1 : σ} {o2 : ρ}
    (mk : σ → ρ → γ) (g1 : γ → σ) (g2 : γ → ρ) (h1 : Reads P1 L1 w1 o1) (h2 : Reads P2 L2 w2 o2) (hne : w2 ≠ []) :
    Reads (fun d => P1 (g1 d) ∧ P2 (g2 d)) (load2 mk g1 g2 L1 L2) (w1 ++ w2) (mk o1 o2) := by
  have hnil : ∀ d, P2 d → (L2 d []).err ≠ none := by
    intro d hd
    cases w2 with
    | nil => exact absurd rfl hne
    | cons y l => exact h2.cut d [] y l hd rfl
  refine ⟨fun d rest hd => ?_, fun d q x w' hd hw => ?_, fun d q x w' m hd hw hm => ?_⟩
  · have a := h1.ok (g1 d) (w2 ++ rest) hd.1
    have b := h2.ok (g2 d) rest hd.2
    rw [List.append_assoc]
    simp [load2, a, b]
  · rcases append_split hw with ⟨w'', hw⟩ | ⟨q2, rfl, hw2⟩
    · have := h1.cut (g1 d) q x w'' hd.1 hw
      simp only [load2]
      cases he : (L1 (g1 d) q).err with
      | none => exact absurd he this
      | some e => simp
    · have a := h1.ok (g1 d) q2 hd.1
      have b := h2.cut (g2 d) q2 x w' hd.2 hw2
      simpa [load2, a] using b
  · rcases append_split hw with ⟨w'', hw⟩ | ⟨q2, rfl, hw2⟩
    · left
      simp only [load2]
      cases he : (L1 (g1 d) (q ++ [m])).err with
      | some e => simp
      | none =>
        rcases h1.mangle (g1 d) q x w'' m hd.1 hw hm with h | h
        · exact absurd he h
        · rw [h]
          simpa using hnil (g2 d) hd.2
    · have a := h1.ok (g1 d) (q2 ++ [m]) hd.1
      have b := h2.mangle (g2 d) q2 x w' m hd.2 hw2 hm
      rw [List.append_assoc]
      simpa [load2, a] using b

theorem reads_list {L : Loader α τ} (tok : α → List (Item τ)) (xs : List α) (hne : ∀ x ∈ xs, tok x ≠ [])
    (h : ∀ x ∈ xs, Reads (fun _ => True) L (tok x) x) :
    Reads (fun d => d.length = xs.length) (loadList L) (xs.flatMap tok) xs := by
  induction xs with
  | nil =>
    refine ⟨fun d rest hd => ?_, fun d q x w' hd hw => ?_, fun d q x w' m hd hw _ => ?_⟩
    · obtain rfl : d = [] := by simpa using hd
      simp [loadList]
    · simp at hw
    · simp at hw
  | cons y l ih =>
    have hy := h y (by simp)
    have hl := ih (fun x hx => hne x (by simp [hx])) (fun x hx => h x (by simp [hx]))
    refine ⟨fun d rest hd => ?_, fun d q x w' hd hw => ?_, fun d q x w' m hd hw hm => ?_⟩
    · cases d with
      | nil => simp at hd
      | cons z r =>
        have a := hy.ok z (l.flatMap tok ++ rest) trivial
        have b := hl.ok r rest (by simpa using hd)
        rw [List.flatMap_cons, List.append_assoc]
        simp [loadList, a, b]
    · cases d with
      | nil => simp at hd
      | cons z r =>
        rw [List.flatMap_cons] at hw
        rcases append_split hw with ⟨w'', hw⟩ | ⟨q2, rfl, hw2⟩
        · have := hy.cut z q x w'' trivial hw
          simp only [loadList]
          cases he : (L z q).err with
          | none => exact absurd he this
          | some e => simp
        · have a := hy.ok z q2 trivial
          have b := hl.cut r q2 x w' (by simpa using hd) hw2
          simpa [loadList, a] using b
    · cases d with
      | nil => simp at hd
      | cons z r =>
        rw [List.flatMap_cons] at hw
        rcases append_split hw with ⟨w'', hw⟩ | ⟨q2, rfl, hw2⟩
        · simp only [loadList]
          cases he : (L z (q ++ [m])).err with
          | some e => simp
          | none =>
            rcases hy.mangle z q x w'' m trivial hw hm with h' | h'
            · exact absurd he h'
            · rw [h']
              cases l with
              | nil =>
                obtain rfl : r = [] := by simpa using hd
                right
                simp [loadList]
              | cons y2 l2 =>
                left
                have hc : (y2 :: l2).flatMap tok ≠ [] := by
                  simp [List.flatMap_cons, hne y2 (by simp)]
                cases hw2 : (y2 :: l2).flatMap tok with
                | nil => exact absurd hw2 hc
                | cons i t => simpa using hl.cut r [] i t (by simpa using hd) hw2
        · have a := hy.ok z (q2 ++ [m]) trivial
          have b := hl.mangle r q2 x w' m (by simpa using hd) hw2 hm
          rw [List.append_assoc]
          simpa [loadList, a] using b

theorem nvp_ne (xml : Bool) (name : String) {w : List (Item τ)} (h : w ≠ []) : nvp xml name w ≠ [] := by
  cases xml <;> simp [nvp, h]

/-! ## Matrices -/

/-- a dimension can have this value -/
def Dim.admits : Dim → Nat → Prop
  | .fixed a, n => n = a
  | .dyn, _ => True

/-- an object of the type: the storage order, the fixed dimensions and the length of the memory are right -/
structure OfType (ty : MatTy) (M : Mat α) : Prop where
  order : M.rowMajor = ty.rowMajor
  rows : ty.rows.admits M.rows
  cols : ty.cols.admits M.cols
  len : M.data.length = M.rows * M.cols

theorem resize_ofType {ty : MatTy} {M : Mat α} (h : OfType ty M) (junk : Nat → α) (r k : Nat) (hr : ty.rows.admits r)
    (hc : ty.cols.admits k) : OfType ty (M.resize junk r k) := by
  refine ⟨h.order, hr, hc, ?_⟩
  simp only [Mat.resize]
  split
  · rename_i e; exact e.symm
  · simp

theorem reads_data (xml : Bool) (c : Codec α τ) (xs : List α) (hx : ∀ x ∈ xs, c.dec (c.enc x) = some x) (D0 : Mat α) :
    Reads (fun D : Mat α => D.data.length = xs.length ∧ D.rows = D0.rows ∧ D.cols = D0.cols ∧ D.rowMajor = D0.rowMajor)
      (loadData xml c) (nvp xml "data" (saveElems xml c xs)) { D0 with data := xs } := by
  have h := reads_tag xml "data" (reads_list (L := withTag xml "item" (loadScal c)) (fun x => nvp xml "item" [.scal (c.enc x)]) xs
    (fun x _ => nvp_ne _ _ (by simp)) (fun x hm => reads_tag xml "item" (reads_scal c x (hx x hm))))
  refine ⟨fun d rest hd => ?_, fun d q x w' hd hw => ?_, fun d q x w' m hd hw hm => ?_⟩
  · have := h.ok d.data rest hd.1
    obtain ⟨dr, dc, dm, dd⟩ := d
    obtain ⟨-, rfl, rfl, rfl⟩ := hd
    simp only [loadData, saveElems, this]
  · exact h.cut d.data q x w' hd.1 hw
  · exact h.mangle d.data q x w' m hd.1 hw hm

theorem reads_dims (xml : Bool) (r k : Nat) :
    Reads (fun _ => True) (loadDims (τ := τ) xml) (nvp xml "rows" [.num r] ++ nvp xml "cols" [.num k]) (r, k) :=
  (reads_load2 Prod.mk Prod.fst Prod.snd (reads_tag xml "rows" (reads_num r)) (reads_tag xml "cols" (reads_num k))
    (nvp_ne _ _ (by simp))).mono (fun _ _ => ⟨trivial, trivial⟩)

theorem loadList_nil_rest (L : Loader α τ) (hL : ∀ d, (L d []).rest = []) (d : List α) : (loadList L d []).rest = [] := by
  induction d with
  | nil => rfl
  | cons x r ih =>
    simp only [loadList]
    rw [hL]
    cases (L x []).err <;> simp [ih]

theorem loadData_nil_rest (xml : Bool) (c : Codec α τ) (M : Mat α) : (loadData xml c M []).rest = [] := by
  cases xml
  · exact loadList_nil_rest (withTag false "item" (loadScal c)) (fun d => by simp [withTag, loadScal]) M.data
  · simp [loadData, withTag]

theorem loadBody_nil_rest (xml : Bool) (c : Codec α τ) (junk : Nat → α) (ty : MatTy) (r k : Nat) (M : Mat α) :
    (loadBody xml c junk ty r k M []).rest = [] := by
  unfold loadBody
  split <;> (repeat' split) <;> simp [loadData_nil_rest]

/-- the types for which an empty matrix can be loaded -/
def MatTy.emptyOk (ty : MatTy) (r k : Nat) : Prop := (∃ a, ty.rows = .fixed a) → ty.cols = .dyn → 0 < r ∧ 0 < k

theorem reads_body (xml : Bool) (c : Codec α τ) (junk : Nat → α) (ty : MatTy) (M : Mat α) (hM : M.data.length = M.rows * M.cols)
    (hx : ∀ x ∈ M.data, c.dec (c.enc x) = some x) (hr : ty.rows.admits M.rows) (hc : ty.cols.admits M.cols)
    (he : ty.emptyOk M.rows M.cols) :
    Reads (OfType ty) (loadBody xml c junk ty M.rows M.cols)
      (if 0 < M.rows ∧ 0 < M.cols then nvp xml "data" (saveElems xml c M.data) else []) { M with rowMajor := ty.rowMajor } := by
  obtain ⟨tr, tc, tm⟩ := ty
  have hd := reads_data xml c M.data hx { M with rowMajor := tm }
  by_cases hpos : 0 < M.rows ∧ 0 < M.cols
  · rw [if_pos hpos]
    have key : ∀ D : Mat α, OfType ⟨tr, tc, tm⟩ D → D.rows = M.rows → D.cols = M.cols →
        D.data.length = M.data.length ∧ D.rows = M.rows ∧ D.cols = M.cols ∧ D.rowMajor = tm :=
      fun D hD h1 h2 => ⟨by rw [hD.len, hM, h1, h2], h1, h2, hD.order⟩
    cases tr with
    | fixed a =>
      obtain rfl : M.rows = a := hr
      cases tc with
      | fixed b =>
        obtain rfl : M.cols = b := hc
        have hl : ∀ D : Mat α, OfType ⟨.fixed M.rows, .fixed M.cols, tm⟩ D → ∀ ts,
            loadBody xml c junk ⟨.fixed M.rows, .fixed M.cols, tm⟩ M.rows M.cols D ts = loadData xml c D ts := by
          intro D _ ts
          simp [loadBody, hpos]
        refine ⟨fun d rest h => ?_, fun d q x w' h hw => ?_, fun d q x w' m h hw hm => ?_⟩
        · rw [hl d h]; exact hd.ok d rest (key d h h.rows h.cols)
        · rw [hl d h]; exact hd.cut d q x w' (key d h h.rows h.cols) hw
        · rw [hl d h]; exact hd.mangle d q x w' m (key d h h.rows h.cols) hw hm
      | dyn =>
        have hl : ∀ D : Mat α, ∀ ts, loadBody xml c junk ⟨.fixed M.rows, .dyn, tm⟩ M.rows M.cols D ts =
            loadData xml c (D.resize junk M.rows M.cols) ts := by
          intro D ts
          simp [loadBody, hpos]
        have hk : ∀ D : Mat α, OfType ⟨.fixed M.rows, .dyn, tm⟩ D → _ := fun D h =>
          key (D.resize junk M.rows M.cols) (resize_ofType h junk _ _ rfl trivial) rfl rfl
        refine ⟨fun d rest h => ?_, fun d q x w' h hw => ?_, fun d q x w' m h hw hm => ?_⟩
        · rw [hl d]; exact hd.ok _ rest (hk d h)
        · rw [hl d]; exact hd.cut _ q x w' (hk d h) hw
        · rw [hl d]; exact hd.mangle _ q x w' m (hk d h) hw hm
    | dyn =>
      cases tc with
      | fixed b =>
        obtain rfl : M.cols = b := hc
        have hl : ∀ D : Mat α, ∀ ts, loadBody xml c junk ⟨.dyn, .fixed M.cols, tm⟩ M.rows M.cols D ts =
            loadData xml c (D.resize junk M.rows M.cols) ts := by
          intro D ts
          simp [loadBody, hpos]
        have hk : ∀ D : Mat α, OfType ⟨.dyn, .fixed M.cols, tm⟩ D → _ := fun D h =>
          key (D.resize junk M.rows M.cols) (resize_ofType h junk _ _ trivial rfl) rfl rfl
        refine ⟨fun d rest h => ?_, fun d q x w' h hw => ?_, fun d q x w' m h hw hm => ?_⟩
        · rw [hl d]; exact hd.ok _ rest (hk d h)
        · rw [hl d]; exact hd.cut _ q x w' (hk d h) hw
        · rw [hl d]; exact hd.mangle _ q x w' m (hk d h) hw hm
      | dyn =>
        have hl : ∀ D : Mat α, ∀ ts, loadBody xml c junk ⟨.dyn, .dyn, tm⟩ M.rows M.cols D ts =
            loadData xml c (D.resize junk M.rows M.cols) ts := by
          intro D ts
          simp [loadBody, hpos]
        have hk : ∀ D : Mat α, OfType ⟨.dyn, .dyn, tm⟩ D → _ := fun D h =>
          key (D.resize junk M.rows M.cols) (resize_ofType h junk _ _ trivial trivial) rfl rfl
        refine ⟨fun d rest h => ?_, fun d q x w' h hw => ?_, fun d q x w' m h hw hm => ?_⟩
        · rw [hl d]; exact hd.ok _ rest (hk d h)
        · rw [hl d]; exact hd.cut _ q x w' (hk d h) hw
        · rw [hl d]; exact hd.mangle _ q x w' m (hk d h) hw hm
  · rw [if_neg hpos]
    have hz : M.rows * M.cols = 0 := by
      rcases Nat.eq_zero_or_pos M.rows with h | h
      · simp [h]
      · rcases Nat.eq_zero_or_pos M.cols with h' | h'
        · simp [h']
        · exact absurd ⟨h, h'⟩ hpos
    have hdn : M.data = [] := by
      have := hM; rw [hz] at this
      exact List.length_eq_zero_iff.1 this
    refine ⟨fun d rest h => ?_, fun d q x w' h hw => by simp at hw, fun d q x w' m h hw => by simp at hw⟩
    have hrs : ∀ D : Mat α, D.rowMajor = tm → D.data.length = D.rows * D.cols → D.resize junk M.rows M.cols = { M with rowMajor := tm } := by
      intro D hm hl
      obtain ⟨mr, mc, mm, md⟩ := M
      obtain ⟨dr, dc, dm, dd⟩ := D
      simp only at hz hdn hm hl ⊢
      subst hm hdn
      simp only [Mat.resize, hz]
      split
      · rename_i e
        rw [List.length_eq_zero_iff.1 e.symm]
      · simp
    cases tr with
    | fixed a =>
      obtain rfl : M.rows = a := hr
      cases tc with
      | fixed b =>
        obtain rfl : M.cols = b := hc
        simp only [loadBody, ne_eq, not_true_eq_false, if_false, if_neg hpos, List.nil_append]
        have e1 := h.rows; have e2 := h.cols; have e3 := h.order; have e4 := h.len
        simp only [Dim.admits] at e1 e2
        rw [e1, e2, hz] at e4
        obtain ⟨mr, mc, mm, md⟩ := M
        obtain ⟨dr, dc, dm, dd⟩ := d
        simp only at e1 e2 e3 e4 hdn ⊢
        subst e1 e2 e3 hdn
        rw [List.length_eq_zero_iff.1 e4]
      | dyn => exact absurd (he ⟨_, rfl⟩ rfl) hpos
    | dyn =>
      cases tc with
      | fixed b =>
        obtain rfl : M.cols = b := hc
        simp [loadBody, hpos, hrs d h.order h.len]
      | dyn => simp [loadBody, hpos, hrs d h.order h.len]

theorem reads_mat (xml : Bool) (c : Codec α τ) (junk : Nat → α) (ty : MatTy) (M : Mat α) (hM : M.data.length = M.rows * M.cols)
    (hx : ∀ x ∈ M.data, c.dec (c.enc x) = some x) (hr : ty.rows.admits M.rows) (hc : ty.cols.admits M.cols)
    (he : ty.emptyOk M.rows M.cols) :
    Reads (OfType ty) (loadMat xml c junk ty) (saveMat xml c M) { M with rowMajor := ty.rowMajor } := by
  have h1 := reads_dims (τ := τ) xml M.rows M.cols
  have h2 := reads_body xml c junk ty M hM hx hr hc he
  unfold saveMat
  generalize hw1 : nvp xml "rows" [Item.num M.rows] ++ nvp xml "cols" [Item.num M.cols] = w1 at h1
  generalize hw2 : (if 0 < M.rows ∧ 0 < M.cols then nvp xml "data" (saveElems xml c M.data) else []) = w2 at h2
  refine ⟨fun d rest hd => ?_, fun d q x w' hd hw => ?_, fun d q x w' m hd hw hm => ?_⟩
  · have a := h1.ok (0, 0) (w2 ++ rest) trivial
    have b := h2.ok d rest hd
    rw [List.append_assoc]
    simp [loadMat, a, b]
  · rcases append_split hw with ⟨w'', hw⟩ | ⟨q2, rfl, hw2⟩
    · have := h1.cut (0, 0) q x w'' trivial hw
      simp only [loadMat]
      cases h : (loadDims xml (0, 0) q).err with
      | none => exact absurd h this
      | some e => simp
    · have a := h1.ok (0, 0) q2 trivial
      have b := h2.cut d q2 x w' hd hw2
      simpa [loadMat, a] using b
  · rcases append_split hw with ⟨w'', hw⟩ | ⟨q2, rfl, hw2⟩
    · simp only [loadMat]
      cases h : (loadDims xml (0, 0) (q ++ [m])).err with
      | some e => simp
      | none =>
        rcases h1.mangle (0, 0) q x w'' m trivial hw hm with h' | h'
        · exact absurd h h'
        · right
          rw [h']
          exact loadBody_nil_rest _ _ _ _ _ _ _
    · have a := h1.ok (0, 0) (q2 ++ [m]) trivial
      have b := h2.mangle d q2 x w' m hd hw2 hm
      rw [List.append_assoc]
      simpa [loadMat, a] using b

theorem saveMat_ne (xml : Bool) (c : Codec α τ) (M : Mat α) : saveMat xml c M ≠ [] := by
  cases xml <;> simp [saveMat, nvp]

/-! ## Classes -/

theorem reads_class {P : σ → Prop} {L : Loader σ τ} {w : List (Item τ)} {o : σ} (h : Reads P L w o) (hne : w ≠ []) :
    Reads P (loadClass L) (saveClass w) o := by
  have hnil : ∀ d, P d → (L d []).err ≠ none := by
    intro d hd
    cases w with
    | nil => exact absurd rfl hne
    | cons y l => exact h.cut d [] y l hd rfl
  refine ⟨fun d rest hd => ?_, fun d q x w' hd hw => ?_, fun d q x w' m hd hw hm => ?_⟩
  · simpa [loadClass, saveClass] using h.ok d rest hd
  · cases q with
    | nil => simp [loadClass]
    | cons y l =>
      simp only [saveClass, List.cons_append, List.cons.injEq] at hw
      obtain ⟨rfl, hw⟩ := hw
      simpa [loadClass] using h.cut d l x w' hd hw
  · cases q with
    | nil =>
      left
      cases m with
      | ver v =>
        by_cases hv : v ≤ 0
        · simpa [loadClass, hv] using hnil d hd
        · simp [loadClass, hv]
      | _ => simp [loadClass]
    | cons y l =>
      simp only [saveClass, List.cons_append, List.cons.injEq] at hw
      obtain ⟨rfl, hw⟩ := hw
      simpa [loadClass] using h.mangle d l x w' m hd hw hm

/-- a matrix of a fixed, column-major type whose scalars can be read back -/
structure Ok (c : Codec α τ) (r k : Nat) (M : Mat α) : Prop where
  ty : OfType (fixedTy r k) M
  scal : ∀ x ∈ M.data, c.dec (c.enc x) = some x

theorem reads_fixed (xml : Bool) (c : Codec α τ) (junk : Nat → α) (r k : Nat) (M : Mat α) (h : Ok c r k M) :
    Reads (OfType (fixedTy r k)) (loadMat xml c junk (fixedTy r k)) (saveMat xml c M) M := by
  have := reads_mat xml c junk (fixedTy r k) M h.ty.len h.scal h.ty.rows h.ty.cols (fun _ h => by simp [fixedTy] at h)
  have e : ({ M with rowMajor := (fixedTy r k).rowMajor } : Mat α) = M := by rw [← h.ty.order]
  rwa [e] at this

end Verif.Serial.Boost
