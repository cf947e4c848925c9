import Verif.Serial.BoostLemmas

/-!
# C79 – C82: serialization of matrices and of the kinematics classes
-/

namespace Verif.Serial.Boost

variable {α τ σ : Type}

/-! ## Specification -/

/-- the coefficient in row `i`, column `j`, found in the memory according to the storage order -/
def Mat.coeff (M : Mat α) (i j : Nat) : Option α := if M.rowMajor then M.data[i * M.cols + j]? else M.data[j * M.rows + i]?

/-- two matrices of the same size with the same coefficients -/
def SameMatrix (M N : Mat α) : Prop :=
  M.rows = N.rows ∧ M.cols = N.cols ∧ ∀ i j, i < M.rows → j < M.cols → M.coeff i j = N.coeff i j

/-- the matrix type can hold a matrix of this size -/
def Fits (ty : MatTy) (r k : Nat) : Prop := ty.rows.admits r ∧ ty.cols.admits k

/-- the archive can spell every coefficient so that it is read back -/
def Readable (c : Codec α τ) (M : Mat α) : Prop := ∀ x ∈ M.data, c.dec (c.enc x) = some x

/-! ## C79 -/

/-- **C79, the claim**: loading what was saved gives the same matrix, in every type that can hold it, and throws
`SerializationException` without touching the destination otherwise. -/
def C79_claim : Prop := ∀ (α τ : Type) (xml : Bool) (c : Codec α τ) (junk : Nat → α) (tyM ty : MatTy) (M D : Mat α) (rest : List (Item τ)),
  OfType tyM M → Readable c M → OfType ty D →
  (Fits ty M.rows M.cols → ∃ N, loadMat xml c junk ty D (saveMat xml c M ++ rest) = ⟨none, N, rest⟩ ∧ SameMatrix N M) ∧
  (¬ Fits ty M.rows M.cols → (loadMat xml c junk ty D (saveMat xml c M ++ rest)).err = some .size ∧
    (loadMat xml c junk ty D (saveMat xml c M ++ rest)).obj = D)

/-- **C79, what holds**: the round trip is exact, for matrices of every size and type, into every destination of the
same storage order that can hold the matrix, whatever it held before; the rest of the archive is untouched.  Left out:
empty matrices loaded into a type with a fixed number of rows and a dynamic number of columns. -/
theorem C79_roundtrip_partial (xml : Bool) (c : Codec α τ) (junk : Nat → α) (tyM ty : MatTy) (M D : Mat α) (rest : List (Item τ))
    (hM : OfType tyM M) (hx : Readable c M) (hD : OfType ty D) (hf : Fits ty M.rows M.cols)
    (ho : ty.rowMajor = tyM.rowMajor) (he : (∃ a, ty.rows = .fixed a) → ty.cols = .dyn → 0 < M.rows ∧ 0 < M.cols) :
    ∃ N, loadMat xml c junk ty D (saveMat xml c M ++ rest) = ⟨none, N, rest⟩ ∧ SameMatrix N M ∧ OfType ty N := by
  refine ⟨_, (reads_mat xml c junk ty M hM.len hx hf.1 hf.2 he).ok D rest hD, ?_, ?_⟩
  · refine ⟨rfl, rfl, fun i j _ _ => ?_⟩
    simp only [Mat.coeff]
    rw [ho, hM.order]
  · exact ⟨rfl, hf.1, hf.2, hM.len⟩

/-- **C79, what holds**: a type that cannot hold the matrix refuses it with `SerializationException`, and the
destination keeps its old value. -/
theorem C79_mismatch_partial (xml : Bool) (c : Codec α τ) (junk : Nat → α) (ty : MatTy) (M D : Mat α) (rest : List (Item τ))
    (hf : ¬ Fits ty M.rows M.cols) :
    (loadMat xml c junk ty D (saveMat xml c M ++ rest)).err = some .size ∧
    (loadMat xml c junk ty D (saveMat xml c M ++ rest)).obj = D := by
  have a := (reads_dims (τ := τ) xml M.rows M.cols).ok (0, 0)
    ((if 0 < M.rows ∧ 0 < M.cols then nvp xml "data" (saveElems xml c M.data) else []) ++ rest) trivial
  have e : saveMat xml c M ++ rest = nvp xml "rows" [.num M.rows] ++ nvp xml "cols" [.num M.cols] ++
      ((if 0 < M.rows ∧ 0 < M.cols then nvp xml "data" (saveElems xml c M.data) else []) ++ rest) := by
    simp [saveMat]
  rw [e]
  simp only [loadMat]
  rw [a]
  simp only []
  obtain ⟨tr, tc, tm⟩ := ty
  unfold loadBody
  cases tr with
  | fixed a =>
    cases tc with
    | fixed b =>
      simp only []
      by_cases h1 : M.rows = a
      · have h2 : M.cols ≠ b := fun h2 => hf ⟨h1, h2⟩
        simp [h1, h2]
      · simp [h1]
    | dyn =>
      have h1 : M.rows ≠ a := fun h1 => hf ⟨h1, trivial⟩
      simp [h1]
  | dyn =>
    cases tc with
    | fixed b =>
      have h1 : M.cols ≠ b := fun h1 => hf ⟨trivial, h1⟩
      simp [h1]
    | dyn => exact absurd ⟨trivial, trivial⟩ hf

/-- **C79, what holds** across storage orders: the memory is copied as it is, so coefficient `(i, j)` of the result
is the one at the same place in memory. -/
theorem C79_order_partial (xml : Bool) (c : Codec α τ) (junk : Nat → α) (tyM ty : MatTy) (M D : Mat α) (rest : List (Item τ))
    (hM : OfType tyM M) (hx : Readable c M) (hD : OfType ty D) (hf : Fits ty M.rows M.cols)
    (he : (∃ a, ty.rows = .fixed a) → ty.cols = .dyn → 0 < M.rows ∧ 0 < M.cols) :
    ∃ N, loadMat xml c junk ty D (saveMat xml c M ++ rest) = ⟨none, N, rest⟩ ∧ N.rows = M.rows ∧ N.cols = M.cols ∧
      N.data = M.data ∧ N.rowMajor = ty.rowMajor :=
  ⟨_, (reads_mat xml c junk ty M hM.len hx hf.1 hf.2 he).ok D rest hD, rfl, rfl, rfl, rfl⟩

/-- **C79** the claim is false, first reason: a row-major matrix loaded into a column-major one is scrambled. -/
theorem C79_order_negation : ¬ C79_claim := by
  intro h
  let M : Mat Nat := ⟨2, 2, true, [1, 2, 3, 4]⟩
  let c : Codec Nat Nat := ⟨id, some⟩
  have hM : OfType ⟨.fixed 2, .fixed 2, true⟩ M := ⟨rfl, rfl, rfl, rfl⟩
  have hx : Readable c M := fun _ _ => rfl
  have hD : OfType ⟨.fixed 2, .fixed 2, false⟩ ({ M with rowMajor := false } : Mat Nat) := ⟨rfl, rfl, rfl, rfl⟩
  obtain ⟨N, hN, hs⟩ := (h Nat Nat false c id _ _ M _ [] hM hx hD).1 ⟨rfl, rfl⟩
  obtain ⟨N', hN', -, -, hd, ho⟩ := C79_order_partial false c id _ _ M _ [] hM hx hD ⟨rfl, rfl⟩ (fun _ h => by simp at h)
  rw [hN] at hN'
  cases hN'
  have := hs.2.2 0 1 (by rw [hs.1]; decide) (by rw [hs.2.1]; decide)
  simp [Mat.coeff, hd, ho, hs.1, M] at this

/-- **C79** the claim is false, second reason: a saved matrix without columns cannot be loaded into a type with a
fixed number of rows and a dynamic number of columns: the address of a coefficient that does not exist is taken. -/
theorem C79_empty_negation : ¬ C79_claim := by
  intro h
  let M : Mat Nat := ⟨3, 0, false, []⟩
  let c : Codec Nat Nat := ⟨id, some⟩
  have hM : OfType ⟨.fixed 3, .dyn, false⟩ M := ⟨rfl, rfl, trivial, rfl⟩
  obtain ⟨N, hN, -⟩ := (h Nat Nat true c id _ _ M M [] hM (fun _ hm => by simp [M] at hm) hM).1 ⟨rfl, trivial⟩
  have : (loadMat true c id ⟨.fixed 3, .dyn, false⟩ M (saveMat true c M ++ [])).err = some .ub := by decide
  rw [hN] at this
  simp at this

/-- Concrete: a dynamic 2 x 3 matrix in XML into an empty dynamic matrix, followed by something else; and a fixed
3 x 3 matrix refuses it. -/
example : ∃ (c : Codec Nat Nat) (M D : Mat Nat), OfType ⟨.dyn, .dyn, false⟩ M ∧ OfType ⟨.dyn, .dyn, false⟩ D ∧ Readable c M ∧
    M.rows = 2 ∧ M.cols = 3 ∧
    loadMat true c (fun _ => 0) ⟨.dyn, .dyn, false⟩ D (saveMat true c M ++ [.num 5]) = ⟨none, M, [.num 5]⟩ ∧
    ¬ Fits ⟨.fixed 3, .fixed 3, false⟩ M.rows M.cols :=
  ⟨⟨id, some⟩, ⟨2, 3, false, [1, 2, 3, 4, 5, 6]⟩, ⟨0, 0, false, []⟩, ⟨rfl, trivial, trivial, rfl⟩, ⟨rfl, trivial, trivial, rfl⟩,
    fun _ _ => rfl, rfl, rfl, rfl, fun h => by simp [Fits, Dim.admits] at h⟩

/-! ## C80 -/

/-- the objects of the classes, with the types of their members -/
structure TransfOk (c : Codec α τ) (T : TransfS α) : Prop where
  q : Ok c 4 1 T.q
  t : Ok c 3 1 T.t

/-- any object of the class, such as a default-constructed one -/
structure IsTransf (T : TransfS α) : Prop where
  q : OfType (fixedTy 4 1) T.q
  t : OfType (fixedTy 3 1) T.t

theorem reads_transf (xml : Bool) (c : Codec α τ) (junk : Nat → α) (T : TransfS α) (h : TransfOk c T) :
    Reads IsTransf (loadTransf xml c junk) (saveTransf xml c T) T :=
  (reads_class (reads_load2 TransfS.mk TransfS.q TransfS.t (reads_tag xml "_q_a_b" (reads_fixed xml c junk 4 1 T.q h.q))
    (reads_tag xml "_t_a_b_a" (reads_fixed xml c junk 3 1 T.t h.t)) (nvp_ne _ _ (saveMat_ne _ _ _)))
    (by simp [nvp_ne _ _ (saveMat_ne _ _ _)])).mono (fun _ h => ⟨h.q, h.t⟩)

structure IsUTransf (T : UTransfS α) : Prop where
  base : IsTransf T.base
  U : OfType (fixedTy 6 6) T.U

theorem saveClass_ne (w : List (Item τ)) : saveClass w ≠ [] := by simp [saveClass]

theorem reads_utransf (xml : Bool) (c : Codec α τ) (junk : Nat → α) (T : UTransfS α) (h : TransfOk c T.base) (hU : Ok c 6 6 T.U) :
    Reads IsUTransf (loadUTransf xml c junk) (saveUTransf xml c T) T :=
  (reads_class (reads_load2 UTransfS.mk UTransfS.base UTransfS.U (reads_tag xml "Transformation" (reads_transf xml c junk T.base h))
    (reads_tag xml "_U" (reads_fixed xml c junk 6 6 T.U hU)) (nvp_ne _ _ (saveMat_ne _ _ _)))
    (by simp [nvp_ne _ _ (saveMat_ne _ _ _)])).mono (fun _ h => ⟨h.base, h.U⟩)

theorem reads_hpoint (xml : Bool) (c : Codec α τ) (junk : Nat → α) (p : Mat α) (h : Ok c 4 1 p) :
    Reads (OfType (fixedTy 4 1)) (loadHPoint xml c junk) (saveHPoint xml c p) p :=
  reads_class (reads_tag xml "_ph" (reads_fixed xml c junk 4 1 p h)) (nvp_ne _ _ (saveMat_ne _ _ _))

structure IsUHPoint (p : UHPointS α) : Prop where
  base : OfType (fixedTy 4 1) p.base
  U : OfType (fixedTy 4 4) p.U

theorem reads_uhpoint (xml : Bool) (c : Codec α τ) (junk : Nat → α) (p : UHPointS α) (h : Ok c 4 1 p.base) (hU : Ok c 4 4 p.U) :
    Reads IsUHPoint (loadUHPoint xml c junk) (saveUHPoint xml c p) p :=
  (reads_class (reads_load2 UHPointS.mk UHPointS.base UHPointS.U (reads_tag xml "HomogeneousPoint" (reads_hpoint xml c junk p.base h))
    (reads_tag xml "_U" (reads_fixed xml c junk 4 4 p.U hU)) (nvp_ne _ _ (saveMat_ne _ _ _)))
    (by simp [nvp_ne _ _ (saveMat_ne _ _ _)])).mono (fun _ h => ⟨h.base, h.U⟩)

structure IsUVec (D : Nat) (p : UVecS α) : Prop where
  v : OfType (fixedTy D 1) p.v
  E : OfType (fixedTy D D) p.E

theorem reads_uvec (xml : Bool) (c : Codec α τ) (junk : Nat → α) (D : Nat) (p : UVecS α) (h : Ok c D 1 p.v) (hE : Ok c D D p.E) :
    Reads (IsUVec D) (loadUVec xml c junk D) (saveUVec xml c p) p :=
  (reads_class (reads_load2 UVecS.mk UVecS.v UVecS.E (reads_tag xml "_v" (reads_fixed xml c junk D 1 p.v h))
    (reads_tag xml "_E" (reads_fixed xml c junk D D p.E hE)) (nvp_ne _ _ (saveMat_ne _ _ _)))
    (by simp [nvp_ne _ _ (saveMat_ne _ _ _)])).mono (fun _ h => ⟨h.v, h.E⟩)

theorem reads_uscal (xml : Bool) (c : Codec α τ) (p : UScalS α) (h : c.dec (c.enc p.v) = some p.v)
    (hs : c.dec (c.enc p.sigma2) = some p.sigma2) : Reads (fun _ => True) (loadUScal xml c) (saveUScal xml c p) p :=
  (reads_class (reads_load2 UScalS.mk UScalS.v UScalS.sigma2 (reads_tag xml "_v" (reads_scal c p.v h))
    (reads_tag xml "_sigma2" (reads_scal c p.sigma2 hs)) (nvp_ne _ _ (by simp)))
    (by simp [nvp_ne])).mono (fun _ _ => ⟨trivial, trivial⟩)

/-- **C80** every kinematics object is read back exactly as it was saved, from an archive of any format, into any
object of its class whatever its value, and the next object of the archive follows directly. -/
theorem C80_roundtrip (xml : Bool) (c : Codec α τ) (junk : Nat → α) (rest : List (Item τ)) :
    (∀ T D : TransfS α, TransfOk c T → IsTransf D → loadTransf xml c junk D (saveTransf xml c T ++ rest) = ⟨none, T, rest⟩) ∧
    (∀ T D : UTransfS α, TransfOk c T.base → Ok c 6 6 T.U → IsUTransf D →
      loadUTransf xml c junk D (saveUTransf xml c T ++ rest) = ⟨none, T, rest⟩) ∧
    (∀ p D : Mat α, Ok c 4 1 p → OfType (fixedTy 4 1) D → loadHPoint xml c junk D (saveHPoint xml c p ++ rest) = ⟨none, p, rest⟩) ∧
    (∀ p D : UHPointS α, Ok c 4 1 p.base → Ok c 4 4 p.U → IsUHPoint D →
      loadUHPoint xml c junk D (saveUHPoint xml c p ++ rest) = ⟨none, p, rest⟩) ∧
    (∀ n, ∀ p D : UVecS α, Ok c n 1 p.v → Ok c n n p.E → IsUVec n D →
      loadUVec xml c junk n D (saveUVec xml c p ++ rest) = ⟨none, p, rest⟩) ∧
    (∀ p D : UScalS α, c.dec (c.enc p.v) = some p.v → c.dec (c.enc p.sigma2) = some p.sigma2 →
      loadUScal xml c D (saveUScal xml c p ++ rest) = ⟨none, p, rest⟩) :=
  ⟨fun T D hT hD => (reads_transf xml c junk T hT).ok D rest hD,
    fun T D hT hU hD => (reads_utransf xml c junk T hT hU).ok D rest hD,
    fun p D hp hD => (reads_hpoint xml c junk p hp).ok D rest hD,
    fun p D hp hU hD => (reads_uhpoint xml c junk p hp hU).ok D rest hD,
    fun n p D hp hE hD => (reads_uvec xml c junk n p hp hE).ok D rest hD,
    fun p D hv hs => (reads_uscal xml c p hv hs).ok D rest trivial⟩

/-- **C80** an object saved by a later version of its class is refused and the object read into keeps its value. -/
theorem C80_version (xml : Bool) (c : Codec α τ) (junk : Nat → α) (v : Nat) (hv : 0 < v) (rest : List (Item τ)) :
    (∀ D, loadTransf xml c junk D (.ver v :: rest) = ⟨some .version, D, rest⟩) ∧
    (∀ D, loadUTransf xml c junk D (.ver v :: rest) = ⟨some .version, D, rest⟩) ∧
    (∀ D, loadHPoint xml c junk D (.ver v :: rest) = ⟨some .version, D, rest⟩) ∧
    (∀ D, loadUHPoint xml c junk D (.ver v :: rest) = ⟨some .version, D, rest⟩) ∧
    (∀ n, ∀ D, loadUVec xml c junk n D (.ver v :: rest) = ⟨some .version, D, rest⟩) ∧
    (∀ D, loadUScal xml c D (.ver v :: rest) = ⟨some .version, D, rest⟩) := by
  have h : ¬ v ≤ 0 := by omega
  refine ⟨fun D => ?_, fun D => ?_, fun D => ?_, fun D => ?_, fun n D => ?_, fun D => ?_⟩ <;>
    simp [loadTransf, loadUTransf, loadHPoint, loadUHPoint, loadUVec, loadUScal, loadClass, h] <;> omega

/-- Concrete: the transformation with quaternion (0,0,0,1) and translation (1,2,3), read into another one. -/
example : ∃ (c : Codec Nat Nat) (T D : TransfS Nat), TransfOk c T ∧ IsTransf D ∧ T.t.data ≠ D.t.data ∧
    loadTransf true c (fun _ => 0) D (saveTransf true c T) = ⟨none, T, []⟩ :=
  ⟨⟨id, some⟩, ⟨⟨4, 1, false, [0, 0, 0, 1]⟩, ⟨3, 1, false, [1, 2, 3]⟩⟩, ⟨⟨4, 1, false, [9, 9, 9, 9]⟩, ⟨3, 1, false, [7, 7, 7]⟩⟩,
    ⟨⟨⟨rfl, rfl, rfl, rfl⟩, fun _ _ => rfl⟩, ⟨⟨rfl, rfl, rfl, rfl⟩, fun _ _ => rfl⟩⟩, ⟨⟨rfl, rfl, rfl, rfl⟩, ⟨rfl, rfl, rfl, rfl⟩⟩,
    by decide, rfl⟩

/-! ## C81 -/

/-- **C81** files: what `save`, `save_txt` or `save_xml` wrote is read back by the matching function, exactly, with
any XML tags (they need not even agree); other files are untouched; nothing is written if the file cannot be opened; a
missing file, and a file of another format, are reported and the object keeps its value.  Stated for any object whose
save and load functions fit together (C79, C80). -/
theorem C81_files {P : σ → Prop} {L : Loader σ τ} {w : List (Item τ)} {o : σ}
    (h : ∀ d rest, P d → L d (w ++ rest) = ⟨none, o, rest⟩) (f : Fmt) (tag : String) (path : String) (d : Disk τ) :
    (d.writable path = true →
      (saveFile f tag w path d).1 = none ∧
      (∀ D, P D → loadFile f L path (saveFile f tag w path d).2 D = (none, o)) ∧
      (∀ g D, g ≠ f → loadFile g L path (saveFile f tag w path d).2 D = (some .format, D)) ∧
      (∀ p, p ≠ path → (saveFile f tag w path d).2.content p = d.content p)) ∧
    (d.writable path = false → saveFile f tag w path d = (some .file, d)) ∧
    (∀ D, d.content path = none → loadFile f L path d D = (some .file, D)) := by
  refine ⟨fun hw => ?_, fun hw => by simp [saveFile, hw], fun D hn => by simp [loadFile, hn]⟩
  simp only [saveFile, hw, if_true, true_and]
  refine ⟨fun D hD => ?_, fun g D hg => ?_, fun p hp => by simp [hp]⟩
  · cases f
    · have := h D [] hD
      simp only [List.append_nil] at this
      simp [loadFile, withTop, nvp, Fmt.isXml, this]
    · have := h D [] hD
      simp only [List.append_nil] at this
      simp [loadFile, withTop, nvp, Fmt.isXml, this]
    · have := h D [.cl (topTag tag)] hD
      simp [loadFile, withTop, nvp, Fmt.isXml, this]
  · simp [loadFile, Ne.symm hg]

/-- the top-level tag is never empty -/
theorem C81_tag (tag : String) : topTag tag ≠ "" ∧ (tag ≠ "" → topTag tag = tag) := by
  unfold topTag
  by_cases h : tag = ""
  · subst h; decide
  · have : ¬ tag.length = 0 := by simpa [String.length_eq_zero_iff] using h
    simp [this, h]

/-- **C81** in XML, a value that was saved under another name is refused at its end tag (whatever reads it), so an archive
with exchanged members is not taken; in particular a matrix whose dimensions come under other names is refused. -/
theorem C81_member_names {P : σ → Prop} {L : Loader σ τ} {w : List (Item τ)} {o : σ}
    (h : ∀ d rest, P d → L d (w ++ rest) = ⟨none, o, rest⟩) (name n : String) (hn : n ≠ name) (d : σ) (hd : P d)
    (rest : List (Item τ)) :
    (withTag true name L d (nvp true n w ++ rest)).err = some .tag ∧
    ∀ (c : Codec α τ) (junk : Nat → α) (ty : MatTy) (M : Mat α) (k : Nat),
      (n ≠ "rows" → (loadMat true c junk ty M (nvp true n [.num k] ++ rest)).err = some .tag ∧
        (loadMat true c junk ty M (nvp true n [.num k] ++ rest)).obj = M) ∧
      (n ≠ "cols" → ∀ r, (loadMat true c junk ty M (nvp true "rows" [.num r] ++ (nvp true n [.num k] ++ rest))).err = some .tag ∧
        (loadMat true c junk ty M (nvp true "rows" [.num r] ++ (nvp true n [.num k] ++ rest))).obj = M) := by
  constructor
  · have := h d (.cl n :: rest) hd
    simp [withTag, nvp, this, hn]
  · intro c junk ty M k
    constructor
    · intro hr
      constructor <;> simp [loadMat, loadDims, load2, withTag, nvp, loadNum, hr]
    · intro hr r
      constructor <;> simp [loadMat, loadDims, load2, withTag, nvp, loadNum, hr]

example : (loadMat true (⟨id, some⟩ : Codec Nat Nat) id ⟨.dyn, .dyn, false⟩ ⟨1, 1, false, [7]⟩
    (nvp true "cols" [.num 2] ++ nvp true "rows" [.num 3])).err = some .tag := by
  simpa using ((C81_member_names (P := fun _ => True) (L := loadNum (τ := Nat)) (w := [.num 2]) (o := 2) (fun _ _ _ => rfl)
    "rows" "cols" (by decide) 0 trivial (nvp true "rows" [.num 3])).2 ⟨id, some⟩ id ⟨.dyn, .dyn, false⟩ ⟨1, 1, false, [7]⟩ 2).1 (by decide) |>.1

/-- Concrete: an uncertain scalar through an XML file. -/
example : ∃ (c : Codec Nat Nat) (d : Disk Nat) (p D : UScalS Nat), d.writable "f" = true ∧
    (loadFile .xml (loadUScal true c) "f" (saveFile .xml "" (saveUScal true c p) "f" d).2 D).1 = none ∧
    (loadFile .xml (loadUScal true c) "f" (saveFile .xml "" (saveUScal true c p) "f" d).2 D).2.v = p.v ∧ p.v ≠ D.v :=
  ⟨⟨id, some⟩, ⟨fun _ => true, fun _ => none⟩, ⟨4, 5⟩, ⟨0, 0⟩, rfl, rfl, rfl, by decide⟩

/-! ## C82 -/

/-- what a crash while writing, or a full disk, leaves of the archive `w`: a part of its items; in the text formats the
last value may have lost characters and be another value -/
def CutShort (f : Fmt) (w p : List (Item τ)) : Prop :=
  (∃ x w', w = p ++ x :: w') ∨
  (f ≠ .binary ∧ ∃ q x w' m, w = q ++ x :: w' ∧ p = q ++ [m] ∧ x.isValue = true ∧ m.isValue = true ∧ p ≠ w)

/-- the objects whose load and save functions are covered -/
inductive Covered (α τ : Type) (c : Codec α τ) (junk : Nat → α) (xml : Bool) :
    {σ : Type} → (σ → Prop) → Loader σ τ → List (Item τ) → σ → Prop
  | mat (ty : MatTy) (M : Mat α) (h : OfType ty M) (hx : Readable c M)
      (he : (∃ a, ty.rows = .fixed a) → ty.cols = .dyn → 0 < M.rows ∧ 0 < M.cols) :
      Covered α τ c junk xml (OfType ty) (loadMat xml c junk ty) (saveMat xml c M) M
  | transf (T : TransfS α) (h : TransfOk c T) : Covered α τ c junk xml IsTransf (loadTransf xml c junk) (saveTransf xml c T) T
  | utransf (T : UTransfS α) (h : TransfOk c T.base) (hU : Ok c 6 6 T.U) :
      Covered α τ c junk xml IsUTransf (loadUTransf xml c junk) (saveUTransf xml c T) T
  | hpoint (p : Mat α) (h : Ok c 4 1 p) : Covered α τ c junk xml (OfType (fixedTy 4 1)) (loadHPoint xml c junk) (saveHPoint xml c p) p
  | uhpoint (p : UHPointS α) (h : Ok c 4 1 p.base) (hU : Ok c 4 4 p.U) :
      Covered α τ c junk xml IsUHPoint (loadUHPoint xml c junk) (saveUHPoint xml c p) p
  | uvec (D : Nat) (p : UVecS α) (h : Ok c D 1 p.v) (hE : Ok c D D p.E) :
      Covered α τ c junk xml (IsUVec D) (loadUVec xml c junk D) (saveUVec xml c p) p
  | uscal (p : UScalS α) (h : c.dec (c.enc p.v) = some p.v) (hs : c.dec (c.enc p.sigma2) = some p.sigma2) :
      Covered α τ c junk xml (fun _ => True) (loadUScal xml c) (saveUScal xml c p) p

theorem Covered.reads {c : Codec α τ} {junk : Nat → α} {xml : Bool} {P : σ → Prop} {L : Loader σ τ} {w : List (Item τ)} {o : σ}
    (h : Covered α τ c junk xml P L w o) : Reads P L w o := by
  cases h with
  | mat ty M h hx he =>
    have := reads_mat xml c junk ty M h.len hx h.rows h.cols he
    have e : ({ M with rowMajor := ty.rowMajor } : Mat α) = M := by rw [← h.order]
    rwa [e] at this
  | transf T h => exact reads_transf xml c junk T h
  | utransf T h hU => exact reads_utransf xml c junk T h hU
  | hpoint p h => exact reads_hpoint xml c junk p h
  | uhpoint p h hU => exact reads_uhpoint xml c junk p h hU
  | uvec D p h hE => exact reads_uvec xml c junk D p h hE
  | uscal p h hs => exact reads_uscal xml c p h hs

/-- **C82, the claim**: loading a file that was cut short always throws. -/
def C82_claim : Prop := ∀ (α τ σ : Type) (c : Codec α τ) (junk : Nat → α) (f : Fmt) (P : σ → Prop) (L : Loader σ τ) (w : List (Item τ)) (o : σ)
  (tag : String) (p : List (Item τ)) (D : σ), Covered α τ c junk f.isXml P L w o → CutShort f (nvp f.isXml (topTag tag) w) p → P D →
  (withTop f.isXml L D p).err ≠ none

/-- **C82, what holds**: in the binary and the XML format, wherever the file is cut, loading it throws; so does a text
file cut between two values. -/
theorem C82_partial {c : Codec α τ} {junk : Nat → α} {f : Fmt} {P : σ → Prop} {L : Loader σ τ} {w : List (Item τ)} {o : σ}
    (h : Covered α τ c junk f.isXml P L w o) (tag : String) (p : List (Item τ)) (D : σ) (hD : P D)
    (hc : CutShort f (nvp f.isXml (topTag tag) w) p) (hf : f ≠ .text ∨ ∃ x w', nvp f.isXml (topTag tag) w = p ++ x :: w') :
    (withTop f.isXml L D p).err ≠ none := by
  have hr := reads_top f.isXml (topTag tag) h.reads
  have key : (∃ x w', nvp f.isXml (topTag tag) w = p ++ x :: w') → (withTop f.isXml L D p).err ≠ none := by
    rintro ⟨x, w', hw⟩
    exact hr.cut D p x w' hD hw
  rcases hc with hc | ⟨hb, q, x, w', m, hw, rfl, hx, hm, hne⟩
  · exact key hc
  · rcases hf with hf | hf
    · cases f with
      | binary => exact absurd rfl hb
      | text => exact absurd rfl hf
      | xml => exact top_mangle (topTag tag) h.reads D q x w' m hD hw hm
    · exact key hf

/-- **C82** the claim is false for text files: if the last number has lost digits it is read as another number. -/
theorem C82_negation : ¬ C82_claim := by
  intro h
  let c : Codec Nat Nat := ⟨id, some⟩
  let p : UScalS Nat := ⟨1, 345⟩
  have := h Nat Nat (UScalS Nat) c id .text (fun _ => True) (loadUScal false c) (saveUScal false c p) p "" [.ver 0, .scal 1, .scal 34] ⟨0, 0⟩
    (.uscal p rfl rfl) (.inr ⟨by decide, [.ver 0, .scal 1], .scal 345, [], .scal 34, rfl, rfl, rfl, rfl, by decide⟩) trivial
  exact this rfl

/-- A load that throws half-way leaves the object half changed (there is no strong exception guarantee): the quaternion
of the saved transformation with the translation of the old one. -/
theorem C82_not_atomic : ∃ (c : Codec Nat Nat) (T D : TransfS Nat) (p : List (Item Nat)), TransfOk c T ∧ IsTransf D ∧
    CutShort .binary (saveTransf false c T) p ∧ (loadTransf false c (fun _ => 0) D p).err ≠ none ∧
    (loadTransf false c (fun _ => 0) D p).obj.q = T.q ∧ (loadTransf false c (fun _ => 0) D p).obj.t = D.t ∧
    T.q ≠ D.q ∧ T.t ≠ D.t := by
  refine ⟨⟨id, some⟩, ⟨⟨4, 1, false, [0, 0, 0, 1]⟩, ⟨3, 1, false, [1, 2, 3]⟩⟩, ⟨⟨4, 1, false, [9, 9, 9, 9]⟩, ⟨3, 1, false, [7, 7, 7]⟩⟩,
    [.ver 0, .num 4, .num 1, .scal 0, .scal 0, .scal 0, .scal 1, .num 3],
    ⟨⟨⟨rfl, rfl, rfl, rfl⟩, fun _ _ => rfl⟩, ⟨⟨rfl, rfl, rfl, rfl⟩, fun _ _ => rfl⟩⟩, ⟨⟨rfl, rfl, rfl, rfl⟩, ⟨rfl, rfl, rfl, rfl⟩⟩,
    .inl ⟨.num 1, [.scal 1, .scal 2, .scal 3], rfl⟩, by decide, by decide, by decide, by decide, by decide⟩

/-- Concrete instance of C82_partial: an XML file of an uncertain scalar cut inside the last number. -/
example : ∃ (c : Codec Nat Nat) (p : UScalS Nat) (cut : List (Item Nat)),
    Covered Nat Nat c id Fmt.xml.isXml (fun _ => True) (loadUScal true c) (saveUScal true c p) p ∧
    CutShort .xml (nvp true (topTag "") (saveUScal true c p)) cut ∧ .scal 34 ∈ cut ∧
    (withTop true (loadUScal true c) ⟨0, 0⟩ cut).err = some .stream :=
  ⟨⟨id, some⟩, ⟨1, 345⟩, [.op "object", .ver 0, .op "_v", .scal 1, .cl "_v", .op "_sigma2", .scal 34], .uscal _ rfl rfl,
    .inr ⟨by decide, [.op "object", .ver 0, .op "_v", .scal 1, .cl "_v", .op "_sigma2"], .scal 345, [.cl "_sigma2", .cl "object"], .scal 34,
      rfl, rfl, rfl, rfl, by decide⟩, by decide, rfl⟩

end Verif.Serial.Boost
