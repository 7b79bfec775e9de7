import Verif.Props.BlockingDrivers
import Verif.Props.Backend

/-! # C97: transposing the matrix transposes the interpolative and CUR decompositions -/

namespace Parla.Props

open Matrix Parla Spec

variable {G : Type} {m n : ℕ}

/-- the transpose of a row ID `A ≈ Z A[Is, :]`: the column ID `A' ≈ A'[:, Is] Z'` -/
def _root_.Parla.RowID.flip (o : RowID m) : ColID m := ⟨o.c, o.Zᵀ, o.Is⟩

/-- the transpose of a column ID -/
def _root_.Parla.ColID.flip (o : ColID n) : RowID n := ⟨o.c, o.Xᵀ, o.Js⟩

/-- the transpose of a one-sided ID -/
def _root_.Parla.IDOut.flip : IDOut m n → IDOut n m
  | .row o => .col o.flip
  | .col o => .row o.flip

/-- the selected rows of `A` as selected columns of `A'`, and conversely -/
def _root_.Parla.SelOut.flip : SelOut m n → SelOut n m
  | .row o => .col o
  | .col o => .row o

/-- the transpose of a two-sided ID `A ≈ Z A[Is, Js] X` -/
def _root_.Parla.TSIDOut.flip (o : TSIDOut m n) : TSIDOut n m := ⟨o.col.flip, o.row.flip⟩

/-- the transpose of a CUR decomposition `A ≈ A[:, Js] U A[Is, :]` -/
def _root_.Parla.CUROut.flip (o : CUROut m n) : CUROut n m := ⟨o.b, o.a, o.Is, o.Uᵀ, o.Js⟩

/-- the same outcome - exception, warnings, passes, generator state - with the returned value changed by `f` -/
def SameUpTo {α β : Type} (f : α → β) (x : Py G α) (y : Py G β) : Prop :=
  ∀ w, y w = (x w).map fun r => (f r.1, r.2)

theorem SameUpTo.bind {α β α' β' : Type} {f : α → β} {g : α' → β'} {x : Py G α} {y : Py G β} {u : α → Py G α'} {v : β → Py G β'}
    (h : SameUpTo f x y) (hu : ∀ a, SameUpTo g (u a) (v (f a))) : SameUpTo g (x >>= u) (y >>= v) := by
  intro w
  have h1 := h w
  cases hx : x w with
  | error e =>
    rw [hx] at h1
    rw [Py.bind_eq_of_error hx, Py.bind_eq_of_error h1]; rfl
  | ok r =>
    obtain ⟨a, w'⟩ := r
    rw [hx] at h1
    rw [Py.bind_eq_of_ok hx, Py.bind_eq_of_ok h1]
    exact hu a w'

theorem SameUpTo.pure {α β : Type} (f : α → β) (a : α) : SameUpTo (G := G) f (pure a) (pure (f a)) := fun _ => rfl

theorem SameUpTo.refl {α : Type} (x : Py G α) : SameUpTo id x x := fun w => by
  cases h : x w <;> rfl

theorem SameUpTo.lift {α β : Type} (f : α → β) {x : Except PyErr α} {y : Except PyErr β} (h : y = x.map f) :
    SameUpTo (G := G) f (Py.lift x) (Py.lift y) := by
  intro w
  subst h
  cases x <;> rfl

theorem SameUpTo.raise {α β : Type} (f : α → β) (e : PyErr) : SameUpTo (G := G) f (Py.raise e) (Py.raise e) := fun _ => rfl

/-- the results of two runs from the same state -/
theorem SameUpTo.ok {α β : Type} {f : α → β} {x : Py G α} {y : Py G β} (h : SameUpTo f x y) {w w' : World G} {a : α} (hx : x w = .ok (a, w')) :
    y w = .ok (f a, w') := by
  rw [h w, hx]; rfl

theorem flip_flip_row (o : RowID m) : o.flip.flip = o := rfl

theorem flip_flip_col (o : ColID n) : o.flip.flip = o := rfl

theorem qrcpRow_flip (la : LinAlg) (Y : Matrix (Fin m) (Fin n) ℝ) (k : ℕ) :
    qrcpCol la Yᵀ k = (qrcpRow la Y k).map _root_.Parla.RowID.flip := by
  unfold qrcpRow
  cases h : qrcpCol la Yᵀ k <;> rfl

theorem qrcpCol_flip (la : LinAlg) (Y : Matrix (Fin m) (Fin n) ℝ) (k : ℕ) :
    qrcpRow la Yᵀ k = (qrcpCol la Y k).map _root_.Parla.ColID.flip := by
  unfold qrcpRow
  rw [transpose_transpose]
  cases h : qrcpCol la Y k <;> rfl

theorem sketch_flip (sk : RowSketcher G) (A : Matrix (Fin m) (Fin n) ℝ) (k over : ℕ) :
    _root_.Parla.sketchCols sk Aᵀ k over = _root_.Parla.sketchRows sk A k over := by
  unfold _root_.Parla.sketchCols _root_.Parla.sketchRows
  rw [transpose_transpose]

theorem sketch_flip' (sk : RowSketcher G) (A : Matrix (Fin m) (Fin n) ℝ) (k over : ℕ) :
    _root_.Parla.sketchRows sk Aᵀ k over = _root_.Parla.sketchCols sk A k over := rfl

/-- **C97** for `qrcp_osid`: the ID of `Y'` along the other axis is the transpose. -/
theorem C97_qrcp (la : LinAlg) (Y : Matrix (Fin m) (Fin n) ℝ) (k : ℕ) (axis : ℤ) (ha : axis = 0 ∨ axis = 1) :
    qrcpOsid la Yᵀ k (1 - axis) = (qrcpOsid la Y k axis).map _root_.Parla.IDOut.flip := by
  unfold qrcpOsid
  rcases ha with rfl | rfl
  · rw [if_pos (by norm_num), if_neg (by norm_num), if_pos rfl, qrcpRow_flip]
    cases qrcpRow la Y k <;> rfl
  · rw [if_neg (by norm_num), if_pos (by norm_num), if_pos rfl, qrcpCol_flip]
    cases qrcpCol la Y k <;> rfl

/-- **C97** for row and column selection: with any sketcher, generator state and backend, the columns selected from `A'` are the rows selected from
`A`, and the calls behave alike in every other respect. -/
theorem C97_rocs1 (la : LinAlg) (sk : RowSketcher G) (A : Matrix (Fin m) (Fin n) ℝ) (k over : ℕ) (axis : ℤ) (ha : axis = 0 ∨ axis = 1) :
    SameUpTo _root_.Parla.SelOut.flip (rocs1Call la sk A k over axis) (rocs1Call la sk Aᵀ k over (1 - axis)) := by
  unfold rocs1Call
  rcases ha with rfl | rfl
  · rw [if_pos rfl, if_neg (by norm_num), if_pos (by norm_num), sketch_flip]
    exact (SameUpTo.refl _).bind fun Y => SameUpTo.pure _ _
  · rw [if_neg (by norm_num), if_pos rfl, if_pos (by norm_num), sketch_flip']
    exact (SameUpTo.refl _).bind fun Y => SameUpTo.pure _ _

/-- a one-sided ID whose column IDs are the transposes of the row IDs of the transpose -/
structure FlipsID (o : OneSidedID G) : Prop where
  row : ∀ {m n : ℕ} (A : Matrix (Fin m) (Fin n) ℝ) (k over : ℕ), SameUpTo _root_.Parla.RowID.flip (o.row m n A k over) (o.col n m Aᵀ k over)
  col : ∀ {m n : ℕ} (A : Matrix (Fin m) (Fin n) ℝ) (k over : ℕ), SameUpTo _root_.Parla.ColID.flip (o.col m n A k over) (o.row n m Aᵀ k over)

/-- **C97** for `OSID1`, with any sketcher. -/
theorem C97_osid1_class (la : LinAlg) (sk : RowSketcher G) : FlipsID (OSID1 la sk) where
  row A k over := by
    unfold OSID1
    simp only [sketch_flip]
    exact (SameUpTo.refl _).bind fun Y => SameUpTo.lift _ (qrcpRow_flip la _ _)
  col A k over := by
    unfold OSID1
    simp only [sketch_flip']
    refine (SameUpTo.refl _).bind fun Y => SameUpTo.lift _ ?_
    have := qrcpCol_flip la Y.matᵀ k
    rw [transpose_transpose] at this
    exact this

/-- **C97** for `OSID2`, with any sketcher. -/
theorem C97_osid2_class (la : LinAlg) (sk : RowSketcher G) : FlipsID (OSID2 la sk) where
  row A k over := by
    unfold OSID2
    simp only [sketch_flip]
    exact (SameUpTo.refl _).bind fun Y => SameUpTo.pure _root_.Parla.RowID.flip _
  col A k over := by
    unfold OSID2
    simp only [sketch_flip']
    refine (SameUpTo.refl _).bind fun Y => ?_
    have e : ∀ J : Skel _, applyPinvOnRight la Aᵀ (Aᵀ.submatrix J.idx id) = (applyPinvOnLeft la A (A.submatrix id J.idx))ᵀ := by
      intro J
      unfold applyPinvOnRight applyPinvOnLeft
      rw [transpose_transpose]; rfl
    simp only [id, e]
    exact SameUpTo.pure _root_.Parla.ColID.flip _

theorem flips_call {o : OneSidedID G} (h : FlipsID o) (A : Matrix (Fin m) (Fin n) ℝ) (k over : ℕ) (axis : ℤ) (ha : axis = 0 ∨ axis = 1) :
    SameUpTo _root_.Parla.IDOut.flip (o.call A k over axis) (o.call Aᵀ k over (1 - axis)) := by
  unfold OneSidedID.call
  rcases ha with rfl | rfl
  · rw [if_pos rfl, if_neg (by norm_num), if_pos (by norm_num)]
    exact (h.row A k over).bind fun Y => SameUpTo.pure _ _
  · rw [if_neg (by norm_num), if_pos rfl, if_pos (by norm_num)]
    exact (h.col A k over).bind fun Y => SameUpTo.pure _ _

/-- **C97** for `osid1`: `osid1(A', k, over, p, 1 - axis, rng)` is the transpose of `osid1(A, k, over, p, axis, rng)`, and makes as many passes, leaves
the generator in the same state, or raises the same exception. -/
theorem C97_osid1 (la : LinAlg) (gen : SkOpGen G) (A : Matrix (Fin m) (Fin n) ℝ) (k over : ℕ) (p axis : ℤ) (ha : axis = 0 ∨ axis = 1) :
    SameUpTo _root_.Parla.IDOut.flip (osid1 la gen A k over p axis) (osid1 la gen Aᵀ k over p (1 - axis)) :=
  flips_call (C97_osid1_class la _) A k over axis ha

/-- **C97** for `osid2`. -/
theorem C97_osid2 (la : LinAlg) (gen : SkOpGen G) (A : Matrix (Fin m) (Fin n) ℝ) (k over : ℕ) (p axis : ℤ) (ha : axis = 0 ∨ axis = 1) :
    SameUpTo _root_.Parla.IDOut.flip (osid2 la gen A k over p axis) (osid2 la gen Aᵀ k over p (1 - axis)) :=
  flips_call (C97_osid2_class la _) A k over axis ha

/-- **C97** for `TSID1` over any one-sided ID with this property, `A` not square: `(Z, Is, X, Js)` for `A` gives `(X', Js, Z', Is)` for `A'`. -/
theorem C97_tsid1_class (la : LinAlg) {o : OneSidedID G} (h : FlipsID o) (A : Matrix (Fin m) (Fin n) ℝ) (hmn : m ≠ n) (k over : ℕ) :
    SameUpTo _root_.Parla.TSIDOut.flip (tsid1Call la o A k over) (tsid1Call la o Aᵀ k over) := by
  unfold tsid1Call
  by_cases hm : m > n
  · rw [if_pos hm, if_neg (by omega)]
    refine (h.col A k over).bind fun X => ?_
    refine SameUpTo.bind (f := _root_.Parla.RowID.flip) (SameUpTo.lift _ ?_) fun Z => SameUpTo.pure _ _
    exact qrcpRow_flip la (A.submatrix id X.Js) k
  · rw [if_neg hm, if_pos (by omega)]
    refine (h.row A k over).bind fun Z => ?_
    refine SameUpTo.bind (f := _root_.Parla.ColID.flip) (SameUpTo.lift _ ?_) fun X => SameUpTo.pure _ _
    exact qrcpCol_flip la (A.submatrix Z.Is id) k

/-- **C97** for `tsid1`. -/
theorem C97_tsid1 (la : LinAlg) (gen : SkOpGen G) (A : Matrix (Fin m) (Fin n) ℝ) (hmn : m ≠ n) (k over : ℕ) (p : ℤ) :
    SameUpTo _root_.Parla.TSIDOut.flip (tsid1 la gen A k over p) (tsid1 la gen Aᵀ k over p) :=
  C97_tsid1_class la (C97_osid1_class la _) A hmn k over

/-- **C97** for `CUR1` over any one-sided ID with this property, `A` not square: `(Js, U, Is)` for `A` gives `(Is, U', Js)` for `A'`. -/
theorem C97_cur1_class (la : LinAlg) {o : OneSidedID G} (h : FlipsID o) (A : Matrix (Fin m) (Fin n) ℝ) (hmn : m ≠ n) (k over : ℕ) :
    SameUpTo _root_.Parla.CUROut.flip (cur1Call la o A k over) (cur1Call la o Aᵀ k over) := by
  unfold cur1Call
  by_cases hm : m > n
  · rw [if_pos hm, if_neg (by omega)]
    refine (h.col A k over).bind fun X => ?_
    exact SameUpTo.pure _root_.Parla.CUROut.flip _
  · rw [if_neg hm, if_pos (by omega)]
    refine (h.row A k over).bind fun Z => ?_
    exact SameUpTo.pure _root_.Parla.CUROut.flip _

/-- **C97** for `cur1`. -/
theorem C97_cur1 (la : LinAlg) (gen : SkOpGen G) (A : Matrix (Fin m) (Fin n) ℝ) (hmn : m ≠ n) (k over : ℕ) (p : ℤ) :
    SameUpTo _root_.Parla.CUROut.flip (cur1 la gen A k over p) (cur1 la gen Aᵀ k over p) :=
  C97_cur1_class la (C97_osid1_class la _) A hmn k over

/-- **C97** in terms of the approximations: the run of `cur1` on `A'` from the same state returns the transpose of the approximation of `A`, built from the
columns and the rows of the same entries. -/
theorem C97_cur1_value (la : LinAlg) (gen : SkOpGen G) (A : Matrix (Fin m) (Fin n) ℝ) (hmn : m ≠ n) (k over : ℕ) (p : ℤ) (w w' : World G)
    (o : CUROut m n) (h : cur1 la gen A k over p w = .ok (o, w')) :
    ∃ o' : CUROut n m, cur1 la gen Aᵀ k over p w = .ok (o', w') ∧
      Aᵀ.submatrix id o'.Js * o'.U * Aᵀ.submatrix o'.Is id = (A.submatrix id o.Js * o.U * A.submatrix o.Is id)ᵀ := by
  refine ⟨_, (C97_cur1 la gen A hmn k over p).ok h, ?_⟩
  rw [transpose_mul, transpose_mul, ← Matrix.mul_assoc]
  rfl

/-- **C97** in terms of the approximations, for `tsid1`. -/
theorem C97_tsid1_value (la : LinAlg) (gen : SkOpGen G) (A : Matrix (Fin m) (Fin n) ℝ) (hmn : m ≠ n) (k over : ℕ) (p : ℤ) (w w' : World G)
    (o : TSIDOut m n) (h : tsid1 la gen A k over p w = .ok (o, w')) :
    ∃ o' : TSIDOut n m, tsid1 la gen Aᵀ k over p w = .ok (o', w') ∧
      o'.row.Z * Aᵀ.submatrix o'.row.Is o'.col.Js * o'.col.X = (o.row.Z * A.submatrix o.row.Is o.col.Js * o.col.X)ᵀ := by
  refine ⟨_, (C97_tsid1 la gen A hmn k over p).ok h, ?_⟩
  rw [transpose_mul, transpose_mul, ← Matrix.mul_assoc]
  rfl

/-- the hypotheses are met: runs that return, of every matrix of these sizes -/
example (la : LinAlg) (A : Matrix (Fin 2) (Fin 3) ℝ) (w : World G) : ∃ o w', cur1Call la (OSID2 la coordSketcher) A 1 1 w = .ok (o, w') ∧
    cur1Call la (OSID2 la coordSketcher) Aᵀ 1 1 w = .ok (o.flip, w') ∧ o.flip.Is = o.Js := by
  obtain ⟨o, w', h⟩ : ∃ o w', cur1Call la (OSID2 la coordSketcher) A 1 1 w = .ok (o, w') := ⟨_, _, rfl⟩
  exact ⟨o, w', h, (C97_cur1_class la (C97_osid2_class la _) A (by norm_num) 1 1).ok h, rfl⟩

/-! ## Coordinates of the axis that is not selected from -/

/-- without power iterations, the sketch of `P A` with the draws `T Ω` is the sketch of `A` with the draws `Ω`, if `T'P = 1` -/
theorem sketchCols_rotate (stab : Stab) (pps : ℕ) {m' : ℕ} (A : Matrix (Fin m) (Fin n) ℝ) (P T : Matrix (Fin m') (Fin m) ℝ) (hT : Tᵀ * P = 1)
    (gen gen' : SkOpGen G) (hg : ∀ c, SameUpTo (fun S => T * S) (gen m c) (gen' m' c)) (k over : ℕ) :
    SameUpTo id (_root_.Parla.sketchCols (RS1 gen (1 - 1) stab pps) A k over) (_root_.Parla.sketchCols (RS1 gen' (1 - 1) stab pps) (P * A) k over) := by
  unfold _root_.Parla.sketchCols RS1 rs1Call
  refine SameUpTo.bind (f := fun S : Cols m => (⟨S.c, T * S.mat⟩ : Cols m')) ?_ ?_
  · rw [if_pos (by norm_num), if_pos (by norm_num)]
    refine SameUpTo.bind (f := id) (SameUpTo.refl _) fun _ => ?_
    exact (hg (k + over)).bind fun S => SameUpTo.pure _ _
  · intro S
    unfold passA
    refine SameUpTo.bind (f := id) (SameUpTo.refl _) fun _ => ?_
    have e : (⟨S.c, Aᵀ * S.mat⟩ : Cols n) = ⟨S.c, (P * A)ᵀ * (T * S.mat)⟩ := by
      have hP : Pᵀ * T = 1 := by
        have := congrArg transpose hT
        rwa [transpose_mul, transpose_transpose, transpose_one] at this
      rw [transpose_mul, Matrix.mul_assoc, ← Matrix.mul_assoc Pᵀ, hP, Matrix.one_mul]
    rw [show (pure ⟨S.c, Aᵀ * S.mat⟩ : Py G (Cols n)) = pure ⟨S.c, (P * A)ᵀ * (T * S.mat)⟩ by rw [e]]
    exact SameUpTo.refl _

/-- **C97** (rows of `A` mixed).  Column IDs of one pass: if the rows of `A` are mixed by any injective `P` and the draws by its dual `T` (`T'P = 1`; for an
orthogonal `P` that is `P` itself, which does not change the law of Gaussian draws), `osid1` returns the same coefficients and indices. -/
theorem C97_osid1_rotate (la : LinAlg) {m' : ℕ} (A : Matrix (Fin m) (Fin n) ℝ) (P T : Matrix (Fin m') (Fin m) ℝ) (hT : Tᵀ * P = 1)
    (gen gen' : SkOpGen G) (hg : ∀ c, SameUpTo (fun S => T * S) (gen m c) (gen' m' c)) (k over : ℕ) :
    SameUpTo id ((OSID1 la (RS1 gen (1 - 1) (orth la) 1)).col m n A k over) ((OSID1 la (RS1 gen' (1 - 1) (orth la) 1)).col m' n (P * A) k over) := by
  unfold OSID1
  exact (sketchCols_rotate _ 1 A P T hT gen gen' hg k over).bind fun Y => SameUpTo.refl _

theorem lstsq_rotate (la : LinAlg) {m' r s : ℕ} (P : Matrix (Fin m') (Fin m) ℝ) (hP : OrthoCols P) (C : Matrix (Fin m) (Fin r) ℝ) (B : Matrix (Fin m) (Fin s) ℝ) :
    la.lstsq (P * C) (P * B) = la.lstsq C B := by
  have hPP : ∀ {t : ℕ} (X : Matrix (Fin m) (Fin t) ℝ), (P * C)ᵀ * (P * X) = Cᵀ * X := fun X => by
    rw [transpose_mul, Matrix.mul_assoc, ← Matrix.mul_assoc Pᵀ, show Pᵀ * P = 1 from hP, Matrix.one_mul]
  have h1 := la.lstsq_normal (P * C) (P * B)
  rw [hPP, Matrix.mul_assoc P C, hPP] at h1
  obtain ⟨W, hW⟩ := la.lstsq_row (P * C) (P * B)
  exact ls_unique (by rw [h1, la.lstsq_normal]) ⟨Pᵀ * W, by rw [hW, transpose_mul, Matrix.mul_assoc]⟩ (la.lstsq_row C B)

/-- **C97** for `OSID2`, `P` with orthonormal columns, the draws mixed by the same `P`. -/
theorem C97_osid2_rotate (la : LinAlg) {m' : ℕ} (A : Matrix (Fin m) (Fin n) ℝ) (P : Matrix (Fin m') (Fin m) ℝ) (hP : OrthoCols P)
    (gen gen' : SkOpGen G) (hg : ∀ c, SameUpTo (fun S => P * S) (gen m c) (gen' m' c)) (k over : ℕ) :
    SameUpTo id ((OSID2 la (RS1 gen (1 - 1) (orth la) 1)).col m n A k over) ((OSID2 la (RS1 gen' (1 - 1) (orth la) 1)).col m' n (P * A) k over) := by
  unfold OSID2
  refine (sketchCols_rotate _ 1 A P P hP gen gen' hg k over).bind fun Y => ?_
  have e : applyPinvOnLeft la (P * A) ((P * A).submatrix id (pivots la Y k).idx) =
      applyPinvOnLeft la A (A.submatrix id (pivots la Y k).idx) := by
    unfold applyPinvOnLeft
    obtain ⟨C, hC⟩ : ∃ C, C = A.submatrix id (pivots la Y k).idx := ⟨_, rfl⟩
    have hPC : (P * A).submatrix id (pivots la Y k).idx = P * C := by rw [hC]; rfl
    rw [hPC, ← hC]
    exact lstsq_rotate la P hP C A
  simp only [id, e]
  exact SameUpTo.refl _

/-- draws that meet the hypothesis of the last two theorems: two generators that return fixed matrices, one the image of the other; and a run that returns -/
example (la : LinAlg) (A : Matrix (Fin 3) (Fin 4) ℝ) (P : Matrix (Fin 5) (Fin 3) ℝ) (hP : OrthoCols P) (Ω : ∀ c, Matrix (Fin 3) (Fin c) ℝ) (w : World G) :
    ∃ (gen gen' : SkOpGen G) (o : ColID 4) (w' : World G), gen 3 2 w = .ok (Ω 2, w) ∧ gen' 5 2 w = .ok (P * Ω 2, w) ∧
      (OSID2 la (RS1 gen (1 - 1) (orth la) 1)).col 3 4 A 1 1 w = .ok (o, w') ∧
      (OSID2 la (RS1 gen' (1 - 1) (orth la) 1)).col 5 4 (P * A) 1 1 w = .ok (o, w') := by
  obtain ⟨gen, hgen⟩ : ∃ gen : SkOpGen G, gen = fun r c => pure (if h : r = 3 then h ▸ Ω c else 0) := ⟨_, rfl⟩
  obtain ⟨gen', hgen'⟩ : ∃ gen' : SkOpGen G, gen' = fun r c => pure (if h : r = 5 then h ▸ (P * Ω c) else 0) := ⟨_, rfl⟩
  have h3 : ∀ c, gen 3 c = pure (Ω c) := fun c => by rw [hgen]; rfl
  have h5 : ∀ c, gen' 5 c = pure (P * Ω c) := fun c => by rw [hgen']; rfl
  obtain ⟨o, w', h⟩ : ∃ o w', (OSID2 la (RS1 gen (1 - 1) (orth la) 1)).col 3 4 A 1 1 w = .ok (o, w') := by
    rw [hgen]
    exact ⟨_, _, rfl⟩
  refine ⟨gen, gen', o, w', by rw [h3]; rfl, by rw [h5]; rfl, h, ?_⟩
  exact (C97_osid2_rotate la A P hP gen gen' (fun c => by rw [h3, h5]; exact SameUpTo.pure _ _) 1 1).ok h

end Parla.Props
