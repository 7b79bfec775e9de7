import Verif.Props.ID
import Verif.Props.EVD2

/-! # Properties C21 – C24: two-sided ID, CUR, row/column selection, pass counts -/

namespace Parla.Props

open Matrix Parla Spec

variable {G : Type} {m n k : ℕ}

/-! ## C21 -/

theorem tsid1_tall {la : LinAlg} {osid : OneSidedID G} {A : Matrix (Fin m) (Fin n) ℝ} {over : ℕ}
    (hmn : m > n) {w w' : World G} {out : TSIDOut m n} :
    tsid1Call la osid A k over w = .ok (out, w') ↔
      osid.col m n A k over w = .ok (out.col, w') ∧
        qrcpRow la (A.submatrix id out.col.Js) k = .ok out.row := by
  unfold tsid1Call
  rw [if_pos hmn, Py.bind_ok_iff]
  constructor
  · rintro ⟨X, w1, h1, h2⟩
    rw [Py.bind_ok_iff] at h2
    obtain ⟨Z, w2, h2, h3⟩ := h2
    rw [Py.lift_ok_iff] at h2
    obtain ⟨h2, rfl⟩ := h2
    cases h3
    exact ⟨h1, h2⟩
  · rintro ⟨h1, h2⟩
    exact ⟨_, _, h1, Py.bind_ok_iff.2 ⟨_, w', Py.lift_ok_iff.2 ⟨h2, rfl⟩, rfl⟩⟩

theorem tsid1_wide {la : LinAlg} {osid : OneSidedID G} {A : Matrix (Fin m) (Fin n) ℝ} {over : ℕ}
    (hmn : ¬ m > n) {w w' : World G} {out : TSIDOut m n} :
    tsid1Call la osid A k over w = .ok (out, w') ↔
      osid.row m n A k over w = .ok (out.row, w') ∧
        qrcpCol la (A.submatrix out.row.Is id) k = .ok out.col := by
  unfold tsid1Call
  rw [if_neg hmn, Py.bind_ok_iff]
  constructor
  · rintro ⟨X, w1, h1, h2⟩
    rw [Py.bind_ok_iff] at h2
    obtain ⟨Z, w2, h2, h3⟩ := h2
    rw [Py.lift_ok_iff] at h2
    obtain ⟨h2, rfl⟩ := h2
    cases h3
    exact ⟨h1, h2⟩
  · rintro ⟨h1, h2⟩
    exact ⟨_, _, h1, Py.bind_ok_iff.2 ⟨_, w', Py.lift_ok_iff.2 ⟨h2, rfl⟩, rfl⟩⟩

theorem qrcpRow_exact (la : LinAlg) {Y : Matrix (Fin m) (Fin n) ℝ} {o : RowID m}
    (h : qrcpRow la Y k = .ok o) (hr : Y.rank ≤ k) : o.Z * Y.submatrix o.Is id = Y := by
  obtain ⟨o', h1, rfl⟩ := qrcpRow_ok.1 h
  have := congrArg Matrix.transpose (qrcpCol_exact la h1 (by rwa [rank_transpose]))
  simp only [transpose_submatrix, transpose_mul, transpose_transpose] at this
  exact this

theorem qrcpRow_interp (la : LinAlg) {Y : Matrix (Fin m) (Fin n) ℝ} {o : RowID m}
    (h : qrcpRow la Y k = .ok o) : o.c = k ∧ IsRowInterp o.Z o.Is := by
  obtain ⟨o', h1, rfl⟩ := qrcpRow_ok.1 h
  obtain ⟨g1, -, -, g4, g5, -⟩ := qrcpCol_facts la h1
  refine ⟨g1, g4, ?_⟩
  have := congrArg Matrix.transpose g5
  rwa [transpose_submatrix, transpose_one] at this

/-- **C21** (tall).  TSID1 on an `m × n` matrix with `m > n` returns the column ID `(X, Js)` of
its one-sided routine unchanged, plus a row ID `(Z, Is)` with an identity at `Is`; if that routine
returned `k` columns then `Z A[Is, Js] X = A[:, Js] X`: no further error. -/
theorem C21_tsid1_tall (la : LinAlg) (osid : OneSidedID G) (A : Matrix (Fin m) (Fin n) ℝ)
    (hmn : m > n) (k over : ℕ) (w w' : World G) (out : TSIDOut m n)
    (h : tsid1Call la osid A k over w = .ok (out, w')) :
    osid.col m n A k over w = .ok (out.col, w') ∧ out.row.c = k ∧
      IsRowInterp out.row.Z out.row.Is ∧
      (out.col.c = k →
        out.row.Z * A.submatrix out.row.Is out.col.Js * out.col.X =
          A.submatrix id out.col.Js * out.col.X) := by
  obtain ⟨h1, h2⟩ := (tsid1_tall hmn).1 h
  obtain ⟨g1, g2⟩ := qrcpRow_interp la h2
  refine ⟨h1, g1, g2, fun hc => ?_⟩
  have := qrcpRow_exact la h2 (by
    have := rank_le_width' (A.submatrix id out.col.Js); omega)
  rw [submatrix_submatrix] at this
  rw [show A.submatrix out.row.Is out.col.Js = A.submatrix (id ∘ out.row.Is) (out.col.Js ∘ id)
    from rfl, this]

/-- **C21** (square or wide): the mirror statement, `Z A[Is, Js] X = Z A[Is, :]`. -/
theorem C21_tsid1_wide (la : LinAlg) (osid : OneSidedID G) (A : Matrix (Fin m) (Fin n) ℝ)
    (hmn : m ≤ n) (k over : ℕ) (w w' : World G) (out : TSIDOut m n)
    (h : tsid1Call la osid A k over w = .ok (out, w')) :
    osid.row m n A k over w = .ok (out.row, w') ∧ out.col.c = k ∧
      IsColInterp out.col.X out.col.Js ∧
      (out.row.c = k →
        out.row.Z * A.submatrix out.row.Is out.col.Js * out.col.X =
          out.row.Z * A.submatrix out.row.Is id) := by
  obtain ⟨h1, h2⟩ := (tsid1_wide (by omega)).1 h
  obtain ⟨g1, -, -, g4, g5, -⟩ := qrcpCol_facts la h2
  refine ⟨h1, g1, ⟨g4, g5⟩, fun hc => ?_⟩
  have := qrcpCol_exact la h2 (by
    have := Matrix.rank_le_height (A.submatrix out.row.Is id); omega)
  rw [submatrix_submatrix] at this
  rw [Matrix.mul_assoc, show A.submatrix out.row.Is out.col.Js =
    A.submatrix (out.row.Is ∘ id) (id ∘ out.col.Js) from rfl, this]

theorem osid1_row_interp {la : LinAlg} {skOp : RowSketcher G} {A : Matrix (Fin m) (Fin n) ℝ} {over : ℕ}
    {w w' : World G} {o : RowID m} (h : (OSID1 la skOp).row m n A k over w = .ok (o, w')) :
    o.c = k ∧ IsRowInterp o.Z o.Is := by
  obtain ⟨o', he, h1, h2, -⟩ := C19_osid1_row la skOp A k over w w' _ (call_row.2 ⟨o, h, rfl⟩)
  cases he
  exact ⟨h1, h2⟩

/-- **C21** (the wrapper `tsid1`): both factors interpolate, there are `k` indices on each side,
and the error is that of the one-sided ID it extends. -/
theorem C21_tsid1 (la : LinAlg) (gauss : SkOpGen G) (A : Matrix (Fin m) (Fin n) ℝ)
    (k over : ℕ) (p : ℤ) (w w' : World G) (out : TSIDOut m n)
    (h : tsid1 la gauss A k over p w = .ok (out, w')) :
    out.row.c = k ∧ out.col.c = k ∧ IsRowInterp out.row.Z out.row.Is ∧
      IsColInterp out.col.X out.col.Js ∧
      fro (A - out.row.Z * A.submatrix out.row.Is out.col.Js * out.col.X) =
        if m > n then fro (A - A.submatrix id out.col.Js * out.col.X)
        else fro (A - out.row.Z * A.submatrix out.row.Is id) := by
  unfold tsid1 at h
  by_cases hmn : m > n
  · obtain ⟨h1, h2, h3, h4⟩ := C21_tsid1_tall la _ A hmn k over w w' out h
    obtain ⟨g1, g2, -⟩ := osid1_col_interp h1
    rw [if_pos hmn, h4 g1]
    exact ⟨h2, g1, h3, g2, rfl⟩
  · obtain ⟨h1, h2, h3, h4⟩ := C21_tsid1_wide la _ A (by omega) k over w w' out h
    obtain ⟨g1, g2⟩ := osid1_row_interp h1
    rw [if_neg hmn, h4 g1]
    exact ⟨g1, h2, g2, h3, rfl⟩

/-- A one-sided ID that returns an exact decomposition of `A` with the first `k` rows/columns as
the skeleton, when it has one (used in examples). -/
def fixedOSID (X : ∀ n k : ℕ, Matrix (Fin k) (Fin n) ℝ) : OneSidedID G where
  row := fun m _ _ k _ =>
    if h : k ≤ m then pure ⟨k, (X m k)ᵀ, Fin.castLE h⟩ else Py.raise .value
  col := fun _ n _ k _ =>
    if h : k ≤ n then pure ⟨k, X n k, Fin.castLE h⟩ else Py.raise .value

-- non-vacuity of C21_tsid1_tall: the all-ones 3×2 matrix, k = 1
example (la : LinAlg) (w : World G) : ∃ out, tsid1Call la
    (fixedOSID (G := G) fun _ _ => Matrix.of fun _ _ => 1)
    (Matrix.of fun (_ : Fin 3) (_ : Fin 2) => (1 : ℝ)) 1 0 w = .ok (out, w) ∧ out.col.c = 1 := by
  have hcol : (fixedOSID (G := G) fun _ _ => Matrix.of fun _ _ => 1).col 3 2
      (Matrix.of fun (_ : Fin 3) (_ : Fin 2) => (1 : ℝ)) 1 0 w =
      .ok (⟨1, Matrix.of fun _ _ => 1, Fin.castLE (by norm_num)⟩, w) := rfl
  have hrk : 1 ≤ (Matrix.of fun (_ : Fin 1) (_ : Fin 3) => (1 : ℝ)).rank := by
    rw [Nat.one_le_iff_ne_zero]
    intro h
    have h2 := Submodule.finrank_eq_zero.1 h
    rw [LinearMap.range_eq_bot] at h2
    have := congrFun (congrArg (fun f => f (Pi.single 0 1)) h2) 0
    simp at this
  obtain ⟨o, ho⟩ := (qrcpCol_cases la (Matrix.of fun (_ : Fin 1) (_ : Fin 3) => (1 : ℝ)) 1).1 hrk
  exact ⟨⟨RowID.ofCol o, ⟨1, Matrix.of fun _ _ => 1, Fin.castLE (by norm_num)⟩⟩,
    (tsid1_tall (by norm_num)).2 ⟨hcol, qrcpRow_ok.2 ⟨o, ho, rfl⟩⟩, rfl⟩

/-! ## C22 -/

theorem cur1_tall {la : LinAlg} {osid : OneSidedID G} {A : Matrix (Fin m) (Fin n) ℝ} {over : ℕ}
    (hmn : m > n) {w w' : World G} {out : CUROut m n} :
    cur1Call la osid A k over w = .ok (out, w') ↔
      ∃ X, osid.col m n A k over w = .ok (X, w') ∧
        out = ⟨X.c, (pivots la ⟨X.c, A.submatrix id X.Js⟩ k).c, X.Js,
          applyPinvOnRight la X.X
            (A.submatrix (pivots la ⟨X.c, A.submatrix id X.Js⟩ k).idx id),
          (pivots la ⟨X.c, A.submatrix id X.Js⟩ k).idx⟩ := by
  unfold cur1Call
  rw [if_pos hmn, Py.bind_ok_iff]
  constructor
  · rintro ⟨X, w1, h1, h2⟩; cases h2; exact ⟨X, h1, rfl⟩
  · rintro ⟨X, h1, rfl⟩; exact ⟨X, _, h1, rfl⟩

theorem cur1_wide {la : LinAlg} {osid : OneSidedID G} {A : Matrix (Fin m) (Fin n) ℝ} {over : ℕ}
    (hmn : ¬ m > n) {w w' : World G} {out : CUROut m n} :
    cur1Call la osid A k over w = .ok (out, w') ↔
      ∃ Z, osid.row m n A k over w = .ok (Z, w') ∧
        out = ⟨(pivots la ⟨Z.c, (A.submatrix Z.Is id)ᵀ⟩ k).c, Z.c,
          (pivots la ⟨Z.c, (A.submatrix Z.Is id)ᵀ⟩ k).idx,
          applyPinvOnLeft la Z.Z
            (A.submatrix id (pivots la ⟨Z.c, (A.submatrix Z.Is id)ᵀ⟩ k).idx), Z.Is⟩ := by
  unfold cur1Call
  rw [if_neg hmn, Py.bind_ok_iff]
  constructor
  · rintro ⟨X, w1, h1, h2⟩; cases h2; exact ⟨X, h1, rfl⟩
  · rintro ⟨X, h1, rfl⟩; exact ⟨X, _, h1, rfl⟩

/-- the pivots of a rank-`≥ k` matrix select an independent family -/
theorem pivots_full (la : LinAlg) {r : ℕ} (Y : Cols r) (k : ℕ) (hk : k ≤ Y.mat.rank) :
    (pivots la Y k).c = k ∧ FullColRank (Y.matᵀ.submatrix id (pivots la Y k).idx) := by
  obtain ⟨o, ho⟩ := (qrcpCol_cases la Y.matᵀ k).1 (by rwa [rank_transpose])
  obtain ⟨h1, h2, -, -, -, h6, -⟩ := qrcpCol_facts la ho
  have hkr : k ≤ r := h2.trans (min_le_right _ _)
  have hc : (pivots la Y k).c = k := min_eq_left hkr
  refine ⟨hc, ?_⟩
  have hJ : ∀ i : Fin (pivots la Y k).c, (pivots la Y k).idx i =
      o.Js (Fin.cast (hc.trans h1.symm) i) := by
    intro i
    unfold qrcpCol at ho
    rw [dif_pos h2] at ho
    simp only [bind, Except.bind] at ho
    split at ho
    · cases ho
    · cases ho; rfl
  have : Y.matᵀ.submatrix id (pivots la Y k).idx =
      (Y.matᵀ.submatrix id o.Js).submatrix id (Fin.cast (hc.trans h1.symm)) := by
    ext i j; simp [hJ]
  rw [this]
  exact h6.submatrix (Fin.cast_injective _)

/-- **C22** (tall).  With `(X, Js)` from the one-sided ID, CUR1 returns `Js`, `min(k, m)` distinct
row indices `Is`, and `U` minimising `‖X - U A[Is, :]‖_F` whose rows lie in the row space of
`A[Is, :]'` (i.e. `U = X pinv(A[Is, :])`). -/
theorem C22_cur1_tall (la : LinAlg) (osid : OneSidedID G) (A : Matrix (Fin m) (Fin n) ℝ)
    (hmn : m > n) (k over : ℕ) (w w' : World G) (out : CUROut m n)
    (h : cur1Call la osid A k over w = .ok (out, w')) :
    ∃ X : Matrix (Fin out.a) (Fin n) ℝ, osid.col m n A k over w = .ok (⟨out.a, X, out.Js⟩, w') ∧
      out.b = min k m ∧ Function.Injective out.Is ∧
      (∀ U', fro (X - out.U * A.submatrix out.Is id) ≤ fro (X - U' * A.submatrix out.Is id)) ∧
      ∃ W, out.U = W * (A.submatrix out.Is id)ᵀ := by
  obtain ⟨X, h1, rfl⟩ := (cur1_tall hmn).1 h
  refine ⟨X.X, h1, rfl, pivots_injective la _ k, ?_, ?_⟩
  · set M := A.submatrix (pivots la ⟨X.c, A.submatrix id X.Js⟩ k).idx id
    intro U'
    have := fro_opt_of_normal (lstsq_resid la Mᵀ X.Xᵀ) U'ᵀ
    have fr : ∀ N : Matrix (Fin X.c) (Fin n) ℝ, fro Nᵀ = fro N := fun N => by
      unfold fro; rw [froSq_transpose]
    have e1 : X.Xᵀ - Mᵀ * la.lstsq Mᵀ X.Xᵀ = (X.X - (la.lstsq Mᵀ X.Xᵀ)ᵀ * M)ᵀ := by
      simp [transpose_sub, transpose_mul]
    have e2 : X.Xᵀ - Mᵀ * U'ᵀ = (X.X - U' * M)ᵀ := by simp [transpose_sub, transpose_mul]
    rw [e1, e2, fr, fr] at this
    exact this
  · set M := A.submatrix (pivots la ⟨X.c, A.submatrix id X.Js⟩ k).idx id
    obtain ⟨W, hW⟩ := la.lstsq_row Mᵀ X.Xᵀ
    refine ⟨Wᵀ, ?_⟩
    show (la.lstsq Mᵀ X.Xᵀ)ᵀ = Wᵀ * Mᵀ
    rw [hW, transpose_mul, transpose_transpose]

/-- **C22** (square or wide).  `U = pinv(A[:, Js]) Z`. -/
theorem C22_cur1_wide (la : LinAlg) (osid : OneSidedID G) (A : Matrix (Fin m) (Fin n) ℝ)
    (hmn : m ≤ n) (k over : ℕ) (w w' : World G) (out : CUROut m n)
    (h : cur1Call la osid A k over w = .ok (out, w')) :
    ∃ Z : Matrix (Fin m) (Fin out.b) ℝ, osid.row m n A k over w = .ok (⟨out.b, Z, out.Is⟩, w') ∧
      out.a = min k n ∧ Function.Injective out.Js ∧
      (∀ U', fro (Z - A.submatrix id out.Js * out.U) ≤ fro (Z - A.submatrix id out.Js * U')) ∧
      ∃ W, out.U = (A.submatrix id out.Js)ᵀ * W := by
  obtain ⟨Z, h1, rfl⟩ := (cur1_wide (by omega)).1 h
  exact ⟨Z.Z, h1, rfl, pivots_injective la _ k, fro_opt_of_normal (lstsq_resid la _ _),
    la.lstsq_row _ _⟩

/-- the core of exactness, in column form -/
theorem cur_exact_core {a b : ℕ} {A : Matrix (Fin m) (Fin n) ℝ} {Js : Fin a → Fin n}
    {X : Matrix (Fin a) (Fin n) ℝ} (hex : A.submatrix id Js * X = A) (hr : A.rank = a)
    {Is : Fin b → Fin m} (hI : (A.submatrix Is Js).rank = a) {U : Matrix (Fin a) (Fin b) ℝ}
    (hU : (A.submatrix Is id) * (X - U * A.submatrix Is id)ᵀ = 0) :
    A.submatrix id Js * U * A.submatrix Is id = A := by
  set C := A.submatrix id Js
  set R := A.submatrix Is id with hR
  have hCr : FullColRank C := by
    apply le_antisymm (rank_le_width' C)
    have : A.rank ≤ C.rank := by
      conv_lhs => rw [← hex]
      exact Matrix.rank_mul_le_left _ _
    omega
  -- the rows of `A[Is, :]` span the row space of `A`
  have hRrank : a ≤ R.rank := by
    rw [← hI]
    have : A.submatrix Is Js = R.submatrix id Js := by ext; simp [hR]
    rw [this]; exact rank_submatrix_cols_le _ _
  have hsp : colSpace Rᵀ = colSpace Aᵀ := by
    apply Submodule.eq_of_le_of_finrank_le
    · rw [hR, transpose_submatrix]; exact colSpace_submatrix_le Aᵀ Is
    · rw [finrank_colSpace, finrank_colSpace, rank_transpose, rank_transpose]; omega
  -- the rows of `X` lie in the row space of `A`
  have hX : colSpace Xᵀ ≤ colSpace Rᵀ := by
    rw [hsp, colSpace_le_iff]
    refine ⟨((Cᵀ * C)⁻¹ * Cᵀ)ᵀ, ?_⟩
    rw [← transpose_mul, Matrix.mul_assoc]
    congr 1
    conv_rhs => rw [← hex]
    rw [← Matrix.mul_assoc Cᵀ, ← Matrix.mul_assoc, nonsing_inv_mul _ hCr.gram_unit, Matrix.one_mul]
  have h1 : (Rᵀ)ᵀ * (Xᵀ - Rᵀ * Uᵀ) = 0 := by
    rw [transpose_transpose, ← transpose_mul, ← transpose_sub]; exact hU
  have h2 := congrArg Matrix.transpose (exact_of_normal h1 hX)
  rw [transpose_mul, transpose_transpose, transpose_transpose, transpose_transpose] at h2
  rw [Matrix.mul_assoc, h2, hex]

/-- **C22** (exactness, tall): if the one-sided ID is exact with `k = rank(A)` columns then
`A[:, Js] U A[Is, :] = A`. -/
theorem C22_cur1_exact_tall (la : LinAlg) (osid : OneSidedID G) (A : Matrix (Fin m) (Fin n) ℝ)
    (hmn : m > n) (over : ℕ) (w w' : World G) (X : ColID n) (hr : A.rank = X.c)
    (hX : osid.col m n A X.c over w = .ok (X, w')) (hex : A.submatrix id X.Js * X.X = A) :
    ∃ out, cur1Call la osid A X.c over w = .ok (out, w') ∧
      A.submatrix id out.Js * out.U * A.submatrix out.Is id = A := by
  refine ⟨_, (cur1_tall hmn).2 ⟨X, hX, rfl⟩, ?_⟩
  have hrk : (A.submatrix id X.Js).rank = X.c := by
    apply le_antisymm (rank_le_width' _)
    have : A.rank ≤ (A.submatrix id X.Js).rank := by
      conv_lhs => rw [← hex]
      exact Matrix.rank_mul_le_left _ _
    omega
  obtain ⟨hc, hf⟩ := pivots_full la ⟨X.c, A.submatrix id X.Js⟩ X.c hrk.ge
  refine cur_exact_core hex hr ?_ ?_
  · have : ((A.submatrix id X.Js)ᵀ.submatrix id
        (pivots la ⟨X.c, A.submatrix id X.Js⟩ X.c).idx).rank = _ := hf
    have h2 := this.trans hc
    rw [← rank_transpose]
    exact h2
  · set R := A.submatrix (pivots la ⟨X.c, A.submatrix id X.Js⟩ X.c).idx id
    have := lstsq_resid la Rᵀ X.Xᵀ
    rw [transpose_transpose] at this
    show R * (X.X - (la.lstsq Rᵀ X.Xᵀ)ᵀ * R)ᵀ = 0
    rw [transpose_sub, transpose_mul, transpose_transpose]
    exact this

/-- **C22** (exactness, square or wide). -/
theorem C22_cur1_exact_wide (la : LinAlg) (osid : OneSidedID G) (A : Matrix (Fin m) (Fin n) ℝ)
    (hmn : m ≤ n) (over : ℕ) (w w' : World G) (Z : RowID m) (hr : A.rank = Z.c)
    (hZ : osid.row m n A Z.c over w = .ok (Z, w')) (hex : Z.Z * A.submatrix Z.Is id = A) :
    ∃ out, cur1Call la osid A Z.c over w = .ok (out, w') ∧
      A.submatrix id out.Js * out.U * A.submatrix out.Is id = A := by
  refine ⟨_, (cur1_wide (by omega)).2 ⟨Z, hZ, rfl⟩, ?_⟩
  have hrk : ((A.submatrix Z.Is id)ᵀ).rank = Z.c := by
    rw [rank_transpose]
    apply le_antisymm (by have := Matrix.rank_le_height (A.submatrix Z.Is id); omega)
    have : A.rank ≤ (A.submatrix Z.Is id).rank := by
      conv_lhs => rw [← hex]
      exact Matrix.rank_mul_le_right _ _
    omega
  obtain ⟨hc, hf⟩ := pivots_full la ⟨Z.c, (A.submatrix Z.Is id)ᵀ⟩ Z.c hrk.ge
  set J := (pivots la ⟨Z.c, (A.submatrix Z.Is id)ᵀ⟩ Z.c).idx with hJ
  have hexT : Aᵀ.submatrix id Z.Is * Z.Zᵀ = Aᵀ := by
    have := congrArg Matrix.transpose hex
    rwa [transpose_mul, transpose_submatrix] at this
  have key := cur_exact_core (A := Aᵀ) (Js := Z.Is) (X := Z.Zᵀ) (Is := J)
    (U := (la.lstsq (A.submatrix id J) Z.Z)ᵀ) hexT (by rw [rank_transpose, hr]) (by
      have : ((A.submatrix Z.Is id)ᵀᵀ.submatrix id J).rank = _ := hf
      have h2 := this.trans hc
      rw [← rank_transpose]
      exact h2) (by
      have := lstsq_resid la (A.submatrix id J) Z.Z
      rw [transpose_sub, transpose_mul, transpose_transpose, transpose_transpose,
        ← transpose_submatrix, transpose_transpose]
      exact this)
  have := congrArg Matrix.transpose key
  rw [transpose_mul, transpose_mul, transpose_transpose, transpose_transpose, transpose_submatrix,
    transpose_submatrix, transpose_transpose, ← Matrix.mul_assoc] at this
  exact this

/-! ## C23 -/

/-- the returned index array as a list of Python ints -/
def _root_.Parla.IDOut.indices : IDOut m n → List ℕ
  | .row o => List.ofFn fun i => (o.Is i).1
  | .col o => List.ofFn fun i => (o.Js i).1

/-- the returned index array as a list of Python ints -/
def _root_.Parla.SelOut.indices : SelOut m n → List ℕ
  | .row o => List.ofFn fun i => (o.idx i).1
  | .col o => List.ofFn fun i => (o.idx i).1

theorem rocs1_row {la : LinAlg} {skOp : RowSketcher G} {A : Matrix (Fin m) (Fin n) ℝ} {over : ℕ}
    {w w' : World G} {Y : Cols m} (h : sketchRows skOp A k over w = .ok (Y, w')) :
    rocs1Call la skOp A k over 0 w = .ok (.row (pivots la Y k), w') := by
  unfold rocs1Call
  rw [if_pos rfl, Py.bind_eq_of_ok h]; rfl

theorem rocs1_col {la : LinAlg} {skOp : RowSketcher G} {A : Matrix (Fin m) (Fin n) ℝ} {over : ℕ}
    {w w' : World G} {Y : Cols n} (h : sketchCols skOp A k over w = .ok (Y, w')) :
    rocs1Call la skOp A k over 1 w = .ok (.col (pivots la Y k), w') := by
  unfold rocs1Call
  rw [if_neg (by norm_num), if_pos rfl, Py.bind_eq_of_ok h]; rfl

theorem qrcpCol_indices {la : LinAlg} {Y : Cols n} {o : ColID n}
    (h : qrcpCol la Y.matᵀ k = .ok o) :
    (List.ofFn fun i => ((pivots la Y k).idx i).1) = List.ofFn fun i => (o.Js i).1 := by
  have hf := qrcpCol_facts la h
  obtain ⟨h1, h2, -⟩ := hf
  have hkr : k ≤ n := h2.trans (min_le_right _ _)
  have hc : (pivots la Y k).c = k := min_eq_left hkr
  have hJ : ∀ i : Fin (pivots la Y k).c, (pivots la Y k).idx i =
      o.Js (Fin.cast (hc.trans h1.symm) i) := by
    intro i
    unfold qrcpCol at h
    rw [dif_pos h2] at h
    simp only [bind, Except.bind] at h
    split at h
    · cases h
    · cases h; rfl
  simp only [hJ]
  apply List.ext_getElem
  · simp [hc, h1]
  · intro i h1 h2
    simp

/-- **C23** (agreement with OSID1): same sketcher, same generator state, same axis. -/
theorem C23_rocs1_eq_osid1 (la : LinAlg) (skOp : RowSketcher G) (A : Matrix (Fin m) (Fin n) ℝ)
    (k over : ℕ) (axis : ℤ) (w w' : World G) (o : IDOut m n)
    (h : (OSID1 la skOp).call A k over axis w = .ok (o, w')) :
    ∃ s, rocs1Call la skOp A k over axis w = .ok (s, w') ∧ s.indices = o.indices := by
  by_cases h0 : axis = 0
  · subst h0
    obtain ⟨r, h1, rfl⟩ := call_row.1 h
    obtain ⟨o', h2, rfl⟩ := osid1_row_ok.1 h1
    obtain ⟨Y, h3, h4⟩ := osid1_col_ok.1 h2
    rw [sketchCols_eq, transpose_transpose] at h3
    exact ⟨_, rocs1_row h3, qrcpCol_indices h4⟩
  · by_cases h1 : axis = 1
    · subst h1
      obtain ⟨r, h1, rfl⟩ := call_col.1 h
      obtain ⟨Y, h3, h4⟩ := osid1_col_ok.1 h1
      exact ⟨_, rocs1_col h3, qrcpCol_indices h4⟩
    · unfold OneSidedID.call at h
      rw [if_neg h0, if_neg h1] at h; cases h

/-- **C23** (agreement with OSID2). -/
theorem C23_rocs1_eq_osid2 (la : LinAlg) (skOp : RowSketcher G) (A : Matrix (Fin m) (Fin n) ℝ)
    (k over : ℕ) (axis : ℤ) (w w' : World G) (o : IDOut m n)
    (h : (OSID2 la skOp).call A k over axis w = .ok (o, w')) :
    ∃ s, rocs1Call la skOp A k over axis w = .ok (s, w') ∧ s.indices = o.indices := by
  by_cases h0 : axis = 0
  · subst h0
    obtain ⟨r, h1, rfl⟩ := call_row.1 h
    obtain ⟨o', h2, rfl⟩ := osid2_row_ok.1 h1
    obtain ⟨Y, h3, rfl⟩ := osid2_col_ok.1 h2
    rw [sketchCols_eq, transpose_transpose] at h3
    exact ⟨_, rocs1_row h3, rfl⟩
  · by_cases h1 : axis = 1
    · subst h1
      obtain ⟨r, h1, rfl⟩ := call_col.1 h
      obtain ⟨Y, h3, rfl⟩ := osid2_col_ok.1 h1
      exact ⟨_, rocs1_col h3, rfl⟩
    · unfold OneSidedID.call at h
      rw [if_neg h0, if_neg h1] at h; cases h

/-- **C23** (the indices): distinct, within the axis, `min(k, axis length)` of them. -/
theorem C23_rocs1_indices (la : LinAlg) (skOp : RowSketcher G) (A : Matrix (Fin m) (Fin n) ℝ)
    (k over : ℕ) (axis : ℤ) (w w' : World G) (s : SelOut m n)
    (h : rocs1Call la skOp A k over axis w = .ok (s, w')) :
    s.indices.Nodup ∧
      ((axis = 0 ∧ s.indices.length = min k m ∧ ∀ i ∈ s.indices, i < m) ∨
       (axis = 1 ∧ s.indices.length = min k n ∧ ∀ i ∈ s.indices, i < n)) := by
  unfold rocs1Call at h
  by_cases h0 : axis = 0
  · rw [if_pos h0, Py.bind_ok_iff] at h
    obtain ⟨Y, w1, h1, h2⟩ := h
    cases h2
    refine ⟨?_, Or.inl ⟨h0, ?_, ?_⟩⟩
    · exact List.nodup_ofFn.2 (Fin.val_injective.comp (pivots_injective la Y k))
    · simp [SelOut.indices, pivots]
    · intro i hi
      simp only [SelOut.indices, List.mem_ofFn] at hi
      obtain ⟨j, rfl⟩ := hi
      exact Fin.is_lt _
  · rw [if_neg h0] at h
    by_cases h1 : axis = 1
    · rw [if_pos h1, Py.bind_ok_iff] at h
      obtain ⟨Y, w1, h1', h2⟩ := h
      cases h2
      refine ⟨?_, Or.inr ⟨h1, ?_, ?_⟩⟩
      · exact List.nodup_ofFn.2 (Fin.val_injective.comp (pivots_injective la Y k))
      · simp [SelOut.indices, pivots]
      · intro i hi
        simp only [SelOut.indices, List.mem_ofFn] at hi
        obtain ⟨j, rfl⟩ := hi
        exact Fin.is_lt _
    · rw [if_neg h1] at h; cases h

/-- **C23** (other axes): `ValueError` from all three. -/
theorem C23_bad_axis (la : LinAlg) (skOp : RowSketcher G) (A : Matrix (Fin m) (Fin n) ℝ)
    (k over : ℕ) (axis : ℤ) (h0 : axis ≠ 0) (h1 : axis ≠ 1) (w : World G) :
    rocs1Call la skOp A k over axis w = .error .value ∧
    (OSID1 la skOp).call A k over axis w = .error .value ∧
    (OSID2 la skOp).call A k over axis w = .error .value := by
  refine ⟨?_, ?_, ?_⟩
  · unfold rocs1Call; rw [if_neg h0, if_neg h1]; rfl
  · unfold OneSidedID.call; rw [if_neg h0, if_neg h1]; rfl
  · unfold OneSidedID.call; rw [if_neg h0, if_neg h1]; rfl

/-! ## C24 -/

/-- drawing a sketching operator does not touch the data matrix -/
def Quiet (gauss : SkOpGen G) : Prop :=
  ∀ r c w S w', gauss r c w = .ok (S, w') → w'.trace = w.trace

theorem numPasses_append (a b : List Ev) : numPasses (a ++ b) = numPasses a + numPasses b := by
  simp only [numPasses, List.count_append]; omega

theorem rs1_passes {gauss : SkOpGen G} (hq : Quiet gauss) {la : LinAlg} {p : ℤ}
    {A : Matrix (Fin m) (Fin n) ℝ} {S : Cols n} {w w' : World G}
    (h : RS1 gauss p (orth la) 1 m n A k w = .ok (S, w')) :
    0 ≤ p ∧ (numPasses w'.trace : ℤ) = numPasses w.trace + p := by
  have hp : 0 ≤ p := (rs1Call_open h).1
  obtain ⟨w1, hg, ht⟩ := C03_rs1_schedule gauss p (orth la) 1 A k w w' S h
  have h1 : w1.trace = w.trace := by
    rcases hg with ⟨-, S0, hg⟩ | ⟨-, S0, hg⟩ <;> exact hq _ _ _ _ _ hg
  rw [ht, h1, numPasses_append]
  have := (C03_schedule_counts p.toNat 1).1
  refine ⟨hp, ?_⟩
  unfold numPasses at this ⊢
  omega

theorem sketchRows_passes {gauss : SkOpGen G} (hq : Quiet gauss) {la : LinAlg} {p : ℤ}
    {A : Matrix (Fin m) (Fin n) ℝ} {over : ℕ} {Y : Cols m} {w w' : World G}
    (h : sketchRows (RS1 gauss p (orth la) 1) A k over w = .ok (Y, w')) :
    0 ≤ p ∧ (numPasses w'.trace : ℤ) = numPasses w.trace + p + 1 := by
  obtain ⟨S, w1, h1, -, rfl⟩ := sketchRows_ok.1 h
  obtain ⟨h2, h3⟩ := rs1_passes hq h1
  refine ⟨h2, ?_⟩
  show ((numPasses (w1.trace ++ [Ev.mulA]) : ℕ) : ℤ) = _
  rw [numPasses_append]
  have : numPasses [Ev.mulA] = 1 := by decide
  omega

theorem osid1_call_passes {gauss : SkOpGen G} (hq : Quiet gauss) {la : LinAlg} {p : ℤ}
    {A : Matrix (Fin m) (Fin n) ℝ} {over : ℕ} {w w' : World G} :
    (∀ o, (OSID1 la (RS1 gauss p (orth la) 1)).row m n A k over w = .ok (o, w') →
      0 ≤ p ∧ (numPasses w'.trace : ℤ) = numPasses w.trace + p + 1) ∧
    (∀ o, (OSID1 la (RS1 gauss p (orth la) 1)).col m n A k over w = .ok (o, w') →
      0 ≤ p ∧ (numPasses w'.trace : ℤ) = numPasses w.trace + p + 1) := by
  constructor
  · intro o h
    obtain ⟨o', h2, -⟩ := osid1_row_ok.1 h
    obtain ⟨Y, h3, -⟩ := osid1_col_ok.1 h2
    exact sketchRows_passes hq h3
  · intro o h
    obtain ⟨Y, h3, -⟩ := osid1_col_ok.1 h
    exact sketchRows_passes hq h3

/-- **C24** (`rf1`): a returned call made exactly `num_pass` products with `A` / `A.T`. -/
theorem C24_rf1_passes (la : LinAlg) (gauss : SkOpGen G) (hq : Quiet gauss)
    (A : Matrix (Fin m) (Fin n) ℝ) (k p : ℤ) (w w' : World G) (Q : Cols m)
    (h : rf1 la gauss A k p w = .ok (Q, w')) :
    1 ≤ p ∧ (numPasses w'.trace : ℤ) = numPasses w.trace + p := by
  unfold rf1 rf1Call at h
  rw [Py.bind_ok_iff] at h; obtain ⟨_, w0, ha, h⟩ := h
  rw [Py.assert_ok_iff] at ha; obtain ⟨hk, rfl⟩ := ha
  rw [Py.bind_ok_iff] at h; obtain ⟨_, w0, ha, h⟩ := h
  rw [Py.assert_ok_iff] at ha; obtain ⟨hk', rfl⟩ := ha
  have h : (RS1 gauss (p - 1) (orth la) 1 m n A k.toNat >>= fun S => passA A S >>= fun Y =>
      pure ⟨_, (la.qr Y.mat).1⟩) (afterTolWarning (.val 0) w0) = .ok (Q, w') := h
  rw [Py.bind_ok_iff] at h; obtain ⟨S, w1, h1, h⟩ := h
  rw [Py.bind_ok_iff] at h; obtain ⟨Y, w2, h2, h⟩ := h
  obtain ⟨g1, g2⟩ := rs1_passes hq h1
  unfold passA at h2
  rw [Py.bind_eq_of_ok (Py.emit_apply _ _)] at h2
  cases h2
  cases h
  refine ⟨by omega, ?_⟩
  show ((numPasses (w1.trace ++ [Ev.mulA]) : ℕ) : ℤ) = _
  rw [numPasses_append, show numPasses [Ev.mulA] = 1 by decide]
  have : numPasses (afterTolWarning (.val 0) w0).trace = numPasses w0.trace := rfl
  omega

/-- **C24** (`qb`): exactly `num_passes` products, the last one being `Q.T @ A`. -/
theorem C24_qb_passes (la : LinAlg) (gauss : SkOpGen G) (hq : Quiet gauss)
    (A : Matrix (Fin m) (Fin n) ℝ) (k p : ℤ) (w w' : World G) (out : QBOut m n)
    (h : qb la gauss p A k w = .ok (out, w')) :
    2 ≤ p ∧ (numPasses w'.trace : ℤ) = numPasses w.trace + p := by
  unfold qb qb1Call at h
  rw [Py.bind_ok_iff] at h; obtain ⟨_, w0, ha, h⟩ := h
  rw [Py.assert_ok_iff] at ha; obtain ⟨hk, rfl⟩ := ha
  rw [Py.bind_ok_iff] at h; obtain ⟨_, w0, ha, h⟩ := h
  rw [Py.assert_ok_iff] at ha; obtain ⟨hk', rfl⟩ := ha
  rw [Py.bind_ok_iff] at h; obtain ⟨_, w0, ha, h⟩ := h
  cases ha
  rw [Py.bind_ok_iff] at h; obtain ⟨Q, w1, h1, h⟩ := h
  rw [Py.bind_eq_of_ok (Py.emit_apply _ _)] at h
  cases h
  unfold RF1 rf1Call at h1
  rw [Py.assert_pos_bind hk, Py.assert_pos_bind hk'] at h1
  have h1 : (RS1 gauss (p - 2) (orth la) 1 m n A k.toNat >>= fun S => passA A S >>= fun Y =>
      pure ⟨_, (la.qr Y.mat).1⟩) w0 = .ok (Q, w1) := h1
  rw [Py.bind_ok_iff] at h1; obtain ⟨S, w2, h2, h1⟩ := h1
  rw [Py.bind_ok_iff] at h1; obtain ⟨Y, w3, h3, h1⟩ := h1
  obtain ⟨g1, g2⟩ := rs1_passes hq h2
  unfold passA at h3
  rw [Py.bind_eq_of_ok (Py.emit_apply _ _)] at h3
  cases h3
  cases h1
  refine ⟨by omega, ?_⟩
  show ((numPasses ((w2.trace ++ [Ev.mulA]) ++ [Ev.mulAT]) : ℕ) : ℤ) = _
  rw [numPasses_append, numPasses_append, show numPasses [Ev.mulA] = 1 by decide,
    show numPasses [Ev.mulAT] = 1 by decide]
  omega

/-- **C24** (`osid1`, `osid2`, `rocs1`): exactly `p` products in the randomised part. -/
theorem C24_osid1_passes (la : LinAlg) (gauss : SkOpGen G) (hq : Quiet gauss)
    (A : Matrix (Fin m) (Fin n) ℝ) (k over : ℕ) (p axis : ℤ) (w w' : World G) (o : IDOut m n)
    (h : osid1 la gauss A k over p axis w = .ok (o, w')) :
    1 ≤ p ∧ (numPasses w'.trace : ℤ) = numPasses w.trace + p := by
  unfold osid1 at h
  have key : 0 ≤ p - 1 ∧ (numPasses w'.trace : ℤ) = numPasses w.trace + (p - 1) + 1 := by
    by_cases h0 : axis = 0
    · subst h0
      obtain ⟨r, h1, -⟩ := call_row.1 h
      exact (osid1_call_passes hq).1 _ h1
    · by_cases h1 : axis = 1
      · subst h1
        obtain ⟨r, h1, -⟩ := call_col.1 h
        exact (osid1_call_passes hq).2 _ h1
      · unfold OneSidedID.call at h
        rw [if_neg h0, if_neg h1] at h; cases h
  omega

theorem C24_rocs1_passes (la : LinAlg) (gauss : SkOpGen G) (hq : Quiet gauss)
    (A : Matrix (Fin m) (Fin n) ℝ) (k over : ℕ) (p axis : ℤ) (w w' : World G) (s : SelOut m n)
    (h : rocs1 la gauss A k over p axis w = .ok (s, w')) :
    1 ≤ p ∧ (numPasses w'.trace : ℤ) = numPasses w.trace + p := by
  unfold rocs1 rocs1Call at h
  have key : 0 ≤ p - 1 ∧ (numPasses w'.trace : ℤ) = numPasses w.trace + (p - 1) + 1 := by
    by_cases h0 : axis = 0
    · rw [if_pos h0, Py.bind_ok_iff] at h
      obtain ⟨Y, w1, h1, h2⟩ := h
      cases h2
      exact sketchRows_passes hq h1
    · by_cases h1 : axis = 1
      · rw [if_neg h0, if_pos h1, Py.bind_ok_iff] at h
        obtain ⟨Y, w1, h1, h2⟩ := h
        cases h2
        exact sketchRows_passes hq h1
      · rw [if_neg h0, if_neg h1] at h; cases h
  omega

theorem C24_osid2_passes (la : LinAlg) (gauss : SkOpGen G) (hq : Quiet gauss)
    (A : Matrix (Fin m) (Fin n) ℝ) (k over : ℕ) (p axis : ℤ) (w w' : World G) (o : IDOut m n)
    (h : osid2 la gauss A k over p axis w = .ok (o, w')) :
    1 ≤ p ∧ (numPasses w'.trace : ℤ) = numPasses w.trace + p := by
  obtain ⟨s, h1, -⟩ := C23_rocs1_eq_osid2 la _ A k over axis w w' o h
  exact C24_rocs1_passes la gauss hq A k over p axis w w' s h1

/-- **C24** (`tsid1`). -/
theorem C24_tsid1_passes (la : LinAlg) (gauss : SkOpGen G) (hq : Quiet gauss)
    (A : Matrix (Fin m) (Fin n) ℝ) (k over : ℕ) (p : ℤ) (w w' : World G) (o : TSIDOut m n)
    (h : tsid1 la gauss A k over p w = .ok (o, w')) :
    1 ≤ p ∧ (numPasses w'.trace : ℤ) = numPasses w.trace + p := by
  unfold tsid1 at h
  have key : 0 ≤ p - 1 ∧ (numPasses w'.trace : ℤ) = numPasses w.trace + (p - 1) + 1 := by
    by_cases hmn : m > n
    · exact (osid1_call_passes hq).2 _ ((tsid1_tall hmn).1 h).1
    · exact (osid1_call_passes hq).1 _ ((tsid1_wide hmn).1 h).1
  omega

/-- **C24** (`evd2`): exactly `num_passes` products. -/
theorem C24_evd2_passes (la : LinAlg) (gauss : SkOpGen G) (hq : Quiet gauss)
    (A : Matrix (Fin n) (Fin n) ℝ) (k : ℤ) (over : ℕ) (p : ℤ) (w w' : World G) (o : EVDOut n)
    (h : evd2 la gauss A k over p w = .ok (o, w')) :
    1 ≤ p ∧ (numPasses w'.trace : ℤ) = numPasses w.trace + p := by
  unfold evd2 evd2Call at h
  rw [Py.bind_ok_iff] at h; obtain ⟨_, w0, ha, h⟩ := h
  rw [Py.assert_ok_iff] at ha; obtain ⟨hp, rfl⟩ := ha
  rw [Py.bind_ok_iff] at h; obtain ⟨_, w0, ha, h⟩ := h
  rw [Py.assert_ok_iff] at ha; obtain ⟨hk, rfl⟩ := ha
  rw [Py.bind_ok_iff] at h; obtain ⟨_, w0, ha, h⟩ := h
  rw [Py.assert_ok_iff] at ha; obtain ⟨hk', rfl⟩ := ha
  have h : (RS1 gauss (p - 1) (orth la) 1 n n A (k + over).toNat >>= fun S =>
      (Py.emit .mulA : Py G Unit) >>= fun _ =>
      Py.lift (evd2Post la A k.toNat S)) w0 = .ok (o, w') := h
  rw [Py.bind_ok_iff] at h; obtain ⟨S, w1, h1, h⟩ := h
  obtain ⟨g1, g2⟩ := rs1_passes hq h1
  rw [Py.bind_eq_of_ok (Py.emit_apply _ _), Py.lift_ok_iff] at h
  obtain ⟨-, rfl⟩ := h
  refine ⟨by omega, ?_⟩
  show ((numPasses (w1.trace ++ [Ev.mulA]) : ℕ) : ℤ) = _
  rw [numPasses_append, show numPasses [Ev.mulA] = 1 by decide]
  omega

/-- **C24** (`cur1`; contrary to its documentation): a returned call made `p - 1` products; `p = 1`
is rejected. -/
theorem C24_cur1_passes (la : LinAlg) (gauss : SkOpGen G) (hq : Quiet gauss)
    (A : Matrix (Fin m) (Fin n) ℝ) (k over : ℕ) (p : ℤ) (w w' : World G) (o : CUROut m n)
    (h : cur1 la gauss A k over p w = .ok (o, w')) :
    2 ≤ p ∧ (numPasses w'.trace : ℤ) = numPasses w.trace + p - 1 := by
  unfold cur1 at h
  have key : 0 ≤ p - 2 ∧ (numPasses w'.trace : ℤ) = numPasses w.trace + (p - 2) + 1 := by
    by_cases hmn : m > n
    · obtain ⟨X, h1, -⟩ := (cur1_tall hmn).1 h
      exact (osid1_call_passes hq).2 _ h1
    · obtain ⟨X, h1, -⟩ := (cur1_wide hmn).1 h
      exact (osid1_call_passes hq).1 _ h1
  omega

theorem C24_cur1_rejects_one (la : LinAlg) (gauss : SkOpGen G) (A : Matrix (Fin m) (Fin n) ℝ)
    (k over : ℕ) (w : World G) : cur1 la gauss A k over 1 w = .error .assertion := by
  have hr : ∀ {a b : ℕ} (B : Matrix (Fin a) (Fin b) ℝ) c,
      RS1 gauss (1 - 2) (orth la) 1 a b B c w = .error .assertion := fun B c =>
    C03_rs1_rejects gauss _ _ _ B c w (by norm_num)
  unfold cur1 cur1Call
  split
  · rw [Py.bind_eq_of_error]
    show (sketchCols _ A k over >>= _) w = _
    rw [Py.bind_eq_of_error]
    unfold sketchCols
    rw [Py.bind_eq_of_error (hr _ _)]
  · rw [Py.bind_eq_of_error]
    show (sketchRows _ A k over >>= _) w = _
    rw [Py.bind_eq_of_error]
    unfold sketchRows
    rw [Py.bind_eq_of_error (hr _ _)]

-- non-vacuity of the C24 hypotheses: a quiet generator, and osid2 / cur1 that return
example (la : LinAlg) (w : World G) : ∃ gauss : SkOpGen G, Quiet gauss ∧
    (∃ o w', osid2 la gauss (Matrix.of ![![1, 2], ![3, 4], ![5, 6]]) 1 1 3 1 w = .ok (o, w')) := by
  refine ⟨fun r c => pure (Matrix.of fun i j => if i.1 = j.1 then 1 else 0), ?_, ?_⟩
  · intro r c w S w' h; cases h; rfl
  · have hr : ∃ S w1, RS1 (fun r c => pure (Matrix.of fun i j => if i.1 = j.1 then 1 else 0) : SkOpGen G)
        (3 - 1) (orth la) 1 2 3 (Matrix.of ![![1, 2], ![3, 4], ![5, 6]])ᵀ (1 + 1) w = .ok (S, w1) :=
      ⟨_, _, rfl⟩
    obtain ⟨o, w', h⟩ := (C20_osid2_returns la _ _ 1 1 w).1 hr
    exact ⟨_, w', h⟩

end Parla.Props
