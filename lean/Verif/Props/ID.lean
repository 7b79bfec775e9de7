import Verif.Proof.ID
import Verif.Props.QB2

/-! # Properties C18 – C23: interpolative decompositions -/

namespace Parla.Props

open Matrix Parla Spec

variable {G : Type} {m n k : ℕ}

/-! ## C18 -/

/-- a row ID as the transpose of a column ID -/
def RowID.ofCol (o : ColID m) : RowID m := ⟨o.c, o.Xᵀ, o.Js⟩

theorem qrcpRow_ok {la : LinAlg} {Y : Matrix (Fin m) (Fin n) ℝ} {o : RowID m} :
    qrcpRow la Y k = .ok o ↔ ∃ o', qrcpCol la Yᵀ k = .ok o' ∧ o = RowID.ofCol o' := by
  unfold qrcpRow
  simp only [bind, Except.bind]
  cases h : qrcpCol la Yᵀ k with
  | error e => simp
  | ok o' => simp [RowID.ofCol, eq_comm]

theorem qrcpRow_error {la : LinAlg} {Y : Matrix (Fin m) (Fin n) ℝ} {e : PyErr}
    (h : qrcpCol la Yᵀ k = .error e) : qrcpRow la Y k = .error e := by
  unfold qrcpRow
  simp only [bind, Except.bind]
  rw [h]

/-- **C18** (column ID).  A returned `(X, Js)` has exactly `k` distinct indices with an identity
at them, reproduces the skeleton columns, is optimal among all coefficient matrices for its
skeleton, its squared error is that of the trailing block (rows and columns `k` onwards) of the
pivoted triangular factor, and it is exact if `rank(Y) ≤ k`. -/
theorem C18_qrcp_column (la : LinAlg) (Y : Matrix (Fin m) (Fin n) ℝ) (k : ℕ) (out : IDOut m n)
    (h : qrcpOsid la Y k 1 = .ok out) :
    ∃ o : ColID n, out = .col o ∧ o.c = k ∧ IsColInterp o.X o.Js ∧
      (Y.submatrix id o.Js * o.X).submatrix id o.Js = Y.submatrix id o.Js ∧
      fro (Y - Y.submatrix id o.Js * o.X) ^ 2 =
        (∑ i : Fin (min m n), ∑ j : Fin n,
          if k ≤ i.1 ∧ k ≤ j.1 then (la.qrp Y).2.1 i j ^ 2 else 0) ∧
      (∀ X', fro (Y - Y.submatrix id o.Js * o.X) ≤ fro (Y - Y.submatrix id o.Js * X')) ∧
      (Y.rank ≤ k → Y.submatrix id o.Js * o.X = Y) := by
  unfold qrcpOsid at h
  rw [if_pos rfl] at h
  simp only [bind, Except.bind] at h
  cases hc : qrcpCol la Y k with
  | error e => rw [hc] at h; cases h
  | ok o =>
    rw [hc] at h; cases h
    obtain ⟨h1, -, -, h4, h5, -, h7, h8⟩ := qrcpCol_facts la hc
    refine ⟨o, rfl, h1, ⟨h4, h5⟩, ?_, ?_, fro_opt_of_normal h7, qrcpCol_exact la hc⟩
    · have : (Y.submatrix id o.Js * o.X).submatrix id o.Js =
          Y.submatrix id o.Js * o.X.submatrix id o.Js := by ext i j; simp [Matrix.mul_apply]
      rw [this, h5, Matrix.mul_one]
    · rw [fro_sq, h8]

/-- **C18** (row ID): the same for the transpose. -/
theorem C18_qrcp_row (la : LinAlg) (Y : Matrix (Fin m) (Fin n) ℝ) (k : ℕ) (out : IDOut m n)
    (h : qrcpOsid la Y k 0 = .ok out) :
    ∃ o : RowID m, out = .row o ∧ o.c = k ∧ IsRowInterp o.Z o.Is ∧
      (o.Z * Y.submatrix o.Is id).submatrix o.Is id = Y.submatrix o.Is id ∧
      fro (Y - o.Z * Y.submatrix o.Is id) ^ 2 =
        (∑ i : Fin (min n m), ∑ j : Fin m,
          if k ≤ i.1 ∧ k ≤ j.1 then (la.qrp Yᵀ).2.1 i j ^ 2 else 0) ∧
      (∀ Z' : Matrix (Fin m) (Fin o.c) ℝ, fro (Y - o.Z * Y.submatrix o.Is id) ≤ fro (Y - Z' * Y.submatrix o.Is id)) ∧
      (Y.rank ≤ k → o.Z * Y.submatrix o.Is id = Y) := by
  unfold qrcpOsid at h
  rw [if_neg (by norm_num), if_pos rfl] at h
  simp only [bind, Except.bind] at h
  cases hc : qrcpRow la Y k with
  | error e => rw [hc] at h; cases h
  | ok o =>
    rw [hc] at h; cases h
    obtain ⟨o', hc', rfl⟩ := qrcpRow_ok.1 hc
    obtain ⟨out', h2⟩ : ∃ out', qrcpOsid la Yᵀ k 1 = .ok out' := by
      unfold qrcpOsid
      rw [if_pos rfl, hc']
      exact ⟨_, rfl⟩
    obtain ⟨o2, rfl, g1, ⟨g2, g3⟩, g4, g5, g6, g7⟩ := C18_qrcp_column la Yᵀ k out' h2
    have : o2 = o' := by
      unfold qrcpOsid at h2
      rw [if_pos rfl, hc'] at h2
      simp only [bind, Except.bind] at h2
      cases h2; rfl
    subst this
    have tr : ∀ Z : Matrix (Fin m) (Fin o2.c) ℝ,
        (Yᵀ - Yᵀ.submatrix id o2.Js * Zᵀ) = (Y - Z * Y.submatrix o2.Js id)ᵀ := by
      intro Z
      rw [transpose_sub, transpose_mul, transpose_submatrix]
    have fr : ∀ M : Matrix (Fin m) (Fin n) ℝ, fro Mᵀ = fro M := fun M => by
      unfold fro; rw [froSq_transpose]
    refine ⟨RowID.ofCol o2, rfl, g1, ⟨g2, ?_⟩, ?_, ?_, ?_, ?_⟩
    · have := congrArg Matrix.transpose g3
      rwa [transpose_submatrix, transpose_one] at this
    · have := congrArg Matrix.transpose g4
      simp only [transpose_submatrix, transpose_mul, transpose_transpose] at this
      exact this
    · have e := tr o2.Xᵀ
      rw [transpose_transpose] at e
      rw [e, fr] at g5
      exact g5
    · intro (Z' : Matrix (Fin m) (Fin o2.c) ℝ)
      have e := tr o2.Xᵀ
      rw [transpose_transpose] at e
      have := g6 Z'ᵀ
      rw [e, fr, tr, fr] at this
      exact this
    · intro hr
      have := congrArg Matrix.transpose (g7 (by rwa [rank_transpose]))
      simp only [transpose_submatrix, transpose_mul, transpose_transpose] at this
      exact this

/-- **C18** (when it returns).  With `axis ∈ {0, 1}` the call returns iff `k ≤ rank(Y)`; it
raises `LinAlgError` (singular leading block) if `rank(Y) < k ≤ min(m, n)` and `ValueError` if `k`
exceeds a dimension; any other axis raises `ValueError`. -/
theorem C18_qrcp_outcome (la : LinAlg) (Y : Matrix (Fin m) (Fin n) ℝ) (k : ℕ) (axis : ℤ) :
    ((axis = 0 ∨ axis = 1) → k ≤ Y.rank → ∃ out, qrcpOsid la Y k axis = .ok out) ∧
    ((axis = 0 ∨ axis = 1) → Y.rank < k → k ≤ min m n → qrcpOsid la Y k axis = .error .linAlg) ∧
    ((axis = 0 ∨ axis = 1) → min m n < k → qrcpOsid la Y k axis = .error .value) ∧
    (axis ≠ 0 → axis ≠ 1 → qrcpOsid la Y k axis = .error .value) := by
  obtain ⟨c1, c2, c3⟩ := qrcpCol_cases la Y k
  obtain ⟨r1, r2, r3⟩ := qrcpCol_cases la Yᵀ k
  rw [rank_transpose, min_comm] at r2
  rw [rank_transpose] at r1
  rw [min_comm] at r3
  have e0 : qrcpOsid la Y k 0 = (qrcpRow la Y k >>= fun o => .ok (.row o)) := by
    unfold qrcpOsid; rw [if_neg (by norm_num), if_pos rfl]
  have e1 : qrcpOsid la Y k 1 = (qrcpCol la Y k >>= fun o => .ok (.col o)) := by
    unfold qrcpOsid; rw [if_pos rfl]
  refine ⟨?_, ?_, ?_, ?_⟩
  · rintro (rfl | rfl) hk
    · obtain ⟨o, ho⟩ := r1 hk
      rw [e0, qrcpRow_ok.2 ⟨o, ho, rfl⟩]; exact ⟨_, rfl⟩
    · obtain ⟨o, ho⟩ := c1 hk
      rw [e1, ho]; exact ⟨_, rfl⟩
  · rintro (rfl | rfl) h1 h2
    · rw [e0, qrcpRow_error (r2 h1 h2)]; rfl
    · rw [e1, c2 h1 h2]; rfl
  · rintro (rfl | rfl) h1
    · rw [e0, qrcpRow_error (r3 h1)]; rfl
    · rw [e1, c3 h1]; rfl
  · intro h0 h1
    unfold qrcpOsid
    rw [if_neg h1, if_neg h0]

-- k = 1 ≤ rank for a nonzero 2×3 matrix, so C18 applies to it (both axes)
example (la : LinAlg) : ∃ out, qrcpOsid la (Matrix.of ![![1, 2, 3], ![4, 5, 6]] :
    Matrix (Fin 2) (Fin 3) ℝ) 1 1 = .ok out := by
  refine (C18_qrcp_outcome la _ 1 1).1 (Or.inr rfl) ?_
  rw [Nat.one_le_iff_ne_zero]
  intro h
  have h2 : LinearMap.range (Matrix.of ![![1, 2, 3], ![4, 5, 6]] :
      Matrix (Fin 2) (Fin 3) ℝ).mulVecLin = ⊥ := Submodule.finrank_eq_zero.1 h
  rw [LinearMap.range_eq_bot] at h2
  have := congrFun (congrArg (fun f => f (Pi.single 0 1)) h2) 0
  simp at this

/-! ## C19 -/

theorem sketchRows_ok {skOp : RowSketcher G} {A : Matrix (Fin m) (Fin n) ℝ} {over : ℕ}
    {w w' : World G} {Y : Cols m} :
    sketchRows skOp A k over w = .ok (Y, w') ↔ ∃ S w1, skOp m n A (k + over) w = .ok (S, w1) ∧
      Y = ⟨S.c, A * S.mat⟩ ∧ w' = { w1 with trace := w1.trace ++ [.mulA] } := by
  unfold sketchRows
  rw [Py.bind_ok_iff]
  constructor
  · rintro ⟨S, w1, h1, h2⟩
    refine ⟨S, w1, h1, ?_⟩
    unfold passA at h2
    rw [Py.bind_eq_of_ok (Py.emit_apply _ _)] at h2
    cases h2; exact ⟨rfl, rfl⟩
  · rintro ⟨S, w1, h1, rfl, rfl⟩
    exact ⟨S, w1, h1, rfl⟩

theorem sketchCols_eq {skOp : RowSketcher G} {A : Matrix (Fin m) (Fin n) ℝ} {over : ℕ} :
    sketchCols skOp A k over = sketchRows skOp Aᵀ k over := rfl

theorem osid1_col_ok {la : LinAlg} {skOp : RowSketcher G} {A : Matrix (Fin m) (Fin n) ℝ} {over : ℕ}
    {w w' : World G} {o : ColID n} :
    (OSID1 la skOp).col m n A k over w = .ok (o, w') ↔
      ∃ Yt, sketchCols skOp A k over w = .ok (Yt, w') ∧ qrcpCol la Yt.matᵀ k = .ok o := by
  show (sketchCols skOp A k over >>= fun Yt => Py.lift (qrcpCol la Yt.matᵀ k)) w = _ ↔ _
  rw [Py.bind_ok_iff]
  constructor
  · rintro ⟨Y, w1, h1, h2⟩
    rw [Py.lift_ok_iff] at h2
    obtain ⟨h2, rfl⟩ := h2
    exact ⟨Y, h1, h2⟩
  · rintro ⟨Y, h1, h2⟩
    exact ⟨Y, w', h1, Py.lift_ok_iff.2 ⟨h2, rfl⟩⟩

/-- A row ID of `A` is the transpose of a column ID of `A'`. -/
theorem osid1_row_ok {la : LinAlg} {skOp : RowSketcher G} {A : Matrix (Fin m) (Fin n) ℝ} {over : ℕ}
    {w w' : World G} {o : RowID m} :
    (OSID1 la skOp).row m n A k over w = .ok (o, w') ↔
      ∃ o', (OSID1 la skOp).col n m Aᵀ k over w = .ok (o', w') ∧ o = RowID.ofCol o' := by
  show (sketchRows skOp A k over >>= fun Y => Py.lift (qrcpRow la Y.mat k)) w = _ ↔ _
  rw [Py.bind_ok_iff]
  constructor
  · rintro ⟨Y, w1, h1, h2⟩
    rw [Py.lift_ok_iff] at h2
    obtain ⟨h2, rfl⟩ := h2
    obtain ⟨o', h3, h4⟩ := qrcpRow_ok.1 h2
    refine ⟨o', osid1_col_ok.2 ⟨Y, ?_, h3⟩, h4⟩
    rw [sketchCols_eq, transpose_transpose]; exact h1
  · rintro ⟨o', h1, h2⟩
    obtain ⟨Y, h3, h4⟩ := osid1_col_ok.1 h1
    rw [sketchCols_eq, transpose_transpose] at h3
    exact ⟨Y, w', h3, Py.lift_ok_iff.2 ⟨qrcpRow_ok.2 ⟨o', h4, h2⟩, rfl⟩⟩

theorem osid1_col_interp {la : LinAlg} {skOp : RowSketcher G} {A : Matrix (Fin m) (Fin n) ℝ} {over : ℕ}
    {w w' : World G} {o : ColID n} (h : (OSID1 la skOp).col m n A k over w = .ok (o, w')) :
    o.c = k ∧ IsColInterp o.X o.Js ∧
      (A.submatrix id o.Js * o.X).submatrix id o.Js = A.submatrix id o.Js := by
  obtain ⟨Y, -, h2⟩ := osid1_col_ok.1 h
  obtain ⟨h1, -, -, h4, h5, -⟩ := qrcpCol_facts la h2
  refine ⟨h1, ⟨h4, h5⟩, ?_⟩
  have : (A.submatrix id o.Js * o.X).submatrix id o.Js =
      A.submatrix id o.Js * o.X.submatrix id o.Js := by ext i j; simp [Matrix.mul_apply]
  rw [this, h5, Matrix.mul_one]

theorem call_row {osid : OneSidedID G} {A : Matrix (Fin m) (Fin n) ℝ} {over : ℕ} {w w' : World G}
    {out : IDOut m n} : osid.call A k over 0 w = .ok (out, w') ↔
      ∃ o, osid.row m n A k over w = .ok (o, w') ∧ out = .row o := by
  unfold OneSidedID.call
  rw [if_pos rfl, Py.bind_ok_iff]
  constructor
  · rintro ⟨o, w1, h1, h2⟩; cases h2; exact ⟨o, h1, rfl⟩
  · rintro ⟨o, h1, rfl⟩; exact ⟨o, w', h1, rfl⟩

theorem call_col {osid : OneSidedID G} {A : Matrix (Fin m) (Fin n) ℝ} {over : ℕ} {w w' : World G}
    {out : IDOut m n} : osid.call A k over 1 w = .ok (out, w') ↔
      ∃ o, osid.col m n A k over w = .ok (o, w') ∧ out = .col o := by
  unfold OneSidedID.call
  rw [if_neg (by norm_num), if_pos rfl, Py.bind_ok_iff]
  constructor
  · rintro ⟨o, w1, h1, h2⟩; cases h2; exact ⟨o, h1, rfl⟩
  · rintro ⟨o, h1, rfl⟩; exact ⟨o, w', h1, rfl⟩

/-- **C19** (columns).  OSID1's column ID has `k` distinct skeleton indices, an identity at them,
and reproduces the skeleton columns of `A` exactly. -/
theorem C19_osid1_column (la : LinAlg) (skOp : RowSketcher G) (A : Matrix (Fin m) (Fin n) ℝ)
    (k over : ℕ) (w w' : World G) (out : IDOut m n)
    (h : (OSID1 la skOp).call A k over 1 w = .ok (out, w')) :
    ∃ o, out = .col o ∧ o.c = k ∧ IsColInterp o.X o.Js ∧
      (A.submatrix id o.Js * o.X).submatrix id o.Js = A.submatrix id o.Js := by
  obtain ⟨o, h1, rfl⟩ := call_col.1 h
  exact ⟨o, rfl, osid1_col_interp h1⟩

/-- **C19** (rows). -/
theorem C19_osid1_row (la : LinAlg) (skOp : RowSketcher G) (A : Matrix (Fin m) (Fin n) ℝ)
    (k over : ℕ) (w w' : World G) (out : IDOut m n)
    (h : (OSID1 la skOp).call A k over 0 w = .ok (out, w')) :
    ∃ o, out = .row o ∧ o.c = k ∧ IsRowInterp o.Z o.Is ∧
      (o.Z * A.submatrix o.Is id).submatrix o.Is id = A.submatrix o.Is id := by
  obtain ⟨o, h1, rfl⟩ := call_row.1 h
  obtain ⟨o', h2, rfl⟩ := osid1_row_ok.1 h1
  obtain ⟨g1, ⟨g2, g3⟩, g4⟩ := osid1_col_interp h2
  refine ⟨_, rfl, g1, ⟨g2, ?_⟩, ?_⟩
  · have := congrArg Matrix.transpose g3
    rwa [transpose_submatrix, transpose_one] at this
  · have := congrArg Matrix.transpose g4
    simp only [transpose_submatrix, transpose_mul, transpose_transpose] at this
    exact this

theorem osid1_col_exact (la : LinAlg) (skOp : RowSketcher G) (A : Matrix (Fin m) (Fin n) ℝ)
    (k over : ℕ) (w w1 : World G) (S : Cols m) (hS : skOp n m Aᵀ (k + over) w = .ok (S, w1))
    (hsp : colSpace (Aᵀ * S.mat) = colSpace Aᵀ) (hr : A.rank = k) :
    ∃ o w', (OSID1 la skOp).col m n A k over w = .ok (o, w') ∧ A.submatrix id o.Js * o.X = A := by
  have hrY : ((Aᵀ * S.mat)ᵀ).rank = k := by
    rw [rank_transpose, ← finrank_colSpace, hsp, finrank_colSpace, rank_transpose, hr]
  obtain ⟨o, ho⟩ := (qrcpCol_cases la (Aᵀ * S.mat)ᵀ k).1 hrY.ge
  refine ⟨o, { w1 with trace := w1.trace ++ [.mulA] },
    osid1_col_ok.2 ⟨⟨S.c, Aᵀ * S.mat⟩, ?_, ho⟩, ?_⟩
  · rw [sketchCols_eq, sketchRows_ok]; exact ⟨S, w1, hS, rfl, rfl⟩
  · have hex := qrcpCol_exact la ho hrY.le
    obtain ⟨W, hW⟩ := colSpace_le_iff.1 hsp.ge
    have hA : A = Wᵀ * (Aᵀ * S.mat)ᵀ := by
      have := congrArg Matrix.transpose hW
      rwa [transpose_transpose, transpose_mul (Aᵀ * S.mat) W] at this
    have e : A.submatrix id o.Js = Wᵀ * (Aᵀ * S.mat)ᵀ.submatrix id o.Js := by
      conv_lhs => rw [hA]
      ext i j; simp [Matrix.mul_apply]
    rw [e, Matrix.mul_assoc, hex]
    exact hA.symm

/-- **C19** (exactness, columns): if the sketch `Sk' A` kept the row space of `A` and that space
has dimension `k`, OSID1 returns and the decomposition reproduces `A`. -/
theorem C19_osid1_column_exact (la : LinAlg) (skOp : RowSketcher G) (A : Matrix (Fin m) (Fin n) ℝ)
    (k over : ℕ) (w w1 : World G) (S : Cols m) (hS : skOp n m Aᵀ (k + over) w = .ok (S, w1))
    (hsp : colSpace (Aᵀ * S.mat) = colSpace Aᵀ) (hr : A.rank = k) :
    ∃ o w', (OSID1 la skOp).call A k over 1 w = .ok (.col o, w') ∧
      A.submatrix id o.Js * o.X = A := by
  obtain ⟨o, w', h1, h2⟩ := osid1_col_exact la skOp A k over w w1 S hS hsp hr
  exact ⟨o, w', call_col.2 ⟨o, h1, rfl⟩, h2⟩

/-- **C19** (exactness, rows): if the sketch `A Sk` kept the column space of `A`. -/
theorem C19_osid1_row_exact (la : LinAlg) (skOp : RowSketcher G) (A : Matrix (Fin m) (Fin n) ℝ)
    (k over : ℕ) (w w1 : World G) (S : Cols n) (hS : skOp m n A (k + over) w = .ok (S, w1))
    (hsp : colSpace (A * S.mat) = colSpace A) (hr : A.rank = k) :
    ∃ o w', (OSID1 la skOp).call A k over 0 w = .ok (.row o, w') ∧
      o.Z * A.submatrix o.Is id = A := by
  obtain ⟨o, w', h1, h2⟩ := osid1_col_exact la skOp Aᵀ k over w w1 S
    (by rw [transpose_transpose]; exact hS) (by rw [transpose_transpose]; exact hsp)
    (by rw [rank_transpose, hr])
  refine ⟨_, w', call_row.2 ⟨_, osid1_row_ok.2 ⟨o, h1, rfl⟩, rfl⟩, ?_⟩
  have := congrArg Matrix.transpose h2
  simp only [transpose_submatrix, transpose_mul, transpose_transpose] at this
  exact this

-- non-vacuity: the full coordinate sketch keeps any row space; a rank-1 matrix with k = 1
example (w : World G) : ∃ (A : Matrix (Fin 2) (Fin 3) ℝ) (S : Cols 2) (w1 : World G),
    (coordSketcher (G := G)) 3 2 Aᵀ (1 + 1) w = .ok (S, w1) ∧
    colSpace (Aᵀ * S.mat) = colSpace Aᵀ ∧ A.rank = 1 := by
  refine ⟨Matrix.of fun _ _ => 1, _, _, rfl, ?_, ?_⟩
  · have : (Matrix.of fun (i : Fin 2) (j : Fin (1 + 1)) => if i.1 = j.1 then (1 : ℝ) else 0) =
        (1 : Matrix (Fin 2) (Fin 2) ℝ) := by
      ext i j; simp [Matrix.one_apply, Fin.ext_iff]
    rw [this, Matrix.mul_one]
  · apply le_antisymm
    · have : (Matrix.of fun (_ : Fin 2) (_ : Fin 3) => (1 : ℝ)) =
          (Matrix.of fun (_ : Fin 2) (_ : Fin 1) => (1 : ℝ)) *
            (Matrix.of fun (_ : Fin 1) (_ : Fin 3) => (1 : ℝ)) := by
        ext i j; simp [Matrix.mul_apply]
      rw [this]
      exact (Matrix.rank_mul_le_left _ _).trans (rank_le_width' _)
    · rw [Nat.one_le_iff_ne_zero]
      intro h
      have h2 := Submodule.finrank_eq_zero.1 h
      rw [LinearMap.range_eq_bot] at h2
      have := congrFun (congrArg (fun f => f (Pi.single 0 1)) h2) 0
      simp at this

/-! ## C20 -/

theorem osid2_col_ok {la : LinAlg} {skOp : RowSketcher G} {A : Matrix (Fin m) (Fin n) ℝ} {over : ℕ}
    {w w' : World G} {o : ColID n} :
    (OSID2 la skOp).col m n A k over w = .ok (o, w') ↔
      ∃ Yt, sketchCols skOp A k over w = .ok (Yt, w') ∧
        o = ⟨(pivots la Yt k).c, la.lstsq (A.submatrix id (pivots la Yt k).idx) A,
          (pivots la Yt k).idx⟩ := by
  show (sketchCols skOp A k over >>= fun Yt => pure _) w = _ ↔ _
  rw [Py.bind_ok_iff]
  constructor
  · rintro ⟨Y, w1, h1, h2⟩; cases h2; exact ⟨Y, h1, rfl⟩
  · rintro ⟨Y, h1, rfl⟩; exact ⟨Y, w', h1, rfl⟩

theorem osid2_row_ok {la : LinAlg} {skOp : RowSketcher G} {A : Matrix (Fin m) (Fin n) ℝ} {over : ℕ}
    {w w' : World G} {o : RowID m} :
    (OSID2 la skOp).row m n A k over w = .ok (o, w') ↔
      ∃ o', (OSID2 la skOp).col n m Aᵀ k over w = .ok (o', w') ∧ o = RowID.ofCol o' := by
  show (sketchRows skOp A k over >>= fun Y => pure _) w = _ ↔ _
  rw [Py.bind_ok_iff]
  constructor
  · rintro ⟨Y, w1, h1, h2⟩
    cases h2
    refine ⟨_, osid2_col_ok.2 ⟨Y, ?_, rfl⟩, rfl⟩
    rw [sketchCols_eq, transpose_transpose]; exact h1
  · rintro ⟨o', h1, rfl⟩
    obtain ⟨Y, h3, rfl⟩ := osid2_col_ok.1 h1
    rw [sketchCols_eq, transpose_transpose] at h3
    exact ⟨Y, w', h3, rfl⟩

theorem pivots_injective (la : LinAlg) {r : ℕ} (Y : Cols r) (k : ℕ) :
    Function.Injective (pivots la Y k).idx :=
  (la.qrp Y.matᵀ).2.2.injective.comp (takeIdx_injective _ _)

/-- the least-squares solution satisfies the normal equations -/
theorem lstsq_resid (la : LinAlg) {p : ℕ} (M : Matrix (Fin m) (Fin k) ℝ) (B : Matrix (Fin m) (Fin p) ℝ) :
    Mᵀ * (B - M * la.lstsq M B) = 0 := by
  rw [Matrix.mul_sub, la.lstsq_normal, sub_self]

theorem osid2_col_facts {la : LinAlg} {skOp : RowSketcher G} {A : Matrix (Fin m) (Fin n) ℝ} {over : ℕ}
    {w w' : World G} {o : ColID n} (h : (OSID2 la skOp).col m n A k over w = .ok (o, w')) :
    o.c = min k n ∧ Function.Injective o.Js ∧
      (∀ X', fro (A - A.submatrix id o.Js * o.X) ≤ fro (A - A.submatrix id o.Js * X')) ∧
      (A.submatrix id o.Js * o.X).submatrix id o.Js = A.submatrix id o.Js := by
  obtain ⟨Y, -, rfl⟩ := osid2_col_ok.1 h
  refine ⟨rfl, pivots_injective la Y k, fro_opt_of_normal (lstsq_resid la _ _), ?_⟩
  set f := (pivots la Y k).idx
  set M := A.submatrix id f
  have h1 := lstsq_resid la M A
  have h2 : Mᵀ * (M - M * (la.lstsq M A).submatrix id f) = 0 := by
    have := congrArg (fun Z => Z.submatrix id f) h1
    rw [show (Mᵀ * (A - M * la.lstsq M A)).submatrix id f =
      Mᵀ * (M - M * (la.lstsq M A).submatrix id f) by ext i j; simp [Matrix.mul_apply, M]] at this
    rw [this]; rfl
  have h3 := exact_of_normal h2 le_rfl
  show (M * la.lstsq M A).submatrix id f = M
  refine Eq.trans ?_ h3
  ext i j
  simp [Matrix.mul_apply]

/-- **C20** (columns).  OSID2 returns `min(k, n)` distinct column indices and coefficients `X`
minimising `‖A - A[:, Js] X‖_F` over all `X`, reproducing the skeleton exactly. -/
theorem C20_osid2_column (la : LinAlg) (skOp : RowSketcher G) (A : Matrix (Fin m) (Fin n) ℝ)
    (k over : ℕ) (w w' : World G) (out : IDOut m n)
    (h : (OSID2 la skOp).call A k over 1 w = .ok (out, w')) :
    ∃ o, out = .col o ∧ o.c = min k n ∧ Function.Injective o.Js ∧
      (∀ X', fro (A - A.submatrix id o.Js * o.X) ≤ fro (A - A.submatrix id o.Js * X')) ∧
      (A.submatrix id o.Js * o.X).submatrix id o.Js = A.submatrix id o.Js := by
  obtain ⟨o, h1, rfl⟩ := call_col.1 h
  exact ⟨o, rfl, osid2_col_facts h1⟩

/-- **C20** (rows). -/
theorem C20_osid2_row (la : LinAlg) (skOp : RowSketcher G) (A : Matrix (Fin m) (Fin n) ℝ)
    (k over : ℕ) (w w' : World G) (out : IDOut m n)
    (h : (OSID2 la skOp).call A k over 0 w = .ok (out, w')) :
    ∃ o, out = .row o ∧ o.c = min k m ∧ Function.Injective o.Is ∧
      (∀ Z' : Matrix (Fin m) (Fin o.c) ℝ, fro (A - o.Z * A.submatrix o.Is id) ≤ fro (A - Z' * A.submatrix o.Is id)) ∧
      (o.Z * A.submatrix o.Is id).submatrix o.Is id = A.submatrix o.Is id := by
  obtain ⟨o, h1, rfl⟩ := call_row.1 h
  obtain ⟨o', h2, rfl⟩ := osid2_row_ok.1 h1
  obtain ⟨g1, g2, g3, g4⟩ := osid2_col_facts h2
  have fr : ∀ M : Matrix (Fin m) (Fin n) ℝ, fro Mᵀ = fro M := fun M => by
    unfold fro; rw [froSq_transpose]
  refine ⟨_, rfl, g1, g2, ?_, ?_⟩
  · intro (Z' : Matrix (Fin m) (Fin o'.c) ℝ)
    have tr : ∀ Z : Matrix (Fin m) (Fin o'.c) ℝ,
        (Aᵀ - Aᵀ.submatrix id o'.Js * Zᵀ) = (A - Z * A.submatrix o'.Js id)ᵀ := by
      intro Z; rw [transpose_sub, transpose_mul, transpose_submatrix]
    have e := tr o'.Xᵀ
    rw [transpose_transpose] at e
    have := g3 Z'ᵀ
    rw [e, fr, tr, fr] at this
    exact this
  · have := congrArg Matrix.transpose g4
    simp only [transpose_submatrix, transpose_mul, transpose_transpose] at this
    exact this

/-- **C20** (returns): OSID2 returns whenever its sketcher does. -/
theorem C20_osid2_returns (la : LinAlg) (skOp : RowSketcher G) (A : Matrix (Fin m) (Fin n) ℝ)
    (k over : ℕ) (w : World G) :
    ((∃ S w1, skOp n m Aᵀ (k + over) w = .ok (S, w1)) →
      ∃ o w', (OSID2 la skOp).call A k over 1 w = .ok (.col o, w')) ∧
    ((∃ S w1, skOp m n A (k + over) w = .ok (S, w1)) →
      ∃ o w', (OSID2 la skOp).call A k over 0 w = .ok (.row o, w')) := by
  constructor
  · rintro ⟨S, w1, h⟩
    refine ⟨_, { w1 with trace := w1.trace ++ [.mulA] },
      call_col.2 ⟨_, osid2_col_ok.2 ⟨⟨S.c, Aᵀ * S.mat⟩, ?_, rfl⟩, rfl⟩⟩
    rw [sketchCols_eq, sketchRows_ok]; exact ⟨S, w1, h, rfl, rfl⟩
  · rintro ⟨S, w1, h⟩
    refine ⟨_, { w1 with trace := w1.trace ++ [.mulA] },
      call_row.2 ⟨_, osid2_row_ok.2 ⟨_, osid2_col_ok.2 ⟨⟨S.c, A * S.mat⟩, ?_, rfl⟩, rfl⟩, rfl⟩⟩
    rw [sketchCols_eq, transpose_transpose, sketchRows_ok]; exact ⟨S, w1, h, rfl, rfl⟩

end Parla.Props
