import Verif.Model.Aware

/-! # Model of parla/comps/interpolative.py and parla/drivers/interpolative.py

Data matrices are dense arrays; `k` and `over` are natural numbers.  An index array of length `c`
into an axis of length `n` is a function `Fin c → Fin n`. -/

namespace Parla

open Matrix

variable {G : Type}

/-- `(Z, Is)` of a row ID: `Z.shape = (m, c)`, `Is.shape = (c,)`. -/
structure RowID (m : ℕ) where
  c : ℕ
  Z : Matrix (Fin m) (Fin c) ℝ
  Is : Fin c → Fin m

/-- `(X, Js)` of a column ID: `X.shape = (c, n)`, `Js.shape = (c,)`. -/
structure ColID (n : ℕ) where
  c : ℕ
  X : Matrix (Fin c) (Fin n) ℝ
  Js : Fin c → Fin n

/-- An index array of length `c` into an axis of length `n`. -/
structure Skel (n : ℕ) where
  c : ℕ
  idx : Fin c → Fin n

/-- The `(coefficients, indices)` pair returned by a one-sided ID: a row ID or a column ID. -/
inductive IDOut (m n : ℕ) where
  | row (o : RowID m)
  | col (o : ColID n)

/-- The index array returned by row/column selection. -/
inductive SelOut (m n : ℕ) where
  | row (o : Skel m)
  | col (o : Skel n)

/-- `np.hstack((np.eye(k), T))` of shape `(k, n)` where `T.shape = (k, n - k)`
(parla/comps/interpolative.py:57). -/
def eyeStack {k n : ℕ} (T : Matrix (Fin k) (Fin (n - k)) ℝ) : Matrix (Fin k) (Fin n) ℝ :=
  Matrix.of fun i j => if h : j.1 < k then (if i.1 = j.1 then 1 else 0) else T i ⟨j.1 - k, by omega⟩

/-- The branch `axis == 1` of `qrcp_osid` (parla/comps/interpolative.py:50-60).
`X[:, J] = H` puts column `j` of `H` at column `J[j]`, i.e. column `l` of `X` is column
`J⁻¹[l]` of `H`.  If `k` exceeds either dimension the slices are not conformable and
NumPy/SciPy raise `ValueError`.  (Simplification: the check of the diagonal in `solve_triangular`
is made also when `S[:k, k:]` is empty, which SciPy versions treat differently.) -/
noncomputable def qrcpCol (la : LinAlg) {m n : ℕ} (Y : Matrix (Fin m) (Fin n) ℝ) (k : ℕ) :
    Except PyErr (ColID n) :=
  if h : k ≤ min m n then do
    let S := (la.qrp Y).2.1
    let J := (la.qrp Y).2.2
    let lead : Matrix (Fin k) (Fin k) ℝ :=
      S.submatrix (Fin.castLE h) (Fin.castLE (h.trans (min_le_right m n)))
    let trail : Matrix (Fin k) (Fin (n - k)) ℝ :=
      S.submatrix (Fin.castLE h) (fun j => ⟨k + j.1, by omega⟩)
    let T ← solveUpper lead trail
    .ok ⟨k, (eyeStack T).submatrix id J.symm,
      J ∘ Fin.castLE (h.trans (min_le_right m n))⟩
  else .error .value

/-- The branch `axis == 0` of `qrcp_osid` (parla/comps/interpolative.py:61-65). -/
noncomputable def qrcpRow (la : LinAlg) {m n : ℕ} (Y : Matrix (Fin m) (Fin n) ℝ) (k : ℕ) :
    Except PyErr (RowID m) := do
  let o ← qrcpCol la Yᵀ k
  .ok ⟨o.c, o.Xᵀ, o.Js⟩

/-- `qrcp_osid(Y, k, axis)`: parla/comps/interpolative.py:11-67. -/
noncomputable def qrcpOsid (la : LinAlg) {m n : ℕ} (Y : Matrix (Fin m) (Fin n) ℝ) (k : ℕ)
    (axis : ℤ) : Except PyErr (IDOut m n) :=
  if axis = 1 then do
    let o ← qrcpCol la Y k
    .ok (.col o)
  else if axis = 0 then do
    let o ← qrcpRow la Y k
    .ok (.row o)
  else .error .value

/-- The sketch of the row-ID branches: `Sk = self.sk_op(A, k + over, rng); Y = A @ Sk`
(parla/drivers/interpolative.py:112-113, 161-162, parla/comps/interpolative.py:144-145). -/
def sketchRows (skOp : RowSketcher G) {m n : ℕ} (A : Matrix (Fin m) (Fin n) ℝ) (k over : ℕ) :
    Py G (Cols m) := do
  let Sk ← skOp m n A (k + over)
  passA A Sk

/-- The sketch of the column-ID branches, transposed: `Sk = self.sk_op(A.T, k + over, rng).T;
Y = Sk @ A` (parla/drivers/interpolative.py:118-119, 169-170,
parla/comps/interpolative.py:151-152); returns `Y.T`. -/
def sketchCols (skOp : RowSketcher G) {m n : ℕ} (A : Matrix (Fin m) (Fin n) ℝ) (k over : ℕ) :
    Py G (Cols n) := do
  let Sk ← skOp n m Aᵀ (k + over)
  passA Aᵀ Sk

/-- `_, _, J = la.qr(Y, mode='economic', pivoting=True); J[:k]`, with `Y` given transposed
(parla/comps/interpolative.py:146-147, 153-154, parla/drivers/interpolative.py:163-164, 171-172). -/
def pivots (la : LinAlg) {n : ℕ} (Yt : Cols n) (k : ℕ) : Skel n :=
  ⟨min k n, takev k (la.qrp Yt.matᵀ).2.2⟩

/-- `ROCS1.__call__`: parla/comps/interpolative.py:139-157. -/
def rocs1Call (la : LinAlg) (skOp : RowSketcher G) {m n : ℕ} (A : Matrix (Fin m) (Fin n) ℝ)
    (k over : ℕ) (axis : ℤ) : Py G (SelOut m n) :=
  if axis = 0 then do
    let Y ← sketchRows skOp A k over
    pure (.row (pivots la Y k))
  else if axis = 1 then do
    let Y ← sketchCols skOp A k over
    pure (.col (pivots la Y k))
  else Py.raise .value

/-- `rocs1(A, k, over, p, axis, rng)`: parla/comps/interpolative.py:122-128. -/
def rocs1 (la : LinAlg) (gauss : SkOpGen G) {m n : ℕ} (A : Matrix (Fin m) (Fin n) ℝ)
    (k over : ℕ) (p : ℤ) (axis : ℤ) : Py G (SelOut m n) :=
  rocs1Call la (RS1 gauss (p - 1) (orth la) 1) A k over axis

/-- A `OneSidedID` object (parla/drivers/interpolative.py:10-75), as its calls with `axis=0` and
`axis=1`. -/
structure OneSidedID (G : Type) where
  row : ∀ m n : ℕ, Matrix (Fin m) (Fin n) ℝ → ℕ → ℕ → Py G (RowID m)
  col : ∀ m n : ℕ, Matrix (Fin m) (Fin n) ℝ → ℕ → ℕ → Py G (ColID n)

/-- Dispatch on `axis` (parla/drivers/interpolative.py:110-123, 159-176). -/
def OneSidedID.call (o : OneSidedID G) {m n : ℕ} (A : Matrix (Fin m) (Fin n) ℝ) (k over : ℕ)
    (axis : ℤ) : Py G (IDOut m n) :=
  if axis = 0 then do
    let r ← o.row m n A k over
    pure (.row r)
  else if axis = 1 then do
    let r ← o.col m n A k over
    pure (.col r)
  else Py.raise .value

/-- `OSID1.__call__`: parla/drivers/interpolative.py:107-123. -/
noncomputable def OSID1 (la : LinAlg) (skOp : RowSketcher G) : OneSidedID G where
  row := fun _ _ A k over => do
    let Y ← sketchRows skOp A k over
    Py.lift (qrcpRow la Y.mat k)
  col := fun _ _ A k over => do
    let Yt ← sketchCols skOp A k over
    Py.lift (qrcpCol la Yt.matᵀ k)

/-- `OSID2.__call__`: parla/drivers/interpolative.py:156-176. -/
def OSID2 (la : LinAlg) (skOp : RowSketcher G) : OneSidedID G where
  row := fun _ _ A k over => do
    let Y ← sketchRows skOp A k over
    let I := pivots la Y k
    pure ⟨I.c, applyPinvOnRight la A (A.submatrix I.idx id), I.idx⟩
  col := fun _ _ A k over => do
    let Yt ← sketchCols skOp A k over
    let J := pivots la Yt k
    pure ⟨J.c, applyPinvOnLeft la A (A.submatrix id J.idx), J.idx⟩

/-- `osid1(A, k, over, p, axis, rng)`: parla/drivers/interpolative.py:88-94. -/
noncomputable def osid1 (la : LinAlg) (gauss : SkOpGen G) {m n : ℕ} (A : Matrix (Fin m) (Fin n) ℝ)
    (k over : ℕ) (p : ℤ) (axis : ℤ) : Py G (IDOut m n) :=
  (OSID1 la (RS1 gauss (p - 1) (orth la) 1)).call A k over axis

/-- `osid2(A, k, over, p, axis, rng)`: parla/drivers/interpolative.py:137-143. -/
noncomputable def osid2 (la : LinAlg) (gauss : SkOpGen G) {m n : ℕ} (A : Matrix (Fin m) (Fin n) ℝ)
    (k over : ℕ) (p : ℤ) (axis : ℤ) : Py G (IDOut m n) :=
  (OSID2 la (RS1 gauss (p - 1) (orth la) 1)).call A k over axis

/-- `(Z, Is, X, Js)` -/
structure TSIDOut (m n : ℕ) where
  row : RowID m
  col : ColID n

/-- `TSID1.__call__`: parla/drivers/interpolative.py:269-278. -/
noncomputable def tsid1Call (la : LinAlg) (osid : OneSidedID G) {m n : ℕ}
    (A : Matrix (Fin m) (Fin n) ℝ) (k over : ℕ) : Py G (TSIDOut m n) :=
  if m > n then do
    let X ← osid.col m n A k over
    let Z ← Py.lift (qrcpRow la (A.submatrix id X.Js) k)
    pure ⟨Z, X⟩
  else do
    let Z ← osid.row m n A k over
    let X ← Py.lift (qrcpCol la (A.submatrix Z.Is id) k)
    pure ⟨Z, X⟩

/-- `tsid1(A, k, over, p, rng)`: parla/drivers/interpolative.py:247-254. -/
noncomputable def tsid1 (la : LinAlg) (gauss : SkOpGen G) {m n : ℕ} (A : Matrix (Fin m) (Fin n) ℝ)
    (k over : ℕ) (p : ℤ) : Py G (TSIDOut m n) :=
  tsid1Call la (OSID1 la (RS1 gauss (p - 1) (orth la) 1)) A k over

/-- `(Js, U, Is)`: `U.shape = (a, b)` with `a = len(Js)`, `b = len(Is)`. -/
structure CUROut (m n : ℕ) where
  a : ℕ
  b : ℕ
  Js : Fin a → Fin n
  U : Matrix (Fin a) (Fin b) ℝ
  Is : Fin b → Fin m

/-- `CUR1.__call__`: parla/drivers/interpolative.py:369-387. -/
noncomputable def cur1Call (la : LinAlg) (osid : OneSidedID G) {m n : ℕ}
    (A : Matrix (Fin m) (Fin n) ℝ) (k over : ℕ) : Py G (CUROut m n) :=
  if m > n then do
    let X ← osid.col m n A k over
    let I := pivots la ⟨X.c, A.submatrix id X.Js⟩ k
    pure ⟨X.c, I.c, X.Js, applyPinvOnRight la X.X (A.submatrix I.idx id), I.idx⟩
  else do
    let Z ← osid.row m n A k over
    let J := pivots la ⟨Z.c, (A.submatrix Z.Is id)ᵀ⟩ k
    pure ⟨J.c, Z.c, J.idx, applyPinvOnLeft la Z.Z (A.submatrix id J.idx), Z.Is⟩

/-- `cur1(A, k, over, p, rng)`: parla/drivers/interpolative.py:348-355 (note `p - 2`). -/
noncomputable def cur1 (la : LinAlg) (gauss : SkOpGen G) {m n : ℕ} (A : Matrix (Fin m) (Fin n) ℝ)
    (k over : ℕ) (p : ℤ) : Py G (CUROut m n) :=
  cur1Call la (OSID1 la (RS1 gauss (p - 2) (orth la) 1)) A k over

end Parla
