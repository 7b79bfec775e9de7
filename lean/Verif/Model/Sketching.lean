import Verif.Model.Precond
import Mathlib.Analysis.SpecialFunctions.Trigonometric.Basic
import Mathlib.Data.Fin.Tuple.Sort
import Mathlib.Data.Real.Sign
import Mathlib.Logic.Equiv.Fin.Basic

/-! # Model of parla/utils/sketching.py -/

namespace Parla

open Matrix

variable {G : Type}

/-- A NumPy `Generator`: the methods PARLA calls, as state transformers on the generator state.
The laws are the documented ranges; nothing is assumed about the distributions. -/
structure NpRng (G : Type) where
  /-- `rng.random(n)`: floats in `[0, 1)` -/
  random : ∀ n : ℕ, G → (Fin n → ℝ) × G
  random_nonneg : ∀ n g i, 0 ≤ (random n g).1 i
  random_lt_one : ∀ n g i, (random n g).1 i < 1
  /-- `rng.standard_normal((r, c))` -/
  standardNormal : ∀ r c : ℕ, G → Matrix (Fin r) (Fin c) ℝ × G
  /-- `rng.choice(pop, k, replace=False)` for `k <= pop`: distinct integers in `range(pop)` -/
  choiceNoRepl : ∀ pop k : ℕ, k ≤ pop → G → (Fin k ↪ Fin pop) × G
  /-- `rng.choice(pop, k, replace=True)` for `pop > 0` -/
  choiceRepl : ∀ pop k : ℕ, 0 < pop → G → (Fin k → Fin pop) × G
  /-- `rng.permutation(n)` -/
  permutation : ∀ n : ℕ, G → Equiv.Perm (Fin n) × G
  /-- the state of `np.random.default_rng(a)` for an array `a` of nonnegative integers -/
  seed : List ℕ → G

/-- `rng.choice(pop, k, replace=replace)`; raises `ValueError` if it cannot be served. -/
def NpRng.choice (R : NpRng G) (pop k : ℕ) (replace : Bool) : Py G (Fin k → Fin pop) :=
  if replace then
    if h : 0 < pop then Py.draw (R.choiceRepl pop k h)
    else if h : k = 0 then pure (fun i => absurd i.2 (by omega))
    else Py.raise .value
  else
    if h : k ≤ pop then do
      let f ← Py.draw (R.choiceNoRepl pop k h)
      pure f
    else Py.raise .value

/-- `if b: warnings.warn(...)` -/
def Py.warnIf (b : Bool) : Py G Unit := if b then Py.warn else pure ()

/-- raise `e` if `b` -/
def Py.raiseIf (b : Bool) (e : PyErr) : Py G Unit := if b then Py.raise e else pure ()

/-- `spar.coo_matrix((vals, (rows, cols)), shape=(r, c)).tocsc()` (or `.tocsr()`): entries at the
same position are added. -/
def coo {N r c : ℕ} (rows : Fin N → Fin r) (cols : Fin N → Fin c) (vals : Fin N → ℝ) :
    Matrix (Fin r) (Fin c) ℝ :=
  Matrix.of fun i j => ∑ t, if rows t = i ∧ cols t = j then vals t else 0

/-! ### Dense operators -/

/-- `gaussian_operator(n_rows, n_cols, rng, normalize)`: parla/utils/sketching.py:20-31.
`rng.normal(0, scale, shape)` is `scale * rng.standard_normal(shape)`. -/
noncomputable def gaussianOperator (R : NpRng G) (normalize : Bool) : SkOpGen G := fun nRows nCols =>
  if normalize then
    if min nRows nCols = 0 then Py.raise .zeroDivision
    else do
      let scale := Real.sqrt (1 / (min nRows nCols : ℕ))
      let Z ← Py.draw (R.standardNormal nRows nCols)
      pure (scale • Z)
  else Py.draw (R.standardNormal nRows nCols)

/-- `Q, R = la.qr(Q, mode='economic'); Q * np.sign(np.diag(R))`
(parla/utils/sketching.py:15-16). -/
noncomputable def signedQ (la : LinAlg) {m n : ℕ} (Z : Matrix (Fin m) (Fin n) ℝ) :
    Matrix (Fin m) (Fin (min m n)) ℝ :=
  Matrix.of fun i j => (la.qr Z).1 i j * Real.sign ((la.qr Z).2 j (minR j))

/-- `orthonormal_operator(n_rows, n_cols, rng)`: parla/utils/sketching.py:9-17.  The recursive call
of the first branch always takes the second one. -/
noncomputable def orthonormalOperator (la : LinAlg) (R : NpRng G) : SkOpGen G := fun nRows nCols =>
  if h : nRows < nCols then do
    let Z ← gaussianOperator R true nCols nRows
    pure (castCols (by omega : min nCols nRows = nRows) (signedQ la Z))ᵀ
  else do
    let Z ← gaussianOperator R true nRows nCols
    pure (castCols (by omega) (signedQ la Z))

/-! ### Sparse Johnson-Lindenstrauss transforms -/

open Classical in
/-- `vals = np.ones(N); vals[u <= 0.5] = -1` (parla/utils/sketching.py:69-70). -/
noncomputable def sjltSign (u : ℝ) : ℝ := if u ≤ 1 / 2 then -1 else 1

/-- `for i in range(n): row_vecs.append(draw)` (parla/utils/sketching.py:63-65). -/
def drawMany {α : Type} (x : Py G α) : (n : ℕ) → Py G (Fin n → α)
  | 0 => pure Fin.elim0
  | n + 1 => do
    let xs ← drawMany x n
    let a ← x
    pure (Fin.snoc xs a)

/-- The matrix assembled from the row indices `rowVecs` and the uniforms `u`
(parla/utils/sketching.py:66-74): `rows = np.concatenate(row_vecs)` and
`cols = np.repeat(np.arange(n_cols), vec_nnz)`, where the flat index `t` stands for column
`t // vec_nnz` and position `t % vec_nnz`. -/
noncomputable def sjltMat {nRows nCols nnz : ℕ} (rowVecs : Fin nCols → Fin nnz → Fin nRows)
    (u : Fin (nCols * nnz) → ℝ) : Matrix (Fin nRows) (Fin nCols) ℝ :=
  coo (fun t => rowVecs (finProdFinEquiv.symm t).1 (finProdFinEquiv.symm t).2)
    (fun t => (finProdFinEquiv.symm t).1) (fun t => sjltSign (u t) / Real.sqrt nnz)

/-- `sjlt_operator`, the branch `n_cols >= n_rows` (parla/utils/sketching.py:51-74).
`np.concatenate` of an empty list raises `ValueError`. -/
noncomputable def sjltWide (R : NpRng G) (vecNnz nRows nCols : ℕ) :
    Py G (Matrix (Fin nRows) (Fin nCols) ℝ) := do
  let nnz := min nCols vecNnz
  let badSize := decide (nRows < nnz)
  Py.warnIf badSize
  let rowVecs ← drawMany (R.choice nRows nnz badSize) nCols
  Py.raiseIf (nCols = 0) .value
  let u ← Py.draw (R.random (nCols * nnz))
  pure (sjltMat rowVecs u)

/-- `sjlt_operator(n_rows, n_cols, rng, vec_nnz)`: parla/utils/sketching.py:34-80.  (`vec_nnz` is a
natural number.)  The recursive call of the second branch always takes the first one. -/
noncomputable def sjltOperator (R : NpRng G) (vecNnz : ℕ) : SkOpGen G := fun nRows nCols =>
  if nCols ≥ nRows then sjltWide R vecNnz nRows nCols
  else do
    let S ← sjltWide R vecNnz nCols nRows
    pure Sᵀ

/-! ### Sparse sign operators -/

/-- `rng.random(n) < density` -/
noncomputable def drawMask (R : NpRng G) (N : ℕ) (density : ℝ) : Py G (Fin N → Prop) := do
  let u ← Py.draw (R.random N)
  pure (fun t => u t < density)

open Classical in
/-- The loop `while np.all(~nonzero_idxs)` (parla/utils/sketching.py:88-92); `left` is
`10 - attempt`. -/
noncomputable def maskLoop (R : NpRng G) (N : ℕ) (density : ℝ) :
    (left : ℕ) → (Fin N → Prop) → Py G (Fin N → Prop)
  | left, mask =>
    if ∀ t, ¬ mask t then
      match left with
      | 0 => Py.raise .runtime
      | left + 1 => do
        let mask ← drawMask R N density
        maskLoop R N density left mask
    else pure mask

open Classical in
/-- `np.where(mask)[0]`: the positions of the true entries, increasing. -/
noncomputable def whereIdx {N : ℕ} (mask : Fin N → Prop) : List (Fin N) :=
  (List.finRange N).filter (fun t => mask t)

open Classical in
/-- The values and the assembly (parla/utils/sketching.py:93-102); `np.unravel_index(t, (r, c))` is
`(t // c, t % c)`. -/
noncomputable def sparseSignMat {nRows nCols : ℕ} (density : ℝ) (mask : Fin (nRows * nCols) → Prop)
    (u : Fin (whereIdx mask).length → ℝ) : Matrix (Fin nRows) (Fin nCols) ℝ :=
  coo (fun t => (finProdFinEquiv.symm ((whereIdx mask).get t)).1)
    (fun t => (finProdFinEquiv.symm ((whereIdx mask).get t)).2)
    (fun t => (if u t < 1 / 2 then -1 else 1) / Real.sqrt ((min nRows nCols : ℕ) * density))

/-- `sparse_sign_operator(n_rows, n_cols, rng, density)`: parla/utils/sketching.py:83-103. -/
noncomputable def sparseSignOperator (R : NpRng G) (density : ℝ) : SkOpGen G := fun nRows nCols => do
  let mask ← drawMask R (nRows * nCols) density
  let mask ← maskLoop R (nRows * nCols) density 10 mask
  let u ← Py.draw (R.random (whereIdx mask).length)
  pure (sparseSignMat density mask u)

/-! ### Linear operators -/

/-- A SciPy `LinearOperator` of shape `(p, q)` with all four products; a call may raise. -/
structure SkLinOp (p q : ℕ) where
  mv : (Fin q → ℝ) → Except PyErr (Fin p → ℝ)
  rmv : (Fin p → ℝ) → Except PyErr (Fin q → ℝ)
  mm : ∀ l : ℕ, Matrix (Fin q) (Fin l) ℝ → Except PyErr (Matrix (Fin p) (Fin l) ℝ)
  rmm : ∀ l : ℕ, Matrix (Fin p) (Fin l) ℝ → Except PyErr (Matrix (Fin q) (Fin l) ℝ)

/-- `S.T` of a real `LinearOperator` -/
def SkLinOp.T {p q : ℕ} (o : SkLinOp p q) : SkLinOp q p := ⟨o.rmv, o.mv, o.rmm, o.mm⟩

/-- the products of an array -/
def SkLinOp.ofMat {p q : ℕ} (F : Matrix (Fin p) (Fin q) ℝ) : SkLinOp p q :=
  ⟨fun x => .ok (F *ᵥ x), fun y => .ok (Fᵀ *ᵥ y), fun _ X => .ok (F * X), fun _ Y => .ok (Fᵀ * Y)⟩

/-- `out = np.zeros(n); out[idx] = v` (later assignments win) -/
def scatter {k n : ℕ} (idx : Fin k → Fin n) (v : Fin k → ℝ) : Fin n → ℝ :=
  (List.finRange k).foldl (fun out j => Function.update out (idx j) (v j)) 0

/-! ### Subsampled randomised cosine transforms -/

/-- The matrix of `scipy.fft.dct(_, norm='ortho')` (type II). -/
noncomputable def dctMat (n : ℕ) : Matrix (Fin n) (Fin n) ℝ :=
  Matrix.of fun k i => (if k.1 = 0 then Real.sqrt (1 / n) else Real.sqrt (2 / n)) *
    Real.cos (Real.pi * k.1 * (2 * i.1 + 1) / (2 * n))

/-- `scipy.fft.dct(x, norm='ortho')` -/
noncomputable def dct {n : ℕ} (x : Fin n → ℝ) : Fin n → ℝ := dctMat n *ᵥ x

/-- `scipy.fft.idct(x, norm='ortho')`: type III -/
noncomputable def idct {n : ℕ} (x : Fin n → ℝ) : Fin n → ℝ := (dctMat n)ᵀ *ᵥ x

/-- `f(mat, axis=0)`: apply a vector function to every column. -/
def onCols {p q l : ℕ} (f : (Fin p → ℝ) → Fin q → ℝ) (M : Matrix (Fin p) (Fin l) ℝ) :
    Matrix (Fin q) (Fin l) ℝ :=
  Matrix.of fun i j => f (fun i => M i j) i

/-- the data `(r, e, perm)` of an SRCT -/
structure Srct (small big : ℕ) where
  r : Fin small → Fin big
  e : Fin big → ℝ
  perm : Equiv.Perm (Fin big)

open Classical in
/-- `e[e > 0.5] = 1.0; e[e != 1] = -1.0` (parla/utils/sketching.py:111-112). -/
noncomputable def srctSign (u : ℝ) : ℝ :=
  let e := if u > 1 / 2 then 1 else u
  if e ≠ 1 then -1 else e

/-- `generate_srct(n_rows, n_cols, rng)`: parla/utils/sketching.py:106-115. -/
noncomputable def generateSrct (R : NpRng G) (nRows nCols : ℕ) :
    Py G (Srct (min nRows nCols) (max nRows nCols)) := do
  let r ← R.choice (max nRows nCols) (min nRows nCols) false
  let u ← Py.draw (R.random (max nRows nCols))
  Py.raiseIf (min nRows nCols = 0) .zeroDivision
  let e := fun i => srctSign (u i) * Real.sqrt ((max nRows nCols : ℕ) / (min nRows nCols : ℕ))
  let perm ← Py.draw (R.permutation (max nRows nCols))
  pure ⟨r, e, perm⟩

/-- `apply_srct(r, e, vec, perm, forward=True)`, 1-d operand: parla/utils/sketching.py:157-162. -/
noncomputable def applySrct {small big : ℕ} (r : Fin small → Fin big) (e : Fin big → ℝ)
    (perm : Option (Equiv.Perm (Fin big))) (vec : Fin big → ℝ) : Fin small → ℝ :=
  let vec := match perm with
    | none => vec
    | some perm => fun i => vec (perm i)
  let vec := fun i => vec i * e i
  let vec := dct vec
  fun j => vec (r j)

/-- `apply_srct(r, e, vec, perm, forward=False)`, 1-d operand: parla/utils/sketching.py:163-176.
`np.argsort(perm)` is the backend's `argsort` of the integers `perm[0], perm[1], ...`. -/
noncomputable def applySrctAdj (la : LinAlg) {small big : ℕ} (r : Fin small → Fin big)
    (e : Fin big → ℝ) (perm : Option (Equiv.Perm (Fin big))) (vec : Fin small → ℝ) : Fin big → ℝ :=
  let out := scatter r vec
  let out := idct out
  let out := fun i => out i * e i
  match perm with
  | none => out
  | some perm =>
    let invPerm := la.argsort (fun i => ((perm i).1 : ℝ))
    fun i => out (invPerm i)

/-- `apply_srct(r, e, mat, perm, forward=True)`, 2-d operand: parla/utils/sketching.py:151-156. -/
noncomputable def applySrctM {small big l : ℕ} (r : Fin small → Fin big) (e : Fin big → ℝ)
    (perm : Option (Equiv.Perm (Fin big))) (mat : Matrix (Fin big) (Fin l) ℝ) :
    Matrix (Fin small) (Fin l) ℝ :=
  let mat := match perm with
    | none => mat
    | some perm => mat.submatrix perm id
  let mat := Matrix.of fun i j => mat i j * e i
  let mat := onCols dct mat
  mat.submatrix r id

/-- `apply_srct(r, e, mat, perm, forward=False)`, 2-d operand: parla/utils/sketching.py:163-176. -/
noncomputable def applySrctAdjM (la : LinAlg) {small big l : ℕ} (r : Fin small → Fin big)
    (e : Fin big → ℝ) (perm : Option (Equiv.Perm (Fin big))) (mat : Matrix (Fin small) (Fin l) ℝ) :
    Matrix (Fin big) (Fin l) ℝ :=
  let out := onCols (scatter r) mat
  let out := onCols idct out
  let out : Matrix (Fin big) (Fin l) ℝ := Matrix.of fun i j => out i j * e i
  match perm with
  | none => out
  | some perm =>
    let invPerm := la.argsort (fun i => ((perm i).1 : ℝ))
    out.submatrix invPerm id

/-- The `LinearOperator` built for `n_cols >= n_rows` (parla/utils/sketching.py:189-199). -/
noncomputable def srctLinOp (la : LinAlg) {nRows nCols : ℕ} (d : Srct nRows nCols) :
    SkLinOp nRows nCols where
  mv x := .ok (applySrct d.r d.e (some d.perm) x)
  rmv y := .ok (applySrctAdj la d.r d.e (some d.perm) y)
  mm _ X := .ok (applySrctM d.r d.e (some d.perm) X)
  rmm _ Y := .ok (applySrctAdjM la d.r d.e (some d.perm) Y)

/-- Renaming the axes along equalities of lengths (no data movement). -/
def Srct.cast {a b a' b' : ℕ} (h₁ : a = a') (h₂ : b = b') (d : Srct a b) : Srct a' b' :=
  h₁ ▸ h₂ ▸ d

/-- `srct_operator(n_rows, n_cols, rng)`: parla/utils/sketching.py:179-201.  In the second branch
the data drawn first is discarded and new data is drawn by the recursive call, which takes the
first branch. -/
noncomputable def srctOperator (la : LinAlg) (R : NpRng G) (nRows nCols : ℕ) :
    Py G (SkLinOp nRows nCols) := do
  let d ← generateSrct R nRows nCols
  if h : nCols ≥ nRows then
    pure (srctLinOp la (d.cast (Nat.min_eq_left h) (Nat.max_eq_right h)))
  else
    have h : nCols ≤ nRows := by omega
    let d ← generateSrct R nCols nRows
    pure (srctLinOp la (d.cast (Nat.min_eq_left h) (Nat.max_eq_right h))).T

/-! ### Sampling operators -/

/-- The `LinearOperator` built for `n_cols >= n_rows` (parla/utils/sketching.py:213-227).
`rmatmat` calls `np.zeros(mat.shape[0], n_cols)`, whose second argument is not a data type. -/
def samplingLinOp {nRows nCols : ℕ} (indices : Fin nRows → Fin nCols) : SkLinOp nRows nCols where
  mv vec := .ok (fun j => vec (indices j))
  rmv vec := .ok (scatter indices vec)
  mm _ mat := .ok (mat.submatrix indices id)
  rmm _ _ := .error .type

/-- `indices = rng.choice(pop, k, replace=False); indices.sort()`
(parla/utils/sketching.py:206-210). -/
def sampleSorted (R : NpRng G) (pop k : ℕ) : Py G (Fin k → Fin pop) := do
  let f ← R.choice pop k false
  pure (f ∘ Tuple.sort f)

/-- `sampling_operator`, the branch `n_cols >= n_rows` with the indices at hand.  SciPy's
`LinearOperator` calls `matvec` when it is built, which raises `IndexError` for an index that is out
of range. -/
def samplingBuild {nRows nCols : ℕ} (indices : Fin nRows → ℕ) : Except PyErr (SkLinOp nRows nCols) :=
  if h : ∀ j, indices j < nCols then .ok (samplingLinOp fun j => ⟨indices j, h j⟩)
  else .error .index

/-- `sampling_operator(n_rows, n_cols, rng, indices)`: parla/utils/sketching.py:204-232, for indices
that are natural numbers.  For `n_rows > n_cols` the recursive call
`sampling_operator(n_cols, n_rows, indices)` has the indices in the place of `rng`, and no indices:
they seed a new generator, which draws new indices. -/
def samplingOperator (R : NpRng G) (indices : Option (List ℕ)) (nRows nCols : ℕ) :
    Py G (SkLinOp nRows nCols) := do
  let idx : Fin (min nRows nCols) → ℕ ← (match indices with
    | none => do
      let f ← sampleSorted R (max nRows nCols) (min nRows nCols)
      pure (fun j => (f j).1)
    | some l => do
      Py.assert (l.length = min nRows nCols)
      pure (fun j => l.getD j.1 0))
  if h : nCols ≥ nRows then
    Py.lift (samplingBuild fun j => idx (j.cast (Nat.min_eq_left h).symm))
  else
    have h : nCols ≤ nRows := by omega
    -- the recursive call, on its own generator
    match sampleSorted R nRows nCols ⟨R.seed (List.ofFn idx), 0, []⟩ with
    | .error e => Py.raise e
    | .ok (f, _) => do
      let S ← Py.lift (samplingBuild fun j => (f j).1)
      pure S.T

end Parla
