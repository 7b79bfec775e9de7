import Verif.Model.QB

/-! # Model of parla/drivers/evd.py -/

namespace Parla

open Matrix

variable {G : Type}

/-- A pair `(V, lamb)` of shapes `(n, r)`, `(r,)`. -/
structure EVDOut (n : ℕ) where
  r : ℕ
  V : Matrix (Fin n) (Fin r) ℝ
  lamb : Fin r → ℝ

/-- `if not np.isnan(tol): assert tol >= 0; assert tol < np.inf` (parla/drivers/evd.py:272-274);
finite tolerances always pass the second assert. -/
noncomputable def assertTolNonneg : Tol → Py G Unit
  | .nan => pure ()
  | .val t => Py.assert (t ≥ 0)

/-- `np.count_nonzero(alamb > 10*np.finfo(float).eps)` (parla/drivers/evd.py:283) -/
noncomputable def countAbove {c : ℕ} (v : Fin c → ℝ) (cut : ℝ) : ℕ :=
  (Finset.univ.filter fun i => |v i| > cut).card

/-- The post-processing of `EVD1.__call__` (parla/drivers/evd.py:278-289). -/
noncomputable def evd1Post (la : LinAlg) {n : ℕ} (k : ℕ) (qbo : QBOut n n) : EVDOut n :=
  let C := qbo.B * qbo.Q
  let lamb := (la.eigh C).1
  let U := (la.eigh C).2
  let d := qbo.c
  let r := min k (min d (countAbove lamb (10 * eps)))
  let I : Fin (min r d) → Fin d := takev r (la.argsort fun i => -|lamb i|)
  ⟨_, qbo.Q * U.submatrix id I, lamb ∘ I⟩

/-- `EVD1.__call__`: parla/drivers/evd.py:218-289, for a square array.  `over` is a natural
number.  `np.argsort(-1*np.abs(alamb))` sorts `-|lamb|` (`alamb` is already non-negative). -/
noncomputable def evd1Call (la : LinAlg) (qb : QBDecomposer G) {n : ℕ} (A : Matrix (Fin n) (Fin n) ℝ)
    (k : ℤ) (tol : Tol) (over : ℕ) : Py G (EVDOut n) := do
  Py.assert (k > 0)
  Py.assert (k ≤ (min n n : ℕ))
  assertTolNonneg tol
  let qbo ← qb n n A (k + over) tol.half
  pure (evd1Post la k.toNat qbo)

/-- `evd1(A, k, tol, over, inner_num_pass, block_size, rng)`: parla/drivers/evd.py:16-96. -/
noncomputable def evd1 (la : LinAlg) (gauss : SkOpGen G) {n : ℕ} (A : Matrix (Fin n) (Fin n) ℝ)
    (k : ℤ) (tol : Tol) (over : ℕ) (innerNumPass : ℤ) (blockSize : ℕ) : Py G (EVDOut n) := do
  Py.assert (innerNumPass ≥ 2)
  evd1Call la (QB2 la (RF1 la (RS1 gauss (innerNumPass - 2) (orth la) 1)) blockSize false)
    A k tol.half over

/-- `comp_list = [k]; for i in range(k-1): if sigma[i+1]**2 <= nu: comp_list.append(i)` and
`r = min(comp_list)` (parla/drivers/evd.py:376-380): `i` runs over the list `l`; reading past
the end of `sigma` raises `IndexError`. -/
noncomputable def evd2Comps {p : ℕ} (sigma : Fin p → ℝ) (nu : ℝ) :
    List ℕ → List ℕ → Except PyErr (List ℕ)
  | comps, [] => .ok comps
  | comps, i :: l =>
    if h : i + 1 < p then
      if sigma ⟨i + 1, h⟩ ^ 2 ≤ nu then evd2Comps sigma nu (comps ++ [i]) l
      else evd2Comps sigma nu comps l
    else .error .index

/-- `nu = np.sqrt(n) * epsilon_mach * la.norm(Y)` with `Y = A @ S` (parla/drivers/evd.py:365-367). -/
noncomputable def evd2Nu {n c : ℕ} (A : Matrix (Fin n) (Fin n) ℝ) (S : Matrix (Fin n) (Fin c) ℝ) : ℝ :=
  Real.sqrt n * eps * fro (A * S)

/-- The part of `EVD2.__call__` after the sketch (parla/drivers/evd.py:365-384).
Simplification: `V[:, :r]` is clipped to the length of `sigma` like `lamb`; the two agree unless
the sketch has fewer than `k` columns. -/
noncomputable def evd2Post (la : LinAlg) {n : ℕ} (A : Matrix (Fin n) (Fin n) ℝ) (k : ℕ) (S : Cols n) :
    Except PyErr (EVDOut n) := do
  let nu := evd2Nu A S.mat
  let Y := A * S.mat + nu • S.mat
  let R ← la.cholesky (S.matᵀ * Y)
  let Bt ← solveUpperT R Yᵀ
  let B := Btᵀ
  let V := (la.svdFull B).1
  let sigma := (la.svdFull B).2.1
  let comps ← evd2Comps sigma nu [k] (List.range (k - 1))
  let r := comps.foldl min k
  .ok ⟨min r (min n S.c), V.submatrix id (minL ∘ takeIdx r (min n S.c)),
    fun i => takev r sigma i ^ 2 - nu⟩

/-- `EVD2.__call__`: parla/drivers/evd.py:299-384, for a square array. -/
noncomputable def evd2Call (la : LinAlg) (skOp : RowSketcher G) {n : ℕ} (A : Matrix (Fin n) (Fin n) ℝ)
    (k : ℤ) (tol : Tol) (over : ℕ) : Py G (EVDOut n) := do
  Py.assert (k > 0)
  Py.assert (k < n)
  if ¬ tol.isNaN then Py.warn else pure ()
  let S ← skOp n n A (k + over).toNat
  Py.emit .mulA
  Py.lift (evd2Post la A k.toNat S)

/-- `evd2(A, k, over, num_passes, rng)`: parla/drivers/evd.py:99-164. -/
noncomputable def evd2 (la : LinAlg) (gauss : SkOpGen G) {n : ℕ} (A : Matrix (Fin n) (Fin n) ℝ)
    (k : ℤ) (over : ℕ) (numPasses : ℤ) : Py G (EVDOut n) := do
  Py.assert (numPasses ≥ 1)
  evd2Call la (RS1 gauss (numPasses - 1) (orth la) 1) A k .nan over

end Parla
