import Verif.Model.SVD

/-! # Model of parla/comps/preconditioning.py -/

namespace Parla

open Matrix

variable {m n r : ℕ}

open Classical in
/-- The number of rows `a_lift(A, scale)` adds below `A` (parla/comps/preconditioning.py:6-13):
none if `scale == 0`, else `A.shape[1]`. -/
noncomputable def liftRows (n : ℕ) (scale : ℝ) : ℕ := if scale = 0 then 0 else n

/-- The block `scale*np.eye(A.shape[1])` (parla/comps/preconditioning.py:10), or an array
without rows when `scale == 0`. -/
def scaleEye (e n : ℕ) (scale : ℝ) : Matrix (Fin e) (Fin n) ℝ :=
  Matrix.of fun i j => if i.1 = j.1 then scale else 0

/-- `a_lift(A, scale)`: parla/comps/preconditioning.py:6-13.  The two branches are written as one
stacking with a block of `liftRows n scale` rows; `aLift_zero` and `aLift_ne` prove that this is `A`
in the first branch and `np.row_stack((A, scale*np.eye(n)))` in the second. -/
noncomputable def aLift (A : Matrix (Fin m) (Fin n) ℝ) (scale : ℝ) :
    Matrix (Fin (m + liftRows n scale)) (Fin n) ℝ :=
  vcat A (scaleEye (liftRows n scale) n scale)

/-- `v` as a vector of length `n`: used for `arg[m:]`, which has length `n` whenever it is read
(parla/comps/preconditioning.py:36, 53). -/
def padv {e : ℕ} (n : ℕ) (v : Fin e → ℝ) : Fin n → ℝ :=
  fun j => if h : j.1 < e then v ⟨j.1, h⟩ else 0

/-- `scipy.sparse.linalg.LinearOperator` of shape `(p, q)` with its `matvec` and `rmatvec`.
A call may raise. -/
structure LinOp (p q : ℕ) where
  mv : (Fin q → ℝ) → Except PyErr (Fin p → ℝ)
  rmv : (Fin p → ℝ) → Except PyErr (Fin q → ℝ)

/-- `A.T` of a (real) `LinearOperator`. -/
def LinOp.T {p q : ℕ} (o : LinOp p q) : LinOp q p := ⟨o.rmv, o.mv⟩

/-- the operator of a real array -/
def LinOp.ofMat {p q : ℕ} (F : Matrix (Fin p) (Fin q) ℝ) : LinOp p q :=
  ⟨fun x => .ok (F *ᵥ x), fun y => .ok (Fᵀ *ᵥ y)⟩

open Classical in
/-- `forward(arg, work)`, upper triangular case (parla/comps/preconditioning.py:26-31): the result
and the new content of the workspace.  (With `overwrite_b=True` SciPy may or may not solve in the
workspace; the model leaves the solution there.) -/
noncomputable def forwardTri (A : Matrix (Fin m) (Fin n) ℝ) (delta : ℝ)
    (R : Matrix (Fin n) (Fin n) ℝ) (arg work : Fin n → ℝ) :
    Except PyErr ((Fin (m + liftRows n (Real.sqrt delta)) → ℝ) × (Fin n → ℝ)) := do
  let _ := work          -- `np.copyto(work, arg)` overwrites the workspace
  let work := arg
  let work ← solveUpperv R work
  pure (aLift A (Real.sqrt delta) *ᵥ work, work)

open Classical in
/-- `adjoint(arg, work)`, upper triangular case (parla/comps/preconditioning.py:33-38). -/
noncomputable def adjointTri (A : Matrix (Fin m) (Fin n) ℝ) (delta : ℝ)
    (R : Matrix (Fin n) (Fin n) ℝ) (arg : Fin (m + liftRows n (Real.sqrt delta)) → ℝ)
    (work : Fin n → ℝ) : Except PyErr ((Fin n → ℝ) × (Fin n → ℝ)) := do
  let _ := work          -- `np.dot(A.T, arg[:m], out=work)` overwrites the workspace
  let work := Aᵀ *ᵥ topv arg
  let work := if 0 < delta then work + Real.sqrt delta • padv n (botv arg) else work
  let out ← solveUpperTv R work
  pure (out, work)

/-- `forward(arg, work)`, general case (parla/comps/preconditioning.py:45-48). -/
noncomputable def forwardGen (A : Matrix (Fin m) (Fin n) ℝ) (delta : ℝ)
    (R : Matrix (Fin n) (Fin r) ℝ) (arg : Fin r → ℝ) (work : Fin n → ℝ) :
    Except PyErr ((Fin (m + liftRows n (Real.sqrt delta)) → ℝ) × (Fin n → ℝ)) :=
  let _ := work          -- `np.dot(R, arg, out=work)` overwrites the workspace
  let work := R *ᵥ arg
  .ok (aLift A (Real.sqrt delta) *ᵥ work, work)

open Classical in
/-- `adjoint(arg, work)`, general case (parla/comps/preconditioning.py:50-54). -/
noncomputable def adjointGen (A : Matrix (Fin m) (Fin n) ℝ) (delta : ℝ)
    (R : Matrix (Fin n) (Fin r) ℝ) (arg : Fin (m + liftRows n (Real.sqrt delta)) → ℝ)
    (work : Fin n → ℝ) : Except PyErr ((Fin r → ℝ) × (Fin n → ℝ)) :=
  let _ := work          -- `np.dot(A.T, arg[:m], out=work)` overwrites the workspace
  let work := Aᵀ *ᵥ topv arg
  let work := if 0 < delta then work + Real.sqrt delta • padv n (botv arg) else work
  .ok (Rᵀ *ᵥ work, work)

/-- What `a_lift_precond` returns: `A_precond` (as its two closures, which take and return the
content of the shared workspace `vec_work`), `M_fwd` and `M_adj`. -/
structure LiftPrecond (m n r : ℕ) (delta : ℝ) where
  fwd : (Fin r → ℝ) → (Fin n → ℝ) →
    Except PyErr ((Fin (m + liftRows n (Real.sqrt delta)) → ℝ) × (Fin n → ℝ))
  adj : (Fin (m + liftRows n (Real.sqrt delta)) → ℝ) → (Fin n → ℝ) →
    Except PyErr ((Fin r → ℝ) × (Fin n → ℝ))
  mFwd : (Fin r → ℝ) → Except PyErr (Fin n → ℝ)
  mAdj : (Fin n → ℝ) → Except PyErr (Fin r → ℝ)

/-- The pair of arguments `(R, upper_tri)` of `a_lift_precond` and of the saddle solvers.  With
`upper_tri=True` SciPy requires a square `R`; with `upper_tri=False` `R` is any `(n, r)` array. -/
inductive Precond (n : ℕ) where
  | tri (R : Matrix (Fin n) (Fin n) ℝ)
  | gen (r : ℕ) (R : Matrix (Fin n) (Fin r) ℝ)

/-- `R.shape[1]` -/
@[reducible] def Precond.dim : Precond n → ℕ
  | .tri _ => n
  | .gen r _ => r

/-- `a_lift_precond(A, delta, R, upper_tri, k)`: parla/comps/preconditioning.py:16-67. -/
noncomputable def aLiftPrecond (A : Matrix (Fin m) (Fin n) ℝ) (delta : ℝ) (P : Precond n) (k : ℕ) :
    Except PyErr (LiftPrecond m n P.dim delta) :=
  if k ≠ 1 then .error .notImplemented
  else match P with
    | .tri R => .ok {
        fwd := fun arg work => forwardTri A delta R arg work
        adj := fun arg work => adjointTri A delta R arg work
        mFwd := fun z => solveUpperv R z
        mAdj := fun w => solveUpperTv R w }
    | .gen _ R => .ok {
        fwd := fun arg work => forwardGen A delta R arg work
        adj := fun arg work => adjointGen A delta R arg work
        mFwd := fun z => .ok (R *ᵥ z)
        mAdj := fun w => .ok (Rᵀ *ᵥ w) }

/-- `A_precond` as a `LinearOperator`; the workspace is allocated as zeros
(parla/comps/preconditioning.py:59-66).  Simplification: each call starts from the initial
workspace; `C25_history` proves that no call's result depends on the workspace content. -/
def LiftPrecond.op {delta : ℝ} (P : LiftPrecond m n r delta) :
    LinOp (m + liftRows n (Real.sqrt delta)) r :=
  ⟨fun x => (P.fwd x 0).map Prod.fst, fun y => (P.adj y 0).map Prod.fst⟩

/-- The tuple `(M, U, sigma, Vh)` of `svd_right_precond`. -/
structure PrecOut (d n : ℕ) where
  r : ℕ
  M : Matrix (Fin n) (Fin r) ℝ
  U : Matrix (Fin d) (Fin r) ℝ
  sigma : Fin r → ℝ
  Vh : Matrix (Fin r) (Fin n) ℝ

/-- `svd_right_precond(A_ske)`: parla/comps/preconditioning.py:70-79.  `sigma[0]` raises
`IndexError` when `A_ske` has no rows or no columns. -/
noncomputable def svdRightPrecond (la : LinAlg) {d n : ℕ} (A : Matrix (Fin d) (Fin n) ℝ) :
    Except PyErr (PrecOut d n) :=
  if h : 0 < min d n then
    let U := (la.svd A).1
    let sigma := (la.svd A).2.1
    let Vh := (la.svd A).2.2
    let rank := (Finset.univ.filter fun i => sigma i > sigma ⟨0, h⟩ * n * eps).card
    let Vh := takeRows rank Vh
    let U := takeCols rank U
    let sigma := takev rank sigma
    .ok ⟨_, Matrix.of fun i j => Vhᵀ i j / sigma j, U, sigma, Vh⟩
  else .error .index

end Parla
