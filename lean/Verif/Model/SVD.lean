import Verif.Model.QB
import Mathlib.Data.Finset.Sort

/-! # Model of parla/drivers/svd.py -/

namespace Parla

open Matrix

variable {G : Type}

/-- A triple `(U, s, Vh)` of shapes `(m, r)`, `(r,)`, `(r, n)`. -/
structure SVDOut (m n : ℕ) where
  r : ℕ
  U : Matrix (Fin m) (Fin r) ℝ
  s : Fin r → ℝ
  Vh : Matrix (Fin r) (Fin n) ℝ

/-- `SVDecomposer.__call__(A, k, tol, over, rng)` (parla/drivers/svd.py:10-55). -/
abbrev SVDecomposer (G : Type) :=
  ∀ m n : ℕ, Matrix (Fin m) (Fin n) ℝ → ℕ → Tol → ℕ → Py G (SVDOut m n)

/-- `U[:, :c], s[:c], Vh[:c, :]` with `c = min(k, s.size)` (parla/drivers/svd.py:166-169). -/
def SVDOut.take {m n : ℕ} (t : SVDOut m n) (k : ℕ) : SVDOut m n :=
  ⟨min k t.r, takeCols k t.U, takev k t.s, takeRows k t.Vh⟩

/-- The positions selected by a boolean mask, in order. -/
def maskIdx {c : ℕ} (p : Fin c → Prop) [DecidablePred p] : Fin (Finset.univ.filter p).card → Fin c :=
  (Finset.univ.filter p).orderEmbOfFin rfl

/-- `U[:, ~drop], s[~drop], Vh[~drop, :]` with `drop = s < cut` (parla/drivers/svd.py:170-174).
Simplification: the mask is applied also when it drops nothing, which copies the arrays. -/
noncomputable def SVDOut.dropBelow {m n : ℕ} (t : SVDOut m n) (cut : ℝ) : SVDOut m n :=
  ⟨_, t.U.submatrix id (maskIdx fun i => ¬ t.s i < cut), t.s ∘ maskIdx fun i => ¬ t.s i < cut,
    t.Vh.submatrix (maskIdx fun i => ¬ t.s i < cut) id⟩

/-- `SVD1.__call__`: parla/drivers/svd.py:161-176.  `k` and `over` are taken to be non-negative
ints. -/
noncomputable def svd1Call (la : LinAlg) (qb : QBDecomposer G) {m n : ℕ}
    (A : Matrix (Fin m) (Fin n) ℝ) (k : ℕ) (tol : Tol) (over : ℕ) : Py G (SVDOut m n) := do
  let qbo ← qb m n A ((k + over : ℕ) : ℤ) tol
  let t : SVDOut qbo.c n := ⟨_, (la.svd qbo.B).1, (la.svd qbo.B).2.1, (la.svd qbo.B).2.2⟩
  let t := if over > 0 then t.take k else t
  let t := t.dropBelow (10 * eps)
  pure ⟨t.r, qbo.Q * t.U, t.s, t.Vh⟩

/-- An `SVD1` object as an `SVDecomposer`. -/
noncomputable def SVD1 (la : LinAlg) (qb : QBDecomposer G) : SVDecomposer G :=
  fun _ _ A k tol over => svd1Call la qb A k tol over

/-- `svd1(A, k, over, tol, inner_num_pass, block_size, rng)`: parla/drivers/svd.py:58-123. -/
noncomputable def svd1 (la : LinAlg) (gauss : SkOpGen G) {m n : ℕ} (A : Matrix (Fin m) (Fin n) ℝ)
    (k over : ℕ) (tol : Tol) (innerNumPass : ℤ) (blockSize : ℕ) : Py G (SVDOut m n) :=
  svd1Call la (QB2 la (RF1 la (RS1 gauss (innerNumPass - 2) (orth la) 1)) blockSize false)
    A k tol over

end Parla
