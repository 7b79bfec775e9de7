import Verif.Model.Rounding
import Verif.Model.EVD

/-! # parla's EVD1 with rounding errors

The same code as `evd1Post`, `evd1Call` and `evd1` of Model/EVD, with the products and the eigensolver of a machine; with
exact operations these definitions are those (theorem C100_exact).  Slicing, comparisons, absolute values, sorting and the
halving of the tolerance are exact. -/

namespace Parla

open Matrix Spec

variable {G : Type} {n : ℕ}

/-- An eigensolver for symmetric matrices and a sorting routine, as a machine provides them. -/
structure FlEigh where
  /-- `la.eigh(C)` -/
  eigh : ∀ {n : ℕ}, Matrix (Fin n) (Fin n) ℝ → (Fin n → ℝ) × Matrix (Fin n) (Fin n) ℝ
  /-- `np.argsort(v)` -/
  argsort : ∀ {n : ℕ}, (Fin n → ℝ) → Equiv.Perm (Fin n)

/-- The symmetric matrix `la.eigh` sees: it reads the lower triangle of its argument only. -/
def lowSym (C : Matrix (Fin n) (Fin n) ℝ) : Matrix (Fin n) (Fin n) ℝ := fun i j => if j ≤ i then C i j else C j i

/-- The eigensolver is accurate to `ε` up to dimension `N` (LAPACK Users' Guide 4.7): the computed eigenvectors are within `ε`
of an orthogonal matrix, which with the computed eigenvalues diagonalises a matrix within `ε` of the one it was given.
Sorting makes no errors. -/
structure FlEigh.Accurate (eg : FlEigh) (N : ℕ) (ε : ℝ) : Prop where
  eigh : ∀ {n : ℕ} (C : Matrix (Fin n) (Fin n) ℝ), n ≤ N → ∃ U' : Matrix (Fin n) (Fin n) ℝ, OrthoCols U' ∧
    fro ((eg.eigh C).2 - U') ≤ ε ∧ fro (U' * diagonal (eg.eigh C).1 * U'ᵀ - lowSym C) ≤ ε * fro (lowSym C)
  argsort_mono : ∀ {n : ℕ} (v : Fin n → ℝ), Monotone (v ∘ eg.argsort v)

/-- The kernels of `la`. -/
def exactEigh (la : LinAlg) : FlEigh where
  eigh := la.eigh
  argsort := la.argsort

/-- The post-processing of `EVD1.__call__`: parla/drivers/evd.py:278-289. -/
noncomputable def evd1PostFl (fl : FlAlg) (eg : FlEigh) (k : ℕ) (qbo : QBOut n n) : EVDOut n :=
  let C := fl.mul qbo.B qbo.Q
  let lamb := (eg.eigh C).1
  let U := (eg.eigh C).2
  let d := qbo.c
  let r := min k (min d (countAbove lamb (10 * eps)))
  let I : Fin (min r d) → Fin d := takev r (eg.argsort fun i => -|lamb i|)
  ⟨_, fl.mul qbo.Q (U.submatrix id I), lamb ∘ I⟩

/-- `EVD1.__call__`: parla/drivers/evd.py:218-289. -/
noncomputable def evd1CallFl (fl : FlAlg) (eg : FlEigh) (qb : QBDecomposer G) (A : Matrix (Fin n) (Fin n) ℝ) (k : ℤ) (tol : Tol)
    (over : ℕ) : Py G (EVDOut n) := do
  Py.assert (k > 0)
  Py.assert (k ≤ (min n n : ℕ))
  assertTolNonneg tol
  let qbo ← qb n n A (k + over) tol.half
  pure (evd1PostFl fl eg k.toNat qbo)

/-- `evd1(A, k, tol, over, inner_num_pass, block_size, rng)`: parla/drivers/evd.py:16-96. -/
noncomputable def evd1Fl (fl : FlAlg) (eg : FlEigh) (gauss : SkOpGen G) (A : Matrix (Fin n) (Fin n) ℝ) (k : ℤ) (tol : Tol)
    (over : ℕ) (innerNumPass : ℤ) (blockSize : ℕ) : Py G (EVDOut n) := do
  Py.assert (innerNumPass ≥ 2)
  evd1CallFl fl eg (QB2Fl fl (RF1Fl fl (RS1Fl fl gauss (innerNumPass - 2) (orthFl fl) 1)) blockSize false) A k tol.half over

end Parla
