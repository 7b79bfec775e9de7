import Verif.Base.LinAlg

/-!
# PARLA's object-oriented interfaces as function types

PARLA passes sketchers, rangefinders and QB routines as callable objects; the model passes
functions.  `rng` arguments disappear: the generator is in the `World`, and
`np.random.default_rng(rng)` is the identity on a `Generator` object.
-/

namespace Parla

open Matrix

/-- `SketchOpGen.__call__(n_rows, n_cols, rng)` (parla/comps/sketchers/oblivious.py:6-37):
returns an operator of the requested shape, as a matrix. -/
abbrev SkOpGen (G : Type) := ∀ r c : ℕ, Py G (Matrix (Fin r) (Fin c) ℝ)

/-- A stabiliser callable `S -> S'` (parla/comps/sketchers/aware.py:118-122); acts on arrays
with any number of rows and keeps that number. -/
abbrev Stab := ∀ r : ℕ, Cols r → Cols r

/-- `RowSketcher.__call__(A, k, rng)` (parla/comps/sketchers/aware.py:33-73). -/
abbrev RowSketcher (G : Type) := ∀ m n : ℕ, Matrix (Fin m) (Fin n) ℝ → ℕ → Py G (Cols n)

/-- `RangeFinder.__call__(A, k, tol, rng)` (parla/comps/rangefinders.py:78-123). -/
abbrev RangeFinder (G : Type) := ∀ m n : ℕ, Matrix (Fin m) (Fin n) ℝ → ℤ → Tol → Py G (Cols m)

/-- The pair `(Q, B)` with `Q.shape = (m, c)`, `B.shape = (c, n)`. -/
structure QBOut (m n : ℕ) where
  c : ℕ
  Q : Matrix (Fin m) (Fin c) ℝ
  B : Matrix (Fin c) (Fin n) ℝ

/-- `QBDecomposer.__call__(A, k, tol, rng)` (parla/comps/qb.py:241-283). -/
abbrev QBDecomposer (G : Type) :=
  ∀ m n : ℕ, Matrix (Fin m) (Fin n) ℝ → ℤ → Tol → Py G (QBOut m n)

/-- Renaming the column axis along an equality of lengths (no data movement). -/
def castCols {m a b : ℕ} (h : a = b) (M : Matrix (Fin m) (Fin a) ℝ) : Matrix (Fin m) (Fin b) ℝ :=
  M.submatrix id (Fin.cast h.symm)

/-- Renaming the row axis along an equality of lengths (no data movement). -/
def castRows {n a b : ℕ} (h : a = b) (M : Matrix (Fin a) (Fin n) ℝ) : Matrix (Fin b) (Fin n) ℝ :=
  M.submatrix (Fin.cast h.symm) id

end Parla
