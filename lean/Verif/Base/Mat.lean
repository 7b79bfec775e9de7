import Mathlib.Data.Matrix.Mul
import Mathlib.Data.Matrix.Basic
import Mathlib.Analysis.Real.Sqrt
import Mathlib.Algebra.BigOperators.Fin
import Mathlib.LinearAlgebra.Matrix.Trace
import Mathlib.LinearAlgebra.Matrix.ToLin

/-!
# NumPy array vocabulary

Exact-arithmetic models of the NumPy operations PARLA uses on 1-d and 2-d arrays.
An `(m, n)` ndarray is `Matrix (Fin m) (Fin n) ℝ`; a `(n,)` ndarray is `Fin n → ℝ`.
`@` is `*` / `*ᵥ`, `.T` is `ᵀ`, `np.dot(u, v)` is `u ⬝ᵥ v`.
-/

namespace Parla

open Matrix

/-- `np.finfo(float).eps` -/
noncomputable def eps : ℝ := 2 ^ (-52 : ℤ)

/-- The square of `la.norm(M, ord='fro')`. -/
def froSq {m n : ℕ} (M : Matrix (Fin m) (Fin n) ℝ) : ℝ := ∑ i, ∑ j, M i j ^ 2

/-- `la.norm(M, ord='fro')` (also `la.norm(M)` for a 2-d array). -/
noncomputable def fro {m n : ℕ} (M : Matrix (Fin m) (Fin n) ℝ) : ℝ := Real.sqrt (froSq M)

/-- The square of `la.norm(v)` for a 1-d array. -/
def sqNorm {n : ℕ} (v : Fin n → ℝ) : ℝ := ∑ i, v i ^ 2

/-- `la.norm(v)` / `np.linalg.norm(v)` for a 1-d array. -/
noncomputable def norm2 {n : ℕ} (v : Fin n → ℝ) : ℝ := Real.sqrt (sqNorm v)

/-- `np.column_stack((A, B))` / `np.hstack` -/
def hcat {m a b : ℕ} (A : Matrix (Fin m) (Fin a) ℝ) (B : Matrix (Fin m) (Fin b) ℝ) :
    Matrix (Fin m) (Fin (a + b)) ℝ :=
  Matrix.of fun i j => Fin.addCases (fun j => A i j) (fun j => B i j) j

/-- `np.row_stack((A, B))` / `np.vstack` -/
def vcat {a b n : ℕ} (A : Matrix (Fin a) (Fin n) ℝ) (B : Matrix (Fin b) (Fin n) ℝ) :
    Matrix (Fin (a + b)) (Fin n) ℝ :=
  Matrix.of fun i j => Fin.addCases (fun i => A i j) (fun i => B i j) i

/-- `np.concatenate((u, v))` for 1-d arrays -/
def catv {a b : ℕ} (u : Fin a → ℝ) (v : Fin b → ℝ) : Fin (a + b) → ℝ :=
  fun i => Fin.addCases u v i

/-- `v[:a]` where `v` has length `a + b` -/
def topv {a b : ℕ} (v : Fin (a + b) → ℝ) : Fin a → ℝ := fun i => v (Fin.castAdd b i)

/-- `v[a:]` where `v` has length `a + b` -/
def botv {a b : ℕ} (v : Fin (a + b) → ℝ) : Fin b → ℝ := fun i => v (Fin.natAdd a i)

/-- `M[:a, :]` where `M` has `a + b` rows -/
def topRows {a b n : ℕ} (M : Matrix (Fin (a + b)) (Fin n) ℝ) : Matrix (Fin a) (Fin n) ℝ :=
  Matrix.of fun i j => M (Fin.castAdd b i) j

/-- `M[a:, :]` where `M` has `a + b` rows -/
def botRows {a b n : ℕ} (M : Matrix (Fin (a + b)) (Fin n) ℝ) : Matrix (Fin b) (Fin n) ℝ :=
  Matrix.of fun i j => M (Fin.natAdd a i) j

/-- The (clipped) index range `a:b` of an axis of length `c`. -/
def sliceIdx (a b c : ℕ) (j : Fin (min b c - a)) : Fin c := ⟨a + j.1, by omega⟩

/-- `M[:, a:b]` with NumPy's clipping. -/
def colSlice {m c : ℕ} (a b : ℕ) (M : Matrix (Fin m) (Fin c) ℝ) :
    Matrix (Fin m) (Fin (min b c - a)) ℝ :=
  M.submatrix id (sliceIdx a b c)

/-- The (clipped) index range `:k` of an axis of length `c`. -/
def takeIdx (k c : ℕ) (j : Fin (min k c)) : Fin c := ⟨j.1, by omega⟩

/-- `M[:, :k]` with NumPy's clipping. -/
def takeCols {m c : ℕ} (k : ℕ) (M : Matrix (Fin m) (Fin c) ℝ) :
    Matrix (Fin m) (Fin (min k c)) ℝ :=
  M.submatrix id (takeIdx k c)

/-- `M[:k, :]` with NumPy's clipping. -/
def takeRows {m c : ℕ} (k : ℕ) (M : Matrix (Fin m) (Fin c) ℝ) :
    Matrix (Fin (min k m)) (Fin c) ℝ :=
  M.submatrix (takeIdx k m) id

/-- `v[:k]` with NumPy's clipping. -/
def takev {α : Type} {c : ℕ} (k : ℕ) (v : Fin c → α) : Fin (min k c) → α := v ∘ takeIdx k c

/-- A 2-d array with `n` rows whose number of columns is only known at run time. -/
structure Cols (n : ℕ) where
  c : ℕ
  mat : Matrix (Fin n) (Fin c) ℝ

/-- The column space of a matrix (`range(M)`). -/
def colSpace {m n : ℕ} (M : Matrix (Fin m) (Fin n) ℝ) : Submodule ℝ (Fin m → ℝ) :=
  LinearMap.range M.mulVecLin

end Parla
