import Verif.Base.Py
import Verif.Base.Mat
import Mathlib.LinearAlgebra.Matrix.NonsingularInverse
import Mathlib.LinearAlgebra.Matrix.PosDef
import Mathlib.Logic.Equiv.Fin.Basic

/-!
# Contracts of the LAPACK / SciPy / NumPy kernels PARLA calls

`LinAlg` is a parameter of the model.  Its fields are the kernels, its laws the documented
input/output contracts in exact arithmetic.  Every theorem quantifies over all `LinAlg`;
`Verif/Base/LinAlgExists.lean` proves that one exists.
-/

namespace Parla

open Matrix

/-- the permutation matrix `P` with `(P x)_i = x_{σ i}` -/
def permMat {n : ℕ} (σ : Equiv.Perm (Fin n)) : Matrix (Fin n) (Fin n) ℝ :=
  Matrix.of fun i j => if σ i = j then 1 else 0

/-- Embedding of the first `min m n` indices of an axis of length `m`. -/
def minL {m n : ℕ} (i : Fin (min m n)) : Fin m := ⟨i.1, by omega⟩

/-- Embedding of the first `min m n` indices of an axis of length `n`. -/
def minR {m n : ℕ} (i : Fin (min m n)) : Fin n := ⟨i.1, by omega⟩

structure LinAlg where
  /-- `la.qr(A, mode='economic')` -/
  qr : ∀ {m n : ℕ}, Matrix (Fin m) (Fin n) ℝ →
    Matrix (Fin m) (Fin (min m n)) ℝ × Matrix (Fin (min m n)) (Fin n) ℝ
  qr_mul : ∀ {m n : ℕ} (A : Matrix (Fin m) (Fin n) ℝ), (qr A).1 * (qr A).2 = A
  qr_orth : ∀ {m n : ℕ} (A : Matrix (Fin m) (Fin n) ℝ), (qr A).1ᵀ * (qr A).1 = 1
  qr_upper : ∀ {m n : ℕ} (A : Matrix (Fin m) (Fin n) ℝ) (i : Fin (min m n)) (j : Fin n),
    j.1 < i.1 → (qr A).2 i j = 0
  /-- `la.qr(A, mode='economic', pivoting=True)`: `A[:, J] = Q R`. -/
  qrp : ∀ {m n : ℕ}, Matrix (Fin m) (Fin n) ℝ →
    Matrix (Fin m) (Fin (min m n)) ℝ × Matrix (Fin (min m n)) (Fin n) ℝ × Equiv.Perm (Fin n)
  qrp_mul : ∀ {m n : ℕ} (A : Matrix (Fin m) (Fin n) ℝ),
    (qrp A).1 * (qrp A).2.1 = A.submatrix id (qrp A).2.2
  qrp_orth : ∀ {m n : ℕ} (A : Matrix (Fin m) (Fin n) ℝ), (qrp A).1ᵀ * (qrp A).1 = 1
  qrp_upper : ∀ {m n : ℕ} (A : Matrix (Fin m) (Fin n) ℝ) (i : Fin (min m n)) (j : Fin n),
    j.1 < i.1 → (qrp A).2.1 i j = 0
  /-- greedy pivoting: the `i`-th pivot is a remaining column of largest remaining norm -/
  qrp_pivot : ∀ {m n : ℕ} (A : Matrix (Fin m) (Fin n) ℝ) (i : Fin (min m n)) (j : Fin n),
    i.1 ≤ j.1 →
    ∑ l ∈ Finset.univ.filter (fun l => i ≤ l), (qrp A).2.1 l j ^ 2 ≤ (qrp A).2.1 i (minR i) ^ 2
  /-- `la.svd(A, full_matrices=False)` -/
  svd : ∀ {m n : ℕ}, Matrix (Fin m) (Fin n) ℝ →
    Matrix (Fin m) (Fin (min m n)) ℝ × (Fin (min m n) → ℝ) × Matrix (Fin (min m n)) (Fin n) ℝ
  svd_mul : ∀ {m n : ℕ} (A : Matrix (Fin m) (Fin n) ℝ),
    (svd A).1 * diagonal (svd A).2.1 * (svd A).2.2 = A
  svd_left : ∀ {m n : ℕ} (A : Matrix (Fin m) (Fin n) ℝ), (svd A).1ᵀ * (svd A).1 = 1
  svd_right : ∀ {m n : ℕ} (A : Matrix (Fin m) (Fin n) ℝ), (svd A).2.2 * (svd A).2.2ᵀ = 1
  svd_nonneg : ∀ {m n : ℕ} (A : Matrix (Fin m) (Fin n) ℝ) (i), 0 ≤ (svd A).2.1 i
  svd_anti : ∀ {m n : ℕ} (A : Matrix (Fin m) (Fin n) ℝ), Antitone (svd A).2.1
  /-- `la.svd(A)` (full matrices) -/
  svdFull : ∀ {m n : ℕ}, Matrix (Fin m) (Fin n) ℝ →
    Matrix (Fin m) (Fin m) ℝ × (Fin (min m n) → ℝ) × Matrix (Fin n) (Fin n) ℝ
  svdFull_mul : ∀ {m n : ℕ} (A : Matrix (Fin m) (Fin n) ℝ),
    (svdFull A).1.submatrix id minL * diagonal (svdFull A).2.1 *
      (svdFull A).2.2.submatrix minR id = A
  svdFull_left : ∀ {m n : ℕ} (A : Matrix (Fin m) (Fin n) ℝ), (svdFull A).1ᵀ * (svdFull A).1 = 1
  svdFull_right : ∀ {m n : ℕ} (A : Matrix (Fin m) (Fin n) ℝ),
    (svdFull A).2.2 * (svdFull A).2.2ᵀ = 1
  svdFull_nonneg : ∀ {m n : ℕ} (A : Matrix (Fin m) (Fin n) ℝ) (i), 0 ≤ (svdFull A).2.1 i
  svdFull_anti : ∀ {m n : ℕ} (A : Matrix (Fin m) (Fin n) ℝ), Antitone (svdFull A).2.1
  /-- `la.eigh(C)`: eigenvalues in ascending order, eigenvectors in the columns -/
  eigh : ∀ {n : ℕ}, Matrix (Fin n) (Fin n) ℝ → (Fin n → ℝ) × Matrix (Fin n) (Fin n) ℝ
  eigh_mul : ∀ {n : ℕ} (C : Matrix (Fin n) (Fin n) ℝ), Cᵀ = C →
    (eigh C).2 * diagonal (eigh C).1 * (eigh C).2ᵀ = C
  eigh_orth : ∀ {n : ℕ} (C : Matrix (Fin n) (Fin n) ℝ), Cᵀ = C → (eigh C).2ᵀ * (eigh C).2 = 1
  eigh_mono : ∀ {n : ℕ} (C : Matrix (Fin n) (Fin n) ℝ), Cᵀ = C → Monotone (eigh C).1
  /-- `la.cholesky(C, lower=False)` -/
  cholesky : ∀ {n : ℕ}, Matrix (Fin n) (Fin n) ℝ → Except PyErr (Matrix (Fin n) (Fin n) ℝ)
  chol_posDef : ∀ {n : ℕ} (C : Matrix (Fin n) (Fin n) ℝ), C.PosDef →
    ∃ R, cholesky C = .ok R ∧ Rᵀ * R = C ∧ (∀ i j, j < i → R i j = 0) ∧ ∀ i, 0 < R i i
  chol_fail : ∀ {n : ℕ} (C : Matrix (Fin n) (Fin n) ℝ), Cᵀ = C → ¬ C.PosDef →
    cholesky C = .error .linAlg
  /-- `la.lstsq(A, B)[0]` for 2-d `B`: the minimum-norm least squares solution of each column
  (simplification: the rank cutoff `cond` is taken to be exact). -/
  lstsq : ∀ {m n p : ℕ}, Matrix (Fin m) (Fin n) ℝ → Matrix (Fin m) (Fin p) ℝ →
    Matrix (Fin n) (Fin p) ℝ
  lstsq_normal : ∀ {m n p : ℕ} (A : Matrix (Fin m) (Fin n) ℝ) (B : Matrix (Fin m) (Fin p) ℝ),
    Aᵀ * (A * lstsq A B) = Aᵀ * B
  lstsq_row : ∀ {m n p : ℕ} (A : Matrix (Fin m) (Fin n) ℝ) (B : Matrix (Fin m) (Fin p) ℝ),
    ∃ W : Matrix (Fin m) (Fin p) ℝ, lstsq A B = Aᵀ * W
  /-- `P, L, U = la.lu(A)`: `A = P L U`. -/
  lu : ∀ {m n : ℕ}, Matrix (Fin m) (Fin n) ℝ →
    Equiv.Perm (Fin m) × Matrix (Fin m) (Fin (min m n)) ℝ × Matrix (Fin (min m n)) (Fin n) ℝ
  lu_mul : ∀ {m n : ℕ} (A : Matrix (Fin m) (Fin n) ℝ),
    permMat (lu A).1 * (lu A).2.1 * (lu A).2.2 = A
  lu_lower : ∀ {m n : ℕ} (A : Matrix (Fin m) (Fin n) ℝ) (i : Fin m) (j : Fin (min m n)),
    i.1 < j.1 → (lu A).2.1 i j = 0
  lu_unit : ∀ {m n : ℕ} (A : Matrix (Fin m) (Fin n) ℝ) (j : Fin (min m n)),
    (lu A).2.1 (minL j) j = 1
  lu_upper : ∀ {m n : ℕ} (A : Matrix (Fin m) (Fin n) ℝ) (i : Fin (min m n)) (j : Fin n),
    j.1 < i.1 → (lu A).2.2 i j = 0
  /-- `np.argsort(v)` (any tie-breaking) -/
  argsort : ∀ {n : ℕ}, (Fin n → ℝ) → Equiv.Perm (Fin n)
  argsort_mono : ∀ {n : ℕ} (v : Fin n → ℝ), Monotone (v ∘ argsort v)

/-- `la.lstsq(A, b)[0]` for 1-d `b`. -/
def LinAlg.lstsqv (la : LinAlg) {m n : ℕ} (A : Matrix (Fin m) (Fin n) ℝ) (b : Fin m → ℝ) :
    Fin n → ℝ :=
  fun i => la.lstsq A (Matrix.of fun i (_ : Fin 1) => b i) i 0

/-- The upper triangle of a square array: the part `la.solve_triangular(R, _, lower=False)`
references. -/
def triu {n : ℕ} (R : Matrix (Fin n) (Fin n) ℝ) : Matrix (Fin n) (Fin n) ℝ :=
  Matrix.of fun i j => if i ≤ j then R i j else 0

open Classical in
/-- `la.solve_triangular(R, B, lower=False)`; raises `LinAlgError` on a zero diagonal entry. -/
noncomputable def solveUpper {n p : ℕ} (R : Matrix (Fin n) (Fin n) ℝ)
    (B : Matrix (Fin n) (Fin p) ℝ) : Except PyErr (Matrix (Fin n) (Fin p) ℝ) :=
  if ∃ i, R i i = 0 then .error .linAlg else .ok ((triu R)⁻¹ * B)

open Classical in
/-- `la.solve_triangular(R, B, lower=False, trans='T')` -/
noncomputable def solveUpperT {n p : ℕ} (R : Matrix (Fin n) (Fin n) ℝ)
    (B : Matrix (Fin n) (Fin p) ℝ) : Except PyErr (Matrix (Fin n) (Fin p) ℝ) :=
  if ∃ i, R i i = 0 then .error .linAlg else .ok (((triu R)ᵀ)⁻¹ * B)

open Classical in
/-- `la.solve_triangular(R, b, lower=False)` for a 1-d right-hand side -/
noncomputable def solveUpperv {n : ℕ} (R : Matrix (Fin n) (Fin n) ℝ) (b : Fin n → ℝ) :
    Except PyErr (Fin n → ℝ) :=
  if ∃ i, R i i = 0 then .error .linAlg else .ok ((triu R)⁻¹ *ᵥ b)

open Classical in
/-- `la.solve_triangular(R, b, 'T', lower=False)` for a 1-d right-hand side -/
noncomputable def solveUpperTv {n : ℕ} (R : Matrix (Fin n) (Fin n) ℝ) (b : Fin n → ℝ) :
    Except PyErr (Fin n → ℝ) :=
  if ∃ i, R i i = 0 then .error .linAlg else .ok (((triu R)ᵀ)⁻¹ *ᵥ b)

end Parla
