import Verif.Base.Rounding

/-!
# Arithmetic with rounding errors: the kernels of the least squares drivers

`FlLS` adds to `FlAlg` the operations that the sketching and factorisation stages of `SSO1`, `SPO` and `SPU1` perform;
`FlLS.Accurate` is their first-order specification (Higham, *Accuracy and Stability of Numerical Algorithms*: 3.5 for products,
10.3 and 10.7 for Cholesky, 20.3 for least squares).  The drivers `gelsd` and `gelsy` of `la.lstsq` discard singular values below
`eps` times the largest, which is one more perturbation of the matrix by that amount.
-/

namespace Parla

open Matrix Spec

/-- Array operations as a machine performs them. -/
structure FlLS extends FlAlg where
  /-- `X @ v` for 1-d `v` -/
  mulv : ∀ {m n : ℕ}, Matrix (Fin m) (Fin n) ℝ → (Fin n → ℝ) → Fin m → ℝ
  /-- `np.sqrt(x)`, `x ** 0.5` -/
  sqrt : ℝ → ℝ
  /-- `dsyrk(1.0, X, beta=delta, c=np.eye(n), trans=1)`, mirrored: `X.T @ X + delta * I` -/
  gram : ∀ {m n : ℕ}, Matrix (Fin m) (Fin n) ℝ → ℝ → Matrix (Fin n) (Fin n) ℝ
  /-- `la.cholesky(G)` -/
  chol : ∀ {n : ℕ}, Matrix (Fin n) (Fin n) ℝ → Except PyErr (Matrix (Fin n) (Fin n) ℝ)
  /-- `Vh.T / sigma` -/
  divCols : ∀ {r n : ℕ}, Matrix (Fin r) (Fin n) ℝ → (Fin r → ℝ) → Matrix (Fin n) (Fin r) ℝ
  /-- `la.lstsq(A, b)[0]` for 1-d `b` -/
  lstsqv : ∀ {m n : ℕ}, Matrix (Fin m) (Fin n) ℝ → (Fin m → ℝ) → Fin n → ℝ

/-- Exact arithmetic with the kernels of `la`. -/
noncomputable def exactLS (la : LinAlg) : FlLS where
  toFlAlg := exactFl la
  mulv X v := X *ᵥ v
  sqrt := Real.sqrt
  gram X δ := Xᵀ * X + δ • 1
  chol := la.cholesky
  divCols V s := Matrix.of fun i j => Vᵀ i j / s j
  lstsqv := la.lstsqv

/-- The operations are accurate to `ε` on arrays whose dimensions are at most `N`. -/
structure FlLS.Accurate (fl : FlLS) (N : ℕ) (ε : ℝ) : Prop where
  alg : fl.toFlAlg.Accurate N ε
  /-- the `R` of a QR factorisation is upper triangular -/
  qr_upper : ∀ {m n : ℕ} (A : Matrix (Fin m) (Fin n) ℝ) (i : Fin (min m n)) (j : Fin n), j.1 < i.1 → (fl.qr A).2 i j = 0
  /-- a product is off by at most `ε ‖X‖ ‖v‖` -/
  mulv : ∀ {m n : ℕ} (X : Matrix (Fin m) (Fin n) ℝ) (v : Fin n → ℝ), m ≤ N → n ≤ N →
    norm2 (fl.mulv X v - X *ᵥ v) ≤ ε * fro X * norm2 v
  /-- a square root has relative error at most `ε` -/
  sqrt : ∀ x : ℝ, 0 ≤ x → |fl.sqrt x - √x| ≤ ε * √x
  /-- a Gram matrix is symmetric and off by at most `ε (‖X‖² + n δ)` -/
  gram_symm : ∀ {m n : ℕ} (X : Matrix (Fin m) (Fin n) ℝ) (δ : ℝ), (fl.gram X δ)ᵀ = fl.gram X δ
  gram : ∀ {m n : ℕ} (X : Matrix (Fin m) (Fin n) ℝ) (δ : ℝ), 0 ≤ δ → m ≤ N → n ≤ N →
    fro (fl.gram X δ - (Xᵀ * X + δ • 1)) ≤ ε * (fro X ^ 2 + n * δ)
  /-- a Cholesky factor is upper triangular with positive diagonal, and that of a matrix within `ε` -/
  chol : ∀ {n : ℕ} (C R : Matrix (Fin n) (Fin n) ℝ), Cᵀ = C → n ≤ N → fl.chol C = .ok R →
    (∀ i j, j < i → R i j = 0) ∧ (∀ i, 0 < R i i) ∧ fro (Rᵀ * R - C) ≤ ε * fro C
  /-- the Cholesky factorisation only fails if a matrix within `ε` is not positive definite -/
  chol_fail : ∀ {n : ℕ} (C : Matrix (Fin n) (Fin n) ℝ) (e : PyErr), Cᵀ = C → n ≤ N → fl.chol C = .error e →
    e = .linAlg ∧ ∃ v, v ≠ 0 ∧ v ⬝ᵥ (C *ᵥ v) ≤ ε * fro C * sqNorm v
  /-- a quotient has relative error at most `ε` -/
  divCols : ∀ {r n : ℕ} (V : Matrix (Fin r) (Fin n) ℝ) (s : Fin r → ℝ) (i j),
    |fl.divCols V s i j - V j i / s j| ≤ ε * |V j i / s j|
  /-- a least squares solution solves a problem whose data are within `ε` -/
  lstsqv : ∀ {m n : ℕ} (A : Matrix (Fin m) (Fin n) ℝ) (b : Fin m → ℝ), m ≤ N → n ≤ N →
    ∃ (E : Matrix (Fin m) (Fin n) ℝ) (e : Fin m → ℝ), fro E ≤ ε * fro A ∧ norm2 e ≤ ε * norm2 b ∧
      ∀ z, norm2 ((A + E) *ᵥ fl.lstsqv A b - (b + e)) ≤ norm2 ((A + E) *ᵥ z - (b + e))

end Parla
