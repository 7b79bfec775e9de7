import Verif.Base.Iface
import Verif.Spec

/-!
# Arithmetic with rounding errors

`FlAlg` is a second kernel interface: the operations PARLA's QB and SVD routines perform on arrays, as functions that return
*some* array.  `FlAlg.Accurate` is the usual first-order specification of such operations in floating point arithmetic
(Higham, *Accuracy and Stability of Numerical Algorithms*: 3.13 for products, 2.4 for the elementary operations, 19.4 for
Householder QR; LAPACK Users' Guide 4.9 for the SVD) in the Frobenius norm: each result is within `ε` of the exact one, or of
the exact result for data within `ε`.  `ε` is a modest multiple of the unit roundoff that depends on the dimensions, so the
specification is stated for dimensions up to `N`.  Overflow and underflow are not covered.
-/

namespace Parla

open Matrix Spec

/-- Array operations as a machine performs them. -/
structure FlAlg where
  /-- `X @ Y` -/
  mul : ∀ {m k n : ℕ}, Matrix (Fin m) (Fin k) ℝ → Matrix (Fin k) (Fin n) ℝ → Matrix (Fin m) (Fin n) ℝ
  /-- `X - Y` -/
  sub : ∀ {m n : ℕ}, Matrix (Fin m) (Fin n) ℝ → Matrix (Fin m) (Fin n) ℝ → Matrix (Fin m) (Fin n) ℝ
  /-- `la.qr(A, mode='economic')` -/
  qr : ∀ {m n : ℕ}, Matrix (Fin m) (Fin n) ℝ →
    Matrix (Fin m) (Fin (min m n)) ℝ × Matrix (Fin (min m n)) (Fin n) ℝ
  /-- `la.svd(A, full_matrices=False)` -/
  svd : ∀ {m n : ℕ}, Matrix (Fin m) (Fin n) ℝ →
    Matrix (Fin m) (Fin (min m n)) ℝ × (Fin (min m n) → ℝ) × Matrix (Fin (min m n)) (Fin n) ℝ
  /-- `la.norm(A, ord='fro')` -/
  norm : ∀ {m n : ℕ}, Matrix (Fin m) (Fin n) ℝ → ℝ
  /-- `x * y` of two floats; `x ** 2` is `x * x` -/
  smul : ℝ → ℝ → ℝ
  /-- `x - y` of two floats -/
  ssub : ℝ → ℝ → ℝ

/-- Exact arithmetic with the kernels of `la`. -/
noncomputable def exactFl (la : LinAlg) : FlAlg where
  mul X Y := X * Y
  sub X Y := X - Y
  qr := la.qr
  svd := la.svd
  norm := fro
  smul x y := x * y
  ssub x y := x - y

/-- The operations are accurate to `ε` on arrays whose dimensions are at most `N`. -/
structure FlAlg.Accurate (fl : FlAlg) (N : ℕ) (ε : ℝ) : Prop where
  /-- a product is off by at most `ε ‖X‖ ‖Y‖` -/
  mul : ∀ {m k n : ℕ} (X : Matrix (Fin m) (Fin k) ℝ) (Y : Matrix (Fin k) (Fin n) ℝ), m ≤ N → k ≤ N → n ≤ N →
    fro (fl.mul X Y - X * Y) ≤ ε * fro X * fro Y
  /-- a difference has relative error at most `ε` -/
  sub : ∀ {m n : ℕ} (X Y : Matrix (Fin m) (Fin n) ℝ), m ≤ N → n ≤ N → fro (fl.sub X Y - (X - Y)) ≤ ε * fro (X - Y)
  /-- the computed `Q` is within `ε` of an orthonormal one, which with the computed `R` factors a matrix within `ε` -/
  qr : ∀ {m n : ℕ} (A : Matrix (Fin m) (Fin n) ℝ), m ≤ N → n ≤ N → ∃ Q' : Matrix (Fin m) (Fin (min m n)) ℝ,
    OrthoCols Q' ∧ fro ((fl.qr A).1 - Q') ≤ ε ∧ fro (Q' * (fl.qr A).2 - A) ≤ ε * fro A
  /-- the computed singular vectors are within `ε` of orthonormal ones, which with the computed singular values make an SVD of
  a matrix within `ε` -/
  svd : ∀ {m n : ℕ} (A : Matrix (Fin m) (Fin n) ℝ), m ≤ N → n ≤ N →
    ∃ (U' : Matrix (Fin m) (Fin (min m n)) ℝ) (V' : Matrix (Fin (min m n)) (Fin n) ℝ),
      OrthoCols U' ∧ OrthoRows V' ∧ fro ((fl.svd A).1 - U') ≤ ε ∧ fro ((fl.svd A).2.2 - V') ≤ ε ∧
      fro (U' * diagonal (fl.svd A).2.1 * V' - A) ≤ ε * fro A
  /-- computed singular values are nonnegative and in order -/
  svd_nonneg : ∀ {m n : ℕ} (A : Matrix (Fin m) (Fin n) ℝ) (i), 0 ≤ (fl.svd A).2.1 i
  svd_anti : ∀ {m n : ℕ} (A : Matrix (Fin m) (Fin n) ℝ), Antitone (fl.svd A).2.1
  /-- norms and scalar operations have relative error at most `ε` -/
  norm : ∀ {m n : ℕ} (A : Matrix (Fin m) (Fin n) ℝ), m ≤ N → n ≤ N → |fl.norm A - fro A| ≤ ε * fro A
  smul : ∀ x y : ℝ, |fl.smul x y - x * y| ≤ ε * |x * y|
  ssub : ∀ x y : ℝ, |fl.ssub x y - (x - y)| ≤ ε * |x - y|

end Parla
