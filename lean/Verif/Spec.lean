import Verif.Base.Iface
import Mathlib.LinearAlgebra.Matrix.Rank

/-!
# Specification vocabulary

The small set of definitions used to *state* the properties, independent of the model of the
code.  (`colSpace M`, `fro M`, `norm2 v` of `Base/Mat` are the range, the Frobenius norm and
the Euclidean norm.)
-/

namespace Parla.Spec

open Matrix Parla

/-- `Q` has orthonormal columns. -/
def OrthoCols {m c : ℕ} (Q : Matrix (Fin m) (Fin c) ℝ) : Prop := Qᵀ * Q = 1

/-- `V` has orthonormal rows. -/
def OrthoRows {c n : ℕ} (V : Matrix (Fin c) (Fin n) ℝ) : Prop := V * Vᵀ = 1

/-- `M` has full column rank. -/
def FullColRank {m c : ℕ} (M : Matrix (Fin m) (Fin c) ℝ) : Prop := M.rank = c

/-- `x` minimises `‖A x - b‖² + δ ‖x‖²`. -/
def IsRidgeMin {m n : ℕ} (A : Matrix (Fin m) (Fin n) ℝ) (b : Fin m → ℝ) (δ : ℝ)
    (x : Fin n → ℝ) : Prop :=
  ∀ z, sqNorm (A *ᵥ x - b) + δ * sqNorm x ≤ sqNorm (A *ᵥ z - b) + δ * sqNorm z

/-- `(x, y)` solves the block system `[I A; A' -δI] [y; x] = [b; c]`. -/
def SolvesSaddle {m n : ℕ} (A : Matrix (Fin m) (Fin n) ℝ) (b : Fin m → ℝ) (c : Fin n → ℝ) (δ : ℝ)
    (x : Fin n → ℝ) (y : Fin m → ℝ) : Prop :=
  y + A *ᵥ x = b ∧ Aᵀ *ᵥ y - δ • x = c

/-- `y` is the minimum-norm solution of `A' y = c`. -/
def IsMinNormSol {m n : ℕ} (A : Matrix (Fin m) (Fin n) ℝ) (c : Fin n → ℝ) (y : Fin m → ℝ) : Prop :=
  Aᵀ *ᵥ y = c ∧ ∀ z, Aᵀ *ᵥ z = c → norm2 y ≤ norm2 z

/-- `M ≤ N` in the semidefinite order. -/
def LoewnerLE {n : ℕ} (M N : Matrix (Fin n) (Fin n) ℝ) : Prop :=
  ∀ x : Fin n → ℝ, x ⬝ᵥ (M *ᵥ x) ≤ x ⬝ᵥ (N *ᵥ x)

/-- symmetric positive semidefinite -/
def IsPSD {n : ℕ} (M : Matrix (Fin n) (Fin n) ℝ) : Prop :=
  Mᵀ = M ∧ ∀ x : Fin n → ℝ, 0 ≤ x ⬝ᵥ (M *ᵥ x)

/-- symmetric positive definite -/
def IsPD {n : ℕ} (M : Matrix (Fin n) (Fin n) ℝ) : Prop :=
  Mᵀ = M ∧ ∀ x : Fin n → ℝ, x ≠ 0 → 0 < x ⬝ᵥ (M *ᵥ x)

/-- `B` has numerically full column rank: `‖B x‖` lies between `lo ‖x‖` and `hi ‖x‖` with
`hi * n * eps < lo`. -/
def WellCond {p n : ℕ} (B : Matrix (Fin p) (Fin n) ℝ) : Prop :=
  ∃ lo hi : ℝ, (∀ x, lo * norm2 x ≤ norm2 (B *ᵥ x)) ∧ (∀ x, norm2 (B *ᵥ x) ≤ hi * norm2 x) ∧
    0 ≤ hi ∧ hi * n * eps < lo

/-- `S` preserves squared norms on the range of `A` up to a factor `1 ± ε`. -/
def Embeds {d m n : ℕ} (S : Matrix (Fin d) (Fin m) ℝ) (A : Matrix (Fin m) (Fin n) ℝ) (ε : ℝ) : Prop :=
  ∀ x, (1 - ε) * sqNorm (A *ᵥ x) ≤ sqNorm (S *ᵥ (A *ᵥ x)) ∧
    sqNorm (S *ᵥ (A *ᵥ x)) ≤ (1 + ε) * sqNorm (A *ᵥ x)

/-- The interpolation property of a column ID `A ≈ A[:, Js] X`: the indices are distinct and `X`
has an identity matrix at them. -/
def IsColInterp {c n : ℕ} (X : Matrix (Fin c) (Fin n) ℝ) (Js : Fin c → Fin n) : Prop :=
  Function.Injective Js ∧ X.submatrix id Js = 1

/-- The interpolation property of a row ID `A ≈ Z A[Is, :]`. -/
def IsRowInterp {m c : ℕ} (Z : Matrix (Fin m) (Fin c) ℝ) (Is : Fin c → Fin m) : Prop :=
  Function.Injective Is ∧ Z.submatrix Is id = 1

/-- The number of products with the data matrix or its transpose among some events. -/
def numPasses (l : List Ev) : ℕ := l.count .mulA + l.count .mulAT

end Parla.Spec
