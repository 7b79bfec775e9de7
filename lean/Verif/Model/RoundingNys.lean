import Verif.Model.Rounding
import Verif.Model.EVD

/-! # parla's EVD2 with rounding errors

The same code as `evd2Comps`, `evd2Post`, `evd2Call` and `evd2` of Model/EVD, every operation on arrays and floats being that of
a machine; with exact operations these definitions are those (theorem C101_exact).  Transposition, slicing and comparisons are
exact. -/

namespace Parla

open Matrix Spec

variable {G : Type} {n : ℕ}

/-- The operations `EVD2` performs beside those of `FlAlg`. -/
structure FlNys extends FlAlg where
  /-- `np.sqrt(x)` -/
  sqrt : ℝ → ℝ
  /-- `Y + nu*S` -/
  axpy : ∀ {m n : ℕ}, Matrix (Fin m) (Fin n) ℝ → ℝ → Matrix (Fin m) (Fin n) ℝ → Matrix (Fin m) (Fin n) ℝ
  /-- `la.cholesky(C, lower=False)` -/
  chol : ∀ {n : ℕ}, Matrix (Fin n) (Fin n) ℝ → Except PyErr (Matrix (Fin n) (Fin n) ℝ)
  /-- `la.solve_triangular(R, Z, lower=False, trans=True)` -/
  solveT : ∀ {n p : ℕ}, Matrix (Fin n) (Fin n) ℝ → Matrix (Fin n) (Fin p) ℝ → Except PyErr (Matrix (Fin n) (Fin p) ℝ)
  /-- `la.svd(B)` (full matrices) -/
  svdFull : ∀ {m n : ℕ}, Matrix (Fin m) (Fin n) ℝ →
    Matrix (Fin m) (Fin m) ℝ × (Fin (min m n) → ℝ) × Matrix (Fin n) (Fin n) ℝ

/-- Exact arithmetic with the kernels of `la`. -/
noncomputable def exactNys (la : LinAlg) : FlNys where
  toFlAlg := exactFl la
  sqrt := Real.sqrt
  axpy Y nu S := Y + nu • S
  chol := la.cholesky
  solveT := solveUpperT
  svdFull := la.svdFull

/-- The symmetric matrix `la.cholesky(C, lower=False)` sees: it reads the upper triangle of its argument only. -/
def upSym (C : Matrix (Fin n) (Fin n) ℝ) : Matrix (Fin n) (Fin n) ℝ := fun i j => if i ≤ j then C i j else C j i

/-- The operations are accurate to `ε` on arrays whose dimensions are at most `N` (Higham, *Accuracy and Stability of Numerical
Algorithms*: 10.3 and 10.7 for Cholesky, 8.5 for triangular systems). -/
structure FlNys.Accurate (fl : FlNys) (N : ℕ) (ε : ℝ) : Prop where
  alg : fl.toFlAlg.Accurate N ε
  sqrt : ∀ x : ℝ, 0 ≤ x → |fl.sqrt x - √x| ≤ ε * √x
  axpy : ∀ {m n : ℕ} (Y : Matrix (Fin m) (Fin n) ℝ) (nu : ℝ) (S : Matrix (Fin m) (Fin n) ℝ), m ≤ N → n ≤ N →
    fro (fl.axpy Y nu S - (Y + nu • S)) ≤ ε * (fro Y + |nu| * fro S)
  /-- a Cholesky factor is upper triangular with positive diagonal, and that of a matrix within `ε` -/
  chol : ∀ {n : ℕ} (C R : Matrix (Fin n) (Fin n) ℝ), n ≤ N → fl.chol C = .ok R →
    (∀ i j, j < i → R i j = 0) ∧ (∀ i, 0 < R i i) ∧ fro (Rᵀ * R - upSym C) ≤ ε * fro (upSym C)
  /-- the Cholesky factorisation only fails if a matrix within `ε` is not positive definite -/
  chol_fail : ∀ {n : ℕ} (C : Matrix (Fin n) (Fin n) ℝ) (e : PyErr), n ≤ N → fl.chol C = .error e →
    ∃ v, v ≠ 0 ∧ v ⬝ᵥ (upSym C *ᵥ v) ≤ ε * fro (upSym C) * sqNorm v
  /-- a triangular system with nonzero diagonal is solved, with a residual of at most `ε ‖R‖ ‖X‖` -/
  solveT : ∀ {n p : ℕ} (R : Matrix (Fin n) (Fin n) ℝ) (Z : Matrix (Fin n) (Fin p) ℝ), n ≤ N → p ≤ N →
    (∀ i j, j < i → R i j = 0) → (∀ i, R i i ≠ 0) → ∃ X, fl.solveT R Z = .ok X ∧ fro (Rᵀ * X - Z) ≤ ε * fro R * fro X
  /-- computed singular vectors are within `ε` of orthogonal ones, which with the computed singular values make an SVD of a
  matrix within `ε` -/
  svdFull : ∀ {m n : ℕ} (B : Matrix (Fin m) (Fin n) ℝ), m ≤ N → n ≤ N →
    ∃ (U' : Matrix (Fin m) (Fin m) ℝ) (V' : Matrix (Fin n) (Fin n) ℝ), OrthoCols U' ∧ OrthoRows V' ∧
      fro ((fl.svdFull B).1 - U') ≤ ε ∧ fro ((fl.svdFull B).2.2 - V') ≤ ε ∧
      fro (U'.submatrix id minL * diagonal (fl.svdFull B).2.1 * V'.submatrix minR id - B) ≤ ε * fro B
  svdFull_nonneg : ∀ {m n : ℕ} (B : Matrix (Fin m) (Fin n) ℝ) (i), 0 ≤ (fl.svdFull B).2.1 i
  svdFull_anti : ∀ {m n : ℕ} (B : Matrix (Fin m) (Fin n) ℝ), Antitone (fl.svdFull B).2.1

/-- parla/drivers/evd.py:376-379, as `evd2Comps`. -/
noncomputable def evd2CompsFl (fl : FlNys) {p : ℕ} (sigma : Fin p → ℝ) (nu : ℝ) : List ℕ → List ℕ → Except PyErr (List ℕ)
  | comps, [] => .ok comps
  | comps, i :: l =>
    if h : i + 1 < p then
      if fl.smul (sigma ⟨i + 1, h⟩) (sigma ⟨i + 1, h⟩) ≤ nu then evd2CompsFl fl sigma nu (comps ++ [i]) l
      else evd2CompsFl fl sigma nu comps l
    else .error .index

/-- `nu = np.sqrt(n) * epsilon_mach * la.norm(Y)` with `Y = A @ S` (parla/drivers/evd.py:365-367). -/
noncomputable def evd2NuFl (fl : FlNys) {c : ℕ} (A : Matrix (Fin n) (Fin n) ℝ) (S : Matrix (Fin n) (Fin c) ℝ) : ℝ :=
  fl.smul (fl.smul (fl.sqrt n) eps) (fl.norm (fl.mul A S))

/-- The part of `EVD2.__call__` after the sketch (parla/drivers/evd.py:365-384), as `evd2Post`. -/
noncomputable def evd2PostFl (fl : FlNys) (A : Matrix (Fin n) (Fin n) ℝ) (k : ℕ) (S : Cols n) : Except PyErr (EVDOut n) := do
  let nu := evd2NuFl fl A S.mat
  let Y := fl.axpy (fl.mul A S.mat) nu S.mat
  let R ← fl.chol (fl.mul S.matᵀ Y)
  let Bt ← fl.solveT R Yᵀ
  let B := Btᵀ
  let V := (fl.svdFull B).1
  let sigma := (fl.svdFull B).2.1
  let comps ← evd2CompsFl fl sigma nu [k] (List.range (k - 1))
  let r := comps.foldl min k
  .ok ⟨min r (min n S.c), V.submatrix id (minL ∘ takeIdx r (min n S.c)),
    fun i => fl.ssub (fl.smul (takev r sigma i) (takev r sigma i)) nu⟩

/-- `EVD2.__call__`: parla/drivers/evd.py:299-384. -/
noncomputable def evd2CallFl (fl : FlNys) (skOp : RowSketcher G) (A : Matrix (Fin n) (Fin n) ℝ) (k : ℤ) (tol : Tol) (over : ℕ) :
    Py G (EVDOut n) := do
  Py.assert (k > 0)
  Py.assert (k < n)
  if ¬ tol.isNaN then Py.warn else pure ()
  let S ← skOp n n A (k + over).toNat
  Py.emit .mulA
  Py.lift (evd2PostFl fl A k.toNat S)

/-- `evd2(A, k, over, num_passes, rng)`: parla/drivers/evd.py:99-164. -/
noncomputable def evd2Fl (fl : FlNys) (gauss : SkOpGen G) (A : Matrix (Fin n) (Fin n) ℝ) (k : ℤ) (over : ℕ) (numPasses : ℤ) :
    Py G (EVDOut n) := do
  Py.assert (numPasses ≥ 1)
  evd2CallFl fl (RS1Fl fl.toFlAlg gauss (numPasses - 1) (orthFl fl.toFlAlg) 1) A k .nan over

end Parla
