import Verif.Model.Rounding
import Verif.Model.Interpolative

/-! # parla's interpolative decompositions with rounding errors

The same code as `qrcpCol`, `OSID1` and `tsid1Call` of Model/Interpolative, products, pivoted QR factorisations and triangular
solves being those of a machine; with exact operations these definitions are those (theorem C102_exact).  Transposition, slicing,
permutations and the literal identity block are exact. -/

namespace Parla

open Matrix Spec

variable {G : Type}

/-- The operations the interpolative decompositions perform beside those of `FlAlg`. -/
structure FlID extends FlAlg where
  /-- `la.qr(A, mode='economic', pivoting=True)` -/
  qrp : ∀ {m n : ℕ}, Matrix (Fin m) (Fin n) ℝ →
    Matrix (Fin m) (Fin (min m n)) ℝ × Matrix (Fin (min m n)) (Fin n) ℝ × Equiv.Perm (Fin n)
  /-- `la.solve_triangular(R, B, lower=False)` -/
  solve : ∀ {n p : ℕ}, Matrix (Fin n) (Fin n) ℝ → Matrix (Fin n) (Fin p) ℝ → Except PyErr (Matrix (Fin n) (Fin p) ℝ)

/-- Exact arithmetic with the kernels of `la`. -/
noncomputable def exactID (la : LinAlg) : FlID where
  toFlAlg := exactFl la
  qrp := la.qrp
  solve := solveUpper

/-- The operations are accurate to `ε` on arrays whose dimensions are at most `N` (Higham, *Accuracy and Stability of Numerical
Algorithms*: 19.4 for Householder QR, with or without interchanges, 8.5 for triangular systems).  Nothing is assumed about how the
pivots were chosen. -/
structure FlID.Accurate (fl : FlID) (N : ℕ) (ε : ℝ) : Prop where
  alg : fl.toFlAlg.Accurate N ε
  /-- the computed factor `R` is upper trapezoidal, and with an orthonormal `Q'` factors the permuted matrix up to `ε` -/
  qrp : ∀ {m n : ℕ} (Y : Matrix (Fin m) (Fin n) ℝ), m ≤ N → n ≤ N → ∃ Q' : Matrix (Fin m) (Fin (min m n)) ℝ,
    OrthoCols Q' ∧ fro (Q' * (fl.qrp Y).2.1 - Y.submatrix id (fl.qrp Y).2.2) ≤ ε * fro Y
  qrp_upper : ∀ {m n : ℕ} (Y : Matrix (Fin m) (Fin n) ℝ) (i : Fin (min m n)) (j : Fin n), j.1 < i.1 → (fl.qrp Y).2.1 i j = 0
  /-- a triangular system that could be solved was solved with a residual of at most `ε ‖R‖ ‖X‖` -/
  solve : ∀ {n p : ℕ} (R : Matrix (Fin n) (Fin n) ℝ) (Z X : Matrix (Fin n) (Fin p) ℝ), n ≤ N → p ≤ N →
    (∀ i j, j < i → R i j = 0) → fl.solve R Z = .ok X → fro (R * X - Z) ≤ ε * fro R * fro X

/-- The branch `axis == 1` of `qrcp_osid` (parla/comps/interpolative.py:50-60), as `qrcpCol`. -/
def qrcpColFl (fl : FlID) {m n : ℕ} (Y : Matrix (Fin m) (Fin n) ℝ) (k : ℕ) : Except PyErr (ColID n) :=
  if h : k ≤ min m n then do
    let S := (fl.qrp Y).2.1
    let J := (fl.qrp Y).2.2
    let lead : Matrix (Fin k) (Fin k) ℝ := S.submatrix (Fin.castLE h) (Fin.castLE (h.trans (min_le_right m n)))
    let trail : Matrix (Fin k) (Fin (n - k)) ℝ := S.submatrix (Fin.castLE h) (fun j => ⟨k + j.1, by omega⟩)
    let T ← fl.solve lead trail
    .ok ⟨k, (eyeStack T).submatrix id J.symm, J ∘ Fin.castLE (h.trans (min_le_right m n))⟩
  else .error .value

/-- The branch `axis == 0` of `qrcp_osid` (parla/comps/interpolative.py:61-65), as `qrcpRow`. -/
def qrcpRowFl (fl : FlID) {m n : ℕ} (Y : Matrix (Fin m) (Fin n) ℝ) (k : ℕ) : Except PyErr (RowID m) := do
  let o ← qrcpColFl fl Yᵀ k
  .ok ⟨o.c, o.Xᵀ, o.Js⟩

/-- parla/drivers/interpolative.py:112-113, as `sketchRows`. -/
def sketchRowsFl (fl : FlID) (skOp : RowSketcher G) {m n : ℕ} (A : Matrix (Fin m) (Fin n) ℝ) (k over : ℕ) : Py G (Cols m) := do
  let Sk ← skOp m n A (k + over)
  passAFl fl.toFlAlg A Sk

/-- parla/drivers/interpolative.py:118-119, as `sketchCols`. -/
def sketchColsFl (fl : FlID) (skOp : RowSketcher G) {m n : ℕ} (A : Matrix (Fin m) (Fin n) ℝ) (k over : ℕ) : Py G (Cols n) := do
  let Sk ← skOp n m Aᵀ (k + over)
  passAFl fl.toFlAlg Aᵀ Sk

/-- `OSID1.__call__`: parla/drivers/interpolative.py:107-123, as `OSID1`. -/
def OSID1Fl (fl : FlID) (skOp : RowSketcher G) : OneSidedID G where
  row := fun _ _ A k over => do
    let Y ← sketchRowsFl fl skOp A k over
    Py.lift (qrcpRowFl fl Y.mat k)
  col := fun _ _ A k over => do
    let Yt ← sketchColsFl fl skOp A k over
    Py.lift (qrcpColFl fl Yt.matᵀ k)

/-- `osid1(A, k, over, p, axis, rng)`: parla/drivers/interpolative.py:88-94. -/
def osid1Fl (fl : FlID) (gauss : SkOpGen G) {m n : ℕ} (A : Matrix (Fin m) (Fin n) ℝ) (k over : ℕ) (p : ℤ) (axis : ℤ) :
    Py G (IDOut m n) :=
  (OSID1Fl fl (RS1Fl fl.toFlAlg gauss (p - 1) (orthFl fl.toFlAlg) 1)).call A k over axis

/-- `TSID1.__call__`: parla/drivers/interpolative.py:269-278, as `tsid1Call`. -/
def tsid1CallFl (fl : FlID) (osid : OneSidedID G) {m n : ℕ} (A : Matrix (Fin m) (Fin n) ℝ) (k over : ℕ) : Py G (TSIDOut m n) :=
  if m > n then do
    let X ← osid.col m n A k over
    let Z ← Py.lift (qrcpRowFl fl (A.submatrix id X.Js) k)
    pure ⟨Z, X⟩
  else do
    let Z ← osid.row m n A k over
    let X ← Py.lift (qrcpColFl fl (A.submatrix Z.Is id) k)
    pure ⟨Z, X⟩

/-- `tsid1(A, k, over, p, rng)`: parla/drivers/interpolative.py:247-254. -/
def tsid1Fl (fl : FlID) (gauss : SkOpGen G) {m n : ℕ} (A : Matrix (Fin m) (Fin n) ℝ) (k over : ℕ) (p : ℤ) : Py G (TSIDOut m n) :=
  tsid1CallFl fl (OSID1Fl fl (RS1Fl fl.toFlAlg gauss (p - 1) (orthFl fl.toFlAlg) 1)) A k over

end Parla
