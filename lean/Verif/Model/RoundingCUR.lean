import Verif.Model.RoundingID

/-! # parla's OSID2 and CUR1 with rounding errors

The same code as `OSID2` and `cur1Call` of Model/Interpolative, least squares solves being those of a machine as well; with exact
operations these definitions are those (theorem C103_exact). -/

namespace Parla

open Matrix Spec

variable {G : Type}

/-- The operations `OSID2` and `CUR1` perform. -/
structure FlCUR extends FlID where
  /-- `la.lstsq(M, B)[0]` for 2-d `B` -/
  lstsq : ∀ {m n p : ℕ}, Matrix (Fin m) (Fin n) ℝ → Matrix (Fin m) (Fin p) ℝ → Matrix (Fin n) (Fin p) ℝ

/-- Exact arithmetic with the kernels of `la`. -/
noncomputable def exactCUR (la : LinAlg) : FlCUR where
  toFlID := exactID la
  lstsq := la.lstsq

/-- The operations are accurate to `ε` on arrays whose dimensions are at most `N`: as for `FlID`, and each column of a computed least
squares solution solves a least squares problem whose data are within `ε` (Higham, *Accuracy and Stability of Numerical Algorithms*,
20.3; the perturbation depends on the column). -/
structure FlCUR.Accurate (fl : FlCUR) (N : ℕ) (ε : ℝ) : Prop where
  id : fl.toFlID.Accurate N ε
  lstsq : ∀ {m n p : ℕ} (M : Matrix (Fin m) (Fin n) ℝ) (B : Matrix (Fin m) (Fin p) ℝ) (j : Fin p), m ≤ N → n ≤ N → p ≤ N →
    ∃ (E : Matrix (Fin m) (Fin n) ℝ) (e : Fin m → ℝ), fro E ≤ ε * fro M ∧ norm2 e ≤ ε * norm2 (B.col j) ∧
      ∀ z, norm2 ((M + E) *ᵥ (fl.lstsq M B).col j - (B.col j + e)) ≤ norm2 ((M + E) *ᵥ z - (B.col j + e))

/-- `apply_pinv_on_left(target, operator)`: parla/utils/linalg_wrappers.py:27-30. -/
def applyPinvOnLeftFl (fl : FlCUR) {m n p : ℕ} (target : Matrix (Fin m) (Fin p) ℝ) (operator : Matrix (Fin m) (Fin n) ℝ) :
    Matrix (Fin n) (Fin p) ℝ :=
  fl.lstsq operator target

/-- `apply_pinv_on_right(target, operator)`: parla/utils/linalg_wrappers.py:33-36. -/
def applyPinvOnRightFl (fl : FlCUR) {m n p : ℕ} (target : Matrix (Fin p) (Fin n) ℝ) (operator : Matrix (Fin m) (Fin n) ℝ) :
    Matrix (Fin p) (Fin m) ℝ :=
  (fl.lstsq operatorᵀ targetᵀ)ᵀ

/-- `_, _, J = la.qr(Y, mode='economic', pivoting=True); J[:k]`, with `Y` given transposed
(parla/drivers/interpolative.py:163-164, 171-172), as `pivots`. -/
def pivotsFl (fl : FlCUR) {n : ℕ} (Yt : Cols n) (k : ℕ) : Skel n :=
  ⟨min k n, takev k (fl.qrp Yt.matᵀ).2.2⟩

/-- `OSID2.__call__`: parla/drivers/interpolative.py:156-176, as `OSID2`. -/
def OSID2Fl (fl : FlCUR) (skOp : RowSketcher G) : OneSidedID G where
  row := fun _ _ A k over => do
    let Y ← sketchRowsFl fl.toFlID skOp A k over
    let I := pivotsFl fl Y k
    pure ⟨I.c, applyPinvOnRightFl fl A (A.submatrix I.idx id), I.idx⟩
  col := fun _ _ A k over => do
    let Yt ← sketchColsFl fl.toFlID skOp A k over
    let J := pivotsFl fl Yt k
    pure ⟨J.c, applyPinvOnLeftFl fl A (A.submatrix id J.idx), J.idx⟩

/-- `osid2(A, k, over, p, axis, rng)`: parla/drivers/interpolative.py:137-143. -/
def osid2Fl (fl : FlCUR) (gauss : SkOpGen G) {m n : ℕ} (A : Matrix (Fin m) (Fin n) ℝ) (k over : ℕ) (p : ℤ) (axis : ℤ) :
    Py G (IDOut m n) :=
  (OSID2Fl fl (RS1Fl fl.toFlAlg gauss (p - 1) (orthFl fl.toFlAlg) 1)).call A k over axis

/-- `CUR1.__call__`: parla/drivers/interpolative.py:369-387, as `cur1Call`. -/
def cur1CallFl (fl : FlCUR) (osid : OneSidedID G) {m n : ℕ} (A : Matrix (Fin m) (Fin n) ℝ) (k over : ℕ) : Py G (CUROut m n) :=
  if m > n then do
    let X ← osid.col m n A k over
    let I := pivotsFl fl ⟨X.c, A.submatrix id X.Js⟩ k
    pure ⟨X.c, I.c, X.Js, applyPinvOnRightFl fl X.X (A.submatrix I.idx id), I.idx⟩
  else do
    let Z ← osid.row m n A k over
    let J := pivotsFl fl ⟨Z.c, (A.submatrix Z.Is id)ᵀ⟩ k
    pure ⟨J.c, Z.c, J.idx, applyPinvOnLeftFl fl Z.Z (A.submatrix id J.idx), Z.Is⟩

/-- `cur1(A, k, over, p, rng)`: parla/drivers/interpolative.py:348-355 (note `p - 2`). -/
def cur1Fl (fl : FlCUR) (gauss : SkOpGen G) {m n : ℕ} (A : Matrix (Fin m) (Fin n) ℝ) (k over : ℕ) (p : ℤ) : Py G (CUROut m n) :=
  cur1CallFl fl (OSID1Fl fl.toFlID (RS1Fl fl.toFlAlg gauss (p - 2) (orthFl fl.toFlAlg) 1)) A k over

end Parla
