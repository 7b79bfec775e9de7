import Verif.Model.Sketching

/-! # Model of parla/comps/sketchers/oblivious.py -/

namespace Parla

open Matrix

variable {G : Type}

/-- What a call of a `SketchOpGen` object returns: an operator or `None`. -/
abbrev SkRes (r c : ℕ) := Option (SkLinOp r c)

/-- an array (dense or sparse) as an operator -/
def Py.asOp {r c : ℕ} (x : Py G (Matrix (Fin r) (Fin c) ℝ)) : Py G (SkRes r c) := do
  let S ← x
  pure (some (.ofMat S))

/-- `SketchOpGen.__call__`: parla/comps/sketchers/oblivious.py:25-28. -/
def sketchOpGenCall (r c : ℕ) : Py G (SkRes r c) := Py.raise .notImplemented

/-- `SkOpON.__call__`: parla/comps/sketchers/oblivious.py:31-35. -/
noncomputable def skOpONCall (la : LinAlg) (R : NpRng G) (r c : ℕ) : Py G (SkRes r c) :=
  (orthonormalOperator la R r c).asOp

/-- `SkOpGA(normalize).__call__`: parla/comps/sketchers/oblivious.py:38-45. -/
noncomputable def skOpGACall (R : NpRng G) (normalize : Bool) (r c : ℕ) : Py G (SkRes r c) :=
  (gaussianOperator R normalize r c).asOp

/-- `SkOpSJ(vec_nnz).__call__`: parla/comps/sketchers/oblivious.py:48-55. -/
noncomputable def skOpSJCall (R : NpRng G) (vecNnz : ℕ) (r c : ℕ) : Py G (SkRes r c) :=
  (sjltOperator R vecNnz r c).asOp

/-- `SkOpSS(density).__call__`: parla/comps/sketchers/oblivious.py:58-65; there is no `return`. -/
noncomputable def skOpSSCall (R : NpRng G) (density : ℝ) (r c : ℕ) : Py G (SkRes r c) := do
  let _ ← sparseSignOperator R density r c
  pure none

/-- `SkOpTC.__call__`: parla/comps/sketchers/oblivious.py:68-72. -/
noncomputable def skOpTCCall (la : LinAlg) (R : NpRng G) (r c : ℕ) : Py G (SkRes r c) := do
  let S ← srctOperator la R r c
  pure (some S)

/-- The array `S @ np.eye(q)` of an operator (a column whose product raises is replaced by zeros; this does not happen
for the operators of `srct_operator`, whose products are those of an array: `C47_srct_entries`). -/
def SkLinOp.toMat {p q : ℕ} (S : SkLinOp p q) : Matrix (Fin p) (Fin q) ℝ :=
  Matrix.of fun i j => match S.mv (Pi.single j 1) with
    | .ok v => v i
    | .error _ => 0

/-- `SkOpTC()` as the `sketch_op_gen` of a driver: parla/comps/sketchers/oblivious.py:68-72.  The drivers only multiply
by the operator (`S @ A`, `S @ b`: parla/drivers/least_squares.py), so the operator is represented by its array. -/
noncomputable def skOpTCGen (la : LinAlg) (R : NpRng G) : SkOpGen G := fun r c => do
  let S ← srctOperator la R r c
  pure S.toMat

/-- `SkOpIN(indices).__call__`: parla/comps/sketchers/oblivious.py:75-82. -/
def skOpINCall (R : NpRng G) (indices : Option (List ℕ)) (r c : ℕ) : Py G (SkRes r c) := do
  let S ← samplingOperator R indices r c
  pure (some S)

/-- The classes of parla/comps/sketchers/oblivious.py with their constructor arguments (their default
values are `normalize=True`, `vec_nnz=8`, `density=0.05`, `indices=None`). -/
inductive SketchClass where
  | base
  | ON
  | GA (normalize : Bool := true)
  | SJ (vecNnz : ℕ := 8)
  | SS (density : ℝ := 0.05)
  | TC
  | IN (indices : Option (List ℕ) := none)

/-- `cls(args)(n_rows, n_cols, rng)`: dynamic dispatch of `__call__`. -/
noncomputable def SketchClass.call (la : LinAlg) (R : NpRng G) : SketchClass → ∀ r c : ℕ, Py G (SkRes r c)
  | base => sketchOpGenCall
  | ON => skOpONCall la R
  | GA normalize => skOpGACall R normalize
  | SJ vecNnz => skOpSJCall R vecNnz
  | SS density => skOpSSCall R density
  | TC => skOpTCCall la R
  | IN indices => skOpINCall R indices

end Parla
