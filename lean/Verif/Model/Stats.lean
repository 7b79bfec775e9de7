import Verif.Model.Sketching
import Mathlib.Analysis.SpecialFunctions.Log.Basic

/-! # Model of parla/utils/stats.py

Samples are 1-d arrays, given as lists. -/

namespace Parla

open Matrix

variable {G : Type}

/-- A NumPy float that can be `nan` or `-inf`. -/
inductive NpFlt where
  | nan
  | negInf
  | val (x : ℝ)

open Classical in
/-- `1 - a/b` for `a >= 0` and NumPy floats: `0/0` is `nan`, `a/0` is `inf`. -/
noncomputable def oneMinusDiv (a b : ℝ) : NpFlt :=
  if b = 0 then (if a = 0 then .nan else .negInf) else .val (1 - a / b)

/-- `np.mean(v)` (of an empty array: `nan`; its value is not used then) -/
noncomputable def mean {N : ℕ} (v : Fin N → ℝ) : ℝ := (∑ i, v i) / N

/-- `np.column_stack([np.ones(t.size), t])` -/
def designMat (t : List ℝ) : Matrix (Fin t.length) (Fin 2) ℝ :=
  Matrix.of fun i j => if j = 0 then 1 else t[i]

/-- The last statements of both functions (parla/utils/stats.py:23-28 and 51-56).  The arrays `t` and
`z` have the same length; `z` is read with default 0. -/
noncomputable def fitLine (la : LinAlg) (t z : List ℝ) : (Fin 2 → ℝ) × NpFlt :=
  let logy : Fin t.length → ℝ := fun i => z.getD i 0
  let mat := designMat t
  let fit := la.lstsqv mat logy
  let ss_tot := ∑ i, (logy i - mean logy) ^ 2
  let ss_res := ∑ i, (logy i - (mat *ᵥ fit) i) ^ 2
  (fit, oneMinusDiv ss_res ss_tot)

open Classical in
/-- `x[y > 0]` -/
noncomputable def keepX (x y : List ℝ) : List ℝ := ((x.zip y).filter fun p => 0 < p.2).map Prod.fst

open Classical in
/-- `y[y > 0]` -/
noncomputable def keepY (y : List ℝ) : List ℝ := y.filter fun v => 0 < v

open Classical in
/-- `loglinear_fit(x, y)`: parla/utils/stats.py:6-28. -/
noncomputable def loglinearFit (la : LinAlg) (x y : List ℝ) : Py G ((Fin 2 → ℝ) × NpFlt) := do
  Py.assert (x.length = y.length)
  let drop := decide (∃ v ∈ y, v ≤ 0)
  Py.warnIf drop
  let xs := if drop then keepX x y else x
  let ys := if drop then keepY y else y
  pure (fitLine la xs (ys.map Real.log))

open Classical in
/-- `loglog_fit(x, y)`: parla/utils/stats.py:31-56. -/
noncomputable def loglogFit (la : LinAlg) (x y : List ℝ) : Py G ((Fin 2 → ℝ) × NpFlt) := do
  Py.assert (x.length = y.length)
  let drop := decide (∃ v ∈ y, v ≤ 0)
  Py.warnIf drop
  let xs := if drop then keepX x y else x
  let ys := if drop then keepY y else y
  Py.raiseIf (∃ v ∈ xs, v ≤ 0) .value
  pure (fitLine la (xs.map Real.log) (ys.map Real.log))

end Parla
