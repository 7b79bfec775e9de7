import Verif.Model.Aware

/-! # Model of parla/comps/rangefinders.py -/

namespace Parla

open Matrix

variable {G : Type}

/-- `RF1.__call__`: parla/comps/rangefinders.py:131-188. -/
def rf1Call (la : LinAlg) (rso : RowSketcher G) {m n : ℕ} (A : Matrix (Fin m) (Fin n) ℝ)
    (k : ℤ) (tol : Tol) : Py G (Cols m) := do
  Py.assert (k > 0)
  Py.assert (k ≤ (min m n : ℕ))
  if ¬ tol.isNaN then Py.warn else pure ()
  let S ← rso m n A k.toNat
  let Y ← passA A S
  pure ⟨_, (la.qr Y.mat).1⟩

/-- An `RF1` object as a `RangeFinder`. -/
def RF1 (la : LinAlg) (rso : RowSketcher G) : RangeFinder G :=
  fun _ _ A k tol => rf1Call la rso A k tol

/-- `rf1(A, k, num_pass, rng)`: parla/comps/rangefinders.py:22-71; `gauss` models
`oblivious.SkOpGA()`.  Note the `tol` passed on is `0.0`, not NaN. -/
def rf1 (la : LinAlg) (gauss : SkOpGen G) {m n : ℕ} (A : Matrix (Fin m) (Fin n) ℝ) (k : ℤ)
    (numPass : ℤ) : Py G (Cols m) :=
  rf1Call la (RS1 gauss (numPass - 1) (orth la) 1) A k (.val 0)

end Parla
