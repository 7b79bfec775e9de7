import Verif.Base.Py
import Verif.Base.Mat

/-! # Model of parla/comps/determiter/pcg.py -/

namespace Parla

open Matrix

/-- The local variables of `pcg` at the head of its loop (parla/comps/determiter/pcg.py:15-26).
`d = none` stands for a direction with non-finite entries (after a division `0/0` or `t/0` in
line 42).  `log` is `residuals[:i]`: line 29 writes position `i`, so the written positions are
exactly the first `i`, in order. -/
structure PCGState (n : ℕ) where
  x : Fin n → ℝ
  r : Fin n → ℝ
  d : Option (Fin n → ℝ)
  delta1 : ℝ
  curErr : ℝ
  log : List ℝ
  i : ℕ

open Classical in
/-- The loop body: parla/comps/determiter/pcg.py:27-44.  `delta1` is `delta1_new`.

If the direction is non-finite, or `den == 0` in line 32 so that `alpha` is, then `x` and `r` become
non-finite and `la.norm(r)` (SciPy's, which checks finiteness) raises `ValueError`. -/
noncomputable def pcgStep {n : ℕ} (mvMat mvPre : (Fin n → ℝ) → Fin n → ℝ) (rhs : Fin n → ℝ)
    (s : PCGState n) : Except PyErr (PCGState n) :=
  match s.d with
  | none => .error .value
  | some d =>
    let log := s.log ++ [s.curErr]
    let q := mvMat d
    let den := d ⬝ᵥ q
    if den = 0 then .error .value
    else
      let alpha := s.delta1 / den
      let x := s.x + alpha • d
      let r := if s.i % 10 = 0 then rhs - mvMat x else s.r - alpha • q
      let curErr := norm2 r
      let sv := mvPre r
      let deltaOld := s.delta1
      let deltaNew := r ⬝ᵥ sv
      let d' := if deltaOld = 0 then none else some (sv + (deltaNew / deltaOld) • d)
      .ok ⟨x, r, d', deltaNew, curErr, log, s.i + 1⟩

open Classical in
/-- `while i < iter_lim and cur_err > rel_tol` (parla/comps/determiter/pcg.py:26); the first
argument is `iter_lim - i`. -/
noncomputable def pcgLoop {n : ℕ} (mvMat mvPre : (Fin n → ℝ) → Fin n → ℝ) (rhs : Fin n → ℝ)
    (relTol : ℝ) : ℕ → PCGState n → Except PyErr (PCGState n)
  | 0, s => .ok s
  | k + 1, s =>
    if s.curErr > relTol then
      match pcgStep mvMat mvPre rhs s with
      | .ok s' => pcgLoop mvMat mvPre rhs relTol k s'
      | .error e => .error e
    else .ok s

/-- The variables before the loop: parla/comps/determiter/pcg.py:15-25. -/
noncomputable def pcgInit {n : ℕ} (mvMat mvPre : (Fin n → ℝ) → Fin n → ℝ) (rhs x0 : Fin n → ℝ) :
    PCGState n :=
  let r := rhs - mvMat x0
  let d := mvPre r
  ⟨x0, r, some d, r ⬝ᵥ d, norm2 r, [], 0⟩

/-- `pcg(mv_mat, rhs, mv_pre, iter_lim, tol, x0)`: parla/comps/determiter/pcg.py:5-47, returning
`(x, residuals)`.  A negative `iter_lim` makes `np.ones` raise `ValueError` (line 16). -/
noncomputable def pcg {n : ℕ} (mvMat : (Fin n → ℝ) → Fin n → ℝ) (rhs : Fin n → ℝ)
    (mvPre : (Fin n → ℝ) → Fin n → ℝ) (iterLim : ℤ) (tol : ℝ) (x0 : Fin n → ℝ) :
    Except PyErr ((Fin n → ℝ) × List ℝ) :=
  if iterLim < 0 then .error .value
  else
    let s := pcgInit mvMat mvPre rhs x0
    match pcgLoop mvMat mvPre rhs (tol * s.curErr) iterLim.toNat s with
    | .ok t => .ok (t.x, t.log)
    | .error e => .error e

end Parla
