import Verif.Base.RoundingVec
import Verif.Model.PcSS1

/-! # `pcg` and `PcSS1` with rounding errors

The definitions follow Model/PCG and Model/PcSS1 line by line, with every operation on vectors and scalars taken from a
structure `FlVec`; `C85_exact` says that exact operations give back those models. -/

namespace Parla

open Matrix

variable {m n r : ℕ}

/-- The loop body of `pcg`: parla/comps/determiter/pcg.py:27-44.  A non-finite `alpha` or direction ends in the `ValueError`
of `la.norm(r)`, as in the model with exact arithmetic (`pcgStep`). -/
noncomputable def pcgStepFl (fl : FlVec) (mvMat mvPre : (Fin n → ℝ) → Fin n → ℝ) (rhs : Fin n → ℝ)
    (s : PCGState n) : Except PyErr (PCGState n) :=
  match s.d with
  | none => .error .value
  | some d =>
    let log := s.log ++ [s.curErr]
    let q := mvMat d
    let den := fl.dot d q
    match fl.div s.delta1 den with
    | none => .error .value
    | some alpha =>
      let x := fl.add s.x (fl.smul alpha d)
      let r := if s.i % 10 = 0 then fl.sub rhs (mvMat x) else fl.sub s.r (fl.smul alpha q)
      let curErr := fl.norm r
      let sv := mvPre r
      let deltaOld := s.delta1
      let deltaNew := fl.dot r sv
      let d' := match fl.div deltaNew deltaOld with
        | none => none
        | some beta => some (fl.add sv (fl.smul beta d))
      .ok ⟨x, r, d', deltaNew, curErr, log, s.i + 1⟩

open Classical in
/-- `while i < iter_lim and cur_err > rel_tol` (parla/comps/determiter/pcg.py:26); the first argument is `iter_lim - i`. -/
noncomputable def pcgLoopFl (fl : FlVec) (mvMat mvPre : (Fin n → ℝ) → Fin n → ℝ) (rhs : Fin n → ℝ)
    (relTol : ℝ) : ℕ → PCGState n → Except PyErr (PCGState n)
  | 0, s => .ok s
  | k + 1, s =>
    if s.curErr > relTol then
      match pcgStepFl fl mvMat mvPre rhs s with
      | .ok s' => pcgLoopFl fl mvMat mvPre rhs relTol k s'
      | .error e => .error e
    else .ok s

/-- The variables before the loop: parla/comps/determiter/pcg.py:15-25. -/
noncomputable def pcgInitFl (fl : FlVec) (mvMat mvPre : (Fin n → ℝ) → Fin n → ℝ) (rhs x0 : Fin n → ℝ) : PCGState n :=
  let r := fl.sub rhs (mvMat x0)
  let d := mvPre r
  ⟨x0, r, some d, fl.dot r d, fl.norm r, [], 0⟩

/-- `pcg(mv_mat, rhs, mv_pre, iter_lim, tol, x0)`: parla/comps/determiter/pcg.py:5-47. -/
noncomputable def pcgFl (fl : FlVec) (mvMat : (Fin n → ℝ) → Fin n → ℝ) (rhs : Fin n → ℝ)
    (mvPre : (Fin n → ℝ) → Fin n → ℝ) (iterLim : ℤ) (tol : ℝ) (x0 : Fin n → ℝ) :
    Except PyErr ((Fin n → ℝ) × List ℝ) :=
  if iterLim < 0 then .error .value
  else
    let s := pcgInitFl fl mvMat mvPre rhs x0
    match pcgLoopFl fl mvMat mvPre rhs (fl.mul tol s.curErr) iterLim.toNat s with
    | .ok t => .ok (t.x, t.log)
    | .error e => .error e

/-- `mv_gram` (parla/comps/determiter/saddle.py:155-159) -/
noncomputable def mvGramFl (fl : FlVec) (A : Matrix (Fin m) (Fin n) ℝ) (delta : ℝ) (vec : Fin n → ℝ) : Fin n → ℝ :=
  fl.add (fl.mulv Aᵀ (fl.mulv A vec)) (fl.smul delta vec)

/-- `rhs = A.T @ b`, minus `c` unless `c is None` (parla/comps/determiter/saddle.py:161-163) -/
noncomputable def normalRhsFl (fl : FlVec) (A : Matrix (Fin m) (Fin n) ℝ) (b : Fin m → ℝ) : Option (Fin n → ℝ) → Fin n → ℝ
  | none => fl.mulv Aᵀ b
  | some c => fl.sub (fl.mulv Aᵀ b) c

/-- The starting point (parla/comps/determiter/saddle.py:165-169). -/
noncomputable def pcss1StartFl (fl : FlVec) (R : Matrix (Fin n) (Fin r) ℝ) (z0 : Option (Fin r → ℝ)) : Fin n → ℝ :=
  if r = n then match z0 with
    | none => 0
    | some z => fl.mulv R z
  else 0

/-- `PcSS1()(A, b, c, delta, tol, iter_lim, R, upper_tri=False, z0)` for 1-d `b`: parla/comps/determiter/saddle.py:125-176.
`pre R delta` is what lines 127-153 make of `R` (the function `mv_pre` and the new content of `R`), by whatever arithmetic;
with exact arithmetic it is `pcss1Pre`. -/
noncomputable def pcss1CoreFl (fl : FlVec)
    (pre : Matrix (Fin n) (Fin r) ℝ → ℝ → Except PyErr (((Fin n → ℝ) → Fin n → ℝ) × Matrix (Fin n) (Fin r) ℝ))
    (A : Matrix (Fin m) (Fin n) ℝ) (b : Fin m → ℝ) (c : Option (Fin n → ℝ))
    (delta tol : ℝ) (iterLim : ℤ) (R : Matrix (Fin n) (Fin r) ℝ) (z0 : Option (Fin r → ℝ)) :
    Except PyErr (SaddleOut m n) :=
  match pre R delta with
  | .error e => .error e
  | .ok (mvPre, R') =>
    match pcgFl fl (mvGramFl fl A delta) (normalRhsFl fl A b c) mvPre iterLim tol (pcss1StartFl fl R' z0) with
    | .error e => .error e
    | .ok (x, residuals) => .ok ⟨some x, fl.sub b (fl.mulv A x), .arr residuals⟩

end Parla
