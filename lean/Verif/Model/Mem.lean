import Verif.Base.Mem
import Verif.Model.PcSS2
import Verif.Model.SaddleSys

/-! # The iterative solvers and saddle point drivers with arrays as mutable objects

A second model of parla/comps/determiter/pcg.py, of parla/comps/determiter/lsqr.py,
parla/comps/preconditioning.py, parla/comps/determiter/saddle.py and of the main phases of
parla/drivers/saddlesys.py, statement by statement, in which an argument is the address of an array
(`Base/Mem`).  Numbers, lists of logged numbers (local arrays that are never shared) and operators
drawn by the sketching functions are passed by value. -/

namespace Parla

open Matrix

variable {m n r : ℕ}

/-! ## pcg -/

/-- The local variables of `pcg` at the head of its loop (parla/comps/determiter/pcg.py:15-26):
`x`, `r`, `d` are addresses. -/
structure PCGRefs where
  x : ℕ
  r : ℕ
  d : Option ℕ
  delta1 : ℝ
  curErr : ℝ
  log : List ℝ
  i : ℕ

open Classical in
/-- The loop body: parla/comps/determiter/pcg.py:27-44.  Line 33 and line 37 work in place; all other
assignments bind a name to a new array, or (lines 30, 39) to what the function handle returned.
`d = none` is as in `PCGState`. -/
noncomputable def pcgStepM (n : ℕ) (mvMat mvPre : ℕ → Mem ℕ) (rhs : ℕ) (s : PCGRefs) : Mem PCGRefs :=
  match s.d with
  | none => Mem.raise .value
  | some d => do
    let log := s.log ++ [s.curErr]
    let q ← mvMat d
    let den := (← getVec n d) ⬝ᵥ (← getVec n q)
    if den = 0 then Mem.raise .value
    else
      let alpha := s.delta1 / den
      setVec s.x ((← getVec n s.x) + alpha • (← getVec n d))
      let r ← (if s.i % 10 = 0 then do
          let t ← mvMat s.x
          newVec ((← getVec n rhs) - (← getVec n t))
        else do
          setVec s.r ((← getVec n s.r) - alpha • (← getVec n q))
          pure s.r : Mem ℕ)
      let curErr := norm2 (← getVec n r)
      let sv ← mvPre r
      let deltaOld := s.delta1
      let deltaNew := (← getVec n r) ⬝ᵥ (← getVec n sv)
      let d' ← (if deltaOld = 0 then pure none else do
        let a ← newVec ((← getVec n sv) + (deltaNew / deltaOld) • (← getVec n d))
        pure (some a) : Mem (Option ℕ))
      pure ⟨s.x, r, d', deltaNew, curErr, log, s.i + 1⟩

open Classical in
/-- `while i < iter_lim and cur_err > rel_tol` (parla/comps/determiter/pcg.py:26). -/
noncomputable def pcgLoopM (n : ℕ) (mvMat mvPre : ℕ → Mem ℕ) (rhs : ℕ) (relTol : ℝ) :
    ℕ → PCGRefs → Mem PCGRefs
  | 0, s => pure s
  | k + 1, s =>
    if s.curErr > relTol then do
      let s' ← pcgStepM n mvMat mvPre rhs s
      pcgLoopM n mvMat mvPre rhs relTol k s'
    else pure s

/-- `pcg(mv_mat, rhs, mv_pre, iter_lim, tol, x0)`: parla/comps/determiter/pcg.py:5-47. -/
noncomputable def pcgM (n : ℕ) (mvMat : ℕ → Mem ℕ) (rhs : ℕ) (mvPre : ℕ → Mem ℕ) (iterLim : ℤ)
    (tol : ℝ) (x0 : ℕ) : Mem (ℕ × List ℝ) := do
  let x ← newVec (← getVec n x0)
  if iterLim < 0 then Mem.raise .value
  else
    let t ← mvMat x
    let r ← newVec ((← getVec n rhs) - (← getVec n t))
    let d ← mvPre r
    let delta1 := (← getVec n r) ⬝ᵥ (← getVec n d)
    let curErr := norm2 (← getVec n r)
    let s ← pcgLoopM n mvMat mvPre rhs (tol * curErr) iterLim.toNat ⟨x, r, some d, delta1, curErr, [], 0⟩
    pure (s.x, s.log)

/-! ## PcSS1 -/

/-- The argument `b` of the saddle solvers (see `BArg`), with an address for a 1-d array. -/
inductive BRef where
  | none
  | vec (b : ℕ)
  | multi (k : ℕ) (hk : k ≠ 1)

/-- The arguments `(R, upper_tri)` of the saddle solvers (see `Precond`), `R` being an address. -/
inductive PrecRef where
  | tri (R : ℕ)
  | gen (r : ℕ) (R : ℕ)

/-- `R.shape[1]` -/
@[reducible] def PrecRef.dim (n : ℕ) : PrecRef → ℕ
  | .tri _ => n
  | .gen r _ => r

/-- `(x, y, errors)`, `x` and `y` being addresses; `x = none` stands for a new array of NaNs. -/
structure SaddleRefs where
  x : Option ℕ
  y : ℕ
  errs : ErrLog

/-- `mv_pre` for a square `R` (parla/comps/determiter/saddle.py:144-153): `work1` is overwritten. -/
noncomputable def mvPreFullM (n r : ℕ) (R work1 : ℕ) (vec : ℕ) : Mem ℕ := do
  setVec work1 ((← getMat n r R)ᵀ *ᵥ (← getVec n vec))
  newVec ((← getMat n r R) *ᵥ (← getVec r work1))

/-- `mv_pre` for an `R` that is not square (parla/comps/determiter/saddle.py:144-153): `work1` and
`work3` are overwritten. -/
noncomputable def mvPreLowM (n r : ℕ) (R V work1 work3 : ℕ) (vec : ℕ) : Mem ℕ := do
  setVec work1 ((← getMat n r R)ᵀ *ᵥ (← getVec n vec))
  let res ← newVec ((← getMat n r R) *ᵥ (← getVec r work1))
  setVec res ((← getVec n res) + (← getVec n vec))
  setVec work1 ((← getMat n r V)ᵀ *ᵥ (← getVec n vec))
  setVec work3 ((← getMat n r V) *ᵥ (← getVec r work1))
  setVec res ((← getVec n res) - (← getVec n work3))
  pure res

/-- `mv_gram` (parla/comps/determiter/saddle.py:155-159): `work2` is overwritten. -/
noncomputable def mvGramM (m n : ℕ) (A work2 : ℕ) (delta : ℝ) (vec : ℕ) : Mem ℕ := do
  setVec work2 ((← getMat m n A) *ᵥ (← getVec n vec))
  let res ← newVec ((← getMat m n A)ᵀ *ᵥ (← getVec m work2))
  setVec res ((← getVec n res) + delta • (← getVec n vec))
  pure res

/-- The set-up of `mv_pre` (parla/comps/determiter/saddle.py:127-153), in which the caller's array
`R` is overwritten if it is not square.  `sing_vals[-1]` raises `IndexError` if `R` has no columns
(then `R[:] = V[:]` had nothing to write). -/
noncomputable def pcss1PreM (n r : ℕ) (R : ℕ) (delta : ℝ) : Mem (ℕ → Mem ℕ) := do
  let work1 ← newVec (0 : Fin r → ℝ)
  if r = n then pure (mvPreFullM n r R work1)
  else if h : 0 < r then do
    let R0 ← getMat n r R
    let V ← newMat (colNormalize R0)
    setMat R (← getMat n r V)
    let R1 ← getMat n r R
    setMat R (Matrix.of fun i j => R1 i j /
      (shiftedSing R0 delta j / shiftedSing R0 delta ⟨r - 1, by omega⟩))
    let work3 ← newVec (0 : Fin n → ℝ)
    pure (mvPreLowM n r R V work1 work3)
  else Mem.raise .index

/-- `rhs = A.T @ b`, then `rhs -= c` in place (parla/comps/determiter/saddle.py:161-163,
parla/drivers/saddlesys.py:185-187). -/
noncomputable def normalRhsM (m n : ℕ) (A b : ℕ) (c : Option ℕ) : Mem ℕ := do
  let rhs ← newVec ((← getMat m n A)ᵀ *ᵥ (← getVec m b))
  match c with
  | none => pure rhs
  | some c => do
    setVec rhs ((← getVec n rhs) - (← getVec n c))
    pure rhs

/-- The starting point (parla/comps/determiter/saddle.py:165-169). -/
noncomputable def pcss1StartM (n r : ℕ) (R : ℕ) (z0 : Option ℕ) : Mem ℕ :=
  if r = n then match z0 with
    | none => newVec (0 : Fin n → ℝ)
    | some z => do newVec ((← getMat n r R) *ᵥ (← getVec r z))
  else newVec (0 : Fin n → ℝ)

/-- `PcSS1()(A, b, c, delta, tol, iter_lim, R, upper_tri=False, z0)` for 1-d `b`:
parla/comps/determiter/saddle.py:125-176. -/
noncomputable def pcss1CoreM (m n r : ℕ) (A b : ℕ) (c : Option ℕ) (delta tol : ℝ) (iterLim : ℤ) (R : ℕ)
    (z0 : Option ℕ) : Mem SaddleRefs := do
  let work2 ← newVec (0 : Fin m → ℝ)
  let mvPre ← pcss1PreM n r R delta
  let rhs ← normalRhsM m n A b c
  let x ← pcss1StartM n r R z0
  let (x, residuals) ← pcgM n (mvGramM m n A work2 delta) rhs mvPre iterLim tol x
  let y ← newVec ((← getVec m b) - (← getMat m n A) *ᵥ (← getVec n x))
  pure ⟨some x, y, .arr residuals⟩

/-- `PcSS1()(A, b, c, delta, tol, iter_lim, R, upper_tri, z0)`:
parla/comps/determiter/saddle.py:94-176. -/
noncomputable def pcss1M (m n : ℕ) (A : ℕ) (b : BRef) (c : Option ℕ) (delta tol : ℝ) (iterLim : ℤ)
    (P : PrecRef) (z0 : Option ℕ) : Mem SaddleRefs :=
  match b with
  | .multi _ _ => Mem.raise .notImplemented
  | .none => do
    let b ← newVec (0 : Fin m → ℝ)
    go b
  | .vec b => go b
where
  /-- lines 125-176 -/
  go (b : ℕ) : Mem SaddleRefs :=
    match P with
    | .tri _ => Mem.raise .notImplemented
    | .gen r R => pcss1CoreM m n r A b c delta tol iterLim R z0

end Parla
