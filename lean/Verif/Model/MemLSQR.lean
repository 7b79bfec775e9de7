import Verif.Model.Mem

/-! # `lsqr`, `a_lift_precond`, `PcSS2` and the drivers' main phases with arrays as mutable objects -/

namespace Parla

open Matrix

variable {m n r p q : ℕ}

/-! ## lsqr -/

/-- The variables of `lsqr` that live across iterations: the addresses of its arrays, and its numbers
(the array fields of `num` are not used). -/
structure LsqrRefs (p q : ℕ) where
  x : ℕ
  u : ℕ
  v : ℕ
  w : ℕ
  var : ℕ
  num : LsqrState p q

/-- the variables by value -/
def LsqrRefs.read (s : LsqrRefs p q) : Mem (LsqrState p q) := do
  let x ← getVec q s.x
  let u ← getVec p s.u
  let v ← getVec q s.v
  let w ← getVec q s.w
  let var ← getVec q s.var
  pure { s.num with x := x, u := u, v := v, w := w, var := var }

open Classical in
/-- Initialisation: parla/comps/determiter/lsqr.py:318, 342-392.  `u = b` and `x = np.asarray(x0)` make
no copies. -/
noncomputable def lsqrInitM (p q : ℕ) (matvec rmatvec : ℕ → Mem ℕ) (b : ℕ) (x0 : Option ℕ) :
    Mem (LsqrRefs p q) := do
  let var ← newVec (0 : Fin q → ℝ)
  let (x, u, beta) ← (match x0 with
    | none => do
      let x ← newVec (0 : Fin q → ℝ)
      pure (x, b, norm2 (← getVec p b))
    | some x0 => do
      let Ax ← matvec x0
      let u ← newVec ((← getVec p b) - (← getVec p Ax))
      pure (x0, u, norm2 (← getVec p u)) : Mem (ℕ × ℕ × ℝ))
  let (u, v, alfa) ← (if 0 < beta then do
      let u ← newVec ((1 / beta) • (← getVec p u))
      let v ← rmatvec u
      pure (u, v, norm2 (← getVec q v))
    else do
      let v ← newVec (← getVec q x)
      pure (u, v, 0) : Mem (ℕ × ℕ × ℝ))
  let v ← (if 0 < alfa then do newVec ((1 / alfa) • (← getVec q v)) else pure v : Mem ℕ)
  let w ← newVec (← getVec q v)
  pure ⟨x, u, v, w, var, {
    x := 0, u := 0, v := 0, w := 0, alfa := alfa, rhobar := alfa, phibar := beta
    anorm := 0, acond := 0, ddnorm := 0, res2 := 0, xnorm := 0, xxnorm := 0, z := 0
    cs2 := -1, sn2 := 0, r1norm := beta, r2norm := beta, arnorm := alfa * beta, itn := 0, var := 0 }⟩

open Classical in
/-- One step of the bidiagonalisation, returning also `beta`:
parla/comps/determiter/lsqr.py:414-430. -/
noncomputable def lsqrBidiagM (matvec rmatvec : ℕ → Mem ℕ) (damp : ℝ) (s : LsqrRefs p q) :
    Mem (LsqrRefs p q × ℝ) := do
  let num := { s.num with itn := s.num.itn + 1 }
  let Av ← matvec s.v
  let u ← newVec ((← getVec p Av) - num.alfa • (← getVec p s.u))
  let beta := norm2 (← getVec p u)
  if 0 < beta then do
    let u ← newVec ((1 / beta) • (← getVec p u))
    let anorm := Real.sqrt (num.anorm ^ 2 + num.alfa ^ 2 + beta ^ 2 + damp ^ 2)
    let Atu ← rmatvec u
    let v ← newVec ((← getVec q Atu) - beta • (← getVec q s.v))
    let alfa := norm2 (← getVec q v)
    let v ← (if 0 < alfa then do newVec ((1 / alfa) • (← getVec q v)) else pure v : Mem ℕ)
    pure ({ s with u := u, v := v, num := { num with alfa := alfa, anorm := anorm } }, beta)
  else
    pure ({ s with u := u, num := num }, beta)

/-- The plane rotations and updates (parla/comps/determiter/lsqr.py:432-496): `x`, `w` and (if asked
for) `var` are bound to new arrays; what is computed is as in `lsqrRotate`. -/
noncomputable def lsqrRotateM (damp : ℝ) (s : LsqrRefs p q) (beta : ℝ) (calcVar : Bool) :
    Mem (LsqrRefs p q) := do
  let t := lsqrRotate damp (← s.read) beta calcVar
  let x ← newVec t.x
  let w ← newVec t.w
  let var ← (if calcVar then newVec t.var else pure s.var : Mem ℕ)
  pure ⟨x, s.u, s.v, w, var, t⟩

/-- The part of the loop body that changes the iteration variables:
parla/comps/determiter/lsqr.py:414-496. -/
noncomputable def lsqrStepM (matvec rmatvec : ℕ → Mem ℕ) (damp : ℝ) (s : LsqrRefs p q) (calcVar : Bool) :
    Mem (LsqrRefs p q) := do
  let (s, beta) ← lsqrBidiagM matvec rmatvec damp s
  lsqrRotateM damp s beta calcVar

open Classical in
/-- `while itn < iter_lim` (parla/comps/determiter/lsqr.py:412-555). -/
noncomputable def lsqrLoopM (matvec rmatvec : ℕ → Mem ℕ) (damp : ℝ) (T : LsqrTol) (bnorm : ℝ)
    (iterLim : ℕ) (calcVar : Bool) :
    ℕ → LsqrRefs p q → List ℝ → Mem (LsqrRefs p q × ℕ × List ℝ)
  | 0, s, arr => pure (s, 0, arr)
  | k + 1, s, arr => do
    let arr := arr.set s.num.itn s.num.arnorm
    let s ← lsqrStepM matvec rmatvec damp s calcVar
    let istop := lsqrStop T bnorm iterLim s.num
    if istop ≠ 0 then pure (s, istop, arr)
    else lsqrLoopM matvec rmatvec damp T bnorm iterLim calcVar k s arr

/-- The tuple returned by `lsqr`: the addresses of `x` and `var`, and the rest by value (the array
fields of `rest` are not used). -/
structure LsqrOutRefs (q : ℕ) where
  x : ℕ
  var : ℕ
  rest : LsqrOut q

open Classical in
/-- `lsqr(A, b, damp, atol, btol, conlim, iter_lim, x0=x0, calc_var=calc_var)`:
parla/comps/determiter/lsqr.py:98-574; `b`, `x0` are addresses, `matvec` and `rmatvec` the function
handles of the operator. -/
noncomputable def lsqrM (p q : ℕ) (matvec rmatvec : ℕ → Mem ℕ) (b : ℕ) (damp : ℝ) (T : LsqrTol)
    (iterLim : Option ℤ) (x0 : Option ℕ) (calcVar : Bool) : Mem (LsqrOutRefs q) := do
  let L : ℤ := iterLim.getD (2 * q)
  let bnorm := norm2 (← getVec p b)
  let s ← lsqrInitM p q matvec rmatvec b x0
  if s.num.arnorm = 0 then
    pure ⟨s.x, s.var, ⟨0, 0, s.num.itn, s.num.r1norm, s.num.r2norm, s.num.anorm, s.num.acond,
      .scalar s.num.arnorm, s.num.xnorm, 0⟩⟩
  else if L < 0 then Mem.raise .value
  else do
    let (s, istop, arr) ← lsqrLoopM matvec rmatvec damp T bnorm L.toNat calcVar L.toNat s
      (List.replicate L.toNat (-1))
    pure ⟨s.x, s.var, ⟨0, istop, s.num.itn, s.num.r1norm, s.num.r2norm, s.num.anorm, s.num.acond,
      .arr (arr.filter fun e => decide (-1 < e)), s.num.xnorm, 0⟩⟩

/-! ## a_lift_precond -/

open Classical in
/-- `a_lift(A, scale)`: parla/comps/preconditioning.py:6-13.  For `scale == 0` it returns its
argument, not a copy. -/
noncomputable def aLiftM (m n : ℕ) (A : ℕ) (scale : ℝ) : Mem ℕ :=
  if scale = 0 then pure A
  else do newMat (aLift (← getMat m n A) scale)

/-- `forward(arg, work)`, upper triangular case (parla/comps/preconditioning.py:26-31).  With
`overwrite_b=True` SciPy may solve in the array it is given or make a new one: `inPlace` says which,
and may differ from call to call. -/
noncomputable def forwardTriM (m n : ℕ) (inPlace : Heap → Bool) (A_lift R work : ℕ) (delta : ℝ) (arg : ℕ) :
    Mem ℕ := do
  setVec work (← getVec n arg)
  let z ← Mem.lift (solveUpperv (← getMat n n R) (← getVec n work))
  let work' ← (if ← Mem.choice inPlace then do
      setVec work z
      pure work
    else newVec z : Mem ℕ)
  newVec ((← getMat (m + liftRows n (Real.sqrt delta)) n A_lift) *ᵥ (← getVec n work'))

open Classical in
/-- `np.dot(A.T, arg[:m], out=work)` and `work += sqrt_delta * arg[m:]`
(parla/comps/preconditioning.py:34-36, 51-53). -/
noncomputable def adjointWorkM (m n : ℕ) (A work : ℕ) (delta : ℝ) (arg : ℕ) : Mem Unit := do
  setVec work ((← getMat m n A)ᵀ *ᵥ topv (← getVec (m + liftRows n (Real.sqrt delta)) arg))
  if 0 < delta then
    setVec work ((← getVec n work) +
      Real.sqrt delta • padv n (botv (← getVec (m + liftRows n (Real.sqrt delta)) arg)))
  else pure ()

/-- `adjoint(arg, work)`, upper triangular case (parla/comps/preconditioning.py:33-38). -/
noncomputable def adjointTriM (m n : ℕ) (A R work : ℕ) (delta : ℝ) (arg : ℕ) : Mem ℕ := do
  adjointWorkM m n A work delta arg
  let out ← Mem.lift (solveUpperTv (← getMat n n R) (← getVec n work))
  newVec out

/-- `forward(arg, work)`, general case (parla/comps/preconditioning.py:45-48). -/
noncomputable def forwardGenM (m n r : ℕ) (A_lift R work : ℕ) (delta : ℝ) (arg : ℕ) : Mem ℕ := do
  setVec work ((← getMat n r R) *ᵥ (← getVec r arg))
  newVec ((← getMat (m + liftRows n (Real.sqrt delta)) n A_lift) *ᵥ (← getVec n work))

/-- `adjoint(arg, work)`, general case (parla/comps/preconditioning.py:50-54). -/
noncomputable def adjointGenM (m n r : ℕ) (A R work : ℕ) (delta : ℝ) (arg : ℕ) : Mem ℕ := do
  adjointWorkM m n A work delta arg
  newVec ((← getMat n r R)ᵀ *ᵥ (← getVec n work))

/-- What `a_lift_precond` returns: the handles `matvec`, `rmatvec` of `A_precond`, `M_fwd`, `M_adj`. -/
structure LiftRefs where
  fwd : ℕ → Mem ℕ
  adj : ℕ → Mem ℕ
  mFwd : ℕ → Mem ℕ
  mAdj : ℕ → Mem ℕ

/-- `a_lift_precond(A, delta, R, upper_tri, k)`: parla/comps/preconditioning.py:16-67. -/
noncomputable def aLiftPrecondM (m n : ℕ) (inPlace : Heap → Bool) (A : ℕ) (delta : ℝ) (P : PrecRef) (k : ℕ) :
    Mem LiftRefs :=
  if k ≠ 1 then Mem.raise .notImplemented
  else do
    let A_lift ← aLiftM m n A (Real.sqrt delta)
    let work ← newVec (0 : Fin n → ℝ)
    match P with
    | .tri R => pure {
        fwd := forwardTriM m n inPlace A_lift R work delta
        adj := adjointTriM m n A R work delta
        mFwd := fun z => do
          let x ← Mem.lift (solveUpperv (← getMat n n R) (← getVec n z))
          newVec x
        mAdj := fun w => do
          let x ← Mem.lift (solveUpperTv (← getMat n n R) (← getVec n w))
          newVec x }
    | .gen r R => pure {
        fwd := forwardGenM m n r A_lift R work delta
        adj := adjointGenM m n r A R work delta
        mFwd := fun z => do newVec ((← getMat n r R) *ᵥ (← getVec r z))
        mAdj := fun w => do newVec ((← getMat n r R)ᵀ *ᵥ (← getVec n w)) }

/-! ## PcSS2 -/

/-- `k` (parla/comps/determiter/saddle.py:189) -/
def BRef.k : BRef → ℕ
  | .none => 1
  | .vec _ => 1
  | .multi k _ => k

open Classical in
/-- The branch `c is None or la.norm(c) == 0` of PcSS2 for 1-d `b`:
parla/comps/determiter/saddle.py:194-201.  For `delta == 0` the caller's `b` itself goes to `lsqr`. -/
noncomputable def pcss2OverM (m n r : ℕ) (A : ℕ) (delta : ℝ) (pc : LiftRefs) (b : ℕ) (tol : ℝ) (iterLim : ℤ)
    (z0 : Option ℕ) : Mem SaddleRefs := do
  let bl ← (if 0 < delta then do
      newVec (catv (← getVec m b) (0 : Fin (liftRows n (Real.sqrt delta)) → ℝ))
    else pure b : Mem ℕ)
  let result ← lsqrM (m + liftRows n (Real.sqrt delta)) r pc.fwd pc.adj bl 0 (pcss2Tol tol) (some iterLim) z0 false
  let x ← pc.mFwd result.x
  let y ← newVec (topv (← getVec (m + liftRows n (Real.sqrt delta)) bl) - (← getMat m n A) *ᵥ (← getVec n x))
  pure ⟨some x, y, result.rest.arnorms⟩

open Classical in
/-- The branch `b is None or la.norm(b) == 0` of PcSS2: parla/comps/determiter/saddle.py:204-214.
(`y[:m]` is a view of an array nobody else holds, modelled as a new array.) -/
noncomputable def pcss2UnderM (m n r : ℕ) (A : ℕ) (delta : ℝ) (pc : LiftRefs) (c : ℕ) (tol : ℝ) (iterLim : ℤ) :
    Mem SaddleRefs := do
  let cpc ← pc.mAdj c
  let result ← lsqrM r (m + liftRows n (Real.sqrt delta)) pc.adj pc.fwd cpc 0 (pcss2Tol tol) (some iterLim) none false
  if 0 < delta then do
    let y ← newVec (topv (← getVec (m + liftRows n (Real.sqrt delta)) result.x))
    let x ← newVec ((1 / delta) • ((← getMat m n A)ᵀ *ᵥ (← getVec m y) - (← getVec n c)))
    pure ⟨some x, y, result.rest.arnorms⟩
  else pure ⟨none, result.x, result.rest.arnorms⟩

open Classical in
/-- `PcSS2()(A, b, c, delta, tol, iter_lim, R, upper_tri, z0)`:
parla/comps/determiter/saddle.py:187-217. -/
noncomputable def pcss2M (inPlace : Heap → Bool) (m n : ℕ) (A : ℕ) (b : BRef) (c : Option ℕ) (delta tol : ℝ)
    (iterLim : ℤ) (P : PrecRef) (z0 : Option ℕ) : Mem SaddleRefs := do
  let pc ← aLiftPrecondM m n inPlace A delta P b.k
  let cZero ← (match c with
    | none => pure True
    | some c => do pure (norm2 (← getVec n c) = 0) : Mem Prop)
  if cZero then
    match b with
    | .vec b => pcss2OverM m n (P.dim n) A delta pc b tol iterLim z0
    | _ => if 0 < delta then Mem.raise .value else Mem.raise .type
  else
    let bZero ← (match b with
      | .none => pure True
      | .vec b => do pure (norm2 (← getVec m b) = 0)
      | .multi _ _ => pure False : Mem Prop)
    if bZero then
      match c with
      | some c => pcss2UnderM m n (P.dim n) A delta pc c tol iterLim
      | none => Mem.raise .type
    else Mem.raise .value

end Parla
