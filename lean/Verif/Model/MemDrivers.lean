import Verif.Model.MemLSQR

/-! # The drivers for least squares and saddle point problems with arrays as mutable objects

Statement by statement models of parla/drivers/least_squares.py and parla/drivers/saddlesys.py.  The
sketching operator is drawn first (`Py G`, by value); what follows is a computation on mutable arrays
(`Mem`).  A LAPACK routine called with `overwrite_a=True` leaves something in the array it is given:
`J r c h` stands for that content and may depend on anything. -/

namespace Parla

open Matrix

variable {G : Type} {m n : ℕ}

/-- what LAPACK leaves in an `r × c` array it may destroy -/
abbrev Leftover := (r c : ℕ) → Heap → Matrix (Fin r) (Fin c) ℝ

/-- overwriting a matrix by what LAPACK leaves there -/
def destroyMat (J : Leftover) (r c : ℕ) (a : ℕ) : Mem Unit := fun h => (.ok (), h.setM a (J r c h))

/-- overwriting a vector by what LAPACK leaves there -/
def destroyVec (J : Leftover) (k : ℕ) (a : ℕ) : Mem Unit := fun h => (.ok (), h.setV a fun i => J k 1 h i 0)

/-- A `PrecondSaddleSolver` by address. -/
abbrev SaddleSolverM := (m n : ℕ) → (A : ℕ) → (b : BRef) → (c : Option ℕ) → (delta tol : ℝ) → (iterLim : ℤ) →
  (P : PrecRef) → (z0 : Option ℕ) → Mem SaddleRefs

/-- `svd_right_precond(A_ske)` (parla/comps/preconditioning.py:70-79), which may destroy `A_ske`
(line 71): the address of `M`, and the other results by value. -/
noncomputable def svdRightPrecondM (la : LinAlg) (J : Leftover) (d n : ℕ) (A_ske : ℕ) : Mem (ℕ × PrecOut d n) := do
  let A0 ← getMat d n A_ske
  destroyMat J d n A_ske
  let o ← Mem.lift (svdRightPrecond la A0)
  let M ← newMat o.M
  pure (M, o)

/-! ## SSO1, SPO, SPU1 -/

/-- `SSO1.__call__` after the sketching operator is drawn: parla/drivers/least_squares.py:173-189.
Simplification: for `delta = 0` the code does not copy `b_ske` (which is a new array of its own, only read
from here on).  `lstsq` may destroy both its arguments (lines 182-185); the result may be a part of the array
`b_ske`, which nobody else holds: it is modelled as a new array.  `S @ A` and `S @ b` are new arrays. -/
noncomputable def sso1PostM (la : LinAlg) (J : Leftover) {d : ℕ} (S : Matrix (Fin d) (Fin m) ℝ) (n : ℕ) (A b : ℕ)
    (delta : ℝ) : Mem ℕ := do
  let A_ske ← newMat (S * (← getMat m n A))
  let b_ske ← newVec (S *ᵥ (← getVec m b))
  let A_ske ← aLiftM d n A_ske (Real.sqrt delta)
  let b_ske ← newVec (catv (← getVec d b_ske) (0 : Fin (liftRows n (Real.sqrt delta)) → ℝ))
  let A0 ← getMat (d + liftRows n (Real.sqrt delta)) n A_ske
  let x := la.lstsqv A0 (← getVec (d + liftRows n (Real.sqrt delta)) b_ske)
  destroyMat J (d + liftRows n (Real.sqrt delta)) n A_ske
  destroyVec J (d + liftRows n (Real.sqrt delta)) b_ske
  newVec x

/-- `SSO1.__call__`: parla/drivers/least_squares.py:150-189 (see `sso1Call`). -/
noncomputable def sso1CallM (la : LinAlg) (J : Leftover) (sketchOpGen : SkOpGen G) (samplingFactor : ℝ)
    (m n : ℕ) (A b : ℕ) (delta : ℝ) (tol : Tol) (iterLim : ℤ) : Py G (Mem ℕ) := do
  if ¬ tol.isNaN then Py.warn else pure ()
  if iterLim > 1 then Py.warn else pure ()
  let d ← dimChecks samplingFactor m n
  let S ← sketchOpGen d m
  pure (sso1PostM la J S n A b delta)

/-- What the factorisation stage of `SPO` computes: `R` and `z_ske` by address, `x_ske` by value. -/
structure SPORefs (n : ℕ) where
  P : PrecRef
  z : ℕ
  x : Fin n → ℝ

/-- `SPO`, mode `'qr'`: parla/drivers/least_squares.py:302-316. -/
noncomputable def spoQRM (la : LinAlg) (J : Leftover) {d : ℕ} (S : Matrix (Fin d) (Fin m) ℝ) (n : ℕ) (A b : ℕ)
    (delta : ℝ) : Mem (SPORefs n) := do
  let A_ske ← newMat (S * (← getMat m n A))
  let A_ske ← aLiftM d n A_ske (Real.sqrt delta)
  let A0 ← getMat (d + liftRows n (Real.sqrt delta)) n A_ske
  destroyMat J (d + liftRows n (Real.sqrt delta)) n A_ske
  if h : min (d + liftRows n (Real.sqrt delta)) n = n then do
    let R ← newMat (castRows h (la.qr A0).2)
    let b_ske ← newVec (S *ᵥ (← getVec m b))
    let z_ske ← newVec ((topRows (castCols h (la.qr A0).1))ᵀ *ᵥ (← getVec d b_ske))
    let x_ske ← Mem.lift (solveUpperv (← getMat n n R) (← getVec n z_ske))
    pure ⟨.tri R, z_ske, x_ske⟩
  else Mem.raise .value

/-- `SPO`, mode `'chol'`: parla/drivers/least_squares.py:302-304, 318-329. -/
noncomputable def spoCholM (la : LinAlg) {d : ℕ} (S : Matrix (Fin d) (Fin m) ℝ) (n : ℕ) (A b : ℕ)
    (delta : ℝ) : Mem (SPORefs n) := do
  let A_ske ← newMat (S * (← getMat m n A))
  let A0 ← getMat d n A_ske
  let R ← Mem.lift (la.cholesky (A0ᵀ * A0 + delta • (1 : Matrix (Fin n) (Fin n) ℝ)))
  let R ← newMat R
  let b_ske ← newVec (S *ᵥ (← getVec m b))
  let z ← Mem.lift (solveUpperTv (← getMat n n R) ((← getMat d n A_ske)ᵀ *ᵥ (← getVec d b_ske)))
  let z_ske ← newVec z
  let x_ske ← Mem.lift (solveUpperv (← getMat n n R) (← getVec n z_ske))
  pure ⟨.tri R, z_ske, x_ske⟩

/-- `SPO`, mode `'svd'`: parla/drivers/least_squares.py:302-304, 331-339. -/
noncomputable def spoSVDM (la : LinAlg) (J : Leftover) {d : ℕ} (S : Matrix (Fin d) (Fin m) ℝ) (n : ℕ) (A b : ℕ)
    (delta : ℝ) : Mem (SPORefs n) := do
  let A_ske ← newMat (S * (← getMat m n A))
  let A_ske ← aLiftM d n A_ske (Real.sqrt delta)
  let (R, o) ← svdRightPrecondM la J (d + liftRows n (Real.sqrt delta)) n A_ske
  let b_ske ← newVec (S *ᵥ (← getVec m b))
  let z_ske ← newVec ((topRows o.U)ᵀ *ᵥ (← getVec d b_ske))
  pure ⟨.gen o.r R, z_ske, (← getMat n o.r R) *ᵥ (← getVec o.r z_ske)⟩

/-- The factorisation stage: parla/drivers/least_squares.py:302-341. -/
noncomputable def spoFactorM (la : LinAlg) (J : Leftover) (mode : SPOMode) {d : ℕ} (S : Matrix (Fin d) (Fin m) ℝ)
    (n : ℕ) (A b : ℕ) (delta : ℝ) : Mem (SPORefs n) :=
  match mode with
  | .qr => spoQRM la J S n A b delta
  | .chol => spoCholM la S n A b delta
  | .svd => spoSVDM la J S n A b delta
  | .other => Mem.raise .value

open Classical in
/-- The choice of the starting point: parla/drivers/least_squares.py:343-351 (see `spoStart`). -/
noncomputable def spoStartM (m n : ℕ) (A b : ℕ) (delta : ℝ) (f : SPORefs n) : Mem (Option ℕ) := do
  let r := (← getMat m n A) *ᵥ f.x - (← getVec m b)
  let r := catv r (scaleEye (liftRows n (Real.sqrt delta)) n (Real.sqrt delta) *ᵥ f.x)
  let relErr := norm2 r / norm2 (← getVec m b)
  pure (if relErr ≥ 1 ∨ (relErr > 1 / 10 ^ 15 ∧ n ≠ f.P.dim n) then none else some f.z)

/-- `ar0`: parla/drivers/least_squares.py:360-365.  The triangular solve may work in the new array
`A.T @ b`; its result is only used for its norm. -/
noncomputable def ar0M (m n : ℕ) (A b : ℕ) (P : PrecRef) : Mem ℝ := do
  let ar0 := (← getMat m n A)ᵀ *ᵥ (← getVec m b)
  match P with
  | .tri R => do
    let v ← Mem.lift (solveUpperTv (← getMat n n R) ar0)
    pure (norm2 v)
  | .gen r R => do pure (norm2 ((← getMat n r R)ᵀ *ᵥ ar0))

/-- The part of `SPO.__call__` after the sketching operator is drawn:
parla/drivers/least_squares.py:302-369. -/
noncomputable def spoPostM (la : LinAlg) (J : Leftover) (inPlace : Heap → Bool) (mode : SPOMode) {d : ℕ}
    (S : Matrix (Fin d) (Fin m) ℝ) (n : ℕ) (A b : ℕ) (delta tol : ℝ) (iterLim : ℤ) (logging : Bool)
    (clock : LogTimes) : Mem (Option ℕ × Option SPLog) := do
  let f ← spoFactorM la J mode S n A b delta
  let z0 ← spoStartM m n A b delta f
  let res ← pcss2M inPlace m n A (.vec b) none delta tol iterLim f.P z0
  if logging then do
    let ar0 ← ar0M m n A b f.P
    let log ← Mem.lift (finishLog true clock res.errs ar0)
    pure (res.x, log)
  else pure (res.x, none)

/-- `SPO.__call__`: parla/drivers/least_squares.py:290-369. -/
noncomputable def spoCallM (la : LinAlg) (J : Leftover) (inPlace : Heap → Bool) (sketchOpGen : SkOpGen G)
    (samplingFactor : ℝ) (mode : SPOMode) (m n : ℕ) (A b : ℕ) (delta tol : ℝ) (iterLim : ℤ) (logging : Bool)
    (clock : LogTimes) : Py G (Mem (Option ℕ × Option SPLog)) := do
  let d ← dimChecks samplingFactor m n
  let S ← sketchOpGen d m
  pure (spoPostM la J inPlace mode S n A b delta tol iterLim logging clock)

/-- The part of `SPU1.__call__` after the sketching operator is drawn:
parla/drivers/least_squares.py:470-494. -/
noncomputable def spuPostM (la : LinAlg) (J : Leftover) (inPlace : Heap → Bool) {d : ℕ}
    (S : Matrix (Fin d) (Fin m) ℝ) (n : ℕ) (A c : ℕ) (tol : ℝ) (iterLim : ℤ) (logging : Bool)
    (clock : LogTimes) : Mem (ℕ × Option SPLog) := do
  let A_ske ← newMat (S * (← getMat m n A))
  let (M, o) ← svdRightPrecondM la J d n A_ske
  let res ← pcss2M inPlace m n A .none (some c) 0 tol iterLim (.gen o.r M) none
  let Mv ← getMat n o.r M
  let log ← Mem.lift (finishLog logging clock res.errs
    (norm2 ((← getMat m n A) *ᵥ (Mv *ᵥ (Mvᵀ *ᵥ (← getVec n c))))))
  pure (res.y, log)

/-- `SPU1.__call__`: parla/drivers/least_squares.py:458-494. -/
noncomputable def spu1CallM (la : LinAlg) (J : Leftover) (inPlace : Heap → Bool) (sketchOpGen : SkOpGen G)
    (samplingFactor : ℝ) (m n : ℕ) (A c : ℕ) (tol : ℝ) (iterLim : ℤ) (logging : Bool)
    (clock : LogTimes) : Py G (Mem (ℕ × Option SPLog)) := do
  let d ← dimChecks samplingFactor m n
  let S ← sketchOpGen d m
  pure (spuPostM la J inPlace S n A c tol iterLim logging clock)

/-! ## SPS1 -/

/-- A preconditioner of shape `(n, r)` with an optional start, by address. -/
structure SPSPrecRefs where
  r : ℕ
  M : ℕ
  z : Option ℕ

/-- The triple `(x_star, y_star, log)`; `none` stands for a new array of NaNs. -/
structure SPSOutRefs where
  x : Option ℕ
  y : Option ℕ
  log : Option SPLog

/-- `if b is None: b = np.zeros(m)` (parla/drivers/saddlesys.py:135-136, 271-272) -/
def bOrZeros (m : ℕ) (b : Option ℕ) : Mem ℕ :=
  match b with
  | none => newVec (0 : Fin m → ℝ)
  | some b => pure b

open Classical in
/-- `SPS1`, sketched SVD branch: parla/drivers/saddlesys.py:143-154 and 194-201. -/
noncomputable def sps1SvdM (la : LinAlg) (J : Leftover) {d : ℕ} (S : Matrix (Fin d) (Fin m) ℝ) (n : ℕ)
    (A rhs : ℕ) (delta : ℝ) : Mem SPSPrecRefs := do
  let A_ske ← newMat (S * (← getMat m n A))
  let A_ske ← aLiftM d n A_ske (Real.sqrt delta)
  let (M, o) ← svdRightPrecondM la J (d + liftRows n (Real.sqrt delta)) n A_ske
  let rhsv ← getVec n rhs
  let z_ske ← newVec (fun j => (o.Vh *ᵥ rhsv) j / o.sigma j)
  let Mv ← getMat n o.r M
  let Av ← getMat m n A
  let x_ske := Mv *ᵥ (← getVec o.r z_ske)
  let rhs_pc := Mvᵀ *ᵥ rhsv
  let lhs_ske_pc := Mvᵀ *ᵥ (Avᵀ *ᵥ (Av *ᵥ x_ske) + delta • x_ske)
  pure ⟨o.r, M, if norm2 (lhs_ske_pc - rhs_pc) ≥ norm2 rhs_pc then none else some z_ske⟩

/-- `SPS1`, Nystrom branch, strategy `'right'`: parla/drivers/saddlesys.py:156-167. -/
noncomputable def sps1RightM (la : LinAlg) {d : ℕ} (S : Matrix (Fin n) (Fin d) ℝ) (m : ℕ) (A : ℕ) :
    Mem SPSPrecRefs := do
  let p := sps1Right la S (← getMat m n A)
  let M ← newMat p.M
  pure ⟨p.r, M, none⟩

/-- `SPS1`, Nystrom branch, strategy `'left'`: parla/drivers/saddlesys.py:168-181. -/
noncomputable def sps1LeftM (la : LinAlg) {d : ℕ} (S : Matrix (Fin d) (Fin m) ℝ) (n : ℕ) (A : ℕ) :
    Mem SPSPrecRefs := do
  let p := sps1Left la S (← getMat m n A)
  let M ← newMat p.M
  pure ⟨p.r, M, none⟩

/-- The main phase of `SPS1` (parla/drivers/saddlesys.py:207-219). -/
noncomputable def sps1PostM (solver : SaddleSolverM) (m n : ℕ) (A b : ℕ) (c : Option ℕ) (rhs : ℕ)
    (delta tol : ℝ) (iterLim : ℤ) (p : SPSPrecRefs) (logging : Bool) (clock : LogTimes) : Mem SPSOutRefs := do
  let res ← solver m n A (.vec b) c delta tol iterLim (.gen p.r p.M) p.z
  let log ← Mem.lift (finishLog logging clock res.errs (norm2 (← getVec n rhs)))
  pure ⟨res.x, some res.y, log⟩

/-- `SPS1.__call__`: parla/drivers/saddlesys.py:127-219.  In the first branch `rhs` is made before the
factorisation instead of after it (both only read the caller's arrays). -/
noncomputable def sps1CallM (la : LinAlg) (J : Leftover) (sketchOpGen : SkOpGen G) (samplingFactor : ℝ)
    (solver : SaddleSolverM) (strategy : NystromStrategy) (m n : ℕ) (A : ℕ) (b : Option ℕ) (c : Option ℕ)
    (delta tol : ℝ) (iterLim : ℤ) (logging : Bool) (clock : LogTimes) : Py G (Mem SPSOutRefs) := do
  let d := pyInt (samplingFactor * n)
  Py.assert (strategy ≠ .other)
  if d < 0 then Py.raise .value else
    let d := d.toNat
    if ¬ d < n then
      let S ← sketchOpGen d m
      pure do
        let b ← bOrZeros m b
        let rhs ← normalRhsM m n A b c
        let p ← sps1SvdM la J S n A rhs delta
        sps1PostM solver m n A b c rhs delta tol iterLim p logging clock
    else if strategy = .right then
      let S ← sketchOpGen n d
      pure do
        let b ← bOrZeros m b
        let p ← sps1RightM la S m A
        let rhs ← normalRhsM m n A b c
        sps1PostM solver m n A b c rhs delta tol iterLim p logging clock
    else
      let S ← sketchOpGen d m
      pure do
        let b ← bOrZeros m b
        let p ← sps1LeftM la S n A
        let rhs ← normalRhsM m n A b c
        sps1PostM solver m n A b c rhs delta tol iterLim p logging clock

/-! ## SPS2 -/

open Classical in
/-- `b_aug`: parla/drivers/saddlesys.py:291-297.  The caller's `b` is copied before it is changed in
place. -/
noncomputable def sps2RhsM {d : ℕ} (delta : ℝ) (S : Matrix (Fin d) (Fin m) ℝ) (n : ℕ)
    (o : PrecOut (d + liftRows n (Real.sqrt delta)) n) (b : ℕ) (c : Option ℕ) : Mem ℕ := do
  let b_aug ← (if 0 < delta then do
      newVec (catv (← getVec m b) (0 : Fin (liftRows n (Real.sqrt delta)) → ℝ))
    else do newVec (← getVec (m + liftRows n (Real.sqrt delta)) b) : Mem ℕ)
  match c with
  | none => pure b_aug
  | some c => do
    let cv ← getVec n c
    if norm2 cv > 0 then do
      let v := o.U *ᵥ fun j => 1 / o.sigma j * (o.Vh *ᵥ cv) j
      let w ← getVec (m + liftRows n (Real.sqrt delta)) b_aug
      setVec b_aug (catv (topv w - Sᵀ *ᵥ topv v) (botv w))
      if 0 < delta then do
        let w ← getVec (m + liftRows n (Real.sqrt delta)) b_aug
        setVec b_aug (catv (topv w) (botv w - botv v))
        pure b_aug
      else pure b_aug
    else pure b_aug

open Classical in
/-- The presolve: parla/drivers/saddlesys.py:300-307. -/
noncomputable def sps2StartM {d : ℕ} (delta : ℝ) (S : Matrix (Fin d) (Fin m) ℝ) (n : ℕ) (M : ℕ)
    (o : PrecOut (d + liftRows n (Real.sqrt delta)) n) (A_aug b_aug : ℕ) : Mem (Option ℕ) := do
  let w ← getVec (m + liftRows n (Real.sqrt delta)) b_aug
  let z_ske ← newVec ((topRows o.U)ᵀ *ᵥ (S *ᵥ topv w))
  if 0 < delta then
    setVec z_ske ((← getVec o.r z_ske) + (botRows o.U)ᵀ *ᵥ botv w)
  else pure ()
  let x_ske := (← getMat n o.r M) *ᵥ (← getVec o.r z_ske)
  pure (if norm2 (w - (← getMat (m + liftRows n (Real.sqrt delta)) n A_aug) *ᵥ x_ske) ≥ norm2 w then none
    else some z_ske)

/-- `y_star = b - A @ x_star` (parla/drivers/saddlesys.py:316) -/
noncomputable def sps2ResidM (m n : ℕ) (A b : ℕ) (x : Option ℕ) : Mem (Option ℕ) :=
  match x with
  | none => pure none
  | some x => do
    let y ← newVec ((← getVec m b) - (← getMat m n A) *ᵥ (← getVec n x))
    pure (some y)

/-- The part of `SPS2.__call__` after the sketching operator is drawn:
parla/drivers/saddlesys.py:271-272, 281-327.  `ar0` (line 321) is computed from `M` as the solver left
it. -/
noncomputable def sps2PostM (la : LinAlg) (J : Leftover) (solver : SaddleSolverM) {d : ℕ}
    (S : Matrix (Fin d) (Fin m) ℝ) (n : ℕ) (A : ℕ) (b : Option ℕ) (c : Option ℕ) (delta tol : ℝ)
    (iterLim : ℤ) (logging : Bool) (clock : LogTimes) : Mem SPSOutRefs := do
  let b ← bOrZeros m b
  let A_ske ← newMat (S * (← getMat m n A))
  let A_ske ← aLiftM d n A_ske (Real.sqrt delta)
  let (M, o) ← svdRightPrecondM la J (d + liftRows n (Real.sqrt delta)) n A_ske
  let A_aug ← aLiftM m n A (Real.sqrt delta)
  let b_aug ← sps2RhsM delta S n o b c
  let z_ske ← sps2StartM delta S n M o A_aug b_aug
  let res ← solver (m + liftRows n (Real.sqrt delta)) n A_aug (.vec b_aug) none 0 tol iterLim (.gen o.r M) z_ske
  let y ← sps2ResidM m n A b res.x
  let ar0 := (← getMat n o.r M)ᵀ *ᵥ
    ((← getMat (m + liftRows n (Real.sqrt delta)) n A_aug)ᵀ *ᵥ (← getVec (m + liftRows n (Real.sqrt delta)) b_aug))
  let log ← Mem.lift (finishLog logging clock res.errs (norm2 ar0))
  pure ⟨res.x, y, log⟩

/-- `SPS2.__call__`: parla/drivers/saddlesys.py:264-327. -/
noncomputable def sps2CallM (la : LinAlg) (J : Leftover) (sketchOpGen : SkOpGen G) (samplingFactor : ℝ)
    (solver : SaddleSolverM) (m n : ℕ) (A : ℕ) (b : Option ℕ) (c : Option ℕ) (delta tol : ℝ) (iterLim : ℤ)
    (logging : Bool) (clock : LogTimes) : Py G (Mem SPSOutRefs) := do
  let d ← dimChecks samplingFactor m n
  let S ← sketchOpGen d m
  pure (sps2PostM la J solver S n A b c delta tol iterLim logging clock)

end Parla
