import Verif.Base.RoundingLS
import Verif.Model.LeastSquares

/-! # The least squares drivers with rounding errors up to the iterative stage

The same code as in Model/LeastSquares and `svd_right_precond` in Model/Precond, with every operation of the sketching and
factorisation stages being that of an `FlLS`; with `exactLS la` these definitions are those (theorem C82_exact).  The iterative
stage, the choice of its starting point and the application of the preconditioner (products with, or triangular solves by, the
array `R`) are exact, stacking, slicing, transposition and comparisons too. -/

namespace Parla

open Matrix

variable {G : Type} {m n : ℕ}

/-- `np.vstack((A_ske, sqrt_delta * np.eye(n_cols)))` if `delta > 0`: parla/drivers/least_squares.py:179-181, 310-311,
333-334. -/
noncomputable def liftFl (fl : FlLS) {d : ℕ} (A_ske : Matrix (Fin d) (Fin n) ℝ) (delta : ℝ) :
    Matrix (Fin (d + liftRows n (Real.sqrt delta))) (Fin n) ℝ :=
  vcat A_ske (scaleEye (liftRows n (Real.sqrt delta)) n (fl.sqrt delta))

/-- `SSO1.__call__`: parla/drivers/least_squares.py:150-189. -/
noncomputable def sso1CallFl (fl : FlLS) (sketchOpGen : SkOpGen G) (samplingFactor : ℝ)
    (A : Matrix (Fin m) (Fin n) ℝ) (b : Fin m → ℝ) (delta : ℝ) (tol : Tol) (iterLim : ℤ) : Py G (Fin n → ℝ) := do
  if ¬ tol.isNaN then Py.warn else pure ()
  if iterLim > 1 then Py.warn else pure ()
  let d ← dimChecks samplingFactor m n
  let S ← sketchOpGen d m
  let A_ske := liftFl fl (fl.mul S A) delta
  let b_ske := catv (fl.mulv S b) 0
  pure (fl.lstsqv A_ske b_ske)

/-- `svd_right_precond(A_ske)`: parla/comps/preconditioning.py:70-79. -/
noncomputable def svdRightPrecondFl (fl : FlLS) {d n : ℕ} (A : Matrix (Fin d) (Fin n) ℝ) : Except PyErr (PrecOut d n) :=
  if h : 0 < min d n then
    let U := (fl.svd A).1
    let sigma := (fl.svd A).2.1
    let Vh := (fl.svd A).2.2
    let rank := (Finset.univ.filter fun i => sigma i > fl.smul (fl.smul (sigma ⟨0, h⟩) n) eps).card
    let Vh := takeRows rank Vh
    let U := takeCols rank U
    let sigma := takev rank sigma
    .ok ⟨_, fl.divCols Vh sigma, U, sigma, Vh⟩
  else .error .index

/-- `SPO`, mode `'qr'`: parla/drivers/least_squares.py:308-316. -/
noncomputable def spoQRFl (fl : FlLS) {d : ℕ} (S : Matrix (Fin d) (Fin m) ℝ) (A : Matrix (Fin m) (Fin n) ℝ) (b : Fin m → ℝ)
    (delta : ℝ) : Except PyErr (SPOFac n) :=
  let A_ske := liftFl fl (fl.mul S A) delta
  let Q := (fl.qr A_ske).1
  let R := (fl.qr A_ske).2
  if h : min (d + liftRows n (Real.sqrt delta)) n = n then
    let R := castRows h R
    let Q := castCols h Q
    let b_ske := fl.mulv S b
    let z_ske := fl.mulv (topRows Q)ᵀ b_ske
    match solveUpperv R z_ske with
    | .error e => .error e
    | .ok x_ske => .ok ⟨.tri R, z_ske, x_ske⟩
  else .error .value

/-- `SPO`, mode `'chol'`: parla/drivers/least_squares.py:318-329. -/
noncomputable def spoCholFl (fl : FlLS) {d : ℕ} (S : Matrix (Fin d) (Fin m) ℝ) (A : Matrix (Fin m) (Fin n) ℝ) (b : Fin m → ℝ)
    (delta : ℝ) : Except PyErr (SPOFac n) :=
  let A_ske := fl.mul S A
  let Gm := fl.gram A_ske delta
  match fl.chol Gm with
  | .error e => .error e
  | .ok R =>
    let b_ske := fl.mulv S b
    match solveUpperTv R (fl.mulv A_skeᵀ b_ske) with
    | .error e => .error e
    | .ok z_ske =>
      match solveUpperv R z_ske with
      | .error e => .error e
      | .ok x_ske => .ok ⟨.tri R, z_ske, x_ske⟩

/-- `SPO`, mode `'svd'`: parla/drivers/least_squares.py:331-339. -/
noncomputable def spoSVDFl (fl : FlLS) {d : ℕ} (S : Matrix (Fin d) (Fin m) ℝ) (A : Matrix (Fin m) (Fin n) ℝ) (b : Fin m → ℝ)
    (delta : ℝ) : Except PyErr (SPOFac n) :=
  let A_ske := liftFl fl (fl.mul S A) delta
  match svdRightPrecondFl fl A_ske with
  | .error e => .error e
  | .ok o =>
    let b_ske := fl.mulv S b
    let z_ske := fl.mulv (topRows o.U)ᵀ b_ske
    .ok ⟨.gen o.r o.M, z_ske, o.M *ᵥ z_ske⟩

/-- The factorisation stage: parla/drivers/least_squares.py:306-341. -/
noncomputable def spoFactorFl (fl : FlLS) (mode : SPOMode) {d : ℕ} (S : Matrix (Fin d) (Fin m) ℝ)
    (A : Matrix (Fin m) (Fin n) ℝ) (b : Fin m → ℝ) (delta : ℝ) : Except PyErr (SPOFac n) :=
  match mode with
  | .qr => spoQRFl fl S A b delta
  | .chol => spoCholFl fl S A b delta
  | .svd => spoSVDFl fl S A b delta
  | .other => .error .value

/-- The part of `SPO.__call__` after the sketch: parla/drivers/least_squares.py:306-369. -/
noncomputable def spoPostFl (fl : FlLS) (mode : SPOMode) {d : ℕ} (S : Matrix (Fin d) (Fin m) ℝ)
    (A : Matrix (Fin m) (Fin n) ℝ) (b : Fin m → ℝ) (delta tol : ℝ) (iterLim : ℤ) (logging : Bool)
    (clock : LogTimes) : Except PyErr (SPOOut n) := do
  let f ← spoFactorFl fl mode S A b delta
  let res ← pcss2 A (.vec b) none delta tol iterLim f.P (spoStart A b delta f)
  if logging then
    let ar0 ← precAdj f.P (Aᵀ *ᵥ b)
    let log ← finishLog true clock res.errs (norm2 ar0)
    pure ⟨res.x, log⟩
  else pure ⟨res.x, none⟩

/-- `SPO.__call__`: parla/drivers/least_squares.py:290-369. -/
noncomputable def spoCallFl (fl : FlLS) (sketchOpGen : SkOpGen G) (samplingFactor : ℝ) (mode : SPOMode)
    (A : Matrix (Fin m) (Fin n) ℝ) (b : Fin m → ℝ) (delta tol : ℝ) (iterLim : ℤ) (logging : Bool)
    (clock : LogTimes) : Py G (SPOOut n) := do
  let d ← dimChecks samplingFactor m n
  let S ← sketchOpGen d m
  Py.lift (spoPostFl fl mode S A b delta tol iterLim logging clock)

/-- The part of `SPU1.__call__` after the sketch: parla/drivers/least_squares.py:473-494. -/
noncomputable def spuPostFl (fl : FlLS) {d : ℕ} (S : Matrix (Fin d) (Fin m) ℝ)
    (A : Matrix (Fin m) (Fin n) ℝ) (c : Fin n → ℝ) (tol : ℝ) (iterLim : ℤ) (logging : Bool)
    (clock : LogTimes) : Except PyErr (SPUOut m) := do
  let o ← svdRightPrecondFl fl (fl.mul S A)
  let res ← pcss2 A .none (some c) 0 tol iterLim (.gen o.r o.M) none
  let log ← finishLog logging clock res.errs (norm2 (A *ᵥ (o.M *ᵥ (o.Mᵀ *ᵥ c))))
  pure ⟨res.y, log⟩

/-- `SPU1.__call__`: parla/drivers/least_squares.py:458-494. -/
noncomputable def spu1CallFl (fl : FlLS) (sketchOpGen : SkOpGen G) (samplingFactor : ℝ)
    (A : Matrix (Fin m) (Fin n) ℝ) (c : Fin n → ℝ) (tol : ℝ) (iterLim : ℤ) (logging : Bool)
    (clock : LogTimes) : Py G (SPUOut m) := do
  let d ← dimChecks samplingFactor m n
  let S ← sketchOpGen d m
  Py.lift (spuPostFl fl S A c tol iterLim logging clock)

end Parla
