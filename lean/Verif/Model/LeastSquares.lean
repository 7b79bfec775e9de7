import Verif.Model.PcSS2
import Verif.Model.SPLog

/-! # Model of parla/drivers/least_squares.py -/

namespace Parla

open Matrix

variable {G : Type} {m n : ℕ}

/-- Python's `int(x)` for a float: truncation towards zero. -/
noncomputable def pyInt (x : ℝ) : ℤ := if 0 ≤ x then ⌊x⌋ else ⌈x⌉

/-- `dim_checks(sampling_factor, n_rows, n_cols)`: parla/drivers/least_squares.py:89-104.  (The
product `sampling_factor * n_cols` is computed exactly.) -/
noncomputable def dimChecks (samplingFactor : ℝ) (nRows nCols : ℕ) : Py G ℕ := do
  Py.assert (nRows ≥ nCols)
  let d := pyInt (samplingFactor * nCols)
  let d ← if d > nRows then (do Py.warn; pure (nRows : ℤ)) else pure d
  Py.assert (d ≥ nCols)
  pure d.toNat

/-- `SSO1.__call__`: parla/drivers/least_squares.py:150-189.  The returned dictionary of timings is
not modelled; `lapack_driver` and `overwrite_sketch` do not change the exact result. -/
noncomputable def sso1Call (la : LinAlg) (sketchOpGen : SkOpGen G) (samplingFactor : ℝ)
    (A : Matrix (Fin m) (Fin n) ℝ) (b : Fin m → ℝ) (delta : ℝ) (tol : Tol) (iterLim : ℤ) :
    Py G (Fin n → ℝ) := do
  if ¬ tol.isNaN then Py.warn else pure ()
  if iterLim > 1 then Py.warn else pure ()
  let d ← dimChecks samplingFactor m n
  let S ← sketchOpGen d m
  let A_ske := S * A
  let b_ske := S *ᵥ b
  -- the rows `sqrt(delta) * I` are appended only if `delta > 0` (lines 179-181)
  let A_ske := aLift A_ske (Real.sqrt delta)
  let b_ske := catv b_ske 0
  pure (la.lstsqv A_ske b_ske)

/-- The `mode` of `SPO` (parla/drivers/least_squares.py:284-288): `'qr'`, `'chol'`, `'svd'`, or any
other string. -/
inductive SPOMode where
  | qr
  | chol
  | svd
  | other
  deriving DecidableEq

/-- What the factorisation stage of `SPO` computes: the preconditioner, `z_ske` and `x_ske`. -/
structure SPOFac (n : ℕ) where
  P : Precond n
  z : Fin P.dim → ℝ
  x : Fin n → ℝ

/-- `SPO`, mode `'qr'`: parla/drivers/least_squares.py:308-316.  `R` is square because
`d >= n_cols`; otherwise `la.solve_triangular` raises `ValueError`. -/
noncomputable def spoQR (la : LinAlg) {d : ℕ} (S : Matrix (Fin d) (Fin m) ℝ)
    (A : Matrix (Fin m) (Fin n) ℝ) (b : Fin m → ℝ) (delta : ℝ) : Except PyErr (SPOFac n) :=
  let A_ske := aLift (S * A) (Real.sqrt delta)
  let Q := (la.qr A_ske).1
  let R := (la.qr A_ske).2
  if h : min (d + liftRows n (Real.sqrt delta)) n = n then
    let R := castRows h R
    let Q := castCols h Q
    let b_ske := S *ᵥ b
    let z_ske := (topRows Q)ᵀ *ᵥ b_ske
    match solveUpperv R z_ske with
    | .error e => .error e
    | .ok x_ske => .ok ⟨.tri R, z_ske, x_ske⟩
  else .error .value

/-- `SPO`, mode `'chol'`: parla/drivers/least_squares.py:318-329.  `dsyrk` and the mirroring of the
upper triangle (lines 319-323) compute `A_ske' A_ske + delta I`. -/
noncomputable def spoChol (la : LinAlg) {d : ℕ} (S : Matrix (Fin d) (Fin m) ℝ)
    (A : Matrix (Fin m) (Fin n) ℝ) (b : Fin m → ℝ) (delta : ℝ) : Except PyErr (SPOFac n) :=
  let A_ske := S * A
  let Gm := A_skeᵀ * A_ske + delta • (1 : Matrix (Fin n) (Fin n) ℝ)
  match la.cholesky Gm with
  | .error e => .error e
  | .ok R =>
    let b_ske := S *ᵥ b
    match solveUpperTv R (A_skeᵀ *ᵥ b_ske) with
    | .error e => .error e
    | .ok z_ske =>
      match solveUpperv R z_ske with
      | .error e => .error e
      | .ok x_ske => .ok ⟨.tri R, z_ske, x_ske⟩

/-- `SPO`, mode `'svd'`: parla/drivers/least_squares.py:331-339. -/
noncomputable def spoSVD (la : LinAlg) {d : ℕ} (S : Matrix (Fin d) (Fin m) ℝ)
    (A : Matrix (Fin m) (Fin n) ℝ) (b : Fin m → ℝ) (delta : ℝ) : Except PyErr (SPOFac n) :=
  let A_ske := aLift (S * A) (Real.sqrt delta)
  match svdRightPrecond la A_ske with
  | .error e => .error e
  | .ok o =>
    let b_ske := S *ᵥ b
    let z_ske := (topRows o.U)ᵀ *ᵥ b_ske
    .ok ⟨.gen o.r o.M, z_ske, o.M *ᵥ z_ske⟩

/-- The factorisation stage: parla/drivers/least_squares.py:306-341. -/
noncomputable def spoFactor (la : LinAlg) (mode : SPOMode) {d : ℕ} (S : Matrix (Fin d) (Fin m) ℝ)
    (A : Matrix (Fin m) (Fin n) ℝ) (b : Fin m → ℝ) (delta : ℝ) : Except PyErr (SPOFac n) :=
  match mode with
  | .qr => spoQR la S A b delta
  | .chol => spoChol la S A b delta
  | .svd => spoSVD la S A b delta
  | .other => .error .value

open Classical in
/-- The choice of the starting point: parla/drivers/least_squares.py:343-351.  If `b = 0`, NumPy
divides by zero: the presolve then gives `x_ske = 0`, so `rel_err` is NaN, both comparisons are
false and `z_ske` is kept; here `0 / 0 = 0` has the same effect. -/
noncomputable def spoStart (A : Matrix (Fin m) (Fin n) ℝ) (b : Fin m → ℝ) (delta : ℝ)
    (f : SPOFac n) : Option (Fin f.P.dim → ℝ) :=
  let r := A *ᵥ f.x - b
  let r := catv r (scaleEye (liftRows n (Real.sqrt delta)) n (Real.sqrt delta) *ᵥ f.x)
  let relErr := norm2 r / norm2 b
  if relErr ≥ 1 ∨ (relErr > 1 / 10 ^ 15 ∧ n ≠ f.P.dim) then none else some f.z

/-- `ar0`: parla/drivers/least_squares.py:361-365. -/
noncomputable def precAdj (P : Precond n) (v : Fin n → ℝ) : Except PyErr (Fin P.dim → ℝ) :=
  match P with
  | .tri R => solveUpperTv R v
  | .gen _ R => .ok (Rᵀ *ᵥ v)

/-- The pair `(x_star, log)`; `x = none` stands for NaN entries (never returned by SPO). -/
structure SPOOut (n : ℕ) where
  x : Option (Fin n → ℝ)
  log : Option SPLog

/-- The part of `SPO.__call__` after the sketch: parla/drivers/least_squares.py:306-369. -/
noncomputable def spoPost (la : LinAlg) (mode : SPOMode) {d : ℕ} (S : Matrix (Fin d) (Fin m) ℝ)
    (A : Matrix (Fin m) (Fin n) ℝ) (b : Fin m → ℝ) (delta tol : ℝ) (iterLim : ℤ) (logging : Bool)
    (clock : LogTimes) : Except PyErr (SPOOut n) := do
  let f ← spoFactor la mode S A b delta
  let res ← pcss2 A (.vec b) none delta tol iterLim f.P (spoStart A b delta f)
  if logging then
    let ar0 ← precAdj f.P (Aᵀ *ᵥ b)
    let log ← finishLog true clock res.errs (norm2 ar0)
    pure ⟨res.x, log⟩
  else pure ⟨res.x, none⟩

/-- `SPO.__call__`: parla/drivers/least_squares.py:290-369. -/
noncomputable def spoCall (la : LinAlg) (sketchOpGen : SkOpGen G) (samplingFactor : ℝ) (mode : SPOMode)
    (A : Matrix (Fin m) (Fin n) ℝ) (b : Fin m → ℝ) (delta tol : ℝ) (iterLim : ℤ) (logging : Bool)
    (clock : LogTimes) : Py G (SPOOut n) := do
  let d ← dimChecks samplingFactor m n
  let S ← sketchOpGen d m
  Py.lift (spoPost la mode S A b delta tol iterLim logging clock)

/-- The pair `(y_star, log)` of `SPU1`. -/
structure SPUOut (m : ℕ) where
  y : Fin m → ℝ
  log : Option SPLog

/-- The part of `SPU1.__call__` after the sketch: parla/drivers/least_squares.py:473-494. -/
noncomputable def spuPost (la : LinAlg) {d : ℕ} (S : Matrix (Fin d) (Fin m) ℝ)
    (A : Matrix (Fin m) (Fin n) ℝ) (c : Fin n → ℝ) (tol : ℝ) (iterLim : ℤ) (logging : Bool)
    (clock : LogTimes) : Except PyErr (SPUOut m) := do
  let o ← svdRightPrecond la (S * A)
  let res ← pcss2 A .none (some c) 0 tol iterLim (.gen o.r o.M) none
  let log ← finishLog logging clock res.errs (norm2 (A *ᵥ (o.M *ᵥ (o.Mᵀ *ᵥ c))))
  pure ⟨res.y, log⟩

/-- `SPU1.__call__`: parla/drivers/least_squares.py:458-494. -/
noncomputable def spu1Call (la : LinAlg) (sketchOpGen : SkOpGen G) (samplingFactor : ℝ)
    (A : Matrix (Fin m) (Fin n) ℝ) (c : Fin n → ℝ) (tol : ℝ) (iterLim : ℤ) (logging : Bool)
    (clock : LogTimes) : Py G (SPUOut m) := do
  let d ← dimChecks samplingFactor m n
  let S ← sketchOpGen d m
  Py.lift (spuPost la S A c tol iterLim logging clock)

end Parla
