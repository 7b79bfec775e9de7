import Verif.Model.LeastSquares
import Verif.Model.LinalgWrappers

/-! # Model of parla/drivers/saddlesys.py -/

namespace Parla

open Matrix

variable {G : Type} {m n : ℕ}

/-- The triple `(x_star, y_star, log)` of the saddle drivers; `none` stands for NaN entries. -/
structure SPSOut (m n : ℕ) where
  x : Option (Fin n → ℝ)
  y : Option (Fin m → ℝ)
  log : Option SPLog

/-- `SPS1.nystrom_strategy` (parla/drivers/saddlesys.py:114, 124): `'left'`, `'right'` or any other
value, which is rejected by an assertion. -/
inductive NystromStrategy where
  | left
  | right
  | other
  deriving DecidableEq

/-- A preconditioner of shape `(n, r)` with an optional start. -/
structure SPSPrec (n : ℕ) where
  r : ℕ
  M : Matrix (Fin n) (Fin r) ℝ
  z : Option (Fin r → ℝ)

open Classical in
/-- `SPS1`, sketched SVD branch: preconditioner and presolve
(parla/drivers/saddlesys.py:143-154 and 194-201). -/
noncomputable def sps1Svd (la : LinAlg) {d : ℕ} (S : Matrix (Fin d) (Fin m) ℝ)
    (A : Matrix (Fin m) (Fin n) ℝ) (rhs : Fin n → ℝ) (delta : ℝ) : Except PyErr (SPSPrec n) :=
  let A_ske := aLift (S * A) (Real.sqrt delta)
  match svdRightPrecond la A_ske with
  | .error e => .error e
  | .ok o =>
    let z_ske : Fin o.r → ℝ := fun j => (o.Vh *ᵥ rhs) j / o.sigma j
    let x_ske := o.M *ᵥ z_ske
    let rhs_pc := o.Mᵀ *ᵥ rhs
    let lhs_ske_pc := o.Mᵀ *ᵥ (Aᵀ *ᵥ (A *ᵥ x_ske) + delta • x_ske)
    .ok ⟨o.r, o.M, if norm2 (lhs_ske_pc - rhs_pc) ≥ norm2 rhs_pc then none else some z_ske⟩

/-- `SPS1`, Nystrom branch, strategy `'right'` (parla/drivers/saddlesys.py:156-167).  (For a zero
singular value NumPy's division gives infinities or NaN and the model 0; theorems about this
branch assume there is none.) -/
noncomputable def sps1Right (la : LinAlg) {d : ℕ} (S : Matrix (Fin n) (Fin d) ℝ)
    (A : Matrix (Fin m) (Fin n) ℝ) : SPSPrec n :=
  let A_sample := A * S
  let Q := (orth la m ⟨_, A_sample⟩).mat
  let A_ske := Qᵀ * A
  let sigma := (la.svd A_ske).2.1
  let Vh := (la.svd A_ske).2.2
  ⟨_, Matrix.of fun i j => Vhᵀ i j / sigma j, none⟩

/-- `SPS1`, Nystrom branch, strategy `'left'` (parla/drivers/saddlesys.py:168-181). -/
noncomputable def sps1Left (la : LinAlg) {d : ℕ} (S : Matrix (Fin d) (Fin m) ℝ)
    (A : Matrix (Fin m) (Fin n) ℝ) : SPSPrec n :=
  let A_ske := S * A
  let V := (orth la n ⟨_, A_skeᵀ⟩).mat
  let A_sample := A * V
  let sigma := (la.svd A_sample).2.1
  let Wt := (la.svd A_sample).2.2
  ⟨_, V * Matrix.of fun i j => Wtᵀ i j / sigma j, none⟩

/-- The main phase of `SPS1` (parla/drivers/saddlesys.py:207-219). -/
noncomputable def sps1Post (solver : SaddleSolver) (A : Matrix (Fin m) (Fin n) ℝ) (b : Fin m → ℝ)
    (c : Option (Fin n → ℝ)) (delta tol : ℝ) (iterLim : ℤ) (p : SPSPrec n) (logging : Bool)
    (clock : LogTimes) : Except PyErr (SPSOut m n) := do
  let res ← solver m n A (.vec b) c delta tol iterLim (.gen p.r p.M) p.z
  let log ← finishLog logging clock res.errs (norm2 (normalRhs A b c))
  pure ⟨res.x, some res.y, log⟩

/-- `SPS1.__call__`: parla/drivers/saddlesys.py:127-219, for `b` absent or 1-dimensional
(`b.getD 0` is `if b is None: b = np.zeros(m)`, lines 135-136).  A negative
embedding dimension is rejected by NumPy (`ValueError`) inside the sketching operator. -/
noncomputable def sps1Call (la : LinAlg) (sketchOpGen : SkOpGen G) (samplingFactor : ℝ)
    (solver : SaddleSolver) (strategy : NystromStrategy) (A : Matrix (Fin m) (Fin n) ℝ)
    (b : Option (Fin m → ℝ)) (c : Option (Fin n → ℝ)) (delta tol : ℝ) (iterLim : ℤ) (logging : Bool)
    (clock : LogTimes) : Py G (SPSOut m n) := do
  let d := pyInt (samplingFactor * n)
  Py.assert (strategy ≠ .other)
  if d < 0 then Py.raise .value else
    let d := d.toNat
    let b := b.getD 0
    let rhs := normalRhs A b c
    if ¬ d < n then
      let S ← sketchOpGen d m
      let p ← Py.lift (sps1Svd la S A rhs delta)
      Py.lift (sps1Post solver A b c delta tol iterLim p logging clock)
    else if strategy = .right then
      let S ← sketchOpGen n d
      Py.lift (sps1Post solver A b c delta tol iterLim (sps1Right la S A) logging clock)
    else
      let S ← sketchOpGen d m
      Py.lift (sps1Post solver A b c delta tol iterLim (sps1Left la S A) logging clock)

open Classical in
/-- `b_aug` (parla/drivers/saddlesys.py:292-297).  The trailing part exists only for `delta > 0`. -/
noncomputable def sps2Rhs {d : ℕ} {delta : ℝ} (S : Matrix (Fin d) (Fin m) ℝ)
    (o : PrecOut (d + liftRows n (Real.sqrt delta)) n) (b : Fin m → ℝ) (c : Option (Fin n → ℝ)) :
    Fin (m + liftRows n (Real.sqrt delta)) → ℝ :=
  match c with
  | none => catv b 0
  | some c =>
    if norm2 c > 0 then
      let v := o.U *ᵥ fun j => 1 / o.sigma j * (o.Vh *ᵥ c) j
      catv (b - Sᵀ *ᵥ topv v) (0 - botv v)
    else catv b 0

open Classical in
/-- The presolve (parla/drivers/saddlesys.py:300-307). -/
noncomputable def sps2Start {d : ℕ} {delta : ℝ} (S : Matrix (Fin d) (Fin m) ℝ)
    (o : PrecOut (d + liftRows n (Real.sqrt delta)) n)
    (A_aug : Matrix (Fin (m + liftRows n (Real.sqrt delta))) (Fin n) ℝ)
    (b_aug : Fin (m + liftRows n (Real.sqrt delta)) → ℝ) : Option (Fin o.r → ℝ) :=
  let z_ske := (topRows o.U)ᵀ *ᵥ (S *ᵥ topv b_aug)
  let z_ske := if delta > 0 then z_ske + (botRows o.U)ᵀ *ᵥ botv b_aug else z_ske
  let x_ske := o.M *ᵥ z_ske
  if norm2 (b_aug - A_aug *ᵥ x_ske) ≥ norm2 b_aug then none else some z_ske

/-- The part of `SPS2.__call__` after the sketch: parla/drivers/saddlesys.py:281-327.
Simplification: a solver that overwrites the array `M` it is given (PcSS1 does so when `M` is not
square) would change `ar0` (line 321), the first logged error; the model uses the original `M`. -/
noncomputable def sps2Post (la : LinAlg) (solver : SaddleSolver) {d : ℕ} (S : Matrix (Fin d) (Fin m) ℝ)
    (A : Matrix (Fin m) (Fin n) ℝ) (b : Fin m → ℝ) (c : Option (Fin n → ℝ)) (delta tol : ℝ)
    (iterLim : ℤ) (logging : Bool) (clock : LogTimes) : Except PyErr (SPSOut m n) := do
  let A_ske := aLift (S * A) (Real.sqrt delta)
  let o ← svdRightPrecond la A_ske
  let A_aug := aLift A (Real.sqrt delta)
  let b_aug := sps2Rhs S o b c
  let z_ske := sps2Start S o A_aug b_aug
  let res ← solver _ n A_aug (.vec b_aug) none 0 tol iterLim (.gen o.r o.M) z_ske
  let log ← finishLog logging clock res.errs (norm2 (o.Mᵀ *ᵥ (A_augᵀ *ᵥ b_aug)))
  pure ⟨res.x, res.x.map fun x => b - A *ᵥ x, log⟩

/-- `SPS2.__call__`: parla/drivers/saddlesys.py:264-327, for `b` absent or 1-dimensional
(`b.getD 0` is `if b is None: b = np.zeros(m)`, lines 271-272). -/
noncomputable def sps2Call (la : LinAlg) (sketchOpGen : SkOpGen G) (samplingFactor : ℝ)
    (solver : SaddleSolver) (A : Matrix (Fin m) (Fin n) ℝ) (b : Option (Fin m → ℝ))
    (c : Option (Fin n → ℝ)) (delta tol : ℝ) (iterLim : ℤ) (logging : Bool) (clock : LogTimes) :
    Py G (SPSOut m n) := do
  let d ← dimChecks samplingFactor m n
  let S ← sketchOpGen d m
  Py.lift (sps2Post la solver S A (b.getD 0) c delta tol iterLim logging clock)

end Parla
