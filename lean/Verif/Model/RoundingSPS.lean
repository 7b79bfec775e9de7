import Verif.Model.RoundingPCG
import Verif.Model.SaddleSys

/-! # `SPS1` with rounding errors

The definitions follow Model/PcSS1 and Model/SaddleSys line by line, with the vector operations of the iterative phase taken from a
structure `FlVec` and everything that builds the preconditioner and the start done by whatever arithmetic; `C104_exact` says that
exact operations give back those models. -/

namespace Parla

open Matrix

variable {G : Type} {m n : ℕ}

/-- The operations `SPS1` performs with `PcSS1` as its iterative solver. -/
structure FlSPS extends FlVec where
  /-- what parla/comps/determiter/saddle.py:127-153 makes of `R` -/
  pre : ∀ {n r : ℕ}, Matrix (Fin n) (Fin r) ℝ → ℝ → Except PyErr (((Fin n → ℝ) → Fin n → ℝ) × Matrix (Fin n) (Fin r) ℝ)
  /-- parla/drivers/saddlesys.py:143-154 and 194-201 -/
  svd : ∀ {m n d : ℕ}, Matrix (Fin d) (Fin m) ℝ → Matrix (Fin m) (Fin n) ℝ → (Fin n → ℝ) → ℝ → Except PyErr (SPSPrec n)
  /-- parla/drivers/saddlesys.py:156-167 -/
  right : ∀ {m n d : ℕ}, Matrix (Fin n) (Fin d) ℝ → Matrix (Fin m) (Fin n) ℝ → SPSPrec n
  /-- parla/drivers/saddlesys.py:168-181 -/
  left : ∀ {m n d : ℕ}, Matrix (Fin d) (Fin m) ℝ → Matrix (Fin m) (Fin n) ℝ → SPSPrec n

/-- Exact arithmetic with the kernels of `la`. -/
noncomputable def exactSPS (la : LinAlg) : FlSPS where
  toFlVec := exactVec
  pre := pcss1Pre
  svd := sps1Svd la
  right := sps1Right la
  left := sps1Left la

/-- `PcSS1.__call__`: parla/comps/determiter/saddle.py:94-176, as `PcSS1`. -/
noncomputable def PcSS1Fl (fl : FlSPS) : SaddleSolver := fun m n A b c delta tol iterLim P z0 =>
  let go (b : Fin m → ℝ) : Except PyErr (SaddleOut m n) :=
    match P, z0 with
    | .tri _, _ => .error .notImplemented
    | .gen _ R, z0 => pcss1CoreFl fl.toFlVec fl.pre A b c delta tol iterLim R z0
  match b with
  | .multi _ _ => .error .notImplemented
  | .none => go 0
  | .vec b => go b

/-- The main phase of `SPS1` (parla/drivers/saddlesys.py:207-219), as `sps1Post`. -/
noncomputable def sps1PostFl (fl : FlSPS) (A : Matrix (Fin m) (Fin n) ℝ) (b : Fin m → ℝ)
    (c : Option (Fin n → ℝ)) (delta tol : ℝ) (iterLim : ℤ) (p : SPSPrec n) (logging : Bool)
    (clock : LogTimes) : Except PyErr (SPSOut m n) := do
  let res ← PcSS1Fl fl m n A (.vec b) c delta tol iterLim (.gen p.r p.M) p.z
  let log ← finishLog logging clock res.errs (fl.norm (normalRhsFl fl.toFlVec A b c))
  pure ⟨res.x, some res.y, log⟩

/-- `SPS1.__call__` with `PcSS1` as the iterative solver: parla/drivers/saddlesys.py:127-219, as `sps1Call`. -/
noncomputable def sps1CallFl (fl : FlSPS) (sketchOpGen : SkOpGen G) (samplingFactor : ℝ)
    (strategy : NystromStrategy) (A : Matrix (Fin m) (Fin n) ℝ)
    (b : Option (Fin m → ℝ)) (c : Option (Fin n → ℝ)) (delta tol : ℝ) (iterLim : ℤ) (logging : Bool)
    (clock : LogTimes) : Py G (SPSOut m n) := do
  let d := pyInt (samplingFactor * n)
  Py.assert (strategy ≠ .other)
  if d < 0 then Py.raise .value else
    let d := d.toNat
    let b := b.getD 0
    let rhs := normalRhsFl fl.toFlVec A b c
    if ¬ d < n then
      let S ← sketchOpGen d m
      let p ← Py.lift (fl.svd S A rhs delta)
      Py.lift (sps1PostFl fl A b c delta tol iterLim p logging clock)
    else if strategy = .right then
      let S ← sketchOpGen n d
      Py.lift (sps1PostFl fl A b c delta tol iterLim (fl.right S A) logging clock)
    else
      let S ← sketchOpGen d m
      Py.lift (sps1PostFl fl A b c delta tol iterLim (fl.left S A) logging clock)

end Parla
