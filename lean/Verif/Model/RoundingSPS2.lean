import Verif.Model.RoundingLS
import Verif.Model.SaddleSys

/-! # `SPS2` with rounding errors up to the iterative stage

The same code as in Model/SaddleSys with the operations of the sketching and factorisation stages being those of an `FlLS`; with
`exactLS la` this is `sps2Call la` (theorem C106_exact).  The computed factors are used as they are to transform the right-hand side
and to presolve, but the products, quotients and differences made there, the stacking of `A` and the iterative stage are exact. -/

namespace Parla

open Matrix

variable {G : Type} {m n : ℕ}

/-- The part of `SPS2.__call__` after the sketch: parla/drivers/saddlesys.py:281-327. -/
noncomputable def sps2PostFl (fl : FlLS) (solver : SaddleSolver) {d : ℕ} (S : Matrix (Fin d) (Fin m) ℝ)
    (A : Matrix (Fin m) (Fin n) ℝ) (b : Fin m → ℝ) (c : Option (Fin n → ℝ)) (delta tol : ℝ)
    (iterLim : ℤ) (logging : Bool) (clock : LogTimes) : Except PyErr (SPSOut m n) := do
  let A_ske := liftFl fl (fl.mul S A) delta
  let o ← svdRightPrecondFl fl A_ske
  let A_aug := aLift A (Real.sqrt delta)
  let b_aug := sps2Rhs S o b c
  let z_ske := sps2Start S o A_aug b_aug
  let res ← solver _ n A_aug (.vec b_aug) none 0 tol iterLim (.gen o.r o.M) z_ske
  let log ← finishLog logging clock res.errs (norm2 (o.Mᵀ *ᵥ (A_augᵀ *ᵥ b_aug)))
  pure ⟨res.x, res.x.map fun x => b - A *ᵥ x, log⟩

/-- `SPS2.__call__`: parla/drivers/saddlesys.py:264-327. -/
noncomputable def sps2CallFl (fl : FlLS) (sketchOpGen : SkOpGen G) (samplingFactor : ℝ)
    (solver : SaddleSolver) (A : Matrix (Fin m) (Fin n) ℝ) (b : Option (Fin m → ℝ))
    (c : Option (Fin n → ℝ)) (delta tol : ℝ) (iterLim : ℤ) (logging : Bool) (clock : LogTimes) :
    Py G (SPSOut m n) := do
  let d ← dimChecks samplingFactor m n
  let S ← sketchOpGen d m
  Py.lift (sps2PostFl fl solver S A (b.getD 0) c delta tol iterLim logging clock)

end Parla
