import Verif.Spec
import Verif.Model.LeastSquares

/-! # Specification: quantities in the claims about rounding in least squares drivers (C82) -/

namespace Parla.Spec

open Matrix

/-- the size of the data that make up a sketch `S A` with `√δ I` below -/
noncomputable def sketchSize {d m n : ℕ} (S : Matrix (Fin d) (Fin m) ℝ) (A : Matrix (Fin m) (Fin n) ℝ) (δ : ℝ) : ℝ :=
  fro S * fro A + √δ * √n

/-- What rounding to `ε` in the sketching and factorisation stages costs the preconditioner, if the data have size `γ` and the
sketch, with `√δ I` below, keeps `‖v‖` at least `μ ‖v‖`: proportional to the condition number `γ/μ` with `qr` and `svd`, to its
square with `chol`. -/
noncomputable def setupLoss (mode : SPOMode) (ε γ μ : ℝ) (n : ℕ) : ℝ :=
  match mode with
  | .qr => 9 * ε * (γ / μ)
  | .chol => 15 * ε * (γ / μ) ^ 2
  | .svd => 96 * ε * √n * (γ / μ)
  | .other => 0

end Parla.Spec
