import Verif.Spec
import Mathlib.Analysis.Complex.Exponential

/-!
# Specification vocabulary for low-rank approximation

Singular value decompositions of the *data* matrix, independent of any factorisation routine.
-/

namespace Parla.Spec

open Matrix Parla

/-- `A = U diag(s) V'` is a (thin) singular value decomposition. -/
structure IsSVD {m n r : ℕ} (A : Matrix (Fin m) (Fin n) ℝ) (U : Matrix (Fin m) (Fin r) ℝ)
    (s : Fin r → ℝ) (V : Matrix (Fin n) (Fin r) ℝ) : Prop where
  left : OrthoCols U
  right : OrthoCols V
  nonneg : ∀ i, 0 ≤ s i
  anti : Antitone s
  eq : A = U * diagonal s * Vᵀ

/-- the singular values after the first `k`, with zeros in front -/
def tail {r : ℕ} (s : Fin r → ℝ) (k : ℕ) (i : Fin r) : ℝ := if i.1 < k then 0 else s i

/-- `∑_{i ≥ k} s_i²`, the squared Frobenius error of the best approximation of rank `k` -/
def tailSq {r : ℕ} (s : Fin r → ℝ) (k : ℕ) : ℝ := ∑ i, tail s k i ^ 2

/-- `∑_{i ≥ k} s_i` -/
def tailSum {r : ℕ} (s : Fin r → ℝ) (k : ℕ) : ℝ := ∑ i, tail s k i

/-- `(n - k) (4^k - 1) / 3`: how much a greedily pivoted interpolation of `n` columns from `k` of them can
amplify an error (squared) -/
noncomputable def pivotGrowth (n k : ℕ) : ℝ := ((n : ℝ) - k) * (((4 : ℝ) ^ k - 1) / 3)

/-- `(n - k) (4^(k+1) - 1) / 3`: how far the error of `k` greedily chosen columns out of `n` can be from
that of the best matrix of rank `k` (squared) -/
noncomputable def pivotLoss (n k : ℕ) : ℝ := ((n : ℝ) - k) * (((4 : ℝ) ^ (k + 1) - 1) / 3)

/-- the mean squared error allowed to `k` of `n` columns chosen with a Gaussian sketch of `k + over` columns
and `q` passes, against rank `t` with gap `τ` -/
noncomputable def idBound {r : ℕ} (n k over t : ℕ) (s : Fin r → ℝ) (τ : ℝ) (q : ℕ) : ℝ :=
  if over = 0 then
    (1 + pivotGrowth n k) * (tailSq s t * (1 + τ ^ (2 * q) * (t / ((k : ℝ) - t - 1))))
  else if q = 0 then
    tailSq s t * (2 * (1 + pivotGrowth n k) * (1 + t / ((k : ℝ) + over - t - 1)) +
      2 * pivotLoss n k * ((k + over) * (t / ((k : ℝ) + over - t - 1))))
  else
    (1 + pivotGrowth n k) * (tailSq s t * (1 + τ ^ (2 * (q - 1)) * (t / ((k : ℝ) + over - t - 1)))) +
      pivotLoss n k * tailSq s k

/-- `(1 + ε/2) / (1 - ε)`: what a Gaussian sketch may cost when it is within `ε` of its expected behaviour -/
noncomputable def sketchCost (ε : ℝ) : ℝ := (1 + ε / 2) / (1 - ε)

/-- the squared error allowed to `k` of `n` columns chosen with a Gaussian sketch of `k + over` columns and `q`
passes, against rank `t` with gap `τ`, when the sketch is within `ε` of its expected behaviour -/
noncomputable def idTail {r : ℕ} (n k over t : ℕ) (s : Fin r → ℝ) (τ : ℝ) (q : ℕ) (ε : ℝ) : ℝ :=
  if over = 0 then
    (1 + pivotGrowth n k) * (tailSq s t * (1 + τ ^ (2 * q) * sketchCost ε))
  else if q = 0 then
    tailSq s t * (2 * (1 + pivotGrowth n k) * (1 + sketchCost ε) + 2 * pivotLoss n k * (t * sketchCost ε))
  else
    (1 + pivotGrowth n k) * (tailSq s t * (1 + τ ^ (2 * (q - 1)) * sketchCost ε)) +
      pivotLoss n k * tailSq s k

/-- the probability allowed to the exceptional draws of a Gaussian sketch with `ℓ` columns -/
noncomputable def sketchRisk (t ℓ : ℕ) (ε : ℝ) : ℝ := 3 * 9 ^ t * Real.exp (-(ℓ * ε ^ 2 / 32))

end Parla.Spec
