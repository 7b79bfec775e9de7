import Mathlib.MeasureTheory.Integral.Pi
import Mathlib.MeasureTheory.Measure.Lebesgue.Basic
import Mathlib.Probability.Distributions.Gaussian.Real

/-! # Second moments of independent draws -/

namespace Parla.Proof

open MeasureTheory

variable {ι : Type} [Fintype ι] [DecidableEq ι]

/-- `N` independent draws from `μ` -/
noncomputable def indep (ι : Type) [Fintype ι] (μ : Measure ℝ) : Measure (ι → ℝ) :=
  Measure.pi fun _ : ι => μ

theorem pair_eq_prod (φ : ℝ → ℝ) (p q : ι) (x : ι → ℝ) :
    φ (x p) * φ (x q) = ∏ i, (fun i t => (if i = p then φ t else 1) * (if i = q then φ t else 1)) i (x i) := by
  simp only [Finset.prod_mul_distrib]
  simp

/-- independent draws of a centred function are uncorrelated -/
theorem indep_pair {μ : Measure ℝ} [IsProbabilityMeasure μ] {φ : ℝ → ℝ} (h1 : Integrable φ μ)
    (h2 : Integrable (fun t => φ t * φ t) μ) (h0 : ∫ t, φ t ∂μ = 0) {v : ℝ}
    (hv : ∫ t, φ t * φ t ∂μ = v) (p q : ι) :
    Integrable (fun x : ι → ℝ => φ (x p) * φ (x q)) (indep ι μ) ∧
    ∫ x, φ (x p) * φ (x q) ∂(indep ι μ) = if p = q then v else 0 := by
  have hint : ∀ i : ι, Integrable (fun t => (if i = p then φ t else 1) * (if i = q then φ t else 1)) μ := by
    intro i
    by_cases hp : i = p <;> by_cases hq : i = q <;> simp only [hp, hq, if_true, if_false]
    · subst hp; subst hq; simpa using h2
    · subst hp; simpa [hq] using h1
    · subst hq; simpa [hp] using h1
    · simpa [hp, hq] using integrable_const (1 : ℝ)
  constructor
  · have := Integrable.fintype_prod (μ := fun _ : ι => μ) hint
    refine this.congr (Filter.Eventually.of_forall fun x => ?_)
    exact (pair_eq_prod φ p q x).symm
  · simp only [pair_eq_prod φ p q]
    unfold indep
    rw [integral_fintype_prod_eq_prod (𝕜 := ℝ) (μ := fun _ : ι => μ)
      (fun i t => (if i = p then φ t else 1) * (if i = q then φ t else 1))]
    by_cases hpq : p = q
    · subst hpq
      rw [if_pos rfl, Finset.prod_eq_single p]
      · simpa using hv
      · intro b _ hb
        simp [hb]
      · intro h; exact absurd (Finset.mem_univ p) h
    · rw [if_neg hpq]
      apply Finset.prod_eq_zero (Finset.mem_univ p)
      simpa [hpq] using h0

end Parla.Proof
