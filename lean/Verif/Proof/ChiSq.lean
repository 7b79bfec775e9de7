import Verif.Proof.Gauss
import Mathlib.Probability.Moments.Basic

/-! # Tail bounds for the squared length of a standard normal vector -/

namespace Parla.Proof

open MeasureTheory ProbabilityTheory Matrix

/-- `E exp(λ g²) = (1-2λ)^(-1/2)` for `λ < 1/2` -/
theorem gauss_mgf_sq {l : ℝ} (hl : l < 1 / 2) :
    ∫ x, Real.exp (l * x ^ 2) ∂(gaussianReal 0 1) = (1 - 2 * l) ^ (-(1 / 2) : ℝ) := by
  have hp : 0 < 1 - 2 * l := by linarith
  rw [integral_gaussianReal_eq_integral_smul one_ne_zero]
  have h1 : ∀ x : ℝ, gaussianPDFReal 0 1 x • Real.exp (l * x ^ 2) =
      (√(2 * Real.pi))⁻¹ * Real.exp (-(1 / 2 - l) * x ^ 2) := by
    intro x
    rw [gaussianPDFReal, smul_eq_mul]
    simp only [NNReal.coe_one, mul_one, sub_zero]
    rw [mul_assoc, ← Real.exp_add]
    congr 2
    ring
  simp only [h1]
  rw [integral_const_mul, integral_gaussian, ← Real.sqrt_inv, ← Real.sqrt_mul (by positivity), Real.sqrt_eq_rpow]
  rw [show (2 * Real.pi)⁻¹ * (Real.pi / (1 / 2 - l)) = (1 - 2 * l)⁻¹ by
    have h3 : (1 / 2 - l) ≠ 0 := by linarith
    have h4 : (1 - 2 * l) ≠ 0 := hp.ne'
    have := Real.pi_pos.ne'
    rw [show (1 / 2 - l) = (1 - 2 * l) / 2 by ring]
    field_simp, Real.inv_rpow hp.le, Real.rpow_neg hp.le]

theorem gauss_mgf_sq_integrable {l : ℝ} (hl : l < 1 / 2) :
    Integrable (fun x : ℝ => Real.exp (l * x ^ 2)) (gaussianReal 0 1) := by
  refine Integrable.of_integral_ne_zero ?_
  rw [gauss_mgf_sq hl]
  exact (Real.rpow_pos_of_pos (by linarith) _).ne'

/-- the moment generating function of the squared length -/
theorem gauss_mgf_sqnorm (d : ℕ) {l : ℝ} (hl : l < 1 / 2) :
    Integrable (fun x => Real.exp (l * ∑ i, x i ^ 2)) (gauss (Fin d)) ∧
    ∫ x, Real.exp (l * ∑ i, x i ^ 2) ∂(gauss (Fin d)) = ((1 - 2 * l) ^ (-(1 / 2) : ℝ)) ^ d := by
  have h1 : ∀ x : Fin d → ℝ, Real.exp (l * ∑ i, x i ^ 2) = ∏ i, Real.exp (l * x i ^ 2) := by
    intro x; rw [← Real.exp_sum, Finset.mul_sum]
  simp only [h1]
  refine ⟨Integrable.fintype_prod (μ := fun _ : Fin d => gaussianReal 0 1)
    (fun _ => gauss_mgf_sq_integrable hl), ?_⟩
  unfold gauss indep
  rw [integral_fintype_prod_eq_prod (𝕜 := ℝ) (μ := fun _ : Fin d => gaussianReal 0 1)
      (fun _ x => Real.exp (l * x ^ 2))]
  rw [Finset.prod_congr rfl fun i _ => gauss_mgf_sq hl, Finset.prod_const, Finset.card_univ, Fintype.card_fin]

theorem exp_quad_le {u : ℝ} (h1 : -(1 / 4) ≤ u) (h2 : u ≤ 1 / 4) : Real.exp (-u - u ^ 2) ≤ 1 - u := by
  have hy : |(-u - u ^ 2)| ≤ 1 := by rw [abs_le]; constructor <;> nlinarith
  have h := Real.abs_exp_sub_one_sub_id_le hy
  have h3 := (abs_le.1 h).2
  rcases le_or_gt 0 u with hu | hu
  · have h4 : Real.exp (-u - u ^ 2) ≤ 1 / (1 + (u + u ^ 2) + (u + u ^ 2) ^ 2 / 2) := by
      have := Real.quadratic_le_exp_of_nonneg (by positivity : (0 : ℝ) ≤ u + u ^ 2)
      rw [show -u - u ^ 2 = -(u + u ^ 2) by ring, Real.exp_neg, ← one_div]
      exact one_div_le_one_div_of_le (by positivity) this
    refine h4.trans ?_
    rw [div_le_iff₀ (by positivity)]
    nlinarith [mul_nonneg hu (sq_nonneg u), mul_nonneg (mul_nonneg hu (sq_nonneg u)) hu,
      mul_nonneg (mul_nonneg (mul_nonneg hu (sq_nonneg u)) hu) hu, sq_nonneg u]
  · have hv : 0 ≤ 2 + u := by linarith
    nlinarith [mul_nonneg (mul_nonneg (sq_nonneg u) (neg_nonneg.2 hu.le)) hv]

/-- one factor of the exponential bound -/
theorem factor_le {u : ℝ} (h1 : -(1 / 4) ≤ u) (h2 : u ≤ 1 / 4) :
    (1 - u) ^ (-(1 / 2) : ℝ) ≤ Real.exp ((u + u ^ 2) / 2) := by
  have hp : 0 < 1 - u := by linarith
  have h := Real.rpow_le_rpow_of_nonpos (z := (-(1 / 2) : ℝ)) (Real.exp_pos _) (exp_quad_le h1 h2) (by norm_num)
  refine h.trans_eq ?_
  rw [← Real.exp_mul]
  congr 1
  ring

/-- `P(χ²_d ≥ (1+t) d) ≤ exp(-d t²/8)` for `0 ≤ t ≤ 1/2` -/
theorem chiSq_upper (d : ℕ) {t : ℝ} (ht : 0 ≤ t) (ht1 : t ≤ 1 / 2) :
    (gauss (Fin d)).real {x | (1 + t) * d ≤ ∑ i, x i ^ 2} ≤ Real.exp (-(d * t ^ 2 / 8)) := by
  obtain ⟨hi, hv⟩ := gauss_mgf_sqnorm d (l := t / 4) (by linarith)
  have h := measure_ge_le_exp_mul_mgf (μ := gauss (Fin d)) (X := fun x => ∑ i, x i ^ 2) ((1 + t) * d)
    (by linarith : 0 ≤ t / 4) hi
  refine h.trans ?_
  rw [mgf, hv, show 2 * (t / 4) = t / 2 by ring]
  have h2 := pow_le_pow_left₀ (Real.rpow_nonneg (by linarith) _)
    (factor_le (u := t / 2) (by linarith) (by linarith)) d
  rw [← Real.exp_nat_mul] at h2
  refine (mul_le_mul_of_nonneg_left h2 (Real.exp_pos _).le).trans ?_
  rw [← Real.exp_add]
  refine Real.exp_le_exp.2 (le_of_eq ?_)
  ring

/-- `P(χ²_d ≤ (1-t) d) ≤ exp(-d t²/8)` for `0 ≤ t ≤ 1/2` -/
theorem chiSq_lower (d : ℕ) {t : ℝ} (ht : 0 ≤ t) (ht1 : t ≤ 1 / 2) :
    (gauss (Fin d)).real {x | ∑ i, x i ^ 2 ≤ (1 - t) * d} ≤ Real.exp (-(d * t ^ 2 / 8)) := by
  obtain ⟨hi, hv⟩ := gauss_mgf_sqnorm d (l := -(t / 4)) (by linarith)
  have h := measure_le_le_exp_mul_mgf (μ := gauss (Fin d)) (X := fun x => ∑ i, x i ^ 2) ((1 - t) * d)
    (by linarith : -(t / 4) ≤ 0) hi
  refine h.trans ?_
  rw [mgf, hv, show 2 * -(t / 4) = -(t / 2) by ring]
  have h2 := pow_le_pow_left₀ (Real.rpow_nonneg (by linarith) _)
    (factor_le (u := -(t / 2)) (by linarith) (by linarith)) d
  rw [← Real.exp_nat_mul] at h2
  refine (mul_le_mul_of_nonneg_left h2 (Real.exp_pos _).le).trans ?_
  rw [← Real.exp_add]
  refine Real.exp_le_exp.2 (le_of_eq ?_)
  ring

end Parla.Proof
