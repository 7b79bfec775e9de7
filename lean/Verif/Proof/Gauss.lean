import Verif.Proof.Expect
import Verif.Proof.Generic
import Mathlib.Probability.Distributions.Gaussian.Multivariate
import Mathlib.Analysis.SpecialFunctions.ImproperIntegrals
import Mathlib.Analysis.SpecialFunctions.Gaussian.GaussianIntegral

/-! # Standard normal arrays: invariance under orthonormal rows, and the inverse of their squared length -/

namespace Parla.Proof

open MeasureTheory ProbabilityTheory Matrix

/-- independent standard normals indexed by `ι` -/
noncomputable abbrev gauss (ι : Type) [Fintype ι] : Measure (ι → ℝ) := indep ι (gaussianReal 0 1)

instance {ι : Type} [Fintype ι] : IsProbabilityMeasure (gauss ι) := by
  unfold gauss indep; infer_instance

/-- orthonormal combinations of independent standard normals are independent standard normals -/
theorem gauss_map {ι κ : Type} [Fintype ι] [Fintype κ] [DecidableEq κ] (T : Matrix κ ι ℝ) (hT : T * Tᵀ = 1) :
    (gauss ι).map (fun x => T *ᵥ x) = gauss κ := by
  have hm : Measurable fun x : ι → ℝ => T *ᵥ x :=
    (Continuous.matrix_mulVec continuous_const continuous_id).measurable
  have e1 := map_pi_eq_stdGaussian (ι := κ)
  have e2 := map_pi_eq_stdGaussian (ι := ι)
  have key : ((gauss ι).map (fun x => T *ᵥ x)).map (WithLp.toLp 2) = (gauss κ).map (WithLp.toLp 2) := by
    change _ = (Measure.pi fun _ : κ => gaussianReal 0 1).map (WithLp.toLp 2)
    rw [e1, Measure.map_map (by fun_prop) hm]
    have : IsProbabilityMeasure ((gauss ι).map (WithLp.toLp 2 ∘ fun x => T *ᵥ x)) :=
      Measure.isProbabilityMeasure_map (Measurable.aemeasurable (by fun_prop))
    apply Measure.ext_of_charFun (E := EuclideanSpace ℝ κ)
    ext t
    rw [charFun_stdGaussian, charFun_apply, integral_map (Measurable.aemeasurable (by fun_prop)) (by fun_prop)]
    have h3 := charFun_stdGaussian (E := EuclideanSpace ℝ ι) (WithLp.toLp 2 (Tᵀ *ᵥ t.ofLp))
    rw [← e2, charFun_apply, integral_map (Measurable.aemeasurable (by fun_prop)) (by fun_prop)] at h3
    have h4 : ‖(WithLp.toLp 2 (Tᵀ *ᵥ t.ofLp) : EuclideanSpace ℝ ι)‖ ^ 2 = ‖t‖ ^ 2 := by
      rw [EuclideanSpace.real_norm_sq_eq, EuclideanSpace.real_norm_sq_eq]
      change ∑ i, (Tᵀ *ᵥ t.ofLp) i ^ 2 = ∑ i, t.ofLp i ^ 2
      have : (Tᵀ *ᵥ t.ofLp) ⬝ᵥ (Tᵀ *ᵥ t.ofLp) = t.ofLp ⬝ᵥ t.ofLp := by
        rw [dotProduct_mulVec, vecMul_transpose, mulVec_mulVec, hT, one_mulVec]
      simpa [dotProduct, sq] using this
    rw [← Complex.ofReal_pow, ← h4, Complex.ofReal_pow, ← h3]
    refine integral_congr_ae (Filter.Eventually.of_forall fun x => ?_)
    simp only [Function.comp]
    congr 2
    rw [PiLp.inner_apply, PiLp.inner_apply]
    have : t.ofLp ⬝ᵥ (T *ᵥ x) = (Tᵀ *ᵥ t.ofLp) ⬝ᵥ x := by
      rw [dotProduct_mulVec, mulVec_transpose]
    have h7 : ∑ i, (T *ᵥ x) i * t.ofLp i = ∑ i, x i * (Tᵀ *ᵥ t.ofLp) i := by
      simpa [dotProduct, mul_comm] using this
    have h8 := congrArg (fun z : ℝ => (z : ℂ)) h7
    simpa [mul_comm] using h8
  have hid : ∀ ν : Measure (κ → ℝ), (ν.map (WithLp.toLp 2)).map (WithLp.ofLp : EuclideanSpace ℝ κ → κ → ℝ) = ν := by
    intro ν
    rw [Measure.map_map (by fun_prop) (by fun_prop)]
    exact Measure.map_id
  rw [← hid ((gauss ι).map fun x => T *ᵥ x), key, hid]

/-- `E exp(-t g²) = (1+2t)^(-1/2)` -/
theorem gauss_exp_sq {t : ℝ} (ht : 0 ≤ t) :
    ∫ x, Real.exp (-t * x ^ 2) ∂(gaussianReal 0 1) = (1 + 2 * t) ^ (-(1 / 2) : ℝ) := by
  rw [integral_gaussianReal_eq_integral_smul one_ne_zero]
  have h1 : ∀ x : ℝ, gaussianPDFReal 0 1 x • Real.exp (-t * x ^ 2) =
      (√(2 * Real.pi))⁻¹ * Real.exp (-(t + 1 / 2) * x ^ 2) := by
    intro x
    rw [gaussianPDFReal, smul_eq_mul]
    simp only [NNReal.coe_one, mul_one, sub_zero]
    rw [mul_assoc, ← Real.exp_add]
    congr 2
    ring
  simp only [h1]
  rw [integral_const_mul, integral_gaussian, ← Real.sqrt_inv, ← Real.sqrt_mul (by positivity), Real.sqrt_eq_rpow]
  rw [show (2 * Real.pi)⁻¹ * (Real.pi / (t + 1 / 2)) = (1 + 2 * t)⁻¹ by
    field_simp; ring, Real.inv_rpow (by positivity), Real.rpow_neg (by positivity)]

theorem gauss_exp_sqnorm (d : ℕ) {t : ℝ} (ht : 0 ≤ t) :
    ∫⁻ x, ENNReal.ofReal (Real.exp (-t * ∑ i, x i ^ 2)) ∂(gauss (Fin d)) =
      ENNReal.ofReal ((1 + 2 * t) ^ (-(d / 2) : ℝ)) := by
  have hi : Integrable (fun x : ℝ => Real.exp (-t * x ^ 2)) (gaussianReal 0 1) := by
    refine Integrable.of_bound (C := 1) (Measurable.aestronglyMeasurable (by fun_prop)) ?_
    refine Filter.Eventually.of_forall fun x => ?_
    rw [Real.norm_eq_abs, abs_of_pos (Real.exp_pos _), Real.exp_le_one_iff]
    nlinarith [sq_nonneg x]
  have h1 : ∀ x : Fin d → ℝ, Real.exp (-t * ∑ i, x i ^ 2) = ∏ i, Real.exp (-t * x i ^ 2) := by
    intro x; rw [← Real.exp_sum, Finset.mul_sum]
  simp only [h1]
  rw [← ofReal_integral_eq_lintegral_ofReal]
  · unfold gauss indep
    rw [integral_fintype_prod_eq_prod (𝕜 := ℝ) (μ := fun _ : Fin d => gaussianReal 0 1)
      (fun _ x => Real.exp (-t * x ^ 2))]
    rw [Finset.prod_congr rfl fun i _ => gauss_exp_sq ht, Finset.prod_const, Finset.card_univ, Fintype.card_fin,
      ← Real.rpow_natCast, ← Real.rpow_mul (by positivity)]
    congr 2
    ring
  · exact Integrable.fintype_prod (μ := fun _ : Fin d => gaussianReal 0 1) (fun _ => hi)
  · exact Filter.Eventually.of_forall fun x => Finset.prod_nonneg fun i _ => (Real.exp_pos _).le

theorem inv_eq_laplace {y : ℝ} (hy : 0 < y) :
    ∫⁻ t in Set.Ioi (0 : ℝ), ENNReal.ofReal (Real.exp (-t * y)) = ENNReal.ofReal y⁻¹ := by
  have h := integral_exp_mul_Ioi (a := -y) (by linarith) 0
  have hi := integrableOn_exp_mul_Ioi (a := -y) (by linarith) 0
  have e : ∀ t : ℝ, -t * y = -y * t := fun t => by ring
  simp only [e]
  rw [← ofReal_integral_eq_lintegral_ofReal hi (Filter.Eventually.of_forall fun x => (Real.exp_pos _).le), h]
  congr 1
  simp

theorem rpow_tail {a : ℝ} (ha : 1 < a) :
    ∫⁻ t in Set.Ioi (0 : ℝ), ENNReal.ofReal ((1 + 2 * t) ^ (-a)) = ENNReal.ofReal (1 / (2 * (a - 1))) := by
  have hd : ∀ t ∈ Set.Ici (0 : ℝ), HasDerivAt (fun t => -(1 + 2 * t) ^ (1 - a) / (2 * (a - 1)))
      ((1 + 2 * t) ^ (-a)) t := by
    intro t ht
    have ht : 0 ≤ t := ht
    have h1 : HasDerivAt (fun t : ℝ => 1 + 2 * t) 2 t := by
      simpa using ((hasDerivAt_id t).const_mul 2).const_add 1
    have h2 := h1.rpow_const (p := 1 - a) (Or.inl (by positivity))
    have h3 := (h2.neg).div_const (2 * (a - 1))
    have h4 : -(2 * (1 - a) * (1 + 2 * t) ^ (1 - a - 1)) / (2 * (a - 1)) = (1 + 2 * t) ^ (-a) := by
      rw [show 1 - a - 1 = -a by ring]
      have : a - 1 ≠ 0 := by linarith
      field_simp
      ring
    rw [h4] at h3
    exact h3
  have hlim : Filter.Tendsto (fun t : ℝ => -(1 + 2 * t) ^ (1 - a) / (2 * (a - 1))) Filter.atTop (nhds 0) := by
    have h1 : Filter.Tendsto (fun t : ℝ => 1 + 2 * t) Filter.atTop Filter.atTop :=
      Filter.tendsto_atTop_add_const_left _ _ (Filter.tendsto_id.const_mul_atTop (by norm_num))
    have h2 := (tendsto_rpow_neg_atTop (y := a - 1) (by linarith)).comp h1
    have h3 := h2.neg.div_const (2 * (a - 1))
    simpa [Function.comp_def] using h3
  have hpos : ∀ t ∈ Set.Ioi (0 : ℝ), 0 ≤ (1 + 2 * t) ^ (-a) := by
    intro t ht
    have ht : 0 < t := ht
    positivity
  have h1 := integral_Ioi_of_hasDerivAt_of_nonneg' hd hpos hlim
  have h2 := integrableOn_Ioi_deriv_of_nonneg' hd hpos hlim
  rw [← ofReal_integral_eq_lintegral_ofReal h2 ((ae_restrict_iff' measurableSet_Ioi).2
    (Filter.Eventually.of_forall hpos)), h1]
  congr 1
  rw [mul_zero, add_zero, Real.one_rpow]
  ring

/-- the squared length of a standard normal vector is almost surely positive -/
theorem gauss_pos (d : ℕ) (hd : 0 < d) : ∀ᵐ x ∂(gauss (Fin d)), 0 < ∑ i, x i ^ 2 := by
  have : NullSingletonClass (gaussianReal 0 1) := nullSingletonClass_gaussianReal one_ne_zero
  have h := ae_rank_mul (μ := gaussianReal 0 1) (1 : Matrix (Fin d) (Fin d) ℝ) 1
  have hp : (MvPolynomial.X ⟨0, hd⟩ : MvPolynomial (Fin d) ℝ) ≠ 0 := MvPolynomial.X_ne_zero _
  have h2 := poly_null (μ := gaussianReal 0 1) _ hp
  filter_upwards [compl_mem_ae_iff.2 h2] with x hx
  simp only [Set.mem_compl_iff, Set.mem_ofPred_eq, MvPolynomial.eval_X] at hx
  have : x ⟨0, hd⟩ ^ 2 ≤ ∑ i, x i ^ 2 := Finset.single_le_sum (f := fun i => x i ^ 2) (fun _ _ => sq_nonneg _)
    (Finset.mem_univ _)
  have h3 : 0 < x ⟨0, hd⟩ ^ 2 := by positivity
  linarith

/-- `E 1/‖g‖² = 1/(d-2)` for a standard normal vector of length `d ≥ 3` -/
theorem gauss_inv_sqnorm (d : ℕ) (hd : 3 ≤ d) :
    ∫⁻ x, ENNReal.ofReal ((∑ i, x i ^ 2)⁻¹) ∂(gauss (Fin d)) = ENNReal.ofReal (1 / ((d : ℝ) - 2)) := by
  have h1 : ∫⁻ x, ENNReal.ofReal ((∑ i, x i ^ 2)⁻¹) ∂(gauss (Fin d)) =
      ∫⁻ x, (∫⁻ t in Set.Ioi (0 : ℝ), ENNReal.ofReal (Real.exp (-t * ∑ i, x i ^ 2))) ∂(gauss (Fin d)) := by
    refine lintegral_congr_ae ?_
    filter_upwards [gauss_pos d (by omega)] with x hx
    exact (inv_eq_laplace hx).symm
  have hd' : (3 : ℝ) ≤ d := by exact_mod_cast hd
  rw [h1, lintegral_lintegral_swap (Measurable.aemeasurable (by fun_prop))]
  rw [setLIntegral_congr_fun (g := fun t => ENNReal.ofReal ((1 + 2 * t) ^ (-(d / 2) : ℝ))) measurableSet_Ioi
    (fun t ht => gauss_exp_sqnorm d (le_of_lt ht)), rpow_tail (by linarith)]
  congr 2
  ring

end Parla.Proof
