import Verif.Proof.Expect

/-! # Second moments of quadratic forms in independent signs -/

namespace Parla.Proof

open MeasureTheory

variable {ι : Type} [Fintype ι] [DecidableEq ι]

/-- a centred `±1` variable -/
structure IsSign (φ : ℝ → ℝ) (μ : Measure ℝ) : Prop where
  meas : Measurable φ
  sq : ∀ t, φ t * φ t = 1
  mean : ∫ t, φ t ∂μ = 0

theorem IsSign.abs {φ : ℝ → ℝ} {μ : Measure ℝ} (h : IsSign φ μ) (t : ℝ) : ‖φ t‖ = 1 := by
  rcases mul_self_eq_one_iff.1 (h.sq t) with e | e <;> rw [e] <;> norm_num

theorem IsSign.integrable {φ : ℝ → ℝ} {μ : Measure ℝ} [IsProbabilityMeasure μ] (h : IsSign φ μ) : Integrable φ μ :=
  Integrable.of_bound h.meas.aestronglyMeasurable 1 (Filter.Eventually.of_forall fun t => (h.abs t).le)

instance (μ : Measure ℝ) [IsProbabilityMeasure μ] : IsProbabilityMeasure (indep ι μ) := by
  unfold indep; infer_instance

theorem IsSign.pair {φ : ℝ → ℝ} {μ : Measure ℝ} [IsProbabilityMeasure μ] (h : IsSign φ μ) (p q : ι) :
    ∫ x, φ (x p) * φ (x q) ∂(indep ι μ) = if p = q then 1 else 0 := by
  have h2 : (fun t => φ t * φ t) = fun _ => (1 : ℝ) := funext h.sq
  exact (indep_pair h.integrable (by rw [h2]; exact integrable_const _) h.mean (by rw [h2]; simp) p q).2

theorem four_eq_prod (φ : ℝ → ℝ) (p q p' q' : ι) (x : ι → ℝ) :
    φ (x p) * φ (x q) * (φ (x p') * φ (x q')) =
      ∏ i, (fun i t => (if i = p then φ t else 1) * (if i = q then φ t else 1) *
        ((if i = p' then φ t else 1) * (if i = q' then φ t else 1))) i (x i) := by
  simp only [Finset.prod_mul_distrib]
  simp

theorem IsSign.four {φ : ℝ → ℝ} {μ : Measure ℝ} [IsProbabilityMeasure μ] (h : IsSign φ μ) {p q p' q' : ι} (hpq : p ≠ q)
    (hpq' : p' ≠ q') :
    ∫ x, φ (x p) * φ (x q) * (φ (x p') * φ (x q')) ∂(indep ι μ) =
      (if p = p' ∧ q = q' then 1 else 0) + (if p = q' ∧ q = p' then 1 else 0) := by
  by_cases h1 : p = p'
  · subst h1
    rw [if_neg (fun e : p = q' ∧ q = p => hpq e.2.symm), add_zero]
    have e : ∀ x : ι → ℝ, φ (x p) * φ (x q) * (φ (x p) * φ (x q')) = φ (x q) * φ (x q') := fun x => by
      linear_combination φ (x q) * φ (x q') * h.sq (x p)
    simp only [e, h.pair, true_and]
  by_cases h2 : p = q'
  · subst h2
    rw [if_neg (fun e : p = p' ∧ q = p => h1 e.1), zero_add]
    have e : ∀ x : ι → ℝ, φ (x p) * φ (x q) * (φ (x p') * φ (x p)) = φ (x q) * φ (x p') := fun x => by
      linear_combination φ (x q) * φ (x p') * h.sq (x p)
    simp only [e, h.pair, true_and]
  · rw [if_neg (fun e => h1 e.1), if_neg (fun e => h2 e.1), add_zero]
    simp only [four_eq_prod φ p q p' q']
    unfold indep
    rw [integral_fintype_prod_eq_prod (𝕜 := ℝ) (μ := fun _ : ι => μ)
      (fun i t => (if i = p then φ t else 1) * (if i = q then φ t else 1) *
        ((if i = p' then φ t else 1) * (if i = q' then φ t else 1)))]
    apply Finset.prod_eq_zero (Finset.mem_univ p)
    simpa [hpq, h1, h2] using h.mean

/-- a quadratic form in the signs of `x` -/
noncomputable def chaos (φ : ℝ → ℝ) (C : ι → ι → ℝ) (x : ι → ℝ) : ℝ := ∑ p, ∑ q, C p q * (φ (x p) * φ (x q))

theorem IsSign.meas_chaos {φ : ℝ → ℝ} {μ : Measure ℝ} (h : IsSign φ μ) (C : ι → ι → ℝ) : Measurable (chaos φ C) := by
  unfold chaos
  refine Finset.measurable_sum _ fun p _ => Finset.measurable_sum _ fun q _ => ?_
  exact ((h.meas.comp (measurable_pi_apply p)).mul (h.meas.comp (measurable_pi_apply q))).const_mul _

theorem IsSign.integrable_four {φ : ℝ → ℝ} {μ : Measure ℝ} [IsProbabilityMeasure μ] (h : IsSign φ μ) (p q p' q' : ι) :
    Integrable (fun x : ι → ℝ => φ (x p) * φ (x q) * (φ (x p') * φ (x q'))) (indep ι μ) := by
  have m : ∀ i, Measurable fun x : ι → ℝ => φ (x i) := fun i => h.meas.comp (measurable_pi_apply i)
  refine Integrable.of_bound (((m p).mul (m q)).mul ((m p').mul (m q'))).aestronglyMeasurable 1
    (Filter.Eventually.of_forall fun x => ?_)
  simp only [norm_mul, h.abs, mul_one, le_refl]

/-- the mean of a quadratic form without diagonal -/
theorem IsSign.chaos_mean {φ : ℝ → ℝ} {μ : Measure ℝ} [IsProbabilityMeasure μ] (h : IsSign φ μ) (C : ι → ι → ℝ)
    (hC : ∀ p, C p p = 0) :
    Integrable (chaos φ C) (indep ι μ) ∧ ∫ x, chaos φ C x ∂(indep ι μ) = 0 := by
  have m : ∀ i, Measurable fun x : ι → ℝ => φ (x i) := fun i => h.meas.comp (measurable_pi_apply i)
  have i2 : ∀ p q, Integrable (fun x : ι → ℝ => C p q * (φ (x p) * φ (x q))) (indep ι μ) := fun p q => by
    have : Integrable (fun x : ι → ℝ => φ (x p) * φ (x q)) (indep ι μ) := by
      refine Integrable.of_bound ((m p).mul (m q)).aestronglyMeasurable 1 (Filter.Eventually.of_forall fun x => ?_)
      simp only [norm_mul, h.abs, mul_one, le_refl]
    exact this.const_mul _
  have i1 := fun p => integrable_finsetSum (μ := indep ι μ) Finset.univ fun q _ => i2 p q
  unfold chaos
  refine ⟨integrable_finsetSum _ fun p _ => i1 p, ?_⟩
  rw [integral_finsetSum _ fun p _ => i1 p]
  refine Finset.sum_eq_zero fun p _ => ?_
  rw [integral_finsetSum _ fun q _ => i2 p q]
  refine Finset.sum_eq_zero fun q _ => ?_
  rw [integral_const_mul, h.pair]
  by_cases a : p = q
  · subst a; rw [hC]; simp
  · simp [a]

/-- the second moment of a quadratic form without diagonal -/
theorem IsSign.chaos_sq {φ : ℝ → ℝ} {μ : Measure ℝ} [IsProbabilityMeasure μ] (h : IsSign φ μ) (C : ι → ι → ℝ)
    (hC : ∀ p, C p p = 0) :
    Integrable (fun x => chaos φ C x ^ 2) (indep ι μ) ∧
    ∫ x, chaos φ C x ^ 2 ∂(indep ι μ) = ∑ p, ∑ q, C p q * (C p q + C q p) := by
  have e : ∀ x, chaos φ C x ^ 2 = ∑ p, ∑ q, ∑ p', ∑ q', C p q * C p' q' *
      (φ (x p) * φ (x q) * (φ (x p') * φ (x q'))) := fun x => by
    unfold chaos
    rw [pow_two, Finset.sum_mul]
    refine Finset.sum_congr rfl fun p _ => ?_
    rw [Finset.sum_mul]
    refine Finset.sum_congr rfl fun q _ => ?_
    rw [Finset.mul_sum]
    refine Finset.sum_congr rfl fun p' _ => ?_
    rw [Finset.mul_sum]
    exact Finset.sum_congr rfl fun q' _ => by ring
  simp only [e]
  have i4 : ∀ p q p' q' : ι, Integrable (fun x : ι → ℝ => C p q * C p' q' *
      (φ (x p) * φ (x q) * (φ (x p') * φ (x q')))) (indep ι μ) := fun p q p' q' => (h.integrable_four _ _ _ _).const_mul _
  have i3 := fun p q p' => integrable_finsetSum (μ := indep ι μ) Finset.univ fun q' _ => i4 p q p' q'
  have i2 := fun p q => integrable_finsetSum (μ := indep ι μ) Finset.univ fun p' _ => i3 p q p'
  have i1 := fun p => integrable_finsetSum (μ := indep ι μ) Finset.univ fun q _ => i2 p q
  refine ⟨integrable_finsetSum _ fun p _ => i1 p, ?_⟩
  rw [integral_finsetSum _ fun p _ => i1 p]
  refine Finset.sum_congr rfl fun p _ => ?_
  rw [integral_finsetSum _ fun q _ => i2 p q]
  refine Finset.sum_congr rfl fun q _ => ?_
  rw [integral_finsetSum _ fun p' _ => i3 p q p']
  have t : ∀ p' q', ∫ x : ι → ℝ, C p q * C p' q' * (φ (x p) * φ (x q) * (φ (x p') * φ (x q'))) ∂(indep ι μ) =
      (if p = p' then if q = q' then C p q * C p' q' else 0 else 0) +
        (if p = q' then if q = p' then C p q * C p' q' else 0 else 0) := by
    intro p' q'
    rw [integral_const_mul]
    by_cases a : p = q
    · subst a
      simp [hC]
    by_cases b : p' = q'
    · subst b
      simp [hC]
    rw [h.four a b]
    rw [mul_add, ite_and, ite_and]
    simp only [mul_ite, mul_one, mul_zero]
  simp only [fun p' => integral_finsetSum _ fun q' (_ : q' ∈ Finset.univ) => i4 p q p' q', t,
    Finset.sum_add_distrib]
  simp
  ring

end Parla.Proof
