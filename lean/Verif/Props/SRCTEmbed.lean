import Verif.Model.Oblivious
import Verif.Proof.WithoutRepl
import Verif.Props.SRCTEntries
import Verif.Props.SJLTDrivers

/-! # Property C72: SRCTs embed subspaces with high probability -/

namespace Parla.Props

open MeasureTheory ProbabilityTheory Matrix Parla Spec

variable {m n d r : ℕ}

theorem dctMat_sq_le (i c : Fin m) : dctMat m i c ^ 2 ≤ 2 / m := by
  have hm : (0 : ℝ) < m := by exact_mod_cast (show 0 < m by have := i.2; omega)
  simp only [dctMat, of_apply]
  rw [mul_pow]
  have h1 : (Real.cos (Real.pi * i.1 * (2 * c.1 + 1) / (2 * m))) ^ 2 ≤ 1 := Real.cos_sq_le_one _
  have h2 : (if i.1 = 0 then √(1 / (m : ℝ)) else √(2 / m)) ^ 2 ≤ 2 / m := by
    split
    · rw [Real.sq_sqrt (by positivity)]
      exact div_le_div_of_nonneg_right (by norm_num) hm.le
    · rw [Real.sq_sqrt (by positivity)]
  calc _ ≤ (if i.1 = 0 then √(1 / (m : ℝ)) else √(2 / m)) ^ 2 * 1 := mul_le_mul_of_nonneg_left h1 (sq_nonneg _)
    _ ≤ _ := by rw [mul_one]; exact h2

theorem srct_sign_sjlt (t : ℝ) : (if 1 / 2 < t then (1 : ℝ) else -1) = sjltSign t := by
  unfold sjltSign
  by_cases h : t ≤ 1 / 2
  · rw [if_pos h, if_neg (not_lt.2 h)]
  · rw [if_neg h, if_pos (not_le.1 h)]

/-- entry `i` of the cosine transform of the vector with signs `u`, permuted by `p` -/
noncomputable def srctRow (p : Equiv.Perm (Fin m)) (u : Fin m → ℝ) (x : Fin m → ℝ) (i : Fin m) : ℝ :=
  ∑ c, dctMat m i c * (sjltSign (u c) * x (p c))

theorem srctRow_dot (p : Equiv.Perm (Fin m)) (u x y : Fin m → ℝ) :
    ∑ i, srctRow p u x i * srctRow p u y i = x ⬝ᵥ y := by
  have h : ∀ z, srctRow p u z = dctMat m *ᵥ fun c => sjltSign (u c) * z (p c) := fun z => rfl
  have : ∑ i, srctRow p u x i * srctRow p u y i = srctRow p u x ⬝ᵥ srctRow p u y := rfl
  rw [this, h, h, dotProduct_comm, dot_mulVec, mulVec_mulVec, Proof.dctMat_orth', one_mulVec, dotProduct_comm]
  simp only [dotProduct]
  conv_rhs => rw [← Equiv.sum_comp p]
  exact Finset.sum_congr rfl fun c _ => by linear_combination x (p c) * y (p c) * sjltSign_isSign.sq (u c)

theorem srct_mulVec (f : Fin d → Fin m) (u : Fin m → ℝ) (p : Equiv.Perm (Fin m)) (x : Fin m → ℝ) (a : Fin d) :
    (srctEntries f u p *ᵥ x) a = √((m : ℝ) / d) * srctRow p u x (f a) := by
  unfold srctRow
  simp only [mulVec, dotProduct, srctEntries, of_apply, srct_sign_sjlt, dctMat]
  rw [← Equiv.sum_comp p, Finset.mul_sum]
  exact Finset.sum_congr rfl fun c _ => by rw [Equiv.symm_apply_apply]; ring

theorem srct_dev (f : Fin d → Fin m) (u : Fin m → ℝ) (p : Equiv.Perm (Fin m)) (x y : Fin m → ℝ) :
    (srctEntries f u p *ᵥ x) ⬝ᵥ (srctEntries f u p *ᵥ y) - x ⬝ᵥ y =
      (m : ℝ) / d * (∑ a, srctRow p u x (f a) * srctRow p u y (f a)) - ∑ i, srctRow p u x i * srctRow p u y i := by
  rw [srctRow_dot, Finset.mul_sum]
  simp only [dotProduct, srct_mulVec]
  congr 1
  refine Finset.sum_congr rfl fun a _ => ?_
  linear_combination srctRow p u x (f a) * srctRow p u y (f a) * Real.mul_self_sqrt (show 0 ≤ (m : ℝ) / d by positivity)

/-- squared norm of row `i` of the transformed basis -/
noncomputable def srctLev (p : Equiv.Perm (Fin m)) (B : Matrix (Fin m) (Fin r) ℝ) (u : Fin m → ℝ) (i : Fin m) : ℝ :=
  ∑ q, srctRow p u (fun c => B c q) i ^ 2

theorem sum3 {X Y Z : Type} [Fintype X] [Fintype Y] [Fintype Z] (F : X → Y → Z → ℝ) :
    ∑ x, ∑ y, ∑ z, F x y z = ∑ y, ∑ z, ∑ x, F x y z := by
  rw [Finset.sum_comm]
  exact Finset.sum_congr rfl fun y _ => Finset.sum_comm

/-- the average over the sampled rows -/
theorem srct_dev_mean (hd : 0 < d) (hdm : d ≤ m) (u : Fin m → ℝ) (p : Equiv.Perm (Fin m)) (B : Matrix (Fin m) (Fin r) ℝ) :
    (1 / (Fintype.card (Fin d ↪ Fin m) : ℝ)) * ∑ f : Fin d ↪ Fin m, sjltDev (srctEntries f u p) B ≤
      (m : ℝ) / d * ∑ i, srctLev p B u i ^ 2 := by
  unfold sjltDev
  simp only [srct_dev]
  have e : ∑ i, srctLev p B u i ^ 2 = ∑ q, ∑ q', ∑ i,
      (srctRow p u (fun c => B c q) i * srctRow p u (fun c => B c q') i) ^ 2 := by
    have : ∀ i, srctLev p B u i ^ 2 = ∑ q, ∑ q', (srctRow p u (fun c => B c q) i * srctRow p u (fun c => B c q') i) ^ 2 :=
      fun i => by
        unfold srctLev
        rw [sq, Finset.sum_mul_sum]
        simp only [mul_pow]
    simp only [this]
    rw [Finset.sum_comm]
    exact Finset.sum_congr rfl fun q _ => Finset.sum_comm
  rw [e, sum3]
  simp only [Finset.mul_sum (s := (Finset.univ : Finset (Fin r)))]
  refine Finset.sum_le_sum fun q _ => Finset.sum_le_sum fun q' _ => ?_
  exact Proof.emb_variance hd hdm fun i => srctRow p u (fun c => B c q) i * srctRow p u (fun c => B c q') i

theorem srctLev_form (p : Equiv.Perm (Fin m)) (B : Matrix (Fin m) (Fin r) ℝ) (u : Fin m → ℝ) (i : Fin m) :
    srctLev p B u i = ∑ c, dctMat m i c ^ 2 * (B * Bᵀ) (p c) (p c) + Proof.chaos sjltSign
      (fun c c' => if c = c' then 0 else dctMat m i c * dctMat m i c' * (B * Bᵀ) (p c) (p c')) u := by
  have h : srctLev p B u i = ∑ c, ∑ c', dctMat m i c * dctMat m i c' * (B * Bᵀ) (p c) (p c') *
      (sjltSign (u c) * sjltSign (u c')) := by
    unfold srctLev srctRow
    simp only [sq, Finset.sum_mul_sum]
    rw [Finset.sum_comm]
    refine Finset.sum_congr rfl fun c _ => ?_
    rw [Finset.sum_comm]
    refine Finset.sum_congr rfl fun c' _ => ?_
    rw [mul_apply, Finset.mul_sum, Finset.sum_mul]
    exact Finset.sum_congr rfl fun q _ => by rw [transpose_apply]; ring
  rw [h]
  unfold Proof.chaos
  rw [← Finset.sum_add_distrib]
  refine Finset.sum_congr rfl fun c _ => ?_
  rw [← Finset.add_sum_erase _ _ (Finset.mem_univ c)]
  conv_rhs => rw [← Finset.add_sum_erase _ _ (Finset.mem_univ c)]
  beta_reduce
  rw [if_pos rfl, zero_mul, zero_add]
  congr 1
  · linear_combination dctMat m i c ^ 2 * (B * Bᵀ) (p c) (p c) * sjltSign_isSign.sq (u c)
  · refine Finset.sum_congr rfl fun c' hc' => ?_
    rw [if_neg (Finset.ne_of_mem_erase hc').symm]

/-- the average over the signs -/
theorem srctLev_second (p : Equiv.Perm (Fin m)) {B : Matrix (Fin m) (Fin r) ℝ} (hB : Bᵀ * B = 1) (i : Fin m) :
    Integrable (fun u => srctLev p B u i ^ 2) (Proof.indep (Fin m) unif01) ∧
    ∫ u, srctLev p B u i ^ 2 ∂(Proof.indep (Fin m) unif01) ≤ 4 * (r ^ 2 + 2 * r) / m ^ 2 := by
  have hm : (0 : ℝ) < m := by exact_mod_cast (show 0 < m by have := i.2; omega)
  obtain ⟨D, hD⟩ : ∃ D, D = ∑ c, dctMat m i c ^ 2 * (B * Bᵀ) (p c) (p c) := ⟨_, rfl⟩
  obtain ⟨C, hC⟩ : ∃ C : Fin m → Fin m → ℝ, C = fun c c' =>
    if c = c' then 0 else dctMat m i c * dctMat m i c' * (B * Bᵀ) (p c) (p c') := ⟨_, rfl⟩
  have hC0 : ∀ c, C c c = 0 := fun c => by rw [hC]; simp
  obtain ⟨m1, m2⟩ := sjltSign_isSign.chaos_mean C hC0
  obtain ⟨s1, s2⟩ := sjltSign_isSign.chaos_sq C hC0
  have e : ∀ u, srctLev p B u i ^ 2 = D ^ 2 + 2 * D * Proof.chaos sjltSign C u + Proof.chaos sjltSign C u ^ 2 := fun u => by
    rw [srctLev_form, ← hD, ← hC]; ring
  simp only [e]
  have i1 : Integrable (fun u : Fin m → ℝ => D ^ 2 + 2 * D * Proof.chaos sjltSign C u) (Proof.indep (Fin m) unif01) :=
    (integrable_const _).add (m1.const_mul _)
  refine ⟨i1.add s1, ?_⟩
  rw [integral_add i1 s1, integral_add (integrable_const _) (m1.const_mul _), integral_const_mul, m2, s2]
  have htr : ∑ c, (B * Bᵀ) (p c) (p c) = r := by
    rw [Equiv.sum_comp p fun c => (B * Bᵀ) c c]
    have : (B * Bᵀ).trace = r := by rw [trace_mul_comm, hB, trace_one]; simp
    exact this
  have hsq : ∑ c, ∑ c', (B * Bᵀ) (p c) (p c') ^ 2 = r := by
    rw [Equiv.sum_comp p fun c => ∑ c', (B * Bᵀ) c (p c') ^ 2]
    rw [Finset.sum_congr rfl fun c _ => Equiv.sum_comp p fun c' => (B * Bᵀ) c c' ^ 2]
    have h1 : ((B * Bᵀ) * (B * Bᵀ)ᵀ).trace = r := by
      rw [transpose_mul, transpose_transpose, Matrix.mul_assoc, ← Matrix.mul_assoc Bᵀ, hB, Matrix.one_mul,
        trace_mul_comm, hB, trace_one]; simp
    rw [← h1]
    unfold trace
    refine Finset.sum_congr rfl fun c _ => ?_
    rw [diag_apply, mul_apply]
    exact Finset.sum_congr rfl fun c' _ => by rw [transpose_apply, sq]
  have hnn : ∀ c, 0 ≤ (B * Bᵀ) (p c) (p c) := fun c => by
    rw [mul_apply]
    exact Finset.sum_nonneg fun q _ => by rw [transpose_apply]; exact mul_self_nonneg _
  have hD0 : 0 ≤ D := by rw [hD]; exact Finset.sum_nonneg fun c _ => mul_nonneg (sq_nonneg _) (hnn c)
  have hD1 : D ≤ 2 / m * r := by
    rw [hD, ← htr, Finset.mul_sum]
    exact Finset.sum_le_sum fun c _ => mul_le_mul_of_nonneg_right (dctMat_sq_le i c) (hnn c)
  have hsym : ∀ c c', C c' c = C c c' := fun c c' => by
    rw [hC]
    by_cases h : c = c'
    · subst h; rfl
    · simp only [if_neg h, if_neg (Ne.symm h)]
      have : (B * Bᵀ) (p c') (p c) = (B * Bᵀ) (p c) (p c') := by
        rw [mul_apply, mul_apply]
        exact Finset.sum_congr rfl fun q _ => by simp only [transpose_apply]; ring
      rw [this]; ring
  have hS : ∑ c, ∑ c', C c c' * (C c c' + C c' c) ≤ 2 * ((2 / m) ^ 2 * r) := by
    rw [← hsq]
    simp only [Finset.mul_sum]
    refine Finset.sum_le_sum fun c _ => Finset.sum_le_sum fun c' _ => ?_
    rw [hsym c c']
    have : C c c' ^ 2 ≤ (2 / m) ^ 2 * (B * Bᵀ) (p c) (p c') ^ 2 := by
      rw [hC]
      by_cases h : c = c'
      · simp only [if_pos h]; rw [zero_pow two_ne_zero]; positivity
      · simp only [if_neg h]
        rw [mul_pow, mul_pow]
        refine mul_le_mul_of_nonneg_right ?_ (sq_nonneg _)
        rw [sq (2 / (m : ℝ))]
        exact mul_le_mul (dctMat_sq_le i c) (dctMat_sq_le i c') (sq_nonneg _) (by positivity)
    nlinarith [this]
  have hD2 := pow_le_pow_left₀ hD0 hD1 2
  have e1 : ∫ _ : Fin m → ℝ, D ^ 2 ∂(Proof.indep (Fin m) unif01) = D ^ 2 := by simp
  rw [e1]
  have e2 : 4 * ((r : ℝ) ^ 2 + 2 * r) / m ^ 2 = (2 / m * r) ^ 2 + 2 * ((2 / m) ^ 2 * r) := by field_simp; ring
  rw [e2]
  linarith

/-! ### The probability -/

instance : MeasurableSpace (Equiv.Perm (Fin m)) := ⊤
instance : DiscreteMeasurableSpace (Equiv.Perm (Fin m)) := ⟨fun _ => trivial⟩

/-- The draws of `srct_operator` for `d × m`: a uniformly random list of `d` distinct rows out of `m`, `m` uniform
numbers in `[0, 1)` and a uniformly random permutation of the columns, all independent. -/
noncomputable def srctDraws (d m : ℕ) : Measure (Equiv.Perm (Fin m) × ((Fin d ↪ Fin m) × (Fin m → ℝ))) :=
  (uniformOn Set.univ).prod ((uniformOn Set.univ).prod (Proof.indep (Fin m) unif01))

theorem measurable_srctDev (f : Fin d → Fin m) (p : Equiv.Perm (Fin m)) (B : Matrix (Fin m) (Fin r) ℝ) :
    Measurable fun u => sjltDev (srctEntries f u p) B := by
  have h : ∀ i j, Measurable fun u : Fin m → ℝ => srctEntries f u p i j := fun i j => by
    simp only [srctEntries, of_apply, srct_sign_sjlt]
    exact ((measurable_sjltSign.comp (measurable_pi_apply _)).const_mul _).mul_const _
  unfold sjltDev
  simp only [dotProduct, mulVec]
  refine Finset.measurable_sum _ fun p _ => Finset.measurable_sum _ fun q _ => ?_
  refine Measurable.pow_const (Measurable.sub_const (Finset.measurable_sum _ fun k _ => ?_) _) 2
  exact (Finset.measurable_sum _ fun i _ => (h k i).mul_const _).mul
    (Finset.measurable_sum _ fun i _ => (h k i).mul_const _)

theorem srctDev_nonneg (S : Matrix (Fin d) (Fin m) ℝ) (B : Matrix (Fin m) (Fin r) ℝ) : 0 ≤ sjltDev S B :=
  Finset.sum_nonneg fun _ _ => Finset.sum_nonneg fun _ _ => sq_nonneg _

theorem srct_bad_perm (hd : 0 < d) (hdm : d ≤ m) {B : Matrix (Fin m) (Fin r) ℝ} (hB : Bᵀ * B = 1) {ε : ℝ}
    (hε : 0 < ε) (p : Equiv.Perm (Fin m)) :
    ((uniformOn Set.univ).prod (Proof.indep (Fin m) unif01))
      {ω : (Fin d ↪ Fin m) × (Fin m → ℝ) | ε ^ 2 < sjltDev (srctEntries ω.1 ω.2 p) B} ≤
      ENNReal.ofReal (4 * (r ^ 2 + 2 * r) / (d * ε ^ 2)) := by
  have hd' : (0 : ℝ) < d := by exact_mod_cast hd
  have hm' : (0 : ℝ) < m := by exact_mod_cast (show 0 < m by omega)
  have hN0 : 0 < Fintype.card (Fin d ↪ Fin m) := Fintype.card_pos_iff.2 ⟨Fin.castLEEmb hdm⟩
  have hN1 : (0 : ℝ) < Fintype.card (Fin d ↪ Fin m) := by exact_mod_cast hN0
  have hm : Measurable fun ω : (Fin d ↪ Fin m) × (Fin m → ℝ) => sjltDev (srctEntries ω.1 ω.2 p) B :=
    measurable_from_prod_countable_right fun f => measurable_srctDev f p B
  have hE : MeasurableSet {ω : (Fin d ↪ Fin m) × (Fin m → ℝ) | ε ^ 2 < sjltDev (srctEntries ω.1 ω.2 p) B} :=
    measurableSet_lt measurable_const hm
  rw [Measure.prod_apply hE, uniform_mean]
  have hL : Integrable (fun u => ∑ i, srctLev p B u i ^ 2) (Proof.indep (Fin m) unif01) :=
    integrable_finsetSum _ fun i _ => (srctLev_second p hB i).1
  -- every deviation is bounded by the total over the sampled rows
  have hle : ∀ (f : Fin d ↪ Fin m) u, sjltDev (srctEntries f u p) B ≤
      Fintype.card (Fin d ↪ Fin m) * ((m : ℝ) / d * ∑ i, srctLev p B u i ^ 2) := fun f u => by
    have h1 := srct_dev_mean hd hdm u p B
    rw [one_div, inv_mul_le_iff₀ hN1] at h1
    exact (Finset.single_le_sum (f := fun f : Fin d ↪ Fin m => sjltDev (srctEntries f u p) B)
      (fun f _ => srctDev_nonneg _ _) (Finset.mem_univ f)).trans h1
  have hI : ∀ f : Fin d ↪ Fin m, Integrable (fun u => sjltDev (srctEntries f u p) B) (Proof.indep (Fin m) unif01) :=
    fun f => by
      refine ((hL.const_mul ((m : ℝ) / d)).const_mul (Fintype.card (Fin d ↪ Fin m) : ℝ)).mono' (measurable_srctDev f p B).aestronglyMeasurable
        (Filter.Eventually.of_forall fun u => ?_)
      rw [Real.norm_eq_abs, abs_of_nonneg (srctDev_nonneg _ _)]
      exact hle f u
  have h1 : ∀ f : Fin d ↪ Fin m, Proof.indep (Fin m) unif01 (Prod.mk f ⁻¹'
      {ω : (Fin d ↪ Fin m) × (Fin m → ℝ) | ε ^ 2 < sjltDev (srctEntries ω.1 ω.2 p) B}) ≤
      ENNReal.ofReal ((∫ u, sjltDev (srctEntries f u p) B ∂(Proof.indep (Fin m) unif01)) / ε ^ 2) := fun f => by
    have h0 : 0 ≤ ∫ u, sjltDev (srctEntries f u p) B ∂(Proof.indep (Fin m) unif01) :=
      integral_nonneg fun u => srctDev_nonneg _ _
    refine (ENNReal.le_ofReal_iff_toReal_le (measure_ne_top _ _) (div_nonneg h0 (sq_nonneg _))).2 ?_
    rw [le_div_iff₀ (by positivity), mul_comm]
    have := mul_meas_ge_le_integral_of_nonneg (μ := Proof.indep (Fin m) unif01)
      (Filter.Eventually.of_forall fun u => srctDev_nonneg (srctEntries f u p) B) (hI f) (ε ^ 2)
    refine le_trans (mul_le_mul_of_nonneg_left ?_ (sq_nonneg _)) this
    exact measureReal_mono fun u hu => le_of_lt (show ε ^ 2 < _ from hu)
  have h2 : (1 / (Fintype.card (Fin d ↪ Fin m) : ℝ)) * ∑ f : Fin d ↪ Fin m,
      ∫ u, sjltDev (srctEntries f u p) B ∂(Proof.indep (Fin m) unif01) ≤ 4 * (r ^ 2 + 2 * r) / d := by
    rw [← integral_finsetSum _ fun f _ => hI f, ← integral_const_mul]
    refine (integral_mono ((integrable_finsetSum _ fun f _ => hI f).const_mul _) (hL.const_mul ((m : ℝ) / d))
      fun u => srct_dev_mean hd hdm u p B).trans ?_
    rw [integral_const_mul, integral_finsetSum _ fun i _ => (srctLev_second p hB i).1]
    have h3 : ∑ i : Fin m, ∫ u, srctLev p B u i ^ 2 ∂(Proof.indep (Fin m) unif01) ≤ m * (4 * (r ^ 2 + 2 * r) / m ^ 2) := by
      refine (Finset.sum_le_sum fun i _ => (srctLev_second p hB i).2).trans (le_of_eq ?_)
      simp
    refine (mul_le_mul_of_nonneg_left h3 (by positivity)).trans (le_of_eq ?_)
    field_simp
  refine (mul_le_mul_right (Finset.sum_le_sum fun f _ => h1 f) _).trans ?_
  rw [← ENNReal.ofReal_sum_of_nonneg fun f _ => div_nonneg (integral_nonneg fun u => srctDev_nonneg _ _) (sq_nonneg _),
    ← ENNReal.ofReal_natCast, ← ENNReal.ofReal_inv_of_pos hN1, ← ENNReal.ofReal_mul (by positivity)]
  refine ENNReal.ofReal_le_ofReal ?_
  rw [← Finset.sum_div, ← mul_div_assoc, ← div_div, ← one_div]
  exact div_le_div_of_nonneg_right h2 (sq_nonneg _)

theorem srct_bad (hd : 0 < d) (hdm : d ≤ m) {B : Matrix (Fin m) (Fin r) ℝ} (hB : Bᵀ * B = 1) {ε : ℝ} (hε : 0 < ε) :
    srctDraws d m {ω | ε ^ 2 < sjltDev (srctEntries ω.2.1 ω.2.2 ω.1) B} ≤
      ENNReal.ofReal (4 * (r ^ 2 + 2 * r) / (d * ε ^ 2)) := by
  have hm : Measurable fun ω : Equiv.Perm (Fin m) × ((Fin d ↪ Fin m) × (Fin m → ℝ)) =>
      sjltDev (srctEntries ω.2.1 ω.2.2 ω.1) B :=
    measurable_from_prod_countable_right fun p =>
      measurable_from_prod_countable_right fun f => measurable_srctDev f p B
  have hE : MeasurableSet {ω : Equiv.Perm (Fin m) × ((Fin d ↪ Fin m) × (Fin m → ℝ)) |
      ε ^ 2 < sjltDev (srctEntries ω.2.1 ω.2.2 ω.1) B} := measurableSet_lt measurable_const hm
  unfold srctDraws
  rw [Measure.prod_apply hE]
  have : IsProbabilityMeasure (uniformOn (Set.univ : Set (Equiv.Perm (Fin m)))) :=
    isProbabilityMeasure_uniformOn Set.finite_univ Set.univ_nonempty
  refine (lintegral_mono fun p => srct_bad_perm hd hdm hB hε p).trans ?_
  rw [lintegral_const, measure_univ, mul_one]

/-! ### The operator -/

/-- In world `w` the next calls `rng.choice(m, d, replace=False)`, `rng.random(m)` and `rng.permutation(m)` return the
rows `f`, the numbers `u` and the permutation `p`. -/
def NextSRCT {G : Type} (R : NpRng G) (w : World G) (d m : ℕ) (p : Equiv.Perm (Fin m)) (f : Fin d ↪ Fin m)
    (u : Fin m → ℝ) : Prop :=
  ∃ (h : d ≤ m) (g₁ g₂ : G), R.choiceNoRepl m d h w.rng = (f, g₁) ∧ R.random m g₁ = (u, g₂) ∧
    (R.permutation m g₂).1 = p

theorem srct_next {G : Type} {R : NpRng G} {w : World G} (la : LinAlg) (hd : 0 < d) {p : Equiv.Perm (Fin m)}
    {f : Fin d ↪ Fin m} {u : Fin m → ℝ} (h : NextSRCT R w d m p f u) :
    ∃ w', srctOperator la R d m w = .ok (.ofMat (srctEntries f u p), w') := by
  obtain ⟨hdm, g₁, g₂, h1, h2, h3⟩ := h
  exact ⟨_, C47_srct_entries la R d m hd hdm w f u p g₁ g₂ _ h1 h2 (Prod.ext h3 rfl)⟩

theorem toMat_ofMat {k l : ℕ} (M : Matrix (Fin k) (Fin l) ℝ) : (SkLinOp.ofMat M).toMat = M := by
  ext i j
  simp [SkLinOp.toMat, SkLinOp.ofMat]

theorem srctGen_next {G : Type} {R : NpRng G} {w : World G} (la : LinAlg) (hd : 0 < d) {p : Equiv.Perm (Fin m)}
    {f : Fin d ↪ Fin m} {u : Fin m → ℝ} (h : NextSRCT R w d m p f u) :
    ∃ w', skOpTCGen la R d m w = .ok (srctEntries f u p, w') := by
  obtain ⟨w', h⟩ := srct_next la hd h
  refine ⟨w', ?_⟩
  unfold skOpTCGen
  rw [Py.bind_eq_of_ok h, toMat_ofMat]
  rfl

/-- **C72** (one subspace).  For a subspace `U` of `ℝ^m` of dimension `r`, `1 ≤ d ≤ m` and `ε > 0`, except for draws of
probability at most `4 (r² + 2r)/(d ε²)`, `srct_operator` returns a `d × m` operator that changes no squared norm of a
vector of `U` by more than a factor `1 ± ε`.  The bound does not depend on `m`. -/
theorem C72_srct_subspace (U : Submodule ℝ (Fin m → ℝ)) (hd : 0 < d) (hdm : d ≤ m) (ε : ℝ) (hε : 0 < ε) :
    ∃ E : Set (Equiv.Perm (Fin m) × ((Fin d ↪ Fin m) × (Fin m → ℝ))),
      srctDraws d m E ≤ ENNReal.ofReal (4 * (Module.finrank ℝ U ^ 2 + 2 * Module.finrank ℝ U) / (d * ε ^ 2)) ∧
      ∀ p f u, (p, f, u) ∉ E → ∀ (G : Type) (la : LinAlg) (R : NpRng G) (w : World G), NextSRCT R w d m p f u →
        ∃ S w', srctOperator la R d m w = .ok (S, w') ∧
          ∀ x ∈ U, ∃ y, S.mv x = .ok y ∧ (1 - ε) * sqNorm x ≤ sqNorm y ∧ sqNorm y ≤ (1 + ε) * sqNorm x := by
  obtain ⟨B, hB, hU⟩ := exists_ortho_basis U
  refine ⟨_, srct_bad hd hdm hB hε, fun p f u hE G la R w hw => ?_⟩
  obtain ⟨w', h⟩ := srct_next la hd hw
  refine ⟨_, w', h, fun x hx => ⟨_, rfl, ?_⟩⟩
  obtain ⟨z, rfl⟩ := hU x hx
  have h1 : sjltDev (srctEntries f u p) B ≤ ε ^ 2 := not_lt.1 hE
  have := abs_le.1 (embed_of_dev hB hε.le h1 z)
  constructor <;> linarith [this.1, this.2]

/-- the array version of `C72_srct_subspace` -/
theorem srct_subspace_mat (U : Submodule ℝ (Fin m → ℝ)) (hd : 0 < d) (hdm : d ≤ m) (ε : ℝ) (hε : 0 < ε) :
    ∃ E : Set (Equiv.Perm (Fin m) × ((Fin d ↪ Fin m) × (Fin m → ℝ))),
      srctDraws d m E ≤ ENNReal.ofReal (4 * (Module.finrank ℝ U ^ 2 + 2 * Module.finrank ℝ U) / (d * ε ^ 2)) ∧
      ∀ p f u, (p, f, u) ∉ E → ∃ S : Matrix (Fin d) (Fin m) ℝ,
        (∀ x ∈ U, (1 - ε) * sqNorm x ≤ sqNorm (S *ᵥ x) ∧ sqNorm (S *ᵥ x) ≤ (1 + ε) * sqNorm x) ∧
        ∀ (G : Type) (la : LinAlg) (R : NpRng G) (w : World G), NextSRCT R w d m p f u →
          ∃ w', skOpTCGen la R d m w = .ok (S, w') := by
  obtain ⟨B, hB, hU⟩ := exists_ortho_basis U
  refine ⟨_, srct_bad hd hdm hB hε, fun p f u hE => ⟨srctEntries f u p, fun x hx => ?_, fun G la R w hw =>
    srctGen_next la hd hw⟩⟩
  obtain ⟨z, rfl⟩ := hU x hx
  have h1 : sjltDev (srctEntries f u p) B ≤ ε ^ 2 := not_lt.1 hE
  have := abs_le.1 (embed_of_dev hB hε.le h1 z)
  constructor <;> linarith [this.1, this.2]

/-- **C72** (the range of `A`), for `SkOpTC()` as the generator of a driver. -/
theorem C72_srct_embeds (A : Matrix (Fin m) (Fin n) ℝ) (hd : 0 < d) (hdm : d ≤ m) (ε : ℝ) (hε : 0 < ε) :
    ∃ E : Set (Equiv.Perm (Fin m) × ((Fin d ↪ Fin m) × (Fin m → ℝ))),
      srctDraws d m E ≤ ENNReal.ofReal (4 * (A.rank ^ 2 + 2 * A.rank) / (d * ε ^ 2)) ∧
      ∀ p f u, (p, f, u) ∉ E → ∀ (G : Type) (la : LinAlg) (R : NpRng G) (w : World G), NextSRCT R w d m p f u →
        ∃ S w', skOpTCGen la R d m w = .ok (S, w') ∧ Embeds S A ε := by
  obtain ⟨E, h1, h2⟩ := srct_subspace_mat (colSpace A) hd hdm ε hε
  rw [finrank_colSpace] at h1
  refine ⟨E, h1, fun p f u hE G la R w hw => ?_⟩
  obtain ⟨S, he, hS⟩ := h2 p f u hE
  obtain ⟨w', hS⟩ := hS G la R w hw
  exact ⟨S, w', hS, fun x => he _ (mem_colSpace.2 ⟨x, rfl⟩)⟩

/-- the draws have total probability one -/
theorem srctDraws_univ (hdm : d ≤ m) : srctDraws d m Set.univ = 1 := by
  unfold srctDraws
  have : Nonempty (Fin d ↪ Fin m) := ⟨Fin.castLEEmb hdm⟩
  have : IsProbabilityMeasure (uniformOn (Set.univ : Set (Fin d ↪ Fin m))) :=
    isProbabilityMeasure_uniformOn Set.finite_univ Set.univ_nonempty
  have : IsProbabilityMeasure (uniformOn (Set.univ : Set (Equiv.Perm (Fin m)))) :=
    isProbabilityMeasure_uniformOn Set.finite_univ Set.univ_nonempty
  exact measure_univ

/-! ### The drivers -/

/-- **C72** (`SSO1` with `SkOpTC`).  For any `A`, `b`, `d = min(int(sampling_factor * n), m) ≥ n > 0` and `0 < ε < 1`,
except for draws of probability at most `4 ((n+1)² + 2(n+1))/(d ε²)`: for every `δ ≥ 0`, `SSO1(SkOpTC(),
sampling_factor)(A, b, δ, tol, iter_lim, rng)` returns an `x` with `f(x) ≤ (1+ε)/(1-ε) f(z)` for every `z`, where
`f(x) = ‖Ax - b‖² + δ‖x‖²`. -/
theorem C72_sso1 (A : Matrix (Fin m) (Fin n) ℝ) (hn : 0 < n) (b : Fin m → ℝ) (sf : ℝ)
    (hd : n ≤ sketchRows sf m n) (ε : ℝ) (hε : 0 < ε) (hε1 : ε < 1) :
    ∃ E : Set (Equiv.Perm (Fin m) × ((Fin (sketchRows sf m n) ↪ Fin m) × (Fin m → ℝ))),
      srctDraws _ m E ≤ ENNReal.ofReal (4 * ((n + 1) ^ 2 + 2 * (n + 1)) / (sketchRows sf m n * ε ^ 2)) ∧
      ∀ p f u, (p, f, u) ∉ E → ∀ (G : Type) (la : LinAlg) (R : NpRng G) (w : World G) (δ : ℝ) (tol : Tol) (L : ℤ),
        0 ≤ δ → NextSRCT R w _ _ p f u →
        ∃ x w', sso1Call la (skOpTCGen la R) sf A b δ tol L w = .ok (x, w') ∧
          ∀ z, sqNorm (A *ᵥ x - b) + δ * sqNorm x ≤
            (1 + ε) / (1 - ε) * (sqNorm (A *ᵥ z - b) + δ * sqNorm z) := by
  have hmn : n ≤ m := by unfold sketchRows at hd; omega
  have hsf : (n : ℤ) ≤ pyInt (sf * n) := by unfold sketchRows at hd; omega
  have hdm : sketchRows sf m n ≤ m := by unfold sketchRows; omega
  obtain ⟨E, h1, h2⟩ := srct_subspace_mat (colSpace A ⊔ Submodule.span ℝ {b}) (by omega) hdm ε hε
  have hfr : (Module.finrank ℝ ↥(colSpace A ⊔ Submodule.span ℝ {b}) : ℝ) ≤ n + 1 := by
    exact_mod_cast finrank_with_vector A b
  refine ⟨E, h1.trans (ENNReal.ofReal_le_ofReal (div_le_div_of_nonneg_right (mul_le_mul_of_nonneg_left (add_le_add
    (pow_le_pow_left₀ (by positivity) hfr 2) (mul_le_mul_of_nonneg_left hfr (by norm_num))) (by norm_num))
    (by positivity))), fun p f u hE G la R w δ tol L hδ hw => ?_⟩
  obtain ⟨S, hS, hgen⟩ := h2 p f u hE
  have key : ∃ x w', sso1Call la (skOpTCGen la R) sf A b δ tol L w = .ok (x, w') := by
    rw [sso1_eq, Py.bind_eq_of_ok (sjlt_driver hmn hsf { w with warns := w.warns + sso1Warns tol L })]
    obtain ⟨w', hg⟩ := hgen G la R { w with warns := w.warns + sso1Warns tol L +
      (if (m : ℤ) < pyInt (sf * n) then 1 else 0) } hw
    rw [Py.bind_eq_of_ok hg]
    exact ⟨_, _, rfl⟩
  obtain ⟨x, w', hx⟩ := key
  refine ⟨x, w', hx, fun z => ?_⟩
  obtain ⟨dd, S', -, -, e3, hg, hmin, -⟩ := C36_sso1 la _ _ A b δ hδ _ _ w w' x hx
  obtain rfl : dd = sketchRows sf m n := by unfold sketchRows; omega
  obtain ⟨w3, hg'⟩ := hgen G la R { w with warns := w.warns + (if tol.isNaN then 0 else 1) + (if L > 1 then 1 else 0) +
        (if (m : ℤ) < pyInt (sf * n) then 1 else 0) } hw
  rw [hg'] at hg
  cases hg
  exact sketched_near_opt hδ hε.le hε1 (fun x => hS _ (mem_with_vector A b x)) hmin z

/-- **C72** (`SPO` with `SkOpTC`).  Let `A` have full column rank, `d = min(int(sampling_factor * n), m) ≥ n > 0`,
`0 < ε < 1` and `n √((1+ε)/(1-ε)) < 10^8 - eps`.  Except for draws of probability at most `4 (n² + 2n)/(d ε²)`: for every
`b`, `δ ≥ 0` and limit `L`, `SPO(SkOpTC(), sampling_factor, mode)` with `tol = 0` in mode `'qr'` or `'chol'` returns an
`x` with `f(x) - min f ≤ (2 ε^L)² (‖b‖² - min f)`, where `f(x) = ‖Ax - b‖² + δ‖x‖²`, or raises ValueError; if
`lo ‖x‖ ≤ ‖A x‖ ≤ hi ‖x‖` with `√((1+ε)/(1-ε)) hi n eps < lo` the same holds in mode `'svd'`. -/
theorem C72_spo (A : Matrix (Fin m) (Fin n) ℝ) (hA : FullColRank A) (hn : 0 < n) (sf : ℝ)
    (hd : n ≤ sketchRows sf m n) (ε : ℝ) (hε : 0 < ε) (hε1 : ε < 1)
    (hc : n * √((1 + ε) / (1 - ε)) < 10 ^ 8 - eps) :
    ∃ E : Set (Equiv.Perm (Fin m) × ((Fin (sketchRows sf m n) ↪ Fin m) × (Fin m → ℝ))),
      srctDraws _ m E ≤ ENNReal.ofReal (4 * (n ^ 2 + 2 * n) / (sketchRows sf m n * ε ^ 2)) ∧
      ∀ p f u, (p, f, u) ∉ E → ∀ (G : Type) (la : LinAlg) (R : NpRng G) (w : World G) (b : Fin m → ℝ) (δ : ℝ) (L : ℕ)
        (clock : LogTimes) (mode : SPOMode) (xs : Fin n → ℝ), 0 ≤ δ → NextSRCT R w _ _ p f u → IsRidgeMin A b δ xs →
        mode ≠ .other → (mode = .svd → ∃ lo hi, (∀ x, lo * norm2 x ≤ norm2 (A *ᵥ x)) ∧
          (∀ x, norm2 (A *ᵥ x) ≤ hi * norm2 x) ∧ 0 ≤ hi ∧ √((1 + ε) / (1 - ε)) * hi * n * eps < lo) →
        spoCall la (skOpTCGen la R) sf mode A b δ 0 L true clock w = .error .value ∨
        ∃ out w' x lg, spoCall la (skOpTCGen la R) sf mode A b δ 0 L true clock w = .ok (out, w') ∧ out.x = some x ∧
          out.log = some lg ∧
          (sqNorm (A *ᵥ x - b) + δ * sqNorm x) - (sqNorm (A *ᵥ xs - b) + δ * sqNorm xs) ≤
            (2 * ε ^ L) ^ 2 * (sqNorm b - (sqNorm (A *ᵥ xs - b) + δ * sqNorm xs)) := by
  have hmn : n ≤ m := by unfold sketchRows at hd; omega
  have hsf : (n : ℤ) ≤ pyInt (sf * n) := by unfold sketchRows at hd; omega
  have hdm : sketchRows sf m n ≤ m := by unfold sketchRows; omega
  obtain ⟨E, h1, h2⟩ := C72_srct_embeds A (by omega : 0 < sketchRows sf m n) hdm ε hε
  rw [show A.rank = n from hA] at h1
  refine ⟨E, h1, fun p f u hE G la R w b δ L clock mode xs hδ hw hxs hm hsv => ?_⟩
  have hw' : NextSRCT R { w with warns := w.warns + if (m : ℤ) < pyInt (sf * n) then 1 else 0 } _ _ p f u := hw
  obtain ⟨S, w', hgen, hS⟩ := h2 p f u hE G la R _ hw'
  obtain ⟨x0, x, g1, g2, -, g4, g5⟩ := spo_given la (gen := skOpTCGen la R) A hA b hδ hn hd (sjlt_driver hmn hsf w) hgen
    hε.le hε1 hS hc L clock mode hm (fun h => by
      obtain ⟨lo, hi, k1, k2, k3, k4⟩ := hsv h
      exact wellCond_lift_of_embeds hn hδ hε.le hε1 hS k1 k2 k3 k4) xs hxs _ rfl
  by_cases hx0 : IsRidgeMin A b δ x0
  · exact Or.inl (g4 hx0)
  · obtain ⟨lg, hlg⟩ := g5 hx0
    refine Or.inr ⟨_, w', x, lg, hlg, rfl, rfl, g1.trans (mul_le_mul_of_nonneg_left ?_ (sq_nonneg _))⟩
    exact sub_le_sub_right g2 _

/-- **C72** (`SPU1` with `SkOpTC`).  Let `lo ‖x‖ ≤ ‖A x‖ ≤ hi ‖x‖` with `√((1+ε)/(1-ε)) hi n eps < lo`,
`d = min(int(sampling_factor * n), m) ≥ n` and `0 < ε < 1`.  Except for draws of probability at most
`4 (n² + 2n)/(d ε²)`: for every `c ≠ 0`, tolerance and limit `≥ 0`, `SPU1(SkOpTC(), sampling_factor)` returns a `y` with a
log, and if it made `k` iterations its squared distance to the minimum-norm solution `y*` of `A'y = c` is at most
`(2 ε^k)² (1+ε)/(1-ε) ‖y*‖²`. -/
theorem C72_spu1 (A : Matrix (Fin m) (Fin n) ℝ) (hn : 0 < n) (sf : ℝ) (hd : n ≤ sketchRows sf m n)
    (ε lo hi : ℝ) (hε : 0 < ε) (hε1 : ε < 1) (hlo : ∀ x, lo * norm2 x ≤ norm2 (A *ᵥ x))
    (hhi : ∀ x, norm2 (A *ᵥ x) ≤ hi * norm2 x) (h0 : 0 ≤ hi) (hls : √((1 + ε) / (1 - ε)) * hi * n * eps < lo) :
    ∃ E : Set (Equiv.Perm (Fin m) × ((Fin (sketchRows sf m n) ↪ Fin m) × (Fin m → ℝ))),
      srctDraws _ m E ≤ ENNReal.ofReal (4 * (n ^ 2 + 2 * n) / (sketchRows sf m n * ε ^ 2)) ∧
      ∀ p f u, (p, f, u) ∉ E → ∀ (G : Type) (la : LinAlg) (R : NpRng G) (w : World G) (c : Fin n → ℝ) (tol : ℝ) (L : ℤ)
        (clock : LogTimes) (ys : Fin m → ℝ), c ≠ 0 → 0 ≤ L → NextSRCT R w _ _ p f u → IsMinNormSol A c ys →
        ∃ out lg w', spu1Call la (skOpTCGen la R) sf A c tol L true clock w = .ok (out, w') ∧ out.log = some lg ∧
          ∀ k, lg.errors.length = k + 1 →
            sqNorm (out.y - ys) ≤ (2 * ε ^ k) ^ 2 * ((1 + ε) / (1 - ε)) * sqNorm ys := by
  have hmn : n ≤ m := by unfold sketchRows at hd; omega
  have hsf : (n : ℤ) ≤ pyInt (sf * n) := by unfold sketchRows at hd; omega
  have hdm : sketchRows sf m n ≤ m := by unfold sketchRows; omega
  have hlo0 : 0 < lo := lt_of_le_of_lt (by unfold eps; positivity) hls
  have hA : FullColRank A := fullColRank_iff_inj.2 fun x hx => by
    have h1 := hlo x
    rw [hx, show norm2 (0 : Fin m → ℝ) = 0 from norm2_eq_zero.2 rfl] at h1
    have h2 := norm2_nonneg x
    exact norm2_eq_zero.1 (by nlinarith)
  obtain ⟨E, h1, h2⟩ := C72_srct_embeds A (by omega : 0 < sketchRows sf m n) hdm ε hε
  rw [show A.rank = n from hA] at h1
  refine ⟨E, h1, fun p f u hE G la R w c tol L clock ys hc hL hw hys => ?_⟩
  have hw' : NextSRCT R { w with warns := w.warns + if (m : ℤ) < pyInt (sf * n) then 1 else 0 } _ _ p f u := hw
  obtain ⟨S, w', hgen, hS⟩ := h2 p f u hE G la R _ hw'
  have hSw := wellCond_of_embeds hε.le hε1 hS hlo hhi h0 hls
  have hdd := sjlt_driver (n := n) (m := m) hmn hsf w
  rcases spu1_given la (gen := skOpTCGen la R) A c hc tol L hL clock hn hd hdd hgen with ⟨out, lg, g1, g2, g3, g4⟩ | ⟨-, g⟩
  swap
  · exact absurd hSw g
  refine ⟨out, lg, w', g1, g2, fun k hk => ?_⟩
  refine C67_spu1_rate la _ _ A c hc tol L clock w w' out g1 ε hε.le hε1 (fun d w₁ S' k1 k2 => ?_) lg g2 k hk ys hys
  rw [hdd] at k1
  cases k1
  rw [hgen] at k2
  cases k2
  exact ⟨hS, hSw⟩

/-- The hypotheses of the theorems of this file are met, with a failure probability below `1/20`: one column of a
thousand ones, `ε = 1/2`, sampling factor 1000, and a generator that makes the three draws. -/
example : ∃ A : Matrix (Fin 1000) (Fin 1) ℝ, FullColRank A ∧ 1 ≤ sketchRows 1000 1000 1 ∧
    (1 : ℕ) * √((1 + 1 / 2) / (1 - 1 / 2)) < 10 ^ 8 - eps ∧
    4 * ((1 : ℕ) ^ 2 + 2 * (1 : ℕ)) / (sketchRows 1000 1000 1 * (1 / 2) ^ 2) ≤ (1 / 20 : ℝ) ∧
    ∀ w, ∃ p f u, NextSRCT demoRng w (sketchRows 1000 1000 1) 1000 p f u := by
  have hp : pyInt (1000 * (1 : ℕ)) = 1000 := by
    unfold pyInt; rw [if_pos (by norm_num), Int.floor_eq_iff]; norm_num
  have hr : sketchRows 1000 1000 1 = 1000 := by unfold sketchRows; rw [hp]; rfl
  refine ⟨fun _ _ => 1, demo31_full _ 0 (by norm_num), by rw [hr]; norm_num, ?_, ?_,
    fun w => ⟨_, _, _, by rw [hr], _, _, rfl, rfl, rfl⟩⟩
  · have h1 : eps ≤ 1 := by unfold eps; norm_num
    have h2 : √((1 + 1 / 2) / (1 - 1 / 2)) ≤ 2 := by
      rw [Real.sqrt_le_left (by norm_num)]; norm_num
    push_cast
    norm_num at h2 ⊢
    linarith
  · rw [hr]; norm_num

end Parla.Props
