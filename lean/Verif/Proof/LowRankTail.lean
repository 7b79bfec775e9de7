import Verif.Proof.Embed
import Verif.Proof.PinvMean
import Verif.Proof.LowRank

/-! # Exponential tail bounds for the two pieces of a Gaussian sketch -/

namespace Parla.Proof

open MeasureTheory ProbabilityTheory Matrix Spec Module

variable {a t k : ℕ}

theorem real_preimage_le {X Y : Type} [MeasurableSpace X] [MeasurableSpace Y] {μ : Measure X} {ν : Measure Y}
    [IsFiniteMeasure ν] {f : X → Y} (hf : MeasurePreserving f μ ν) (S : Set Y) : μ.real (f ⁻¹' S) ≤ ν.real S := by
  unfold Measure.real
  refine ENNReal.toReal_mono (measure_ne_top _ _) ?_
  have := Measure.le_map_apply (μ := μ) hf.measurable.aemeasurable S
  rwa [hf.map_eq] at this

theorem froSq_diag_mul (d : Fin a → ℝ) (M : Matrix (Fin a) (Fin k) ℝ) :
    froSq (diagonal d * M) = ∑ i, d i ^ 2 * ∑ j, M i j ^ 2 := by
  unfold froSq
  refine Finset.sum_congr rfl fun i _ => ?_
  rw [Finset.mul_sum]
  refine Finset.sum_congr rfl fun j _ => ?_
  rw [diagonal_mul, mul_pow]

/-- one row of a Gaussian matrix -/
theorem gauss_row (i : Fin a) :
    MeasurePreserving (fun Z j => Z (i, j)) (gauss (Fin a × Fin k)) (gauss (Fin k)) := by
  have hu : sqNorm (Pi.single i 1 : Fin a → ℝ) = 1 := by
    unfold sqNorm
    rw [Finset.sum_eq_single i] <;> simp +contextual [Pi.single_apply]
  have h := (gauss_mulVec (d := k) hu).comp (gauss_map_transpose (a := a) (k := k))
  have e : (fun (Z : Fin a × Fin k → ℝ) j => Z (i, j)) =
      (fun Z => drawMat Z *ᵥ (Pi.single i 1 : Fin a → ℝ)) ∘ fun Z => entries (drawMat Z)ᵀ := by
    funext Z j
    simp only [Function.comp, drawMat_entries, Matrix.mulVec_single_one]
    rfl
  rw [e]; exact h

/-- a weighted sum of chi-squared variables -/
theorem chiSq_mix (d : Fin a → ℝ) {η : ℝ} (h0 : 0 ≤ η) (h1 : η ≤ 1 / 2) :
    (gauss (Fin a × Fin k)).real {H | ¬ froSq (diagonal d * drawMat H) ≤ (1 + η) * k * ∑ i, d i ^ 2} ≤
      Real.exp (-(k * η ^ 2 / 8)) := by
  obtain ⟨T, hT⟩ : ∃ T, T = ∑ i, d i ^ 2 := ⟨_, rfl⟩
  rw [← hT]
  have hT0 : 0 ≤ T := hT ▸ Finset.sum_nonneg fun i _ => sq_nonneg _
  rcases hT0.eq_or_lt with hz | hpos
  · have hd : ∀ i, d i ^ 2 = 0 := by
      have := (Finset.sum_eq_zero_iff_of_nonneg fun i _ => sq_nonneg (d i)).1 (hT.symm.trans hz.symm)
      exact fun i => this i (Finset.mem_univ _)
    have he : {H : Fin a × Fin k → ℝ | ¬ froSq (diagonal d * drawMat H) ≤ (1 + η) * k * T} = ∅ := by
      ext H
      simp only [Set.mem_setOf_eq, Set.mem_empty_iff_false, iff_false, not_not]
      rw [froSq_diag_mul, ← hz, mul_zero]
      refine le_of_eq (Finset.sum_eq_zero fun i _ => ?_)
      rw [hd i, zero_mul]
    rw [he]
    simp only [measureReal_empty]
    exact (Real.exp_pos _).le
  · obtain ⟨l, hl⟩ : ∃ l, l = η / 4 := ⟨_, rfl⟩
    have hl2 : l < 1 / 2 := by rw [hl]; linarith
    obtain ⟨hi, hv⟩ := gauss_mgf_sqnorm k hl2
    obtain ⟨c, hc⟩ : ∃ c : ℝ, c = ((1 - 2 * l) ^ (-(1 / 2) : ℝ)) ^ k := ⟨_, rfl⟩
    rw [← hc] at hv
    have hrow : ∀ i : Fin a, Integrable (fun H => Real.exp (l * ∑ j, H (i, j) ^ 2)) (gauss (Fin a × Fin k)) ∧
        ∫ H, Real.exp (l * ∑ j, H (i, j) ^ 2) ∂(gauss (Fin a × Fin k)) = c := by
      intro i
      refine ⟨(gauss_row i).integrable_comp_of_integrable hi, ?_⟩
      rw [← hv, ← (gauss_row (k := k) i).map_eq, integral_map (gauss_row i).measurable.aemeasurable
        (by rw [(gauss_row i).map_eq]; exact hi.aestronglyMeasurable)]
    have hw1 : ∑ i, d i ^ 2 / T = 1 := by rw [← Finset.sum_div, ← hT, div_self hpos.ne']
    have hjen : ∀ H : Fin a × Fin k → ℝ, Real.exp (l * (froSq (diagonal d * drawMat H) / T)) ≤
        ∑ i, d i ^ 2 / T * Real.exp (l * ∑ j, H (i, j) ^ 2) := by
      intro H
      have := convexOn_exp.map_sum_le (t := Finset.univ) (w := fun i => d i ^ 2 / T)
        (p := fun i => l * ∑ j, H (i, j) ^ 2) (fun i _ => by positivity) hw1 (fun i _ => Set.mem_univ _)
      refine le_trans (le_of_eq ?_) this
      congr 1
      rw [froSq_diag_mul, Finset.sum_div, Finset.mul_sum]
      refine Finset.sum_congr rfl fun i _ => ?_
      change l * (d i ^ 2 * (∑ j, H (i, j) ^ 2) / T) = d i ^ 2 / T * (l * ∑ j, H (i, j) ^ 2)
      ring
    have hint : Integrable (fun H : Fin a × Fin k → ℝ => ∑ i, d i ^ 2 / T * Real.exp (l * ∑ j, H (i, j) ^ 2))
        (gauss (Fin a × Fin k)) := integrable_finsetSum _ fun i _ => (hrow i).1.const_mul _
    have hval : ∫ H : Fin a × Fin k → ℝ, ∑ i, d i ^ 2 / T * Real.exp (l * ∑ j, H (i, j) ^ 2) ∂(gauss (Fin a × Fin k)) =
        c := by
      rw [integral_finsetSum _ fun i _ => (hrow i).1.const_mul _]
      simp only [integral_const_mul, (hrow _).2]
      rw [← Finset.sum_mul, hw1, one_mul]
    have hmeas : Measurable fun H : Fin a × Fin k → ℝ => froSq (diagonal d * drawMat H) / T := by
      refine Measurable.div_const ?_ _
      simp only [froSq_diag_mul]
      refine Finset.measurable_sum _ fun i _ => Measurable.const_mul (Finset.measurable_sum _ fun j _ => ?_) _
      exact (measurable_pi_apply (i, j)).pow_const 2
    have hexp : Integrable (fun H : Fin a × Fin k → ℝ => Real.exp (l * (froSq (diagonal d * drawMat H) / T)))
        (gauss (Fin a × Fin k)) := by
      refine hint.mono' (Real.measurable_exp.comp (hmeas.const_mul l)).aestronglyMeasurable
        (Filter.Eventually.of_forall fun H => ?_)
      rw [Real.norm_eq_abs, abs_of_pos (Real.exp_pos _)]
      exact hjen H
    have hmgf : ∫ H, Real.exp (l * (froSq (diagonal d * drawMat H) / T)) ∂(gauss (Fin a × Fin k)) ≤ c :=
      (integral_mono hexp hint hjen).trans_eq hval
    have h := measure_ge_le_exp_mul_mgf (μ := gauss (Fin a × Fin k))
      (X := fun H => froSq (diagonal d * drawMat H) / T) ((1 + η) * k) (by rw [hl]; linarith : 0 ≤ l) hexp
    have hsub : {H : Fin a × Fin k → ℝ | ¬ froSq (diagonal d * drawMat H) ≤ (1 + η) * k * T} ⊆
        {H | (1 + η) * k ≤ froSq (diagonal d * drawMat H) / T} := by
      intro H hH
      have hH : (1 + η) * k * T < froSq (diagonal d * drawMat H) := not_le.1 hH
      exact (le_div_iff₀ hpos).2 hH.le
    refine (measureReal_mono hsub).trans (h.trans ?_)
    rw [mgf]
    refine (mul_le_mul_of_nonneg_left hmgf (Real.exp_pos _).le).trans ?_
    rw [hc, hl, show 2 * (η / 4) = η / 2 by ring]
    have h2 := pow_le_pow_left₀ (Real.rpow_nonneg (by linarith) _)
      (factor_le (u := η / 2) (by linarith) (by linarith)) k
    rw [← Real.exp_nat_mul] at h2
    refine (mul_le_mul_of_nonneg_left h2 (Real.exp_pos _).le).trans ?_
    rw [← Real.exp_add]
    refine Real.exp_le_exp.2 (le_of_eq ?_)
    ring

/-- the smallest singular value of a wide Gaussian matrix -/
theorem gauss_lower (hk : 0 < k) {ε : ℝ} (h0 : 0 ≤ ε) (h1 : ε ≤ 1) :
    (gauss (Fin t × Fin k)).real
      {Z | ¬ ∀ x : Fin t → ℝ, (1 - ε) * k * sqNorm x ≤ sqNorm ((drawMat Z)ᵀ *ᵥ x)} ≤
      2 * 9 ^ t * Real.exp (-(k * ε ^ 2 / 32)) := by
  have h := gauss_embeds (d := k) (m := t) hk ⊤ h0 h1
  rw [finrank_top, finrank_pi, Fintype.card_fin] at h
  have hk' : (0 : ℝ) < k := Nat.cast_pos.2 hk
  refine (measureReal_mono ?_ (measure_ne_top _ _)).trans ((real_preimage_le gauss_map_transpose _).trans h)
  intro Z hZ
  by_contra hc
  refine hZ fun x => ?_
  have := not_not.1 hc x trivial
  have := (abs_le.1 this).1
  rw [drawMat_entries, smul_mulVec, sqNorm_smul, Real.sq_sqrt (by positivity)] at this
  have h2 : (1 - ε) * sqNorm x ≤ 1 / k * sqNorm ((drawMat Z)ᵀ *ᵥ x) := by linarith
  rw [one_div, ← div_eq_inv_mul, le_div_iff₀ hk'] at h2
  linarith

/-- what a good sketch gives: a right inverse of the leading rows that is small in norm -/
theorem rpinv_bound {G1 : Matrix (Fin t) (Fin k) ℝ} {c : ℝ} (hc : 0 < c)
    (h : ∀ x : Fin t → ℝ, c * sqNorm x ≤ sqNorm (G1ᵀ *ᵥ x)) :
    G1 * rpinv G1 = 1 ∧ (∀ (b : ℕ) (M : Matrix (Fin b) (Fin k) ℝ), froSq (M * rpinv G1) ≤ froSq M / c) ∧
      froSq (rpinv G1) ≤ t / c := by
  have hdet : (G1 * G1ᵀ).det ≠ 0 := by
    intro h0
    obtain ⟨x, hx, hx0⟩ := Matrix.exists_mulVec_eq_zero_iff.2 h0
    have h1 := h x
    have h2 : sqNorm (G1ᵀ *ᵥ x) = 0 := by
      have : sqNorm (G1ᵀ *ᵥ x) = x ⬝ᵥ ((G1 * G1ᵀ) *ᵥ x) := by
        rw [← Matrix.mulVec_mulVec, Matrix.dotProduct_mulVec, ← Matrix.mulVec_transpose]
        unfold sqNorm dotProduct
        exact Finset.sum_congr rfl fun i _ => by ring
      rw [this, hx0, dotProduct_zero]
    rw [h2] at h1
    have h3 : 0 < sqNorm x := by
      rcases (sqNorm_nonneg x).eq_or_lt with h4 | h4
      · exact absurd (sqNorm_eq_zero.1 h4.symm) hx
      · exact h4
    nlinarith [mul_pos hc h3]
  have hinv := mul_rpinv hdet
  have hM : ∀ (b : ℕ) (M : Matrix (Fin b) (Fin k) ℝ), froSq (M * rpinv G1) ≤ froSq M / c := by
    intro b M
    have hrow : ∀ v : Fin k → ℝ, c * sqNorm ((rpinv G1)ᵀ *ᵥ v) ≤ sqNorm v := by
      intro v
      have hy := h ((rpinv G1)ᵀ *ᵥ v)
      refine hy.trans ?_
      -- `P = rpinv G1 * G1` is an orthogonal projection
      have hs : (G1 * G1ᵀ)⁻¹ᵀ = (G1 * G1ᵀ)⁻¹ := by
        rw [transpose_nonsing_inv, transpose_mul, transpose_transpose]
      obtain ⟨P, hP⟩ : ∃ P, P = G1ᵀ * (rpinv G1)ᵀ := ⟨_, rfl⟩
      have hPs : Pᵀ = P := by
        rw [hP]; unfold rpinv
        simp only [transpose_mul, transpose_transpose, hs, Matrix.mul_assoc]
      have hPP : P * P = P := by
        have e : Pᵀ = rpinv G1 * G1 := by rw [hP, transpose_mul, transpose_transpose, transpose_transpose]
        rw [← hPs, e]
        calc rpinv G1 * G1 * (rpinv G1 * G1) = rpinv G1 * (G1 * rpinv G1) * G1 := by simp only [Matrix.mul_assoc]
          _ = _ := by rw [hinv, Matrix.mul_one]
      rw [Matrix.mulVec_mulVec, ← hP]
      have e1 : sqNorm (P *ᵥ v) = (P *ᵥ v) ⬝ᵥ v := by
        have : sqNorm (P *ᵥ v) = (P *ᵥ v) ⬝ᵥ (P *ᵥ v) := by
          unfold sqNorm dotProduct; exact Finset.sum_congr rfl fun i _ => by ring
        rw [this, Matrix.dotProduct_mulVec, ← Matrix.mulVec_transpose, hPs, Matrix.mulVec_mulVec, hPP]
      have e2 : 0 ≤ sqNorm (P *ᵥ v - v) := sqNorm_nonneg _
      have e3 : sqNorm (P *ᵥ v - v) = sqNorm (P *ᵥ v) - 2 * ((P *ᵥ v) ⬝ᵥ v) + sqNorm v := by
        unfold sqNorm dotProduct
        rw [Finset.mul_sum, ← Finset.sum_sub_distrib, ← Finset.sum_add_distrib]
        exact Finset.sum_congr rfl fun i _ => by simp only [Pi.sub_apply]; ring
      linarith
    rw [le_div_iff₀ hc]
    unfold froSq
    rw [Finset.sum_mul]
    refine Finset.sum_le_sum fun i _ => ?_
    have := hrow (M i)
    have e : (rpinv G1)ᵀ *ᵥ M i = (M * rpinv G1) i := by
      rw [Matrix.mulVec_transpose]; rfl
    rw [e, mul_comm] at this
    exact this
  refine ⟨hinv, hM, ?_⟩
  have htr : froSq (rpinv G1) = trace (G1 * G1ᵀ)⁻¹ := froSq_rpinv hdet
  -- `froSq (1 * N) = froSq (Nᵀ)`, column by column
  rw [le_div_iff₀ hc]
  have hcol : ∀ j : Fin t, c * sqNorm (((G1 * G1ᵀ)⁻¹) *ᵥ Pi.single j 1) ≤ sqNorm (fun i => rpinv G1 i j) := by
    intro j
    refine (h _).trans_eq ?_
    congr 1
    rw [Matrix.mulVec_mulVec]
    funext i
    rw [Matrix.mulVec_single_one]
    rfl
  have hdiag : ∀ j : Fin t, sqNorm (fun i => rpinv G1 i j) = (G1 * G1ᵀ)⁻¹ j j := by
    intro j
    have hs : (G1 * G1ᵀ)⁻¹ᵀ = (G1 * G1ᵀ)⁻¹ := by
      rw [transpose_nonsing_inv, transpose_mul, transpose_transpose]
    have e : (rpinv G1)ᵀ * rpinv G1 = (G1 * G1ᵀ)⁻¹ := by
      have : (rpinv G1)ᵀ = (G1 * G1ᵀ)⁻¹ * G1 := by
        unfold rpinv; rw [transpose_mul, transpose_transpose, hs]
      rw [this, Matrix.mul_assoc, hinv, Matrix.mul_one]
    rw [← e, Matrix.mul_apply]
    unfold sqNorm
    exact Finset.sum_congr rfl fun i _ => by rw [transpose_apply]; ring
  have hle : ∀ j : Fin t, (G1 * G1ᵀ)⁻¹ j j * c ≤ 1 := by
    intro j
    obtain ⟨x, hx⟩ : ∃ x, x = (G1 * G1ᵀ)⁻¹ j j := ⟨_, rfl⟩
    have h1 := hcol j
    rw [hdiag j, Matrix.mulVec_single_one] at h1
    have h2 : x ^ 2 ≤ sqNorm (((G1 * G1ᵀ)⁻¹).col j) := by
      unfold sqNorm
      refine le_trans (le_of_eq ?_) (Finset.single_le_sum (fun i _ => sq_nonneg _) (Finset.mem_univ j))
      rw [hx]; rfl
    rw [← hx] at h1 ⊢
    have hx0 : 0 ≤ x := by rw [hx, ← hdiag j]; exact sqNorm_nonneg _
    have h3 : c * x ^ 2 ≤ x := (mul_le_mul_of_nonneg_left h2 hc.le).trans h1
    rcases hx0.eq_or_lt with h4 | h4
    · rw [← h4]; simp
    · nlinarith
  rw [htr, trace, Finset.sum_mul]
  refine (Finset.sum_le_sum fun j _ => hle j).trans ?_
  simp

end Parla.Proof
