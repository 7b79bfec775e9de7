import Verif.Proof.PinvMean
import Verif.Proof.LowRank

/-! # Auxiliary facts for C77: sketched interpolation with a Gaussian sketch -/

namespace Parla.Proof

open Matrix Parla Spec MeasureTheory

variable {m n r k l t : ℕ}

theorem isSVD_transpose {A : Matrix (Fin m) (Fin n) ℝ} {U : Matrix (Fin m) (Fin r) ℝ} {s : Fin r → ℝ}
    {V : Matrix (Fin n) (Fin r) ℝ} (h : IsSVD A U s V) : IsSVD Aᵀ V s U where
  left := h.right
  right := h.left
  nonneg := h.nonneg
  anti := h.anti
  eq := by
    rw [h.eq, transpose_mul, transpose_mul, transpose_transpose, diagonal_transpose, Matrix.mul_assoc]

/-- even powers -/
theorem svd_gram_power {A : Matrix (Fin m) (Fin n) ℝ} {U : Matrix (Fin m) (Fin r) ℝ} {s : Fin r → ℝ}
    {V : Matrix (Fin n) (Fin r) ℝ} (h : IsSVD A U s V) (q : ℕ) :
    (Aᵀ * A) ^ (q + 1) = V * diagonal (fun i => s i ^ (2 * q + 2)) * Vᵀ := by
  have hU : Uᵀ * U = 1 := h.left
  rw [pow_succ', Matrix.mul_assoc, svd_power h q, (isSVD_transpose h).eq]
  have : V * diagonal s * Uᵀ * (U * diagonal (fun i => s i ^ (2 * q + 1)) * Vᵀ) =
      V * (diagonal s * (Uᵀ * U) * diagonal (fun i => s i ^ (2 * q + 1))) * Vᵀ := by
    simp only [Matrix.mul_assoc]
  rw [this, hU, Matrix.mul_one, diagonal_mul_diagonal]
  congr 3
  funext i
  ring

theorem svd_gram_power_transpose {A : Matrix (Fin m) (Fin n) ℝ} {U : Matrix (Fin m) (Fin r) ℝ} {s : Fin r → ℝ}
    {V : Matrix (Fin n) (Fin r) ℝ} (h : IsSVD A U s V) (q : ℕ) :
    (Aᵀ * A) ^ q * Aᵀ = V * diagonal (fun i => s i ^ (2 * q + 1)) * Uᵀ := by
  have e := congrArg Matrix.transpose (svd_power h q)
  rw [transpose_mul, transpose_pow, transpose_mul, transpose_mul, transpose_mul, transpose_transpose,
    transpose_transpose, diagonal_transpose] at e
  rw [e, Matrix.mul_assoc]

/-- interpolating through the first `t` left singular directions of a sketch -/
theorem interp_first {A : Matrix (Fin m) (Fin n) ℝ} {U : Matrix (Fin m) (Fin r) ℝ} {s : Fin r → ℝ}
    {V : Matrix (Fin n) (Fin r) ℝ} (h : IsSVD A U s V) (ht : t ≤ r) (Z : Matrix (Fin m) (Fin l) ℝ)
    (N : Matrix (Fin l) (Fin t) ℝ) (hN : ((Uᵀ * Z).submatrix (Fin.castLE ht) id) * N = 1) :
    ∃ (C : Matrix (Fin m) (Fin l) ℝ) (B : Matrix (Fin m) (Fin n) ℝ), B.rank ≤ t ∧ froSq C = froSq N ∧
      froSq (A - C * (Zᵀ * A)) = tailSq s t + froSq (diagonal (tail s t) * (Uᵀ * Z * N)) ∧
      froSq (Zᵀ * A - Zᵀ * B) = froSq (diagonal (tail s t) * (Uᵀ * Z)) := by
  have hU : Uᵀ * U = 1 := h.left
  have hV : Vᵀ * V = 1 := h.right
  obtain ⟨E, hE⟩ : ∃ E : Matrix (Fin t) (Fin r) ℝ, E = (1 : Matrix (Fin r) (Fin r) ℝ).submatrix (Fin.castLE ht) id :=
    ⟨_, rfl⟩
  have hEa : ∀ a b, E a b = if b.1 = a.1 then 1 else 0 := by
    intro a b
    rw [hE]
    simp [one_apply, Fin.ext_iff, eq_comm]
  have hEE : E * Eᵀ = 1 := by
    ext a b
    rw [Matrix.mul_apply, Finset.sum_eq_single (Fin.castLE ht a)]
    · simp [hEa, one_apply, Fin.ext_iff]
    · intro c _ hc
      have hca : ¬ c.1 = a.1 := fun h => hc (Fin.ext h)
      rw [hEa, if_neg hca, zero_mul]
    · intro h; exact absurd (Finset.mem_univ _) h
  have hEM : ∀ {q : ℕ} (M : Matrix (Fin r) (Fin q) ℝ), E * M = M.submatrix (Fin.castLE ht) id := by
    intro q M
    rw [hE]
    ext i j
    simp [Matrix.mul_apply, one_apply]
  refine ⟨U * Eᵀ * Nᵀ, U * diagonal (fun i : Fin r => if i.1 < t then s i else 0) * Vᵀ, ?_, ?_, ?_, ?_⟩
  · have e : diagonal (fun i : Fin r => if i.1 < t then s i else 0) = diagonal s * Eᵀ * E := by
      ext i j
      rw [Matrix.mul_assoc, diagonal_mul, Matrix.mul_apply]
      simp only [transpose_apply, hEa]
      by_cases hi : i.1 < t
      · rw [Finset.sum_eq_single ⟨i.1, hi⟩]
        · by_cases hij : i = j
          · subst hij; simp [hi]
          · rw [diagonal_apply_ne _ hij]
            have hji : ¬ j.1 = i.1 := fun h => hij (Fin.ext h.symm)
            simp [hji]
        · intro c _ hc
          rw [if_neg (fun h => hc (Fin.ext h.symm)), zero_mul]
        · intro h; exact absurd (Finset.mem_univ _) h
      · rw [Finset.sum_eq_zero, mul_zero]
        · by_cases hij : i = j
          · subst hij; simp [hi]
          · rw [diagonal_apply_ne _ hij]
        · intro c _
          rw [if_neg (fun h => hi (by have := c.2; omega)), zero_mul]
    rw [e]
    refine (Matrix.rank_mul_le_left _ _).trans ((Matrix.rank_mul_le_right _ _).trans
      ((Matrix.rank_mul_le_right _ _).trans ((Matrix.rank_le_height _))))
  · rw [Matrix.mul_assoc, froSq_orth_mul hU, froSq_orth_mul (by rw [transpose_transpose]; exact hEE),
      froSq_transpose]
  · obtain ⟨P, hP⟩ : ∃ P : Matrix (Fin r) (Fin t) ℝ, P = Uᵀ * Z * N := ⟨_, rfl⟩
    have hPE : E * P = 1 := by
      rw [hP, ← Matrix.mul_assoc, hEM]; exact hN
    have e1 : A - U * Eᵀ * Nᵀ * (Zᵀ * A) = U * ((diagonal s - diagonal s * P * E)ᵀ * Vᵀ) := by
      have e2 : Zᵀ * A = (Uᵀ * Z)ᵀ * diagonal s * Vᵀ := by
        conv_lhs => rw [h.eq]
        rw [transpose_mul, transpose_transpose]
        simp only [Matrix.mul_assoc]
      rw [e2, hP, transpose_sub, transpose_mul, transpose_mul, transpose_mul, diagonal_transpose, Matrix.sub_mul,
        Matrix.mul_sub]
      conv_lhs => rw [h.eq]
      rw [transpose_mul (Uᵀ * Z) N]
      simp only [Matrix.mul_assoc, transpose_mul, transpose_transpose]
    rw [e1, froSq_orth_mul hU, froSq_mul_orth (V := Vᵀ) (by rw [transpose_transpose]; exact hV), froSq_transpose,
      ← hP]
    have hPi : ∀ (i : Fin r) (hi : i.1 < t) (j : Fin t), P i j = if i.1 = j.1 then 1 else 0 := by
      intro i hi j
      have := congrFun (congrFun hPE ⟨i.1, hi⟩) j
      rw [hEM, one_apply] at this
      simpa [Fin.ext_iff] using this
    -- entries
    have ent : ∀ i j, (diagonal s - diagonal s * P * E) i j =
        if hj : j.1 < t then -(diagonal (tail s t) * P) i ⟨j.1, hj⟩ else diagonal (tail s t) i j := by
      intro i j
      rw [Matrix.sub_apply, Matrix.mul_assoc, diagonal_mul, Matrix.mul_apply]
      by_cases hj : j.1 < t
      · rw [dif_pos hj, diagonal_mul, Finset.sum_eq_single ⟨j.1, hj⟩]
        · rw [hEa, if_pos rfl, mul_one]
          unfold tail
          by_cases hi : i.1 < t
          · rw [if_pos hi, hPi i hi]
            by_cases hij : i = j
            · subst hij; simp
            · rw [diagonal_apply_ne _ hij, if_neg (fun h => hij (Fin.ext h))]; ring
          · rw [if_neg hi, diagonal_apply_ne _ (fun h => hi (by rw [h]; exact hj))]; ring
        · intro c _ hc
          rw [hEa, if_neg (fun h => hc (Fin.ext h.symm)), mul_zero]
        · intro h; exact absurd (Finset.mem_univ _) h
      · rw [dif_neg hj, Finset.sum_eq_zero, mul_zero, sub_zero]
        · by_cases hij : i = j
          · subst hij; rw [diagonal_apply_eq, diagonal_apply_eq, tail, if_neg hj]
          · rw [diagonal_apply_ne _ hij, diagonal_apply_ne _ hij]
        · intro c _
          rw [hEa, if_neg (fun h => hj (by have := c.2; omega)), mul_zero]
    obtain ⟨b, rfl⟩ : ∃ b, r = t + b := ⟨r - t, by omega⟩
    have hrow : ∀ i, ∑ j, (diagonal s - diagonal s * P * E) i j ^ 2 =
        ∑ j, (diagonal (tail s t) * P) i j ^ 2 + tail s t i ^ 2 := by
      intro i
      rw [Fin.sum_univ_add]
      congr 1
      · refine Finset.sum_congr rfl fun j _ => ?_
        rw [ent, dif_pos (show (Fin.castAdd b j).1 < t by simp)]
        rw [neg_sq]; rfl
      · have : ∀ j : Fin b, (diagonal s - diagonal s * P * E) i (Fin.natAdd t j) ^ 2 =
            diagonal (tail s t) i (Fin.natAdd t j) ^ 2 := by
          intro j
          rw [ent, dif_neg (by simp)]
        simp only [this]
        have h2 : ∑ j, diagonal (tail s t) i j ^ 2 = tail s t i ^ 2 := by
          rw [Finset.sum_eq_single i, diagonal_apply_eq]
          · intro j _ hj; rw [diagonal_apply_ne _ (Ne.symm hj)]; ring
          · intro h; exact absurd (Finset.mem_univ _) h
        rw [← h2, Fin.sum_univ_add, Finset.sum_eq_zero (s := (Finset.univ : Finset (Fin t))), zero_add]
        intro j _
        by_cases hij : i = Fin.castAdd b j
        · rw [hij, diagonal_apply_eq, tail, if_pos (by simp)]; ring
        · rw [diagonal_apply_ne _ hij]; ring
    unfold froSq tailSq
    rw [Finset.sum_congr rfl fun i _ => hrow i, Finset.sum_add_distrib, add_comm]
  · have e : Zᵀ * A - Zᵀ * (U * diagonal (fun i : Fin r => if i.1 < t then s i else 0) * Vᵀ) =
        (diagonal (tail s t) * (Uᵀ * Z))ᵀ * Vᵀ := by
      have hd : diagonal s - diagonal (fun i : Fin r => if i.1 < t then s i else 0) = diagonal (tail s t) := by
        rw [diagonal_sub]
        congr 1
        funext i
        unfold tail
        split <;> simp
      rw [← hd, transpose_mul, transpose_mul, transpose_transpose, diagonal_sub, diagonal_transpose, ← diagonal_sub]
      conv_lhs => rw [h.eq]
      rw [Matrix.mul_sub, Matrix.sub_mul]
      simp only [Matrix.mul_assoc]
    rw [e, froSq_mul_orth (V := Vᵀ) (by rw [transpose_transpose]; exact hV), froSq_transpose]

/-- the mean of the product of two independent factors -/
theorem mean_prod_rows {c a : ℕ} (h : t + 2 ≤ k) (D : Matrix (Fin c) (Fin a) ℝ) :
    Integrable (fun Z : Fin (t + a) × Fin k → ℝ => froSq (rpinv ((drawMat Z).submatrix (Fin.castAdd a) id)) *
      froSq (D * (drawMat Z).submatrix (Fin.natAdd t) id)) (gauss (Fin (t + a) × Fin k)) ∧
    ∫ Z : Fin (t + a) × Fin k → ℝ, froSq (rpinv ((drawMat Z).submatrix (Fin.castAdd a) id)) *
      froSq (D * (drawMat Z).submatrix (Fin.natAdd t) id) ∂(gauss (Fin (t + a) × Fin k)) =
      t / ((k : ℝ) - t - 1) * (froSq D * k) := by
  have hj := measurePreserving_join (rowsSplit t a k)
  obtain ⟨F, hF⟩ : ∃ F : (Fin (t + a) × Fin k → ℝ) → ℝ, F = fun Z =>
    froSq (rpinv ((drawMat Z).submatrix (Fin.castAdd a) id)) * froSq (D * (drawMat Z).submatrix (Fin.natAdd t) id) :=
    ⟨_, rfl⟩
  have hFm : Measurable F := by
    rw [hF]
    exact (emeas_rpinv ((emeas_draw _ _).submatrix _ _)).froSq.mul
      ((emeas_const D).mul ((emeas_draw _ _).submatrix _ _)).froSq
  have hFj : ∀ z : (Fin t × Fin k → ℝ) × (Fin a × Fin k → ℝ), F (join (rowsSplit t a k) z) =
      froSq (rpinv (drawMat z.1)) * froSq (D * drawMat z.2) := by
    intro z
    have e1 : (drawMat (join (rowsSplit t a k) z)).submatrix (Fin.castAdd a) id = drawMat z.1 := by
      ext i j; exact join_first z i j
    have e2 : (drawMat (join (rowsSplit t a k) z)).submatrix (Fin.natAdd t) id = drawMat z.2 := by
      ext i j; exact join_second z i j
    rw [hF]
    simp only [e1, e2]
  obtain ⟨w1, w2⟩ := trace_inv_gram_mean t k h
  have hae : (fun Z : Fin t × Fin k → ℝ => trace (drawMat Z * (drawMat Z)ᵀ)⁻¹) =ᵐ[gauss (Fin t × Fin k)]
      fun Z => froSq (rpinv (drawMat Z)) := by
    filter_upwards [gram_det_ae t k (by omega)] with Z hZ
    rw [froSq_rpinv hZ]
  have i1 := w1.congr hae
  have i2 : ∫ Z, froSq (rpinv (drawMat Z)) ∂(gauss (Fin t × Fin k)) = t / ((k : ℝ) - t - 1) := by
    rw [← integral_congr_ae hae, w2]
  obtain ⟨d1, d2⟩ := mean_DHW D (1 : Matrix (Fin k) (Fin k) ℝ)
  simp only [Matrix.mul_one] at d1 d2
  have hk1 : froSq (1 : Matrix (Fin k) (Fin k) ℝ) = k := by
    rw [froSq_eq_trace, transpose_one, Matrix.mul_one, trace_one, Fintype.card_fin]
  rw [hk1] at d2
  have hprod : Integrable (fun z => F (join (rowsSplit t a k) z)) ((gauss (Fin t × Fin k)).prod (gauss (Fin a × Fin k))) := by
    simp only [hFj]
    exact i1.mul_prod d1
  rw [← hF]
  refine ⟨(hj.integrable_comp hFm.aestronglyMeasurable).1 hprod, ?_⟩
  rw [← hj.map_eq, integral_map hj.measurable.aemeasurable (by rw [hj.map_eq]; exact hFm.aestronglyMeasurable)]
  simp only [hFj]
  rw [integral_prod_mul (fun Z : Fin t × Fin k → ℝ => froSq (rpinv (drawMat Z)))
    (fun Z : Fin a × Fin k → ℝ => froSq (D * drawMat Z)), i2, d2]

end Parla.Proof
