import Verif.Proof.Rounding

/-! # How rounding affects orthogonality between blocks of QB -/

namespace Parla.Proof

open Matrix Spec

variable {m n k b c p : ℕ}

theorem fro_lower {R : Matrix (Fin m) (Fin b) ℝ} {s : ℝ} (hs : 0 ≤ s) (h : ∀ v, s * norm2 v ≤ norm2 (R *ᵥ v))
    (X : Matrix (Fin b) (Fin p) ℝ) : s * fro X ≤ fro (R * X) := by
  have hcol : ∀ {a : ℕ} (M : Matrix (Fin a) (Fin p) ℝ), froSq M = ∑ j, sqNorm (fun i => M i j) := fun M => by
    unfold froSq
    rw [Finset.sum_comm]
    rfl
  have h1 : s ^ 2 * froSq X ≤ froSq (R * X) := by
    rw [hcol, hcol, Finset.mul_sum]
    refine Finset.sum_le_sum fun j _ => ?_
    have h2 := h (fun i => X i j)
    have e : (fun i => (R * X) i j) = R *ᵥ fun i => X i j := by funext i; rfl
    rw [e]
    have n0 : ∀ {a : ℕ} (v : Fin a → ℝ), 0 ≤ sqNorm v := fun v => Finset.sum_nonneg fun _ _ => sq_nonneg _
    have h3 := pow_le_pow_left₀ (mul_nonneg hs (Real.sqrt_nonneg _)) h2 2
    rw [mul_pow] at h3
    unfold norm2 at h3
    rwa [Real.sq_sqrt (n0 _), Real.sq_sqrt (n0 _)] at h3
  have h2 := Real.sqrt_le_sqrt h1
  rwa [Real.sqrt_mul (sq_nonneg _), Real.sqrt_sq hs] at h2

/-- a wide (hence square) matrix bounded below has a right inverse of moderate norm -/
theorem right_inv {R : Matrix (Fin p) (Fin b) ℝ} (hp : p ≤ b) {s : ℝ} (hs : 0 < s)
    (h : ∀ v, s * norm2 v ≤ norm2 (R *ᵥ v)) : ∃ X : Matrix (Fin b) (Fin p) ℝ, R * X = 1 ∧ fro X ≤ Real.sqrt p / s := by
  have hinj : Function.Injective R.mulVec := by
    intro u v huv
    have h1 := h (u - v)
    rw [mulVec_sub, sub_eq_zero.2 huv] at h1
    have h2 : norm2 (0 : Fin p → ℝ) = 0 := by simp [norm2, sqNorm]
    rw [h2] at h1
    have h3 : norm2 (u - v) ≤ 0 := by
      by_contra h4
      push Not at h4
      linarith [mul_pos hs h4]
    have h4 : sqNorm (u - v) ≤ 0 := Real.sqrt_eq_zero'.1 (le_antisymm h3 (Real.sqrt_nonneg _))
    funext i
    have h5 : ∀ j ∈ Finset.univ, (u - v) j ^ 2 = 0 :=
      (Finset.sum_eq_zero_iff_of_nonneg fun _ _ => sq_nonneg _).1 (le_antisymm h4 (Finset.sum_nonneg fun _ _ => sq_nonneg _))
    have h6 := pow_eq_zero_iff two_ne_zero |>.1 (h5 i (Finset.mem_univ i))
    exact sub_eq_zero.1 h6
  have hb : b ≤ p := by
    have := LinearMap.finrank_le_finrank_of_injective (f := R.mulVecLin) hinj
    simpa using this
  obtain rfl : b = p := le_antisymm hb hp
  have hu : IsUnit R := mulVec_injective_iff_isUnit.1 hinj
  have h1 : R * R⁻¹ = 1 := mul_nonsing_inv R ((isUnit_iff_isUnit_det R).1 hu)
  refine ⟨R⁻¹, h1, ?_⟩
  have h2 := fro_lower hs.le h R⁻¹
  have h3 : OrthoCols (1 : Matrix (Fin b) (Fin b) ℝ) := by unfold OrthoCols; rw [transpose_one, Matrix.one_mul]
  rw [h1, fro_orth h3] at h2
  rw [le_div_iff₀ hs, mul_comm]
  exact h2

/-- `project_out` with rounding -/
theorem round_projectOut {O : Matrix (Fin m) (Fin b) ℝ} {Q : Matrix (Fin m) (Fin c) ℝ} {T : Matrix (Fin c) (Fin b) ℝ}
    {P W : Matrix (Fin m) (Fin b) ℝ} {ε q : ℝ} (hε : 0 ≤ ε) (hε1 : ε ≤ 1) (hq1 : 1 ≤ q) (hO : fro O ≤ q) (hQ : fro Q ≤ q)
    (hT : fro (T - Qᵀ * O) ≤ ε * fro Qᵀ * fro O) (hP : fro (P - Q * T) ≤ ε * fro Q * fro T)
    (hW : fro (W - (O - P)) ≤ ε * fro (O - P)) :
    fro (W - (O - Q * (Qᵀ * O))) ≤ 8 * ε * q ^ 3 ∧ fro W ≤ 10 * q ^ 3 := by
  have hq0 : 0 ≤ q := by linarith
  rw [fro_tr] at hT
  have o0 := fro_nonneg O
  have q0 := fro_nonneg Q
  have hqq : fro Q * fro O ≤ q * q := mul_le_mul hQ hO o0 hq0
  have hT1 : fro (T - Qᵀ * O) ≤ ε * (q * q) := hT.trans (by rw [mul_assoc]; exact mul_le_mul_of_nonneg_left hqq hε)
  have hQO : fro (Qᵀ * O) ≤ q * q := (fro_mul_le _ _).trans (by rw [fro_tr]; exact hqq)
  have hTn : fro T ≤ 2 * (q * q) := by
    have := fro_le_add T (Qᵀ * O)
    nlinarith [mul_nonneg hq0 hq0]
  have hP1 : fro (P - Q * T) ≤ ε * (q * (2 * (q * q))) := hP.trans (by
    rw [mul_assoc]
    exact mul_le_mul_of_nonneg_left (mul_le_mul hQ hTn (fro_nonneg _) hq0) hε)
  have hP2 : fro (Q * T - Q * (Qᵀ * O)) ≤ q * (ε * (q * q)) := by
    rw [← Matrix.mul_sub]
    exact (fro_mul_le _ _).trans (mul_le_mul hQ hT1 (fro_nonneg _) hq0)
  have hP3 : fro (P - Q * (Qᵀ * O)) ≤ 3 * ε * q ^ 3 := by
    have := fro_sub_le P (Q * T) (Q * (Qᵀ * O))
    nlinarith
  have hQQ : fro (Q * (Qᵀ * O)) ≤ q ^ 3 := by
    have := (fro_mul_le Q (Qᵀ * O)).trans (mul_le_mul hQ hQO (fro_nonneg _) hq0)
    nlinarith
  have q3 : q ≤ q ^ 3 := by nlinarith [mul_nonneg hq0 hq0]
  have q30 : 0 ≤ q ^ 3 := by linarith
  have hε3 : ε * q ^ 3 ≤ q ^ 3 := by nlinarith
  have hOQ : fro (O - Q * (Qᵀ * O)) ≤ 2 * q ^ 3 := by
    have := fro_triangle O (-(Q * (Qᵀ * O)))
    rw [← sub_eq_add_neg, show fro (-(Q * (Qᵀ * O))) = fro (Q * (Qᵀ * O)) by unfold fro; rw [froSq_neg]] at this
    linarith
  have hPn : fro (O - P) ≤ 5 * q ^ 3 := by
    have h1 := fro_sub_le O (Q * (Qᵀ * O) + (O - Q * (Qᵀ * O))) P
    have h2 : fro (O - P) ≤ fro (O - Q * (Qᵀ * O)) + fro (Q * (Qᵀ * O) - P) := fro_sub_le O (Q * (Qᵀ * O)) P
    rw [fro_sub_comm (Q * (Qᵀ * O)) P] at h2
    linarith
  have hmain : fro (W - (O - Q * (Qᵀ * O))) ≤ 8 * ε * q ^ 3 := by
    have h1 := fro_sub_le W (O - P) (O - Q * (Qᵀ * O))
    rw [sub_sub_sub_cancel_left, fro_sub_comm (Q * (Qᵀ * O)) P] at h1
    have h2 := mul_le_mul_of_nonneg_left hPn hε
    linarith
  refine ⟨hmain, ?_⟩
  have := fro_le_add W (O - Q * (Qᵀ * O))
  linarith

/-- The new block is nearly orthogonal to the old columns, if these are nearly orthonormal and the projected block is not
nearly singular. -/
theorem round_cross {O W : Matrix (Fin m) (Fin b) ℝ} {Q : Matrix (Fin m) (Fin c) ℝ} {Qi Q' : Matrix (Fin m) (Fin p) ℝ}
    {R : Matrix (Fin p) (Fin b) ℝ} {ε q σ δ : ℝ} (hε : 0 ≤ ε) (hε1 : ε ≤ 1) (hq1 : 1 ≤ q) (hpb : p ≤ b) (hσ : 0 < σ)
    (hσε : 20 * ε * q ^ 3 ≤ σ) (hpq : Real.sqrt p ≤ q) (hO : fro O ≤ q) (hQ : fro Q ≤ q) (hδ : fro (Qᵀ * Q - 1) ≤ δ)
    (hW : fro (W - (O - Q * (Qᵀ * O))) ≤ 8 * ε * q ^ 3) (hWn : fro W ≤ 10 * q ^ 3)
    (hlow : ∀ v, σ * norm2 v ≤ norm2 (W *ᵥ v)) (hQ' : OrthoCols Q') (hQi : fro (Qi - Q') ≤ ε)
    (hR : fro (Q' * R - W) ≤ ε * fro W) :
    fro (Qᵀ * Qi) ≤ 2 * q / σ * (δ * q ^ 2 + 18 * ε * q ^ 4) + q * ε := by
  have hq0 : 0 ≤ q := by linarith
  have q30 : 0 ≤ q ^ 3 := by positivity
  have hF : fro (Q' * R - W) ≤ 10 * ε * q ^ 3 := hR.trans (by nlinarith [mul_le_mul_of_nonneg_left hWn hε])
  have tri : ∀ {a : ℕ} (u v : Fin a → ℝ), norm2 (u + v) ≤ norm2 u + norm2 v := fun u v => by
    have := fro_triangle (Matrix.of fun i (_ : Fin 1) => u i) (Matrix.of fun i (_ : Fin 1) => v i)
    simpa [fro, froSq, norm2, sqNorm] using this
  have opn : ∀ {a d : ℕ} (M : Matrix (Fin a) (Fin d) ℝ) (v : Fin d → ℝ), norm2 (M *ᵥ v) ≤ fro M * norm2 v := fun M v => by
    have := fro_mul_le M (Matrix.of fun i (_ : Fin 1) => v i)
    have e : M * (Matrix.of fun i (_ : Fin 1) => v i) = Matrix.of fun i (_ : Fin 1) => (M *ᵥ v) i := by
      ext i j; rfl
    rw [e] at this
    simpa [fro, froSq, norm2, sqNorm] using this
  have hRlow : ∀ v, σ / 2 * norm2 v ≤ norm2 (R *ᵥ v) := fun v => by
    have h1 : norm2 (R *ᵥ v) = norm2 (Q' *ᵥ (R *ᵥ v)) := by
      unfold norm2; rw [sqNorm_orth_mulVec hQ']
    have h2 := tri (Q' *ᵥ (R *ᵥ v)) ((W - Q' * R) *ᵥ v)
    have e : Q' *ᵥ (R *ᵥ v) + (W - Q' * R) *ᵥ v = W *ᵥ v := by
      rw [sub_mulVec, mulVec_mulVec]; abel
    rw [e] at h2
    have h3 := opn (W - Q' * R) v
    rw [fro_sub_comm] at h3
    have n0 : 0 ≤ norm2 v := Real.sqrt_nonneg _
    have h4 : fro (Q' * R - W) * norm2 v ≤ σ / 2 * norm2 v := mul_le_mul_of_nonneg_right (by linarith) n0
    have h5 := hlow v
    linarith
  obtain ⟨X, hX, hXn⟩ := right_inv hpb (half_pos hσ) hRlow
  have hXn' : fro X ≤ 2 * q / σ := by
    refine hXn.trans ?_
    rw [div_div_eq_mul_div]
    exact div_le_div_of_nonneg_right (by linarith) hσ.le
  -- `Q' W`
  have hQW : fro (Qᵀ * W) ≤ δ * q ^ 2 + 8 * ε * q ^ 4 := by
    have e : Qᵀ * W = Qᵀ * (W - (O - Q * (Qᵀ * O))) + -((Qᵀ * Q - 1) * (Qᵀ * O)) := by
      simp only [Matrix.mul_sub, Matrix.sub_mul, Matrix.mul_assoc, Matrix.one_mul]
      abel
    rw [e]
    refine (fro_triangle _ _).trans ?_
    rw [show fro (-((Qᵀ * Q - 1) * (Qᵀ * O))) = fro ((Qᵀ * Q - 1) * (Qᵀ * O)) by unfold fro; rw [froSq_neg]]
    have h1 : fro (Qᵀ * (W - (O - Q * (Qᵀ * O)))) ≤ q * (8 * ε * q ^ 3) :=
      (fro_mul_le _ _).trans (by rw [fro_tr]; exact mul_le_mul hQ hW (fro_nonneg _) hq0)
    have h2 : fro (Qᵀ * O) ≤ q * q := (fro_mul_le _ _).trans (by rw [fro_tr]; exact mul_le_mul hQ hO (fro_nonneg _) hq0)
    have h3 : fro ((Qᵀ * Q - 1) * (Qᵀ * O)) ≤ δ * (q * q) :=
      (fro_mul_le _ _).trans (mul_le_mul hδ h2 (fro_nonneg _) ((fro_nonneg _).trans hδ))
    nlinarith
  have hQF : fro (Qᵀ * (Q' * R - W)) ≤ 10 * ε * q ^ 4 := by
    have := fro_mul_le Qᵀ (Q' * R - W)
    rw [fro_tr] at this
    have h2 := mul_le_mul hQ hF (fro_nonneg _) hq0
    calc _ ≤ _ := this
      _ ≤ _ := h2
      _ = _ := by ring
  have hM : fro (Qᵀ * Q') ≤ (δ * q ^ 2 + 18 * ε * q ^ 4) * (2 * q / σ) := by
    have e : Qᵀ * Q' = (Qᵀ * W + Qᵀ * (Q' * R - W)) * X := by
      rw [← Matrix.mul_add, add_sub_cancel, ← Matrix.mul_assoc, Matrix.mul_assoc (Qᵀ * Q'), hX, Matrix.mul_one]
    rw [e]
    have h1 : fro (Qᵀ * W + Qᵀ * (Q' * R - W)) ≤ δ * q ^ 2 + 18 * ε * q ^ 4 := (fro_triangle _ _).trans (by linarith)
    exact (fro_mul_le _ _).trans (mul_le_mul h1 hXn' (fro_nonneg _) ((fro_nonneg _).trans h1))
  have e : Qᵀ * Qi = Qᵀ * Q' + Qᵀ * (Qi - Q') := by rw [← Matrix.mul_add, add_sub_cancel]
  rw [e]
  refine (fro_triangle _ _).trans ?_
  have h1 : fro (Qᵀ * (Qi - Q')) ≤ q * ε := (fro_mul_le _ _).trans (by rw [fro_tr]; exact mul_le_mul hQ hQi (fro_nonneg _) hq0)
  linarith

end Parla.Proof
