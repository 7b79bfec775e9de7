import Verif.Proof.RoundingLS

/-! # The preconditioners with rounding errors (C82) -/

namespace Parla.Proof

open Matrix Parla Spec Parla.Props

variable {m n d k : ℕ}

/-- what the factorisation stage must deliver -/
structure FacOk (T : Matrix (Fin k) (Fin n) ℝ) (θ : ℝ) (f : SPOFac n) : Prop where
  ok : f.P.Ok
  dim : f.P.dim = n
  x : f.x = f.P.mat *ᵥ f.z
  conds : Conds T f.P.mat θ

theorem castRows_sq {a b : ℕ} (h : a = b) (R : Matrix (Fin a) (Fin n) ℝ) (v : Fin n → ℝ) :
    sqNorm (castRows h R *ᵥ v) = sqNorm (R *ᵥ v) := by subst h; rfl

theorem spoQRFl_spec {fl : FlLS} {N : ℕ} {ε : ℝ} (hfl : fl.Accurate N ε) (hε : 0 ≤ ε) (S : Matrix (Fin d) (Fin m) ℝ)
    (A : Matrix (Fin m) (Fin n) ℝ) (b : Fin m → ℝ) {δ : ℝ} (hδ : 0 ≤ δ) (hn : 0 < n) (hd : n ≤ d) (hm : m ≤ N) (hN : d + n ≤ N)
    {μ : ℝ} (hμ : 0 < μ) (hT : ∀ v, μ * norm2 v ≤ norm2 (aLift (S * A) (√δ) *ᵥ v))
    (hθ : 9 * ε * (sketchSize S A δ / μ) < 1) :
    ∃ f, spoQRFl fl S A b δ = .ok f ∧ FacOk (aLift (S * A) (√δ)) (9 * ε * (sketchSize S A δ / μ)) f := by
  obtain ⟨T, hTd⟩ : ∃ T, T = aLift (S * A) (√δ) := ⟨_, rfl⟩
  obtain ⟨γ, hγ⟩ : ∃ γ, γ = sketchSize S A δ := ⟨_, rfl⟩
  have hfT := fro_lift_le S A δ
  have hclose := lift_close hfl S A hδ (by omega) hm (by omega)
  rw [← hTd] at hT ⊢ hfT hclose
  rw [← hγ] at hθ hfT hclose ⊢
  have hμγ := le_size hn hT hfT
  have hγμ : 1 ≤ γ / μ := (one_le_div hμ).2 hμγ
  have hε1 : ε ≤ 1 := by nlinarith
  have hrows : liftRows n (√δ) ≤ n := by unfold liftRows; split_ifs <;> omega
  obtain ⟨Q', hQ', -, hQR⟩ := hfl.alg.qr (liftFl fl (fl.mul S A) δ) (by omega) (by omega)
  have hK := near_of_close hε hε1 hfT hclose hQR
  have h : min (d + liftRows n (√δ)) n = n := by omega
  obtain ⟨R, hR⟩ : ∃ R, R = castRows h (fl.qr (liftFl fl (fl.mul S A) δ)).2 := ⟨_, rfl⟩
  have hup : ∀ i j, j < i → R i j = 0 := fun i j hij => by
    rw [hR]; exact hfl.qr_upper _ _ _ hij
  have hform : ∀ v, (1 - 9 * ε * (γ / μ)) * sqNorm (T *ᵥ v) ≤ sqNorm (R *ᵥ v) ∧
      sqNorm (R *ᵥ v) ≤ (1 + 9 * ε * (γ / μ)) * sqNorm (T *ᵥ v) := fun v => by
    have hx := near_sq hμ (ρ := 3 * ε * (γ / μ)) (by positivity) (by nlinarith) hT
      (hK.trans_eq (by field_simp)) v
    rw [← mulVec_mulVec, sqNorm_orth_mulVec hQ'] at hx
    rw [hR, castRows_sq]
    rw [show 3 * (3 * ε * (γ / μ)) = 9 * ε * (γ / μ) by ring] at hx
    exact hx
  obtain ⟨h1, h2⟩ := tri_conds hup hμ hT hθ hform
  have hsol := solveUpperv_eq h1 (fl.mulv (topRows (castCols h (fl.qr (liftFl fl (fl.mul S A) δ)).1))ᵀ (fl.mulv S b))
  refine ⟨⟨.tri R, fl.mulv (topRows (castCols h (fl.qr (liftFl fl (fl.mul S A) δ)).1))ᵀ (fl.mulv S b),
    ((triu R)⁻¹ : Matrix (Fin n) (Fin n) ℝ) *ᵥ fl.mulv (topRows (castCols h (fl.qr (liftFl fl (fl.mul S A) δ)).1))ᵀ (fl.mulv S b)⟩, ?_, h1, rfl, rfl, h2⟩
  unfold spoQRFl
  simp only [dif_pos h]
  rw [← hR, hsol]

theorem gram_dot {p : ℕ} (X : Matrix (Fin p) (Fin n) ℝ) (v : Fin n → ℝ) : v ⬝ᵥ ((Xᵀ * X) *ᵥ v) = sqNorm (X *ᵥ v) := by
  rw [← mulVec_mulVec, dotProduct_mulVec, vecMul_transpose]; simp [sqNorm, dotProduct, sq]

theorem quad_le (X : Matrix (Fin n) (Fin n) ℝ) (v : Fin n → ℝ) : |v ⬝ᵥ (X *ᵥ v)| ≤ fro X * sqNorm v := by
  have h1 : |v ⬝ᵥ (X *ᵥ v)| ≤ norm2 v * norm2 (X *ᵥ v) := by
    rw [← Real.sqrt_sq (mul_nonneg (norm2_nonneg v) (norm2_nonneg (X *ᵥ v))), ← Real.sqrt_sq_eq_abs]
    refine Real.sqrt_le_sqrt ?_
    rw [mul_pow, norm2_sq, norm2_sq]; exact dot_sq_le _ _
  have h2 := mul_le_mul_of_nonneg_left (norm2_mulVec_fro X v) (norm2_nonneg v)
  rw [← norm2_sq]
  nlinarith

theorem fro_smul_one_le (hn : 0 < n) {δ : ℝ} (hδ : 0 ≤ δ) : fro (δ • (1 : Matrix (Fin n) (Fin n) ℝ)) ≤ n * δ := by
  refine fro_le_of_sq (mul_nonneg (Nat.cast_nonneg _) hδ) ?_
  have h0 : froSq (δ • (1 : Matrix (Fin n) (Fin n) ℝ)) = n * δ ^ 2 := by
    unfold froSq
    have : ∀ i : Fin n, ∑ j, ((δ • (1 : Matrix (Fin n) (Fin n) ℝ)) i j) ^ 2 = δ ^ 2 := fun i => by
      rw [Finset.sum_eq_single i]
      · simp
      · intro j _ hj; simp [Matrix.one_apply_ne hj.symm]
      · simp
    rw [Finset.sum_congr rfl fun i _ => this i]
    simp
  rw [h0, mul_pow]
  have hn1 : (1 : ℝ) ≤ n := by exact_mod_cast hn
  have := mul_le_mul_of_nonneg_right hn1 (mul_nonneg (Nat.cast_nonneg n) (sq_nonneg δ))
  linarith [this]

/-- the computed Gram matrix of the sketch -/
theorem gram_close {fl : FlLS} {N : ℕ} {ε : ℝ} (hfl : fl.Accurate N ε) (hε : 0 ≤ ε) (hε1 : 15 * ε ≤ 1)
    (S : Matrix (Fin d) (Fin m) ℝ) (A : Matrix (Fin m) (Fin n) ℝ) {δ : ℝ} (hδ : 0 ≤ δ) (hn : 0 < n) (hm : m ≤ N) (hN : d + n ≤ N) :
    fro (fl.gram (fl.mul S A) δ - ((S * A)ᵀ * (S * A) + δ • (1 : Matrix (Fin n) (Fin n) ℝ))) ≤ 5 * ε * sketchSize S A δ ^ 2 ∧
      fro (fl.gram (fl.mul S A) δ) ≤ 4 * sketchSize S A δ ^ 2 := by
  obtain ⟨γ, hγ⟩ : ∃ γ, γ = sketchSize S A δ := ⟨_, rfl⟩
  rw [← hγ]
  obtain ⟨a, ha⟩ : ∃ a, a = fro S * fro A := ⟨_, rfl⟩
  have ha0 : 0 ≤ a := by rw [ha]; exact mul_nonneg (fro_nonneg _) (fro_nonneg _)
  obtain ⟨B, hB⟩ : ∃ B, B = fl.mul S A := ⟨_, rfl⟩
  rw [← hB]
  have hBc : fro (B - S * A) ≤ ε * a := by
    rw [hB, ha, ← mul_assoc]; exact hfl.alg.mul S A (by omega) hm (by omega)
  have hSA : fro (S * A) ≤ a := by rw [ha]; exact fro_mul_le _ _
  have hBn : fro B ≤ (1 + ε) * a := by have := fro_le_add B (S * A); linarith
  have hnd : 0 ≤ (n : ℝ) * δ := mul_nonneg (Nat.cast_nonneg _) hδ
  have hγsq : a ^ 2 + n * δ ≤ γ ^ 2 := by
    have hs : (√δ * √n) ^ 2 = n * δ := by
      rw [mul_pow, Real.sq_sqrt hδ, Real.sq_sqrt (Nat.cast_nonneg _), mul_comm]
    have : γ = a + √δ * √n := by rw [hγ, ha]; rfl
    rw [this, ← hs]
    nlinarith [mul_nonneg ha0 (mul_nonneg (Real.sqrt_nonneg δ) (Real.sqrt_nonneg (n : ℝ)))]
  obtain ⟨G0, hG0⟩ : ∃ G0, G0 = (S * A)ᵀ * (S * A) + δ • (1 : Matrix (Fin n) (Fin n) ℝ) := ⟨_, rfl⟩
  obtain ⟨G1, hG1⟩ : ∃ G1, G1 = Bᵀ * B + δ • (1 : Matrix (Fin n) (Fin n) ℝ) := ⟨_, rfl⟩
  obtain ⟨C, hC⟩ : ∃ C, C = fl.gram B δ := ⟨_, rfl⟩
  have hg := hfl.gram B δ hδ (by omega) (by omega)
  rw [← hG1, ← hC] at hg
  have hGG : G1 - G0 = (B - S * A)ᵀ * B + (S * A)ᵀ * (B - S * A) := by
    rw [hG1, hG0, transpose_sub, Matrix.sub_mul, Matrix.mul_sub]; abel
  have f1 := fro_mul_le (B - S * A)ᵀ B
  have f2 := fro_mul_le (S * A)ᵀ (B - S * A)
  have f3 := fro_mul_le Bᵀ B
  rw [fro_tr] at f1 f2 f3
  have f4 := fro_triangle ((B - S * A)ᵀ * B) ((S * A)ᵀ * (B - S * A))
  rw [← hGG] at f4
  have f5 := fro_triangle (Bᵀ * B) (δ • (1 : Matrix (Fin n) (Fin n) ℝ))
  rw [← hG1] at f5
  have f6 := fro_smul_one_le hn hδ
  have f7 := fro_sub_le C G1 G0
  have f8 := fro_le_add C G1
  rw [← hC, ← hG0]
  have hE : (1 + ε) ^ 2 ≤ 2 := by nlinarith
  have g1 : fro B ^ 2 ≤ 2 * a ^ 2 := by
    have h1 : fro B ^ 2 ≤ ((1 + ε) * a) ^ 2 := pow_le_pow_left₀ (fro_nonneg _) hBn 2
    have h2 := mul_le_mul_of_nonneg_right hE (sq_nonneg a)
    rw [mul_pow] at h1
    linarith
  have g2 : fro (B - S * A) * fro B ≤ ε * (1 + ε) * a ^ 2 := by
    refine (mul_le_mul hBc hBn (fro_nonneg _) (by positivity)).trans_eq ?_; ring
  have g3 : fro (S * A) * fro (B - S * A) ≤ ε * a ^ 2 := by
    refine (mul_le_mul hSA hBc (fro_nonneg _) ha0).trans_eq ?_; ring
  have p1 : 0 ≤ ε * a ^ 2 := by positivity
  have p2 : 0 ≤ ε * (n * δ) := by positivity
  have p3 := mul_le_mul_of_nonneg_left hγsq hε
  have p4 := mul_le_mul_of_nonneg_left g1 hε
  have p5 := mul_le_mul_of_nonneg_right hε1 p1
  have g0 : 0 ≤ γ ^ 2 := sq_nonneg γ
  have e1 : fro (G1 - G0) ≤ 3 * ε * γ ^ 2 := by nlinarith
  have e2 : fro (C - G1) ≤ 2 * ε * γ ^ 2 := by nlinarith
  have e3 : fro G1 ≤ 2 * γ ^ 2 := by nlinarith
  refine ⟨by linarith, ?_⟩
  have p6 := mul_le_mul_of_nonneg_right hε1 g0
  linarith

theorem spoCholFl_spec {fl : FlLS} {N : ℕ} {ε : ℝ} (hfl : fl.Accurate N ε) (hε : 0 ≤ ε) (S : Matrix (Fin d) (Fin m) ℝ)
    (A : Matrix (Fin m) (Fin n) ℝ) (b : Fin m → ℝ) {δ : ℝ} (hδ : 0 ≤ δ) (hn : 0 < n) (hm : m ≤ N) (hN : d + n ≤ N)
    {μ : ℝ} (hμ : 0 < μ) (hT : ∀ v, μ * norm2 v ≤ norm2 (aLift (S * A) (√δ) *ᵥ v))
    (hθ : 15 * ε * (sketchSize S A δ / μ) ^ 2 < 1) :
    ∃ f, spoCholFl fl S A b δ = .ok f ∧ FacOk (aLift (S * A) (√δ)) (15 * ε * (sketchSize S A δ / μ) ^ 2) f := by
  obtain ⟨T, hTd⟩ : ∃ T, T = aLift (S * A) (√δ) := ⟨_, rfl⟩
  obtain ⟨γ, hγ⟩ : ∃ γ, γ = sketchSize S A δ := ⟨_, rfl⟩
  have hfT := fro_lift_le S A δ
  have hTsq : ∀ v, sqNorm (T *ᵥ v) = v ⬝ᵥ (((S * A)ᵀ * (S * A) + δ • (1 : Matrix (Fin n) (Fin n) ℝ)) *ᵥ v) := fun v => by
    rw [hTd, sqNorm_aLift, Real.sq_sqrt hδ, add_mulVec, smul_mulVec, one_mulVec, dotProduct_add, dotProduct_smul, gram_dot]
    simp [sqNorm, dotProduct, sq]
  rw [← hTd] at hT ⊢ hfT
  have hμγ : μ ≤ sketchSize S A δ := le_size hn hT hfT
  have hε1 : 15 * ε ≤ 1 := by
    have h1 : 1 ≤ (sketchSize S A δ / μ) ^ 2 := one_le_pow₀ ((one_le_div hμ).2 hμγ)
    have := mul_le_mul_of_nonneg_left h1 (by positivity : 0 ≤ 15 * ε)
    linarith
  obtain ⟨e12, hCn⟩ := gram_close hfl hε hε1 S A hδ hn hm hN
  rw [← hγ] at hθ hfT ⊢ hμγ e12 hCn
  obtain ⟨G0, hG0⟩ : ∃ G0, G0 = (S * A)ᵀ * (S * A) + δ • (1 : Matrix (Fin n) (Fin n) ℝ) := ⟨_, rfl⟩
  obtain ⟨C, hC⟩ : ∃ C, C = fl.gram (fl.mul S A) δ := ⟨_, rfl⟩
  have hsym : Cᵀ = C := by rw [hC]; exact hfl.gram_symm _ _
  rw [← hG0, ← hC] at e12
  rw [← hC] at hCn
  rw [← hG0] at hTsq
  have hvT : ∀ v, sqNorm v ≤ sqNorm (T *ᵥ v) / μ ^ 2 := fun v => by
    rw [le_div_iff₀ (by positivity), ← norm2_sq, ← norm2_sq, ← mul_pow, mul_comm]
    exact pow_le_pow_left₀ (mul_nonneg hμ.le (norm2_nonneg _)) (hT v) 2
  have hnN : n ≤ N := by omega
  have hεC := mul_le_mul_of_nonneg_left hCn hε
  cases hch : fl.chol C with
  | error e =>
    exfalso
    obtain ⟨-, v, hv0, hv⟩ := hfl.chol_fail C e hsym hnN hch
    have h1 := quad_le (C - G0) v
    rw [sub_mulVec, dotProduct_sub] at h1
    have h2 := (abs_le.1 h1).1
    have h3 := hTsq v
    have hv1 : 0 < sqNorm v := lt_of_le_of_ne (sqNorm_nonneg _) (fun h => hv0 (sqNorm_eq_zero.1 h.symm))
    have p1 := mul_le_mul_of_nonneg_right e12 hv1.le
    have p2 := mul_le_mul_of_nonneg_right hεC hv1.le
    have h4 : sqNorm (T *ᵥ v) ≤ 9 * (ε * γ ^ 2 * sqNorm v) := by linarith
    have h5 := hvT v
    rw [le_div_iff₀ (by positivity)] at h5
    have h6 : 15 * ε * γ ^ 2 < μ ^ 2 := by
      rw [div_pow, ← mul_div_assoc, div_lt_one (by positivity)] at hθ
      exact hθ
    have p3 := mul_lt_mul_of_pos_right h6 hv1
    have p4 := mul_nonneg (mul_nonneg hε (sq_nonneg γ)) hv1.le
    linarith
  | ok R =>
    obtain ⟨hup, hpos, hRR⟩ := hfl.chol C R hsym hnN hch
    have hall : fro (Rᵀ * R - G0) ≤ 15 * ε * γ ^ 2 := by
      have := fro_sub_le (Rᵀ * R) C G0
      have := mul_nonneg hε (sq_nonneg γ)
      linarith
    have hform : ∀ v, (1 - 15 * ε * (γ / μ) ^ 2) * sqNorm (T *ᵥ v) ≤ sqNorm (R *ᵥ v) ∧
        sqNorm (R *ᵥ v) ≤ (1 + 15 * ε * (γ / μ) ^ 2) * sqNorm (T *ᵥ v) := fun v => by
      have h1 := quad_le (Rᵀ * R - G0) v
      rw [sub_mulVec, dotProduct_sub, ← hTsq, gram_dot] at h1
      have h5 : fro (Rᵀ * R - G0) * sqNorm v ≤ 15 * ε * (γ / μ) ^ 2 * sqNorm (T *ᵥ v) := by
        have p := mul_le_mul hall (hvT v) (sqNorm_nonneg _) (by positivity)
        refine p.trans_eq ?_
        field_simp
      obtain ⟨h6, h7⟩ := abs_le.1 (h1.trans h5)
      constructor <;> linarith
    obtain ⟨h1, h2⟩ := tri_conds hup hμ hT hθ hform
    obtain ⟨z, hz⟩ : ∃ z, solveUpperTv R (fl.mulv (fl.mul S A)ᵀ (fl.mulv S b)) = .ok z := ⟨_, by
      unfold solveUpperTv; rw [if_neg]; rintro ⟨i, hi⟩; exact h1 i hi⟩
    have hsol := solveUpperv_eq h1 z
    refine ⟨⟨.tri R, z, ((triu R)⁻¹ : Matrix (Fin n) (Fin n) ℝ) *ᵥ z⟩, ?_, h1, rfl, rfl, h2⟩
    unfold spoCholFl
    simp only
    rw [← hC, hch]
    simp only
    rw [hz]
    simp only
    rw [hsol]

end Parla.Proof
