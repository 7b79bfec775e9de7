import Verif.Proof.RoundingFac

/-! # The SVD preconditioner with rounding errors (C82) -/

namespace Parla.Proof

open Matrix Parla Spec Parla.Props

variable {m n d p : ℕ}

/-- the singular values of a matrix near `T` -/
theorem sigma_near {T : Matrix (Fin p) (Fin n) ℝ} {U : Matrix (Fin p) (Fin n) ℝ} {s : Fin n → ℝ} {V : Matrix (Fin n) (Fin n) ℝ}
    (hU : OrthoCols U) (hV : OrthoRows V) (hs : ∀ i, 0 ≤ s i) {μ γ η : ℝ} (hT : ∀ v, μ * norm2 v ≤ norm2 (T *ᵥ v))
    (hγ : fro T ≤ γ) (hK : fro (U * diagonal s * V - T) ≤ η) (i : Fin n) : μ - η ≤ s i ∧ s i ≤ γ + η := by
  have hVV : Vᵀ * V = 1 := by
    have : V * Vᵀ = 1 := hV
    exact mul_eq_one_comm.1 this
  obtain ⟨e, he⟩ : ∃ e : Fin n → ℝ, e = Pi.single i 1 := ⟨_, rfl⟩
  obtain ⟨v, hv⟩ : ∃ v, v = Vᵀ *ᵥ e := ⟨_, rfl⟩
  have he1 : sqNorm e = 1 := by
    rw [he]; unfold sqNorm
    rw [Finset.sum_eq_single i]
    · simp
    · intro b _ hb; simp [Pi.single_eq_of_ne hb]
    · simp
  have hv1 : norm2 v = 1 := by
    have h0 : sqNorm v = 1 := by
      rw [hv, sqNorm_orth_mulVec (by rw [transpose_transpose]; exact hV), he1]
    rw [norm2, h0, Real.sqrt_one]
  have hKv : norm2 ((U * diagonal s * V) *ᵥ v) = s i := by
    rw [hv, mulVec_mulVec, Matrix.mul_assoc, show V * Vᵀ = 1 from hV, Matrix.mul_one, ← mulVec_mulVec]
    have : diagonal s *ᵥ e = s i • e := by
      rw [he]; ext j
      rw [mulVec_diagonal]
      by_cases hj : j = i
      · subst hj; simp
      · simp [Pi.single_eq_of_ne hj]
    have h2 : norm2 (U *ᵥ (s i • e)) = norm2 (s i • e) := by unfold norm2; rw [sqNorm_orth_mulVec hU]
    rw [this, h2, norm2_smul, abs_of_nonneg (hs i), norm2, he1, Real.sqrt_one, mul_one]
  have h3 : norm2 ((U * diagonal s * V) *ᵥ v - T *ᵥ v) ≤ η := by
    rw [← sub_mulVec]
    refine (norm2_mulVec_fro _ _).trans ?_
    rw [hv1, mul_one]; exact hK
  obtain ⟨h4, h5⟩ := norm2_abs_le h3
  rw [hKv] at h4 h5
  have h6 := hT v
  have h7 := norm2_mulVec_fro T v
  rw [hv1, mul_one] at h6 h7
  constructor <;> linarith

theorem svd_conds {T : Matrix (Fin p) (Fin n) ℝ} {U : Matrix (Fin p) (Fin n) ℝ} {s : Fin n → ℝ} {V Vc M : Matrix (Fin n) (Fin n) ℝ}
    (hU : OrthoCols U) (hV : OrthoRows V) (hn : 0 < n) {μ γ ε : ℝ} (hε : 0 ≤ ε) (hμ : 0 < μ) (hγ : μ ≤ γ)
    (hθ : 96 * ε * √n * (γ / μ) < 1) (hK : fro (U * diagonal s * V - T) ≤ 3 * ε * γ) (hVc : fro (Vc - V) ≤ ε)
    (hlo : ∀ i, μ / 2 ≤ s i) (hhi : ∀ i, s i ≤ 2 * γ)
    (hM : ∀ i j, |M i j - Vc j i / s j| ≤ ε * |Vc j i / s j|) : Conds T M (96 * ε * √n * (γ / μ)) := by
  have hsn : 1 ≤ √(n : ℝ) := Real.one_le_sqrt.2 (by exact_mod_cast hn)
  have hγμ : 1 ≤ γ / μ := (one_le_div hμ).2 hγ
  have hspos : ∀ i, 0 < s i := fun i => lt_of_lt_of_le (by linarith) (hlo i)
  have hεn : 96 * (ε * √n) ≤ 1 := by
    have := mul_le_mul_of_nonneg_left hγμ (by positivity : 0 ≤ 96 * ε * √n)
    linarith
  have hε1 : 96 * ε ≤ 1 := by
    have := mul_le_mul_of_nonneg_left hsn hε
    linarith
  -- the computed right factor
  obtain ⟨W, hW⟩ : ∃ W : Matrix (Fin n) (Fin n) ℝ, W = Matrix.of fun j i => M i j * s j := ⟨_, rfl⟩
  have hWc : fro (W - Vc) ≤ ε * fro Vc := by
    refine fro_le_of_sq (mul_nonneg hε (fro_nonneg _)) ?_
    rw [mul_pow, fro_sq]
    unfold froSq
    rw [Finset.mul_sum]
    refine Finset.sum_le_sum fun j _ => ?_
    rw [Finset.mul_sum]
    refine Finset.sum_le_sum fun i _ => ?_
    have h1 : (W - Vc) j i = (M i j - Vc j i / s j) * s j := by
      rw [hW]; simp only [Matrix.sub_apply, Matrix.of_apply]; rw [sub_mul, div_mul_cancel₀ _ (hspos j).ne']
    have h2 : |(W - Vc) j i| ≤ ε * |Vc j i| := by
      rw [h1, abs_mul, abs_of_pos (hspos j)]
      refine (mul_le_mul_of_nonneg_right (hM i j) (hspos j).le).trans_eq ?_
      rw [abs_div, abs_of_pos (hspos j), mul_assoc, div_mul_cancel₀ _ (hspos j).ne']
    calc (W - Vc) j i ^ 2 = |(W - Vc) j i| ^ 2 := (sq_abs _).symm
      _ ≤ (ε * |Vc j i|) ^ 2 := pow_le_pow_left₀ (abs_nonneg _) h2 2
      _ = _ := by rw [mul_pow, sq_abs]
  have hVn : fro V = √n := by
    rw [← fro_tr]; exact fro_orth (show Vᵀᵀ * Vᵀ = 1 by rw [transpose_transpose]; exact hV)
  have hVcn : fro Vc ≤ 2 * √n := by
    have := fro_le_add Vc V
    rw [hVn] at this
    linarith
  obtain ⟨X, hX⟩ : ∃ X, X = W - V := ⟨_, rfl⟩
  have hXn : fro X ≤ 3 * ε * √n := by
    rw [hX]
    have h1 := fro_sub_le W Vc V
    have h2 := mul_le_mul_of_nonneg_left hVcn hε
    have h3 := mul_le_mul_of_nonneg_left hsn hε
    linarith
  intro z
  obtain ⟨y, hy⟩ : ∃ y : Fin n → ℝ, y = fun j => z j / s j := ⟨_, rfl⟩
  have hyz : diagonal s *ᵥ y = z := by
    ext j; rw [mulVec_diagonal, hy]; exact mul_div_cancel₀ _ (hspos j).ne'
  have hyn : norm2 y ≤ 2 / μ * norm2 z := by
    refine Real.sqrt_le_iff.2 ⟨mul_nonneg (by positivity) (norm2_nonneg _), ?_⟩
    rw [mul_pow, norm2_sq]
    unfold sqNorm
    rw [Finset.mul_sum]
    refine Finset.sum_le_sum fun j _ => ?_
    rw [hy]
    change (z j / s j) ^ 2 ≤ _
    rw [div_pow, div_eq_mul_inv, mul_comm]
    refine mul_le_mul_of_nonneg_right ?_ (sq_nonneg _)
    rw [← inv_pow]
    refine pow_le_pow_left₀ (inv_nonneg.2 (hspos j).le) ?_ 2
    rw [inv_le_comm₀ (hspos j) (by positivity), inv_div]
    exact hlo j
  have hMz : M *ᵥ z = Wᵀ *ᵥ y := by
    ext i
    rw [hW, hy]
    simp only [mulVec, dotProduct, transpose_apply, Matrix.of_apply]
    refine Finset.sum_congr rfl fun j _ => ?_
    have := (hspos j).ne'
    field_simp
  have hWV : W = V + X := by rw [hX]; abel
  have hz0 := norm2_nonneg z
  -- the size of `M z`
  have hMn : norm2 (M *ᵥ z) ≤ 4 / μ * norm2 z := by
    rw [hMz, hWV, transpose_add, add_mulVec]
    refine (norm2_add_le' _ _).trans ?_
    have h1 : norm2 (Vᵀ *ᵥ y) = norm2 y := by
      unfold norm2; rw [sqNorm_orth_mulVec (by rw [transpose_transpose]; exact hV)]
    have h2 := norm2_mulVec_fro Xᵀ y
    rw [fro_tr] at h2
    have h3 : fro X * norm2 y ≤ 1 * norm2 y := mul_le_mul_of_nonneg_right (by linarith) (norm2_nonneg _)
    rw [h1]
    have : 2 / μ * norm2 z + 2 / μ * norm2 z = 4 / μ * norm2 z := by ring
    linarith
  -- `K M z = U (z + Σ V X' y)`
  have hKM : (U * diagonal s * V) *ᵥ (M *ᵥ z) = U *ᵥ (z + diagonal s *ᵥ (V *ᵥ (Xᵀ *ᵥ y))) := by
    rw [hMz, hWV, transpose_add, add_mulVec, mulVec_add, ← mulVec_mulVec, ← mulVec_mulVec, mulVec_mulVec _ V,
      show V * Vᵀ = 1 from hV, one_mulVec, ← mulVec_mulVec, hyz, mulVec_add, mulVec_mulVec _ U (diagonal s)]
  have hVX : norm2 (diagonal s *ᵥ (V *ᵥ (Xᵀ *ᵥ y))) ≤ 12 * (ε * √n * (γ / μ)) * norm2 z := by
    have h1 : ∀ u : Fin n → ℝ, norm2 (diagonal s *ᵥ u) ≤ 2 * γ * norm2 u := fun u => by
      refine Real.sqrt_le_iff.2 ⟨mul_nonneg (by linarith) (norm2_nonneg _), ?_⟩
      rw [mul_pow, norm2_sq]
      unfold sqNorm
      rw [Finset.mul_sum]
      refine Finset.sum_le_sum fun j _ => ?_
      rw [mulVec_diagonal, mul_pow]
      exact mul_le_mul_of_nonneg_right (pow_le_pow_left₀ (hspos j).le (hhi j) 2) (sq_nonneg _)
    have hVV : OrthoCols V := by
      have : V * Vᵀ = 1 := hV
      exact mul_eq_one_comm.1 this
    have h2 : norm2 (V *ᵥ (Xᵀ *ᵥ y)) = norm2 (Xᵀ *ᵥ y) := by unfold norm2; rw [sqNorm_orth_mulVec hVV]
    have h3 := norm2_mulVec_fro Xᵀ y
    rw [fro_tr] at h3
    have h4 : fro X * norm2 y ≤ (3 * ε * √n) * (2 / μ * norm2 z) := mul_le_mul hXn hyn (norm2_nonneg _) (by positivity)
    have h5 := h1 (V *ᵥ (Xᵀ *ᵥ y))
    rw [h2] at h5
    have h6 := mul_le_mul_of_nonneg_left (h3.trans h4) (by linarith : 0 ≤ 2 * γ)
    refine (h5.trans h6).trans_eq ?_
    field_simp
    ring
  have hTM : norm2 (T *ᵥ (M *ᵥ z) - U *ᵥ z) ≤ 24 * (ε * √n * (γ / μ)) * norm2 z := by
    have e : T *ᵥ (M *ᵥ z) - U *ᵥ z =
        (T - U * diagonal s * V) *ᵥ (M *ᵥ z) + U *ᵥ (diagonal s *ᵥ (V *ᵥ (Xᵀ *ᵥ y))) := by
      rw [sub_mulVec, hKM, mulVec_add]; abel
    rw [e]
    refine (norm2_add_le' _ _).trans ?_
    have h1 := norm2_mulVec_fro (T - U * diagonal s * V) (M *ᵥ z)
    rw [fro_sub_comm T (U * diagonal s * V)] at h1
    have h2 : fro (U * diagonal s * V - T) * norm2 (M *ᵥ z) ≤ 3 * ε * γ * (4 / μ * norm2 z) :=
      mul_le_mul hK hMn (norm2_nonneg _) (by have := hμ.le.trans hγ; positivity)
    have h3 : 3 * ε * γ * (4 / μ * norm2 z) = 12 * (ε * 1 * (γ / μ)) * norm2 z := by field_simp; ring
    have h4 : ε * 1 * (γ / μ) ≤ ε * √n * (γ / μ) :=
      mul_le_mul_of_nonneg_right (mul_le_mul_of_nonneg_left hsn hε) (by linarith)
    have h5 : norm2 (U *ᵥ (diagonal s *ᵥ (V *ᵥ (Xᵀ *ᵥ y)))) = norm2 (diagonal s *ᵥ (V *ᵥ (Xᵀ *ᵥ y))) := by
      unfold norm2; rw [sqNorm_orth_mulVec hU]
    have h6 := mul_le_mul_of_nonneg_right h4 hz0
    rw [h5]
    linarith
  obtain ⟨τ, hτ⟩ : ∃ τ, τ = 24 * (ε * √n * (γ / μ)) := ⟨_, rfl⟩
  have hτ0 : 0 ≤ τ := by rw [hτ]; have : 0 ≤ γ / μ := by linarith
                         positivity
  have hθτ : 96 * ε * √n * (γ / μ) = 4 * τ := by rw [hτ]; ring
  rw [hθτ] at hθ ⊢
  rw [← hτ] at hTM
  obtain ⟨h1, h2⟩ := norm2_abs_le hTM
  have h3 : norm2 (U *ᵥ z) = norm2 z := by unfold norm2; rw [sqNorm_orth_mulVec hU]
  rw [h3] at h1 h2
  obtain ⟨t, ht⟩ : ∃ t, t = norm2 (T *ᵥ (M *ᵥ z)) := ⟨_, rfl⟩
  rw [← norm2_sq, ← norm2_sq, ← ht]
  rw [← ht] at h1 h2
  have ht0 : 0 ≤ t := by rw [ht]; exact norm2_nonneg _
  have q1 : t ^ 2 ≤ ((1 + τ) * norm2 z) ^ 2 := pow_le_pow_left₀ ht0 (by linarith) 2
  have q2 : ((1 - τ) * norm2 z) ^ 2 ≤ t ^ 2 := pow_le_pow_left₀ (mul_nonneg (by linarith) hz0) (by linarith) 2
  rw [mul_pow] at q1 q2
  have z2 := sq_nonneg (norm2 z)
  constructor
  · have c1 : (1 - 4 * τ) * (1 + τ) ^ 2 ≤ 1 := by nlinarith [mul_nonneg hτ0 hτ0, mul_nonneg hτ0 (mul_nonneg hτ0 hτ0)]
    calc (1 - 4 * τ) * t ^ 2 ≤ (1 - 4 * τ) * ((1 + τ) ^ 2 * norm2 z ^ 2) := mul_le_mul_of_nonneg_left q1 (by linarith)
      _ = ((1 - 4 * τ) * (1 + τ) ^ 2) * norm2 z ^ 2 := by ring
      _ ≤ 1 * norm2 z ^ 2 := mul_le_mul_of_nonneg_right c1 z2
      _ = _ := one_mul _
  · have c2 : 1 ≤ (1 + 4 * τ) * (1 - τ) ^ 2 := by
      have : (1 + 4 * τ) * (1 - τ) ^ 2 - 1 = τ * (2 - 7 * τ + 4 * τ ^ 2) := by ring
      have h7 : 0 ≤ 2 - 7 * τ + 4 * τ ^ 2 := by nlinarith [sq_nonneg τ]
      nlinarith [mul_nonneg hτ0 h7]
    calc norm2 z ^ 2 = 1 * norm2 z ^ 2 := (one_mul _).symm
      _ ≤ ((1 + 4 * τ) * (1 - τ) ^ 2) * norm2 z ^ 2 := mul_le_mul_of_nonneg_right c2 z2
      _ = (1 + 4 * τ) * ((1 - τ) ^ 2 * norm2 z ^ 2) := by ring
      _ ≤ _ := mul_le_mul_of_nonneg_left q2 (by linarith)

theorem conds_cast {T : Matrix (Fin p) (Fin n) ℝ} {k k' : ℕ} (h : k = k') (M : Matrix (Fin n) (Fin k) ℝ) {θ : ℝ}
    (hM : Conds T (M.submatrix id (Fin.cast h.symm)) θ) : Conds T M θ := by subst h; exact hM

theorem sigma_near' {q : ℕ} (hq : q = n) {T : Matrix (Fin p) (Fin n) ℝ} {U : Matrix (Fin p) (Fin q) ℝ} {s : Fin q → ℝ}
    {V : Matrix (Fin q) (Fin n) ℝ}
    (hU : OrthoCols U) (hV : OrthoRows V) (hs : ∀ i, 0 ≤ s i) {μ γ η : ℝ} (hT : ∀ v, μ * norm2 v ≤ norm2 (T *ᵥ v))
    (hγ : fro T ≤ γ) (hK : fro (U * diagonal s * V - T) ≤ η) (i : Fin q) : μ - η ≤ s i ∧ s i ≤ γ + η := by
  subst hq; exact sigma_near hU hV hs hT hγ hK i

theorem svd_conds' {q r : ℕ} (hq : q = n) (hr : r = q) {T : Matrix (Fin p) (Fin n) ℝ} {U : Matrix (Fin p) (Fin q) ℝ}
    {s : Fin q → ℝ} {V Vc : Matrix (Fin q) (Fin n) ℝ} {M : Matrix (Fin n) (Fin (min r q)) ℝ}
    (hU : OrthoCols U) (hV : OrthoRows V) (hn : 0 < n) {μ γ ε : ℝ} (hε : 0 ≤ ε) (hμ : 0 < μ) (hγ : μ ≤ γ)
    (hθ : 96 * ε * √n * (γ / μ) < 1) (hK : fro (U * diagonal s * V - T) ≤ 3 * ε * γ) (hVc : fro (Vc - V) ≤ ε)
    (hlo : ∀ i, μ / 2 ≤ s i) (hhi : ∀ i, s i ≤ 2 * γ)
    (hM : ∀ i j, |M i j - takeRows r Vc j i / takev r s j| ≤ ε * |takeRows r Vc j i / takev r s j|) :
    Conds T M (96 * ε * √n * (γ / μ)) := by
  subst hr; subst hq
  refine conds_cast (min_self _) M (svd_conds hU hV hn hε hμ hγ hθ hK hVc hlo hhi fun i j => ?_)
  exact hM i (Fin.cast (min_self _).symm j)

/-- the cutoff of `svd_right_precond` keeps every singular value -/
theorem rank_full {q : ℕ} {s : Fin q → ℝ} {c : ℝ} (h : ∀ i, c < s i) : (Finset.univ.filter fun i => s i > c).card = q := by
  rw [Finset.filter_true_of_mem fun i _ => h i, Finset.card_univ, Fintype.card_fin]

theorem smul_le {fl : FlLS} {N : ℕ} {ε : ℝ} (hfl : fl.Accurate N ε) {x y : ℝ} (h : 0 ≤ x * y) : fl.smul x y ≤ (1 + ε) * (x * y) := by
  have := (abs_le.1 (hfl.alg.smul x y)).2
  rw [abs_of_nonneg h] at this
  linarith

theorem cutoff_lt {fl : FlLS} {N : ℕ} {ε : ℝ} (hfl : fl.Accurate N ε) (hε : 0 ≤ ε) (hε1 : 96 * ε ≤ 1) {x γ μ : ℝ} (n : ℕ)
    (hx : 0 ≤ x) (hxγ : x ≤ 2 * γ) (hμ : 0 < μ) (hcut : 16 * n * eps * γ ≤ μ) : fl.smul (fl.smul x n) eps < μ / 2 := by
  have he : 0 < eps := by unfold eps; positivity
  have h1 := smul_le hfl (mul_nonneg hx (Nat.cast_nonneg n : (0 : ℝ) ≤ n))
  have h0 : 0 ≤ fl.smul x n := by
    have := (abs_le.1 (hfl.alg.smul x n)).1
    rw [abs_of_nonneg (mul_nonneg hx (Nat.cast_nonneg n))] at this
    have : 0 ≤ (1 - ε) * (x * n) := mul_nonneg (by linarith) (mul_nonneg hx (Nat.cast_nonneg n))
    linarith
  have h2 := smul_le hfl (mul_nonneg h0 he.le)
  have h3 : x * n ≤ 2 * γ * n := mul_le_mul_of_nonneg_right hxγ (Nat.cast_nonneg n)
  have h4 : fl.smul x n ≤ 3 / 2 * (2 * γ * n) := by
    have hg : 0 ≤ x * n := mul_nonneg hx (Nat.cast_nonneg n)
    have : (1 + ε) * (x * n) ≤ 3 / 2 * (x * n) := mul_le_mul_of_nonneg_right (by linarith) hg
    linarith
  have h5 : fl.smul x n * eps ≤ 3 * (γ * n * eps) := by
    have := mul_le_mul_of_nonneg_right h4 he.le
    linarith
  have h6 : (1 + ε) * (fl.smul x n * eps) ≤ 3 / 2 * (fl.smul x n * eps) :=
    mul_le_mul_of_nonneg_right (by linarith) (mul_nonneg h0 he.le)
  linarith

theorem svdPrecFl_spec {fl : FlLS} {N : ℕ} {ε : ℝ} (hfl : fl.Accurate N ε) (hε : 0 ≤ ε) {T That : Matrix (Fin p) (Fin n) ℝ}
    (hn : 0 < n) (hp : n ≤ p) (hN : p ≤ N) {μ γ : ℝ} (hμ : 0 < μ) (hT : ∀ v, μ * norm2 v ≤ norm2 (T *ᵥ v))
    (hfT : fro T ≤ γ) (hclose : fro (That - T) ≤ ε * γ)
    (hθ : 96 * ε * √n * (γ / μ) < 1) (hcut : 16 * n * eps * γ ≤ μ) :
    ∃ o, svdRightPrecondFl fl That = .ok o ∧ o.r = n ∧ Conds T o.M (96 * ε * √n * (γ / μ)) := by
  have hμγ := le_size hn hT hfT
  have hγμ : 1 ≤ γ / μ := (one_le_div hμ).2 hμγ
  have hsn : 1 ≤ √(n : ℝ) := Real.one_le_sqrt.2 (by exact_mod_cast hn)
  have hεg : 96 * ε * (γ / μ) ≤ 1 := by
    have := mul_le_mul_of_nonneg_left hsn (by positivity : 0 ≤ 96 * ε * (γ / μ))
    linarith
  have hε1 : 96 * ε ≤ 1 := by
    have := mul_le_mul_of_nonneg_left hγμ (by positivity : 0 ≤ 96 * ε)
    linarith
  have hη : 3 * ε * γ ≤ μ / 2 := by
    have : 96 * ε * γ ≤ μ := by rwa [← mul_div_assoc, div_le_one hμ] at hεg
    linarith
  have hq : min p n = n := by omega
  have h0 : 0 < min p n := by omega
  obtain ⟨U, V, hU, hV, -, hVc, hUV⟩ := hfl.alg.svd That (by omega) (by omega)
  have hK := near_of_close hε (by linarith) hfT hclose hUV
  have hs := hfl.alg.svd_nonneg That
  have hsig := sigma_near' hq hU hV hs hT hfT hK
  have hlo : ∀ i, μ / 2 ≤ (fl.svd That).2.1 i := fun i => by have := (hsig i).1; linarith
  have hhi : ∀ i, (fl.svd That).2.1 i ≤ 2 * γ := fun i => by have := (hsig i).2; linarith
  have hc := cutoff_lt hfl hε hε1 n (hs ⟨0, h0⟩) (hhi ⟨0, h0⟩) hμ hcut
  have hr := rank_full (s := (fl.svd That).2.1) (c := fl.smul (fl.smul ((fl.svd That).2.1 ⟨0, h0⟩) n) eps) fun i =>
    hc.trans_le (hlo i)
  refine ⟨_, dif_pos h0, ?_, svd_conds' hq hr hU hV hn hε hμ hμγ hθ hK hVc hlo hhi fun i j => ?_⟩
  · change min _ _ = n
    rw [hr]; omega
  · exact hfl.divCols _ _ i j

theorem spoSVDFl_spec {fl : FlLS} {N : ℕ} {ε : ℝ} (hfl : fl.Accurate N ε) (hε : 0 ≤ ε) (S : Matrix (Fin d) (Fin m) ℝ)
    (A : Matrix (Fin m) (Fin n) ℝ) (b : Fin m → ℝ) {δ : ℝ} (hδ : 0 ≤ δ) (hn : 0 < n) (hd : n ≤ d) (hm : m ≤ N) (hN : d + n ≤ N)
    {μ : ℝ} (hμ : 0 < μ) (hT : ∀ v, μ * norm2 v ≤ norm2 (aLift (S * A) (√δ) *ᵥ v))
    (hθ : 96 * ε * √n * (sketchSize S A δ / μ) < 1) (hcut : 16 * n * eps * sketchSize S A δ ≤ μ) :
    ∃ f, spoSVDFl fl S A b δ = .ok f ∧ FacOk (aLift (S * A) (√δ)) (96 * ε * √n * (sketchSize S A δ / μ)) f := by
  have hrows : liftRows n (√δ) ≤ n := by unfold liftRows; split_ifs <;> omega
  obtain ⟨o, ho, hr, hM⟩ := svdPrecFl_spec hfl hε hn (by omega) (by omega) hμ hT (fro_lift_le S A δ)
    (lift_close hfl S A hδ (by omega) hm (by omega)) hθ hcut
  refine ⟨⟨.gen o.r o.M, fl.mulv (topRows o.U)ᵀ (fl.mulv S b), o.M *ᵥ fl.mulv (topRows o.U)ᵀ (fl.mulv S b)⟩, ?_,
    trivial, hr, rfl, hM⟩
  unfold spoSVDFl
  simp only
  rw [ho]

end Parla.Proof
