import Verif.SpecPairs
import Verif.Proof.LowRank
import Verif.Proof.RoundingLS

/-! # Comparing singular values and eigenvalues one by one -/

namespace Parla.Proof

open Matrix Parla Spec

variable {m n p r i : ℕ}

/-- Bessel's inequality -/
theorem bessel {V : Matrix (Fin n) (Fin r) ℝ} (hV : Vᵀ * V = 1) (x : Fin n → ℝ) : sqNorm (Vᵀ *ᵥ x) ≤ sqNorm x := by
  have h := sqNorm_nonneg (x - V *ᵥ (Vᵀ *ᵥ x))
  rw [sqNorm_sub, sqNorm_orth_mulVec hV, dotProduct_mulVec, ← mulVec_transpose, ← sqNorm_eq_dot] at h
  linarith

/-- In the span of `i + 1` vectors there is one orthogonal to any `i` given vectors. -/
theorem exists_test (V : Matrix (Fin n) (Fin r) ℝ) (W : Matrix (Fin n) (Fin (i + 1)) ℝ) :
    ∃ d : Fin (i + 1) → ℝ, d ≠ 0 ∧ ∀ j : Fin r, j.1 < i → (Vᵀ *ᵥ (W *ᵥ d)) j = 0 := by
  let M : Matrix (Fin i) (Fin (i + 1)) ℝ := Matrix.of fun j l => if h : j.1 < r then (Vᵀ * W) ⟨j.1, h⟩ l else 0
  have hk : LinearMap.ker M.mulVecLin ≠ ⊥ := LinearMap.ker_ne_bot_of_finrank_lt (by simp)
  obtain ⟨d, hd, h0⟩ := Submodule.exists_mem_ne_zero_of_ne_bot hk
  refine ⟨d, h0, fun j hj => ?_⟩
  have h1 : M *ᵥ d = 0 := hd
  have h2 := congrFun h1 ⟨j.1, hj⟩
  rw [mulVec_mulVec]
  rw [Pi.zero_apply] at h2
  rw [← h2]
  show (∑ l, (Vᵀ * W) j l * d l) = ∑ l, M ⟨j.1, hj⟩ l * d l
  refine Finset.sum_congr rfl fun l _ => ?_
  simp [M]

theorem nth_of_lt {s : Fin r → ℝ} (h : i < r) : nth s i = s ⟨i, h⟩ := dif_pos h
theorem nth_of_le {s : Fin r → ℝ} (h : r ≤ i) : nth s i = 0 := dif_neg (not_lt.2 h)

theorem svd_mulVec {A : Matrix (Fin m) (Fin n) ℝ} {U : Matrix (Fin m) (Fin r) ℝ} {s : Fin r → ℝ}
    {V : Matrix (Fin n) (Fin r) ℝ} (h : IsSVD A U s V) (x : Fin n → ℝ) :
    sqNorm (A *ᵥ x) = ∑ j, s j ^ 2 * (Vᵀ *ᵥ x) j ^ 2 := by
  rw [h.eq, ← mulVec_mulVec, ← mulVec_mulVec, sqNorm_orth_mulVec h.left]
  unfold sqNorm
  refine Finset.sum_congr rfl fun j _ => ?_
  rw [mulVec_diagonal, mul_pow]

theorem svd_upper {A : Matrix (Fin m) (Fin n) ℝ} {U : Matrix (Fin m) (Fin r) ℝ} {s : Fin r → ℝ}
    {V : Matrix (Fin n) (Fin r) ℝ} (h : IsSVD A U s V) {x : Fin n → ℝ} (hx : ∀ j : Fin r, j.1 < i → (Vᵀ *ᵥ x) j = 0) :
    sqNorm (A *ᵥ x) ≤ nth s i ^ 2 * sqNorm x := by
  rw [svd_mulVec h]
  have h1 : ∑ j, s j ^ 2 * (Vᵀ *ᵥ x) j ^ 2 ≤ ∑ j, nth s i ^ 2 * (Vᵀ *ᵥ x) j ^ 2 := by
    refine Finset.sum_le_sum fun j _ => ?_
    by_cases hj : j.1 < i
    · rw [hx j hj]; simp
    · have hir : i < r := lt_of_le_of_lt (not_lt.1 hj) j.2
      rw [nth_of_lt hir]
      have h2 : s j ≤ s ⟨i, hir⟩ := h.anti (show (⟨i, hir⟩ : Fin r) ≤ j from not_lt.1 hj)
      exact mul_le_mul_of_nonneg_right (pow_le_pow_left₀ (h.nonneg j) h2 2) (sq_nonneg _)
  refine h1.trans ?_
  rw [← Finset.mul_sum]
  exact mul_le_mul_of_nonneg_left (bessel h.right x) (sq_nonneg _)

theorem diag_lower (t : Fin (i + 1) → ℝ) {l : ℝ} (hl : 0 ≤ l) (ht : ∀ j, l ≤ |t j|) (d : Fin (i + 1) → ℝ) :
    l ^ 2 * sqNorm d ≤ sqNorm (diagonal t *ᵥ d) := by
  unfold sqNorm
  rw [Finset.mul_sum]
  refine Finset.sum_le_sum fun j _ => ?_
  rw [mulVec_diagonal, mul_pow, ← sq_abs (t j)]
  exact mul_le_mul_of_nonneg_right (pow_le_pow_left₀ hl (ht j) 2) (sq_nonneg _)

/-- If `X` stretches the columns of an orthonormal `W` (with `i + 1` columns) as a diagonal matrix with entries of
magnitude at least `l` would, then some vector shows that the `i`-th singular value of `A` is not exceeded unless
`X` exceeds `A`. -/
theorem exists_witness {A : Matrix (Fin m) (Fin n) ℝ} {U : Matrix (Fin m) (Fin r) ℝ} {s : Fin r → ℝ}
    {V : Matrix (Fin n) (Fin r) ℝ} (h : IsSVD A U s V) {W : Matrix (Fin n) (Fin (i + 1)) ℝ} (hW : Wᵀ * W = 1)
    {X : Matrix (Fin p) (Fin n) ℝ} {Z : Matrix (Fin p) (Fin (i + 1)) ℝ} (hZ : Zᵀ * Z = 1) {t : Fin (i + 1) → ℝ}
    (hX : X * W = Z * diagonal t) {l : ℝ} (hl : 0 ≤ l) (ht : ∀ j, l ≤ |t j|) :
    ∃ x, x ≠ 0 ∧ l ^ 2 * sqNorm x ≤ sqNorm (X *ᵥ x) ∧ sqNorm (A *ᵥ x) ≤ nth s i ^ 2 * sqNorm x := by
  obtain ⟨d, hd, ho⟩ := exists_test V W
  have hn := sqNorm_orth_mulVec hW d
  refine ⟨W *ᵥ d, fun h0 => hd ?_, ?_, svd_upper h ho⟩
  · rw [h0] at hn
    exact sqNorm_eq_zero.1 (by rw [← hn]; exact sqNorm_eq_zero.2 rfl)
  · rw [hn, mulVec_mulVec, hX, ← mulVec_mulVec, sqNorm_orth_mulVec hZ]
    exact diag_lower t hl ht d

theorem firstCols {U : Matrix (Fin m) (Fin r) ℝ} (hU : Uᵀ * U = 1) (hi : i < r) :
    (U.submatrix id (Fin.castLE (Nat.succ_le_of_lt hi)))ᵀ * U.submatrix id (Fin.castLE (Nat.succ_le_of_lt hi)) = 1 :=
  orth_submatrix hU (Fin.castLE_injective _)

/-- `A V = U diag(s)` for the first `i + 1` singular vectors -/
theorem svd_firstCols {A : Matrix (Fin m) (Fin n) ℝ} {U : Matrix (Fin m) (Fin r) ℝ} {s : Fin r → ℝ}
    {V : Matrix (Fin n) (Fin r) ℝ} (h : A * V = U * diagonal s) (hi : i < r) :
    A * V.submatrix id (Fin.castLE (Nat.succ_le_of_lt hi)) =
      U.submatrix id (Fin.castLE (Nat.succ_le_of_lt hi)) * diagonal (s ∘ Fin.castLE (Nat.succ_le_of_lt hi)) := by
  ext a b
  have := congrFun (congrFun h a) (Fin.castLE (Nat.succ_le_of_lt hi) b)
  rw [mul_diagonal] at this ⊢
  exact this

theorem svd_mul_right {A : Matrix (Fin m) (Fin n) ℝ} {U : Matrix (Fin m) (Fin r) ℝ} {s : Fin r → ℝ}
    {V : Matrix (Fin n) (Fin r) ℝ} (h : IsSVD A U s V) : A * V = U * diagonal s := by
  have hV : Vᵀ * V = 1 := h.right
  rw [h.eq, Matrix.mul_assoc, hV, Matrix.mul_one]

theorem svd_mul_left {A : Matrix (Fin m) (Fin n) ℝ} {U : Matrix (Fin m) (Fin r) ℝ} {s : Fin r → ℝ}
    {V : Matrix (Fin n) (Fin r) ℝ} (h : IsSVD A U s V) : Aᵀ * U = V * diagonal s := by
  have hU : Uᵀ * U = 1 := h.left
  rw [h.eq, transpose_mul, transpose_mul, diagonal_transpose, transpose_transpose, Matrix.mul_assoc, Matrix.mul_assoc, hU,
    Matrix.mul_one]

/-- the vector that shows how the `i`-th singular values of two matrices compare -/
theorem svd_witness {A : Matrix (Fin m) (Fin n) ℝ} {U : Matrix (Fin m) (Fin r) ℝ} {s : Fin r → ℝ}
    {V : Matrix (Fin n) (Fin r) ℝ} (h : IsSVD A U s V) {q : ℕ} {X : Matrix (Fin p) (Fin n) ℝ} {U' : Matrix (Fin p) (Fin q) ℝ}
    {t : Fin q → ℝ} {V' : Matrix (Fin n) (Fin q) ℝ} (h' : IsSVD X U' t V') (hi : i < r) :
    ∃ x, x ≠ 0 ∧ nth s i ^ 2 * sqNorm x ≤ sqNorm (A *ᵥ x) ∧ sqNorm (X *ᵥ x) ≤ nth t i ^ 2 * sqNorm x := by
  refine exists_witness h' (firstCols h.right hi) (firstCols h.left hi) (svd_firstCols (svd_mul_right h) hi) ?_ ?_
  · rw [nth_of_lt hi]; exact h.nonneg _
  · intro j
    rw [nth_of_lt hi, Function.comp_apply, abs_of_nonneg (h.nonneg _)]
    exact h.anti (show (Fin.castLE (Nat.succ_le_of_lt hi) j).1 ≤ i from Nat.lt_succ_iff.1 j.2)

theorem nth_nonneg {s : Fin r → ℝ} (hs : ∀ i, 0 ≤ s i) : 0 ≤ nth s i := by
  unfold nth; split
  · exact hs _
  · exact le_rfl

/-- Weyl's inequality for the squares -/
theorem weyl_sq {A : Matrix (Fin m) (Fin n) ℝ} {U : Matrix (Fin m) (Fin r) ℝ} {s : Fin r → ℝ}
    {V : Matrix (Fin n) (Fin r) ℝ} (h : IsSVD A U s V) {q : ℕ} {X : Matrix (Fin p) (Fin n) ℝ} {U' : Matrix (Fin p) (Fin q) ℝ}
    {t : Fin q → ℝ} {V' : Matrix (Fin n) (Fin q) ℝ} (h' : IsSVD X U' t V') {e : ℝ}
    (he : ∀ x, sqNorm (A *ᵥ x) ≤ sqNorm (X *ᵥ x) + e ^ 2 * sqNorm x) (i : ℕ) : nth s i ^ 2 ≤ nth t i ^ 2 + e ^ 2 := by
  by_cases hi : i < r
  · obtain ⟨x, hx, h1, h2⟩ := svd_witness h h' hi
    have hp : 0 < sqNorm x := lt_of_le_of_ne (sqNorm_nonneg x) fun h0 => hx (sqNorm_eq_zero.1 h0.symm)
    have h3 : nth s i ^ 2 * sqNorm x ≤ (nth t i ^ 2 + e ^ 2) * sqNorm x := by linarith [he x]
    exact le_of_mul_le_mul_right h3 hp
  · rw [nth_of_le (not_lt.1 hi), zero_pow two_ne_zero]; positivity

/-- Weyl's inequality -/
theorem weyl_add {A X : Matrix (Fin m) (Fin n) ℝ} {U : Matrix (Fin m) (Fin r) ℝ} {s : Fin r → ℝ}
    {V : Matrix (Fin n) (Fin r) ℝ} (h : IsSVD A U s V) {q : ℕ} {U' : Matrix (Fin m) (Fin q) ℝ}
    {t : Fin q → ℝ} {V' : Matrix (Fin n) (Fin q) ℝ} (h' : IsSVD X U' t V') {e : ℝ} (he0 : 0 ≤ e)
    (he : SpecNormLE (A - X) e) (i : ℕ) : nth s i ≤ nth t i + e := by
  by_cases hi : i < r
  · obtain ⟨x, hx, h1, h2⟩ := svd_witness h h' hi
    have hp : 0 < norm2 x := norm2_pos.2 hx
    have h1' : nth s i * norm2 x ≤ norm2 (A *ᵥ x) := by
      rw [← norm2_sq, ← norm2_sq, ← mul_pow] at h1
      exact (abs_le_of_sq_le_sq' h1 (norm2_nonneg _)).2
    have h2' : norm2 (X *ᵥ x) ≤ nth t i * norm2 x := by
      rw [← norm2_sq, ← norm2_sq, ← mul_pow] at h2
      exact (abs_le_of_sq_le_sq' h2 (mul_nonneg (nth_nonneg h'.nonneg) (norm2_nonneg _))).2
    have h3 : norm2 (A *ᵥ x) ≤ e * norm2 x + norm2 (X *ᵥ x) := by
      refine (norm2_le_add (A *ᵥ x) (X *ᵥ x)).trans (add_le_add ?_ le_rfl)
      rw [← sub_mulVec]; exact he x
    have h4 : nth s i * norm2 x ≤ (nth t i + e) * norm2 x := by linarith
    exact le_of_mul_le_mul_right h4 hp
  · rw [nth_of_le (not_lt.1 hi)]; exact add_nonneg (nth_nonneg h'.nonneg) he0

/-! ## Eigenvalues -/

/-- Cauchy interlacing, one side: a compression of `A` has at most as many eigenvalues `≥ l` as `A`. -/
theorem interlace {A W : Matrix (Fin n) (Fin n) ℝ} {mu : Fin n → ℝ} (hW : Wᵀ * W = 1) (hA : A = W * diagonal mu * Wᵀ)
    {V : Matrix (Fin n) (Fin r) ℝ} (hV : Vᵀ * V = 1) {lam : Fin r → ℝ}
    (hC : ∀ d, ∑ j, lam j * d j ^ 2 ≤ (V *ᵥ d) ⬝ᵥ (A *ᵥ (V *ᵥ d))) (l : ℝ) :
    Nat.card {i // l ≤ lam i} ≤ Nat.card {j // l ≤ mu j} := by
  classical
  by_contra hlt
  push Not at hlt
  rw [Nat.card_eq_fintype_card, Nat.card_eq_fintype_card] at hlt
  let M : Matrix ({j // l ≤ mu j} ⊕ {i // ¬ l ≤ lam i}) (Fin r) ℝ :=
    Matrix.of fun a c => a.elim (fun j => (Wᵀ * V) j.1 c) fun i => (1 : Matrix (Fin r) (Fin r) ℝ) i.1 c
  have hcard : Fintype.card {i // l ≤ lam i} + Fintype.card {i // ¬ l ≤ lam i} = r := by
    rw [Fintype.card_subtype_compl, Fintype.card_fin]
    have := Fintype.card_subtype_le (fun i : Fin r => l ≤ lam i)
    rw [Fintype.card_fin] at this
    omega
  have hk : LinearMap.ker M.mulVecLin ≠ ⊥ := LinearMap.ker_ne_bot_of_finrank_lt (by
    rw [Module.finrank_pi, Module.finrank_pi, Fintype.card_sum, Fintype.card_fin]
    omega)
  obtain ⟨d, hd, h0⟩ := Submodule.exists_mem_ne_zero_of_ne_bot hk
  have hd : M *ᵥ d = 0 := hd
  obtain ⟨y, hy⟩ : ∃ y, y = Wᵀ *ᵥ (V *ᵥ d) := ⟨_, rfl⟩
  have hyz : ∀ j, l ≤ mu j → y j = 0 := by
    intro j hj
    have := congrFun hd (.inl ⟨j, hj⟩)
    rw [hy, mulVec_mulVec]
    exact this
  have hdz : ∀ i, ¬ l ≤ lam i → d i = 0 := by
    intro i hi
    have : ((1 : Matrix (Fin r) (Fin r) ℝ) *ᵥ d) i = 0 := congrFun hd (.inr ⟨i, hi⟩)
    rwa [one_mulVec] at this
  have hW' : W * Wᵀ = 1 := mul_eq_one_comm.1 hW
  have hyn : ∑ j, y j ^ 2 = ∑ j, d j ^ 2 := by
    show sqNorm y = sqNorm d
    rw [hy, sqNorm_orth_mulVec (by rw [transpose_transpose]; exact hW'), sqNorm_orth_mulVec hV]
  have hq : ∑ j, lam j * d j ^ 2 ≤ ∑ j, mu j * y j ^ 2 := by
    refine (hC d).trans_eq ?_
    rw [hA, ← mulVec_mulVec, ← mulVec_mulVec, dotProduct_mulVec, ← mulVec_transpose, ← hy]
    show ∑ j, _ = _
    refine Finset.sum_congr rfl fun j _ => ?_
    rw [mulVec_diagonal]; ring
  have h1 : l * ∑ j, d j ^ 2 ≤ ∑ j, lam j * d j ^ 2 := by
    rw [Finset.mul_sum]
    refine Finset.sum_le_sum fun j _ => ?_
    by_cases hj : l ≤ lam j
    · exact mul_le_mul_of_nonneg_right hj (sq_nonneg _)
    · rw [hdz j hj]; simp
  have h2 : ∑ j, mu j * y j ^ 2 < ∑ j, l * y j ^ 2 := by
    refine Finset.sum_lt_sum (fun j _ => ?_) ?_
    · by_cases hj : l ≤ mu j
      · rw [hyz j hj]; simp
      · exact mul_le_mul_of_nonneg_right (not_le.1 hj).le (sq_nonneg _)
    · have hne : ∃ j, y j ≠ 0 := by
        by_contra hc
        push Not at hc
        refine h0 (sqNorm_eq_zero.1 ?_)
        show ∑ j, d j ^ 2 = 0
        rw [← hyn]
        exact Finset.sum_eq_zero fun j _ => by rw [hc j]; simp
      obtain ⟨j, hj⟩ := hne
      have hj' : mu j < l := by
        by_contra hc
        exact hj (hyz j (not_lt.1 hc))
      exact ⟨j, Finset.mem_univ _, mul_lt_mul_of_pos_right hj' (by positivity)⟩
  rw [← Finset.mul_sum, hyn] at h2
  linarith

/-- An approximate eigenpair is close to an eigenvalue. -/
theorem near_eigenvalue {A W : Matrix (Fin n) (Fin n) ℝ} {mu : Fin n → ℝ} (hW : Wᵀ * W = 1) (hA : A = W * diagonal mu * Wᵀ)
    {v : Fin n → ℝ} (hv : sqNorm v = 1) {lam e : ℝ} (he : sqNorm (A *ᵥ v - lam • v) ≤ e ^ 2) (he0 : 0 ≤ e) :
    ∃ j, |mu j - lam| ≤ e := by
  by_contra hc
  push Not at hc
  have hW' : W * Wᵀ = 1 := mul_eq_one_comm.1 hW
  obtain ⟨y, hy⟩ : ∃ y, y = Wᵀ *ᵥ v := ⟨_, rfl⟩
  have hvy : v = W *ᵥ y := by rw [hy, mulVec_mulVec, hW', one_mulVec]
  have hyn : sqNorm y = 1 := by rw [← hv, hvy, sqNorm_orth_mulVec hW]
  have h1 : A *ᵥ v - lam • v = W *ᵥ (diagonal (fun j => mu j - lam) *ᵥ y) := by
    have hWv : Wᵀ *ᵥ v = y := hy.symm
    rw [hA, ← mulVec_mulVec, ← mulVec_mulVec, hWv]
    nth_rw 1 [hvy]
    rw [← mulVec_smul, ← mulVec_sub]
    congr 1
    funext j
    simp only [Pi.sub_apply, mulVec_diagonal, Pi.smul_apply, smul_eq_mul]
    ring
  rw [h1, sqNorm_orth_mulVec hW] at he
  have h2 : e ^ 2 * sqNorm y < sqNorm (diagonal (fun j => mu j - lam) *ᵥ y) := by
    unfold sqNorm
    rw [Finset.mul_sum]
    have hlt : ∀ j, e ^ 2 < (mu j - lam) ^ 2 := fun j => by
      rw [← sq_abs (mu j - lam)]; exact pow_lt_pow_left₀ (hc j) he0 (by norm_num)
    refine Finset.sum_lt_sum (fun j _ => ?_) ?_
    · rw [mulVec_diagonal, mul_pow]
      exact mul_le_mul_of_nonneg_right (hlt j).le (sq_nonneg _)
    · have hne : ∃ j, y j ≠ 0 := by
        by_contra hz
        push Not at hz
        have : sqNorm y = 0 := sqNorm_eq_zero.2 (funext hz)
        rw [this] at hyn; norm_num at hyn
      obtain ⟨j, hj⟩ := hne
      refine ⟨j, Finset.mem_univ _, ?_⟩
      rw [mulVec_diagonal, mul_pow]
      exact mul_lt_mul_of_pos_right (hlt j) (by positivity)
  rw [hyn] at h2
  linarith

end Parla.Proof
