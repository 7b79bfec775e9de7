import Verif.Proof.EVD
import Verif.Props.EVD1

/-! Nyström approximation facts behind `EVD2` (helper lemmas). -/

namespace Parla

open Matrix Spec

variable {n c : ℕ}

theorem posDef_of_quad {C : Matrix (Fin n) (Fin n) ℝ} (hC : Cᵀ = C)
    (h : ∀ x, x ≠ 0 → 0 < x ⬝ᵥ (C *ᵥ x)) : C.PosDef := by
  refine PosDef.of_dotProduct_mulVec_pos ?_ fun x hx => ?_
  · rw [IsHermitian, conjTranspose_eq_transpose_of_trivial]; exact hC
  · simpa using h x hx

theorem quad_of_posDef {C : Matrix (Fin n) (Fin n) ℝ} (h : C.PosDef) :
    ∀ x, x ≠ 0 → 0 < x ⬝ᵥ (C *ᵥ x) := by
  intro x hx
  simpa using h.dotProduct_mulVec_pos hx

/-- what a returned Cholesky factor is -/
theorem chol_ok (la : LinAlg) {C R : Matrix (Fin n) (Fin n) ℝ} (hC : Cᵀ = C)
    (h : la.cholesky C = .ok R) :
    C.PosDef ∧ Rᵀ * R = C ∧ (∀ i j, j < i → R i j = 0) ∧ ∀ i, 0 < R i i := by
  by_cases hp : C.PosDef
  · obtain ⟨R', h1, h2, h3, h4⟩ := la.chol_posDef C hp
    rw [h1] at h; cases h
    exact ⟨hp, h2, h3, h4⟩
  · rw [la.chol_fail C hC hp] at h; cases h

theorem upper_isUnit {R : Matrix (Fin n) (Fin n) ℝ} (h1 : ∀ i j, j < i → R i j = 0)
    (h2 : ∀ i, 0 < R i i) : IsUnit R.det := by
  have := isUnit_det_triu (R := R) (by rintro ⟨i, hi⟩; exact (h2 i).ne' hi)
  rwa [triu_eq_self h1] at this

theorem evd2Comps_ok {p : ℕ} {sigma : Fin p → ℝ} {nu : ℝ} (l : List ℕ) :
    ∀ (comps out : List ℕ), evd2Comps sigma nu comps l = .ok out →
      (∀ i ∈ l, i + 1 < p) ∧
      ∀ x, x ∈ out ↔ x ∈ comps ∨ (x ∈ l ∧ ∃ h : x + 1 < p, sigma ⟨x + 1, h⟩ ^ 2 ≤ nu) := by
  induction l with
  | nil => intro comps out h; simp only [evd2Comps] at h; cases h; simp
  | cons i l ih =>
    intro comps out h
    simp only [evd2Comps] at h
    by_cases hp : i + 1 < p
    · rw [dif_pos hp] at h
      by_cases hs : sigma ⟨i + 1, hp⟩ ^ 2 ≤ nu
      · rw [if_pos hs] at h
        obtain ⟨h1, h2⟩ := ih _ _ h
        refine ⟨by simpa using ⟨hp, h1⟩, fun x => ?_⟩
        rw [h2]
        simp only [List.mem_append, List.mem_cons, List.not_mem_nil, or_false]
        constructor
        · rintro ((h | rfl) | h)
          · exact Or.inl h
          · exact Or.inr ⟨Or.inl rfl, hp, hs⟩
          · exact Or.inr ⟨Or.inr h.1, h.2⟩
        · rintro (h | ⟨rfl | h, h'⟩)
          · exact Or.inl (Or.inl h)
          · exact Or.inl (Or.inr rfl)
          · exact Or.inr ⟨h, h'⟩
      · rw [if_neg hs] at h
        obtain ⟨h1, h2⟩ := ih _ _ h
        refine ⟨by simpa using ⟨hp, h1⟩, fun x => ?_⟩
        rw [h2]
        simp only [List.mem_cons]
        constructor
        · rintro (h | h)
          · exact Or.inl h
          · exact Or.inr ⟨Or.inr h.1, h.2⟩
        · rintro (h | ⟨rfl | h, h'⟩)
          · exact Or.inl h
          · obtain ⟨_, h'⟩ := h'; exact absurd h' hs
          · exact Or.inr ⟨h, h'⟩
    · rw [dif_neg hp] at h; cases h

theorem evd2Comps_total {p : ℕ} (sigma : Fin p → ℝ) (nu : ℝ) (l : List ℕ) :
    ∀ (comps : List ℕ), (∀ i ∈ l, i + 1 < p) → ∃ out, evd2Comps sigma nu comps l = .ok out := by
  induction l with
  | nil => intro comps _; exact ⟨comps, rfl⟩
  | cons i l ih =>
    intro comps h
    have hp : i + 1 < p := h i (by simp)
    simp only [evd2Comps, dif_pos hp]
    split <;> exact ih _ fun j hj => h j (by simp [hj])

theorem foldl_min_spec (l : List ℕ) : ∀ k : ℕ,
    l.foldl min k ≤ k ∧ (∀ x ∈ l, l.foldl min k ≤ x) ∧ (l.foldl min k = k ∨ l.foldl min k ∈ l) := by
  induction l with
  | nil => intro k; simp
  | cons a l ih =>
    intro k
    obtain ⟨h1, h2, h3⟩ := ih (min k a)
    simp only [List.foldl_cons]
    refine ⟨by omega, ?_, ?_⟩
    · intro x hx
      rcases List.mem_cons.1 hx with rfl | hx
      · omega
      · exact h2 x hx
    · rcases h3 with h3 | h3
      · by_cases hka : k ≤ a
        · left; rw [h3]; omega
        · right; rw [h3, min_eq_right (by omega)]; simp
      · right; simp [h3]

/-- The factor `B` of `EVD2` with its defining relations. -/
structure Nystrom (A : Matrix (Fin n) (Fin n) ℝ) (nu : ℝ) (S : Matrix (Fin n) (Fin c) ℝ)
    (R : Matrix (Fin c) (Fin c) ℝ) (B : Matrix (Fin n) (Fin c) ℝ) : Prop where
  unit : IsUnit R.det
  gram : Rᵀ * R = Sᵀ * (A * S + nu • S)
  fac : B * R = A * S + nu • S

variable {A : Matrix (Fin n) (Fin n) ℝ} {nu : ℝ} {S : Matrix (Fin n) (Fin c) ℝ}
  {R : Matrix (Fin c) (Fin c) ℝ} {B : Matrix (Fin n) (Fin c) ℝ}

theorem Nystrom.solve (h : Nystrom A nu S R B) (v : Fin c → ℝ) : ∃ y, R *ᵥ y = v :=
  ⟨R⁻¹ *ᵥ v, by rw [mulVec_mulVec, mul_nonsing_inv _ h.unit, one_mulVec]⟩

theorem Nystrom.fac_mulVec (h : Nystrom A nu S R B) (y : Fin c → ℝ) :
    B *ᵥ (R *ᵥ y) = A *ᵥ (S *ᵥ y) + nu • (S *ᵥ y) := by
  rw [mulVec_mulVec, h.fac, add_mulVec, smul_mulVec, mulVec_mulVec]

theorem Nystrom.gram_mulVec (h : Nystrom A nu S R B) (y : Fin c → ℝ) :
    sqNorm (R *ᵥ y) = (S *ᵥ y) ⬝ᵥ (A *ᵥ (S *ᵥ y)) + nu * sqNorm (S *ᵥ y) := by
  rw [sqNorm_eq_dot, dot_mulVec, mulVec_mulVec, h.gram, ← mulVec_mulVec, add_mulVec, smul_mulVec,
    ← mulVec_mulVec, sqNorm_eq_dot, dotProduct_comm _ y]
  rw [dot_mulVec, transpose_transpose, dotProduct_add, dotProduct_smul, smul_eq_mul]

/-- `B B' ≤ A + nu I` -/
theorem Nystrom.le (hA : IsPSD A) (hnu : 0 ≤ nu) (h : Nystrom A nu S R B) (x : Fin n → ℝ) :
    sqNorm (Bᵀ *ᵥ x) ≤ x ⬝ᵥ (A *ᵥ x) + nu * sqNorm x := by
  obtain ⟨y, hy⟩ := h.solve (Bᵀ *ᵥ x)
  set z := S *ᵥ y
  have h1 : sqNorm (Bᵀ *ᵥ x) = z ⬝ᵥ (A *ᵥ z) + nu * sqNorm z := by rw [← hy]; exact h.gram_mulVec y
  have h2 : sqNorm (Bᵀ *ᵥ x) = x ⬝ᵥ (A *ᵥ z) + nu * (x ⬝ᵥ z) := by
    rw [sqNorm_eq_dot]
    conv_lhs => rw [← dot_mulVec, ← hy, h.fac_mulVec]
    rw [dotProduct_add, dotProduct_smul, smul_eq_mul]
  have h3 := hA.2 (x - z)
  have h4 : x ⬝ᵥ (A *ᵥ z) = z ⬝ᵥ (A *ᵥ x) := by rw [dot_mulVec, hA.1, dotProduct_comm]
  rw [mulVec_sub, sub_dotProduct, dotProduct_sub, dotProduct_sub] at h3
  have h5 := mul_nonneg hnu (sqNorm_nonneg (x - z))
  rw [sqNorm_sub] at h5
  nlinarith

/-- `‖B v‖² - nu ‖v‖²` in terms of `A S y` where `R y = v`. -/
theorem Nystrom.excess (h : Nystrom A nu S R B) (y : Fin c → ℝ) :
    sqNorm (B *ᵥ (R *ᵥ y)) - nu * sqNorm (R *ᵥ y) =
      sqNorm (A *ᵥ (S *ᵥ y)) + nu * ((S *ᵥ y) ⬝ᵥ (A *ᵥ (S *ᵥ y))) := by
  rw [h.fac_mulVec, h.gram_mulVec, sqNorm_add, sqNorm_smul, dotProduct_smul, smul_eq_mul,
    dotProduct_comm (A *ᵥ _)]
  ring

theorem Nystrom.width (h : Nystrom A nu S R B) : c ≤ n := by
  have hinj : FullColRank S := by
    rw [fullColRank_iff_inj]
    intro y hy
    have : R *ᵥ y = 0 := by
      rw [← sqNorm_eq_zero, h.gram_mulVec, hy]; simp [sqNorm]
    have h2 : R⁻¹ *ᵥ (R *ᵥ y) = 0 := by rw [this, mulVec_zero]
    rwa [mulVec_mulVec, nonsing_inv_mul _ h.unit, one_mulVec] at h2
  have h2 := S.rank_le_height
  have h3 : S.rank = c := hinj
  omega

theorem rank_eq_of_ker {m m' p : ℕ} {M : Matrix (Fin m) (Fin p) ℝ} {N : Matrix (Fin m') (Fin p) ℝ}
    (h : ∀ x, M *ᵥ x = 0 ↔ N *ᵥ x = 0) : M.rank = N.rank := by
  have h1 := LinearMap.finrank_range_add_finrank_ker M.mulVecLin
  have h2 := LinearMap.finrank_range_add_finrank_ker N.mulVecLin
  have h3 : LinearMap.ker M.mulVecLin = LinearMap.ker N.mulVecLin := by
    ext x; simp only [LinearMap.mem_ker, mulVecLin_apply]; exact h x
  rw [h3] at h1
  unfold Matrix.rank
  omega

/-- the economic part of the full SVD -/
theorem svdFull_econ (la : LinAlg) (B : Matrix (Fin n) (Fin c) ℝ) :
    ((la.svdFull B).1.submatrix id (minL : Fin (min n c) → Fin n))ᵀ *
      (la.svdFull B).1.submatrix id (minL : Fin (min n c) → Fin n) = 1 ∧
    ((la.svdFull B).2.2.submatrix (minR : Fin (min n c) → Fin c) id) *
      ((la.svdFull B).2.2.submatrix (minR : Fin (min n c) → Fin c) id)ᵀ = 1 := by
  refine ⟨orth_submatrix (la.svdFull_left B) minL_injective, ?_⟩
  have := orth_submatrix (Q := (la.svdFull B).2.2ᵀ) (by simpa using la.svdFull_right B)
    (f := (minR : Fin (min n c) → Fin c)) minR_injective
  simpa using this

theorem sqNorm_diag {p : ℕ} (d a : Fin p → ℝ) :
    sqNorm (diagonal d *ᵥ a) = ∑ i, d i ^ 2 * a i ^ 2 := by
  unfold sqNorm
  refine Finset.sum_congr rfl fun i _ => ?_
  rw [mulVec_diagonal]; ring

/-- Values of the quadratic form of `B'B - nu I` in the right singular basis. -/
theorem Nystrom.spectral (la : LinAlg) (h : Nystrom A nu S R B) (a : Fin (min n c) → ℝ) :
    ∃ y, R *ᵥ y = ((la.svdFull B).2.2.submatrix (minR : Fin (min n c) → Fin c) id)ᵀ *ᵥ a ∧
      ∑ i, ((la.svdFull B).2.1 i ^ 2 - nu) * a i ^ 2 =
        sqNorm (A *ᵥ (S *ᵥ y)) + nu * ((S *ᵥ y) ⬝ᵥ (A *ᵥ (S *ᵥ y))) := by
  obtain ⟨hU, hV⟩ := svdFull_econ la B
  set U := (la.svdFull B).1.submatrix id (minL : Fin (min n c) → Fin n)
  set V := (la.svdFull B).2.2.submatrix (minR : Fin (min n c) → Fin c) id
  obtain ⟨y, hy⟩ := h.solve (Vᵀ *ᵥ a)
  refine ⟨y, hy, ?_⟩
  rw [← h.excess, hy]
  have h1 : sqNorm (B *ᵥ (Vᵀ *ᵥ a)) = ∑ i, (la.svdFull B).2.1 i ^ 2 * a i ^ 2 := by
    have hB : B = U * diagonal (la.svdFull B).2.1 * V := (la.svdFull_mul B).symm
    have : B *ᵥ (Vᵀ *ᵥ a) = U *ᵥ (diagonal (la.svdFull B).2.1 *ᵥ a) := by
      rw [mulVec_mulVec, mulVec_mulVec]
      congr 1
      conv_lhs => rw [hB]
      rw [Matrix.mul_assoc, hV, Matrix.mul_one]
    rw [this, sqNorm_orth_mulVec hU, sqNorm_diag]
  have h2 : sqNorm (Vᵀ *ᵥ a) = ∑ i, a i ^ 2 := sqNorm_orth_mulVec (by simpa using hV) a
  rw [h1, h2, Finset.mul_sum, ← Finset.sum_sub_distrib]
  exact Finset.sum_congr rfl fun i _ => by ring

/-- all singular values of `B` satisfy `sigma² ≥ nu` -/
theorem Nystrom.sigma_ge (la : LinAlg) (hA : IsPSD A) (hnu : 0 ≤ nu) (h : Nystrom A nu S R B)
    (i : Fin (min n c)) : nu ≤ (la.svdFull B).2.1 i ^ 2 := by
  obtain ⟨y, -, hy⟩ := h.spectral la (Pi.single i 1)
  rw [Finset.sum_eq_single i] at hy
  · simp only [Pi.single_eq_same] at hy
    have := sqNorm_nonneg (A *ᵥ (S *ᵥ y))
    have := mul_nonneg hnu (hA.2 (S *ᵥ y))
    nlinarith
  · intro j _ hj; rw [Pi.single_eq_of_ne hj]; simp
  · intro h; exact absurd (Finset.mem_univ _) h

/-- `sigma_j² > nu` exactly for the first `rank(A S)` indices -/
theorem Nystrom.rank (la : LinAlg) (hA : IsPSD A) (hnu : 0 ≤ nu) (h : Nystrom A nu S R B)
    (j : Fin (min n c)) : nu < (la.svdFull B).2.1 j ^ 2 ↔ j.1 < (A * S).rank := by
  obtain ⟨hU, hV⟩ := svdFull_econ la B
  set σ := (la.svdFull B).2.1 with hσ
  set V := (la.svdFull B).2.2.submatrix (minR : Fin (min n c) → Fin c) id with hVd
  have hcn := h.width
  have hVV : Vᵀ * V = 1 := by
    have := Props.square_orth (Q := Vᵀ) (min_eq_right hcn) (by simpa using hV)
    simpa using this
  set Y := R⁻¹ * Vᵀ with hY
  have hRY : ∀ y a, R *ᵥ y = Vᵀ *ᵥ a → y = Y *ᵥ a := by
    intro y a hya
    rw [hY, ← mulVec_mulVec, ← hya, mulVec_mulVec, nonsing_inv_mul _ h.unit, one_mulVec]
  have hge := h.sigma_ge la hA hnu
  have hker : ∀ a, (A * S * Y) *ᵥ a = 0 ↔ diagonal (fun i => σ i ^ 2 - nu) *ᵥ a = 0 := by
    intro a
    obtain ⟨y, hy, hsum⟩ := h.spectral la a
    have hyY := hRY y a hy
    have e : (A * S * Y) *ᵥ a = A *ᵥ (S *ᵥ y) := by
      rw [hyY]; simp only [mulVec_mulVec, Matrix.mul_assoc]
    have hnn : ∀ i ∈ Finset.univ, 0 ≤ (σ i ^ 2 - nu) * a i ^ 2 := fun i _ =>
      mul_nonneg (by linarith [hge i]) (sq_nonneg _)
    constructor
    · intro h0
      rw [e] at h0
      rw [h0] at hsum
      have hs0 : ∑ i, (σ i ^ 2 - nu) * a i ^ 2 = 0 := by rw [hsum]; simp [sqNorm]
      rw [Finset.sum_eq_zero_iff_of_nonneg hnn] at hs0
      ext i
      rw [mulVec_diagonal]
      have := hs0 i (Finset.mem_univ _)
      rcases mul_eq_zero.1 this with h1 | h1
      · rw [h1, zero_mul]; rfl
      · rw [pow_eq_zero_iff two_ne_zero] at h1; rw [h1, mul_zero]; rfl
    · intro h0
      have hs0 : ∑ i, (σ i ^ 2 - nu) * a i ^ 2 = 0 := by
        refine Finset.sum_eq_zero fun i _ => ?_
        have := congrFun h0 i
        rw [mulVec_diagonal] at this
        rw [sq (a i), ← mul_assoc, this]; simp
      rw [hsum] at hs0
      have h1 := sqNorm_nonneg (A *ᵥ (S *ᵥ y))
      have h2 := mul_nonneg hnu (hA.2 (S *ᵥ y))
      rw [e, ← sqNorm_eq_zero]; linarith
  have hr1 : (A * S * Y).rank = (A * S).rank := by
    apply le_antisymm (Matrix.rank_mul_le_left _ _)
    have : A * S = A * S * Y * (V * R) := by
      have e : Y * (V * R) = 1 := by
        rw [hY, Matrix.mul_assoc, ← Matrix.mul_assoc Vᵀ, hVV, Matrix.one_mul,
          nonsing_inv_mul _ h.unit]
      rw [Matrix.mul_assoc (A * S), e, Matrix.mul_one]
    conv_lhs => rw [this]
    exact Matrix.rank_mul_le_left _ _
  classical
  have hr2 : (A * S).rank = (Finset.univ.filter fun i => nu < σ i ^ 2).card := by
    rw [← hr1, rank_eq_of_ker hker, Matrix.rank_diagonal, Fintype.card_subtype]
    congr 1
    ext i
    simp only [Finset.mem_filter, Finset.mem_univ, true_and]
    have := hge i
    constructor
    · intro hne; exact lt_of_le_of_ne this fun e => hne (by rw [e]; simp)
    · intro hlt; linarith
  obtain ⟨ρ, hρ, hpre⟩ := lower_prefix (p := fun i => nu < σ i ^ 2) (fun i j hij hj => by
    have h1 := la.svdFull_anti B hij
    have h2 := la.svdFull_nonneg B j
    have : σ j ^ 2 ≤ σ i ^ 2 := pow_le_pow_left₀ h2 h1 2
    linarith)
  have hρ' : (A * S).rank = ρ := by
    rw [hr2]; exact prefix_card hρ _ (fun i => by simpa using hpre i)
  rw [hρ']
  exact hpre j

end Parla
