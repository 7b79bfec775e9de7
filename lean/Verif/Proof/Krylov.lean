import Verif.Proof.PCG
import Verif.Proof.LSQR
import Verif.Base.LinAlgExists
import Mathlib.Algebra.Polynomial.AlgebraMap
import Mathlib.Algebra.Polynomial.Eval.Degree
import Mathlib.Analysis.SpecialFunctions.Trigonometric.Chebyshev.RootsExtrema
import Mathlib.RingTheory.Polynomial.Chebyshev

/-! Krylov optimality and polynomial bounds (helper lemmas). -/

namespace Parla

open Matrix Spec Polynomial

variable {n : ℕ}

/-- An error that lies in `e0 + 𝒦_k`, with `K e ⟂ 𝒦_k`, has the least energy among all
`p(T) e0`, `p` of degree at most `k` with `p(0) = 1`. -/
theorem krylov_energy {K T : Matrix (Fin n) (Fin n) ℝ} (hK : IsPSD K)
    (Y : ℕ → Submodule ℝ (Fin n → ℝ)) (k : ℕ) (hmono : ∀ i < k, Y i ≤ Y (i + 1))
    (hT : ∀ i, 0 < i → i < k → ∀ v ∈ Y i, T *ᵥ v ∈ Y (i + 1))
    {e0 e : Fin n → ℝ} (h1 : 0 < k → T *ᵥ e0 ∈ Y 1) (he : e - e0 ∈ Y k)
    (ho : ∀ v ∈ Y k, v ⬝ᵥ (K *ᵥ e) = 0) (p : ℝ[X]) (hp : p.eval 0 = 1) (hd : p.natDegree ≤ k) :
    e ⬝ᵥ (K *ᵥ e) ≤ (aeval T p *ᵥ e0) ⬝ᵥ (K *ᵥ (aeval T p *ᵥ e0)) := by
  -- powers of `T`
  have hY : ∀ i j, i ≤ j → j ≤ k → Y i ≤ Y j := by
    intro i j hij
    induction j, hij using Nat.le_induction with
    | base => intro _; exact le_rfl
    | succ j hij ih => intro hj; exact (ih (by omega)).trans (hmono j (by omega))
  have hpow : ∀ i, i < k → (T ^ (i + 1)) *ᵥ e0 ∈ Y (i + 1) := by
    intro i
    induction i with
    | zero => intro h; simpa using h1 h
    | succ i ih =>
      intro h
      rw [pow_succ', ← mulVec_mulVec]
      exact hT (i + 1) (by omega) h _ (ih (by omega))
  have hsum : aeval T p *ᵥ e0 - e0 ∈ Y k := by
    have e1 : aeval T p = ∑ i ∈ Finset.range (k + 1), p.coeff i • T ^ i :=
      aeval_eq_sum_range' (by omega) T
    rw [Finset.sum_range_succ'] at e1
    have hc0 : p.coeff 0 = 1 := by rw [coeff_zero_eq_eval_zero, hp]
    rw [e1, hc0, pow_zero, one_smul, add_mulVec, one_mulVec, add_sub_cancel_right, sum_mulVec]
    refine Submodule.sum_mem _ fun i hi => ?_
    rw [Finset.mem_range] at hi
    rw [smul_mulVec]
    exact Submodule.smul_mem _ _ (hY (i + 1) k (by omega) le_rfl (hpow i hi))
  obtain ⟨v, hv⟩ : ∃ v, v = aeval T p *ᵥ e0 - e := ⟨_, rfl⟩
  have hvY : v ∈ Y k := by
    rw [hv, show aeval T p *ᵥ e0 - e = (aeval T p *ᵥ e0 - e0) - (e - e0) by abel]
    exact Submodule.sub_mem _ hsum he
  rw [show aeval T p *ᵥ e0 = e + v by rw [hv]; abel, mulVec_add, add_dotProduct, dotProduct_add,
    dotProduct_add, dot_symm hK.1 e v, ho v hvY]
  have := hK.2 v
  linarith

/-- Krylov optimality of the conjugate gradient iterates. -/
theorem pcgSeq_krylov {K N : Matrix (Fin n) (Fin n) ℝ} {rhs x0 xs : Fin n → ℝ} (hK : IsPSD K)
    (hN : IsPD N) (hx : K *ᵥ xs = rhs) (k : ℕ) (hr : ∀ j < k, (pcgSeq K N rhs x0 j).1.r ≠ 0)
    (p : ℝ[X]) (hp : p.eval 0 = 1) (hd : p.natDegree ≤ k) :
    ((pcgSeq K N rhs x0 k).1.x - xs) ⬝ᵥ (K *ᵥ ((pcgSeq K N rhs x0 k).1.x - xs)) ≤
      (aeval (N * K) p *ᵥ (x0 - xs)) ⬝ᵥ (K *ᵥ (aeval (N * K) p *ᵥ (x0 - xs))) := by
  have hgood : ∀ i ≤ k, (pcgSeq K N rhs x0 i).1.Good K N rhs (pcgSeq K N rhs x0 i).2 :=
    fun i hi => pcgSeq_good hK hN hx i fun j hj => hr j (by omega)
  obtain ⟨X, hX⟩ : ∃ X : ℕ → Fin n → ℝ, X = fun i => (pcgSeq K N rhs x0 i).1.x := ⟨_, rfl⟩
  obtain ⟨R, hR⟩ : ∃ R : ℕ → Fin n → ℝ, R = fun i => (pcgSeq K N rhs x0 i).1.r := ⟨_, rfl⟩
  obtain ⟨D, hD⟩ : ∃ D : ℕ → Fin n → ℝ, D = fun i => (pcgSeq K N rhs x0 i).2 := ⟨_, rfl⟩
  obtain ⟨al, hal⟩ : ∃ al : ℕ → ℝ, al = fun i => R i ⬝ᵥ (N *ᵥ R i) / (D i ⬝ᵥ (K *ᵥ D i)) := ⟨_, rfl⟩
  obtain ⟨be, hbe⟩ : ∃ be : ℕ → ℝ, be = fun i =>
    R (i + 1) ⬝ᵥ (N *ᵥ R (i + 1)) / (R i ⬝ᵥ (N *ᵥ R i)) := ⟨_, rfl⟩
  have hden : ∀ i < k, D i ⬝ᵥ (K *ᵥ D i) ≠ 0 := fun i hi => by
    rw [hD]; exact ((hgood i hi.le).den_pos hK hN hx (hr i hi)).ne'
  have hnz : ∀ i < k, R i ⬝ᵥ (N *ᵥ R i) ≠ 0 := fun i hi => by
    rw [hR]; exact (hN.2 _ (hr i hi)).ne'
  have hX' : ∀ i < k, X (i + 1) = X i + al i • D i := fun i hi => by
    rw [hX, hal, hR, hD]; exact (pcgSeq_step hK hN hx (hgood i hi.le) (hr i hi)).2.1
  have hR' : ∀ i < k, R (i + 1) = R i - al i • (K *ᵥ D i) := fun i hi => by
    rw [hal, hR, hD]; exact (pcgSeq_step hK hN hx (hgood i hi.le) (hr i hi)).2.2.1
  have hD' : ∀ i < k, D (i + 1) = N *ᵥ R (i + 1) + be i • D i := fun i hi => by
    rw [hbe, hR, hD]; rfl
  have hD0 : D 0 = N *ᵥ R 0 := by rw [hD, hR]; rfl
  have hR0 : R 0 = rhs - K *ᵥ x0 := by rw [hR]; rfl
  have hX0 : X 0 = x0 := by rw [hX]; rfl
  have hal0 : ∀ i < k, al i ≠ 0 := fun i hi => by
    rw [hal]; exact div_ne_zero (hnz i hi) (hden i hi)
  have horth : ∀ j < k, R k ⬝ᵥ D j = 0 := fun j hj =>
    ((cg_orth hK.1 hN.1 R D k hD0 (fun i hi => by rw [hR' i hi, hal])
      (fun i hi => by rw [hD' i hi, hbe]) hden hnz k le_rfl).1 j hj).1
  have hres : R k = rhs - K *ᵥ X k := by rw [hR, hX]; exact (hgood k le_rfl).res
  -- the Krylov spaces
  obtain ⟨Y, hYd⟩ : ∃ Y : ℕ → Submodule ℝ (Fin n → ℝ),
    Y = fun i => Submodule.span ℝ (D '' {j | j < i}) := ⟨_, rfl⟩
  have hDY : ∀ j i, j < i → D j ∈ Y i := fun j i h => by
    rw [hYd]; exact Submodule.subset_span ⟨j, h, rfl⟩
  have hmono : ∀ i j, i ≤ j → Y i ≤ Y j := fun i j h => by
    rw [hYd]
    exact Submodule.span_mono (Set.image_mono fun a (ha : a < i) => lt_of_lt_of_le ha h)
  have hNR : ∀ j ≤ k, N *ᵥ R j ∈ Y (j + 1) := by
    intro j hj
    cases j with
    | zero => rw [← hD0]; exact hDY 0 1 (by omega)
    | succ j =>
      rw [show N *ᵥ R (j + 1) = D (j + 1) - be j • D j by rw [hD' j (by omega)]; abel]
      exact Submodule.sub_mem _ (hDY _ _ (by omega)) (Submodule.smul_mem _ _ (hDY _ _ (by omega)))
  have hTD : ∀ j < k, (N * K) *ᵥ D j ∈ Y (j + 2) := by
    intro j hj
    have e : (N * K) *ᵥ D j = (al j)⁻¹ • (N *ᵥ R j - N *ᵥ R (j + 1)) := by
      rw [← mulVec_sub, hR' j hj, sub_sub_cancel, mulVec_smul, smul_smul,
        inv_mul_cancel₀ (hal0 j hj), one_smul, mulVec_mulVec]
    rw [e]
    exact Submodule.smul_mem _ _ (Submodule.sub_mem _ (hmono _ _ (by omega) (hNR j (by omega)))
      (hNR (j + 1) (by omega)))
  have hX'' : ∀ i ≤ k, X i - xs - (x0 - xs) ∈ Y i := by
    intro i
    induction i with
    | zero => intro _; rw [hX0, sub_self]; exact Submodule.zero_mem _
    | succ i ih =>
      intro hi
      rw [hX' i (by omega), show X i + al i • D i - xs - (x0 - xs) =
        (X i - xs - (x0 - xs)) + al i • D i by abel]
      exact Submodule.add_mem _ (hmono _ _ (by omega) (ih (by omega)))
        (Submodule.smul_mem _ _ (hDY _ _ (by omega)))
  have hXk : (pcgSeq K N rhs x0 k).1.x = X k := by rw [hX]
  rw [hXk]
  refine krylov_energy (T := N * K) hK Y k (fun i _ => hmono _ _ (by omega)) ?_ ?_ (hX'' k le_rfl) ?_ p hp hd
  · intro i hi hik v hv
    have hle : Y i ≤ (Y (i + 1)).comap (N * K).mulVecLin := by
      conv_lhs => rw [hYd]
      rw [Submodule.span_le]
      rintro _ ⟨j, hj, rfl⟩
      have hj' : j < i := hj
      exact hmono (j + 2) (i + 1) (by omega) (hTD j (by omega))
    exact hle hv
  · intro hk
    have e : (N * K) *ᵥ (x0 - xs) = -D 0 := by
      rw [hD0, hR0, ← mulVec_mulVec, mulVec_sub, hx, ← mulVec_neg]; congr 1; abel
    rw [e]
    exact Submodule.neg_mem _ (hDY 0 1 (by omega))
  · intro v hv
    have hle : Y k ≤ LinearMap.ker (dotProductBilin ℝ ℝ (R k)) := by
      conv_lhs => rw [hYd]
      rw [Submodule.span_le]
      rintro _ ⟨j, hj, rfl⟩
      exact horth j hj
    have h0 : R k ⬝ᵥ v = 0 := hle hv
    rw [mulVec_sub, hx, ← neg_sub, ← hres, dotProduct_neg, dotProduct_comm, h0, neg_zero]

/-- Polynomials in a product `N K` (`N` positive definite, `K` semidefinite) reduce the energy by
their maximum on the spectrum. -/
theorem poly_energy {K N : Matrix (Fin n) (Fin n) ℝ} (hK : IsPSD K) (hN : IsPD N) {lo hi : ℝ}
    (hs : ∀ (t : ℝ) (v : Fin n → ℝ), v ≠ 0 → (N * K) *ᵥ v = t • v → t ≠ 0 → lo ≤ t ∧ t ≤ hi)
    (p : ℝ[X]) {c : ℝ} (hc : ∀ t, lo ≤ t → t ≤ hi → |p.eval t| ≤ c) (e : Fin n → ℝ) :
    (aeval (N * K) p *ᵥ e) ⬝ᵥ (K *ᵥ (aeval (N * K) p *ᵥ e)) ≤ c ^ 2 * (e ⬝ᵥ (K *ᵥ e)) := by
  -- `N = C C'`
  obtain ⟨R, -, hR, -, -⟩ := LinAlg.ref.chol_posDef N (by
    refine Matrix.PosDef.of_dotProduct_mulVec_pos ?_ fun x hx => ?_
    · exact hN.1
    · simpa using hN.2 x hx)
  obtain ⟨C, hC⟩ : ∃ C, C = Rᵀ := ⟨_, rfl⟩
  have hNC : N = C * Cᵀ := by rw [hC, transpose_transpose, hR]
  have hKs := hK.1
  obtain ⟨H, hH⟩ : ∃ H, H = Cᵀ * K * C := ⟨_, rfl⟩
  have hHs : Hᵀ = H := by
    rw [hH, transpose_mul, transpose_mul, transpose_transpose, hKs, Matrix.mul_assoc]
  obtain ⟨lam, V, hVm, hVo⟩ : ∃ (lam : Fin n → ℝ) (V : Matrix (Fin n) (Fin n) ℝ),
      V * diagonal lam * Vᵀ = H ∧ Vᵀ * V = 1 :=
    ⟨_, _, LinAlg.ref.eigh_mul H hHs, LinAlg.ref.eigh_orth H hHs⟩
  have hVo' : V * Vᵀ = 1 := mul_eq_one_comm.1 hVo
  have hCu : IsUnit C := by
    have : IsUnit (C * Cᵀ).det := by
      rw [← hNC, isUnit_iff_ne_zero]
      intro h0
      obtain ⟨v, hv, hv0⟩ := Matrix.exists_mulVec_eq_zero_iff.2 h0
      have := hN.2 v hv
      rw [hv0, dotProduct_zero] at this
      exact lt_irrefl _ this
    rw [Matrix.isUnit_iff_isUnit_det]
    rw [det_mul] at this
    exact isUnit_of_mul_isUnit_left this
  -- `N K = B diag(lam) B⁻¹` with `B = C V`
  obtain ⟨B, hB⟩ : ∃ B, B = C * V := ⟨_, rfl⟩
  have hBN : B * Bᵀ = N := by
    rw [hB, transpose_mul, hNC, Matrix.mul_assoc, ← Matrix.mul_assoc V, hVo', Matrix.one_mul]
  have hBK : Bᵀ * K * B = diagonal lam := by
    rw [hB, transpose_mul]
    calc Vᵀ * Cᵀ * K * (C * V) = Vᵀ * (Cᵀ * K * C) * V := by simp only [Matrix.mul_assoc]
      _ = Vᵀ * (V * diagonal lam * Vᵀ) * V := by rw [← hH, hVm]
      _ = (Vᵀ * V) * diagonal lam * (Vᵀ * V) := by simp only [Matrix.mul_assoc]
      _ = diagonal lam := by rw [hVo, Matrix.one_mul, Matrix.mul_one]
  have hBu : IsUnit B := by
    rw [hB]
    exact hCu.mul ⟨⟨V, Vᵀ, hVo', hVo⟩, rfl⟩
  have hTB : N * K * B = B * diagonal lam := by
    rw [← hBN, Matrix.mul_assoc, Matrix.mul_assoc, ← Matrix.mul_assoc Bᵀ, hBK]
  have hpB : aeval (N * K) p * B = B * diagonal (fun i => p.eval (lam i)) := by
    have hpow : ∀ i : ℕ, (N * K) ^ i * B = B * diagonal (fun j => lam j ^ i) := by
      intro i
      induction i with
      | zero => simp
      | succ i ih =>
        rw [pow_succ', Matrix.mul_assoc, ih, ← Matrix.mul_assoc, hTB, Matrix.mul_assoc,
          diagonal_mul_diagonal]
        congr 2
        ext j
        rw [pow_succ']
    rw [aeval_eq_sum_range, Matrix.sum_mul]
    rw [show (fun i => p.eval (lam i)) = fun i => ∑ j ∈ Finset.range (p.natDegree + 1),
      p.coeff j * lam i ^ j by ext i; rw [eval_eq_sum_range]]
    ext a b
    rw [Matrix.mul_diagonal, Matrix.sum_apply, Finset.mul_sum]
    refine Finset.sum_congr rfl fun j _ => ?_
    rw [smul_mul, Matrix.smul_apply, hpow, Matrix.mul_diagonal, smul_eq_mul]; ring
  -- the energy in the coordinates `e = B g`
  have hen : ∀ g : Fin n → ℝ, (B *ᵥ g) ⬝ᵥ (K *ᵥ (B *ᵥ g)) = ∑ i, lam i * g i ^ 2 := by
    intro g
    rw [show (B *ᵥ g) ⬝ᵥ (K *ᵥ (B *ᵥ g)) = g ⬝ᵥ ((Bᵀ * K * B) *ᵥ g) by
      rw [← mulVec_mulVec, ← mulVec_mulVec, dotProduct_comm, dot_mulVec, dotProduct_comm], hBK]
    unfold dotProduct
    refine Finset.sum_congr rfl fun i _ => ?_
    rw [mulVec_diagonal]; ring
  have hlam0 : ∀ i, 0 ≤ lam i := by
    intro i
    have := hK.2 (B *ᵥ Pi.single i 1)
    rw [hen, Finset.sum_eq_single i] at this
    · simpa using this
    · intro j _ hj; rw [Pi.single_eq_of_ne hj]; ring
    · intro h; exact absurd (Finset.mem_univ i) h
  have hspec : ∀ i, lam i ≠ 0 → lo ≤ lam i ∧ lam i ≤ hi := by
    intro i hi0
    obtain ⟨u, hu⟩ : ∃ u : Fin n → ℝ, u = B *ᵥ Pi.single i 1 := ⟨_, rfl⟩
    have e1 : (N * K) *ᵥ u = lam i • u := by
      rw [hu, mulVec_mulVec, hTB, ← mulVec_mulVec, ← mulVec_smul]
      congr 1
      ext j
      rw [mulVec_diagonal]
      by_cases h : j = i
      · subst h; simp
      · simp [h]
    refine hs (lam i) u (fun h0 => ?_) e1 hi0
    rw [Matrix.isUnit_iff_isUnit_det] at hBu
    have : (Pi.single i 1 : Fin n → ℝ) = 0 := by
      have h2 := congrArg (B⁻¹ *ᵥ ·) (hu.symm.trans h0)
      simpa only [mulVec_mulVec, Matrix.nonsing_inv_mul _ hBu, one_mulVec, mulVec_zero] using h2
    have := congrFun this i
    simp at this
  obtain ⟨g, hg⟩ : ∃ g, B *ᵥ g = e := by
    rw [Matrix.isUnit_iff_isUnit_det] at hBu
    exact ⟨B⁻¹ *ᵥ e, by rw [mulVec_mulVec, Matrix.mul_nonsing_inv _ hBu, one_mulVec]⟩
  have hpe : aeval (N * K) p *ᵥ e = B *ᵥ (fun i => p.eval (lam i) * g i) := by
    rw [← hg, mulVec_mulVec, hpB, ← mulVec_mulVec]
    congr 1
    ext i
    rw [mulVec_diagonal]
  rw [hpe, hen, ← hg, hen, Finset.mul_sum]
  refine Finset.sum_le_sum fun i _ => ?_
  by_cases h0 : lam i = 0
  · rw [h0]; simp
  · obtain ⟨h1, h2⟩ := hspec i h0
    have h3 := hc _ h1 h2
    have h4 : (p.eval (lam i)) ^ 2 ≤ c ^ 2 := by
      rw [← sq_abs]
      exact pow_le_pow_left₀ (abs_nonneg _) h3 2
    have h5 : 0 ≤ lam i * g i ^ 2 := mul_nonneg (hlam0 i) (sq_nonneg _)
    calc lam i * (p.eval (lam i) * g i) ^ 2 = p.eval (lam i) ^ 2 * (lam i * g i ^ 2) := by ring
      _ ≤ c ^ 2 * (lam i * g i ^ 2) := mul_le_mul_of_nonneg_right h4 h5

/-- the normalised Chebyshev polynomial of an interval -/
theorem chebyshev_poly {lo hi : ℝ} (hlo : 0 < lo) (hle : lo ≤ hi) (k : ℕ) :
    ∃ p : ℝ[X], p.eval 0 = 1 ∧ p.natDegree ≤ k ∧ ∀ t, lo ≤ t → t ≤ hi →
      |p.eval t| ≤ 2 * ((√hi - √lo) / (√hi + √lo)) ^ k := by
  rcases Nat.eq_zero_or_pos k with rfl | hk
  · exact ⟨1, by simp, by simp, fun t _ _ => by simp⟩
  rcases eq_or_lt_of_le hle with rfl | hlt
  · refine ⟨(1 - C lo⁻¹ * X) ^ k, by simp, ?_, fun t h1 h2 => ?_⟩
    · refine natDegree_pow_le.trans ?_
      have : (1 - C lo⁻¹ * X : ℝ[X]).natDegree ≤ 1 := by
        refine (natDegree_sub_le _ _).trans (max_le (by simp) ?_)
        simpa using natDegree_C_mul_X_pow_le lo⁻¹ 1
      calc k * _ ≤ k * 1 := Nat.mul_le_mul_left k this
        _ = k := by omega
    · obtain rfl : t = lo := le_antisymm h2 h1
      simp [hlo.ne', hk.ne']
  have hhi : 0 < hi := hlo.trans hlt
  have hs : √lo < √hi := Real.sqrt_lt_sqrt hlo.le hlt
  have hslo : 0 < √lo := Real.sqrt_pos.2 hlo
  have h1 : √lo * √lo = lo := Real.mul_self_sqrt hlo.le
  have h2 : √hi * √hi = hi := Real.mul_self_sqrt hhi.le
  obtain ⟨ρ, hρ⟩ : ∃ ρ, ρ = (√hi - √lo) / (√hi + √lo) := ⟨_, rfl⟩
  have hρ0 : 0 < ρ := by rw [hρ]; exact div_pos (by linarith) (by linarith)
  obtain ⟨th, hth⟩ : ∃ th, th = -Real.log ρ := ⟨_, rfl⟩
  have hexp : Real.exp th = ρ⁻¹ := by rw [hth, Real.exp_neg, Real.exp_log hρ0]
  have hexp' : Real.exp (-th) = ρ := by rw [hth, neg_neg, Real.exp_log hρ0]
  have hcosh : Real.cosh th = (hi + lo) / (hi - lo) := by
    rw [Real.cosh_eq, hexp, hexp', hρ]
    have a1 : √hi - √lo ≠ 0 := by linarith
    have a2 : √hi + √lo ≠ 0 := by linarith
    have a3 : hi - lo ≠ 0 := by linarith
    rw [inv_div, div_add_div _ _ a1 a2, div_div, div_eq_div_iff (mul_ne_zero (mul_ne_zero a1 a2) two_ne_zero) a3]
    nlinarith
  obtain ⟨q, hq⟩ : ∃ q : ℝ[X], q = (Chebyshev.T ℝ (k : ℤ)).comp
    (C ((hi + lo) / (hi - lo)) - C (2 / (hi - lo)) * X) := ⟨_, rfl⟩
  have hq0 : q.eval 0 = Real.cosh (k * th) := by
    rw [hq, eval_comp]
    simp only [eval_sub, eval_C, eval_mul, eval_X, mul_zero, sub_zero]
    rw [← hcosh, Chebyshev.T_real_cosh]
    norm_cast
  have hcpos : 0 < Real.cosh (k * th) := Real.cosh_pos _
  have hcge : ρ⁻¹ ^ k / 2 ≤ Real.cosh (k * th) := by
    rw [Real.cosh_eq, ← hexp, ← Real.exp_nat_mul]
    have := Real.exp_pos (-(k * th))
    linarith
  refine ⟨C (Real.cosh (k * th))⁻¹ * q, ?_, ?_, fun t ht1 ht2 => ?_⟩
  · rw [eval_mul, eval_C, hq0, inv_mul_cancel₀ hcpos.ne']
  · refine (natDegree_C_mul_le _ _).trans ?_
    rw [hq]
    refine natDegree_comp_le.trans ?_
    have d1 : (Chebyshev.T ℝ (k : ℤ)).natDegree = k := by simp
    have d2 : (C ((hi + lo) / (hi - lo)) - C (2 / (hi - lo)) * X : ℝ[X]).natDegree ≤ 1 := by
      refine (natDegree_sub_le _ _).trans (max_le (by simp) (by simpa using natDegree_C_mul_X_pow_le (2 / (hi - lo)) 1))
    rw [d1]
    calc k * _ ≤ k * 1 := Nat.mul_le_mul_left k d2
      _ = k := by omega
  · rw [eval_mul, eval_C, abs_mul, abs_of_pos (inv_pos.2 hcpos), hq, eval_comp]
    simp only [eval_sub, eval_C, eval_mul, eval_X]
    have h3 : |(hi + lo) / (hi - lo) - 2 / (hi - lo) * t| ≤ 1 := by
      have a3 : 0 < hi - lo := by linarith
      rw [show (hi + lo) / (hi - lo) - 2 / (hi - lo) * t = (hi + lo - 2 * t) / (hi - lo) by ring,
        abs_div, abs_of_pos a3, div_le_one a3, abs_le]
      constructor <;> linarith
    have h4 := Chebyshev.abs_eval_T_real_le_one (k : ℤ) h3
    rw [← hρ]
    calc (Real.cosh (k * th))⁻¹ * _ ≤ (Real.cosh (k * th))⁻¹ * 1 :=
          mul_le_mul_of_nonneg_left h4 (inv_pos.2 hcpos).le
      _ = (Real.cosh (k * th))⁻¹ := mul_one _
      _ ≤ (ρ⁻¹ ^ k / 2)⁻¹ := inv_anti₀ (by positivity) hcge
      _ = 2 * ρ ^ k := by rw [inv_div, inv_pow, div_inv_eq_mul]

/-- Krylov optimality of the LSQR iterates. -/
theorem seqP_krylov {p q : ℕ} {F : Matrix (Fin p) (Fin q) ℝ} {b : Fin p → ℝ} {x0 xs : Fin q → ℝ}
    {damp : ℝ} {k : ℕ} (hx : (Fᵀ * F + damp ^ 2 • (1 : Matrix (Fin q) (Fin q) ℝ)) *ᵥ xs =
      Fᵀ *ᵥ b + damp ^ 2 • x0)
    (h : ∀ j < k, (seqP F b x0 damp j).arnorm ≠ 0) (P : ℝ[X]) (hP : P.eval 0 = 1)
    (hd : P.natDegree ≤ k) {K : Matrix (Fin q) (Fin q) ℝ} (hKd : K = Fᵀ * F + damp ^ 2 • 1) :
    ((seqP F b x0 damp k).x - xs) ⬝ᵥ (K *ᵥ ((seqP F b x0 damp k).x - xs)) ≤
      (aeval K P *ᵥ (x0 - xs)) ⬝ᵥ (K *ᵥ (aeval K P *ᵥ (x0 - xs))) := by
  rw [← hKd] at hx
  have hKmul : ∀ v, K *ᵥ v = Fᵀ *ᵥ (F *ᵥ v) + damp ^ 2 • v := fun v => by
    rw [hKd, add_mulVec, smul_mulVec, one_mulVec, mulVec_mulVec]
  have hK : IsPSD K := by
    refine ⟨by rw [hKd, transpose_add, transpose_smul, transpose_mul, transpose_transpose,
      transpose_one], fun x => ?_⟩
    rw [hKmul, dotProduct_add, dotProduct_smul, dot_mulVec, transpose_transpose, ← sqNorm_eq_dot,
      ← sqNorm_eq_dot, smul_eq_mul]
    exact add_nonneg (sqNorm_nonneg _) (mul_nonneg (sq_nonneg _) (sqNorm_nonneg _))
  -- the gradient
  have hgrad : ∀ x, K *ᵥ (x - xs) = -(Fᵀ *ᵥ (b - F *ᵥ x) - damp ^ 2 • (x - x0)) := by
    intro x
    rw [mulVec_sub, hx, hKmul, mulVec_sub]
    module
  by_cases hk : (seqP F b x0 damp k).arnorm = 0
  · have := (seqP_facts h).arnorm
    rw [hk] at this
    rw [hgrad, norm2_eq_zero.1 this.symm, neg_zero, dotProduct_zero]
    exact hK.2 _
  have h' : ∀ j ≤ k, (seqP F b x0 damp j).arnorm ≠ 0 := by
    intro j hj
    rcases Nat.lt_or_eq_of_le hj with hj | rfl
    · exact h j hj
    · exact hk
  have hgv : ∀ j ≤ k, ∃ c : ℝ, K *ᵥ ((seqP F b x0 damp j).x - xs) = c • (seqP F b x0 damp j).v := by
    intro j hj
    obtain ⟨t1, g1, t2, g2, y, SU, I⟩ := seqP_inv_span (k := j) fun i hi => h' i (by omega)
    refine ⟨-((seqP F b x0 damp j).phibar * (seqP F b x0 damp j).rhobar), ?_⟩
    have e : Fᵀ *ᵥ (b - F *ᵥ (seqP F b x0 damp j).x) - damp ^ 2 • ((seqP F b x0 damp j).x - x0) =
        Fᵀ *ᵥ (b - F *ᵥ (seqP F b x0 damp j).x) + damp • (-(damp • ((seqP F b x0 damp j).x - x0))) := by
      module
    rw [hgrad, e, I.r1, I.r2, mulVec_add, mulVec_smul]
    have : (seqP F b x0 damp j).phibar • (Fᵀ *ᵥ t1) + Fᵀ *ᵥ g1 +
        damp • ((seqP F b x0 damp j).phibar • t2 + g2) =
        (seqP F b x0 damp j).phibar • (Fᵀ *ᵥ t1 + damp • t2) + (Fᵀ *ᵥ g1 + damp • g2) := by module
    rw [this, I.n1, I.n2, add_zero, smul_smul, neg_smul]
  refine krylov_energy (T := K) hK (vSpan F b x0 damp) k (fun i _ => le_sup_left) ?_ ?_ ?_ ?_ P hP hd
  · intro i hi hik v hv
    obtain ⟨t1, g1, t2, g2, y, SU, I⟩ := seqP_inv_span (k := i) fun j hj => h' j (by omega)
    rw [hKmul]
    exact Submodule.add_mem _ (I.fa _ (I.fd v hv))
      (Submodule.smul_mem _ _ (Submodule.mem_sup_left hv))
  · intro hk0
    obtain ⟨c, hc⟩ := hgv 0 (by omega)
    rw [show (seqP F b x0 damp 0).x = x0 from rfl] at hc
    rw [hc]
    exact Submodule.smul_mem _ _ (Submodule.mem_sup_right (Submodule.mem_span_singleton_self _))
  · rw [show (seqP F b x0 damp k).x - xs - (x0 - xs) = (seqP F b x0 damp k).x - x0 by abel]
    exact seqP_mem_span h
  · intro v hv
    obtain ⟨t1, g1, t2, g2, y, SU, I⟩ := seqP_inv_span h'
    obtain ⟨c, hc⟩ := hgv k le_rfl
    rw [hc, dotProduct_smul, dotProduct_comm, I.vd v hv, smul_zero]

end Parla
