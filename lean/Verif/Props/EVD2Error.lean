import Verif.Proof.EVD2Error
import Verif.Props.EVD2
import Verif.Props.Expected

/-! # C75: how far from `A` the approximation of EVD2 is -/

namespace Parla.Props

open Matrix Parla Spec MeasureTheory

variable {G : Type} {n : ℕ}

theorem sum_take_tail {p : ℕ} (r : ℕ) (f : Fin p → ℝ) :
    ∑ i : Fin (min r p), f (takeIdx r p i) + ∑ i, tail f (min r p) i = ∑ i, f i := by
  have h : ∑ i : Fin (min r p), f (takeIdx r p i) = ∑ i : Fin p, if i.1 < min r p then f i else 0 := by
    rw [← Finset.sum_filter]
    refine Finset.sum_bij (fun i _ => takeIdx r p i) ?_ ?_ ?_ ?_
    · intro i _
      rw [Finset.mem_filter]
      exact ⟨Finset.mem_univ _, i.2⟩
    · intro i _ j _ e
      exact takeIdx_injective _ _ e
    · intro i hi
      exact ⟨⟨i.1, (Finset.mem_filter.1 hi).2⟩, Finset.mem_univ _, rfl⟩
    · intro i _; rfl
  rw [h, ← Finset.sum_add_distrib]
  refine Finset.sum_congr rfl fun i _ => ?_
  unfold tail
  split <;> simp

theorem fro_smul_le {m p : ℕ} (u : ℝ) (M : Matrix (Fin m) (Fin p) ℝ) : fro (u • M) = |u| * fro M := by
  unfold fro
  rw [show froSq (u • M) = u ^ 2 * froSq M by
    unfold froSq
    rw [Finset.mul_sum]
    refine Finset.sum_congr rfl fun i _ => ?_
    rw [Finset.mul_sum]
    exact Finset.sum_congr rfl fun j _ => by rw [Matrix.smul_apply, smul_eq_mul, mul_pow],
    Real.sqrt_mul (sq_nonneg _), Real.sqrt_sq_eq_abs]

theorem evd2Post_error (la : LinAlg) {A V : Matrix (Fin n) (Fin n) ℝ} (hA : IsPSD A) {lam : Fin n → ℝ}
    (hV : IsSVD A V lam V) {k : ℕ} {S : Cols n} {out : EVDOut n} (h : evd2Post la A k S = .ok out)
    {t l : ℕ} (ht : t ≤ n) (S0 : Matrix (Fin n) (Fin l) ℝ) (hS : colSpace S0 ≤ colSpace S.mat)
    (W : Matrix (Fin l) (Fin t) ℝ) (hW : firstRows ht (Vᵀ * S0) * W = 1) (nu : ℝ)
    (hnue : nu = Real.sqrt n * eps * fro (A * S.mat)) :
    fro (A - out.V * diagonal out.lamb * out.Vᵀ) ≤ tailSum (fun i => lam i + nu) out.r +
      ∑ i, tail (fun i => lam i + nu) t i * (1 + ∑ j, (Vᵀ * S0 * W) i j ^ 2) + nu * √n := by
  obtain ⟨R, B, hny, -, r, hr, -, -, rfl⟩ := evd2Post_open la hA.1 h
  have hnu := evd2Nu_nonneg A S.mat
  rw [show evd2Nu A S.mat = nu from hnue.symm] at *
  have htr := Proof.nystrom_trace_error hV hnu hnue hny ht S0 hS W hW
  have htl := Proof.nystrom_tail_le la hV hnu hny (min r (min n S.c))
  obtain ⟨hU, hV2⟩ := svdFull_econ la B
  obtain ⟨σ, hσ⟩ : ∃ σ, σ = (la.svdFull B).2.1 := ⟨_, rfl⟩
  obtain ⟨U, hUe⟩ : ∃ U, U = (la.svdFull B).1.submatrix id (minL : Fin (min n S.c) → Fin n) := ⟨_, rfl⟩
  obtain ⟨Y, hY⟩ : ∃ Y, Y = (la.svdFull B).2.2.submatrix (minR : Fin (min n S.c) → Fin S.c) id := ⟨_, rfl⟩
  obtain ⟨X, hX⟩ : ∃ X : Matrix (Fin n) (Fin (min r (min n S.c))) ℝ,
    X = (la.svdFull B).1.submatrix id (minL ∘ takeIdx r (min n S.c)) := ⟨_, rfl⟩
  have hB : B = U * diagonal σ * Y := by rw [hUe, hσ, hY]; exact (la.svdFull_mul B).symm
  rw [← hUe] at hU
  rw [← hY] at hV2
  have hXU : X = U.submatrix id (takeIdx r (min n S.c)) := by rw [hX, hUe]; rfl
  have hXo : Xᵀ * X = 1 := by rw [hXU]; exact orth_submatrix hU (takeIdx_injective _ _)
  change fro (A - (la.svdFull B).1.submatrix id (minL ∘ takeIdx r (min n S.c)) *
    diagonal (fun i => takev r (la.svdFull B).2.1 i ^ 2 - nu) *
    ((la.svdFull B).1.submatrix id (minL ∘ takeIdx r (min n S.c)))ᵀ) ≤ tailSum _ (min r (min n S.c)) + _ + _
  rw [← hX, ← hσ]
  rw [← hσ] at htl
  -- the difference, shifted
  obtain ⟨D, hD⟩ : ∃ D : Fin (min r (min n S.c)) → ℝ, D = fun i => takev r σ i ^ 2 := ⟨_, rfl⟩
  obtain ⟨M, hM⟩ : ∃ M, M = A + nu • 1 - X * diagonal D * Xᵀ := ⟨_, rfl⟩
  have hfB : froSq B = ∑ i, σ i ^ 2 := by
    rw [hB, froSq_mul_orth hV2, froSq_orth_mul hU, Proof.froSq_diag]
  have hpsd : IsPSD M := by
    refine ⟨?_, fun x => ?_⟩
    · rw [hM]
      simp only [transpose_sub, transpose_add, transpose_smul, transpose_one, transpose_mul, transpose_transpose,
        diagonal_transpose, hA.1, Matrix.mul_assoc]
    · rw [hM, sub_mulVec, dotProduct_sub, quad_diag, add_mulVec, smul_mulVec, one_mulVec, dotProduct_add,
        dotProduct_smul, smul_eq_mul, ← sqNorm_eq_dot]
      have h1 := hny.le hA hnu x
      have hBt : sqNorm (Bᵀ *ᵥ x) = ∑ i, σ i ^ 2 * (Uᵀ *ᵥ x) i ^ 2 := by
        have e : Bᵀ *ᵥ x = Yᵀ *ᵥ (diagonal σ *ᵥ (Uᵀ *ᵥ x)) := by
          conv_lhs => rw [hB]
          simp only [transpose_mul, diagonal_transpose, mulVec_mulVec]
        rw [e, ← sqNorm_diag, sqNorm_eq_dot, dot_mulVec, transpose_transpose, mulVec_mulVec, hV2,
          one_mulVec, ← sqNorm_eq_dot]
      have h2 : ∑ i, D i * (Xᵀ *ᵥ x) i ^ 2 ≤ ∑ i, σ i ^ 2 * (Uᵀ *ᵥ x) i ^ 2 := by
        rw [← sum_take_tail r fun i => σ i ^ 2 * (Uᵀ *ᵥ x) i ^ 2]
        have e : ∑ i, D i * (Xᵀ *ᵥ x) i ^ 2 = ∑ i : Fin (min r (min n S.c)),
            σ (takeIdx r (min n S.c) i) ^ 2 * (Uᵀ *ᵥ x) (takeIdx r (min n S.c) i) ^ 2 := by
          rw [hD, hXU]; rfl
        rw [e]
        have : 0 ≤ ∑ i, tail (fun i => σ i ^ 2 * (Uᵀ *ᵥ x) i ^ 2) (min r (min n S.c)) i := by
          refine Finset.sum_nonneg fun i _ => ?_
          unfold tail
          split
          · exact le_rfl
          · exact mul_nonneg (sq_nonneg _) (sq_nonneg _)
        linarith
      linarith
  have htrM : M.trace = ∑ i, (lam i + nu) - ∑ i, D i := by
    have e1 : A.trace = ∑ i, lam i := by
      rw [hV.eq, Matrix.mul_assoc, trace_mul_comm, Matrix.mul_assoc, show Vᵀ * V = 1 from hV.left, Matrix.mul_one]
      simp [trace]
    have e2 : (X * diagonal D * Xᵀ).trace = ∑ i, D i := by
      rw [Matrix.mul_assoc, trace_mul_comm, Matrix.mul_assoc, hXo, Matrix.mul_one]
      simp [trace]
    rw [hM, trace_sub, trace_add, e1, e2, trace_smul, trace_one, Finset.sum_add_distrib]
    simp [mul_comm]
  have hDs : ∑ i, D i + tailSq σ (min r (min n S.c)) = ∑ i, σ i ^ 2 := by
    rw [← sum_take_tail r fun i => σ i ^ 2]
    congr 1
    · rw [hD]; rfl
    · unfold tailSq tail
      refine Finset.sum_congr rfl fun i _ => ?_
      split <;> simp
  have hfM := Proof.fro_le_trace hpsd
  have hI : fro (1 - X * Xᵀ : Matrix (Fin n) (Fin n) ℝ) ≤ √n := by
    unfold fro
    refine Real.sqrt_le_sqrt ?_
    have h1 := froSq_sub_proj hXo (1 : Matrix (Fin n) (Fin n) ℝ)
    rw [Matrix.mul_one] at h1
    have h2 : froSq (1 : Matrix (Fin n) (Fin n) ℝ) = n := Proof.froSq_orth (by simp)
    rw [h1, h2]
    linarith [froSq_nonneg Xᵀ]
  have e : A - X * diagonal (fun i => takev r σ i ^ 2 - nu) * Xᵀ = M + (-nu) • (1 - X * Xᵀ) := by
    have e1 : diagonal (fun i => takev r σ i ^ 2 - nu) =
        diagonal D - nu • (1 : Matrix (Fin (min r (min n S.c))) (Fin (min r (min n S.c))) ℝ) := by
      rw [← diagonal_one, ← diagonal_smul, diagonal_sub, hD]
      congr 1
      funext i
      simp
    rw [e1, hM, Matrix.mul_sub, Matrix.sub_mul, Matrix.mul_smul, Matrix.mul_one, Matrix.smul_mul, smul_sub, neg_smul,
      neg_smul]
    abel
  rw [e]
  refine (fro_triangle _ _).trans ?_
  rw [fro_smul_le, abs_neg, abs_of_nonneg hnu]
  have h3 := mul_le_mul_of_nonneg_left hI hnu
  linarith

/-- **C75**.  Whenever EVD2 returns on a positive semidefinite `A` with eigenvalues `lam` and eigenvectors
`V`: no run is better than the truncated eigendecomposition, and for every `t`, every `S0` whose columns are
in the range of the sketch `S` and every right inverse `W` of the first `t` rows of `V' S0`, the error is at most
the sum of the eigenvalues after the number of components returned, plus the sum of the eigenvalues after
the first `t`, each weighted with one plus the squared norm of its row of `V' S0 W`, all of these eigenvalues
being shifted by the regularisation `nu`, plus `nu sqrt(n)`. -/
theorem C75_evd2_error (la : LinAlg) (skOp : RowSketcher G) (A : Matrix (Fin n) (Fin n) ℝ) (hA : IsPSD A)
    {V : Matrix (Fin n) (Fin n) ℝ} {lam : Fin n → ℝ} (hV : IsSVD A V lam V)
    (k : ℤ) (tol : Tol) (over : ℕ) (w w' : World G) (out : EVDOut n)
    (h : evd2Call la skOp A k tol over w = .ok (out, w')) :
    √(tailSq lam k.toNat) ≤ fro (A - out.V * diagonal out.lamb * out.Vᵀ) ∧
    ∃ S w1, skOp n n A (k + over).toNat (afterTolWarning tol w) = .ok (S, w1) ∧
      ∀ (nu : ℝ), nu = Real.sqrt n * eps * fro (A * S.mat) →
      ∀ (t l : ℕ) (ht : t ≤ n) (S0 : Matrix (Fin n) (Fin l) ℝ), colSpace S0 ≤ colSpace S.mat →
      ∀ W : Matrix (Fin l) (Fin t) ℝ, firstRows ht (Vᵀ * S0) * W = 1 →
      fro (A - out.V * diagonal out.lamb * out.Vᵀ) ≤ tailSum (fun i => lam i + nu) out.r +
        ∑ i, tail (fun i => lam i + nu) t i * (1 + ∑ j, (Vᵀ * S0 * W) i j ^ 2) + nu * √n := by
  obtain ⟨-, -, S', w1', -, hr, -⟩ := C16_evd2_psd la skOp A hA k tol over w w' out h
  obtain ⟨hk, hk', S, w1, hS, hp⟩ := evd2_open la skOp A k tol over w w' out h
  refine ⟨?_, S, w1, hS, fun nu hnu t l ht S0 hS0 W hW => evd2Post_error la hA hV hp ht S0 hS0 W hW nu hnu⟩
  unfold fro
  refine Real.sqrt_le_sqrt (Proof.ey_rank hV _ ?_)
  rw [Matrix.mul_assoc]
  refine (rank_mul_le_left _ _).trans ((rank_le_width _).trans ?_)
  omega

/-! ### Power iterations on a symmetric matrix -/

theorem orthoCols_loop (la : LinAlg) (A : Matrix (Fin n) (Fin n) ℝ) (q done : ℕ) (S T : Cols n)
    (w w' : World G) (hS : OrthoCols S.mat)
    (h : rs1Loop (orth la) 1 A q done S w = .ok (T, w')) : OrthoCols T.mat := by
  induction q generalizing done S w with
  | zero =>
    have h2 : (Except.ok (S, w) : Except PyErr (Cols n × World G)) = .ok (T, w') := h
    cases h2
    exact hS
  | succ q ih =>
    obtain ⟨Y, w1, Z, w2, h1, h2, h3⟩ := rs1Loop_succ h
    rw [maybeStab_one, Except.ok.injEq, Prod.mk.injEq] at h2
    have hZ : OrthoCols Z.mat := by rw [← h2.1]; exact la.qr_orth _
    exact ih _ _ _ hZ h3

theorem rs1_symm (la : LinAlg) {gen : SkOpGen G} {p : ℤ} {A : Matrix (Fin n) (Fin n) ℝ} (hA : Aᵀ = A) {k : ℕ}
    {S : Cols n} {w w' : World G} (h : rs1Call gen p (orth la) 1 A k w = .ok (S, w')) :
    ∃ S0 w₁, gen n k w = .ok (S0, w₁) ∧ colSpace (A ^ p.toNat * S0) ≤ colSpace S.mat ∧
      (p = 0 → S = ⟨k, S0⟩) ∧ (0 < p → OrthoCols S.mat) := by
  obtain ⟨h1, h2⟩ := C02_rs1_range_parla la gen p (orth la) (Or.inl rfl) 1 A k w w' S h
  obtain ⟨hp, ⟨hev, S0, w1, g1, g2⟩ | ⟨hev, S0, w1, S1, w2, g1, g2, g3⟩⟩ := rs1Call_open h
  · obtain ⟨T0, ⟨w₁, hg⟩, hle, -⟩ := h1 hev
    rw [g1] at hg
    cases hg
    refine ⟨S0, w1, g1, ?_, ?_, ?_⟩
    · rw [hA, ← sq, ← pow_mul, show 2 * (p / 2).toNat = p.toNat by omega] at hle
      exact hle
    · rintro rfl
      have : (Except.ok ((⟨k, S0⟩ : Cols n), w1) : Except PyErr (Cols n × World G)) = .ok (S, w') := g2
      cases this
      rfl
    · intro h0
      obtain ⟨q, hq⟩ : ∃ q, (p / 2).toNat = q + 1 := ⟨(p / 2).toNat - 1, by omega⟩
      rw [hq] at g2
      obtain ⟨Y, w3, Z, w4, h4, h5, h6⟩ := rs1Loop_succ g2
      rw [maybeStab_one, Except.ok.injEq, Prod.mk.injEq] at h5
      have hZ : OrthoCols Z.mat := by rw [← h5.1]; exact la.qr_orth _
      exact orthoCols_loop la A _ _ _ _ _ _ hZ h6
  · obtain ⟨T0, ⟨w₁, hg⟩, hle, -⟩ := h2 (by omega)
    rw [g1] at hg
    cases hg
    refine ⟨S0, w1, g1, ?_, ?_, ?_⟩
    · rw [hA, ← sq, ← pow_mul, ← Matrix.mul_assoc, ← pow_succ,
        show 2 * ((p - 1) / 2).toNat + 1 = p.toNat by omega] at hle
      exact hle
    · rintro rfl
      exact absurd rfl hev
    · intro _
      rw [if_pos rfl] at g2
      simp [callStab, Py.bind_apply] at g2
      have hZ : OrthoCols S1.mat := by rw [← g2.1]; exact la.qr_orth _
      exact orthoCols_loop la A _ _ _ _ _ _ hZ g3

theorem evd_power {A V : Matrix (Fin n) (Fin n) ℝ} {lam : Fin n → ℝ} (hV : IsSVD A V lam V) (p : ℕ) :
    Vᵀ * A ^ p = diagonal (fun i => lam i ^ p) * Vᵀ := by
  have h1 : Vᵀ * A = diagonal lam * Vᵀ := by
    conv_lhs => rw [hV.eq]
    rw [← Matrix.mul_assoc, ← Matrix.mul_assoc, show Vᵀ * V = 1 from hV.left, Matrix.one_mul]
  induction p with
  | zero => simp
  | succ p ih =>
    rw [pow_succ, ← Matrix.mul_assoc, ih, Matrix.mul_assoc, h1, ← Matrix.mul_assoc, diagonal_mul_diagonal]
    congr 2

/-- weights after `p` powers -/
theorem power_weights {A V : Matrix (Fin n) (Fin n) ℝ} {lam : Fin n → ℝ} (hV : IsSVD A V lam V) {t l : ℕ} (ht : t ≤ n)
    (hpos : ∀ j : Fin t, 0 < lam (Fin.castLE ht j)) (τ : ℝ)
    (hτ : ∀ (i : Fin n) (j : Fin t), t ≤ i.1 → lam i ≤ τ * lam (Fin.castLE ht j)) (p : ℕ)
    (S0 : Matrix (Fin n) (Fin l) ℝ) (W0 : Matrix (Fin l) (Fin t) ℝ) (hW : firstRows ht (Vᵀ * S0) * W0 = 1) :
    ∃ W : Matrix (Fin l) (Fin t) ℝ, firstRows ht (Vᵀ * (A ^ p * S0)) * W = 1 ∧
      ∀ i : Fin n, t ≤ i.1 → ∑ j, (Vᵀ * (A ^ p * S0) * W) i j ^ 2 ≤ τ ^ (2 * p) * ∑ j, (Vᵀ * S0 * W0) i j ^ 2 := by
  have e : Vᵀ * (A ^ p * S0) = diagonal (fun i => lam i ^ p) * (Vᵀ * S0) := by
    rw [← Matrix.mul_assoc, evd_power hV, Matrix.mul_assoc]
  refine ⟨W0 * diagonal (fun j => (lam (Fin.castLE ht j) ^ p)⁻¹), ?_, ?_⟩
  · have e2 : firstRows ht (Vᵀ * (A ^ p * S0)) =
        diagonal (fun j => lam (Fin.castLE ht j) ^ p) * firstRows ht (Vᵀ * S0) := by
      rw [e]
      ext i j
      unfold firstRows
      rw [diagonal_mul, submatrix_apply, submatrix_apply, diagonal_mul]
    rw [e2, Matrix.mul_assoc, ← Matrix.mul_assoc (firstRows _ _), hW, Matrix.one_mul, diagonal_mul_diagonal, ← diagonal_one]
    congr 1
    funext j
    exact mul_inv_cancel₀ (pow_pos (hpos j) p).ne'
  · intro i hi
    rw [Finset.mul_sum]
    refine Finset.sum_le_sum fun j _ => ?_
    rw [e, ← Matrix.mul_assoc, mul_diagonal, Matrix.mul_assoc, diagonal_mul, mul_pow, mul_pow]
    have h1 := hpos j
    have h2 := hτ i j hi
    have h3 := hV.nonneg i
    have h4 : (lam i ^ p) ^ 2 ≤ τ ^ (2 * p) * (lam (Fin.castLE ht j) ^ p) ^ 2 := by
      have := pow_le_pow_left₀ h3 h2 (2 * p)
      rw [mul_pow] at this
      calc (lam i ^ p) ^ 2 = lam i ^ (2 * p) := by rw [← pow_mul, mul_comm]
        _ ≤ _ := this
        _ = _ := by rw [← pow_mul, mul_comm p]
    have h5 : 0 < (lam (Fin.castLE ht j) ^ p) ^ 2 := by positivity
    rw [inv_pow, mul_assoc, mul_comm (_ ^ 2) (_ ⁻¹), ← mul_assoc]
    refine mul_le_mul_of_nonneg_right ?_ (sq_nonneg _)
    rw [← div_eq_mul_inv, div_le_iff₀ h5]
    exact h4

theorem tailSum_shift (lam : Fin n → ℝ) (nu : ℝ) (k : ℕ) :
    tailSum (fun i => lam i + nu) k = tailSum lam k + nu * tailSum (fun _ : Fin n => (1 : ℝ)) k := by
  unfold tailSum
  rw [Finset.mul_sum, ← Finset.sum_add_distrib]
  refine Finset.sum_congr rfl fun i _ => ?_
  unfold tail
  split <;> ring

theorem tailSum_ones (k : ℕ) (hk : k ≤ n) : tailSum (fun _ : Fin n => (1 : ℝ)) k = (n : ℝ) - k := by
  have h := sum_take_tail k fun _ : Fin n => (1 : ℝ)
  rw [min_eq_left hk] at h
  simp at h
  unfold tailSum
  linarith

/-- the weights of the bound in terms of `sketchBound` -/
theorem weights_le {lam : Fin n → ℝ} (hl : ∀ i, 0 ≤ lam i) {nu : ℝ} (hnu : 0 ≤ nu) {t : ℕ} (T : ℝ)
    (a b : Fin n → ℝ) (hab : ∀ i : Fin n, t ≤ i.1 → a i ≤ T * b i) :
    ∑ i, tail (fun i => lam i + nu) t i * (1 + a i) ≤
      (tailSum lam t + T * ∑ i, tail (fun i => √(lam i)) t i ^ 2 * b i) +
      nu * (tailSum (fun _ : Fin n => (1 : ℝ)) t + T * ∑ i, tail (fun _ : Fin n => (1 : ℝ)) t i ^ 2 * b i) := by
  unfold tailSum
  simp only [Finset.mul_sum, ← Finset.sum_add_distrib]
  refine Finset.sum_le_sum fun i _ => ?_
  unfold tail
  split
  · simp
  · rename_i hi
    have h1 := hab i (by omega)
    rw [Real.sq_sqrt (hl i)]
    have h2 : 0 ≤ lam i + nu := by linarith [hl i]
    nlinarith [mul_le_mul_of_nonneg_left h1 h2]

/-! ### Gaussian sketches -/

theorem froSq_draw_mean (A : Matrix (Fin n) (Fin n) ℝ) (l : ℕ) :
    Integrable (fun Z => froSq (A * Proof.drawMat Z)) (normals n l) ∧
      ∫ Z, froSq (A * Proof.drawMat Z) ∂(normals n l) = l * froSq A := by
  have e : ∀ (Z : Fin n × Fin l → ℝ), froSq (A * Proof.drawMat Z) =
      ∑ i, ∑ j, (∑ p : Fin n × Fin l, A i p.1 * (1 : Matrix (Fin l) (Fin l) ℝ) p.2 j * Z p) ^ 2 := by
    intro Z
    conv_lhs => rw [← Matrix.mul_one (A * Proof.drawMat Z)]
    unfold froSq
    exact Finset.sum_congr rfl fun i _ => Finset.sum_congr rfl fun j _ => by rw [Proof.DHW_apply]
  simp only [e]
  have h := fun (i : Fin n) (j : Fin l) => Proof.gauss_linear_sq
    (fun p : Fin n × Fin l => A i p.1 * (1 : Matrix (Fin l) (Fin l) ℝ) p.2 j)
  change Integrable _ (Proof.gauss _) ∧ ∫ Z, _ ∂(Proof.gauss _) = _
  refine ⟨integrable_finsetSum _ fun i _ => integrable_finsetSum _ fun j _ => (h i j).1, ?_⟩
  rw [integral_finsetSum _ fun i _ => integrable_finsetSum _ fun j _ => (h i j).1]
  unfold froSq
  rw [Finset.mul_sum]
  refine Finset.sum_congr rfl fun i _ => ?_
  rw [integral_finsetSum _ fun j _ => (h i j).1]
  have : ∀ j : Fin l, ∑ p : Fin n × Fin l, (A i p.1 * (1 : Matrix (Fin l) (Fin l) ℝ) p.2 j) ^ 2 = ∑ q, A i q ^ 2 := by
    intro j
    rw [Fintype.sum_prod_type]
    refine Finset.sum_congr rfl fun q _ => ?_
    rw [Finset.sum_eq_single j]
    · simp
    · intro b _ hb; simp [one_apply_ne hb]
    · simp
  rw [Finset.sum_congr rfl fun j _ => (h i j).2.trans (this j)]
  simp

theorem evd_pos {A V : Matrix (Fin n) (Fin n) ℝ} {lam : Fin n → ℝ} (hV : IsSVD A V lam V) {t : ℕ} (ht : t ≤ n)
    (hr : t ≤ A.rank) (j : Fin t) : 0 < lam (Fin.castLE ht j) := by
  by_contra hj
  have hj : lam (Fin.castLE ht j) ≤ 0 := not_lt.1 hj
  obtain ⟨B, hB, hAB⟩ := exists_best hV j.1
  have h0 : tailSq lam j.1 = 0 := by
    refine Finset.sum_eq_zero fun i _ => ?_
    unfold tail
    split
    · ring
    · rename_i hij
      have h1 : lam i ≤ lam (Fin.castLE ht j) := hV.anti (by
        rw [Fin.le_def]; simpa using hij)
      have : lam i = 0 := le_antisymm (h1.trans hj) (hV.nonneg i)
      rw [this]; ring
  rw [h0] at hAB
  rw [sub_eq_zero.1 (froSq_eq_zero.1 hAB)] at hr
  have := j.2
  omega

/-- **C75** (Gaussian sketches).  `evd2(A, k, over, p, rng)` on a positive semidefinite `A` of rank at least
`k`, with `k + over ≤ n`.  For almost every array of normals `Z`, every run in which the generator
returns `Z` returns `k` components, and its error is between that of the best rank-`k` approximation and
`g(Z) + nu(Z) h(Z)`, where `nu = sqrt(n) eps sqrt(q(Z))` is the regularisation used.  The means of `g`, `h` and `q` are
explicit: `g` has mean `∑_{i>k} λ_i + (1 + τ^(2(p-1)) t / (k + over - t - 1)) ∑_{i>t} λ_i`. -/
theorem C75_evd2_gaussian (A : Matrix (Fin n) (Fin n) ℝ) (hA : IsPSD A) {V : Matrix (Fin n) (Fin n) ℝ}
    {lam : Fin n → ℝ} (hV : IsSVD A V lam V) (k over : ℕ) (hk : 0 < k) (hk' : k < n) (ho : k + over ≤ n)
    (hr : k ≤ A.rank) (t : ℕ) (ht : t ≤ n) (htr : t ≤ A.rank) (htk : t + 2 ≤ k + over) (τ : ℝ)
    (hτ : ∀ (i : Fin n) (j : Fin t), t ≤ i.1 → lam i ≤ τ * lam (Fin.castLE ht j)) (p : ℤ) (hp : 1 ≤ p) :
    ∃ g h q : (Fin n × Fin (k + over) → ℝ) → ℝ,
      ((∀ Z, 0 ≤ g Z) ∧ Integrable g (normals n (k + over)) ∧
        ∫ Z, g Z ∂(normals n (k + over)) =
          tailSum lam k + tailSum lam t * (1 + τ ^ (2 * (p - 1).toNat) * (t / (((k + over : ℕ) : ℝ) - t - 1)))) ∧
      ((∀ Z, 0 ≤ h Z) ∧ Integrable h (normals n (k + over)) ∧
        ∫ Z, h Z ∂(normals n (k + over)) = ((n : ℝ) - k) +
          ((n : ℝ) - t) * (1 + τ ^ (2 * (p - 1).toNat) * (t / (((k + over : ℕ) : ℝ) - t - 1))) + √n) ∧
      ((∀ Z, 0 ≤ q Z) ∧ Integrable q (normals n (k + over)) ∧ ∫ Z, q Z ∂(normals n (k + over)) = fro A ^ 2 ∧
        (2 ≤ p → ∀ Z, q Z = fro A ^ 2)) ∧
      ∀ᵐ Z ∂(normals n (k + over)), ∀ (G : Type) (la : LinAlg) (R : NpRng G) (w : World G),
        NextNormal R w n (k + over) Z →
        ∃ out w', evd2 la (gaussianOperator R true) A k over p w = .ok (out, w') ∧ out.r = k ∧ OrthoCols out.V ∧
          √(tailSq lam k) ≤ fro (A - out.V * diagonal out.lamb * out.Vᵀ) ∧
          fro (A - out.V * diagonal out.lamb * out.Vᵀ) ≤ g Z + √n * eps * √(q Z) * h Z := by
  have hpos := evd_pos hV ht htr
  obtain ⟨T, hT⟩ : ∃ T, T = τ ^ (2 * (p - 1).toNat) := ⟨_, rfl⟩
  have hT0 : 0 ≤ T := by rw [hT, pow_mul]; positivity
  obtain ⟨l, hl⟩ : ∃ l, l = k + over := ⟨_, rfl⟩
  have hl0 : (0 : ℝ) < l := by exact_mod_cast (by omega : 0 < l)
  have htail : ∀ (s : Fin n → ℝ) (j : ℕ), (∀ i, 0 ≤ s i) → 0 ≤ tailSum s j := by
    intro s j hs
    refine Finset.sum_nonneg fun i _ => ?_
    unfold tail
    split
    · exact le_rfl
    · exact hs i
  have hones : ∀ i : Fin n, (0 : ℝ) ≤ 1 := fun _ => zero_le_one
  have hsq : ∀ j, tailSq (fun i => √(lam i)) j = tailSum lam j := by
    intro j
    unfold tailSq tailSum tail
    refine Finset.sum_congr rfl fun i _ => ?_
    split
    · norm_num
    · exact Real.sq_sqrt (hV.nonneg i)
  have hsq1 : ∀ j, tailSq (fun _ : Fin n => (1 : ℝ)) j = tailSum (fun _ : Fin n => (1 : ℝ)) j := by
    intro j
    unfold tailSq tailSum tail
    refine Finset.sum_congr rfl fun i _ => ?_
    split <;> norm_num
  obtain ⟨⟨g1, g2⟩, hae⟩ := sketchBound_mean (fun i => √(lam i)) t l ht (by omega) hV.left
  obtain ⟨⟨f1, f2⟩, -⟩ := sketchBound_mean (fun _ : Fin n => (1 : ℝ)) t l ht (by omega) hV.left
  obtain ⟨q1, q2⟩ := froSq_draw_mean A l
  have hae2 := C59_evd2 A hA (by rintro rfl; rw [rank_zero] at hr; omega) k hk hk' over ho p hp
  rw [show startRows (p - 1) n n = n by unfold startRows; split <;> rfl] at hae2
  rw [← hT]
  rw [← hl] at hae2 ⊢
  refine ⟨fun Z => tailSum lam k + (tailSum lam t + T * sketchBound (fun i => √(lam i)) t l ht V Z),
    fun Z => tailSum (fun _ : Fin n => (1 : ℝ)) k + (tailSum (fun _ : Fin n => (1 : ℝ)) t +
      T * sketchBound (fun _ : Fin n => (1 : ℝ)) t l ht V Z) + √n,
    fun Z => if p = 1 then (1 / l) * froSq (A * Proof.drawMat Z) else fro A ^ 2, ⟨?_, ?_, ?_⟩, ⟨?_, ?_, ?_⟩,
    ⟨?_, ?_, ?_, ?_⟩, ?_⟩
  · intro Z
    have h1 := htail lam k hV.nonneg
    have h2 := htail lam t hV.nonneg
    have h3 := mul_nonneg hT0 (show 0 ≤ sketchBound (fun i => √(lam i)) t l ht V Z from froSq_nonneg _)
    simp only
    linarith
  · exact (integrable_const _).add ((integrable_const _).add (g1.const_mul _))
  · refine (mean_const_add ((integrable_const _).add (g1.const_mul T)) (tailSum lam k)
      (mean_const_add (g1.const_mul T) (tailSum lam t) (integral_const_mul T _))).trans ?_
    rw [g2, hsq]
    ring
  · intro Z
    have h1 := htail _ k hones
    have h2 := htail _ t hones
    have h3 := mul_nonneg hT0 (show 0 ≤ sketchBound (fun _ : Fin n => (1 : ℝ)) t l ht V Z from froSq_nonneg _)
    have h4 := Real.sqrt_nonneg (n : ℝ)
    simp only
    linarith
  · exact ((integrable_const _).add ((integrable_const _).add (f1.const_mul _))).add (integrable_const _)
  · refine (integral_add ((integrable_const _).add ((integrable_const _).add (f1.const_mul T))) (integrable_const _)).trans ?_
    have := mean_const_add ((integrable_const _).add (f1.const_mul T)) (tailSum (fun _ : Fin n => (1 : ℝ)) k)
      (mean_const_add (f1.const_mul T) (tailSum (fun _ : Fin n => (1 : ℝ)) t) (integral_const_mul T _))
    refine (congrArg (· + _) this).trans ?_
    rw [f2, hsq1, tailSum_ones k hk'.le, tailSum_ones t ht]
    simp
    ring
  · intro Z
    simp only
    split
    · exact mul_nonneg (by positivity) (froSq_nonneg _)
    · positivity
  · split
    · exact q1.const_mul _
    · exact integrable_const _
  · split
    · rw [integral_const_mul, q2, fro_sq]
      field_simp
    · simp
  · intro h2 Z
    exact if_neg (by omega)
  · filter_upwards [hae, hae2] with Z hZ hZ2 G la R w hw
    obtain ⟨out, w', e1, e2, -⟩ := hZ2 G la R w hw
    have hrk := e2 hr
    refine ⟨out, w', e1, hrk, ?_⟩
    unfold evd2 at e1
    rw [Py.assert_pos_bind hp] at e1
    obtain ⟨-, -, -, -, -, -, ho', -⟩ := C16_evd2_psd la _ A hA k .nan over w w' out e1
    obtain ⟨hlow, S, w1, hS, hb⟩ := C75_evd2_error la _ A hA hV k .nan over w w' out e1
    refine ⟨ho', by simpa using hlow, ?_⟩
    have hS' : rs1Call (gaussianOperator R true) (p - 1) (orth la) 1 A l w = .ok (S, w1) := by
      rw [show ((k : ℤ) + over).toNat = l by omega] at hS; exact hS
    obtain ⟨S0, w2, hg, hcol, hzero, horth⟩ := rs1_symm la hA.1 hS'
    have hgen : gaussianOperator R true n l w = .ok (√(1 / (min n l : ℕ)) • Proof.drawMat Z,
        { w with rng := (R.standardNormal n l w.rng).2 }) := by
      rw [(C55_gaussian_result R n l w).1 (by omega), show (R.standardNormal n l w.rng).1 = _ from hw]
      rfl
    rw [hgen] at hg
    obtain ⟨u, hu⟩ : ∃ u : ℝ, u = √(1 / (min n l : ℕ)) := ⟨_, rfl⟩
    have hu2 : u ^ 2 = 1 / l := by
      rw [hu, Real.sq_sqrt (by positivity), min_eq_right (by omega)]
    have hu0 : u ≠ 0 := by
      intro h0
      rw [h0] at hu2
      have : (0 : ℝ) < 1 / l := by positivity
      rw [← hu2] at this
      norm_num at this
    rw [← hu] at hg
    cases hg
    obtain ⟨nu, hnu⟩ : ∃ nu, nu = Real.sqrt n * eps * fro (A * S.mat) := ⟨_, rfl⟩
    have he : (0 : ℝ) ≤ √n * eps := by unfold eps; positivity
    have hnu0 : 0 ≤ nu := by rw [hnu]; exact mul_nonneg he (fro_nonneg _)
    have hW0 : firstRows ht (Vᵀ * (u • Proof.drawMat Z)) *
        (u⁻¹ • Proof.rpinv (firstRows ht (Vᵀ * Proof.drawMat Z))) = 1 := by
      rw [Matrix.mul_smul Vᵀ]
      have : firstRows ht (u • (Vᵀ * Proof.drawMat Z)) = u • firstRows ht (Vᵀ * Proof.drawMat Z) := rfl
      rw [this]
      simp only [Matrix.smul_mul, Matrix.mul_smul, smul_smul, inv_mul_cancel₀ hu0, one_smul]
      exact hZ
    obtain ⟨W, hW, hWle⟩ := power_weights hV ht hpos τ hτ (p - 1).toNat _ _ hW0
    have hfin := hb nu hnu t l ht _ hcol W hW
    rw [← hT] at hWle
    have hwe := weights_le hV.nonneg hnu0 T _ _ hWle
    have ebase : Vᵀ * (u • Proof.drawMat Z) * (u⁻¹ • Proof.rpinv (firstRows ht (Vᵀ * Proof.drawMat Z))) =
        Vᵀ * Proof.drawMat Z * Proof.rpinv (firstRows ht (Vᵀ * Proof.drawMat Z)) := by
      simp only [Matrix.smul_mul, Matrix.mul_smul, smul_smul, inv_mul_cancel₀ hu0, one_smul]
    rw [ebase, ← Proof.froSq_diag_mul, ← Proof.froSq_diag_mul] at hwe
    have hq : nu ≤ √n * eps * √(if p = 1 then (1 / l) * froSq (A * Proof.drawMat Z) else fro A ^ 2) := by
      rw [hnu]
      refine mul_le_mul_of_nonneg_left ?_ he
      split
      · rename_i h1
        have hS0 := hzero (by omega)
        rw [hS0]
        change fro (A * (u • Proof.drawMat Z)) ≤ _
        rw [Matrix.mul_smul, fro_smul_le, ← hu2, Real.sqrt_mul (sq_nonneg _), Real.sqrt_sq_eq_abs, fro]
      · have hS0 := horth (by omega)
        rw [Real.sqrt_sq (fro_nonneg _)]
        unfold fro
        refine Real.sqrt_le_sqrt ?_
        rw [← froSq_transpose, transpose_mul]
        refine (Proof.froSq_orth_transpose_mul_le hS0 _).trans (le_of_eq (froSq_transpose _))
    have hh0 : 0 ≤ tailSum (fun _ : Fin n => (1 : ℝ)) k + (tailSum (fun _ : Fin n => (1 : ℝ)) t +
      T * sketchBound (fun _ : Fin n => (1 : ℝ)) t l ht V Z) + √n := by
      have h1 := htail _ k hones
      have h2 := htail _ t hones
      have h3 := mul_nonneg hT0 (show 0 ≤ sketchBound (fun _ : Fin n => (1 : ℝ)) t l ht V Z from froSq_nonneg _)
      have h4 := Real.sqrt_nonneg (n : ℝ)
      linarith
    have hmul := mul_le_mul_of_nonneg_right hq hh0
    have hts : tailSum (fun i => lam i + nu) out.r =
        tailSum lam k + nu * tailSum (fun _ : Fin n => (1 : ℝ)) k := by rw [hrk, tailSum_shift]
    rw [hts] at hfin
    change _ ≤ (_ + T * sketchBound (fun i => √(lam i)) t l ht V Z) +
      nu * (_ + T * sketchBound (fun _ : Fin n => (1 : ℝ)) t l ht V Z) at hwe
    linarith

/-- **C75** (expected error, two passes or more).  The mean of the bound on the error is
`∑_{i>k} λ_i + (1 + τ^(2(p-1)) t / (k + over - t - 1)) ∑_{i>t} λ_i` plus `eps n^(3/2) ‖A‖_F` times a constant. -/
theorem C75_evd2_expected (A : Matrix (Fin n) (Fin n) ℝ) (hA : IsPSD A) {V : Matrix (Fin n) (Fin n) ℝ}
    {lam : Fin n → ℝ} (hV : IsSVD A V lam V) (k over : ℕ) (hk : 0 < k) (hk' : k < n) (ho : k + over ≤ n)
    (hr : k ≤ A.rank) (t : ℕ) (ht : t ≤ n) (htr : t ≤ A.rank) (htk : t + 2 ≤ k + over) (τ : ℝ)
    (hτ : ∀ (i : Fin n) (j : Fin t), t ≤ i.1 → lam i ≤ τ * lam (Fin.castLE ht j)) (p : ℤ) (hp : 2 ≤ p) :
    ∃ g : (Fin n × Fin (k + over) → ℝ) → ℝ, (∀ Z, 0 ≤ g Z) ∧ Integrable g (normals n (k + over)) ∧
      ∫ Z, g Z ∂(normals n (k + over)) =
        tailSum lam k + tailSum lam t * (1 + τ ^ (2 * (p - 1).toNat) * (t / (((k + over : ℕ) : ℝ) - t - 1))) +
        √n * eps * fro A * (((n : ℝ) - k) +
          ((n : ℝ) - t) * (1 + τ ^ (2 * (p - 1).toNat) * (t / (((k + over : ℕ) : ℝ) - t - 1))) + √n) ∧
      ∀ᵐ Z ∂(normals n (k + over)), ∀ (G : Type) (la : LinAlg) (R : NpRng G) (w : World G),
        NextNormal R w n (k + over) Z →
        ∃ out w', evd2 la (gaussianOperator R true) A k over p w = .ok (out, w') ∧ out.r = k ∧ OrthoCols out.V ∧
          √(tailSq lam k) ≤ fro (A - out.V * diagonal out.lamb * out.Vᵀ) ∧
          fro (A - out.V * diagonal out.lamb * out.Vᵀ) ≤ g Z := by
  obtain ⟨g, h, q, ⟨g1, g2, g3⟩, ⟨h1, h2, h3⟩, ⟨-, -, -, q4⟩, hae⟩ :=
    C75_evd2_gaussian A hA hV k over hk hk' ho hr t ht htr htk τ hτ p (by omega)
  have he : (0 : ℝ) ≤ √n * eps * fro A := by
    have := fro_nonneg A
    unfold eps; positivity
  refine ⟨fun Z => g Z + √n * eps * fro A * h Z, fun Z => add_nonneg (g1 Z) (mul_nonneg he (h1 Z)),
    g2.add (h2.const_mul _), ?_, ?_⟩
  · rw [integral_add g2 (h2.const_mul _), integral_const_mul, g3, h3]
  · filter_upwards [hae] with Z hZ G la R w hw
    obtain ⟨out, w', e1, e2, e3, e4, e5⟩ := hZ G la R w hw
    rw [q4 hp, Real.sqrt_sq (fro_nonneg _)] at e5
    exact ⟨out, w', e1, e2, e3, e4, e5⟩

/-- **C75** (with high probability, any number of passes).  Except for draws of probability at most `3 δ`, the
error is at most the mean of `g` over `δ`, plus `sqrt(n) eps ‖A‖_F / sqrt(δ)` times the mean of `h` over `δ`. -/
theorem C75_evd2_probability (A : Matrix (Fin n) (Fin n) ℝ) (hA : IsPSD A) {V : Matrix (Fin n) (Fin n) ℝ}
    {lam : Fin n → ℝ} (hV : IsSVD A V lam V) (k over : ℕ) (hk : 0 < k) (hk' : k < n) (ho : k + over ≤ n)
    (hr : k ≤ A.rank) (t : ℕ) (ht : t ≤ n) (htr : t ≤ A.rank) (htk : t + 2 ≤ k + over) (τ : ℝ)
    (hτ : ∀ (i : Fin n) (j : Fin t), t ≤ i.1 → lam i ≤ τ * lam (Fin.castLE ht j)) (p : ℤ) (hp : 1 ≤ p)
    (δ : ℝ) (hδ : 0 < δ) :
    ∃ E : Set (Fin n × Fin (k + over) → ℝ), normals n (k + over) E ≤ ENNReal.ofReal (3 * δ) ∧
      ∀ Z ∉ E, ∀ (G : Type) (la : LinAlg) (R : NpRng G) (w : World G), NextNormal R w n (k + over) Z →
        ∃ out w', evd2 la (gaussianOperator R true) A k over p w = .ok (out, w') ∧ out.r = k ∧ OrthoCols out.V ∧
          fro (A - out.V * diagonal out.lamb * out.Vᵀ) ≤
            (tailSum lam k + tailSum lam t *
              (1 + τ ^ (2 * (p - 1).toNat) * (t / (((k + over : ℕ) : ℝ) - t - 1)))) / δ +
            √n * eps * (fro A / √δ) * ((((n : ℝ) - k) +
              ((n : ℝ) - t) * (1 + τ ^ (2 * (p - 1).toNat) * (t / (((k + over : ℕ) : ℝ) - t - 1))) + √n) / δ) := by
  obtain ⟨g, h, q, ⟨g1, g2, g3⟩, ⟨h1, h2, h3⟩, ⟨q1, q2, q3, -⟩, hae⟩ :=
    C75_evd2_gaussian A hA hV k over hk hk' ho hr t ht htr htk τ hτ p hp
  obtain ⟨a, ha⟩ : ∃ a, a = tailSum lam k + tailSum lam t *
    (1 + τ ^ (2 * (p - 1).toNat) * (t / (((k + over : ℕ) : ℝ) - t - 1))) := ⟨_, rfl⟩
  obtain ⟨b, hb⟩ : ∃ b, b = ((n : ℝ) - k) +
    ((n : ℝ) - t) * (1 + τ ^ (2 * (p - 1).toNat) * (t / (((k + over : ℕ) : ℝ) - t - 1))) + √n := ⟨_, rfl⟩
  rw [← ha] at g3 ⊢
  rw [← hb] at h3 ⊢
  have m1 := markov g1 g2 g3 hδ
  have m2 := markov h1 h2 h3 hδ
  have m3 := markov q1 q2 q3 hδ
  obtain ⟨N, hN⟩ : ∃ N : Set (Fin n × Fin (k + over) → ℝ), N = {Z | ¬ ∀ (G : Type) (la : LinAlg) (R : NpRng G) (w : World G),
        NextNormal R w n (k + over) Z →
        ∃ out w', evd2 la (gaussianOperator R true) A k over p w = .ok (out, w') ∧ out.r = k ∧ OrthoCols out.V ∧
          √(tailSq lam k) ≤ fro (A - out.V * diagonal out.lamb * out.Vᵀ) ∧
          fro (A - out.V * diagonal out.lamb * out.Vᵀ) ≤ g Z + √n * eps * √(q Z) * h Z} := ⟨_, rfl⟩
  have hN0 : normals n (k + over) N = 0 := by rw [hN]; exact ae_iff.1 hae
  refine ⟨(({Z | a / δ < g Z} ∪ {Z | b / δ < h Z}) ∪ {Z | fro A ^ 2 / δ < q Z}) ∪ N, ?_, ?_⟩
  · refine (measure_union_le _ _).trans ?_
    rw [hN0, add_zero]
    refine (measure_union_le _ _).trans ((add_le_add ((measure_union_le _ _).trans (add_le_add m1 m2)) m3).trans ?_)
    rw [← ENNReal.ofReal_add hδ.le hδ.le, ← ENNReal.ofReal_add (by positivity) hδ.le]
    exact ENNReal.ofReal_le_ofReal (by linarith)
  · intro Z hZ G la R w hw
    simp only [Set.mem_union, not_or, Set.mem_ofPred_eq, not_lt] at hZ
    obtain ⟨⟨⟨hg, hh⟩, hq⟩, hZN⟩ := hZ
    rw [hN, Set.mem_ofPred_eq, not_not] at hZN
    obtain ⟨out, w', e1, e2, e3, -, e5⟩ := hZN G la R w hw
    refine ⟨out, w', e1, e2, e3, e5.trans (add_le_add hg ?_)⟩
    have he : (0 : ℝ) ≤ √n * eps := by unfold eps; positivity
    have hs : √(q Z) ≤ fro A / √δ := by
      refine (Real.sqrt_le_sqrt hq).trans (le_of_eq ?_)
      rw [Real.sqrt_div (sq_nonneg _), Real.sqrt_sq (fro_nonneg _)]
    have hf : 0 ≤ fro A / √δ := div_nonneg (fro_nonneg _) (Real.sqrt_nonneg _)
    exact mul_le_mul (mul_le_mul_of_nonneg_left hs he) hh (h1 Z) (mul_nonneg he hf)

/-- every positive semidefinite matrix has the decomposition used above -/
theorem exists_evd {A : Matrix (Fin n) (Fin n) ℝ} (hA : IsPSD A) :
    ∃ (V : Matrix (Fin n) (Fin n) ℝ) (lam : Fin n → ℝ), IsSVD A V lam V := by
  obtain ⟨v, hv⟩ : ∃ v, v = (LinAlg.ref.eigh A).1 := ⟨_, rfl⟩
  obtain ⟨W, hW⟩ : ∃ W, W = (LinAlg.ref.eigh A).2 := ⟨_, rfl⟩
  have hWo : Wᵀ * W = 1 := hW ▸ LinAlg.ref.eigh_orth A hA.1
  have hWA : W * diagonal v * Wᵀ = A := by rw [hW, hv]; exact LinAlg.ref.eigh_mul A hA.1
  obtain ⟨σ, hσ⟩ : ∃ σ : Equiv.Perm (Fin n), σ = LinAlg.ref.argsort (fun i => -v i) := ⟨_, rfl⟩
  have hs : Monotone ((fun i => -v i) ∘ σ) := by rw [hσ]; exact LinAlg.ref.argsort_mono _
  refine ⟨W.submatrix id σ, v ∘ σ, orth_submatrix hWo σ.injective, orth_submatrix hWo σ.injective, ?_, ?_, ?_⟩
  · intro i
    have h1 := hA.2 (W *ᵥ Pi.single (σ i) 1)
    have e : (W *ᵥ Pi.single (σ i) 1) ⬝ᵥ (A *ᵥ (W *ᵥ Pi.single (σ i) 1)) = v (σ i) := by
      conv_lhs => rw [← hWA]
      rw [quad_diag, mulVec_mulVec, hWo, one_mulVec, Finset.sum_eq_single (σ i)]
      · simp
      · intro b _ hb; simp [Pi.single_eq_of_ne hb]
      · simp
    rw [e] at h1
    exact h1
  · intro i j hij
    have := hs hij
    simp only [Function.comp] at this ⊢
    linarith
  · rw [← hWA]
    ext i j
    rw [mul_apply, mul_apply, ← Equiv.sum_comp σ]
    refine Finset.sum_congr rfl fun l _ => ?_
    rw [mul_diagonal, mul_diagonal]
    rfl

-- the hypotheses of the C75 theorems are met: `diag(8, 4, 2, 1, ...)`-like data, here `A = I` of order 5, k = 2,
-- over = 2, t = 2
example : ∃ (A V : Matrix (Fin 5) (Fin 5) ℝ) (lam : Fin 5 → ℝ), IsPSD A ∧ IsSVD A V lam V ∧ 2 + 2 ≤ 5 ∧ 2 ≤ A.rank ∧
    ∀ (i : Fin 5) (j : Fin 2), 2 ≤ i.1 → lam i ≤ 1 * lam (Fin.castLE (by omega) j) := by
  refine ⟨1, 1, fun _ => 1, ⟨by simp, fun x => ?_⟩, ⟨by unfold OrthoCols; simp, by unfold OrthoCols; simp,
    fun _ => zero_le_one, fun _ _ _ => le_rfl, ?_⟩, by omega, by simp, by simp⟩
  · rw [one_mulVec, ← sqNorm_eq_dot]; exact sqNorm_nonneg _
  · rw [diagonal_one]; simp

end Parla.Props
