import Verif.Proof.EVD2
import Verif.Proof.EVD
import Verif.Props.LowRank

/-! # Error of a Nystrom approximation -/

namespace Parla.Proof

open Matrix Parla Spec

variable {n c l t : ℕ}

/-- a square root of `A + nu I` -/
noncomputable def sqrtShift (V : Matrix (Fin n) (Fin n) ℝ) (lam : Fin n → ℝ) (nu : ℝ) : Matrix (Fin n) (Fin n) ℝ :=
  V * diagonal (fun i => √(lam i + nu)) * Vᵀ

variable {A V : Matrix (Fin n) (Fin n) ℝ} {lam : Fin n → ℝ} {nu : ℝ} {S : Matrix (Fin n) (Fin c) ℝ}
  {R : Matrix (Fin c) (Fin c) ℝ} {B : Matrix (Fin n) (Fin c) ℝ}

theorem sqrtShift_svd (hV : IsSVD A V lam V) (hnu : 0 ≤ nu) :
    IsSVD (sqrtShift V lam nu) V (fun i => √(lam i + nu)) V where
  left := hV.left
  right := hV.right
  nonneg i := Real.sqrt_nonneg _
  anti i j h := Real.sqrt_le_sqrt (by linarith [hV.anti h])
  eq := rfl

theorem sqrtShift_transpose : (sqrtShift V lam nu)ᵀ = sqrtShift V lam nu := by
  unfold sqrtShift
  simp only [transpose_mul, transpose_transpose, diagonal_transpose, Matrix.mul_assoc]

theorem sqrtShift_mul (hV : IsSVD A V lam V) (hnu : 0 ≤ nu) :
    sqrtShift V lam nu * sqrtShift V lam nu = A + nu • 1 := by
  have h1 : Vᵀ * V = 1 := hV.left
  have h2 : V * Vᵀ = 1 := mul_eq_one_comm.1 h1
  have e : sqrtShift V lam nu * sqrtShift V lam nu = V * diagonal (fun i => lam i + nu) * Vᵀ := by
    unfold sqrtShift
    simp only [Matrix.mul_assoc]
    rw [← Matrix.mul_assoc Vᵀ V, h1, Matrix.one_mul, ← Matrix.mul_assoc (diagonal _) (diagonal _),
      diagonal_mul_diagonal]
    congr 3
    funext i
    exact Real.mul_self_sqrt (by linarith [hV.nonneg i])
  have e2 : diagonal (fun i => lam i + nu) = diagonal lam + nu • (1 : Matrix (Fin n) (Fin n) ℝ) := by
    rw [← diagonal_one, ← diagonal_smul, diagonal_add]
    congr 1
    funext i
    simp
  rw [e, e2, Matrix.mul_add, Matrix.add_mul, ← hV.eq, Matrix.mul_smul, Matrix.smul_mul, Matrix.mul_one, h2]

/-- the orthonormal factor `(A + nu I)^(1/2) S R⁻¹` -/
theorem nystrom_factor (hV : IsSVD A V lam V) (hnu : 0 ≤ nu) (h : Nystrom A nu S R B) :
    ∃ Q : Matrix (Fin n) (Fin c) ℝ, OrthoCols Q ∧ sqrtShift V lam nu * Q = B ∧
      colSpace (sqrtShift V lam nu * S) ≤ colSpace Q := by
  obtain ⟨H, hH⟩ : ∃ H, H = sqrtShift V lam nu := ⟨_, rfl⟩
  have hHH : H * H = A + nu • 1 := hH ▸ sqrtShift_mul hV hnu
  have hHt : Hᵀ = H := hH ▸ sqrtShift_transpose
  rw [← hH]
  have e0 : H * (H * S) = A * S + nu • S := by
    rw [← Matrix.mul_assoc, hHH, Matrix.add_mul, Matrix.smul_mul, Matrix.one_mul]
  refine ⟨H * S * R⁻¹, ?_, ?_, ?_⟩
  · unfold OrthoCols
    have e1 : (H * S * R⁻¹)ᵀ * (H * S * R⁻¹) = R⁻¹ᵀ * (Sᵀ * (H * (H * S))) * R⁻¹ := by
      simp only [transpose_mul, hHt, Matrix.mul_assoc]
    rw [e1, e0, ← h.gram, Matrix.mul_assoc, Matrix.mul_assoc Rᵀ, mul_nonsing_inv _ h.unit, Matrix.mul_one,
      transpose_nonsing_inv, nonsing_inv_mul _ (by rw [det_transpose]; exact h.unit)]
  · rw [← Matrix.mul_assoc, e0, ← h.fac, Matrix.mul_assoc, mul_nonsing_inv _ h.unit, Matrix.mul_one]
  · rw [colSpace_le_iff]
    exact ⟨R, by rw [Matrix.mul_assoc, nonsing_inv_mul _ h.unit, Matrix.mul_one]⟩

theorem froSq_diag_mul (d : Fin n → ℝ) (M : Matrix (Fin n) (Fin l) ℝ) :
    froSq (diagonal d * M) = ∑ i, d i ^ 2 * ∑ j, M i j ^ 2 := by
  unfold froSq
  refine Finset.sum_congr rfl fun i _ => ?_
  rw [Finset.mul_sum]
  exact Finset.sum_congr rfl fun j _ => by rw [diagonal_mul, mul_pow]

theorem tail_sqrt_sq (hV : ∀ i, 0 ≤ lam i) (hnu : 0 ≤ nu) (k : ℕ) (i : Fin n) :
    tail (fun i => √(lam i + nu)) k i ^ 2 = tail (fun i => lam i + nu) k i := by
  unfold tail
  split
  · norm_num
  · exact Real.sq_sqrt (by linarith [hV i])

theorem nystrom_nu_pos (hV : IsSVD A V lam V) (hnu : nu = √n * eps * fro (A * S)) (h : Nystrom A nu S R B)
    (hc : 0 < c) : 0 < nu := by
  have hn : 0 < n := by have := h.width; omega
  have hf : A * S ≠ 0 := by
    intro h0
    have hz : nu = 0 := by rw [hnu, h0, fro_zero, mul_zero]
    have hg := h.gram
    rw [h0, hz, zero_smul, add_zero, Matrix.mul_zero] at hg
    have hR := h.unit
    have : R = 0 := by
      have : froSq R = 0 := by rw [froSq_eq_trace, hg]; simp
      exact froSq_eq_zero.1 this
    have hne : Nonempty (Fin c) := ⟨⟨0, hc⟩⟩
    rw [this, Matrix.det_zero] at hR
    exact hR.ne_zero rfl
  have : 0 < fro (A * S) := lt_of_le_of_ne (fro_nonneg _) (fun h => hf (fro_eq_zero.1 h.symm))
  have hn' : (0 : ℝ) < n := by exact_mod_cast hn
  rw [hnu]
  unfold eps
  positivity

/-- the trace of `A + nu I - B B'` -/
theorem nystrom_trace_error (hV : IsSVD A V lam V) (hnu0 : 0 ≤ nu) (hnu : nu = √n * eps * fro (A * S))
    (h : Nystrom A nu S R B) (ht : t ≤ n) (S0 : Matrix (Fin n) (Fin l) ℝ) (hS : colSpace S0 ≤ colSpace S)
    (W : Matrix (Fin l) (Fin t) ℝ) (hW : ((Vᵀ * S0).submatrix (Fin.castLE ht) id) * W = 1) :
    ∑ i, (lam i + nu) - froSq B ≤
      ∑ i, tail (fun i => lam i + nu) t i * (1 + ∑ j, (Vᵀ * S0 * W) i j ^ 2) := by
  obtain ⟨Q, hQ, hB, hr⟩ := nystrom_factor hV hnu0 h
  have hsv := sqrtShift_svd hV hnu0
  have hpos : ∀ j : Fin t, 0 < √(lam (Fin.castLE ht j) + nu) := by
    intro j
    have hc : 0 < c := by
      rcases Nat.eq_zero_or_pos c with hc | hc
      · exfalso
        subst hc
        have h0 : S0 = 0 := by
          obtain ⟨C, hC⟩ := colSpace_le_iff.1 hS
          rw [hC]; ext i j; simp [mul_apply]
        have := congrFun (congrFun hW j) j
        rw [h0] at this
        simp [mul_apply] at this
      · exact hc
    have := nystrom_nu_pos hV hnu h hc
    exact Real.sqrt_pos.2 (by linarith [hV.nonneg (Fin.castLE ht j)])
  have key := range_bound hsv ht hpos 1 (fun i j hij => by
      rw [one_mul]
      exact hsv.anti (by rw [Fin.le_def]; have := j.2; simp; omega)) 0 (Vᵀ * S0) W hW hQ (by
      have e : V * diagonal (fun i => √(lam i + nu) ^ (0 + 1)) * (Vᵀ * S0) = sqrtShift V lam nu * S0 := by
        unfold sqrtShift
        simp only [zero_add, pow_one, Matrix.mul_assoc]
      rw [e]
      exact (colSpace_mul_mono _ hS).trans hr)
  rw [froSq_sub_proj hQ, svd_froSq hsv, one_pow, one_mul, froSq_diag_mul] at key
  have e1 : froSq (Qᵀ * sqrtShift V lam nu) = froSq B := by
    rw [← froSq_transpose, transpose_mul, sqrtShift_transpose, transpose_transpose, hB]
  have e2 : ∑ i, √(lam i + nu) ^ 2 = ∑ i, (lam i + nu) :=
    Finset.sum_congr rfl fun i _ => Real.sq_sqrt (by linarith [hV.nonneg i])
  rw [e1, e2] at key
  refine key.trans (le_of_eq ?_)
  unfold tailSq
  rw [← Finset.sum_add_distrib]
  refine Finset.sum_congr rfl fun i _ => ?_
  rw [tail_sqrt_sq hV.nonneg hnu0]
  ring

/-- the discarded singular values of `B` -/
theorem nystrom_tail_le (la : LinAlg) (hV : IsSVD A V lam V) (hnu0 : 0 ≤ nu) (h : Nystrom A nu S R B) (k : ℕ) :
    tailSq (la.svdFull B).2.1 k ≤ tailSum (fun i => lam i + nu) k := by
  obtain ⟨Q, hQ, hB, hr⟩ := nystrom_factor hV hnu0 h
  have hsv := sqrtShift_svd hV hnu0
  obtain ⟨hU, hW⟩ := svdFull_econ la B
  have hBs : IsSVD B ((la.svdFull B).1.submatrix id (minL : Fin (min n c) → Fin n)) (la.svdFull B).2.1
      ((la.svdFull B).2.2.submatrix (minR : Fin (min n c) → Fin c) id)ᵀ :=
    ⟨hU, by unfold OrthoCols; rw [transpose_transpose]; exact hW, la.svdFull_nonneg B, la.svdFull_anti B, by
      rw [transpose_transpose]; exact (la.svdFull_mul B).symm⟩
  obtain ⟨X, hX, hXe⟩ := Props.exists_best hsv k
  refine (ey_rank hBs (X * Q) ((rank_mul_le_left _ _).trans hX)).trans ?_
  have e : B - X * Q = (sqrtShift V lam nu - X) * Q := by rw [Matrix.sub_mul, hB]
  rw [e, ← froSq_transpose, transpose_mul]
  refine (froSq_orth_transpose_mul_le hQ _).trans ?_
  rw [froSq_transpose, hXe]
  unfold tailSq tailSum
  exact le_of_eq (Finset.sum_congr rfl fun i _ => tail_sqrt_sq hV.nonneg hnu0 k i)

theorem psd_entry {M : Matrix (Fin n) (Fin n) ℝ} (hM : IsPSD M) (i j : Fin n) : M i j ^ 2 ≤ M i i * M j j := by
  have hs : M j i = M i j := congrFun (congrFun hM.1 i) j
  have key : ∀ a b : ℝ, 0 ≤ a ^ 2 * M i i + 2 * (a * b) * M i j + b ^ 2 * M j j := by
    intro a b
    have := hM.2 (a • Pi.single i 1 + b • Pi.single j 1)
    simp only [mulVec_add, mulVec_smul, mulVec_single_one, add_dotProduct, smul_dotProduct, dotProduct_add,
      dotProduct_smul, single_one_dotProduct, smul_eq_mul, col_apply] at this
    rw [hs] at this
    linarith
  have h1 := key 1 0
  have h2 := key 0 1
  norm_num at h1 h2
  rcases h2.eq_or_lt with h0 | h0
  · have h3 := key 1 (-(M i i + 1) * M i j)
    have h4 := key (M i j) (-(M i i + 1))
    rw [← h0] at h4 ⊢
    nlinarith [sq_nonneg (M i j)]
  · have h4 := key (M j j) (-(M i j))
    nlinarith

/-- the Frobenius norm of a positive semidefinite matrix is at most its trace -/
theorem fro_le_trace {M : Matrix (Fin n) (Fin n) ℝ} (hM : IsPSD M) : fro M ≤ M.trace := by
  have h0 : 0 ≤ M.trace := by
    refine Finset.sum_nonneg fun i _ => ?_
    have := hM.2 (Pi.single i 1)
    simpa using this
  have : froSq M ≤ M.trace ^ 2 := by
    unfold froSq
    rw [sq, Matrix.trace, Finset.sum_mul_sum]
    exact Finset.sum_le_sum fun i _ => Finset.sum_le_sum fun j _ => psd_entry hM i j
  unfold fro
  exact (Real.sqrt_le_sqrt this).trans (le_of_eq (Real.sqrt_sq h0))

end Parla.Proof
