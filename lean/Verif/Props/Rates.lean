import Verif.Proof.Krylov
import Verif.Props.PcSS1
import Verif.Props.PcSS2
import Verif.Props.LSQR
import Verif.Props.SPOExact

/-! # Properties C66, C67: convergence rates of `pcg`, `PcSS1`, `lsqr` and `PcSS2` -/

namespace Parla.Props

open Matrix Parla Spec Polynomial

variable {m n r p q : ℕ}

/-! ## C66 -/

/-- A successful `pcg` call ends in the state of the recurrences after `log.length` steps. -/
theorem pcg_run_state {K N : Matrix (Fin n) (Fin n) ℝ} (hK : IsPSD K) (hN : IsPD N)
    {rhs x0 xs x : Fin n → ℝ} (hx : K *ᵥ xs = rhs) {L : ℤ} {tol : ℝ} (ht : 0 ≤ tol) {log : List ℝ}
    (h : pcg (K *ᵥ ·) rhs (N *ᵥ ·) L tol x0 = .ok (x, log)) :
    x = (pcgSeq K N rhs x0 log.length).1.x ∧
      ∀ j < log.length, (pcgSeq K N rhs x0 j).1.r ≠ 0 := by
  have h0 : 0 ≤ tol * norm2 (rhs - K *ᵥ x0) := mul_nonneg ht (norm2_nonneg _)
  obtain ⟨hL, t, hrun, rfl, rfl⟩ := pcg_ok_iff.1 h
  obtain ⟨k, hk, hj, hst, hrun'⟩ := pcgLoop_run (x0 := x0) hK hN hx h0 L.toNat
  rw [show pcgInit (K *ᵥ ·) (N *ᵥ ·) rhs x0 = (pcgSeq K N rhs x0 0).1 from rfl, hrun'] at hrun
  cases hrun
  have hlen : ∀ i, (pcgSeq K N rhs x0 i).1.log.length = i := by
    intro i
    induction i with
    | zero => rfl
    | succ i ih =>
      show (_ ++ [_]).length = _
      rw [List.length_append, ih]; rfl
  rw [hlen]
  exact ⟨rfl, (pcgSeq_good' hK hN hx h0 k hj).2⟩

/-- **C66** (optimality).  For symmetric positive semidefinite `mat`, a positive definite
preconditioner `N` and a consistent system: after `k` iterations (`k` logged residuals) the energy
norm of the error of the returned point is at most that of `p(N mat)(x0 - xs)`, for *every*
polynomial `p` of degree at most `k` with `p(0) = 1`. -/
theorem C66_pcg_optimal (K N : Matrix (Fin n) (Fin n) ℝ) (hK : IsPSD K) (hN : IsPD N)
    (rhs x0 xs x : Fin n → ℝ) (hx : K *ᵥ xs = rhs) (L : ℤ) (tol : ℝ) (ht : 0 ≤ tol) (log : List ℝ)
    (h : pcg (K *ᵥ ·) rhs (N *ᵥ ·) L tol x0 = .ok (x, log)) (P : ℝ[X]) (hP : P.eval 0 = 1)
    (hd : P.natDegree ≤ log.length) :
    (x - xs) ⬝ᵥ (K *ᵥ (x - xs)) ≤
      (aeval (N * K) P *ᵥ (x0 - xs)) ⬝ᵥ (K *ᵥ (aeval (N * K) P *ᵥ (x0 - xs))) := by
  obtain ⟨rfl, hr⟩ := pcg_run_state hK hN hx ht h
  exact pcgSeq_krylov hK hN hx _ hr P hP hd

/-- **C66** (rate).  If moreover every nonzero eigenvalue of `N mat` lies in `[lo, hi]`, `0 < lo`,
then after `k` iterations the energy norm of the error has dropped by the factor
`2 ((√hi - √lo) / (√hi + √lo))^k` at least. -/
theorem C66_pcg_rate (K N : Matrix (Fin n) (Fin n) ℝ) (hK : IsPSD K) (hN : IsPD N)
    (rhs x0 xs x : Fin n → ℝ) (hx : K *ᵥ xs = rhs) (L : ℤ) (tol : ℝ) (ht : 0 ≤ tol) (log : List ℝ)
    (h : pcg (K *ᵥ ·) rhs (N *ᵥ ·) L tol x0 = .ok (x, log)) (lo hi : ℝ) (hlo : 0 < lo)
    (hle : lo ≤ hi)
    (hs : ∀ (t : ℝ) (v : Fin n → ℝ), v ≠ 0 → (N * K) *ᵥ v = t • v → t ≠ 0 → lo ≤ t ∧ t ≤ hi) :
    (x - xs) ⬝ᵥ (K *ᵥ (x - xs)) ≤
      (2 * ((√hi - √lo) / (√hi + √lo)) ^ log.length) ^ 2 * ((x0 - xs) ⬝ᵥ (K *ᵥ (x0 - xs))) := by
  obtain ⟨P, hP, hd, hb⟩ := chebyshev_poly hlo hle log.length
  exact (C66_pcg_optimal K N hK hN rhs x0 xs x hx L tol ht log h P hP hd).trans
    (poly_energy hK hN hs P hb _)

/-- **C66** (a priori).  Under the same hypotheses the call with limit `L` never raises, and either
the returned point meets the residual tolerance, or the energy norm of its error is at most
`2 ((√hi - √lo) / (√hi + √lo))^L` times that of the start. -/
theorem C66_pcg_apriori (K N : Matrix (Fin n) (Fin n) ℝ) (hK : IsPSD K) (hN : IsPD N)
    (rhs x0 xs : Fin n → ℝ) (hx : K *ᵥ xs = rhs) (L : ℕ) (tol : ℝ) (ht : 0 ≤ tol) (lo hi : ℝ)
    (hlo : 0 < lo) (hle : lo ≤ hi)
    (hs : ∀ (t : ℝ) (v : Fin n → ℝ), v ≠ 0 → (N * K) *ᵥ v = t • v → t ≠ 0 → lo ≤ t ∧ t ≤ hi) :
    ∃ x log, pcg (K *ᵥ ·) rhs (N *ᵥ ·) L tol x0 = .ok (x, log) ∧
      (norm2 (rhs - K *ᵥ x) ≤ tol * norm2 (rhs - K *ᵥ x0) ∨
        (x - xs) ⬝ᵥ (K *ᵥ (x - xs)) ≤
          (2 * ((√hi - √lo) / (√hi + √lo)) ^ L) ^ 2 * ((x0 - xs) ⬝ᵥ (K *ᵥ (x0 - xs)))) := by
  obtain ⟨x, log, h1, -⟩ := C28_pcg_converges K N hK hN rhs x0 ⟨xs, hx⟩ L (by omega) tol ht
  refine ⟨x, log, h1, ?_⟩
  obtain ⟨-, h2, -⟩ := C27_pcg_log K (N *ᵥ ·) rhs x0 x L tol log h1
  rcases h2 with h2 | h2
  · right
    have := C66_pcg_rate K N hK hN rhs x0 xs x hx L tol ht log h1 lo hi hlo hle hs
    rwa [show log.length = L by exact_mod_cast h2] at this
  · exact Or.inl h2

/-- `PcSS1` in terms of `pcg` with a matrix preconditioner. -/
theorem pcss1_pcg {A : Matrix (Fin m) (Fin n) ℝ} {b : BArg m} {c : Option (Fin n → ℝ)} {δ tol : ℝ}
    (hδ : 0 ≤ δ) {L : ℤ} {R : Matrix (Fin n) (Fin r) ℝ} (hR : GoodR R) {z0 : Option (Fin r → ℝ)}
    {out : SaddleOut m n} (h : pcss1 A b c δ tol L (.gen r R) z0 = .ok out) :
    ∃ N x log, IsPD N ∧ ((r = n ∧ N = R * Rᵀ) ∨ (r ≠ n ∧ ∃ h : 0 < r, N =
        lowRankR R δ h * (lowRankR R δ h)ᵀ + 1 - colNormalize R * (colNormalize R)ᵀ)) ∧
      pcg ((Aᵀ * A + δ • (1 : Matrix (Fin n) (Fin n) ℝ)) *ᵥ ·) (Aᵀ *ᵥ bVec b - cVec c) (N *ᵥ ·) L tol
        (pcss1Start R z0) = .ok (x, log) ∧ out.x = some x ∧ out.errs = .arr log := by
  obtain ⟨hb, r', R', e, mvPre, R'', x, log, h1, h2, rfl⟩ := pcss1_ok_iff.1 h
  cases e
  obtain ⟨N, hN, hcase⟩ := pcss1Pre_eq h1
  have hPD : IsPD N := by
    rcases hR with ⟨h, hf⟩ | ⟨h, h0, h1, h2⟩
    · rcases hcase with ⟨-, -, rfl⟩ | ⟨h', -⟩
      · subst h; exact pd_of_square hf
      · exact absurd h h'
    · rcases hcase with ⟨h', -⟩ | ⟨-, h0', -, rfl⟩
      · exact absurd h' h
      · exact pd_of_lowRank hδ h0' h1 h2
  have hstart : pcss1Start R'' z0 = pcss1Start R z0 := by
    rcases hcase with ⟨-, rfl, -⟩ | ⟨h, -⟩
    · rfl
    · unfold pcss1Start; rw [if_neg h, if_neg h]
  refine ⟨N, x, log, hPD, ?_, ?_, rfl, rfl⟩
  · rcases hcase with ⟨a, -, c⟩ | ⟨a, b, -, c⟩
    · exact Or.inl ⟨a, c⟩
    · exact Or.inr ⟨a, b, c⟩
  · rw [mvGram_eq, hN, normalRhs_eq] at h2
    rw [← hstart]
    exact h2

/-- the energy of an error of the regularised normal equations -/
theorem gram_energy (A : Matrix (Fin m) (Fin n) ℝ) (δ : ℝ) (v : Fin n → ℝ) :
    v ⬝ᵥ ((Aᵀ * A + δ • (1 : Matrix (Fin n) (Fin n) ℝ)) *ᵥ v) = sqNorm (A *ᵥ v) + δ * sqNorm v := by
  rw [add_mulVec, smul_mulVec, one_mulVec, dotProduct_add, dotProduct_smul, ← mulVec_mulVec,
    dot_mulVec, transpose_transpose, ← sqNorm_eq_dot, ← sqNorm_eq_dot, smul_eq_mul]

/-- **C66** (`PcSS1` with a square preconditioner).  Let `R` be nonsingular with
`lo ‖z‖² ≤ ‖A R z‖² + δ ‖R z‖² ≤ hi ‖z‖²` for all `z`, `0 < lo ≤ hi`.  Then after `k` iterations (`k`
entries in the returned error history), `‖A(x - x*)‖² + δ‖x - x*‖²` is at most
`(2 ((√hi - √lo)/(√hi + √lo))^k)²` times its value at the starting point, for every solution `x*` of
the normal equations. -/
theorem C66_pcss1_rate (A : Matrix (Fin m) (Fin n) ℝ) (b : BArg m) (c : Option (Fin n → ℝ)) (δ tol : ℝ)
    (hδ : 0 ≤ δ) (ht : 0 ≤ tol) (L : ℤ) (R : Matrix (Fin n) (Fin n) ℝ) (hR : FullColRank R)
    (z0 : Option (Fin n → ℝ)) (out : SaddleOut m n) (h : pcss1 A b c δ tol L (.gen n R) z0 = .ok out)
    (lo hi : ℝ) (hlo : 0 < lo) (hle : lo ≤ hi)
    (hs : ∀ z, lo * sqNorm z ≤ sqNorm (A *ᵥ (R *ᵥ z)) + δ * sqNorm (R *ᵥ z) ∧
      sqNorm (A *ᵥ (R *ᵥ z)) + δ * sqNorm (R *ᵥ z) ≤ hi * sqNorm z)
    (xs : Fin n → ℝ) (hxs : Aᵀ *ᵥ (A *ᵥ xs) + δ • xs = Aᵀ *ᵥ bVec b - cVec c) :
    ∃ x log, out.x = some x ∧ out.errs = .arr log ∧
      sqNorm (A *ᵥ (x - xs)) + δ * sqNorm (x - xs) ≤
        (2 * ((√hi - √lo) / (√hi + √lo)) ^ log.length) ^ 2 *
          (sqNorm (A *ᵥ (pcss1Start R z0 - xs)) + δ * sqNorm (pcss1Start R z0 - xs)) := by
  obtain ⟨N, x, log, hN, hcase, hp, h1, h2⟩ := pcss1_pcg hδ (Or.inl ⟨rfl, hR⟩) h
  refine ⟨x, log, h1, h2, ?_⟩
  have hNR : N = R * Rᵀ := by
    rcases hcase with ⟨-, h⟩ | ⟨h, -⟩
    · exact h
    · exact absurd rfl h
  have hx' : (Aᵀ * A + δ • (1 : Matrix (Fin n) (Fin n) ℝ)) *ᵥ xs = Aᵀ *ᵥ bVec b - cVec c := by
    rw [add_mulVec, smul_mulVec, one_mulVec, ← mulVec_mulVec, hxs]
  have := C66_pcg_rate _ N (gram_psd A hδ) hN _ _ xs x hx' L tol ht log hp lo hi hlo hle ?_
  · rwa [gram_energy, gram_energy] at this
  · intro t v hv htv ht0
    obtain ⟨K, hK⟩ : ∃ K, K = Aᵀ * A + δ • (1 : Matrix (Fin n) (Fin n) ℝ) := ⟨_, rfl⟩
    rw [← hK] at htv
    -- `v = R g` with `R' K R g = t g`
    obtain ⟨g, hg⟩ : ∃ g, g = t⁻¹ • (Rᵀ *ᵥ (K *ᵥ v)) := ⟨_, rfl⟩
    have hvg : R *ᵥ g = v := by
      have e : R *ᵥ (Rᵀ *ᵥ (K *ᵥ v)) = t • v := by
        rw [mulVec_mulVec, ← hNR, mulVec_mulVec, htv]
      rw [hg, mulVec_smul, e, smul_smul, inv_mul_cancel₀ ht0, one_smul]
    have hg0 : g ≠ 0 := by
      rintro rfl
      rw [mulVec_zero] at hvg
      exact hv hvg.symm
    have hen : sqNorm (A *ᵥ (R *ᵥ g)) + δ * sqNorm (R *ᵥ g) = t * sqNorm g := by
      rw [← gram_energy, ← hK]
      have e1 : Rᵀ *ᵥ (K *ᵥ v) = t • g := by
        rw [hg, smul_smul, mul_inv_cancel₀ ht0, one_smul]
      rw [dotProduct_comm, dot_mulVec, hvg, e1, smul_dotProduct, ← sqNorm_eq_dot, smul_eq_mul]
    have hpos : 0 < sqNorm g :=
      lt_of_le_of_ne (sqNorm_nonneg g) fun h => hg0 (sqNorm_eq_zero.1 h.symm)
    obtain ⟨a1, a2⟩ := hs g
    rw [hen] at a1 a2
    exact ⟨le_of_mul_le_mul_right a1 hpos, le_of_mul_le_mul_right a2 hpos⟩

/-- **C66** (`PcSS1` with a low-rank preconditioner that carries exact spectral information).  Let the
columns of `R` (fewer or more than `n`) be orthogonal, nonzero eigenvectors of `A'A` with eigenvalues
`1/‖R_j‖²`, and let `A'A` act on their orthogonal complement as the last of these eigenvalues.  Then,
for every `δ ≥ 0` and every right-hand side, one iteration of `PcSS1` suffices: with `iter_lim ≥ 1`
and `0 ≤ tol < 1` the returned pair solves the block system. -/
theorem C66_pcss1_low_rank_exact (A : Matrix (Fin m) (Fin n) ℝ) (b : BArg m) (c : Option (Fin n → ℝ))
    (δ tol : ℝ) (hδ : 0 ≤ δ) (ht : 0 ≤ tol) (ht1 : tol < 1) (L : ℤ) (hL : 1 ≤ L) (R : Matrix (Fin n) (Fin r) ℝ)
    (hr : r ≠ n) (hr0 : 0 < r) (hRo : ∀ i j, i ≠ j → (Rᵀ * R) i j = 0) (hR0 : ∀ j, ∃ i, R i j ≠ 0)
    (hspec : ∀ j, Aᵀ *ᵥ (A *ᵥ fun i => R i j) =
      (1 / sqNorm fun i => R i j) • fun i => R i j)
    (hperp : ∀ v, Rᵀ *ᵥ v = 0 → Aᵀ *ᵥ (A *ᵥ v) =
      (1 / sqNorm fun i => R i ⟨r - 1, by omega⟩) • v)
    (z0 : Option (Fin r → ℝ)) (out : SaddleOut m n)
    (h : pcss1 A b c δ tol L (.gen r R) z0 = .ok out) :
    ∃ x, out.x = some x ∧ SolvesSaddle A (bVec b) (cVec c) δ x out.y := by
  obtain ⟨N, x, log, hN, hcase, hp, h1, h2⟩ := pcss1_pcg hδ (Or.inr ⟨hr, hr0, hRo, hR0⟩) h
  refine ⟨x, h1, ?_⟩
  obtain ⟨K, hK⟩ : ∃ K, K = Aᵀ * A + δ • (1 : Matrix (Fin n) (Fin n) ℝ) := ⟨_, rfl⟩
  rw [← hK] at hp
  obtain ⟨_, hNe⟩ : ∃ h : 0 < r, N =
      lowRankR R δ h * (lowRankR R δ h)ᵀ + 1 - colNormalize R * (colNormalize R)ᵀ := by
    rcases hcase with ⟨h, -⟩ | ⟨-, h⟩
    · exact absurd h hr
    · exact h
  have hV := colNormalize_orth hRo hR0
  obtain ⟨V, hVd⟩ : ∃ V, V = colNormalize R := ⟨_, rfl⟩
  rw [← hVd] at hV hNe
  have hsc : ∀ j, 0 < norm2 (fun i => R i j) := fun j => norm2_pos.2 fun hz => by
    obtain ⟨i, hi⟩ := hR0 j; exact hi (congrFun hz i)
  -- the eigenvalues
  obtain ⟨s2, hs2⟩ : ∃ s2 : Fin r → ℝ, s2 = fun j => 1 / (sqNorm fun i => R i j) + δ := ⟨_, rfl⟩
  have hs2pos : ∀ j, 0 < s2 j := fun j => by
    have := hsc j
    rw [hs2]
    have h3 : 0 < sqNorm fun i => R i j := by rw [← norm2_sq]; positivity
    positivity
  have hshift : ∀ j, shiftedSing R δ j = √(s2 j) := by
    intro j
    unfold shiftedSing colScale
    rw [hs2]
    show √((1 / norm2 fun i => R i j) ^ 2 + δ) = √(1 / (sqNorm fun i => R i j) + δ)
    rw [← norm2_sq, div_pow, one_pow]
  have hVK : ∀ j, K *ᵥ (fun i => V i j) = s2 j • fun i => V i j := by
    intro j
    have hVR : (fun i => V i j) = colScale R j • fun i => R i j := by
      funext i; rw [hVd]; show R i j * _ = _ * R i j; ring
    rw [hVR, mulVec_smul, hK, add_mulVec, smul_mulVec, one_mulVec, ← mulVec_mulVec, hspec j, hs2]
    module
  have hKV : K * V = V * diagonal s2 := by
    ext i j
    rw [mul_diagonal]
    have := congrFun (hVK j) i
    rw [Pi.smul_apply, smul_eq_mul, mul_comm] at this
    exact this
  obtain ⟨last, hlast⟩ : ∃ last : Fin r, last = ⟨r - 1, by omega⟩ := ⟨_, rfl⟩
  have hRV : ∀ v, Vᵀ *ᵥ v = 0 → Rᵀ *ᵥ v = 0 := by
    intro v hv
    funext j
    have e : (Vᵀ *ᵥ v) j = colScale R j * (Rᵀ *ᵥ v) j := by
      rw [hVd]
      simp only [mulVec, dotProduct, transpose_apply, Finset.mul_sum]
      refine Finset.sum_congr rfl fun i _ => ?_
      show R i j * colScale R j * v i = _
      ring
    have hj := congrFun hv j
    rw [e] at hj
    refine (mul_eq_zero.1 hj).resolve_left ?_
    unfold colScale
    have := hsc j
    positivity
  have hKperp : ∀ v, Vᵀ *ᵥ v = 0 → K *ᵥ v = s2 last • v := by
    intro v hv
    rw [hK, add_mulVec, smul_mulVec, one_mulVec, ← mulVec_mulVec, hperp v (hRV v hv), hs2, hlast]
    module
  have hKmat : K * (1 - V * Vᵀ) = s2 last • (1 - V * Vᵀ) := by
    refine Matrix.ext_of_mulVec_single fun i => ?_
    rw [← mulVec_mulVec, smul_mulVec, hKperp]
    rw [mulVec_mulVec, Matrix.mul_sub, Matrix.mul_one, ← Matrix.mul_assoc, hV, Matrix.one_mul, sub_self,
      zero_mulVec]
  have hLR : lowRankR R δ hr0 = V * diagonal (fun j => √(s2 last) / √(s2 j)) := by
    ext i j
    rw [mul_diagonal]
    show colNormalize R i j / _ = _
    rw [← hVd, hshift, hshift, ← hlast, div_div_eq_mul_div, mul_div_assoc]
  have hNe' : N = V * diagonal (fun j => s2 last / s2 j) * Vᵀ + (1 - V * Vᵀ) := by
    rw [hNe, hLR, transpose_mul, diagonal_transpose]
    have : V * diagonal (fun j => √(s2 last) / √(s2 j)) *
        (diagonal (fun j => √(s2 last) / √(s2 j)) * Vᵀ) = V * diagonal (fun j => s2 last / s2 j) * Vᵀ := by
      rw [← Matrix.mul_assoc, Matrix.mul_assoc V, diagonal_mul_diagonal]
      congr 3
      funext j
      rw [div_mul_div_comm, Real.mul_self_sqrt (hs2pos last).le, Real.mul_self_sqrt (hs2pos j).le]
    rw [this]; abel
  have hKN : K * N = s2 last • (1 : Matrix (Fin n) (Fin n) ℝ) := by
    rw [hNe', Matrix.mul_add, hKmat, ← Matrix.mul_assoc, ← Matrix.mul_assoc, hKV, Matrix.mul_assoc V,
      diagonal_mul_diagonal]
    have : (fun j => s2 j * (s2 last / s2 j)) = fun _ => s2 last := by
      funext j
      rw [mul_div_cancel₀ _ (hs2pos j).ne']
    rw [this, show (diagonal fun _ : Fin r => s2 last) = s2 last • (1 : Matrix (Fin r) (Fin r) ℝ) by
      rw [smul_one_eq_diagonal], Matrix.mul_smul, Matrix.mul_one, Matrix.smul_mul, ← smul_add]
    congr 1; abel
  have hNK : N * K = s2 last • (1 : Matrix (Fin n) (Fin n) ℝ) := by
    have h3 : ((s2 last)⁻¹ • K) * N = 1 := by
      rw [Matrix.smul_mul, hKN, smul_smul, inv_mul_cancel₀ (hs2pos last).ne', one_smul]
    have h4 := mul_eq_one_comm.1 h3
    rw [Matrix.mul_smul] at h4
    rw [← h4, smul_smul, mul_inv_cancel₀ (hs2pos last).ne', one_smul]
  have hpsd : IsPSD K := by rw [hK]; exact gram_psd A hδ
  obtain ⟨xs, hxs⟩ : ∃ xs, K *ᵥ xs = Aᵀ *ᵥ bVec b - cVec c :=
    ⟨(s2 last)⁻¹ • (N *ᵥ (Aᵀ *ᵥ bVec b - cVec c)), by
      rw [mulVec_smul, mulVec_mulVec, hKN, smul_mulVec, one_mulVec, smul_smul,
        inv_mul_cancel₀ (hs2pos last).ne', one_smul]⟩
  have h7 : K *ᵥ x = Aᵀ *ᵥ bVec b - cVec c := by
    by_cases hlog : log = []
    · obtain ⟨hx, -⟩ := pcg_run_state hpsd hN hxs ht hp
      rw [hlog] at hx
      have hx : x = pcss1Start R z0 := hx
      obtain ⟨-, g, -⟩ := C27_pcg_log K (N *ᵥ ·) _ _ x L tol log hp
      rcases g with g | g
      · rw [hlog] at g; simp at g; omega
      · rw [hx] at g ⊢
        have g0 := norm2_nonneg (Aᵀ *ᵥ bVec b - cVec c - K *ᵥ pcss1Start R z0)
        have : norm2 (Aᵀ *ᵥ bVec b - cVec c - K *ᵥ pcss1Start R z0) = 0 := by nlinarith
        exact (sub_eq_zero.1 (norm2_eq_zero.1 this)).symm
    · have hdeg : (1 - C (s2 last)⁻¹ * X : ℝ[X]).natDegree ≤ log.length := by
        have h5 : (1 - C (s2 last)⁻¹ * X : ℝ[X]).natDegree ≤ 1 := by
          refine (natDegree_sub_le _ _).trans (max_le (by simp) ?_)
          simpa using natDegree_C_mul_X_pow_le (s2 last)⁻¹ 1
        have h6 : log.length ≠ 0 := fun h => hlog (List.length_eq_zero_iff.1 h)
        omega
      have hopt := C66_pcg_optimal K N hpsd hN _ _ xs x hxs L tol ht log hp (1 - C (s2 last)⁻¹ * X)
        (by simp) hdeg
      have hz : aeval (N * K) (1 - C (s2 last)⁻¹ * X : ℝ[X]) = 0 := by
        rw [map_sub, map_one, map_mul, aeval_C, aeval_X, hNK, Algebra.algebraMap_eq_smul_one,
          smul_mul_smul_comm, inv_mul_cancel₀ (hs2pos last).ne', one_smul, mul_one, sub_self]
      rw [hz, zero_mulVec, mulVec_zero, dotProduct_zero] at hopt
      have h7 := psd_zero hpsd (le_antisymm hopt (hpsd.2 _))
      rw [mulVec_sub, hxs, sub_eq_zero] at h7
      exact h7
  obtain ⟨x', log', g1, g2, -⟩ := C29_pcss1_log A b c δ tol L (.gen r R) z0 out h
  rw [h1] at g1; cases g1
  rw [g2, solvesSaddle_iff, ← h7, hK, add_mulVec, smul_mulVec, one_mulVec, ← mulVec_mulVec]

/-- The hypotheses are met: `mat = diag(1, 4)`, `N = I`, one iteration from `0`. -/
example : ∃ x log, pcg (n := 2) ((!![1, 0; 0, 4] : Matrix (Fin 2) (Fin 2) ℝ) *ᵥ ·) ![1, 4]
    ((1 : Matrix (Fin 2) (Fin 2) ℝ) *ᵥ ·) (1 : ℕ) 0 0 = .ok (x, log) ∧
    (x - ![1, 1]) ⬝ᵥ (!![1, 0; 0, 4] *ᵥ (x - ![1, 1])) ≤ 20 / 9 := by
  have hK : IsPSD (!![1, 0; 0, 4] : Matrix (Fin 2) (Fin 2) ℝ) := by
    refine ⟨?_, fun x => ?_⟩
    · ext i j; fin_cases i <;> fin_cases j <;> rfl
    · simp [mulVec, dotProduct, Fin.sum_univ_two]
      nlinarith [sq_nonneg (x 0), sq_nonneg (x 1)]
  have hN : IsPD (1 : Matrix (Fin 2) (Fin 2) ℝ) := by
    refine ⟨transpose_one, fun x hx => ?_⟩
    rw [one_mulVec, ← sqNorm_eq_dot]
    exact lt_of_le_of_ne (sqNorm_nonneg _) fun h => hx (sqNorm_eq_zero.1 h.symm)
  have hs : ∀ (t : ℝ) (v : Fin 2 → ℝ), v ≠ 0 →
      ((1 : Matrix (Fin 2) (Fin 2) ℝ) * !![1, 0; 0, 4]) *ᵥ v = t • v → t ≠ 0 → 1 ≤ t ∧ t ≤ 4 := by
    intro t v hv h _
    rw [Matrix.one_mul] at h
    have e0 := congrFun h 0
    have e1 := congrFun h 1
    simp [mulVec, dotProduct, Fin.sum_univ_two] at e0 e1
    by_cases h0 : v 0 = 0
    · by_cases h1 : v 1 = 0
      · exact absurd (_root_.funext fun i : Fin 2 => by fin_cases i <;> simp [h0, h1] : v = 0) hv
      · have : t = 4 := (e1.resolve_right h1).symm
        constructor <;> linarith
    · have : t = 1 := by
        have := mul_right_cancel₀ h0 ((one_mul (v 0)).trans e0); linarith
      constructor <;> linarith
  obtain ⟨x, log, h1, h2⟩ := C66_pcg_apriori !![1, 0; 0, 4] 1 hK hN ![1, 4] 0 ![1, 1]
    (by funext i; fin_cases i <;> simp [mulVec, dotProduct, Fin.sum_univ_two]) 1 0 le_rfl 1 4 one_pos
    (by norm_num) hs
  refine ⟨x, log, h1, ?_⟩
  rcases h2 with h2 | h2
  · rw [zero_mul] at h2
    have h3 := norm2_eq_zero.1 (le_antisymm h2 (norm2_nonneg _))
    have e0 := congrFun h3 0
    have e1 := congrFun h3 1
    simp [mulVec, dotProduct, Fin.sum_univ_two] at e0 e1
    have hx : x = ![1, 1] := by
      funext i; fin_cases i
      · show x 0 = 1; linarith
      · show x 1 = 1; linarith
    rw [hx]; simp; norm_num
  · refine h2.trans (le_of_eq ?_)
    rw [show (4 : ℝ) = 2 ^ 2 by norm_num, Real.sqrt_sq (by norm_num), Real.sqrt_one]
    simp [mulVec, dotProduct, Fin.sum_univ_two]
    norm_num

/-- The hypotheses of the two theorems on `PcSS1` are met: `A = diag(1, 2)` with `R = I`, and
`A = diag(3, 2, 2)` with the two columns `(1/3, 0, 0)`, `(0, 1/2, 0)`. -/
example : (∃ out x log, pcss1 (!![1, 0; 0, 2] : Matrix (Fin 2) (Fin 2) ℝ) (.vec ![1, 2]) none 0 0 1
      (.gen 2 1) none = .ok out ∧ out.x = some x ∧ out.errs = .arr log ∧
      sqNorm (!![1, 0; 0, 2] *ᵥ (x - ![1, 1])) + 0 * sqNorm (x - ![1, 1]) ≤
        (2 * ((√4 - √1) / (√4 + √1)) ^ log.length) ^ 2 *
          (sqNorm ((!![1, 0; 0, 2] : Matrix (Fin 2) (Fin 2) ℝ) *ᵥ
            (pcss1Start (1 : Matrix (Fin 2) (Fin 2) ℝ) none - ![1, 1])) +
            0 * sqNorm (pcss1Start (1 : Matrix (Fin 2) (Fin 2) ℝ) none - ![1, 1]))) ∧
    ∃ out x, pcss1 (!![3, 0, 0; 0, 2, 0; 0, 0, 2] : Matrix (Fin 3) (Fin 3) ℝ) (.vec ![1, 2, 3]) none 1 0 1
      (.gen 2 !![1 / 3, 0; 0, 1 / 2; 0, 0]) none = .ok out ∧ out.x = some x ∧
      SolvesSaddle !![3, 0, 0; 0, 2, 0; 0, 0, 2] ![1, 2, 3] 0 1 x out.y := by
  constructor
  · have hR : FullColRank (1 : Matrix (Fin 2) (Fin 2) ℝ) := fullColRank_of_left_inv (L := 1) (one_mul 1)
    have hxs : (!![1, 0; 0, 2] : Matrix (Fin 2) (Fin 2) ℝ)ᵀ *ᵥ (!![1, 0; 0, 2] *ᵥ ![1, 1]) +
        (0 : ℝ) • ![1, 1] = (!![1, 0; 0, 2] : Matrix (Fin 2) (Fin 2) ℝ)ᵀ *ᵥ ![1, 2] - 0 := by
      funext i; fin_cases i <;> simp [mulVec, dotProduct, Fin.sum_univ_two]
    obtain ⟨out, x, h1, h2, -⟩ := C29_pcss1_converges !![1, 0; 0, 2] (.vec ![1, 2]) (fun _ _ h => nomatch h)
      none 0 le_rfl 0 le_rfl 1 (by norm_num) (1 : Matrix (Fin 2) (Fin 2) ℝ) (Or.inl ⟨rfl, hR⟩) none
      ⟨![1, 1], hxs⟩
    obtain ⟨x, log, h3, h4, h5⟩ := C66_pcss1_rate !![1, 0; 0, 2] (.vec ![1, 2]) none 0 0 le_rfl le_rfl 1 1 hR
      none out h1 1 4 one_pos (by norm_num) (fun z => by
        rw [one_mulVec, zero_mul, add_zero]
        simp only [sqNorm, Fin.sum_univ_two, mulVec, dotProduct]
        simp
        constructor <;> nlinarith [sq_nonneg (z 0), sq_nonneg (z 1)]) ![1, 1] hxs
    exact ⟨out, x, log, h1, h3, h4, h5⟩
  · have ho : ∀ i j, i ≠ j → ((!![1 / 3, 0; 0, 1 / 2; 0, 0] : Matrix (Fin 3) (Fin 2) ℝ)ᵀ *
        (!![1 / 3, 0; 0, 1 / 2; 0, 0] : Matrix (Fin 3) (Fin 2) ℝ)) i j = 0 := by
      intro i j hij
      fin_cases i <;> fin_cases j <;> first | exact absurd rfl hij | simp [mul_apply, Fin.sum_univ_three]
    have h0 : ∀ j, ∃ i, (!![1 / 3, 0; 0, 1 / 2; 0, 0] : Matrix (Fin 3) (Fin 2) ℝ) i j ≠ 0 := by
      intro j; fin_cases j
      · exact ⟨0, by simp⟩
      · exact ⟨1, by simp⟩
    obtain ⟨out, x, h1, h2, -⟩ := C29_pcss1_converges !![3, 0, 0; 0, 2, 0; 0, 0, 2] (.vec ![1, 2, 3])
      (fun _ _ h => nomatch h) none 1 (by norm_num) 0 le_rfl 1 (by norm_num)
      (!![1 / 3, 0; 0, 1 / 2; 0, 0] : Matrix (Fin 3) (Fin 2) ℝ) (Or.inr ⟨by norm_num, by norm_num, ho, h0⟩) none
      (normal_consistent _ one_pos _)
    obtain ⟨x, h3, h4⟩ := C66_pcss1_low_rank_exact _ (.vec ![1, 2, 3]) none 1 0 (by norm_num) le_rfl (by norm_num)
      1 le_rfl (!![1 / 3, 0; 0, 1 / 2; 0, 0] : Matrix (Fin 3) (Fin 2) ℝ) (by norm_num) (by norm_num) ho h0
      (fun j => by
        funext i
        fin_cases j <;> fin_cases i <;>
          simp [mulVec, dotProduct, Fin.sum_univ_three, sqNorm] <;> norm_num)
      (fun v hv => by
        have e0 : v 0 = 0 := by
          have := congrFun hv 0
          simpa [mulVec, dotProduct, Fin.sum_univ_three] using this
        have e1 : v 1 = 0 := by
          have := congrFun hv 1
          simpa [mulVec, dotProduct, Fin.sum_univ_three] using this
        funext i
        fin_cases i <;> simp [mulVec, dotProduct, Fin.sum_univ_three, sqNorm, e0, e1]; norm_num; ring) none out h1
    exact ⟨out, x, h1, h3, h4⟩

/-! ## C67 -/

/-- the energy of an error of the damped normal equations -/
theorem damped_energy (F : Matrix (Fin p) (Fin q) ℝ) (damp : ℝ) (v : Fin q → ℝ) :
    v ⬝ᵥ ((Fᵀ * F + damp ^ 2 • (1 : Matrix (Fin q) (Fin q) ℝ)) *ᵥ v) =
      sqNorm (F *ᵥ v) + damp ^ 2 * sqNorm v := gram_energy F (damp ^ 2) v

/-- **C67** (optimality).  Let `xs` be stationary for `‖b - F x‖² + damp² ‖x - x0‖²`.  After `k`
iterations of `lsqr` (the returned `itn`) the energy `‖F e‖² + damp² ‖e‖²` of the error `e = x - xs` is
at most that of `P(F'F + damp² I)(x0 - xs)`, for *every* polynomial `P` of degree at most `k` with
`P(0) = 1`. -/
theorem C67_lsqr_optimal (F : Matrix (Fin p) (Fin q) ℝ) (b : Fin p → ℝ) (damp : ℝ) (T : LsqrTol)
    (lim : Option ℤ) (x0 : Option (Fin q → ℝ)) (out : LsqrOut q)
    (h : lsqr (LinOp.ofMat F) b damp T lim x0 = .ok out) (xs : Fin q → ℝ)
    (hxs : Fᵀ *ᵥ (b - F *ᵥ xs) - damp ^ 2 • (xs - x0.getD 0) = 0) (P : ℝ[X]) (hP : P.eval 0 = 1)
    (hd : P.natDegree ≤ out.itn) (e : Fin q → ℝ)
    (he : e = aeval (Fᵀ * F + damp ^ 2 • (1 : Matrix (Fin q) (Fin q) ℝ)) P *ᵥ (x0.getD 0 - xs)) :
    sqNorm (F *ᵥ (out.x - xs)) + damp ^ 2 * sqNorm (out.x - xs) ≤
      sqNorm (F *ᵥ e) + damp ^ 2 * sqNorm e := by
  have hx : (Fᵀ * F + damp ^ 2 • (1 : Matrix (Fin q) (Fin q) ℝ)) *ᵥ xs =
      Fᵀ *ᵥ b + damp ^ 2 • x0.getD 0 := by
    rw [add_mulVec, smul_mulVec, one_mulVec, ← mulVec_mulVec]
    rw [mulVec_sub] at hxs
    have := sub_eq_zero.1 hxs
    rw [smul_sub] at this
    calc Fᵀ *ᵥ (F *ᵥ xs) + damp ^ 2 • xs = Fᵀ *ᵥ b - (Fᵀ *ᵥ b - Fᵀ *ᵥ (F *ᵥ xs)) + damp ^ 2 • xs := by
          abel
      _ = Fᵀ *ᵥ b + damp ^ 2 • x0.getD 0 := by rw [this]; abel
  rw [← damped_energy, ← damped_energy, he]
  rcases lsqr_ok h with ⟨hg, rfl⟩ | ⟨hg, L, hL, K, hK, hK0, rfl, h4, h5, h6⟩
  · have hd0 : P.natDegree = 0 := Nat.le_zero.1 hd
    rw [eq_C_of_natDegree_eq_zero hd0, coeff_zero_eq_eval_zero, hP]
    simp only [map_one, one_mulVec]
    exact le_rfl
  · exact seqP_krylov hx h6 P hP hd rfl

/-- The rate, from bounds on the nonzero eigenvalues. -/
theorem lsqr_rate_aux {F : Matrix (Fin p) (Fin q) ℝ} {b : Fin p → ℝ} {damp : ℝ} {T : LsqrTol}
    {lim : Option ℤ} {x0 : Option (Fin q → ℝ)} {out : LsqrOut q}
    (h : lsqr (LinOp.ofMat F) b damp T lim x0 = .ok out) {xs : Fin q → ℝ}
    (hxs : Fᵀ *ᵥ (b - F *ᵥ xs) - damp ^ 2 • (xs - x0.getD 0) = 0) {lo hi : ℝ} (hlo : 0 < lo)
    (hle : lo ≤ hi)
    (hs : ∀ (t : ℝ) (v : Fin q → ℝ), v ≠ 0 →
      (Fᵀ * F + damp ^ 2 • (1 : Matrix (Fin q) (Fin q) ℝ)) *ᵥ v = t • v → t ≠ 0 → lo ≤ t ∧ t ≤ hi) :
    sqNorm (F *ᵥ (out.x - xs)) + damp ^ 2 * sqNorm (out.x - xs) ≤
      (2 * ((√hi - √lo) / (√hi + √lo)) ^ out.itn) ^ 2 *
        (sqNorm (F *ᵥ (x0.getD 0 - xs)) + damp ^ 2 * sqNorm (x0.getD 0 - xs)) := by
  obtain ⟨P, hP, hd, hb⟩ := chebyshev_poly hlo hle out.itn
  refine (C67_lsqr_optimal F b damp T lim x0 out h xs hxs P hP hd _ rfl).trans ?_
  rw [← damped_energy, ← damped_energy]
  have hone : IsPD (1 : Matrix (Fin q) (Fin q) ℝ) := by
    refine ⟨transpose_one, fun x hx => ?_⟩
    rw [one_mulVec, ← sqNorm_eq_dot]
    exact lt_of_le_of_ne (sqNorm_nonneg _) fun h => hx (sqNorm_eq_zero.1 h.symm)
  have := poly_energy (gram_psd F (sq_nonneg damp)) hone (lo := lo) (hi := hi)
    (fun t v hv htv ht => hs t v hv (by rwa [Matrix.one_mul] at htv) ht) P hb (x0.getD 0 - xs)
  rwa [Matrix.one_mul] at this

/-- least squares solutions solve the normal equations -/
theorem normal_of_lsq {F : Matrix (Fin p) (Fin q) ℝ} {b : Fin p → ℝ} {xs : Fin q → ℝ}
    (h : ∀ z, sqNorm (b - F *ᵥ xs) ≤ sqNorm (b - F *ᵥ z)) : Fᵀ *ᵥ (b - F *ᵥ xs) = 0 := by
  have := normal_of_ridge LinAlg.ref (A := F) (b := b) (δ := 0) le_rfl (x := xs) (fun z => by
    rw [zero_mul, zero_mul, add_zero, add_zero, ← neg_sub, sqNorm_neg, ← neg_sub b, sqNorm_neg]
    exact h z)
  rwa [zero_smul, sub_zero] at this

/-- **C67** (rate, without damping).  Let `lo ‖z‖² ≤ ‖F z‖² ≤ hi ‖z‖²` for all `z` in the row space of
`F`, `0 < lo ≤ hi`, and let `xs` be a least squares solution.  After `k` iterations of `lsqr` (the
returned `itn`) the excess of the squared residual over the optimum is at most
`(2 ((√hi - √lo)/(√hi + √lo))^k)²` times the one of the starting point. -/
theorem C67_lsqr_rate (F : Matrix (Fin p) (Fin q) ℝ) (b : Fin p → ℝ) (T : LsqrTol)
    (lim : Option ℤ) (x0 : Option (Fin q → ℝ)) (out : LsqrOut q)
    (h : lsqr (LinOp.ofMat F) b 0 T lim x0 = .ok out) (xs : Fin q → ℝ)
    (hxs : ∀ z, sqNorm (b - F *ᵥ xs) ≤ sqNorm (b - F *ᵥ z)) (lo hi : ℝ) (hlo : 0 < lo)
    (hle : lo ≤ hi)
    (hs : ∀ z ∈ colSpace Fᵀ, lo * sqNorm z ≤ sqNorm (F *ᵥ z) ∧ sqNorm (F *ᵥ z) ≤ hi * sqNorm z) :
    sqNorm (b - F *ᵥ out.x) - sqNorm (b - F *ᵥ xs) ≤
      (2 * ((√hi - √lo) / (√hi + √lo)) ^ out.itn) ^ 2 *
        (sqNorm (b - F *ᵥ x0.getD 0) - sqNorm (b - F *ᵥ xs)) := by
  have hg : Fᵀ *ᵥ (b - F *ᵥ xs) = 0 := normal_of_lsq hxs
  have key : ∀ z, sqNorm (b - F *ᵥ z) - sqNorm (b - F *ᵥ xs) = sqNorm (F *ᵥ (z - xs)) := by
    intro z
    have e : b - F *ᵥ z = (b - F *ᵥ xs) - F *ᵥ (z - xs) := by rw [mulVec_sub]; abel
    rw [e, sqNorm_sub, dot_mulVec, hg, zero_dotProduct]
    ring
  rw [key, key]
  have := lsqr_rate_aux h (xs := xs) (by rw [hg]; simp) hlo hle (fun t v hv htv ht => ?_)
  · simpa using this
  · have htv' : Fᵀ *ᵥ (F *ᵥ v) = t • v := by
      rw [← htv]; simp
    have hvm : v ∈ colSpace Fᵀ := by
      rw [mem_colSpace]
      exact ⟨t⁻¹ • (F *ᵥ v), by rw [mulVec_smul, htv', smul_smul, inv_mul_cancel₀ ht, one_smul]⟩
    have hen : sqNorm (F *ᵥ v) = t * sqNorm v := by
      rw [sqNorm_eq_dot, dotProduct_comm, dot_mulVec, htv', smul_dotProduct, ← sqNorm_eq_dot,
        smul_eq_mul]
    have hpos : 0 < sqNorm v :=
      lt_of_le_of_ne (sqNorm_nonneg v) fun h => hv (sqNorm_eq_zero.1 h.symm)
    obtain ⟨a1, a2⟩ := hs v hvm
    rw [hen] at a1 a2
    exact ⟨le_of_mul_le_mul_right a1 hpos, le_of_mul_le_mul_right a2 hpos⟩

/-- **C67** (rate, with damping).  The same for the objective `‖b - F x‖² + damp² ‖x - x0‖²`, given
`lo ‖z‖² ≤ ‖F z‖² + damp² ‖z‖² ≤ hi ‖z‖²` for all `z`. -/
theorem C67_lsqr_rate_damped (F : Matrix (Fin p) (Fin q) ℝ) (b : Fin p → ℝ) (damp : ℝ) (T : LsqrTol)
    (lim : Option ℤ) (x0 : Option (Fin q → ℝ)) (out : LsqrOut q)
    (h : lsqr (LinOp.ofMat F) b damp T lim x0 = .ok out) (xs : Fin q → ℝ)
    (hxs : Fᵀ *ᵥ (b - F *ᵥ xs) - damp ^ 2 • (xs - x0.getD 0) = 0) (lo hi : ℝ) (hlo : 0 < lo)
    (hle : lo ≤ hi)
    (hs : ∀ z, lo * sqNorm z ≤ sqNorm (F *ᵥ z) + damp ^ 2 * sqNorm z ∧
      sqNorm (F *ᵥ z) + damp ^ 2 * sqNorm z ≤ hi * sqNorm z) :
    (sqNorm (b - F *ᵥ out.x) + damp ^ 2 * sqNorm (out.x - x0.getD 0)) -
        (sqNorm (b - F *ᵥ xs) + damp ^ 2 * sqNorm (xs - x0.getD 0)) ≤
      (2 * ((√hi - √lo) / (√hi + √lo)) ^ out.itn) ^ 2 *
        (sqNorm (b - F *ᵥ x0.getD 0) -
          (sqNorm (b - F *ᵥ xs) + damp ^ 2 * sqNorm (xs - x0.getD 0))) := by
  have key : ∀ z, (sqNorm (b - F *ᵥ z) + damp ^ 2 * sqNorm (z - x0.getD 0)) -
        (sqNorm (b - F *ᵥ xs) + damp ^ 2 * sqNorm (xs - x0.getD 0)) =
      sqNorm (F *ᵥ (z - xs)) + damp ^ 2 * sqNorm (z - xs) := by
    intro z
    have e : b - F *ᵥ z = (b - F *ᵥ xs) - F *ᵥ (z - xs) := by rw [mulVec_sub]; abel
    have e2 : z - x0.getD 0 = (z - xs) + (xs - x0.getD 0) := by abel
    have hz := congrArg (· ⬝ᵥ (z - xs)) hxs
    simp only [sub_dotProduct, smul_dotProduct, zero_dotProduct, smul_eq_mul] at hz
    rw [e, sqNorm_sub, dot_mulVec, e2, sqNorm_add, dotProduct_comm (z - xs), sub_dotProduct xs]
    linear_combination -2 * hz
  have e0 : sqNorm (b - F *ᵥ x0.getD 0) = sqNorm (b - F *ᵥ x0.getD 0) +
      damp ^ 2 * sqNorm (x0.getD 0 - x0.getD 0) := by rw [sub_self, sqNorm_zero', mul_zero, add_zero]
  rw [e0, key, key]
  refine lsqr_rate_aux h hxs hlo hle (fun t v hv htv ht => ?_)
  have hen : sqNorm (F *ᵥ v) + damp ^ 2 * sqNorm v = t * sqNorm v := by
    rw [← damped_energy, htv, dotProduct_smul, ← sqNorm_eq_dot, smul_eq_mul]
  have hpos : 0 < sqNorm v :=
    lt_of_le_of_ne (sqNorm_nonneg v) fun h => hv (sqNorm_eq_zero.1 h.symm)
  obtain ⟨a1, a2⟩ := hs v
  rw [hen] at a1 a2
  exact ⟨le_of_mul_le_mul_right a1 hpos, le_of_mul_le_mul_right a2 hpos⟩

/-- The hypotheses are met: `F = diag(1, 2)`, `b = (1, 2)`, one iteration. -/
example : ∃ out, lsqr (LinOp.ofMat !![1, 0; 0, 2]) ![1, 2] 0 ⟨0, 0, 0⟩ (some 1) none = .ok out ∧
    sqNorm (![1, 2] - !![1, 0; 0, 2] *ᵥ out.x) - sqNorm (![1, 2] - !![1, 0; 0, 2] *ᵥ (![1, 1] : Fin 2 → ℝ)) ≤
      (2 * ((√4 - √1) / (√4 + √1)) ^ out.itn) ^ 2 *
        (sqNorm (![1, 2] - !![1, 0; 0, 2] *ᵥ (0 : Fin 2 → ℝ)) -
          sqNorm (![1, 2] - !![1, 0; 0, 2] *ᵥ (![1, 1] : Fin 2 → ℝ))) := by
  obtain ⟨out, h⟩ | ⟨-, ⟨l, hl, e⟩, -⟩ := C30_lsqr_total (!![1, 0; 0, 2] : Matrix (Fin 2) (Fin 2) ℝ) ![1, 2] 0
    ⟨0, 0, 0⟩ (some 1) none
  swap
  · cases e; omega
  refine ⟨out, h, C67_lsqr_rate _ _ _ _ none out h ![1, 1] (fun z => ?_) 1 4 one_pos (by norm_num) fun z _ => ?_⟩
  · have : (![1, 2] - !![1, 0; 0, 2] *ᵥ ![1, 1] : Fin 2 → ℝ) = 0 := by
      funext i; fin_cases i <;> simp [mulVec, dotProduct, Fin.sum_univ_two]
    rw [this, sqNorm_zero']
    exact sqNorm_nonneg _
  · simp only [sqNorm, Fin.sum_univ_two, mulVec, dotProduct]
    simp
    constructor <;> nlinarith [sq_nonneg (z 0), sq_nonneg (z 1)]

end Parla.Props
