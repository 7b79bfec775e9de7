import Verif.Proof.Weyl
import Verif.Proof.Embed
import Verif.Props.LowRank
import Verif.Props.EVD2

/-! # C93: every single singular value, eigenvalue and vector the drivers return -/

namespace Parla.Props

open Matrix Parla Spec
open Parla.Proof

variable {G : Type} {m n r : ℕ}

/-- the norm of `A x` splits into what `Q` captures and the rest -/
private theorem split_norm {Q : Matrix (Fin m) (Fin r) ℝ} (hQ : OrthoCols Q) (A : Matrix (Fin m) (Fin n) ℝ) (x : Fin n → ℝ) :
    sqNorm (A *ᵥ x) = sqNorm ((Qᵀ * A) *ᵥ x) + sqNorm ((A - Q * (Qᵀ * A)) *ᵥ x) := by
  have hQ' : Qᵀ * Q = 1 := hQ
  have h1 : A *ᵥ x = Q *ᵥ ((Qᵀ * A) *ᵥ x) + (A - Q * (Qᵀ * A)) *ᵥ x := by
    rw [mulVec_mulVec, ← add_mulVec]; congr 1; abel
  have h2 : (Q *ᵥ ((Qᵀ * A) *ᵥ x)) ⬝ᵥ ((A - Q * (Qᵀ * A)) *ᵥ x) = 0 := by
    rw [dotProduct_comm, dotProduct_mulVec, ← mulVec_transpose, mulVec_mulVec, Matrix.mul_sub, ← Matrix.mul_assoc Qᵀ Q, hQ',
      Matrix.one_mul, sub_self, zero_mulVec, zero_dotProduct]
  nth_rw 1 [h1]
  rw [sqNorm_add, h2, sqNorm_orth_mulVec hQ']
  ring

private theorem specNorm_sq {E : Matrix (Fin m) (Fin n) ℝ} {e : ℝ} (he : SpecNormLE E e) (x : Fin n → ℝ) :
    sqNorm (E *ᵥ x) ≤ e ^ 2 * sqNorm x := by
  rw [← norm2_sq, ← norm2_sq, ← mul_pow]
  exact pow_le_pow_left₀ (norm2_nonneg _) (he x) 2

/-- a matrix and its transpose have the same spectral norm -/
theorem specNorm_transpose {E : Matrix (Fin m) (Fin n) ℝ} {e : ℝ} (he0 : 0 ≤ e) (he : SpecNormLE E e) :
    SpecNormLE Eᵀ e := by
  intro z
  have h1 : sqNorm (Eᵀ *ᵥ z) ^ 2 ≤ sqNorm z * sqNorm (E *ᵥ (Eᵀ *ᵥ z)) := by
    rw [sqNorm_eq_dot (Eᵀ *ᵥ z), dotProduct_mulVec, ← mulVec_transpose, transpose_transpose, dotProduct_comm]
    exact Finset.sum_mul_sq_le_sq_mul_sq Finset.univ z _
  have h2 := mul_le_mul_of_nonneg_left (specNorm_sq he (Eᵀ *ᵥ z)) (sqNorm_nonneg z)
  have h3 : sqNorm (Eᵀ *ᵥ z) ≤ e ^ 2 * sqNorm z := by
    rcases (sqNorm_nonneg (Eᵀ *ᵥ z)).eq_or_lt with h0 | h0
    · rw [← h0]; exact mul_nonneg (sq_nonneg e) (sqNorm_nonneg z)
    · refine le_of_mul_le_mul_right ?_ h0
      nlinarith
  rw [← norm2_sq, ← norm2_sq, ← mul_pow] at h3
  exact (abs_le_of_sq_le_sq' h3 (mul_nonneg he0 (norm2_nonneg _))).2

/-- the Frobenius norm bounds the spectral norm -/
theorem specNorm_fro (E : Matrix (Fin m) (Fin n) ℝ) : SpecNormLE E (fro E) := by
  intro x
  have h := sqNorm_mulVec_le E x
  rw [← fro_sq, ← norm2_sq, ← norm2_sq, ← mul_pow] at h
  exact (abs_le_of_sq_le_sq' h (mul_nonneg (fro_nonneg _) (norm2_nonneg _))).2

private theorem isSVD_la (la : LinAlg) (B : Matrix (Fin m) (Fin n) ℝ) :
    IsSVD B (la.svd B).1 (la.svd B).2.1 (la.svd B).2.2ᵀ :=
  ⟨la.svd_left B, by
      show (la.svd B).2.2ᵀᵀ * (la.svd B).2.2ᵀ = 1
      rw [transpose_transpose]; exact la.svd_right B, la.svd_nonneg B,
    la.svd_anti B, by rw [transpose_transpose, la.svd_mul]⟩

/-- **C93** (`SVD1`, vectors).  If the QB step returned orthonormal `Q` and `B = Q'A`, the triples that `SVD1` returns satisfy
`A'u = s v` exactly, and `A v - s u = (A - QB) v`: each of them misses being a singular triple of `A` by no more than
the spectral norm of the error of the QB step, however close to each other the singular values are. -/
theorem C93_svd1_vectors (la : LinAlg) (qb : QBDecomposer G) (A : Matrix (Fin m) (Fin n) ℝ) (k : ℕ) (tol : Tol) (over : ℕ)
    (w w' : World G) (qbo : QBOut m n) (hqb : qb m n A ((k + over : ℕ) : ℤ) tol w = .ok (qbo, w'))
    (hQ : OrthoCols qbo.Q) (hB : qbo.B = qbo.Qᵀ * A) (out : SVDOut m n)
    (h : svd1Call la qb A k tol over w = .ok (out, w')) :
    (∀ i, Aᵀ *ᵥ out.U.col i = out.s i • out.Vh.row i) ∧
    (∀ i, A *ᵥ out.Vh.row i - out.s i • out.U.col i = (A - qbo.Q * qbo.B) *ᵥ out.Vh.row i) ∧
    ∀ e, SpecNormLE (A - qbo.Q * qbo.B) e → ∀ i, norm2 (A *ᵥ out.Vh.row i - out.s i • out.U.col i) ≤ e := by
  obtain ⟨l, hl, h1, -⟩ := svd1_open la qb A k tol over w w' qbo hqb
  rw [h1] at h
  cases h
  have hsB := isSVD_la la qbo.B
  have hr : ∀ j, qbo.B *ᵥ (la.svd qbo.B).2.2 j = (la.svd qbo.B).2.1 j • (la.svd qbo.B).1.col j := by
    intro j
    funext a
    have := congrFun (congrFun (svd_mul_right hsB) a) j
    rw [mul_diagonal] at this
    rw [Pi.smul_apply, smul_eq_mul, mul_comm]
    exact this
  have hl' : ∀ j, qbo.Bᵀ *ᵥ (la.svd qbo.B).1.col j = (la.svd qbo.B).2.1 j • (la.svd qbo.B).2.2 j := by
    intro j
    have ht : qbo.Bᵀ * (la.svd qbo.B).1 = (la.svd qbo.B).2.2ᵀ * diagonal (la.svd qbo.B).2.1 :=
      svd_mul_left hsB
    funext a
    have := congrFun (congrFun ht a) j
    rw [mul_diagonal] at this
    rw [Pi.smul_apply, smul_eq_mul, mul_comm]
    exact this
  have hcol : ∀ i : Fin l, (qbo.Q * (la.svd qbo.B).1.submatrix id (Fin.castLE hl)).col i =
      qbo.Q *ᵥ (la.svd qbo.B).1.col (Fin.castLE hl i) := fun i => rfl
  have key : ∀ i : Fin l, A *ᵥ (la.svd qbo.B).2.2 (Fin.castLE hl i) - (la.svd qbo.B).2.1 (Fin.castLE hl i) •
      (qbo.Q *ᵥ (la.svd qbo.B).1.col (Fin.castLE hl i)) =
      (A - qbo.Q * qbo.B) *ᵥ (la.svd qbo.B).2.2 (Fin.castLE hl i) := by
    intro i
    rw [sub_mulVec, ← mulVec_mulVec, hr, mulVec_smul]
  refine ⟨fun i => ?_, key, fun e he i => ?_⟩
  · rw [hcol, mulVec_mulVec]
    have : Aᵀ * qbo.Q = qbo.Bᵀ := by rw [hB, transpose_mul, transpose_transpose]
    rw [this]
    exact hl' _
  · refine (congrArg norm2 (key i)).trans_le ((he _).trans_eq ?_)
    have h1 : norm2 ((la.svd qbo.B).2.2 (Fin.castLE hl i)) = 1 := by
      unfold norm2
      rw [sqNorm_eq_dot]
      have := congrFun (congrFun (la.svd_right qbo.B) (Fin.castLE hl i)) (Fin.castLE hl i)
      rw [Matrix.one_apply_eq] at this
      rw [Real.sqrt_eq_one]
      exact this
    show e * norm2 ((la.svd qbo.B).2.2 (Fin.castLE hl i)) = e
    rw [h1, mul_one]

/-- **C93** (`SVD1`, values).  Let `sig` be the singular values of `A` and `e` a bound on the spectral norm of the error of the
QB step.  Each value `s_i` that `SVD1` returns is at most the singular value `sig_i` of `A` in the same position and
`sig_i^2 <= s_i^2 + e^2`; a singular value of `A` in one of the first `k` positions for which nothing is returned is at
most `sqrt((10 eps)^2 + e^2)`. -/
theorem C93_svd1_values (la : LinAlg) (qb : QBDecomposer G) (A : Matrix (Fin m) (Fin n) ℝ)
    {U : Matrix (Fin m) (Fin r) ℝ} {sig : Fin r → ℝ} {V : Matrix (Fin n) (Fin r) ℝ} (hA : IsSVD A U sig V)
    (k : ℕ) (tol : Tol) (over : ℕ)
    (w w' : World G) (qbo : QBOut m n) (hqb : qb m n A ((k + over : ℕ) : ℤ) tol w = .ok (qbo, w'))
    (hQ : OrthoCols qbo.Q) (hB : qbo.B = qbo.Qᵀ * A) (hc : qbo.c ≤ k + over) (out : SVDOut m n)
    (h : svd1Call la qb A k tol over w = .ok (out, w')) (e : ℝ) (he : SpecNormLE (A - qbo.Q * qbo.B) e) :
    (∀ i : Fin out.r, out.s i ≤ nth sig i ∧ nth sig i ^ 2 ≤ out.s i ^ 2 + e ^ 2) ∧
    ∀ i, out.r ≤ i → i < k → nth sig i ^ 2 ≤ (10 * eps) ^ 2 + e ^ 2 := by
  obtain ⟨out', h1, -, -, -, -, -, h7, h8, h9, -⟩ := C12_svd1_valid la qb A k tol over w w' qbo hqb hQ hc
  rw [h1] at h
  cases h
  have hsB := isSVD_la la qbo.B
  have hlow : ∀ i, nth (la.svd qbo.B).2.1 i ^ 2 ≤ nth sig i ^ 2 := by
    intro i
    have := weyl_sq hsB hA (e := 0) (fun x => by
      rw [hB, split_norm hQ A x]
      have := sqNorm_nonneg ((A - qbo.Q * (qbo.Qᵀ * A)) *ᵥ x)
      linarith) i
    simpa using this
  have hup : ∀ i, nth sig i ^ 2 ≤ nth (la.svd qbo.B).2.1 i ^ 2 + e ^ 2 := by
    refine weyl_sq hA hsB fun x => ?_
    rw [split_norm hQ A x, ← hB]
    exact add_le_add le_rfl (specNorm_sq he x)
  constructor
  · intro i
    have hi : i.1 < min qbo.c n := lt_of_lt_of_le i.2 h7
    have hs : out.s i = nth (la.svd qbo.B).2.1 i := by rw [nth_of_lt hi]; exact h8 i ⟨i, hi⟩ rfl
    rw [hs]
    refine ⟨?_, hup i⟩
    exact (abs_le_of_sq_le_sq' (hlow i) (nth_nonneg hA.nonneg)).2
  · intro i hi hk
    refine (hup i).trans (add_le_add ?_ le_rfl)
    by_cases hc' : i < min qbo.c n
    · rcases h9 ⟨i, hc'⟩ hi with h | h
      · exact absurd h.2 (not_le.2 hk)
      · rw [nth_of_lt hc']
        exact pow_le_pow_left₀ (la.svd_nonneg _ _) h.le 2
    · rw [nth_of_le (not_lt.1 hc'), zero_pow two_ne_zero]
      positivity

/-! ## EVD1 -/

/-- `EVD1`'s result in terms of an eigendecomposition of `Q'AQ` sorted by magnitude -/
private theorem evd1_sorted (la : LinAlg) (qb : QBDecomposer G) (A : Matrix (Fin n) (Fin n) ℝ)
    (hA : Aᵀ = A) (k : ℤ) (tol : Tol) (over : ℕ) (w w' : World G) (qbo : QBOut n n)
    (hqb : qb n n A (k + over) tol.half w = .ok (qbo, w')) (hB : qbo.B = qbo.Qᵀ * A)
    (out : EVDOut n) (h : evd1Call la qb A k tol over w = .ok (out, w')) :
    ∃ (W : Matrix (Fin qbo.c) (Fin qbo.c) ℝ) (lam : Fin qbo.c → ℝ) (hr : out.r ≤ qbo.c), Wᵀ * W = 1 ∧
      qbo.Qᵀ * A * qbo.Q = W * diagonal lam * Wᵀ ∧ (∀ i j, i ≤ j → |lam j| ≤ |lam i|) ∧
      out.V = qbo.Q * W.submatrix id (Fin.castLE hr) ∧ out.lamb = lam ∘ Fin.castLE hr ∧
      ∀ j : Fin qbo.c, out.r ≤ j.1 → j.1 < k.toNat → |lam j| ≤ 10 * eps := by
  classical
  have h0 : evd1Post la k.toNat qbo = out := by
    unfold evd1Call at h
    rw [Py.bind_ok_iff] at h; obtain ⟨_, w1, h1, h⟩ := h
    have e1 := (Py.assert_ok_iff.1 h1).2
    rw [Py.bind_ok_iff] at h; obtain ⟨_, w2, h2, h⟩ := h
    have e2 := (Py.assert_ok_iff.1 h2).2
    rw [Py.bind_ok_iff] at h; obtain ⟨_, w3, h3, h⟩ := h
    have hw : w3 = w2 := by
      rcases tol with _ | t
      · cases h3; rfl
      · exact ((Py.assert_ok_iff).1 h3).2
    rw [hw, e2, e1, Py.bind_eq_of_ok hqb] at h
    cases h; rfl
  obtain ⟨C, hC⟩ : ∃ C, C = qbo.Qᵀ * A * qbo.Q := ⟨_, rfl⟩
  have hBC : qbo.B * qbo.Q = C := by rw [hB, hC]
  have hCs : Cᵀ = C := by rw [hC]; simp only [transpose_mul, transpose_transpose, hA, Matrix.mul_assoc]
  rw [← hC]
  subst h0
  unfold evd1Post
  dsimp only
  rw [hBC]
  refine ⟨(la.eigh C).2.submatrix id (la.argsort fun i => -|(la.eigh C).1 i|),
    (la.eigh C).1 ∘ (la.argsort fun i => -|(la.eigh C).1 i|), min_le_right _ _, ?_, ?_, ?_, rfl, rfl, ?_⟩
  · exact orth_submatrix (la.eigh_orth C hCs) (Equiv.injective _)
  · conv_lhs => rw [← la.eigh_mul C hCs]
    obtain ⟨σ, hσ⟩ : ∃ σ, σ = la.argsort fun i => -|(la.eigh C).1 i| := ⟨_, rfl⟩
    rw [← hσ]
    have e1 : diagonal ((la.eigh C).1 ∘ σ) = (diagonal (la.eigh C).1).submatrix σ σ := by
      rw [submatrix_diagonal_equiv]
    rw [e1, transpose_submatrix, submatrix_mul_equiv, submatrix_mul_equiv]
    rfl
  · intro i j hij
    have := la.argsort_mono (fun i => -|(la.eigh C).1 i|) hij
    simpa using this
  · intro j hj hjk
    by_contra hlt
    push Not at hlt
    have hcnt : j.1 + 1 ≤ countAbove (la.eigh C).1 (10 * eps) := by
      unfold countAbove
      have hsub : (Finset.univ.filter fun i : Fin qbo.c => i ≤ j).map
          (la.argsort fun i => -|(la.eigh C).1 i|).toEmbedding ⊆ Finset.univ.filter fun i => |(la.eigh C).1 i| > 10 * eps := by
        intro a ha
        rw [Finset.mem_map] at ha
        obtain ⟨i, hi, rfl⟩ := ha
        rw [Finset.mem_filter] at hi ⊢
        refine ⟨Finset.mem_univ _, lt_of_lt_of_le hlt ?_⟩
        have := la.argsort_mono (fun i => -|(la.eigh C).1 i|) hi.2
        simpa using this
      refine le_trans ?_ (Finset.card_le_card hsub)
      rw [Finset.card_map]
      have : (Finset.univ.filter fun i : Fin qbo.c => i ≤ j) = Finset.Iic j := by ext; simp
      rw [this, Fin.card_Iic]
    have h2 : min (min k.toNat (min qbo.c (countAbove (la.eigh C).1 (10 * eps)))) qbo.c ≤ j.1 := hj
    have := j.2
    omega

/-- **C93** (`EVD1`, vectors).  For symmetric `A` and a QB step that returned orthonormal `Q` and `B = Q'A`, the values that `EVD1`
returns are the Rayleigh quotients `V'AV` of the vectors, and `A v - lamb v = (A - QB) v`: each pair misses being an eigenpair of
`A` by no more than the spectral norm `e` of the error of the QB step, and there is an eigenvalue of `A` within `e` of
each value returned. -/
theorem C93_evd1_vectors (la : LinAlg) (qb : QBDecomposer G) (A : Matrix (Fin n) (Fin n) ℝ)
    (hA : Aᵀ = A) (k : ℤ) (tol : Tol) (over : ℕ) (w w' : World G) (qbo : QBOut n n)
    (hqb : qb n n A (k + over) tol.half w = .ok (qbo, w')) (hQ : OrthoCols qbo.Q) (hB : qbo.B = qbo.Qᵀ * A)
    (out : EVDOut n) (h : evd1Call la qb A k tol over w = .ok (out, w')) :
    out.Vᵀ * A * out.V = diagonal out.lamb ∧
    (∀ i, A *ᵥ out.V.col i - out.lamb i • out.V.col i = (A - qbo.Q * qbo.B) *ᵥ out.V.col i) ∧
    ∀ e, SpecNormLE (A - qbo.Q * qbo.B) e → ∀ i, norm2 (A *ᵥ out.V.col i - out.lamb i • out.V.col i) ≤ e ∧
      ∀ (W : Matrix (Fin n) (Fin n) ℝ) (mu : Fin n → ℝ), IsEVD A W mu → ∃ j, |mu j - out.lamb i| ≤ e := by
  obtain ⟨W, lam, hr, hW, hC, -, hV, hl, -⟩ := evd1_sorted la qb A hA k tol over w w' qbo hqb hB out h
  have hQ' : qbo.Qᵀ * qbo.Q = 1 := hQ
  have hW1 := orth_submatrix hW (Fin.castLE_injective hr)
  have hCW : qbo.Qᵀ * A * qbo.Q * W.submatrix id (Fin.castLE hr) =
      W.submatrix id (Fin.castLE hr) * diagonal out.lamb := by
    have h1 : qbo.Qᵀ * A * qbo.Q * W = W * diagonal lam := by rw [hC, Matrix.mul_assoc, hW, Matrix.mul_one]
    ext a b
    have := congrFun (congrFun h1 a) (Fin.castLE hr b)
    rw [mul_diagonal] at this ⊢
    rw [hl]
    exact this
  have hVo : out.Vᵀ * out.V = 1 := by
    rw [hV, transpose_mul, Matrix.mul_assoc, ← Matrix.mul_assoc qbo.Qᵀ, hQ', Matrix.one_mul, hW1]
  have hQBV : qbo.Q * qbo.B * out.V = out.V * diagonal out.lamb := by
    rw [hV, hB, Matrix.mul_assoc, ← Matrix.mul_assoc (qbo.Qᵀ * A) qbo.Q, hCW, ← Matrix.mul_assoc]
  have key : ∀ i, A *ᵥ out.V.col i - out.lamb i • out.V.col i = (A - qbo.Q * qbo.B) *ᵥ out.V.col i := by
    intro i
    rw [sub_mulVec]
    congr 1
    funext a
    have := congrFun (congrFun hQBV a) i
    rw [mul_diagonal] at this
    rw [Pi.smul_apply, smul_eq_mul, mul_comm]
    exact this.symm
  have hone : ∀ i, sqNorm (out.V.col i) = 1 := by
    intro i
    rw [sqNorm_eq_dot]
    have := congrFun (congrFun hVo i) i
    rw [Matrix.one_apply_eq] at this
    exact this
  have hle : ∀ e, SpecNormLE (A - qbo.Q * qbo.B) e → ∀ i, norm2 (A *ᵥ out.V.col i - out.lamb i • out.V.col i) ≤ e := by
    intro e he i
    rw [key]
    refine (he _).trans_eq ?_
    unfold norm2
    rw [hone, Real.sqrt_one, mul_one]
  refine ⟨?_, key, fun e he i => ⟨hle e he i, fun W mu hE => ?_⟩⟩
  · rw [hV, transpose_mul]
    have : (W.submatrix id (Fin.castLE hr))ᵀ * qbo.Qᵀ * A * (qbo.Q * W.submatrix id (Fin.castLE hr)) =
        (W.submatrix id (Fin.castLE hr))ᵀ * (qbo.Qᵀ * A * qbo.Q * W.submatrix id (Fin.castLE hr)) := by
      simp only [Matrix.mul_assoc]
    rw [this, hCW, ← Matrix.mul_assoc, hW1, Matrix.one_mul]
  · have h0 : 0 ≤ e := (norm2_nonneg _).trans (hle e he i)
    refine near_eigenvalue hE.orth hE.eq (hone i) ?_ h0
    rw [← norm2_sq]
    exact pow_le_pow_left₀ (norm2_nonneg _) (hle e he i) 2

/-- **C93** (`EVD1`, interlacing).  For symmetric `A` with eigenvalues `mu`, above any level there are at most as many of the values
that `EVD1` returns as there are eigenvalues of `A`, and likewise below any level. -/
theorem C93_evd1_interlacing (la : LinAlg) (qb : QBDecomposer G) (A : Matrix (Fin n) (Fin n) ℝ)
    (hA : Aᵀ = A) (k : ℤ) (tol : Tol) (over : ℕ) (w w' : World G) (qbo : QBOut n n)
    (hqb : qb n n A (k + over) tol.half w = .ok (qbo, w')) (hQ : OrthoCols qbo.Q) (hB : qbo.B = qbo.Qᵀ * A)
    (out : EVDOut n) (h : evd1Call la qb A k tol over w = .ok (out, w')) (W : Matrix (Fin n) (Fin n) ℝ) (mu : Fin n → ℝ)
    (hE : IsEVD A W mu) (l : ℝ) :
    Nat.card {i // l ≤ out.lamb i} ≤ Nat.card {j // l ≤ mu j} ∧
    Nat.card {i // out.lamb i ≤ l} ≤ Nat.card {j // mu j ≤ l} := by
  obtain ⟨h1, -, -⟩ := C93_evd1_vectors la qb A hA k tol over w w' qbo hqb hQ hB out h
  obtain ⟨W1, lam, hr, hW, hC, -, hV, hl, -⟩ := evd1_sorted la qb A hA k tol over w w' qbo hqb hB out h
  have hVo : out.Vᵀ * out.V = 1 := by
    have hQ' : qbo.Qᵀ * qbo.Q = 1 := hQ
    rw [hV, transpose_mul, Matrix.mul_assoc, ← Matrix.mul_assoc qbo.Qᵀ, hQ', Matrix.one_mul]
    exact orth_submatrix hW (Fin.castLE_injective hr)
  have hq : ∀ d, (out.V *ᵥ d) ⬝ᵥ (A *ᵥ (out.V *ᵥ d)) = ∑ j, out.lamb j * d j ^ 2 := by
    intro d
    rw [dotProduct_comm, dotProduct_mulVec, ← mulVec_transpose, mulVec_mulVec, mulVec_mulVec, h1, dotProduct_comm]
    show ∑ j, _ = _
    refine Finset.sum_congr rfl fun j _ => ?_
    rw [mulVec_diagonal]; ring
  constructor
  · exact interlace hE.orth hE.eq hVo (fun d => (hq d).ge) l
  · have hN : -A = W * diagonal (fun j => -mu j) * Wᵀ := by
      rw [hE.eq, ← Matrix.neg_mul, ← Matrix.mul_neg, ← diagonal_neg]
    have := interlace (mu := fun j => -mu j) hE.orth hN hVo (lam := fun j => -out.lamb j) (fun d => by
      rw [neg_mulVec, dotProduct_neg, hq]
      simp) (-l)
    simpa only [neg_le_neg_iff] using this

/-- **C93** (`EVD1`, values).  Let `sig` be the singular values of the symmetric matrix `A` (the magnitudes of its eigenvalues in
non-increasing order) and `e` a bound on the spectral norm of the error of the QB step.  The magnitude of the `i`-th value that
`EVD1` returns is at most `sig_i` and at least `sig_i - sqrt(2) e`; a `sig_i`, `i < k`, for which nothing is returned is at most
`10 eps + sqrt(2) e`. -/
theorem C93_evd1_values (la : LinAlg) (qb : QBDecomposer G) (A : Matrix (Fin n) (Fin n) ℝ)
    (hA : Aᵀ = A) {U : Matrix (Fin n) (Fin r) ℝ} {sig : Fin r → ℝ} {V : Matrix (Fin n) (Fin r) ℝ} (hS : IsSVD A U sig V)
    (k : ℤ) (tol : Tol) (over : ℕ) (w w' : World G) (qbo : QBOut n n)
    (hqb : qb n n A (k + over) tol.half w = .ok (qbo, w')) (hQ : OrthoCols qbo.Q) (hB : qbo.B = qbo.Qᵀ * A)
    (out : EVDOut n) (h : evd1Call la qb A k tol over w = .ok (out, w')) (e : ℝ) (he0 : 0 ≤ e)
    (he : SpecNormLE (A - qbo.Q * qbo.B) e) :
    (∀ i : Fin out.r, |out.lamb i| ≤ nth sig i ∧ nth sig i ≤ |out.lamb i| + √2 * e) ∧
    ∀ i, out.r ≤ i → i < k.toNat → nth sig i ≤ 10 * eps + √2 * e := by
  obtain ⟨W, lam, hr, hW, hC, hanti, hV, hl, hdrop⟩ := evd1_sorted la qb A hA k tol over w w' qbo hqb hB out h
  have hQ' : qbo.Qᵀ * qbo.Q = 1 := hQ
  obtain ⟨X, hX⟩ : ∃ X, X = qbo.Q * (qbo.Qᵀ * A * qbo.Q) * qbo.Qᵀ := ⟨_, rfl⟩
  have hQW : (qbo.Q * W)ᵀ * (qbo.Q * W) = 1 := by
    rw [transpose_mul, Matrix.mul_assoc, ← Matrix.mul_assoc qbo.Qᵀ, hQ', Matrix.one_mul, hW]
  obtain ⟨sg, hsg⟩ : ∃ sg : Fin qbo.c → ℝ, sg = fun j => if 0 ≤ lam j then 1 else -1 := ⟨_, rfl⟩
  have hsg2 : ∀ j, sg j * sg j = 1 := by intro j; rw [hsg]; dsimp only; split <;> norm_num
  have hsgl : ∀ j, sg j * |lam j| = lam j := by
    intro j; rw [hsg]; dsimp only
    split
    · rename_i h; rw [abs_of_nonneg h, one_mul]
    · rename_i h; rw [abs_of_neg (not_le.1 h)]; ring
  have hXs : IsSVD X (qbo.Q * W * diagonal sg) (fun j => |lam j|) (qbo.Q * W) := by
    refine ⟨?_, hQW, fun j => abs_nonneg _, fun i j hij => hanti i j hij, ?_⟩
    · show (qbo.Q * W * diagonal sg)ᵀ * (qbo.Q * W * diagonal sg) = 1
      rw [transpose_mul, Matrix.mul_assoc, ← Matrix.mul_assoc (qbo.Q * W)ᵀ, hQW, Matrix.one_mul, diagonal_transpose,
        diagonal_mul_diagonal, ← diagonal_one]
      congr 1; funext j; exact hsg2 j
    · rw [hX, hC, Matrix.mul_assoc (qbo.Q * W) (diagonal sg), diagonal_mul_diagonal, transpose_mul]
      simp only [hsgl, Matrix.mul_assoc]
  have hXn : SpecNormLE (A - X) (√2 * e) := by
    intro x
    obtain ⟨P, hP⟩ : ∃ P, P = qbo.Q * qbo.Qᵀ := ⟨_, rfl⟩
    obtain ⟨y, hy⟩ : ∃ y, y = x - P *ᵥ x := ⟨_, rfl⟩
    have hE : A - qbo.Q * qbo.B = A - P * A := by rw [hB, hP, Matrix.mul_assoc]
    have hPP : P * P = P := by
      rw [hP, Matrix.mul_assoc, ← Matrix.mul_assoc qbo.Qᵀ, hQ', Matrix.one_mul]
    have hPt : Pᵀ = P := by rw [hP, transpose_mul, transpose_transpose]
    have hXP : X = P * A * P := by rw [hX, hP]; simp only [Matrix.mul_assoc]
    have h1 : (A - X) *ᵥ x = (A - P * A) *ᵥ x + P *ᵥ (A *ᵥ y) := by
      rw [hy, hXP, mulVec_sub, mulVec_sub, sub_mulVec, sub_mulVec]
      simp only [mulVec_mulVec, Matrix.mul_assoc]
      abel
    have h2 : ((A - P * A) *ᵥ x) ⬝ᵥ (P *ᵥ (A *ᵥ y)) = 0 := by
      rw [dotProduct_mulVec, ← mulVec_transpose, hPt, mulVec_mulVec, Matrix.mul_sub, ← Matrix.mul_assoc, hPP, sub_self,
        zero_mulVec, zero_dotProduct]
    have hEs := specNorm_sq he
    rw [hE] at hEs
    -- the transposed error has the same spectral norm
    have h3 : sqNorm (A *ᵥ y) ≤ e ^ 2 * sqNorm x := by
      have : A *ᵥ y = (A - P * A)ᵀ *ᵥ x := by
        rw [hy, mulVec_sub, transpose_sub, transpose_mul, hPt, hA, sub_mulVec, mulVec_mulVec]
      rw [this, ← hE]
      exact specNorm_sq (specNorm_transpose he0 he) x
    have h4 : sqNorm (P *ᵥ (A *ᵥ y)) ≤ sqNorm (A *ᵥ y) := by
      rw [hP, ← mulVec_mulVec, sqNorm_orth_mulVec hQ']; exact bessel hQ' _
    have h6 : sqNorm ((A - X) *ᵥ x) ≤ (√2 * e * norm2 x) ^ 2 := by
      rw [h1, sqNorm_add, h2, mul_pow, mul_pow, Real.sq_sqrt (by norm_num), norm2_sq]
      have := hEs x
      linarith
    rw [← norm2_sq] at h6
    exact (abs_le_of_sq_le_sq' h6 (mul_nonneg (mul_nonneg (Real.sqrt_nonneg 2) he0) (norm2_nonneg x))).2
  have hup := weyl_add hS hXs (mul_nonneg (Real.sqrt_nonneg 2) he0) hXn
  constructor
  · intro i
    have hi : i.1 < qbo.c := lt_of_lt_of_le i.2 hr
    have hli : |out.lamb i| = nth (fun j => |lam j|) i := by rw [nth_of_lt hi, hl]; rfl
    rw [hli]
    refine ⟨?_, hup i⟩
    have hCW : (qbo.Qᵀ * A) * (qbo.Q * W) = W * diagonal lam := by
      rw [← Matrix.mul_assoc, hC, Matrix.mul_assoc, hW, Matrix.mul_one]
    obtain ⟨x, hx, h1, h2⟩ := exists_witness hS (firstCols hQW hi) (firstCols hW hi) (svd_firstCols hCW hi)
      (nth_nonneg hXs.nonneg) (l := nth (fun j => |lam j|) i) (fun j => by
        rw [nth_of_lt hi]
        exact hanti _ _ (show (Fin.castLE (Nat.succ_le_of_lt hi) j).1 ≤ i.1 from Nat.lt_succ_iff.1 j.2))
    have hp : 0 < sqNorm x := lt_of_le_of_ne (sqNorm_nonneg x) fun h0 => hx (sqNorm_eq_zero.1 h0.symm)
    have h3 : sqNorm ((qbo.Qᵀ * A) *ᵥ x) ≤ sqNorm (A *ᵥ x) := by
      rw [← mulVec_mulVec]; exact bessel hQ' _
    have hlow := le_of_mul_le_mul_right (h1.trans (h3.trans h2)) hp
    exact (abs_le_of_sq_le_sq' hlow (nth_nonneg hS.nonneg)).2
  · intro i hi hk
    refine (hup i).trans (add_le_add ?_ le_rfl)
    by_cases hc : i < qbo.c
    · rw [nth_of_lt hc]; exact hdrop ⟨i, hc⟩ hi hk
    · rw [nth_of_le (not_lt.1 hc)]
      unfold eps; positivity

/-! ## EVD2 -/

/-- **C93** (`EVD2`).  Whenever `EVD2` returns on a positive semidefinite `A` with eigenvalues `mu`, the `i`-th value it returns is
at most `mu_i + nu`, where `nu` is the regularisation `sqrt(n) eps ||AS||`, and at least `mu_i - e`, where `e` bounds
the spectral norm of the error `A - V diag(lamb) V'`; the eigenvalues of `A` for which nothing is returned are at most `e`. -/
theorem C93_evd2_values (la : LinAlg) (skOp : RowSketcher G) (A : Matrix (Fin n) (Fin n) ℝ)
    (hA : IsPSD A) (k : ℤ) (tol : Tol) (over : ℕ) (w w' : World G) (out : EVDOut n)
    (h : evd2Call la skOp A k tol over w = .ok (out, w')) (W : Matrix (Fin n) (Fin n) ℝ) (mu : Fin n → ℝ) (hE : IsEVD A W mu)
    (e : ℝ) (he0 : 0 ≤ e) (he : SpecNormLE (A - out.V * diagonal out.lamb * out.Vᵀ) e) :
    ∃ S w1, skOp n n A (k + over).toNat (afterTolWarning tol w) = .ok (S, w1) ∧
      (∀ i : Fin out.r, out.lamb i ≤ nth mu i + √n * eps * fro (A * S.mat) ∧ nth mu i ≤ out.lamb i + e) ∧
      ∀ i, out.r ≤ i → nth mu i ≤ e := by
  obtain ⟨-, -, S, w1, hS, -, hV, hanti, hnn, -, hle⟩ := C16_evd2_psd la skOp A hA k tol over w w' out h
  refine ⟨S, w1, hS, ?_⟩
  obtain ⟨nu, hnu⟩ : ∃ nu, nu = √n * eps * fro (A * S.mat) := ⟨_, rfl⟩
  rw [← hnu] at hle ⊢
  have hV' : out.Vᵀ * out.V = 1 := hV
  have hW : Wᵀ * W = 1 := hE.orth
  have hW' : W * Wᵀ = 1 := mul_eq_one_comm.1 hW
  have hmu : ∀ j, 0 ≤ mu j := by
    intro j
    have h1 := hA.2 (W *ᵥ Pi.single j 1)
    have h2 : Wᵀ *ᵥ (W *ᵥ Pi.single j (1 : ℝ)) = Pi.single j 1 := by rw [mulVec_mulVec, hW, one_mulVec]
    rw [hE.eq, ← mulVec_mulVec, ← mulVec_mulVec, h2, dotProduct_mulVec, ← mulVec_transpose, h2] at h1
    simpa using h1
  have hAs : IsSVD A W mu W := ⟨hE.orth, hE.orth, hmu, hE.anti, hE.eq⟩
  have hXs : IsSVD (out.V * diagonal out.lamb * out.Vᵀ) out.V out.lamb out.V := ⟨hV, hV, hnn, hanti, rfl⟩
  have hup := weyl_add hAs hXs he0 he
  have hrn : out.r ≤ n := by
    have := congrArg Matrix.rank hV'
    rw [Matrix.rank_one, Fintype.card_fin] at this
    rw [← this]
    exact (Matrix.rank_mul_le_right _ _).trans (Matrix.rank_le_height _)
  constructor
  · intro i
    have hi : nth out.lamb i = out.lamb i := nth_of_lt i.2
    refine ⟨?_, hi ▸ hup i⟩
    have hi' : i.1 < n := lt_of_lt_of_le i.2 hrn
    have hAn : A + nu • (1 : Matrix (Fin n) (Fin n) ℝ) = W * diagonal (fun j => mu j + nu) * Wᵀ := by
      have : diagonal (fun j => mu j + nu) = diagonal mu + nu • (1 : Matrix (Fin n) (Fin n) ℝ) := by
        rw [← diagonal_one, ← diagonal_smul, diagonal_add]
        congr 1; funext j; simp
      rw [this, Matrix.mul_add, Matrix.add_mul, ← hE.eq, Matrix.mul_smul, Matrix.mul_one, Matrix.smul_mul, hW']
    have hc := interlace hE.orth hAn hV' (lam := out.lamb) (fun d => by
      refine le_trans (le_of_eq ?_) (hle (out.V *ᵥ d))
      have h2 : out.Vᵀ *ᵥ (out.V *ᵥ d) = d := by rw [mulVec_mulVec, hV', one_mulVec]
      rw [← mulVec_mulVec, ← mulVec_mulVec, h2, dotProduct_mulVec, ← mulVec_transpose, h2]
      show _ = ∑ j, _
      refine Finset.sum_congr rfl fun j _ => ?_
      rw [mulVec_diagonal]; ring) (out.lamb i)
    by_contra hlt
    push Not at hlt
    rw [nth_of_lt hi'] at hlt
    have h1 : i.1 + 1 ≤ Nat.card {j // out.lamb i ≤ out.lamb j} := by
      rw [Nat.card_eq_fintype_card, Fintype.card_subtype]
      have : Finset.Iic i ⊆ Finset.univ.filter fun j => out.lamb i ≤ out.lamb j := fun j hj =>
        Finset.mem_filter.2 ⟨Finset.mem_univ _, hanti (Finset.mem_Iic.1 hj)⟩
      have h2 := Finset.card_le_card this
      rwa [Fin.card_Iic] at h2
    have h2 : Nat.card {j // out.lamb i ≤ mu j + nu} ≤ i.1 := by
      rw [Nat.card_eq_fintype_card, Fintype.card_subtype]
      have : (Finset.univ.filter fun j => out.lamb i ≤ mu j + nu) ⊆ Finset.Iio (⟨i.1, hi'⟩ : Fin n) := by
        intro j hj
        rw [Finset.mem_Iio]
        by_contra hge
        have := hE.anti (not_lt.1 hge)
        have := (Finset.mem_filter.1 hj).2
        linarith
      have h2 := Finset.card_le_card this
      rwa [Fin.card_Iio] at h2
    omega
  · intro i hi
    have := hup i
    rwa [nth_of_le hi, zero_add] at this

end Parla.Props
