import Verif.Props.SPS2

/-! # Property C41: `SPS1`

`sps1Call la gen sf solver strategy A b c δ tol L logging clock w` is a call of an `SPS1` object with
iterative solver `solver` (default `PcSS1`) and Nystrom strategy `strategy` (default `'left'`). -/

namespace Parla.Props

open Matrix Parla Spec

variable {G : Type} {m n d r : ℕ}

/-! ### The preconditioners -/

theorem goodR_of_gram {M : Matrix (Fin n) (Fin r) ℝ} {s : Fin r → ℝ} (h : Mᵀ * M = diagonal s)
    (hs : ∀ i, s i ≠ 0) (hr : 0 < r) : GoodR M := by
  by_cases hn : r = n
  · refine Or.inl ⟨hn, fullColRank_iff_inj.2 fun x hx => ?_⟩
    have h1 : (Mᵀ * M) *ᵥ x = 0 := by rw [← mulVec_mulVec, hx, mulVec_zero]
    rw [h] at h1
    funext i
    have := congrFun h1 i
    rw [mulVec_diagonal] at this
    exact (mul_eq_zero.1 this).resolve_left (hs i)
  · refine Or.inr ⟨hn, hr, fun i j hij => by rw [h, diagonal_apply_ne _ hij], fun j => ?_⟩
    by_contra hc
    push Not at hc
    apply hs j
    have := congrFun (congrFun h j) j
    rw [diagonal_apply_eq, mul_apply] at this
    rw [← this]
    exact Finset.sum_eq_zero fun i _ => by rw [hc i, mul_zero]

/-- the columns of `Vh.T / sigma` -/
theorem scaled_gram {V : Matrix (Fin r) (Fin n) ℝ} (hV : V * Vᵀ = 1) (σ : Fin r → ℝ) :
    (Matrix.of fun i j => Vᵀ i j / σ j : Matrix (Fin n) (Fin r) ℝ)ᵀ *
      (Matrix.of fun i j => Vᵀ i j / σ j) = diagonal fun j => 1 / σ j ^ 2 := by
  have e : (Matrix.of fun i j => Vᵀ i j / σ j : Matrix (Fin n) (Fin r) ℝ) =
      Vᵀ * diagonal (fun j => 1 / σ j) := by
    ext i j
    rw [mul_diagonal, of_apply, mul_one_div]
  rw [e, transpose_mul, transpose_transpose, diagonal_transpose, Matrix.mul_assoc, ← Matrix.mul_assoc V,
    hV, Matrix.one_mul, diagonal_mul_diagonal]
  congr 1
  funext j
  rw [one_div_mul_one_div, sq]

theorem scaled_eq (V : Matrix (Fin r) (Fin n) ℝ) (σ : Fin r → ℝ) :
    (Matrix.of fun i j => Vᵀ i j / σ j : Matrix (Fin n) (Fin r) ℝ) = Vᵀ * diagonal (fun j => 1 / σ j) := by
  ext i j
  rw [mul_diagonal, of_apply, mul_one_div]

theorem svd_scaled (la : LinAlg) {p : ℕ} (B : Matrix (Fin p) (Fin n) ℝ) (h : ∀ i, (la.svd B).2.1 i ≠ 0) :
    B * Matrix.of (fun i j => (la.svd B).2.2ᵀ i j / (la.svd B).2.1 j) = (la.svd B).1 := by
  rw [scaled_eq]
  conv_lhs => enter [1]; rw [← la.svd_mul B]
  rw [Matrix.mul_assoc, ← Matrix.mul_assoc (la.svd B).2.2, la.svd_right, Matrix.one_mul,
    Matrix.mul_assoc, diagonal_mul_diagonal]
  have : (fun i => (la.svd B).2.1 i * (1 / (la.svd B).2.1 i)) = fun _ => 1 := by
    funext i
    exact mul_one_div_cancel (h i)
  rw [this, diagonal_one, Matrix.mul_one]

theorem gram_sandwich {p q k : ℕ} {F : Matrix (Fin p) (Fin q) ℝ} {M : Matrix (Fin q) (Fin k) ℝ}
    {U : Matrix (Fin p) (Fin k) ℝ} (h : F * M = U) (hU : Uᵀ * U = 1) : Mᵀ * (Fᵀ * F) * M = 1 := by
  rw [← hU, ← h, transpose_mul]
  simp only [Matrix.mul_assoc]

theorem orth_gram {p q k : ℕ} {V : Matrix (Fin p) (Fin q) ℝ} (hV : Vᵀ * V = 1)
    (T : Matrix (Fin q) (Fin k) ℝ) : (V * T)ᵀ * (V * T) = Tᵀ * T := by
  rw [transpose_mul, Matrix.mul_assoc, ← Matrix.mul_assoc Vᵀ, hV, Matrix.one_mul]

/-- no zero singular value for a matrix with linearly independent rows -/
theorem svd_ne_of_rows (la : LinAlg) {p : ℕ} {B : Matrix (Fin p) (Fin n) ℝ}
    (h : ∀ u, Bᵀ *ᵥ u = 0 → u = 0) (i : Fin (min p n)) : (la.svd B).2.1 i ≠ 0 := by
  intro hi
  have e : Bᵀ * (la.svd B).1 = (la.svd B).2.2ᵀ * diagonal (la.svd B).2.1 := by
    have e : Bᵀ = (la.svd B).2.2ᵀ * (diagonal (la.svd B).2.1 * (la.svd B).1ᵀ) := by
      conv_lhs => rw [← la.svd_mul B]
      rw [transpose_mul, transpose_mul, diagonal_transpose]
    rw [e, Matrix.mul_assoc, Matrix.mul_assoc, la.svd_left, Matrix.mul_one]
  have h1 := h ((la.svd B).1 *ᵥ Pi.single i 1) (by
    rw [mulVec_mulVec, e, ← mulVec_mulVec]
    have : diagonal (la.svd B).2.1 *ᵥ Pi.single i 1 = 0 := by
      funext j
      rw [mulVec_diagonal, Pi.zero_apply]
      by_cases hj : j = i
      · rw [hj, hi, zero_mul]
      · rw [Pi.single_eq_of_ne hj, mul_zero]
    rw [this, mulVec_zero])
  have h2 := congrArg ((la.svd B).1ᵀ *ᵥ ·) h1
  simp only [mulVec_mulVec, la.svd_left, one_mulVec, mulVec_zero] at h2
  have := congrFun h2 i
  rw [Pi.single_eq_same] at this
  exact one_ne_zero this

/-- no zero singular value for a matrix with full column rank -/
theorem svd_ne_of_full (la : LinAlg) {p : ℕ} {B : Matrix (Fin p) (Fin n) ℝ}
    (h : ∀ u, B *ᵥ u = 0 → u = 0) (i : Fin (min p n)) : (la.svd B).2.1 i ≠ 0 := by
  intro hi
  have e : B * (la.svd B).2.2ᵀ = (la.svd B).1 * diagonal (la.svd B).2.1 := by
    conv_lhs => enter [1]; rw [← la.svd_mul B]
    rw [Matrix.mul_assoc, la.svd_right, Matrix.mul_one]
  have h1 := h ((la.svd B).2.2ᵀ *ᵥ Pi.single i 1) (by
    rw [mulVec_mulVec, e, ← mulVec_mulVec]
    have : diagonal (la.svd B).2.1 *ᵥ Pi.single i 1 = 0 := by
      funext j
      rw [mulVec_diagonal, Pi.zero_apply]
      by_cases hj : j = i
      · rw [hj, hi, zero_mul]
      · rw [Pi.single_eq_of_ne hj, mul_zero]
    rw [this, mulVec_zero])
  have h2 := congrArg ((la.svd B).2.2 *ᵥ ·) h1
  simp only [mulVec_mulVec, la.svd_right, one_mulVec, mulVec_zero] at h2
  have := congrFun h2 i
  rw [Pi.single_eq_same] at this
  exact one_ne_zero this

/-- the triangular factor of a full column rank matrix -/
theorem qr_RT_inj (la : LinAlg) {p k : ℕ} {B : Matrix (Fin p) (Fin k) ℝ} (h : FullColRank B) :
    (∀ u, (la.qr B).2ᵀ *ᵥ u = 0 → u = 0) ∧ ∃ X : Matrix (Fin k) (Fin (min p k)) ℝ, (la.qr B).2 * X = 1 := by
  have h1 : k ≤ (la.qr B).2.rank := by
    have h2 : B.rank = k := h
    conv_lhs at h2 => rw [← la.qr_mul B]
    have := rank_mul_le_right (la.qr B).1 (la.qr B).2
    omega
  have h3 := (la.qr B).2.rank_le_height
  have hf : FullColRank (la.qr B).2ᵀ := by
    unfold FullColRank
    rw [rank_transpose]
    omega
  refine ⟨fullColRank_iff_inj.1 hf, ?_⟩
  have hdet : IsUnit ((la.qr B).2ᵀᵀ * (la.qr B).2ᵀ).det :=
    (Matrix.isUnit_iff_isUnit_det _).1 ((gram_posDef_iff _).2 hf).isUnit
  rw [transpose_transpose] at hdet
  exact ⟨(la.qr B).2ᵀ * ((la.qr B).2 * (la.qr B).2ᵀ)⁻¹, by
    rw [← Matrix.mul_assoc, mul_nonsing_inv _ hdet]⟩

theorem qr_span (la : LinAlg) {p k : ℕ} {B : Matrix (Fin p) (Fin k) ℝ} (h : FullColRank B) :
    ∃ X, (la.qr B).1 = B * X := by
  obtain ⟨X, hX⟩ := (qr_RT_inj la h).2
  refine ⟨X, ?_⟩
  conv_rhs => enter [1]; rw [← la.qr_mul B]
  rw [Matrix.mul_assoc, hX, Matrix.mul_one]

/-- the orthogonal projector onto the range of a full column rank matrix -/
theorem qr_proj (la : LinAlg) {p k : ℕ} {B : Matrix (Fin p) (Fin k) ℝ} (h : FullColRank B) :
    (la.qr B).1 * (la.qr B).1ᵀ = B * (Bᵀ * B)⁻¹ * Bᵀ := by
  have hdet : IsUnit (Bᵀ * B).det :=
    (Matrix.isUnit_iff_isUnit_det _).1 ((gram_posDef_iff _).2 h).isUnit
  set P := B * (Bᵀ * B)⁻¹ * Bᵀ with hP
  set Q := (la.qr B).1 with hQ
  obtain ⟨X, hX⟩ := qr_span la h
  have hQB : Q * Qᵀ * B = B := by
    conv_lhs => enter [2]; rw [← la.qr_mul B]
    rw [Matrix.mul_assoc, ← Matrix.mul_assoc Qᵀ, la.qr_orth, Matrix.one_mul, la.qr_mul]
  have hPB : P * B = B := by
    rw [hP, Matrix.mul_assoc, Matrix.mul_assoc, nonsing_inv_mul _ hdet, Matrix.mul_one]
  have hPT : Pᵀ = P := by
    rw [hP, transpose_mul, transpose_mul, transpose_transpose, transpose_nonsing_inv, transpose_mul,
      transpose_transpose, Matrix.mul_assoc]
  have h1 : Q * Qᵀ * P = P := by
    rw [hP, ← Matrix.mul_assoc, ← Matrix.mul_assoc, hQB]
  have h2 : P * Q = Q := by
    have hX' : Q = B * X := hX
    rw [hX', ← Matrix.mul_assoc, hPB]
  clear_value P
  have h3 : P * (Q * Qᵀ) = P := by
    have := congrArg transpose h1
    rwa [transpose_mul (Q * Qᵀ) P, transpose_mul Q, transpose_transpose, hPT] at this
  rw [← h3, ← Matrix.mul_assoc, h2]

/-- **C41** (Nystrom preconditioner, `'right'`).  If `A S` has full column rank, the preconditioner
`M` has orthogonal nonzero columns and `M' N M = I` for the Nystrom approximation
`N = (A'A S)(S'A'A S)^{-1}(S'A'A)` of `A'A`. -/
theorem C41_sps1_right_form (la : LinAlg) (S : Matrix (Fin n) (Fin d) ℝ) (A : Matrix (Fin m) (Fin n) ℝ)
    (hS : FullColRank (A * S)) :
    (∃ s, (∀ i, 0 < s i) ∧ (sps1Right la S A).Mᵀ * (sps1Right la S A).M = diagonal s) ∧
    (sps1Right la S A).Mᵀ *
      ((Aᵀ * A * S) * (Sᵀ * (Aᵀ * A) * S)⁻¹ * (Sᵀ * (Aᵀ * A))) * (sps1Right la S A).M = 1 := by
  set Q := (la.qr (A * S)).1 with hQ
  have hne : ∀ i, (la.svd (Qᵀ * A)).2.1 i ≠ 0 := by
    refine svd_ne_of_rows la fun u hu => (qr_RT_inj la hS).1 u ?_
    rw [transpose_mul, transpose_transpose, ← mulVec_mulVec] at hu
    have h1 := congrArg (Sᵀ *ᵥ ·) hu
    simp only [mulVec_zero] at h1
    rw [mulVec_mulVec, ← transpose_mul] at h1
    rw [← h1]
    conv_rhs => enter [1]; rw [← la.qr_mul (A * S)]
    rw [transpose_mul, mulVec_mulVec, Matrix.mul_assoc, la.qr_orth, Matrix.mul_one]
  refine ⟨⟨fun j => 1 / (la.svd (Qᵀ * A)).2.1 j ^ 2, fun j => ?_,
    scaled_gram (la.svd_right _) _⟩, ?_⟩
  · have := hne j; positivity
  · have h2 : (Aᵀ * A * S) * (Sᵀ * (Aᵀ * A) * S)⁻¹ * (Sᵀ * (Aᵀ * A)) = (Qᵀ * A)ᵀ * (Qᵀ * A) := by
      have e : Q * Qᵀ = A * S * ((A * S)ᵀ * (A * S))⁻¹ * (A * S)ᵀ := qr_proj la hS
      have e2 : (Qᵀ * A)ᵀ * (Qᵀ * A) = Aᵀ * (Q * Qᵀ) * A := by
        rw [transpose_mul Qᵀ A, transpose_transpose]
        simp only [Matrix.mul_assoc]
      rw [e2, e, transpose_mul]
      simp only [Matrix.mul_assoc]
    rw [h2]
    exact gram_sandwich (svd_scaled la (Qᵀ * A) hne) (la.svd_left _)

/-- **C41** (Nystrom preconditioner, `'left'`).  If `S A` has full row rank, the preconditioner `M`
has orthogonal nonzero columns spanning the row space of `S A`, and `M' A'A M = I`. -/
theorem C41_sps1_left_form (la : LinAlg) (S : Matrix (Fin d) (Fin m) ℝ) (A : Matrix (Fin m) (Fin n) ℝ)
    (hS : FullColRank (S * A)ᵀ) :
    (∃ s, (∀ i, 0 < s i) ∧ (sps1Left la S A).Mᵀ * (sps1Left la S A).M = diagonal s) ∧
    (sps1Left la S A).Mᵀ * (Aᵀ * A) * (sps1Left la S A).M = 1 ∧
    colSpace (sps1Left la S A).M = colSpace (S * A)ᵀ := by
  set V := (la.qr (S * A)ᵀ).1 with hV
  have hinj : ∀ u, (A * V) *ᵥ u = 0 → u = 0 := by
    refine fun u hu => (qr_RT_inj la hS).1 u ?_
    rw [← mulVec_mulVec] at hu
    have h1 := congrArg (S *ᵥ ·) hu
    simp only [mulVec_zero] at h1
    rw [mulVec_mulVec, mulVec_mulVec] at h1
    have e : S * A = (la.qr (S * A)ᵀ).2ᵀ * Vᵀ := by
      rw [← transpose_mul, la.qr_mul, transpose_transpose]
    have e2 : S * A * V = (la.qr (S * A)ᵀ).2ᵀ := by
      conv_lhs => enter [1]; rw [e]
      rw [Matrix.mul_assoc, la.qr_orth, Matrix.mul_one]
    rwa [e2] at h1
  have hne := svd_ne_of_full la hinj
  have hT := svd_scaled la (A * V) hne
  have hG : (Matrix.of fun i j => (la.svd (A * V)).2.2ᵀ i j / (la.svd (A * V)).2.1 j :
      Matrix (Fin (min n d)) (Fin (min m (min n d))) ℝ)ᵀ *
        Matrix.of (fun i j => (la.svd (A * V)).2.2ᵀ i j / (la.svd (A * V)).2.1 j) =
      diagonal fun j => 1 / (la.svd (A * V)).2.1 j ^ 2 := scaled_gram (la.svd_right _) _
  have hE : (Matrix.of fun i j => (la.svd (A * V)).2.2ᵀ i j / (la.svd (A * V)).2.1 j :
      Matrix (Fin (min n d)) (Fin (min m (min n d))) ℝ) *
        (diagonal (la.svd (A * V)).2.1 * (la.svd (A * V)).2.2) = 1 := by
    have hw : min m (min n d) = min n d := by
      have hf : FullColRank (A * V) := fullColRank_iff_inj.2 hinj
      have h1 : (A * V).rank = min n d := hf
      have := (A * V).rank_le_height
      omega
    have h2 := square_orthRows hw (la.svd_right (A * V))
    have : (fun i => 1 / (la.svd (A * V)).2.1 i * (la.svd (A * V)).2.1 i) = fun _ => 1 := by
      funext i
      exact one_div_mul_cancel (hne i)
    rw [scaled_eq, Matrix.mul_assoc, ← Matrix.mul_assoc (diagonal _) (diagonal _),
      diagonal_mul_diagonal, this, diagonal_one, Matrix.one_mul, h2]
  have key : ∀ T : Matrix (Fin (min n d)) (Fin (min m (min n d))) ℝ, A * V * T = (la.svd (A * V)).1 →
      Tᵀ * T = (diagonal fun j => 1 / (la.svd (A * V)).2.1 j ^ 2) →
      T * (diagonal (la.svd (A * V)).2.1 * (la.svd (A * V)).2.2) = 1 →
      (∃ s, (∀ i, 0 < s i) ∧ (V * T)ᵀ * (V * T) = diagonal s) ∧
      (V * T)ᵀ * (Aᵀ * A) * (V * T) = 1 ∧ colSpace (V * T) = colSpace (S * A)ᵀ := by
    intro T h1 h2 h3
    refine ⟨⟨_, fun j => ?_, (orth_gram (la.qr_orth _) T).trans h2⟩,
      gram_sandwich ((Matrix.mul_assoc _ _ _).symm.trans h1) (la.svd_left _), le_antisymm ?_ ?_⟩
    · have := hne j; positivity
    · refine (colSpace_mul_le _ _).trans ?_
      obtain ⟨X, hX⟩ := qr_span la hS
      rw [hV, hX]
      exact colSpace_mul_le _ _
    · refine (qr_range la (S * A)ᵀ).trans (colSpace_le_iff.2
        ⟨diagonal (la.svd (A * V)).2.1 * (la.svd (A * V)).2.2, ?_⟩)
      rw [Matrix.mul_assoc, h3, Matrix.mul_one]
  exact key _ hT hG hE

/-- the sketched SVD preconditioner is admissible for `PcSS1` -/
theorem svd_goodR (la : LinAlg) {p : ℕ} {B : Matrix (Fin p) (Fin n) ℝ} (hB : B ≠ 0)
    (hn : (n : ℝ) * eps < 1) {o : PrecOut p n} (ho : svdRightPrecond la B = .ok o) : GoodR o.M := by
  obtain ⟨h0, hr, hU, hs, hV, hM, hi⟩ := svdRightPrecond_open la B o ho
  obtain ⟨-, -, hV', hpos, -⟩ := C26_svd_right_precond la B o ho
  have hσ : 0 < (la.svd B).2.1 ⟨0, h0⟩ := by
    refine lt_of_le_of_ne (la.svd_nonneg B _) fun h => hB ?_
    have : (la.svd B).2.1 = fun _ => 0 := by
      funext i
      refine le_antisymm ?_ (la.svd_nonneg B i)
      rw [h]
      exact la.svd_anti B (Fin.mk_le_of_le_val (Nat.zero_le _))
    rw [← la.svd_mul B, this, diagonal_zero, Matrix.mul_zero, Matrix.zero_mul]
  have hr0 : 0 < o.r := (hi ⟨0, h0⟩).2 (by nlinarith)
  refine goodR_of_gram (s := fun j => 1 / o.sigma j ^ 2) ?_ (fun j => ?_) hr0
  · rw [hM]; exact scaled_gram hV' _
  · have := hpos j; positivity

/-! ### The call -/

theorem sps1_raises (la : LinAlg) (gen : SkOpGen G) (sf : ℝ) (solver : SaddleSolver)
    (A : Matrix (Fin m) (Fin n) ℝ) (b : Option (Fin m → ℝ)) (c : Option (Fin n → ℝ)) (δ tol : ℝ) (L : ℤ)
    (logging : Bool) (clock : LogTimes) (w : World G) :
    sps1Call la gen sf solver .other A b c δ tol L logging clock w = .error .assertion := by
  unfold sps1Call
  rw [Py.assert_neg_bind (by simp)]
  rfl

/-- **C41** (bad strategy): a Nystrom strategy other than `'left'` or `'right'` raises
`AssertionError`, even if it is not needed. -/
theorem C41_sps1_bad_strategy (la : LinAlg) (gen : SkOpGen G) (sf : ℝ) (solver : SaddleSolver)
    (A : Matrix (Fin m) (Fin n) ℝ) (b : Option (Fin m → ℝ)) (c : Option (Fin n → ℝ)) (δ tol : ℝ) (L : ℤ)
    (logging : Bool) (clock : LogTimes) (w : World G) :
    sps1Call la gen sf solver .other A b c δ tol L logging clock w = .error .assertion :=
  sps1_raises la gen sf solver A b c δ tol L logging clock w

/-- `SPS1` used the preconditioner `p` -/
inductive Sps1Prec (la : LinAlg) (gen : SkOpGen G) (sf : ℝ) (strategy : NystromStrategy)
    (A : Matrix (Fin m) (Fin n) ℝ) (rhs : Fin n → ℝ) (δ : ℝ) (w w' : World G) : SPSPrec n → Prop
  | svd {d : ℕ} (S : Matrix (Fin d) (Fin m) ℝ) (p : SPSPrec n) (hd : (d : ℤ) = pyInt (sf * n))
      (hn : n ≤ d) (hs : strategy ≠ .other) (hg : gen d m w = .ok (S, w'))
      (hp : sps1Svd la S A rhs δ = .ok p) : Sps1Prec la gen sf strategy A rhs δ w w' p
  | right {d : ℕ} (S : Matrix (Fin n) (Fin d) ℝ) (hd : (d : ℤ) = pyInt (sf * n)) (hn : d < n)
      (hs : strategy = .right) (hg : gen n d w = .ok (S, w')) :
      Sps1Prec la gen sf strategy A rhs δ w w' (sps1Right la S A)
  | left {d : ℕ} (S : Matrix (Fin d) (Fin m) ℝ) (hd : (d : ℤ) = pyInt (sf * n)) (hn : d < n)
      (hs : strategy = .left) (hg : gen d m w = .ok (S, w')) :
      Sps1Prec la gen sf strategy A rhs δ w w' (sps1Left la S A)

theorem sps1_eq {la : LinAlg} {gen : SkOpGen G} {sf : ℝ} (solver : SaddleSolver)
    {strategy : NystromStrategy} {A : Matrix (Fin m) (Fin n) ℝ} {b : Option (Fin m → ℝ)}
    {c : Option (Fin n → ℝ)} {δ : ℝ} (tol : ℝ) (L : ℤ) (logging : Bool) (clock : LogTimes) {w w' : World G}
    {p : SPSPrec n}
    (h : Sps1Prec la gen sf strategy A (normalRhs A (b.getD 0) c) δ w w' p) :
    sps1Call la gen sf solver strategy A b c δ tol L logging clock w =
      match sps1Post solver A (b.getD 0) c δ tol L p logging clock with
      | .ok out => .ok (out, w')
      | .error e => .error e := by
  unfold sps1Call
  cases h with
  | @svd d S _ hd hn hs hg hp =>
    simp only
    rw [Py.assert_pos_bind hs, ← hd, if_neg (by omega), Int.toNat_natCast, if_pos (by omega),
      Py.bind_eq_of_ok hg, hp, Py.lift_ok_bind]
    generalize sps1Post solver A (b.getD 0) c δ tol L p logging clock = e
    cases e <;> rfl
  | @right d S hd hn hs hg =>
    simp only
    rw [Py.assert_pos_bind (by rw [hs]; simp), ← hd, if_neg (by omega), Int.toNat_natCast,
      if_neg (by omega), if_pos hs, Py.bind_eq_of_ok hg]
    generalize sps1Post solver A (b.getD 0) c δ tol L (sps1Right la S A) logging clock = e
    cases e <;> rfl
  | @left d S hd hn hs hg =>
    simp only
    rw [Py.assert_pos_bind (by rw [hs]; simp), ← hd, if_neg (by omega), Int.toNat_natCast,
      if_neg (by omega), if_neg (by rw [hs]; simp), Py.bind_eq_of_ok hg]
    generalize sps1Post solver A (b.getD 0) c δ tol L (sps1Left la S A) logging clock = e
    cases e <;> rfl

theorem sps1_ok {la : LinAlg} {gen : SkOpGen G} {sf : ℝ} {solver : SaddleSolver}
    {strategy : NystromStrategy} {A : Matrix (Fin m) (Fin n) ℝ} {b : Option (Fin m → ℝ)}
    {c : Option (Fin n → ℝ)} {δ tol : ℝ} {L : ℤ} {logging : Bool} {clock : LogTimes} {w w' : World G}
    {out : SPSOut m n}
    (h : sps1Call la gen sf solver strategy A b c δ tol L logging clock w = .ok (out, w')) :
    ∃ p, Sps1Prec la gen sf strategy A (normalRhs A (b.getD 0) c) δ w w' p ∧
      sps1Post solver A (b.getD 0) c δ tol L p logging clock = .ok out := by
  have h' := h
  unfold sps1Call at h
  simp only at h
  by_cases hs : strategy = .other
  · subst hs; rw [sps1_raises] at h'; cases h'
  rw [Py.assert_pos_bind hs] at h
  by_cases hneg : pyInt (sf * n) < 0
  · rw [if_pos hneg] at h; cases h
  rw [if_neg hneg] at h
  have hd : ((pyInt (sf * n)).toNat : ℤ) = pyInt (sf * n) := by omega
  by_cases hn : ¬ (pyInt (sf * n)).toNat < n
  · rw [if_pos hn, Py.bind_ok_iff] at h
    obtain ⟨S, w₁, hg, h⟩ := h
    rw [Py.bind_ok_iff] at h
    obtain ⟨p, w₂, hp, h⟩ := h
    rw [Py.lift_ok_iff] at hp h
    obtain ⟨hp, rfl⟩ := hp
    obtain ⟨h, rfl⟩ := h
    exact ⟨p, .svd S p hd (by omega) hs hg hp, h⟩
  · rw [if_neg hn] at h
    by_cases hr : strategy = .right
    · rw [if_pos hr, Py.bind_ok_iff] at h
      obtain ⟨S, w₁, hg, h⟩ := h
      rw [Py.lift_ok_iff] at h
      obtain ⟨h, rfl⟩ := h
      exact ⟨_, .right S hd (by omega) hr hg, h⟩
    · rw [if_neg hr, Py.bind_ok_iff] at h
      obtain ⟨S, w₁, hg, h⟩ := h
      rw [Py.lift_ok_iff] at h
      obtain ⟨h, rfl⟩ := h
      have : strategy = .left := by
        cases strategy with
        | left => rfl
        | right => exact absurd rfl hr
        | other => exact absurd rfl hs
      exact ⟨_, .left S hd (by omega) this hg, h⟩

theorem sps1Post_ok {solver : SaddleSolver} {A : Matrix (Fin m) (Fin n) ℝ} {b : Fin m → ℝ}
    {c : Option (Fin n → ℝ)} {δ tol : ℝ} {L : ℤ} {p : SPSPrec n} {logging : Bool} {clock : LogTimes}
    {out : SPSOut m n} (h : sps1Post solver A b c δ tol L p logging clock = .ok out) :
    ∃ res, solver m n A (.vec b) c δ tol L (.gen p.r p.M) p.z = .ok res ∧ out.x = res.x ∧
      out.y = some res.y ∧ finishLog logging clock res.errs (norm2 (normalRhs A b c)) = .ok out.log := by
  unfold sps1Post at h
  cases hr : solver m n A (.vec b) c δ tol L (.gen p.r p.M) p.z with
  | error e => simp only [hr, bind, Except.bind] at h; cases h
  | ok res =>
    simp only [hr, bind, Except.bind] at h
    cases hl : finishLog logging clock res.errs (norm2 (normalRhs A b c)) with
    | error e => rw [hl] at h; cases h
    | ok lg =>
      rw [hl] at h
      cases h
      exact ⟨res, rfl, rfl, rfl, hl⟩

theorem sps1Post_eq {solver : SaddleSolver} {A : Matrix (Fin m) (Fin n) ℝ} {b : Fin m → ℝ}
    {c : Option (Fin n → ℝ)} {δ tol : ℝ} {L : ℤ} {p : SPSPrec n} (logging : Bool) (clock : LogTimes)
    {res : SaddleOut m n} (h : solver m n A (.vec b) c δ tol L (.gen p.r p.M) p.z = .ok res)
    {l : List ℝ} (hl : res.errs = .arr l) :
    ∃ lg, sps1Post solver A b c δ tol L p logging clock = .ok ⟨res.x, some res.y, lg⟩ := by
  unfold sps1Post
  simp only [h, bind, Except.bind, hl]
  cases logging <;> exact ⟨_, rfl⟩

/-- **C41** (what is returned).  With `PcSS1`, a successful call returns some `x` and `y = b - A x`;
the log, if asked for, starts with `‖A'b - c‖` and continues with the normal-equation residuals of
the iterates, where the `i`-th iterate is the point returned under `iter_lim = i`. -/
theorem C41_sps1_result (la : LinAlg) (gen : SkOpGen G) (sf : ℝ) (strategy : NystromStrategy)
    (A : Matrix (Fin m) (Fin n) ℝ) (b : Option (Fin m → ℝ)) (c : Option (Fin n → ℝ)) (δ tol : ℝ) (L : ℤ)
    (logging : Bool) (clock : LogTimes) (w w' : World G) (out : SPSOut m n)
    (h : sps1Call la gen sf PcSS1 strategy A b c δ tol L logging clock w = .ok (out, w')) :
    ∃ x, out.x = some x ∧ out.y = some (b.getD 0 - A *ᵥ x) ∧ (logging = false → out.log = none) ∧
      (logging = true → ∃ lg l, out.log = some lg ∧
        lg.errors = norm2 (Aᵀ *ᵥ b.getD 0 - cVec c) :: l ∧ (l.length : ℤ) ≤ L ∧
        ∀ i (hi : i < l.length), ∃ oi xi,
          sps1Call la gen sf PcSS1 strategy A b c δ tol i logging clock w = .ok (oi, w') ∧
          oi.x = some xi ∧
          l[i] = norm2 (Aᵀ *ᵥ (A *ᵥ xi) + δ • xi - (Aᵀ *ᵥ b.getD 0 - cVec c))) := by
  obtain ⟨p, hp, h⟩ := sps1_ok h
  obtain ⟨res, hr, e1, e2, e3⟩ := sps1Post_ok h
  obtain ⟨x, l, g1, g2, g3, g4, g5⟩ := C29_pcss1_log A (.vec (b.getD 0)) c δ tol L (.gen p.r p.M) p.z res hr
  refine ⟨x, e1.trans g1, e2.trans (congrArg some g2), fun hl => ?_, fun hl => ?_⟩
  · subst hl
    exact (Except.ok.inj e3).symm
  · subst hl
    rw [g3] at e3
    refine ⟨_, l, (Except.ok.inj e3).symm, ?_, g4, fun i hi => ?_⟩
    · rw [normalRhs_eq]
    · obtain ⟨oi, xi, k1, k2, k3⟩ := g5 i hi
      obtain ⟨-, li, -, -, k4, -⟩ := C29_pcss1_log A _ c δ tol i (.gen p.r p.M) p.z oi k1
      obtain ⟨lg, k5⟩ := sps1Post_eq (solver := PcSS1) true clock k1 k4
      exact ⟨_, xi, by rw [sps1_eq PcSS1 tol i true clock hp, k5], k2, k3⟩

/-- the preconditioner used is admissible -/
def Sps1Good (A : Matrix (Fin m) (Fin n) ℝ) (gen : SkOpGen G) (sf : ℝ) (strategy : NystromStrategy)
    (δ : ℝ) (w w' : World G) : Prop :=
  (∃ (d : ℕ) (S : Matrix (Fin d) (Fin m) ℝ), (d : ℤ) = pyInt (sf * n) ∧ n ≤ d ∧ strategy ≠ .other ∧
    gen d m w = .ok (S, w') ∧ (S * A ≠ 0 ∨ 0 < δ)) ∨
  (∃ (d : ℕ) (S : Matrix (Fin n) (Fin d) ℝ), (d : ℤ) = pyInt (sf * n) ∧ 0 < d ∧ d < n ∧
    strategy = .right ∧ gen n d w = .ok (S, w') ∧ FullColRank (A * S)) ∨
  (∃ (d : ℕ) (S : Matrix (Fin d) (Fin m) ℝ), (d : ℤ) = pyInt (sf * n) ∧ 0 < d ∧ d < n ∧
    strategy = .left ∧ gen d m w = .ok (S, w') ∧ FullColRank (S * A)ᵀ)

theorem aLift_ne_zero {A : Matrix (Fin m) (Fin n) ℝ} {δ : ℝ} (hn : n ≠ 0) (h : A ≠ 0 ∨ 0 < δ) :
    aLift A (Real.sqrt δ) ≠ 0 := by
  intro h0
  rcases h with h | h
  · apply h
    ext i j
    have := congrFun (congrFun h0 (Fin.castAdd _ i)) j
    simpa [aLift, vcat] using this
  · have := aLift_inj A h (x := fun _ => 1) (by rw [h0, zero_mulVec])
    exact one_ne_zero (congrFun this ⟨0, by omega⟩)

theorem sps1Good_prec {la : LinAlg} {gen : SkOpGen G} {sf : ℝ} {strategy : NystromStrategy}
    {A : Matrix (Fin m) (Fin n) ℝ} {rhs : Fin n → ℝ} {δ : ℝ} {w w' : World G} (hn : n ≠ 0)
    (hne : (n : ℝ) * eps < 1) (h : Sps1Good A gen sf strategy δ w w') :
    ∃ p, Sps1Prec la gen sf strategy A rhs δ w w' p ∧ GoodR p.M := by
  rcases h with ⟨d, S, hd, hnd, hs, hg, hS⟩ | ⟨d, S, hd, h0, hnd, hs, hg, hS⟩ |
    ⟨d, S, hd, h0, hnd, hs, hg, hS⟩
  · obtain ⟨o, ho⟩ := (C26_empty la (aLift (S * A) (Real.sqrt δ))).2 (by omega) hn
    have hp : ∃ z, sps1Svd la S A rhs δ = .ok ⟨o.r, o.M, z⟩ := by
      unfold sps1Svd
      simp only [ho]
      exact ⟨_, rfl⟩
    obtain ⟨z, hp⟩ := hp
    exact ⟨_, .svd S _ hd hnd hs hg hp, svd_goodR la (aLift_ne_zero hn hS) hne ho⟩
  · obtain ⟨⟨s, hs1, hs2⟩, -⟩ := C41_sps1_right_form la S A hS
    refine ⟨_, .right S hd hnd hs hg, goodR_of_gram hs2 (fun i => (hs1 i).ne') ?_⟩
    show 0 < min (min m d) n
    have h1 : (A * S).rank = d := hS
    have := (A * S).rank_le_height
    omega
  · obtain ⟨⟨s, hs1, hs2⟩, -⟩ := C41_sps1_left_form la S A hS
    refine ⟨_, .left S hd hnd hs hg, goodR_of_gram hs2 (fun i => (hs1 i).ne') ?_⟩
    show 0 < min m (min n d)
    have h1 : (S * A)ᵀ.rank = d := hS
    rw [rank_transpose] at h1
    have := rank_mul_le_left S A
    have := S.rank_le_width
    omega

/-- **C41** (convergence).  Let the generator draw a sketch `S` for which the preconditioner exists:
`S A ≠ 0` or `δ > 0` if `int(sf n) ≥ n`; otherwise `A S` of full column rank (strategy `'right'`) or
`S A` of full row rank (strategy `'left'`).  If the block system has a solution (automatic for
`δ > 0`) and `tol ≥ 0`, SPS1 with `PcSS1` succeeds, with or without logging, and with `iter_lim ≥ n`
the normal-equation residual of the returned `x` is at most `tol` times the one of the starting
point `x0` — the point returned under `iter_lim = 0`; in particular `(x, y)` solves the block system
if `tol = 0`. -/
theorem C41_sps1_converges (la : LinAlg) (gen : SkOpGen G) (sf : ℝ) (strategy : NystromStrategy)
    (A : Matrix (Fin m) (Fin n) ℝ) (b : Option (Fin m → ℝ)) (c : Option (Fin n → ℝ)) (δ tol : ℝ)
    (hδ : 0 ≤ δ) (ht : 0 ≤ tol) (L : ℤ) (hL : 0 ≤ L) (logging : Bool) (clock : LogTimes) (w w' : World G)
    (hn : n ≠ 0) (hne : (n : ℝ) * eps < 1)
    (hx : ∃ xs ys, SolvesSaddle A (b.getD 0) (cVec c) δ xs ys)
    (hgood : Sps1Good A gen sf strategy δ w w') :
    ∃ out x y out0 x0,
      sps1Call la gen sf PcSS1 strategy A b c δ tol L logging clock w = .ok (out, w') ∧
      out.x = some x ∧ out.y = some y ∧ y = b.getD 0 - A *ᵥ x ∧
      sps1Call la gen sf PcSS1 strategy A b c δ tol 0 logging clock w = .ok (out0, w') ∧
      out0.x = some x0 ∧
      (pyInt (sf * n) < n → x0 = 0) ∧
      ((n : ℤ) ≤ L → norm2 (Aᵀ *ᵥ (A *ᵥ x) + δ • x - (Aᵀ *ᵥ b.getD 0 - cVec c)) ≤
        tol * norm2 (Aᵀ *ᵥ (A *ᵥ x0) + δ • x0 - (Aᵀ *ᵥ b.getD 0 - cVec c))) ∧
      ((n : ℤ) ≤ L → tol = 0 → SolvesSaddle A (b.getD 0) (cVec c) δ x y) := by
  have hx' : ∃ xs, Aᵀ *ᵥ (A *ᵥ xs) + δ • xs = Aᵀ *ᵥ bVec (.vec (b.getD 0)) - cVec c := by
    obtain ⟨xs, ys, h1, h2⟩ := hx
    refine ⟨xs, ?_⟩
    show _ = Aᵀ *ᵥ b.getD 0 - cVec c
    rw [← h1, ← h2, mulVec_add]; abel
  obtain ⟨p, hp, hR⟩ := sps1Good_prec (la := la) (rhs := normalRhs A (b.getD 0) c) hn hne hgood
  obtain ⟨res, x, r1, r2, r3⟩ := C29_pcss1_converges A (.vec (b.getD 0)) (fun _ _ => (nomatch ·)) c δ hδ
    tol ht L hL p.M hR p.z hx'
  obtain ⟨res0, x0', s1, s2, -⟩ := C29_pcss1_converges A (.vec (b.getD 0)) (fun _ _ => (nomatch ·)) c δ hδ
    tol ht 0 le_rfl p.M hR p.z hx'
  obtain ⟨x', l, g1, g2, g3, -⟩ := C29_pcss1_log A (.vec (b.getD 0)) c δ tol L (.gen p.r p.M) p.z res r1
  obtain ⟨_, l0, -, -, g3', -⟩ := C29_pcss1_log A (.vec (b.getD 0)) c δ tol 0 (.gen p.r p.M) p.z res0 s1
  rw [r2] at g1
  cases g1
  -- the start
  have hst : x0' = pcss1Start p.M p.z := by
    obtain ⟨-, r, R, e, mvPre, R', x, log, h1, h2, rfl⟩ := pcss1_ok_iff.1 s1
    cases e
    rw [C27_pcg_start] at h2
    cases h2
    cases s2
    obtain ⟨N, -, hc⟩ := pcss1Pre_eq h1
    rcases hc with ⟨-, rfl, -⟩ | ⟨hrn, -⟩
    · rfl
    · unfold pcss1Start; rw [if_neg hrn, if_neg hrn]
  obtain ⟨lg, k⟩ := sps1Post_eq (solver := PcSS1) logging clock r1 g3
  obtain ⟨lg0, k0⟩ := sps1Post_eq (solver := PcSS1) logging clock s1 g3'
  refine ⟨_, x, _, _, x0', by rw [sps1_eq PcSS1 tol L logging clock hp, k], r2, rfl, g2,
    by rw [sps1_eq PcSS1 tol 0 logging clock hp, k0], s2, fun hlt => ?_, fun hnL => ?_, fun hnL h0 => ?_⟩
  · rw [hst]
    have hz : p.z = none := by
      cases hp with
      | svd S _ hd hnd => omega
      | right S => rfl
      | left S => rfl
    rw [hz]
    unfold pcss1Start
    by_cases hrn : p.r = n
    · rw [if_pos hrn]
    · rw [if_neg hrn]
  · rw [hst]; exact r3 hnL
  · have h1 := r3 hnL
    rw [h0, zero_mul] at h1
    exact (C29_pcss1_solves_iff A (.vec (b.getD 0)) c δ tol L (.gen p.r p.M) p.z res r1 x r2).2
      (le_antisymm h1 (norm2_nonneg _))

/-- a call of `PcSS1` that may make no iteration returns its starting point -/
theorem pcss1_start {A : Matrix (Fin m) (Fin n) ℝ} {b : BArg m} {c : Option (Fin n → ℝ)} {δ tol : ℝ}
    {R : Matrix (Fin n) (Fin r) ℝ} {z0 : Option (Fin r → ℝ)} {res : SaddleOut m n}
    (h : pcss1 A b c δ tol 0 (.gen r R) z0 = .ok res) : res.x = some (pcss1Start R z0) := by
  obtain ⟨-, r, R, e, mvPre, R', x, log, h1, h2, rfl⟩ := pcss1_ok_iff.1 h
  cases e
  rw [C27_pcg_start] at h2
  cases h2
  obtain ⟨N, -, hc⟩ := pcss1Pre_eq h1
  rcases hc with ⟨-, rfl, -⟩ | ⟨hrn, -⟩
  · rfl
  · unfold pcss1Start; rw [if_neg hrn, if_neg hrn]

/-- `M' v` in terms of the inverse of `M M'` -/
theorem precond_norm {H : Matrix (Fin n) (Fin n) ℝ} {M : Matrix (Fin n) (Fin r) ℝ} (h : M * Mᵀ * H = 1)
    {u v : Fin n → ℝ} (hu : H *ᵥ u = v) : M *ᵥ (Mᵀ *ᵥ v) = u ∧ norm2 (Mᵀ *ᵥ v) ^ 2 = u ⬝ᵥ v := by
  have h1 : M *ᵥ (Mᵀ *ᵥ v) = u := by rw [← hu, mulVec_mulVec, mulVec_mulVec, h, one_mulVec]
  exact ⟨h1, by rw [norm2_sq, sqNorm_eq_dot, dot_mulVec, transpose_transpose, h1]⟩

/-- **C41** (the start).  Let `int(sf n) ≥ n` and let the lifted sketch have numerically full column
rank; write `H = (SA)'(SA) + δ I` and `rhs = A'b - c`.  The starting point of `SPS1` (the result of a call
with `iter_lim = 0`) is the sketched solution `xs = H⁻¹ rhs` if the gradient `g = (A'A + δ I) xs - rhs` it
leaves satisfies `g'H⁻¹g < rhs'H⁻¹rhs`, and `0` otherwise. -/
theorem C41_sps1_start (la : LinAlg) (gen : SkOpGen G) (sf : ℝ) (strategy : NystromStrategy)
    (A : Matrix (Fin m) (Fin n) ℝ) (b : Option (Fin m → ℝ)) (c : Option (Fin n → ℝ)) (δ tol : ℝ)
    (hδ : 0 ≤ δ) (logging : Bool) (clock : LogTimes) (w w' : World G) (out : SPSOut m n)
    (h : sps1Call la gen sf PcSS1 strategy A b c δ tol 0 logging clock w = .ok (out, w'))
    (hsf : (n : ℤ) ≤ pyInt (sf * n)) :
    ∃ (d : ℕ) (S : Matrix (Fin d) (Fin m) ℝ), (d : ℤ) = pyInt (sf * n) ∧ gen d m w = .ok (S, w') ∧
      (WellCond (aLift (S * A) (Real.sqrt δ)) →
        ∀ H rhs xs g u, H = (S * A)ᵀ * (S * A) + δ • (1 : Matrix (Fin n) (Fin n) ℝ) →
          rhs = Aᵀ *ᵥ b.getD 0 - cVec c → H *ᵥ xs = rhs →
          g = Aᵀ *ᵥ (A *ᵥ xs) + δ • xs - rhs → H *ᵥ u = g →
          (u ⬝ᵥ g < xs ⬝ᵥ rhs → out.x = some xs) ∧ (xs ⬝ᵥ rhs ≤ u ⬝ᵥ g → out.x = some 0)) := by
  obtain ⟨p, hp, h⟩ := sps1_ok h
  obtain ⟨res, hr, e1, -, -⟩ := sps1Post_ok h
  have hst := pcss1_start (show pcss1 _ _ _ _ _ _ _ _ = _ from hr)
  rw [← e1] at hst
  cases hp with
  | right S hd hn => omega
  | left S hd hn => omega
  | @svd d S _ hd hn hs hg hp =>
    refine ⟨d, S, hd, hg, fun hw H rhs xs g u hH hrhs hxs hgr hu => ?_⟩
    unfold sps1Svd at hp
    simp only at hp
    cases ho : svdRightPrecond la (aLift (S * A) (Real.sqrt δ)) with
    | error e => rw [ho] at hp; cases hp
    | ok o =>
      rw [ho] at hp
      simp only at hp
      have hrn := WellCond.no_truncation la hw ho
      obtain ⟨-, -, -, hpos, -, g6, g7⟩ := C26_svd_right_precond la _ o ho
      obtain ⟨i1, -⟩ := g7 hrn
      rw [aLift_gram_sqrt _ hδ, ← hH] at i1
      have hz : (fun j => (o.Vh *ᵥ normalRhs A (b.getD 0) c) j / o.sigma j) = o.Mᵀ *ᵥ rhs := by
        rw [normalRhs_eq, ← hrhs]
        funext j
        simp only [mulVec, dotProduct, transpose_apply, Finset.sum_div]
        refine Finset.sum_congr rfl fun i _ => ?_
        rw [← g6 i j]
        have := (hpos j).ne'
        field_simp
      obtain ⟨a1, a2⟩ := precond_norm i1 hxs
      obtain ⟨-, a3⟩ := precond_norm i1 hu
      rw [hz, a1, normalRhs_eq, ← hrhs, ← mulVec_sub, ← hgr] at hp
      have hcmp : norm2 (o.Mᵀ *ᵥ g) ≥ norm2 (o.Mᵀ *ᵥ rhs) ↔ xs ⬝ᵥ rhs ≤ u ⬝ᵥ g := by
        rw [← a2, ← a3, ge_iff_le, pow_le_pow_iff_left₀ (norm2_nonneg _) (norm2_nonneg _) two_ne_zero]
      cases hp
      refine ⟨fun hlt => ?_, fun hge => ?_⟩
      · rw [hst, if_neg (fun hc => absurd (hcmp.1 hc) (not_le.2 hlt))]
        unfold pcss1Start
        rw [if_pos hrn]
        simp only [a1]
      · rw [hst, if_pos (hcmp.2 hge)]
        unfold pcss1Start
        rw [if_pos hrn]

theorem demo31_wellCond : WellCond (aLift (!![1; 1; 1] : Matrix (Fin 3) (Fin 1) ℝ) (Real.sqrt 0)) := by
  have e : ∀ x : Fin 1 → ℝ, norm2 (aLift (!![1; 1; 1] : Matrix (Fin 3) (Fin 1) ℝ) (Real.sqrt 0) *ᵥ x) =
      Real.sqrt 3 * norm2 x := by
    intro x
    unfold norm2
    rw [← Real.sqrt_mul (by norm_num), sqNorm_aLift]
    congr 1
    simp [sqNorm, Fin.sum_univ_three, mulVec, dotProduct]
    ring
  refine ⟨Real.sqrt 3, Real.sqrt 3, fun x => (e x).ge, fun x => (e x).le, Real.sqrt_nonneg _, ?_⟩
  have h3 : (0 : ℝ) < Real.sqrt 3 := Real.sqrt_pos.2 (by norm_num)
  have : eps < 1 := by unfold eps; norm_num
  push_cast
  nlinarith

/-- The hypotheses of the theorems of C41 are met: a 3 x 1 problem with a full-size sketch, whose
starting point is already the solution. -/
example : ∃ out out0, sps1Call LinAlg.ref (idGen (G := ℕ)) 3 PcSS1 .left
      (!![1; 1; 1] : Matrix (Fin 3) (Fin 1) ℝ) (some ![1, 2, 6]) (some ![3]) 0 0 1 false
        ⟨0, 0, 0, 0, 0⟩ ⟨0, 0, []⟩ = .ok (out, ⟨0, 0, []⟩) ∧
    sps1Call LinAlg.ref (idGen (G := ℕ)) 3 PcSS1 .left
      (!![1; 1; 1] : Matrix (Fin 3) (Fin 1) ℝ) (some ![1, 2, 6]) (some ![3]) 0 0 0 false
        ⟨0, 0, 0, 0, 0⟩ ⟨0, 0, []⟩ = .ok (out0, ⟨0, 0, []⟩) ∧
    out.x = some ![2] ∧ out.y = some ![-1, 0, 4] ∧ out0.x = some ![2] := by
  have hn : ((1 : ℕ) : ℝ) * eps < 1 := by unfold eps; norm_num
  obtain ⟨out, x, y, out0, x0, h1, h2, h3, h4, h5, h6, -, -, h7⟩ :=
    C41_sps1_converges LinAlg.ref (idGen (G := ℕ)) 3 .left
      (!![1; 1; 1] : Matrix (Fin 3) (Fin 1) ℝ) (some ![1, 2, 6]) (some ![3]) 0 0 le_rfl le_rfl 1 (by norm_num) false
      ⟨0, 0, 0, 0, 0⟩ ⟨0, 0, []⟩ ⟨0, 0, []⟩ one_ne_zero hn
      ⟨![2], ![-1, 0, 4], by
        funext i
        fin_cases i <;> simp [mulVec, dotProduct] <;> norm_num, by
        funext i
        fin_cases i
        simp [mulVec, dotProduct, cVec, Fin.sum_univ_three]
        norm_num⟩
      (Or.inl ⟨3, 1, by rw [demo31_pyInt]; rfl, by norm_num, by simp, idGen_ok _, Or.inl (by
        rw [Matrix.one_mul]
        intro h
        have := congrFun (congrFun h 0) 0
        simp at this)⟩)
  refine ⟨out, out0, h1, h5, ?_⟩
  obtain ⟨a1, a2⟩ := h7 (by norm_num) rfl
  have hx : x = ![2] := by
    rw [h4] at a2
    have := congrFun a2 0
    simp [mulVec, dotProduct, cVec, Fin.sum_univ_three] at this
    funext i
    fin_cases i
    show x 0 = 2
    linarith
  refine ⟨by rw [h2, hx], ?_, ?_⟩
  · rw [h3, h4, hx]
    congr 1
    funext i
    fin_cases i <;> simp [mulVec, dotProduct] <;> norm_num
  · obtain ⟨d, S, hd, hg, hst⟩ := C41_sps1_start LinAlg.ref (idGen (G := ℕ)) 3 .left _ _ _ 0 0 le_rfl false _ _ _
      out0 h5 (by rw [demo31_pyInt]; norm_num)
    rw [demo31_pyInt] at hd
    have : d = 3 := by exact_mod_cast hd
    subst this
    rw [idGen_ok] at hg
    cases hg
    refine (hst (by rw [Matrix.one_mul]; exact demo31_wellCond) _ ![6] ![2] 0 0 rfl ?_ ?_ ?_ (mulVec_zero _)).1 ?_
    · funext i
      fin_cases i
      simp [mulVec, dotProduct, cVec, Fin.sum_univ_three]
      norm_num
    · funext i
      fin_cases i
      simp [mulVec, dotProduct, mul_apply, Fin.sum_univ_three]
      norm_num
    · funext i
      fin_cases i
      simp [mulVec, dotProduct, Fin.sum_univ_three]
      norm_num
    · simp

end Parla.Props
