import Verif.Model.LeastSquares
import Verif.Props.SSO1
import Verif.Props.Precond

/-! Helper lemmas about the factorisation stage of `SPO`. -/

namespace Parla

open Matrix Spec Props

variable {m n d : ℕ}

theorem topRows_T_mulVec {a b c : ℕ} (Q : Matrix (Fin (a + b)) (Fin c) ℝ) (v : Fin a → ℝ) :
    (topRows Q)ᵀ *ᵥ v = Qᵀ *ᵥ (catv v (0 : Fin b → ℝ)) := by
  funext j
  simp [mulVec, dotProduct, topRows, catv, Fin.sum_univ_add]

/-- a square left inverse in the metric `G` is a right inverse -/
theorem sandwich_inv {k : ℕ} (hk : k = n) {M : Matrix (Fin n) (Fin k) ℝ} {Gm : Matrix (Fin n) (Fin n) ℝ}
    (h : Mᵀ * Gm * M = 1) : M * Mᵀ * Gm = 1 ∧ Gm * (M * Mᵀ) = 1 := by
  subst hk
  have h1 : M * (Mᵀ * Gm) = 1 := mul_eq_one_comm.1 h
  have h1' : M * Mᵀ * Gm = 1 := by rw [Matrix.mul_assoc]; exact h1
  exact ⟨h1', mul_eq_one_comm.1 h1'⟩

/-- the matrix the preconditioner of `SPO` inverts -/
theorem lift_gram_sandwich {k : ℕ} (B : Matrix (Fin d) (Fin n) ℝ) {δ : ℝ} (hδ : 0 ≤ δ)
    {M : Matrix (Fin n) (Fin k) ℝ}
    (h : (aLift B (Real.sqrt δ) * M)ᵀ * (aLift B (Real.sqrt δ) * M) = 1) :
    Mᵀ * (Bᵀ * B + δ • (1 : Matrix (Fin n) (Fin n) ℝ)) * M = 1 := by
  rw [← aLift_gram_sqrt B hδ, ← h, transpose_mul]
  simp only [Matrix.mul_assoc]

theorem castCols_castRows_mul {a b c k : ℕ} (h : a = b) (Q : Matrix (Fin c) (Fin a) ℝ)
    (R : Matrix (Fin a) (Fin k) ℝ) : castCols h Q * castRows h R = Q * R := by
  subst h; rfl

theorem castCols_gram {a b c : ℕ} (h : a = b) {Q : Matrix (Fin c) (Fin a) ℝ} (hQ : Qᵀ * Q = 1) :
    (castCols h Q)ᵀ * castCols h Q = 1 := by
  subst h; exact hQ

/-- The triangular factor of a QR factorisation. -/
theorem qr_square (la : LinAlg) {p : ℕ} (B : Matrix (Fin p) (Fin n) ℝ) (h : min p n = n) :
    castCols h (la.qr B).1 * castRows h (la.qr B).2 = B ∧
    (castCols h (la.qr B).1)ᵀ * castCols h (la.qr B).1 = 1 ∧
    triu (castRows h (la.qr B).2) = castRows h (la.qr B).2 := by
  refine ⟨by rw [castCols_castRows_mul, la.qr_mul], castCols_gram h (la.qr_orth B), triu_eq_self ?_⟩
  intro i j hij
  exact la.qr_upper B _ _ hij

/-- A triangular factor with `Q R = B` has a nonzero diagonal exactly if `B` has full column rank. -/
theorem tri_full {p k : ℕ} {B : Matrix (Fin p) (Fin n) ℝ} {Q : Matrix (Fin p) (Fin k) ℝ} (hk : k = n)
    {R : Matrix (Fin k) (Fin n) ℝ} (h : Q * R = B) (hQ : Qᵀ * Q = 1)
    (hR : triu (castRows hk R) = castRows hk R) :
    FullColRank B ↔ ∀ i, castRows hk R i i ≠ 0 := by
  subst hk
  have hR' : triu R = R := hR
  show _ ↔ ∀ i, R i i ≠ 0
  constructor
  · intro hB i hi
    have hdet : R.det = 0 := by
      rw [← hR', det_triu]; exact Finset.prod_eq_zero (Finset.mem_univ i) hi
    obtain ⟨v, hv, hv0⟩ := Matrix.exists_mulVec_eq_zero_iff.2 hdet
    apply hv
    apply fullColRank_iff_inj.1 hB
    rw [← h, ← mulVec_mulVec, hv0, mulVec_zero]
  · intro hd
    have hu : IsUnit R.det := by
      rw [← hR']; exact isUnit_det_triu (by push Not; exact hd)
    refine fullColRank_of_left_inv (L := R⁻¹ * Qᵀ) ?_
    rw [← h, Matrix.mul_assoc, ← Matrix.mul_assoc Qᵀ, hQ, Matrix.one_mul, nonsing_inv_mul _ hu]

/-- What every successful factorisation delivers: `M` is orthonormalising for the lifted sketch,
`z_ske = M'(SA)'Sb` and `x_ske = M z_ske`. -/
structure SPOGood (S : Matrix (Fin d) (Fin m) ℝ) (A : Matrix (Fin m) (Fin n) ℝ) (b : Fin m → ℝ) (δ : ℝ)
    (f : SPOFac n) : Prop where
  ok : f.P.Ok
  orth : (aLift (S * A) (Real.sqrt δ) * f.P.mat)ᵀ * (aLift (S * A) (Real.sqrt δ) * f.P.mat) = 1
  z : f.z = f.P.matᵀ *ᵥ ((S * A)ᵀ *ᵥ (S *ᵥ b))
  x : f.x = f.P.mat *ᵥ f.z

theorem spoQR_spec (la : LinAlg) (S : Matrix (Fin d) (Fin m) ℝ) (A : Matrix (Fin m) (Fin n) ℝ)
    (b : Fin m → ℝ) {δ : ℝ} (hδ : 0 ≤ δ) (hd : n ≤ d) :
    (FullColRank (aLift (S * A) (Real.sqrt δ)) → ∃ f, spoQR la S A b δ = .ok f ∧
      SPOGood S A b δ f ∧ f.P.dim = n) ∧
    (¬ FullColRank (aLift (S * A) (Real.sqrt δ)) → spoQR la S A b δ = .error .linAlg) := by
  have h : min (d + liftRows n (Real.sqrt δ)) n = n := by omega
  obtain ⟨h1, h2, h3⟩ := qr_square la (aLift (S * A) (Real.sqrt δ)) h
  have key := tri_full h (la.qr_mul (aLift (S * A) (Real.sqrt δ)))
    (la.qr_orth (aLift (S * A) (Real.sqrt δ))) h3
  unfold spoQR
  simp only [dif_pos h]
  set Q := castCols h (la.qr (aLift (S * A) (Real.sqrt δ))).1
  set R := castRows h (la.qr (aLift (S * A) (Real.sqrt δ))).2
  constructor
  · intro hf
    have hR := key.1 hf
    rw [solveUpperv_eq hR]
    have hu : IsUnit (triu R).det := isUnit_det_triu (by push Not; exact hR)
    have hB : aLift (S * A) (Real.sqrt δ) * (triu R)⁻¹ = Q := by
      have : aLift (S * A) (Real.sqrt δ) = Q * triu R := by rw [h3, h1]
      rw [this, Matrix.mul_assoc, mul_nonsing_inv _ hu, Matrix.mul_one]
    refine ⟨_, rfl, ⟨hR, ?_, ?_, rfl⟩, rfl⟩
    · show (aLift (S * A) (Real.sqrt δ) * (triu R)⁻¹)ᵀ * (aLift (S * A) (Real.sqrt δ) * (triu R)⁻¹) = 1
      rw [hB, h2]
    · show (topRows Q)ᵀ *ᵥ (S *ᵥ b) = ((triu R)⁻¹)ᵀ *ᵥ ((S * A)ᵀ *ᵥ (S *ᵥ b))
      rw [topRows_T_mulVec, ← hB, mul_T_mulVec, aLift_T_mulVec, topv_catv, botv_catv, padv_zero,
        smul_zero, add_zero]
  · intro hf
    have : ∃ i, R i i = 0 := by
      by_contra hc
      push Not at hc
      exact hf (key.2 hc)
    rw [solveUpperv_err this]

theorem gram_posDef_iff {p : ℕ} (B : Matrix (Fin p) (Fin n) ℝ) :
    (Bᵀ * B).PosDef ↔ FullColRank B := by
  constructor
  · intro h
    rw [fullColRank_iff_inj]
    intro x hx
    by_contra hne
    have h1 : 0 < star x ⬝ᵥ ((Bᵀ * B) *ᵥ x) := h.dotProduct_mulVec_pos hne
    rw [← mulVec_mulVec, hx, mulVec_zero, dotProduct_zero] at h1
    exact lt_irrefl _ h1
  · intro h
    refine Matrix.PosDef.of_dotProduct_mulVec_pos ?_ fun x hx => ?_
    · unfold Matrix.IsHermitian
      rw [conjTranspose_eq_transpose_of_trivial, transpose_mul, transpose_transpose]
    · have h1 : star x ⬝ᵥ ((Bᵀ * B) *ᵥ x) = sqNorm (B *ᵥ x) := by
        rw [sqNorm_eq_dot, ← mulVec_mulVec, dot_mulVec, transpose_transpose]
        rfl
      rw [h1]
      refine lt_of_le_of_ne (sqNorm_nonneg _) (Ne.symm ?_)
      intro h0
      exact hx (fullColRank_iff_inj.1 h x (sqNorm_eq_zero.1 h0))

theorem spoChol_spec (la : LinAlg) (S : Matrix (Fin d) (Fin m) ℝ) (A : Matrix (Fin m) (Fin n) ℝ)
    (b : Fin m → ℝ) {δ : ℝ} (hδ : 0 ≤ δ) :
    (FullColRank (aLift (S * A) (Real.sqrt δ)) → ∃ f, spoChol la S A b δ = .ok f ∧
      SPOGood S A b δ f ∧ f.P.dim = n) ∧
    (¬ FullColRank (aLift (S * A) (Real.sqrt δ)) → spoChol la S A b δ = .error .linAlg) := by
  have hG : (S * A)ᵀ * (S * A) + δ • (1 : Matrix (Fin n) (Fin n) ℝ) =
      (aLift (S * A) (Real.sqrt δ))ᵀ * aLift (S * A) (Real.sqrt δ) := (aLift_gram_sqrt _ hδ).symm
  unfold spoChol
  simp only [hG]
  constructor
  · intro hf
    obtain ⟨R, h1, h2, h3, h4⟩ := la.chol_posDef _ ((gram_posDef_iff _).2 hf)
    rw [h1]
    have hR : ∀ i, R i i ≠ 0 := fun i => (h4 i).ne'
    have hu : IsUnit (triu R).det := isUnit_det_triu (by push Not; exact hR)
    have ht : triu R = R := triu_eq_self h3
    simp only [solveUpperTv_eq hR, solveUpperv_eq hR]
    refine ⟨_, rfl, ⟨hR, ?_, ?_, rfl⟩, rfl⟩
    · show (aLift (S * A) (Real.sqrt δ) * (triu R)⁻¹)ᵀ * (aLift (S * A) (Real.sqrt δ) * (triu R)⁻¹) = 1
      rw [transpose_mul, Matrix.mul_assoc, ← Matrix.mul_assoc (aLift (S * A) (Real.sqrt δ))ᵀ, ← h2,
        ht, ← Matrix.mul_assoc, ← Matrix.mul_assoc, ← transpose_mul, Matrix.mul_assoc,
        mul_nonsing_inv _ (ht ▸ hu), transpose_one, Matrix.mul_one]
    · rfl
  · intro hf
    rw [la.chol_fail _ (by rw [transpose_mul, transpose_transpose])
      (fun h => hf ((gram_posDef_iff _).1 h))]

theorem spoSVD_spec (la : LinAlg) (S : Matrix (Fin d) (Fin m) ℝ) (A : Matrix (Fin m) (Fin n) ℝ)
    (b : Fin m → ℝ) {δ : ℝ} :
    (d ≠ 0 → n ≠ 0 → ∃ o f, svdRightPrecond la (aLift (S * A) (Real.sqrt δ)) = .ok o ∧
      spoSVD la S A b δ = .ok f ∧ SPOGood S A b δ f ∧ f.P.dim = o.r) ∧
    (n = 0 → spoSVD la S A b δ = .error .index) := by
  unfold spoSVD
  simp only
  refine ⟨fun hd hn => ?_, fun hn => ?_⟩
  · obtain ⟨o, ho⟩ := (C26_empty la (aLift (S * A) (Real.sqrt δ))).2 (by omega) hn
    obtain ⟨h1, h2, -⟩ := C26_svd_right_precond la _ o ho
    simp only [ho]
    refine ⟨o, _, rfl, rfl, ⟨trivial, ?_, ?_, rfl⟩, rfl⟩
    · show (aLift (S * A) (Real.sqrt δ) * o.M)ᵀ * (aLift (S * A) (Real.sqrt δ) * o.M) = 1
      rw [h1]; exact h2
    · show (topRows o.U)ᵀ *ᵥ (S *ᵥ b) = o.Mᵀ *ᵥ ((S * A)ᵀ *ᵥ (S *ᵥ b))
      rw [topRows_T_mulVec, ← h1, mul_T_mulVec, aLift_T_mulVec, topv_catv, botv_catv, padv_zero,
        smul_zero, add_zero]
  · rw [(C26_empty la (aLift (S * A) (Real.sqrt δ))).1 (Or.inr hn)]

theorem WellCond.fullColRank {p : ℕ} {B : Matrix (Fin p) (Fin n) ℝ} (h : WellCond B) :
    FullColRank B := by
  obtain ⟨lo, hi, h1, -, h3, h4⟩ := h
  have hlo : 0 < lo := by
    refine lt_of_le_of_lt ?_ h4
    have : (0 : ℝ) ≤ eps := by unfold eps; positivity
    positivity
  rw [fullColRank_iff_inj]
  intro x hx
  have := h1 x
  rw [hx, norm2_eq_zero.2 rfl] at this
  have h5 := norm2_nonneg x
  refine norm2_eq_zero.1 (le_antisymm ?_ h5)
  by_contra hc
  push Not at hc
  have := mul_pos hlo hc
  linarith

/-- For a numerically full rank sketch `svd_right_precond` truncates nothing. -/
theorem WellCond.no_truncation (la : LinAlg) {p : ℕ} {B : Matrix (Fin p) (Fin n) ℝ} (hB : WellCond B)
    {o : PrecOut p n} (ho : svdRightPrecond la B = .ok o) : o.r = n := by
  have hfull := WellCond.fullColRank hB
  obtain ⟨lo, hi, h1, h2, h3, h4⟩ := hB
  obtain ⟨h0, hr, -, -, -, -, hcut⟩ := svdRightPrecond_open la B o ho
  have hn : min p n = n := by
    have := B.rank_le_height
    rw [hfull] at this
    omega
  have key : ∀ i, lo ≤ (la.svd B).2.1 i ∧ (la.svd B).2.1 i ≤ hi := by
    intro i
    set v := (la.svd B).2.2ᵀ *ᵥ Pi.single i 1 with hv
    have hvn : norm2 v = 1 := by
      have : sqNorm v = 1 := by
        rw [hv, sqNorm_orth_mulVec (by rw [transpose_transpose]; exact la.svd_right B)]
        simp [sqNorm, Pi.single_apply]
      unfold norm2; rw [this, Real.sqrt_one]
    have hBv : norm2 (B *ᵥ v) = (la.svd B).2.1 i := by
      have e : B *ᵥ v = (la.svd B).1 *ᵥ ((la.svd B).2.1 i • Pi.single i 1) := by
        conv_lhs => rw [← la.svd_mul B]
        rw [hv, mulVec_mulVec, Matrix.mul_assoc, la.svd_right B, Matrix.mul_one, ← mulVec_mulVec]
        congr 1
        funext j
        rw [mulVec_diagonal]
        by_cases hj : j = i
        · subst hj; simp
        · simp [Pi.single_apply, hj]
      have : sqNorm (B *ᵥ v) = (la.svd B).2.1 i ^ 2 := by
        rw [e, sqNorm_orth_mulVec (la.svd_left B), sqNorm_smul]
        simp [sqNorm, Pi.single_apply]
      unfold norm2
      rw [this, Real.sqrt_sq (la.svd_nonneg B i)]
    have e1 := h1 v
    have e2 := h2 v
    rw [hvn, hBv, mul_one] at e1 e2
    exact ⟨e1, e2⟩
  refine le_antisymm (by omega) ?_
  by_contra hc
  push Not at hc
  have hi := (hcut ⟨o.r, by omega⟩).2 ?_
  · exact lt_irrefl _ hi
  · refine lt_of_le_of_lt ?_ (lt_of_lt_of_le h4 (key _).1)
    have : (0 : ℝ) ≤ eps := by unfold eps; positivity
    exact mul_le_mul_of_nonneg_right (mul_le_mul_of_nonneg_right (key _).2 (Nat.cast_nonneg _)) this

theorem precAdj_eq {P : Precond n} (hP : P.Ok) (v : Fin n → ℝ) : precAdj P v = .ok (P.matᵀ *ᵥ v) := by
  cases P with
  | tri R => exact solveUpperTv_eq hP v
  | gen r R => rfl

/-- a successful factorisation, in any mode -/
theorem spoFactor_ok (la : LinAlg) {mode : SPOMode} {S : Matrix (Fin d) (Fin m) ℝ}
    {A : Matrix (Fin m) (Fin n) ℝ} {b : Fin m → ℝ} {δ : ℝ} (hδ : 0 ≤ δ) (hd : n ≤ d) {f : SPOFac n}
    (h : spoFactor la mode S A b δ = .ok f) : SPOGood S A b δ f ∧
      (mode = .qr ∨ mode = .chol ∨ WellCond (aLift (S * A) (Real.sqrt δ)) → f.P.dim = n) := by
  cases mode with
  | qr =>
    obtain ⟨h1, h2⟩ := spoQR_spec la S A b hδ hd
    change spoQR la S A b δ = .ok f at h
    by_cases hf : FullColRank (aLift (S * A) (Real.sqrt δ))
    · obtain ⟨f', e1, e2, e3⟩ := h1 hf
      rw [h] at e1; cases e1
      exact ⟨e2, fun _ => e3⟩
    · rw [h2 hf] at h; cases h
  | chol =>
    obtain ⟨h1, h2⟩ := spoChol_spec la S A b hδ
    change spoChol la S A b δ = .ok f at h
    by_cases hf : FullColRank (aLift (S * A) (Real.sqrt δ))
    · obtain ⟨f', e1, e2, e3⟩ := h1 hf
      rw [h] at e1; cases e1
      exact ⟨e2, fun _ => e3⟩
    · rw [h2 hf] at h; cases h
  | svd =>
    obtain ⟨h1, h2⟩ := spoSVD_spec la S A b (δ := δ)
    change spoSVD la S A b δ = .ok f at h
    by_cases hn : n = 0
    · rw [h2 hn] at h; cases h
    · obtain ⟨o, f', e0, e1, e2, e3⟩ := h1 (by omega) hn
      rw [h] at e1; cases e1
      refine ⟨e2, fun hw => ?_⟩
      have hw' : WellCond (aLift (S * A) (Real.sqrt δ)) := by
        rcases hw with hw | hw | hw
        · cases hw
        · cases hw
        · exact hw
      rw [e3]; exact WellCond.no_truncation la hw' e0
  | other => cases h

/-- when the factorisation succeeds -/
theorem spoFactor_total (la : LinAlg) {mode : SPOMode} (S : Matrix (Fin d) (Fin m) ℝ)
    (A : Matrix (Fin m) (Fin n) ℝ) (b : Fin m → ℝ) {δ : ℝ} (hδ : 0 ≤ δ) (hd : n ≤ d)
    (hm : mode = .svd ∧ n ≠ 0 ∨ (mode = .qr ∨ mode = .chol) ∧
      FullColRank (aLift (S * A) (Real.sqrt δ))) : ∃ f, spoFactor la mode S A b δ = .ok f := by
  rcases hm with ⟨rfl, hn⟩ | ⟨rfl | rfl, hf⟩
  · obtain ⟨o, f, -, h, -⟩ := (spoSVD_spec la S A b (δ := δ)).1 (by omega) hn
    exact ⟨f, h⟩
  · obtain ⟨f, h, -⟩ := (spoQR_spec la S A b hδ hd).1 hf
    exact ⟨f, h⟩
  · obtain ⟨f, h, -⟩ := (spoChol_spec la S A b hδ).1 hf
    exact ⟨f, h⟩

/-- the norm of the vector `r` of the presolve is the root of the objective -/
theorem spo_resid (A : Matrix (Fin m) (Fin n) ℝ) (b : Fin m → ℝ) {δ : ℝ} (hδ : 0 ≤ δ) (x : Fin n → ℝ) :
    sqNorm (catv (A *ᵥ x - b) (scaleEye (liftRows n (Real.sqrt δ)) n (Real.sqrt δ) *ᵥ x)) =
      sqNorm (A *ᵥ x - b) + δ * sqNorm x := by
  rw [sqNorm_catv, sqNorm_scaleEye, Real.sq_sqrt hδ]

/-- the choice of the start, in terms of objectives -/
theorem spoStart_none {A : Matrix (Fin m) (Fin n) ℝ} {b : Fin m → ℝ} {δ : ℝ} (hδ : 0 ≤ δ) (hb : b ≠ 0)
    {f : SPOFac n} (h : sqNorm b ≤ sqNorm (A *ᵥ f.x - b) + δ * sqNorm f.x) :
    spoStart A b δ f = none := by
  unfold spoStart
  refine if_pos (Or.inl ?_)
  rw [ge_iff_le, le_div_iff₀ (norm2_pos.2 hb), one_mul, norm2_le_norm2, spo_resid A b hδ]
  exact h

theorem spoStart_some {A : Matrix (Fin m) (Fin n) ℝ} {b : Fin m → ℝ} {δ : ℝ} (hδ : 0 ≤ δ)
    {f : SPOFac n} (h : b = 0 ∧ f.x = 0 ∨ sqNorm (A *ᵥ f.x - b) + δ * sqNorm f.x < sqNorm b)
    (hd : f.P.dim = n) :
    spoStart A b δ f = some f.z := by
  unfold spoStart
  refine if_neg ?_
  rintro (h' | ⟨-, h'⟩)
  · rcases h with ⟨rfl, h0⟩ | h
    · rw [h0, mulVec_zero, sub_zero, norm2_eq_zero.2 (rfl : (0 : Fin m → ℝ) = 0), div_zero] at h'
      linarith
    · have hb : b ≠ 0 := by
        rintro rfl
        rw [sqNorm_zero'] at h
        have := sqNorm_nonneg (A *ᵥ f.x - 0)
        have := mul_nonneg hδ (sqNorm_nonneg f.x)
        linarith
      rw [ge_iff_le, le_div_iff₀ (norm2_pos.2 hb), one_mul, norm2_le_norm2, spo_resid A b hδ] at h'
      linarith
  · exact h' hd.symm

/-- the start is never worse than zero -/
theorem spoStart_obj {S : Matrix (Fin d) (Fin m) ℝ} {A : Matrix (Fin m) (Fin n) ℝ} {b : Fin m → ℝ}
    {δ : ℝ} (hδ : 0 ≤ δ) {f : SPOFac n} (hf : SPOGood S A b δ f) :
    sqNorm (A *ᵥ (f.P.mat *ᵥ (spoStart A b δ f).getD 0) - b) +
      δ * sqNorm (f.P.mat *ᵥ (spoStart A b δ f).getD 0) ≤ sqNorm b := by
  cases hs : spoStart A b δ f with
  | none =>
    rw [Option.getD_none, mulVec_zero, mulVec_zero, zero_sub, sqNorm_neg, sqNorm_zero', mul_zero,
      add_zero]
  | some z =>
    have hz : z = f.z := by
      unfold spoStart at hs
      by_cases hc : norm2 (catv (A *ᵥ f.x - b)
          (scaleEye (liftRows n (Real.sqrt δ)) n (Real.sqrt δ) *ᵥ f.x)) / norm2 b ≥ 1 ∨
          (norm2 (catv (A *ᵥ f.x - b)
          (scaleEye (liftRows n (Real.sqrt δ)) n (Real.sqrt δ) *ᵥ f.x)) / norm2 b > 1 / 10 ^ 15 ∧
            n ≠ f.P.dim)
      · simp only [if_pos hc] at hs; cases hs
      · simp only [if_neg hc] at hs; cases hs; rfl
    rw [Option.getD_some, hz, ← hf.x]
    by_cases hb : b = 0
    · have : f.x = 0 := by
        rw [hf.x, hf.z, hb]; simp only [mulVec_zero]
      rw [this, hb, mulVec_zero, sub_zero, sqNorm_zero', sqNorm_zero', mul_zero, add_zero]
    · by_contra hc
      push Not at hc
      rw [spoStart_none hδ hb hc.le] at hs
      cases hs

end Parla
