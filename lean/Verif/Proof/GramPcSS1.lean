import Verif.Proof.GramPrec

/-! `PcSS1` with the preconditioner of `svd_right_precond` (helper lemmas for C87). -/

namespace Parla

open Matrix Spec

variable {m n p r r' : ℕ}

theorem pcss1Core_congr (A : Matrix (Fin m) (Fin n) ℝ) (b : Fin m → ℝ) (c : Option (Fin n → ℝ)) (δ tol : ℝ)
    (L : ℤ) {R : Matrix (Fin n) (Fin r) ℝ} {R' : Matrix (Fin n) (Fin r') ℝ} (hr : r = r')
    (hpre : (pcss1Pre R δ).map Prod.fst = (pcss1Pre R' δ).map Prod.fst)
    {z : Option (Fin r → ℝ)} {z' : Option (Fin r' → ℝ)} (hz : z.map (R *ᵥ ·) = z'.map (R' *ᵥ ·)) :
    pcss1Core A b c δ tol L R z = pcss1Core A b c δ tol L R' z' := by
  subst hr
  unfold pcss1Core
  by_cases hn : r = n
  · have h1 : ∀ R : Matrix (Fin n) (Fin r) ℝ, pcss1Pre R δ = .ok (fun vec => R *ᵥ (Rᵀ *ᵥ vec), R) :=
      fun R => if_pos hn
    rw [h1, h1] at hpre ⊢
    have e : (fun vec => R *ᵥ (Rᵀ *ᵥ vec)) = fun vec => R' *ᵥ (R'ᵀ *ᵥ vec) := by
      simpa only [Except.map, Except.ok.injEq] using hpre
    have es : pcss1Start R z = pcss1Start R' z' := by
      unfold pcss1Start
      rw [if_pos hn, if_pos hn]
      cases z with
      | none => cases z' with
        | none => rfl
        | some z' => cases hz
      | some z => cases z' with
        | none => cases hz
        | some z' =>
          simp only [Option.map, Option.some.injEq] at hz
          exact hz
    simp only [e, es]
  · have hs : ∀ (R : Matrix (Fin n) (Fin r) ℝ) z, pcss1Start R z = 0 := fun R z => if_neg hn
    simp only [hs]
    cases h1 : pcss1Pre R δ with
    | error e =>
      cases h2 : pcss1Pre R' δ with
      | error e' =>
        rw [h1, h2] at hpre
        simp only [Except.map, Except.error.injEq] at hpre
        rw [hpre]
      | ok q => rw [h1, h2] at hpre; cases hpre
    | ok q =>
      cases h2 : pcss1Pre R' δ with
      | error e' => rw [h1, h2] at hpre; cases hpre
      | ok q' =>
        rw [h1, h2] at hpre
        simp only [Except.map, Except.ok.injEq] at hpre
        simp only [hpre]

theorem pcss1_congr (A : Matrix (Fin m) (Fin n) ℝ) (b : BArg m) (c : Option (Fin n → ℝ)) (δ tol : ℝ)
    (L : ℤ) {R : Matrix (Fin n) (Fin r) ℝ} {R' : Matrix (Fin n) (Fin r') ℝ} (hr : r = r')
    (hpre : (pcss1Pre R δ).map Prod.fst = (pcss1Pre R' δ).map Prod.fst)
    {z : Option (Fin r → ℝ)} {z' : Option (Fin r' → ℝ)} (hz : z.map (R *ᵥ ·) = z'.map (R' *ᵥ ·)) :
    pcss1 A b c δ tol L (.gen r R) z = pcss1 A b c δ tol L (.gen r' R') z' := by
  cases b with
  | multi k hk => rfl
  | none => exact pcss1Core_congr A 0 c δ tol L hr hpre hz
  | vec b => exact pcss1Core_congr A b c δ tol L hr hpre hz

/-- a preconditioner `Vᵀ / σ` with orthonormal rows of `V` -/
structure SvdPrec (M : Matrix (Fin n) (Fin r) ℝ) (s : Fin r → ℝ) (W : Matrix (Fin r) (Fin n) ℝ) : Prop where
  orth : W * Wᵀ = 1
  pos : ∀ j, 0 < s j
  eq : ∀ i j, M i j = W j i / s j

theorem SvdPrec.colScale {M : Matrix (Fin n) (Fin r) ℝ} {s : Fin r → ℝ} {W : Matrix (Fin r) (Fin n) ℝ}
    (h : SvdPrec M s W) (j : Fin r) : Parla.colScale M j = s j := by
  have e : (fun i => M i j) = (s j)⁻¹ • W j := by
    funext i
    rw [h.eq]
    simp only [Pi.smul_apply, smul_eq_mul]
    rw [div_eq_mul_inv, mul_comm]
  have hn : sqNorm (W j) = 1 := by
    have := congrFun (congrFun h.orth j) j
    rw [one_apply_eq, mul_apply] at this
    rw [← this, sqNorm]
    exact Finset.sum_congr rfl fun i _ => by rw [sq, transpose_apply]
  have hn' : norm2 ((s j)⁻¹ • W j) = (s j)⁻¹ := by
    have : sqNorm ((s j)⁻¹ • W j) = (s j)⁻¹ ^ 2 := by
      rw [← mul_one ((s j)⁻¹ ^ 2), ← hn]
      simp only [sqNorm, Pi.smul_apply, smul_eq_mul, mul_pow, Finset.mul_sum]
    unfold norm2
    rw [this, Real.sqrt_sq (inv_nonneg.2 (h.pos j).le)]
  unfold Parla.colScale
  rw [e, hn', one_div, inv_inv]

theorem SvdPrec.colNormalize {M : Matrix (Fin n) (Fin r) ℝ} {s : Fin r → ℝ} {W : Matrix (Fin r) (Fin n) ℝ}
    (h : SvdPrec M s W) : Parla.colNormalize M = Wᵀ := by
  ext i j
  unfold Parla.colNormalize
  rw [of_apply, h.colScale, h.eq, transpose_apply, div_mul_cancel₀ _ (h.pos j).ne']

theorem diag_fun_apply {W : Matrix (Fin r) (Fin n) ℝ} (d : Fin r → ℝ) {R : Matrix (Fin n) (Fin r) ℝ}
    (hR : ∀ i j, R i j = W j i * d j) (v : Fin n → ℝ) :
    R *ᵥ (Rᵀ *ᵥ v) = (Wᵀ * diagonal (fun j => d j ^ 2) * W) *ᵥ v := by
  have : R * Rᵀ = Wᵀ * diagonal (fun j => d j ^ 2) * W := by
    ext i k
    rw [mul_apply, mul_apply]
    refine Finset.sum_congr rfl fun j _ => ?_
    rw [mul_diagonal, transpose_apply, transpose_apply, hR, hR]
    ring
  rw [mulVec_mulVec, this]

/-- the map `PcSS1` preconditions with depends only on the spectral functions -/
theorem pcss1Pre_svd {M : Matrix (Fin n) (Fin r) ℝ} {s : Fin r → ℝ} {W : Matrix (Fin r) (Fin n) ℝ}
    {M' : Matrix (Fin n) (Fin r') ℝ} {s' : Fin r' → ℝ} {W' : Matrix (Fin r') (Fin n) ℝ}
    (h : SvdPrec M s W) (h' : SvdPrec M' s' W') (e : r = r') (hs : ∀ j, s j = s' (Fin.cast e j))
    (hf : ∀ g : ℝ → ℝ, Wᵀ * diagonal (fun i => g (s i)) * W = W'ᵀ * diagonal (fun i => g (s' i)) * W')
    (δ : ℝ) : (pcss1Pre M δ).map Prod.fst = (pcss1Pre M' δ).map Prod.fst := by
  subst e
  unfold pcss1Pre
  by_cases hn : r = n
  · simp only [if_pos hn, Except.map]
    congr 1
    funext v
    rw [diag_fun_apply (W := W) (fun j => (s j)⁻¹) (fun i j => by rw [h.eq, div_eq_mul_inv]),
      diag_fun_apply (W := W') (fun j => (s' j)⁻¹) (fun i j => by rw [h'.eq, div_eq_mul_inv]),
      hf fun x => x⁻¹ ^ 2]
  · simp only [if_neg hn]
    by_cases h0 : 0 < r
    · simp only [dif_pos h0, Except.map]
      congr 1
      funext v
      obtain ⟨t, ht⟩ : ∃ t, t = Real.sqrt (s ⟨r - 1, by omega⟩ ^ 2 + δ) := ⟨_, rfl⟩
      have ht' : t = Real.sqrt (s' ⟨r - 1, by omega⟩ ^ 2 + δ) := by
        rw [ht, hs]; rfl
      have a1 : ∀ i j, lowRankR M δ h0 i j = W j i * (Real.sqrt (s j ^ 2 + δ) / t)⁻¹ := by
        intro i j
        unfold lowRankR shiftedSing
        rw [of_apply, h.colNormalize, h.colScale, h.colScale, ← ht, transpose_apply, div_eq_mul_inv]
      have a2 : ∀ i j, lowRankR M' δ h0 i j = W' j i * (Real.sqrt (s' j ^ 2 + δ) / t)⁻¹ := by
        intro i j
        unfold lowRankR shiftedSing
        rw [of_apply, h'.colNormalize, h'.colScale, h'.colScale, ← ht', transpose_apply, div_eq_mul_inv]
      have b1 : ∀ i j, Parla.colNormalize M i j = W j i * 1 := by
        intro i j; rw [h.colNormalize, mul_one, transpose_apply]
      have b2 : ∀ i j, Parla.colNormalize M' i j = W' j i * 1 := by
        intro i j; rw [h'.colNormalize, mul_one, transpose_apply]
      rw [diag_fun_apply _ a1, diag_fun_apply _ a2, diag_fun_apply _ b1, diag_fun_apply _ b2,
        hf fun x => (Real.sqrt (x ^ 2 + δ) / t)⁻¹ ^ 2, hf fun _ => 1 ^ 2]
    · simp only [dif_neg h0]

theorem SvdPrec.gram {M : Matrix (Fin n) (Fin r) ℝ} {s : Fin r → ℝ} {W : Matrix (Fin r) (Fin n) ℝ}
    (h : SvdPrec M s W) : M * Mᵀ = Wᵀ * diagonal (fun j => (s j)⁻¹ ^ 2) * W := by
  ext i k
  rw [mul_apply, mul_apply]
  refine Finset.sum_congr rfl fun j _ => ?_
  rw [mul_diagonal, transpose_apply, transpose_apply, h.eq, h.eq]
  ring

theorem SvdPrec.full {M : Matrix (Fin n) (Fin r) ℝ} {s : Fin r → ℝ} {W : Matrix (Fin r) (Fin n) ℝ}
    (h : SvdPrec M s W) : FullColRank M := by
  refine fullColRank_of_left_inv (L := diagonal s * W) ?_
  have e : M = Wᵀ * diagonal fun j => (s j)⁻¹ := by
    ext i j
    rw [mul_diagonal, h.eq, transpose_apply, div_eq_mul_inv]
  rw [e, Matrix.mul_assoc, ← Matrix.mul_assoc W, h.orth, Matrix.one_mul, diagonal_mul_diagonal]
  rw [show (fun i => s i * (s i)⁻¹) = fun _ => (1 : ℝ) from funext fun i => mul_inv_cancel₀ (h.pos i).ne',
    diagonal_one]

/-- what two preconditioners of this kind must share -/
structure SamePrec (M : Matrix (Fin n) (Fin r) ℝ) (s : Fin r → ℝ) (W : Matrix (Fin r) (Fin n) ℝ)
    (M' : Matrix (Fin n) (Fin r') ℝ) (s' : Fin r' → ℝ) (W' : Matrix (Fin r') (Fin n) ℝ) : Prop where
  left : SvdPrec M s W
  right : SvdPrec M' s' W'
  dim : r = r'
  sv : ∀ j, s j = s' (Fin.cast dim j)
  fn : ∀ g : ℝ → ℝ, Wᵀ * diagonal (fun i => g (s i)) * W = W'ᵀ * diagonal (fun i => g (s' i)) * W'

theorem SamePrec.gram {M : Matrix (Fin n) (Fin r) ℝ} {s : Fin r → ℝ} {W : Matrix (Fin r) (Fin n) ℝ}
    {M' : Matrix (Fin n) (Fin r') ℝ} {s' : Fin r' → ℝ} {W' : Matrix (Fin r') (Fin n) ℝ}
    (h : SamePrec M s W M' s' W') : M * Mᵀ = M' * M'ᵀ := by
  rw [h.left.gram, h.right.gram, h.fn fun x => x⁻¹ ^ 2]

/-- both saddle solvers -/
theorem SamePrec.solver {M : Matrix (Fin n) (Fin r) ℝ} {s : Fin r → ℝ} {W : Matrix (Fin r) (Fin n) ℝ}
    {M' : Matrix (Fin n) (Fin r') ℝ} {s' : Fin r' → ℝ} {W' : Matrix (Fin r') (Fin n) ℝ}
    (h : SamePrec M s W M' s' W') {solver : SaddleSolver} (hs : solver = PcSS1 ∨ solver = PcSS2)
    (A : Matrix (Fin m) (Fin n) ℝ) (b : BArg m) (c : Option (Fin n → ℝ)) {δ : ℝ} (hδ : 0 ≤ δ) (tol : ℝ) (L : ℤ)
    {z : Option (Fin r → ℝ)} {z' : Option (Fin r' → ℝ)} (hz : z.map (M *ᵥ ·) = z'.map (M' *ᵥ ·)) :
    solver m n A b c δ tol L (.gen r M) z = solver m n A b c δ tol L (.gen r' M') z' := by
  rcases hs with rfl | rfl
  · exact pcss1_congr A b c δ tol L h.dim (pcss1Pre_svd h.left h.right h.dim h.sv h.fn δ) hz
  · exact pcss2_gram A b c hδ tol L (P₁ := .gen r M) (P₂ := .gen r' M') trivial trivial h.gram h.left.full
      h.right.full z z' hz

theorem svdRightPrecond_prec (la : LinAlg) {A : Matrix (Fin p) (Fin n) ℝ} {o : PrecOut p n}
    (ho : svdRightPrecond la A = .ok o) : SvdPrec o.M o.sigma o.Vh := by
  obtain ⟨-, -, h3, h4, -, h6, -⟩ := Props.C26_svd_right_precond la A o ho
  exact ⟨h3, h4, fun i j => by rw [eq_div_iff (h4 j).ne', h6]⟩

theorem svdRightPrecond_same (la la' : LinAlg) {A B : Matrix (Fin p) (Fin n) ℝ} (h : Aᵀ * A = Bᵀ * B)
    {o o' : PrecOut p n} (ho : svdRightPrecond la A = .ok o) (ho' : svdRightPrecond la' B = .ok o') :
    SamePrec o.M o.sigma o.Vh o'.M o'.sigma o'.Vh := by
  obtain ⟨e, hs, hf⟩ := svdRightPrecond_unique la la' h ho ho'
  exact ⟨svdRightPrecond_prec la ho, svdRightPrecond_prec la' ho', e, hs, hf⟩

end Parla
