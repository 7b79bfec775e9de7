import Verif.Proof.Gauss
import Verif.Proof.Blocks
import Verif.Proof.Stab
import Verif.Base.LinAlgExists

/-! # The mean of the trace of an inverse Wishart matrix -/

namespace Parla.Proof

open MeasureTheory ProbabilityTheory Matrix Spec

/-! ### Splitting an array of normals -/

/-- an array indexed by `ι` from its two parts -/
def join {ι α β : Type} (e : ι ≃ α ⊕ β) (z : (α → ℝ) × (β → ℝ)) : ι → ℝ := fun i => Sum.elim z.1 z.2 (e i)

theorem measurePreserving_join {ι α β : Type} [Fintype ι] [Fintype α] [Fintype β] (e : ι ≃ α ⊕ β) :
    MeasurePreserving (join e) ((gauss α).prod (gauss β)) (gauss ι) := by
  have h1 := measurePreserving_sumPiEquivProdPi_symm (X := fun _ : α ⊕ β => ℝ) (fun _ => gaussianReal 0 1)
  have h2 := measurePreserving_piCongrLeft (fun _ : ι => gaussianReal 0 1) e.symm
  have h3 := h2.comp h1
  suffices h4 : join e = ⇑(MeasurableEquiv.piCongrLeft (fun _ : ι => ℝ) e.symm) ∘
      ⇑(MeasurableEquiv.sumPiEquivProdPi fun _ : α ⊕ β => ℝ).symm by
    rw [h4]; exact h3
  funext z
  funext i
  obtain ⟨j, rfl⟩ := e.symm.surjective i
  have := MeasurableEquiv.piCongrLeft_apply_apply (β := fun _ : ι => ℝ) e.symm
    ((MeasurableEquiv.sumPiEquivProdPi fun _ : α ⊕ β => ℝ).symm z) j
  simp only [Function.comp]
  rw [this]
  unfold join
  rw [Equiv.apply_symm_apply]
  cases j <;> rfl

/-! ### An orthonormal basis of the complement -/

theorem exists_compl {k e : ℕ} {X : Matrix (Fin (k + e)) (Fin k) ℝ} (hX : FullColRank X) :
    ∃ (N : Matrix (Fin e) (Fin (k + e)) ℝ) (C : Matrix (Fin k) (Fin (k + e)) ℝ),
      N * Nᵀ = 1 ∧ N * X = 0 ∧ 1 - Nᵀ * N = X * C := by
  let la := LinAlg.ref
  obtain ⟨U, hU⟩ : ∃ U, U = (la.svdFull X).1 := ⟨_, rfl⟩
  have hUo : Uᵀ * U = 1 := hU ▸ la.svdFull_left X
  have hUo' : U * Uᵀ = 1 := mul_eq_one_comm.1 hUo
  obtain ⟨U1, hU1⟩ : ∃ U1, U1 = U.submatrix id (Fin.castAdd e) := ⟨_, rfl⟩
  obtain ⟨N, hN⟩ : ∃ N, N = Uᵀ.submatrix (Fin.natAdd k) id := ⟨_, rfl⟩
  have hle : colSpace X ≤ colSpace U1 := by
    have h1 : colSpace X ≤ colSpace (U.submatrix id (minL : Fin (min (k + e) k) → Fin (k + e))) := by
      rw [← la.svdFull_mul X, ← hU, Matrix.mul_assoc]
      exact colSpace_mul_le _ _
    refine h1.trans ?_
    refine colSpace_le_iff.2 ⟨(1 : Matrix (Fin k) (Fin k) ℝ).submatrix id minR, ?_⟩
    ext i j
    rw [hU1, Matrix.mul_apply, Finset.sum_eq_single (minR j)]
    · rw [submatrix_apply, submatrix_apply, submatrix_apply, id, id, one_apply_eq, mul_one]
      congr 1
    · intro b _ hb
      simp [one_apply, hb]
    · intro h; exact absurd (Finset.mem_univ _) h
  have hcs : colSpace X = colSpace U1 := colSpace_eq_of_le_rank hle (le_of_eq hX.symm)
  obtain ⟨C', hC'⟩ := colSpace_le_iff.1 hcs.ge
  have hNU : N * U1 = 0 := by
    ext i j
    have := congrFun (congrFun hUo (Fin.natAdd k i)) (Fin.castAdd e j)
    rw [one_apply_ne (by intro h; have := congrArg Fin.val h; simp at this; omega)] at this
    rw [hN, hU1]
    simpa [Matrix.mul_apply] using this
  refine ⟨N, C' * U1ᵀ, ?_, ?_, ?_⟩
  · ext i j
    have := congrFun (congrFun hUo (Fin.natAdd k i)) (Fin.natAdd k j)
    rw [hN]
    simp only [Matrix.mul_apply, submatrix_apply, transpose_apply, id] at this ⊢
    rw [this]
    simp [one_apply]
  · obtain ⟨D, hD⟩ := colSpace_le_iff.1 hle
    rw [hD, ← Matrix.mul_assoc, hNU, Matrix.zero_mul]
  · rw [← Matrix.mul_assoc, ← hC', sub_eq_iff_eq_add, ← hUo']
    ext i j
    rw [Matrix.add_apply, Matrix.mul_apply, Fin.sum_univ_add, Matrix.mul_apply, Matrix.mul_apply, hU1, hN]
    rfl

/-! ### The diagonal of the inverse -/

/-- the entries of an array, row `i` apart -/
def rowSplit {k d : ℕ} (i : Fin (k + 1)) : Fin (k + 1) × Fin d ≃ (Fin k × Fin d) ⊕ Fin d where
  toFun p := match finSuccEquiv' i p.1 with
    | none => .inr p.2
    | some a => .inl (a, p.2)
  invFun
    | .inl q => (i.succAbove q.1, q.2)
    | .inr j => (i, j)
  left_inv := by
    rintro ⟨a, j⟩
    rcases Fin.eq_self_or_eq_succAbove i a with rfl | ⟨b, rfl⟩
    · simp
    · simp
  right_inv := by
    rintro (⟨a, j⟩ | j)
    · simp
    · simp

theorem join_row {k d : ℕ} (i : Fin (k + 1)) (H : Fin k × Fin d → ℝ) (g : Fin d → ℝ) (j : Fin d) :
    join (rowSplit i) (H, g) (i, j) = g j := by
  simp [join, rowSplit]

theorem join_rest {k d : ℕ} (i : Fin (k + 1)) (H : Fin k × Fin d → ℝ) (g : Fin d → ℝ) (a : Fin k) (j : Fin d) :
    join (rowSplit i) (H, g) (i.succAbove a, j) = H (a, j) := by
  simp [join, rowSplit]

/-- a diagonal entry of the inverse Gram matrix is one over the squared distance of that row from the others -/
theorem inv_gram_diag {k e : ℕ} (i : Fin (k + 1)) (H : Fin k × Fin (k + e) → ℝ) (g : Fin (k + e) → ℝ)
    {N : Matrix (Fin e) (Fin (k + e)) ℝ} {C : Matrix (Fin k) (Fin (k + e)) ℝ}
    (hH : N * (drawMat H)ᵀ = 0) (hC : 1 - Nᵀ * N = (drawMat H)ᵀ * C)
    (hdet : (drawMat (join (rowSplit i) (H, g)) * (drawMat (join (rowSplit i) (H, g)))ᵀ).det ≠ 0) :
    (drawMat (join (rowSplit i) (H, g)) * (drawMat (join (rowSplit i) (H, g)))ᵀ)⁻¹ i i =
      (∑ l, (N *ᵥ g) l ^ 2)⁻¹ := by
  obtain ⟨Z, hZ⟩ : ∃ Z, Z = drawMat (join (rowSplit i) (H, g)) := ⟨_, rfl⟩
  rw [← hZ] at hdet ⊢
  have hZi : Z i = g := by funext j; rw [hZ]; exact join_row i H g j
  have hZs : ∀ a, Z (i.succAbove a) = drawMat H a := by
    intro a; funext j; rw [hZ]; exact join_rest i H g a j
  obtain ⟨c, hc⟩ : ∃ c, c = C *ᵥ g := ⟨_, rfl⟩
  obtain ⟨u, hu⟩ : ∃ u, u = Nᵀ *ᵥ (N *ᵥ g) := ⟨_, rfl⟩
  have hug : u = g - (drawMat H)ᵀ *ᵥ c := by
    rw [hc, mulVec_mulVec, ← hC, Matrix.sub_mulVec, one_mulVec, hu, mulVec_mulVec]
    abel
  let v : Fin (k + 1) → ℝ := i.insertNth 1 (-c)
  have h1 : Zᵀ *ᵥ v = u := by
    funext j
    rw [hug]
    simp only [mulVec, dotProduct, transpose_apply, Pi.sub_apply]
    rw [Fin.sum_univ_succAbove _ i]
    simp only [v, Fin.insertNth_apply_same, Fin.insertNth_apply_succAbove, Pi.neg_apply, mul_neg,
      Finset.sum_neg_distrib, mul_one, hZs]
    rw [hZi, sub_eq_add_neg]
  have h2 : Z *ᵥ u = (∑ l, (N *ᵥ g) l ^ 2) • Pi.single i 1 := by
    funext a
    rcases Fin.eq_self_or_eq_succAbove i a with rfl | ⟨b, rfl⟩
    · change Z a ⬝ᵥ u = _
      rw [hZi, hu, dotProduct_mulVec, vecMul_transpose]
      simp [dotProduct, sq]
    · change Z (i.succAbove b) ⬝ᵥ u = _
      rw [hZs]
      have : (drawMat H *ᵥ u) b = 0 := by
        have h0 : drawMat H * Nᵀ = 0 := by
          have := congrArg Matrix.transpose hH
          rwa [transpose_mul, transpose_transpose, transpose_zero] at this
        rw [hu, mulVec_mulVec, h0, zero_mulVec]; rfl
      have e : drawMat H b ⬝ᵥ u = 0 := this
      rw [e]
      simp [Fin.succAbove_ne]
  have h3 : (Z * Zᵀ) *ᵥ v = (∑ l, (N *ᵥ g) l ^ 2) • Pi.single i 1 := by
    rw [← mulVec_mulVec, h1, h2]
  have h4 := congrArg (fun x => ((Z * Zᵀ)⁻¹ *ᵥ x) i) h3
  simp only [mulVec_mulVec] at h4
  rw [Matrix.nonsing_inv_mul _ (isUnit_iff_ne_zero.2 hdet), one_mulVec, mulVec_smul] at h4
  simp only [v, Fin.insertNth_apply_same, Pi.smul_apply, smul_eq_mul, mulVec_single_one, Matrix.col_apply] at h4
  exact (inv_eq_of_mul_eq_one_right h4.symm).symm

theorem gram_det_ae (k d : ℕ) (h : k ≤ d) :
    ∀ᵐ Z ∂(gauss (Fin k × Fin d)), (drawMat Z * (drawMat Z)ᵀ).det ≠ 0 := by
  have : NullSingletonClass (gaussianReal 0 1) := nullSingletonClass_gaussianReal one_ne_zero
  filter_upwards [ae_rank_mul (μ := gaussianReal 0 1) (1 : Matrix (Fin k) (Fin k) ℝ) d] with Z hZ
  rw [Matrix.one_mul, Matrix.rank_one, Fintype.card_fin, min_eq_right h, ← rank_transpose] at hZ
  have hf : FullColRank (drawMat Z)ᵀ := hZ
  have := hf.gram_unit
  rw [transpose_transpose] at this
  exact isUnit_iff_ne_zero.1 this

theorem emeas_draw (k d : ℕ) : EMeas fun Z : Fin k × Fin d → ℝ => drawMat Z :=
  fun i j => measurable_pi_apply (i, j)

theorem emeas_gramInv (k d : ℕ) : EMeas fun Z : Fin k × Fin d → ℝ => (drawMat Z * (drawMat Z)ᵀ)⁻¹ :=
  ((emeas_draw k d).mul (emeas_draw k d).transpose).inv

theorem inv_gram_diag_mean (k d : ℕ) (h : k + 3 ≤ d) (i : Fin (k + 1)) :
    ∫⁻ Z, ENNReal.ofReal ((drawMat Z * (drawMat Z)ᵀ)⁻¹ i i) ∂(gauss (Fin (k + 1) × Fin d)) =
      ENNReal.ofReal (1 / ((d : ℝ) - k - 2)) := by
  obtain ⟨e, rfl⟩ : ∃ e, d = k + e := ⟨d - k, by omega⟩
  have hm : Measurable fun Z : Fin (k + 1) × Fin (k + e) → ℝ =>
      ENNReal.ofReal ((drawMat Z * (drawMat Z)ᵀ)⁻¹ i i) := (emeas_gramInv _ _ i i).ennreal_ofReal
  have hj := measurePreserving_join (rowSplit (d := k + e) i)
  rw [← hj.lintegral_comp hm]
  rw [lintegral_prod (fun a => ENNReal.ofReal ((drawMat (join (rowSplit i) a) *
    (drawMat (join (rowSplit i) a))ᵀ)⁻¹ i i)) (hm.comp hj.measurable).aemeasurable]
  have hdet := Measure.ae_ae_of_ae_prod (hj.quasiMeasurePreserving.ae (gram_det_ae (k + 1) (k + e) (by omega)))
  have key : ∀ᵐ H ∂(gauss (Fin k × Fin (k + e))),
      ∫⁻ g, ENNReal.ofReal ((drawMat (join (rowSplit i) (H, g)) * (drawMat (join (rowSplit i) (H, g)))ᵀ)⁻¹ i i)
        ∂(gauss (Fin (k + e))) = ENNReal.ofReal (1 / (((k + e : ℕ) : ℝ) - k - 2)) := by
    filter_upwards [gram_det_ae k (k + e) (by omega), hdet] with H hH hd
    have hf : FullColRank (drawMat H)ᵀ := fullColRank_of_det (by rwa [transpose_transpose])
    obtain ⟨N, C, h1, h2, h3⟩ := exists_compl hf
    have h4 : ∫⁻ g, ENNReal.ofReal ((drawMat (join (rowSplit i) (H, g)) *
        (drawMat (join (rowSplit i) (H, g)))ᵀ)⁻¹ i i) ∂(gauss (Fin (k + e))) =
        ∫⁻ g, ENNReal.ofReal ((∑ l, (N *ᵥ g) l ^ 2)⁻¹) ∂(gauss (Fin (k + e))) := by
      refine lintegral_congr_ae ?_
      filter_upwards [hd] with g hg
      rw [inv_gram_diag i H g h2 h3 hg]
    have hmN : Measurable fun x : Fin (k + e) → ℝ => N *ᵥ x :=
      (Continuous.matrix_mulVec continuous_const continuous_id).measurable
    rw [h4, ← lintegral_map (f := fun x : Fin e → ℝ => ENNReal.ofReal ((∑ l, x l ^ 2)⁻¹)) (by fun_prop) hmN,
      gauss_map N h1, gauss_inv_sqnorm e (by omega)]
    congr 2
    push_cast
    ring
  rw [lintegral_congr_ae key, lintegral_const]
  simp

theorem inv_gram_diag_nonneg {k d : ℕ} (Z : Matrix (Fin k) (Fin d) ℝ) (i : Fin k) : 0 ≤ (Z * Zᵀ)⁻¹ i i := by
  have h : (Z * Zᵀ).PosSemidef := by
    have := Matrix.posSemidef_self_mul_conjTranspose Z
    rwa [conjTranspose_eq_transpose_of_trivial] at this
  exact h.inv.diag_nonneg

/-- **Mean of the trace of the inverse Wishart matrix.**  For a `k × d` array `Z` of independent standard normals,
`d ≥ k + 2`: `E tr (ZZ')⁻¹ = k/(d-k-1)`. -/
theorem trace_inv_gram_mean (k d : ℕ) (h : k + 2 ≤ d) :
    Integrable (fun Z => trace (drawMat Z * (drawMat Z)ᵀ)⁻¹) (gauss (Fin k × Fin d)) ∧
    ∫ Z, trace (drawMat Z * (drawMat Z)ᵀ)⁻¹ ∂(gauss (Fin k × Fin d)) = k / ((d : ℝ) - k - 1) := by
  have hd : ∀ i : Fin k, Integrable (fun Z => (drawMat Z * (drawMat Z)ᵀ)⁻¹ i i) (gauss (Fin k × Fin d)) ∧
      ∫ Z, (drawMat Z * (drawMat Z)ᵀ)⁻¹ i i ∂(gauss (Fin k × Fin d)) = 1 / ((d : ℝ) - k - 1) := by
    intro i
    obtain ⟨j, rfl⟩ : ∃ j, k = j + 1 := ⟨k - 1, by have := i.2; omega⟩
    have hl := inv_gram_diag_mean j d (by omega) i
    have hnn : ∀ Z : Fin (j + 1) × Fin d → ℝ, 0 ≤ (drawMat Z * (drawMat Z)ᵀ)⁻¹ i i :=
      fun Z => inv_gram_diag_nonneg _ i
    have hms : AEStronglyMeasurable (fun Z => (drawMat Z * (drawMat Z)ᵀ)⁻¹ i i) (gauss (Fin (j + 1) × Fin d)) :=
      (emeas_gramInv _ _ i i).aestronglyMeasurable
    have hdr : ((j : ℝ) + 3) ≤ d := by exact_mod_cast h
    constructor
    · refine ⟨hms, ?_⟩
      rw [hasFiniteIntegral_iff_ofReal (Filter.Eventually.of_forall hnn), hl]
      exact ENNReal.ofReal_lt_top
    · rw [integral_eq_lintegral_of_nonneg_ae (Filter.Eventually.of_forall hnn) hms, hl, ENNReal.toReal_ofReal]
      · push_cast
        congr 1
        ring
      · refine div_nonneg zero_le_one ?_
        linarith
  unfold trace
  simp only [diag_apply]
  refine ⟨integrable_finsetSum _ fun i _ => (hd i).1, ?_⟩
  rw [integral_finsetSum _ fun i _ => (hd i).1, Finset.sum_congr rfl fun i _ => (hd i).2]
  simp
  ring

end Parla.Proof
