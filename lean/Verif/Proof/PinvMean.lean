import Verif.Proof.Wishart
import Verif.Proof.Mat
import Mathlib.MeasureTheory.Function.L2Space

/-! # Means of expressions in a Gaussian array and its pseudoinverse -/

namespace Parla.Proof

open MeasureTheory ProbabilityTheory Matrix Spec

theorem normal_moments : Integrable (fun t : ℝ => t) (gaussianReal 0 1) ∧
    Integrable (fun t : ℝ => t * t) (gaussianReal 0 1) ∧ ∫ t, t ∂(gaussianReal 0 1) = 0 ∧
    ∫ t, t * t ∂(gaussianReal 0 1) = 1 := by
  have h2 : MemLp (fun t : ℝ => t) 2 (gaussianReal 0 1) := memLp_id_gaussianReal 2
  have h1 : Integrable (fun t : ℝ => t) (gaussianReal 0 1) := h2.integrable (by norm_num)
  have h3 : ∫ t, t ∂(gaussianReal 0 1) = 0 := integral_id_gaussianReal
  refine ⟨h1, ?_, h3, ?_⟩
  · have := h2.integrable_sq
    simpa [sq] using this
  · have hv := variance_fun_id_gaussianReal (μ := 0) (v := 1)
    rw [variance_of_integral_eq_zero h1.aemeasurable h3] at hv
    simpa [sq] using hv

variable {ι : Type} [Fintype ι] [DecidableEq ι]

theorem gauss_pair (p q : ι) : Integrable (fun x : ι → ℝ => x p * x q) (gauss ι) ∧
    ∫ x, x p * x q ∂(gauss ι) = if p = q then 1 else 0 := by
  obtain ⟨h1, h2, h3, h4⟩ := normal_moments
  exact indep_pair (φ := fun t => t) h1 h2 h3 h4 p q

theorem gauss_one (p : ι) : Integrable (fun x : ι → ℝ => x p) (gauss ι) ∧ ∫ x, x p ∂(gauss ι) = 0 := by
  obtain ⟨h1, -, h3, -⟩ := normal_moments
  have hmp : MeasurePreserving (Function.eval p) (gauss ι) (gaussianReal 0 1) :=
    measurePreserving_eval (fun _ : ι => gaussianReal 0 1) p
  constructor
  · exact hmp.integrable_comp_of_integrable h1
  · have := integral_map (μ := gauss ι) (φ := Function.eval p) hmp.measurable.aemeasurable
      (f := fun t : ℝ => t) (by fun_prop)
    rw [hmp.map_eq, h3] at this
    exact this.symm

theorem gauss_linear (c : ι → ℝ) : Integrable (fun x : ι → ℝ => ∑ p, c p * x p) (gauss ι) ∧
    ∫ x, ∑ p, c p * x p ∂(gauss ι) = 0 := by
  have h : ∀ p, Integrable (fun x : ι → ℝ => c p * x p) (gauss ι) := fun p => (gauss_one p).1.const_mul _
  refine ⟨integrable_finsetSum _ fun p _ => h p, ?_⟩
  rw [integral_finsetSum _ fun p _ => h p]
  refine Finset.sum_eq_zero fun p _ => ?_
  rw [integral_const_mul, (gauss_one p).2, mul_zero]

theorem gauss_linear_sq (c : ι → ℝ) : Integrable (fun x : ι → ℝ => (∑ p, c p * x p) ^ 2) (gauss ι) ∧
    ∫ x, (∑ p, c p * x p) ^ 2 ∂(gauss ι) = ∑ p, c p ^ 2 := by
  have e : ∀ x : ι → ℝ, (∑ p, c p * x p) ^ 2 = ∑ p, ∑ q, c p * c q * (x p * x q) := by
    intro x
    rw [sq, Finset.sum_mul_sum]
    refine Finset.sum_congr rfl fun p _ => Finset.sum_congr rfl fun q _ => by ring
  simp only [e]
  have h : ∀ p q, Integrable (fun x : ι → ℝ => c p * c q * (x p * x q)) (gauss ι) :=
    fun p q => (gauss_pair p q).1.const_mul _
  refine ⟨integrable_finsetSum _ fun p _ => integrable_finsetSum _ fun q _ => h p q, ?_⟩
  rw [integral_finsetSum _ fun p _ => integrable_finsetSum _ fun q _ => h p q]
  refine Finset.sum_congr rfl fun p _ => ?_
  rw [integral_finsetSum _ fun q _ => h p q, Finset.sum_eq_single p]
  · rw [integral_const_mul, (gauss_pair p p).2, if_pos rfl]; ring
  · intro q _ hq
    rw [integral_const_mul, (gauss_pair p q).2, if_neg (Ne.symm hq), mul_zero]
  · intro h; exact absurd (Finset.mem_univ _) h

theorem DHW_apply {c a k t : ℕ} (D : Matrix (Fin c) (Fin a) ℝ) (W : Matrix (Fin k) (Fin t) ℝ)
    (H : Fin a × Fin k → ℝ) (i : Fin c) (j : Fin t) :
    (D * drawMat H * W) i j = ∑ p : Fin a × Fin k, D i p.1 * W p.2 j * H p := by
  rw [Fintype.sum_prod_type, Finset.sum_comm, Matrix.mul_apply]
  refine Finset.sum_congr rfl fun q _ => ?_
  rw [Matrix.mul_apply, Finset.sum_mul]
  refine Finset.sum_congr rfl fun l _ => ?_
  simp only [drawMat, of_apply]
  ring

/-- `E ‖D H W‖² = ‖D‖² ‖W‖²` for an array `H` of independent standard normals -/
theorem mean_DHW {c a k t : ℕ} (D : Matrix (Fin c) (Fin a) ℝ) (W : Matrix (Fin k) (Fin t) ℝ) :
    Integrable (fun H => froSq (D * drawMat H * W)) (gauss (Fin a × Fin k)) ∧
    ∫ H, froSq (D * drawMat H * W) ∂(gauss (Fin a × Fin k)) = froSq D * froSq W := by
  unfold froSq
  simp only [DHW_apply]
  have h := fun (i : Fin c) (j : Fin t) => gauss_linear_sq (ι := Fin a × Fin k) fun p => D i p.1 * W p.2 j
  refine ⟨integrable_finsetSum _ fun i _ => integrable_finsetSum _ fun j _ => (h i j).1, ?_⟩
  rw [integral_finsetSum _ fun i _ => integrable_finsetSum _ fun j _ => (h i j).1, Finset.sum_mul]
  refine Finset.sum_congr rfl fun i _ => ?_
  rw [integral_finsetSum _ fun j _ => (h i j).1]
  rw [Finset.sum_congr rfl fun j _ => (h i j).2]
  simp only [Fintype.sum_prod_type, mul_pow]
  rw [Finset.sum_comm, Finset.sum_mul]
  refine Finset.sum_congr rfl fun l _ => ?_
  rw [Finset.sum_comm, Finset.mul_sum]
  refine Finset.sum_congr rfl fun q _ => ?_
  rw [Finset.mul_sum]

theorem mean_DHW_one {c a k t : ℕ} (D : Matrix (Fin c) (Fin a) ℝ) (W : Matrix (Fin k) (Fin t) ℝ) (i : Fin c)
    (j : Fin t) : ∫ H, (D * drawMat H * W) i j ∂(gauss (Fin a × Fin k)) = 0 := by
  simp only [DHW_apply]
  exact (gauss_linear _).2

/-- the right pseudoinverse `G'(GG')⁻¹` -/
noncomputable def rpinv {t k : ℕ} (G : Matrix (Fin t) (Fin k) ℝ) : Matrix (Fin k) (Fin t) ℝ := Gᵀ * (G * Gᵀ)⁻¹

theorem froSq_rpinv {t k : ℕ} {G : Matrix (Fin t) (Fin k) ℝ} (h : (G * Gᵀ).det ≠ 0) :
    froSq (rpinv G) = trace (G * Gᵀ)⁻¹ := by
  have hs : ((G * Gᵀ)⁻¹)ᵀ = (G * Gᵀ)⁻¹ := by
    rw [transpose_nonsing_inv, transpose_mul, transpose_transpose]
  unfold rpinv
  rw [froSq_eq_trace, transpose_mul, transpose_transpose, hs, Matrix.mul_assoc, ← Matrix.mul_assoc G,
    Matrix.mul_nonsing_inv _ (isUnit_iff_ne_zero.2 h), Matrix.mul_one]

theorem mul_rpinv {t k : ℕ} {G : Matrix (Fin t) (Fin k) ℝ} (h : (G * Gᵀ).det ≠ 0) : G * rpinv G = 1 := by
  unfold rpinv
  rw [← Matrix.mul_assoc, Matrix.mul_nonsing_inv _ (isUnit_iff_ne_zero.2 h)]

theorem EMeas.froSq {X : Type} [MeasurableSpace X] {a b : ℕ} {f : X → Matrix (Fin a) (Fin b) ℝ} (hf : EMeas f) :
    Measurable fun x => Parla.froSq (f x) := by
  unfold Parla.froSq
  exact Finset.measurable_sum _ fun i _ => Finset.measurable_sum _ fun j _ => (hf i j).pow_const 2

theorem emeas_const {X : Type} [MeasurableSpace X] {a b : ℕ} (M : Matrix (Fin a) (Fin b) ℝ) :
    EMeas fun _ : X => M := fun _ _ => measurable_const

theorem emeas_rpinv {X : Type} [MeasurableSpace X] {a b : ℕ} {f : X → Matrix (Fin a) (Fin b) ℝ} (hf : EMeas f) :
    EMeas fun x => rpinv (f x) := hf.transpose.mul (hf.mul hf.transpose).inv

theorem emeas_DHW {c a k t : ℕ} (D : Matrix (Fin c) (Fin a) ℝ) :
    EMeas fun z : (Fin t × Fin k → ℝ) × (Fin a × Fin k → ℝ) => D * drawMat z.2 * rpinv (drawMat z.1) := by
  have h1 : EMeas fun z : (Fin t × Fin k → ℝ) × (Fin a × Fin k → ℝ) => drawMat z.1 :=
    fun i j => (measurable_pi_apply (i, j)).comp measurable_fst
  have h2 : EMeas fun z : (Fin t × Fin k → ℝ) × (Fin a × Fin k → ℝ) => drawMat z.2 :=
    fun i j => (measurable_pi_apply (i, j)).comp measurable_snd
  exact ((emeas_const D).mul h2).mul (emeas_rpinv h1)

/-- `E ‖D H G^+‖² = ‖D‖² t/(k-t-1)` for independent arrays `G` (`t × k`) and `H` of standard normals -/
theorem mean_pinv {c a k t : ℕ} (h : t + 2 ≤ k) (D : Matrix (Fin c) (Fin a) ℝ) :
    Integrable (fun z => froSq (D * drawMat z.2 * rpinv (drawMat z.1)))
      ((gauss (Fin t × Fin k)).prod (gauss (Fin a × Fin k))) ∧
    ∫ z, froSq (D * drawMat z.2 * rpinv (drawMat z.1)) ∂((gauss (Fin t × Fin k)).prod (gauss (Fin a × Fin k))) =
      froSq D * (t / ((k : ℝ) - t - 1)) := by
  obtain ⟨w1, w2⟩ := trace_inv_gram_mean t k h
  have hms := (emeas_DHW (t := t) (k := k) D).froSq
  have hae : (fun G => ∫ H, froSq (D * drawMat H * rpinv (drawMat G)) ∂(gauss (Fin a × Fin k))) =ᵐ[gauss (Fin t × Fin k)]
      fun G => froSq D * trace (drawMat G * (drawMat G)ᵀ)⁻¹ := by
    filter_upwards [gram_det_ae t k (by omega)] with G hG
    rw [(mean_DHW D _).2, froSq_rpinv hG]
  have hint : Integrable (fun z => froSq (D * drawMat z.2 * rpinv (drawMat z.1)))
      ((gauss (Fin t × Fin k)).prod (gauss (Fin a × Fin k))) := by
    rw [integrable_prod_iff hms.aestronglyMeasurable]
    refine ⟨Filter.Eventually.of_forall fun G => (mean_DHW D (rpinv (drawMat G))).1, ?_⟩
    have hn : (fun G => ∫ H, ‖froSq (D * drawMat H * rpinv (drawMat G))‖ ∂(gauss (Fin a × Fin k))) =
        fun G : Fin t × Fin k → ℝ => ∫ H, froSq (D * drawMat H * rpinv (drawMat G)) ∂(gauss (Fin a × Fin k)) := by
      funext G
      refine integral_congr_ae (Filter.Eventually.of_forall fun H => ?_)
      exact abs_of_nonneg (froSq_nonneg _)
    refine Integrable.congr (w1.const_mul (froSq D)) ?_
    exact hae.symm.trans (Filter.EventuallyEq.of_eq hn.symm)
  refine ⟨hint, ?_⟩
  rw [integral_prod _ hint, integral_congr_ae hae, integral_const_mul, w2]

/-- entries of `D H G^+` have mean 0 -/
theorem mean_pinv_one {c a k t : ℕ} (h : t + 2 ≤ k) (D : Matrix (Fin c) (Fin a) ℝ) (i : Fin c) (j : Fin t) :
    Integrable (fun z => (D * drawMat z.2 * rpinv (drawMat z.1)) i j)
      ((gauss (Fin t × Fin k)).prod (gauss (Fin a × Fin k))) ∧
    ∫ z, (D * drawMat z.2 * rpinv (drawMat z.1)) i j ∂((gauss (Fin t × Fin k)).prod (gauss (Fin a × Fin k))) =
      0 := by
  have hm := emeas_DHW (t := t) (k := k) D i j
  have hint : Integrable (fun z => (D * drawMat z.2 * rpinv (drawMat z.1)) i j)
      ((gauss (Fin t × Fin k)).prod (gauss (Fin a × Fin k))) := by
    have h2 : MemLp (fun z => (D * drawMat z.2 * rpinv (drawMat z.1)) i j) 2
        ((gauss (Fin t × Fin k)).prod (gauss (Fin a × Fin k))) := by
      rw [memLp_two_iff_integrable_sq hm.aestronglyMeasurable]
      refine Integrable.mono' (mean_pinv h D).1 (hm.pow_const 2).aestronglyMeasurable
        (Filter.Eventually.of_forall fun z => ?_)
      rw [Real.norm_eq_abs, abs_of_nonneg (sq_nonneg _)]
      unfold froSq
      refine le_trans ?_ (Finset.single_le_sum (f := fun i => ∑ j, (D * drawMat z.2 * rpinv (drawMat z.1)) i j ^ 2)
        (fun i _ => Finset.sum_nonneg fun j _ => sq_nonneg _) (Finset.mem_univ i))
      exact Finset.single_le_sum (f := fun j => (D * drawMat z.2 * rpinv (drawMat z.1)) i j ^ 2)
        (fun j _ => sq_nonneg _) (Finset.mem_univ j)
    exact h2.integrable (by norm_num)
  refine ⟨hint, ?_⟩
  rw [integral_prod _ hint]
  simp only [mean_DHW_one, integral_zero]

/-! ### Orthonormal combinations of the rows -/

/-- the array of entries of a matrix -/
def entries {r k : ℕ} (M : Matrix (Fin r) (Fin k) ℝ) : Fin r × Fin k → ℝ := fun p => M p.1 p.2

theorem drawMat_entries {r k : ℕ} (M : Matrix (Fin r) (Fin k) ℝ) : drawMat (entries M) = M := rfl

theorem gauss_map_rows {a r k : ℕ} {V : Matrix (Fin a) (Fin r) ℝ} (hV : Vᵀ * V = 1) :
    MeasurePreserving (fun Z => entries (Vᵀ * drawMat Z)) (gauss (Fin a × Fin k)) (gauss (Fin r × Fin k)) := by
  let T : Matrix (Fin r × Fin k) (Fin a × Fin k) ℝ := Matrix.of fun p q => if p.2 = q.2 then V q.1 p.1 else 0
  have hT : T * Tᵀ = 1 := by
    ext p q
    rw [Matrix.mul_apply, Fintype.sum_prod_type, one_apply]
    have h1 : ∀ l : Fin a, ∑ j : Fin k, T p (l, j) * Tᵀ (l, j) q = if p.2 = q.2 then V l p.1 * V l q.1 else 0 := by
      intro l
      simp only [T, transpose_apply, of_apply]
      rw [Finset.sum_eq_single p.2]
      · by_cases h : p.2 = q.2
        · simp [h]
        · simp [h, Ne.symm h]
      · intro j _ hj
        simp [Ne.symm hj]
      · intro h; exact absurd (Finset.mem_univ _) h
    simp only [h1]
    by_cases h : p.2 = q.2
    · simp only [h, if_true]
      have := congrFun (congrFun hV p.1) q.1
      simp only [Matrix.mul_apply, transpose_apply, one_apply] at this
      rw [this]
      by_cases h' : p.1 = q.1
      · rw [if_pos h', if_pos (Prod.ext h' h)]
      · rw [if_neg h', if_neg (fun e => h' (congrArg Prod.fst e))]
    · simp only [h, if_false, Finset.sum_const_zero]
      rw [if_neg (fun e => h (congrArg Prod.snd e))]
  have he : (fun Z : Fin a × Fin k → ℝ => entries (Vᵀ * drawMat Z)) = fun Z => T *ᵥ Z := by
    funext Z p
    simp only [entries, Matrix.mul_apply, mulVec, dotProduct, Fintype.sum_prod_type, transpose_apply, drawMat, of_apply]
    refine Finset.sum_congr rfl fun l _ => ?_
    rw [Finset.sum_eq_single p.2]
    · simp [T]
    · intro j _ hj
      simp [T, Ne.symm hj]
    · intro h; exact absurd (Finset.mem_univ _) h
  rw [he]
  exact ⟨(Continuous.matrix_mulVec continuous_const continuous_id).measurable, gauss_map T hT⟩

theorem gauss_map_transpose {a k : ℕ} :
    MeasurePreserving (fun Z => entries (drawMat Z)ᵀ) (gauss (Fin a × Fin k)) (gauss (Fin k × Fin a)) :=
  measurePreserving_piCongrLeft (fun _ : Fin k × Fin a => gaussianReal 0 1) (Equiv.prodComm (Fin a) (Fin k))

/-- the first `t` rows and the others -/
def rowsSplit (t a k : ℕ) : Fin (t + a) × Fin k ≃ (Fin t × Fin k) ⊕ (Fin a × Fin k) :=
  (Equiv.prodCongr finSumFinEquiv.symm (Equiv.refl _)).trans (Equiv.sumProdDistrib _ _ _)

theorem join_first {t a k : ℕ} (z : (Fin t × Fin k → ℝ) × (Fin a × Fin k → ℝ)) (i : Fin t) (j : Fin k) :
    join (rowsSplit t a k) z (Fin.castAdd a i, j) = z.1 (i, j) := by
  simp [join, rowsSplit]

theorem join_second {t a k : ℕ} (z : (Fin t × Fin k → ℝ) × (Fin a × Fin k → ℝ)) (i : Fin a) (j : Fin k) :
    join (rowsSplit t a k) z (Fin.natAdd t i, j) = z.2 (i, j) := by
  simp [join, rowsSplit]

/-- the mean in terms of one array with `t + a` rows -/
theorem mean_pinv_rows {c a k t : ℕ} (h : t + 2 ≤ k) (D : Matrix (Fin c) (Fin a) ℝ) :
    let F := fun Z : Fin (t + a) × Fin k → ℝ =>
      D * (drawMat Z).submatrix (Fin.natAdd t) id * rpinv ((drawMat Z).submatrix (Fin.castAdd a) id)
    (Integrable (fun Z => froSq (F Z)) (gauss (Fin (t + a) × Fin k)) ∧
      ∫ Z, froSq (F Z) ∂(gauss (Fin (t + a) × Fin k)) = froSq D * (t / ((k : ℝ) - t - 1))) ∧
    ∀ i j, Integrable (fun Z => F Z i j) (gauss (Fin (t + a) × Fin k)) ∧
      ∫ Z, F Z i j ∂(gauss (Fin (t + a) × Fin k)) = 0 := by
  intro F
  have hj := measurePreserving_join (rowsSplit t a k)
  have hF : ∀ z, F (join (rowsSplit t a k) z) = D * drawMat z.2 * rpinv (drawMat z.1) := by
    intro z
    have e1 : (drawMat (join (rowsSplit t a k) z)).submatrix (Fin.castAdd a) id = drawMat z.1 := by
      ext i j; exact join_first z i j
    have e2 : (drawMat (join (rowsSplit t a k) z)).submatrix (Fin.natAdd t) id = drawMat z.2 := by
      ext i j; exact join_second z i j
    simp only [F, e1, e2]
  have hFm : EMeas F := ((emeas_const D).mul ((emeas_draw _ _).submatrix _ _)).mul
    (emeas_rpinv ((emeas_draw _ _).submatrix _ _))
  have tr : ∀ f : (Fin (t + a) × Fin k → ℝ) → ℝ, Measurable f →
      (Integrable f (gauss (Fin (t + a) × Fin k)) ↔
        Integrable (fun z => f (join (rowsSplit t a k) z)) ((gauss (Fin t × Fin k)).prod (gauss (Fin a × Fin k)))) ∧
      ∫ Z, f Z ∂(gauss (Fin (t + a) × Fin k)) =
        ∫ z, f (join (rowsSplit t a k) z) ∂((gauss (Fin t × Fin k)).prod (gauss (Fin a × Fin k))) := by
    intro f hf
    constructor
    · exact (hj.integrable_comp hf.aestronglyMeasurable).symm
    · rw [← hj.map_eq, integral_map hj.measurable.aemeasurable (by rw [hj.map_eq]; exact hf.aestronglyMeasurable)]
  refine ⟨?_, fun i j => ?_⟩
  · obtain ⟨t1, t2⟩ := tr _ hFm.froSq
    rw [t1, t2]
    simp only [hF]
    exact mean_pinv h D
  · obtain ⟨t1, t2⟩ := tr _ (hFm i j)
    rw [t1, t2]
    simp only [hF]
    exact mean_pinv_one h D i j

end Parla.Proof
