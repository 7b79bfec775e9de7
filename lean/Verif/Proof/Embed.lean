import Verif.Proof.ChiSq
import Verif.Proof.Net
import Verif.Proof.Mat
import Verif.Spec

/-! # A scaled Gaussian matrix embeds a subspace with high probability -/

namespace Parla.Proof

open MeasureTheory ProbabilityTheory Matrix Parla Spec Module

variable {d m n r : ℕ}

theorem sqNorm_toLp (x : Fin m → ℝ) : ‖(WithLp.toLp 2 x : EuclideanSpace ℝ (Fin m))‖ ^ 2 = sqNorm x := by
  rw [EuclideanSpace.real_norm_sq_eq]; rfl

/-- a net of the unit sphere of a subspace -/
theorem subspace_net (U : Submodule ℝ (Fin m → ℝ)) :
    ∃ N : Finset (Fin m → ℝ), N.card ≤ 9 ^ finrank ℝ U ∧ (∀ y ∈ N, y ∈ U ∧ sqNorm y = 1) ∧
      ∀ x ∈ U, sqNorm x = 1 → ∃ y ∈ N, sqNorm (x - y) ≤ 1 / 16 := by
  classical
  let e := (WithLp.linearEquiv 2 ℝ (Fin m → ℝ)).symm
  let V : Submodule ℝ (EuclideanSpace ℝ (Fin m)) := U.map e.toLinearMap
  have hfin : finrank ℝ V = finrank ℝ U := LinearEquiv.finrank_map_eq e U
  obtain ⟨N, h1, h2, h3⟩ := exists_net V
  have hV : ∀ v : V, (v : EuclideanSpace ℝ (Fin m)).ofLp ∈ U := by
    rintro ⟨_, u, hu, rfl⟩
    exact hu
  refine ⟨N.image fun v : V => (v : EuclideanSpace ℝ (Fin m)).ofLp, ?_, ?_, ?_⟩
  · exact Finset.card_image_le.trans (h1.trans_eq (by rw [hfin]))
  · intro y hy
    obtain ⟨v, hv, rfl⟩ := Finset.mem_image.1 hy
    refine ⟨hV v, ?_⟩
    rw [← sqNorm_toLp]
    have : ‖v‖ = 1 := h2 v hv
    show ‖(v : EuclideanSpace ℝ (Fin m))‖ ^ 2 = 1
    rw [← Submodule.coe_norm, this, one_pow]
  · intro x hx hx1
    have hxn : ‖(WithLp.toLp 2 x : EuclideanSpace ℝ (Fin m))‖ = 1 := by
      have := sqNorm_toLp x
      rw [hx1] at this
      exact (pow_eq_one_iff_of_nonneg (norm_nonneg _) two_ne_zero).1 this
    obtain ⟨v, hv, hd⟩ := h3 ⟨WithLp.toLp 2 x, x, hx, rfl⟩ hxn
    refine ⟨_, Finset.mem_image.2 ⟨v, hv, rfl⟩, ?_⟩
    rw [← sqNorm_toLp]
    have : ‖(WithLp.toLp 2 (x - (v : EuclideanSpace ℝ (Fin m)).ofLp) : EuclideanSpace ℝ (Fin m))‖ ≤ 1 / 4 := hd
    calc _ ≤ (1 / 4 : ℝ) ^ 2 := pow_le_pow_left₀ (norm_nonneg _) this 2
      _ = _ := by norm_num

theorem sqNorm_mulVec_le (S : Matrix (Fin d) (Fin m) ℝ) (x : Fin m → ℝ) :
    sqNorm (S *ᵥ x) ≤ froSq S * sqNorm x := by
  unfold froSq
  rw [Finset.sum_mul]
  unfold sqNorm
  refine Finset.sum_le_sum fun i _ => ?_
  exact Finset.sum_mul_sq_le_sq_mul_sq Finset.univ (S i) x

theorem sqNorm_parallelogram (u v : Fin m → ℝ) : sqNorm (u + v) + sqNorm (u - v) = 2 * sqNorm u + 2 * sqNorm v := by
  rw [sqNorm_add, sqNorm_sub]; ring

/-- a deviation bounded on a net is bounded everywhere -/
theorem deviation_of_net {U : Submodule ℝ (Fin m → ℝ)} {N : Finset (Fin m → ℝ)} (hN : ∀ y ∈ N, y ∈ U ∧ sqNorm y = 1)
    (hnet : ∀ x ∈ U, sqNorm x = 1 → ∃ y ∈ N, sqNorm (x - y) ≤ 1 / 16) (S : Matrix (Fin d) (Fin m) ℝ) {t : ℝ}
    (h : ∀ y ∈ N, |sqNorm (S *ᵥ y) - 1| ≤ t) (x : Fin m → ℝ) (hx : x ∈ U) :
    |sqNorm (S *ᵥ x) - sqNorm x| ≤ 2 * t * sqNorm x := by
  obtain ⟨q, hq⟩ : ∃ q : (Fin m → ℝ) → ℝ, q = fun x => sqNorm (S *ᵥ x) - sqNorm x := ⟨_, rfl⟩
  have hqx : ∀ x, q x = sqNorm (S *ᵥ x) - sqNorm x := fun x => by rw [hq]
  have hhom : ∀ (c : ℝ) z, q (c • z) = c ^ 2 * q z := fun c z => by
    rw [hqx, hqx, mulVec_smul, sqNorm_smul, sqNorm_smul]; ring
  by_cases hx0 : x = 0
  · subst hx0
    have : sqNorm (0 : Fin m → ℝ) = 0 := by simp [sqNorm]
    have h' : sqNorm (0 : Fin d → ℝ) = 0 := by simp [sqNorm]
    rw [mulVec_zero, this, h']; simp
  have hpos : ∀ {z : Fin m → ℝ}, z ≠ 0 → 0 < sqNorm z := fun hz =>
    lt_of_le_of_ne (sqNorm_nonneg _) fun h => hz (sqNorm_eq_zero.1 h.symm)
  have hunit : ∀ {z : Fin m → ℝ}, z ≠ 0 → sqNorm ((√(sqNorm z))⁻¹ • z) = 1 := fun {z} hz => by
    rw [sqNorm_smul, inv_pow, Real.sq_sqrt (sqNorm_nonneg _), inv_mul_cancel₀ (hpos hz).ne']
  obtain ⟨T, hT⟩ : ∃ T : Set ℝ, T = {a | ∃ z ∈ U, sqNorm z = 1 ∧ a = |q z|} := ⟨_, rfl⟩
  have hbdd : BddAbove T := by
    refine ⟨froSq S + 1, ?_⟩
    rw [hT]
    rintro a ⟨z, -, hz, rfl⟩
    rw [hqx, abs_le]
    have h1 := sqNorm_mulVec_le S z
    have h2 := sqNorm_nonneg (S *ᵥ z)
    rw [hz] at h1 ⊢
    constructor <;> linarith
  obtain ⟨M, hM⟩ : ∃ M, M = sSup T := ⟨_, rfl⟩
  have hle : ∀ z ∈ U, |q z| ≤ M * sqNorm z := by
    intro z hz
    by_cases hz0 : z = 0
    · subst hz0
      have h1 := hhom 0 0
      rw [zero_smul] at h1
      have h3 : sqNorm (0 : Fin m → ℝ) = 0 := by simp [sqNorm]
      rw [h1, h3]; simp
    · have h1 : |q ((√(sqNorm z))⁻¹ • z)| ≤ M := by
        rw [hM]
        refine le_csSup hbdd ?_
        rw [hT]
        exact ⟨_, U.smul_mem _ hz, hunit hz0, rfl⟩
      rw [hhom, inv_pow, Real.sq_sqrt (sqNorm_nonneg _), abs_mul, abs_of_pos (inv_pos.2 (hpos hz0)),
        inv_mul_le_iff₀ (hpos hz0), mul_comm] at h1
      exact h1
  have hstep : ∀ z ∈ U, sqNorm z = 1 → |q z| ≤ t + M / 2 := by
    intro z hz hz1
    obtain ⟨y, hy, hyz⟩ := hnet z hz hz1
    obtain ⟨hyU, hy1⟩ := hN y hy
    have hqy : |q y| ≤ t := by rw [hqx, hy1]; exact h y hy
    -- the difference, by polarisation
    have e : q z - q y = (q ((2 : ℝ) • (z - y) + (1 / 4 : ℝ) • (z + y)) -
        q ((2 : ℝ) • (z - y) - (1 / 4 : ℝ) • (z + y))) / 2 := by
      have pol : ∀ {k : ℕ} (a b : Fin k → ℝ), sqNorm ((2 : ℝ) • (a - b) + (1 / 4 : ℝ) • (a + b)) -
          sqNorm ((2 : ℝ) • (a - b) - (1 / 4 : ℝ) • (a + b)) = 2 * (sqNorm a - sqNorm b) := by
        intro k a b
        unfold sqNorm
        rw [← Finset.sum_sub_distrib, ← Finset.sum_sub_distrib, Finset.mul_sum]
        refine Finset.sum_congr rfl fun i _ => ?_
        simp only [Pi.add_apply, Pi.sub_apply, Pi.smul_apply, smul_eq_mul]
        ring
      rw [hqx, hqx, hqx, hqx, mulVec_add, mulVec_sub, mulVec_smul, mulVec_smul, mulVec_sub, mulVec_add]
      have p1 := pol (S *ᵥ z) (S *ᵥ y)
      have p2 := pol z y
      linarith
    have hu : (z - y) ∈ U := U.sub_mem hz hyU
    have hv : (z + y) ∈ U := U.add_mem hz hyU
    have b1 := hle _ (U.add_mem (U.smul_mem 2 hu) (U.smul_mem (1 / 4) hv))
    have b2 := hle _ (U.sub_mem (U.smul_mem 2 hu) (U.smul_mem (1 / 4) hv))
    have hM0 : 0 ≤ M := by
      have := (abs_nonneg _).trans (hle z hz)
      rwa [hz1, mul_one] at this
    have par := sqNorm_parallelogram ((2 : ℝ) • (z - y)) ((1 / 4 : ℝ) • (z + y))
    rw [sqNorm_smul, sqNorm_smul] at par
    have hv4 : sqNorm (z + y) ≤ 4 := by
      have := sqNorm_parallelogram z y
      have := sqNorm_nonneg (z - y)
      linarith
    have hsum : sqNorm ((2 : ℝ) • (z - y) + (1 / 4 : ℝ) • (z + y)) +
        sqNorm ((2 : ℝ) • (z - y) - (1 / 4 : ℝ) • (z + y)) ≤ 1 := by
      rw [par]; linarith
    have hdiff : |q z - q y| ≤ M / 2 := by
      rw [e, abs_div, abs_two, div_le_div_iff_of_pos_right two_pos]
      refine (abs_sub _ _).trans ((add_le_add b1 b2).trans ?_)
      rw [← mul_add]
      exact (mul_le_mul_of_nonneg_left hsum hM0).trans_eq (mul_one M)
    have : |q z| ≤ |q y| + |q z - q y| := by
      have := abs_add_le (q y) (q z - q y)
      rwa [add_sub_cancel] at this
    linarith
  have hMt : M ≤ t + M / 2 := by
    conv_lhs => rw [hM]
    refine csSup_le ?_ ?_
    · rw [hT]; exact ⟨_, _, U.smul_mem _ hx, hunit hx0, rfl⟩
    · rw [hT]; rintro a ⟨z, hz, hz1, rfl⟩; exact hstep z hz hz1
  have := hle x hx
  rw [hqx] at this
  refine this.trans (mul_le_mul_of_nonneg_right (by linarith) (sqNorm_nonneg _))

/-- a Gaussian matrix times a unit vector -/
theorem gauss_mulVec {u : Fin m → ℝ} (hu : sqNorm u = 1) :
    MeasurePreserving (fun Z => drawMat Z *ᵥ u) (gauss (Fin d × Fin m)) (gauss (Fin d)) := by
  let T : Matrix (Fin d) (Fin d × Fin m) ℝ := Matrix.of fun i q => if i = q.1 then u q.2 else 0
  have hT : T * Tᵀ = 1 := by
    ext i j
    rw [Matrix.mul_apply, Fintype.sum_prod_type, one_apply]
    have h1 : ∀ l : Fin d, ∑ k : Fin m, T i (l, k) * Tᵀ (l, k) j = if i = l then (if j = l then 1 else 0) else 0 := by
      intro l
      simp only [T, Matrix.transpose_apply, Matrix.of_apply]
      by_cases h1 : i = l <;> by_cases h2 : j = l <;> simp [h1, h2]
      rw [← hu]; unfold sqNorm
      exact Finset.sum_congr rfl fun k _ => by ring
    rw [Finset.sum_congr rfl fun l _ => h1 l]
    by_cases h : i = j
    · subst h; simp
    · simp [h, Ne.symm h]
  have e : (fun Z : Fin d × Fin m → ℝ => drawMat Z *ᵥ u) = fun Z => T *ᵥ Z := by
    funext Z i
    simp only [mulVec, dotProduct, Fintype.sum_prod_type, T, Matrix.of_apply, drawMat]
    rw [Finset.sum_eq_single i]
    · simp [mul_comm]
    · intro b _ hb
      simp [Ne.symm hb]
    · simp
  rw [e]
  exact ⟨(Continuous.matrix_mulVec continuous_const continuous_id).measurable, gauss_map T hT⟩

/-- the deviation for one vector -/
theorem gauss_deviation (hd : 0 < d) {u : Fin m → ℝ} (hu : sqNorm u = 1) {t : ℝ} (ht : 0 ≤ t) (ht1 : t ≤ 1 / 2) :
    (gauss (Fin d × Fin m)).real {Z | ¬ |sqNorm ((√(1 / d) • drawMat Z) *ᵥ u) - 1| ≤ t} ≤
      2 * Real.exp (-(d * t ^ 2 / 8)) := by
  have hd' : (0 : ℝ) < d := Nat.cast_pos.2 hd
  have hmp := gauss_mulVec (d := d) hu
  have hsub : {Z : Fin d × Fin m → ℝ | ¬ |sqNorm ((√(1 / d) • drawMat Z) *ᵥ u) - 1| ≤ t} ⊆
      (fun Z => drawMat Z *ᵥ u) ⁻¹' ({x | (1 + t) * d ≤ ∑ i, x i ^ 2} ∪ {x | ∑ i, x i ^ 2 ≤ (1 - t) * d}) := by
    intro Z hZ
    simp only [Set.mem_setOf_eq, smul_mulVec, sqNorm_smul] at hZ
    rw [Real.sq_sqrt (by positivity)] at hZ
    show _ ≤ sqNorm (drawMat Z *ᵥ u) ∨ sqNorm (drawMat Z *ᵥ u) ≤ _
    by_contra hc
    push Not at hc
    apply hZ
    rw [one_div, ← div_eq_inv_mul, abs_le]
    constructor
    · have : 1 - t ≤ sqNorm (drawMat Z *ᵥ u) / d := (le_div_iff₀ hd').2 hc.2.le
      linarith
    · have : sqNorm (drawMat Z *ᵥ u) / d ≤ 1 + t := (div_le_iff₀ hd').2 hc.1.le
      linarith
  have hm : MeasurableSet ({x : Fin d → ℝ | (1 + t) * d ≤ ∑ i, x i ^ 2} ∪ {x | ∑ i, x i ^ 2 ≤ (1 - t) * d}) :=
    (measurableSet_le measurable_const (by fun_prop)).union (measurableSet_le (by fun_prop) measurable_const)
  have h1 : (gauss (Fin d × Fin m)).real ((fun Z => drawMat Z *ᵥ u) ⁻¹'
      ({x | (1 + t) * d ≤ ∑ i, x i ^ 2} ∪ {x | ∑ i, x i ^ 2 ≤ (1 - t) * d})) =
      (gauss (Fin d)).real ({x | (1 + t) * d ≤ ∑ i, x i ^ 2} ∪ {x | ∑ i, x i ^ 2 ≤ (1 - t) * d}) := by
    unfold Measure.real
    rw [hmp.measure_preimage hm.nullMeasurableSet]
  refine (measureReal_mono hsub).trans (h1.trans_le ((measureReal_union_le _ _).trans ?_))
  have := chiSq_upper d ht ht1
  have := chiSq_lower d ht ht1
  linarith

/-- **The embedding probability.**  For `0 ≤ ε ≤ 1`, with probability at least `1 - 2 · 9^dim(U) · exp(-d ε²/32)`
the `d × m` Gaussian matrix scaled by `√(1/d)` changes no squared norm in `U` by more than a factor `1 ± ε`. -/
theorem gauss_embeds (hd : 0 < d) (U : Submodule ℝ (Fin m → ℝ)) {ε : ℝ} (hε : 0 ≤ ε) (hε1 : ε ≤ 1) :
    (gauss (Fin d × Fin m)).real
      {Z | ¬ ∀ x ∈ U, |sqNorm ((√(1 / d) • drawMat Z) *ᵥ x) - sqNorm x| ≤ ε * sqNorm x} ≤
      2 * 9 ^ finrank ℝ U * Real.exp (-(d * ε ^ 2 / 32)) := by
  obtain ⟨N, h1, h2, h3⟩ := subspace_net U
  have hsub : {Z : Fin d × Fin m → ℝ | ¬ ∀ x ∈ U, |sqNorm ((√(1 / d) • drawMat Z) *ᵥ x) - sqNorm x| ≤ ε * sqNorm x} ⊆
      ⋃ y ∈ N, {Z | ¬ |sqNorm ((√(1 / d) • drawMat Z) *ᵥ y) - 1| ≤ ε / 2} := by
    intro Z hZ
    by_contra hc
    simp only [Set.mem_iUnion, Set.mem_setOf_eq, not_exists, not_not] at hc
    refine hZ fun x hx => ?_
    have := deviation_of_net h2 h3 (√(1 / d) • drawMat Z) (t := ε / 2) hc x hx
    rwa [show 2 * (ε / 2) = ε by ring] at this
  refine (measureReal_mono hsub (measure_ne_top _ _)).trans ((measureReal_biUnion_finset_le _ _).trans ?_)
  refine (Finset.sum_le_sum fun y hy => gauss_deviation hd (h2 y hy).2 (by linarith : 0 ≤ ε / 2) (by linarith)).trans ?_
  rw [Finset.sum_const, nsmul_eq_mul]
  have hc : (N.card : ℝ) ≤ 9 ^ finrank ℝ U := by exact_mod_cast h1
  have e : (d : ℝ) * (ε / 2) ^ 2 / 8 = d * ε ^ 2 / 32 := by ring
  rw [e]
  have := mul_le_mul_of_nonneg_right hc (by positivity : 0 ≤ 2 * Real.exp (-(d * ε ^ 2 / 32)))
  linarith

end Parla.Proof
