import Verif.Proof.SparseSign
import Verif.Props.SparseSign
import Verif.Props.SJLTEmbed

/-! # Property C84: `sparse_sign_operator` embeds subspaces with high probability -/

namespace Parla.Props

open MeasureTheory ProbabilityTheory Matrix Parla Spec Proof

variable {m n d N : ℕ}

/-! ### Signs by position -/

theorem exists_perm_extend {L : ℕ} {a b : Fin L → Fin N} (ha : Function.Injective a) (hb : Function.Injective b) :
    ∃ π : Equiv.Perm (Fin N), ∀ t, π (a t) = b t := by
  classical
  let e : {x // x ∈ Set.range a} ≃ {x // x ∈ Set.range b} :=
    (Equiv.ofInjective a ha).symm.trans (Equiv.ofInjective b hb)
  refine ⟨e.extendSubtype, fun t => ?_⟩
  rw [Equiv.extendSubtype_apply_of_mem e (a t) ⟨t, rfl⟩]
  have : (Equiv.ofInjective a ha).symm ⟨a t, t, rfl⟩ = t := Equiv.ofInjective_symm_apply ha t
  show ((Equiv.ofInjective b hb) ((Equiv.ofInjective a ha).symm ⟨a t, t, rfl⟩)).1 = b t
  rw [this]
  rfl

theorem whereIdx_length_le (mask : Fin N → Prop) : (whereIdx mask).length ≤ N := by
  unfold whereIdx
  exact (List.length_filter_le _ _).trans (by simp)

/-- The result of `sparse_sign_operator` when the mask comes from the uniform numbers `u` and the signs from the first of
the uniform numbers `v`. -/
noncomputable def sparseOf (r c : ℕ) (q : ℝ) (mask : Fin (r * c) → Prop) (v : Fin (r * c) → ℝ) :
    Matrix (Fin r) (Fin c) ℝ :=
  sparseSignMat q mask fun t => v (Fin.castLE (whereIdx_length_le _) t)

open Classical in
theorem sparseOf_signs (r c : ℕ) (q : ℝ) (mask : Fin (r * c) → Prop) :
    ∃ π : Equiv.Perm (Fin (r * c)), ∀ v i j, sparseOf r c q mask v i j =
      (if mask (finProdFinEquiv (i, j)) then 1 else 0) * spSign (v (π (finProdFinEquiv (i, j)))) /
        √((min r c : ℕ) * q) := by
  obtain ⟨π, hπ⟩ := exists_perm_extend (List.nodup_iff_injective_get.1 (whereIdx_nodup mask))
    (Fin.castLE_injective (whereIdx_length_le mask))
  refine ⟨π, fun v i j => ?_⟩
  obtain ⟨h1, h2⟩ := sparseSignMat_entry q mask (fun t => v (Fin.castLE (whereIdx_length_le _) t)) i j
  unfold sparseOf
  by_cases h : mask (finProdFinEquiv (i, j))
  · obtain ⟨t, ht, e⟩ := h2 h
    rw [e, if_pos h, ← ht, hπ, one_mul]
    rfl
  · rw [h1 h, if_neg h]; simp

theorem measurePreserving_reindex {ι κ : Type} [Fintype ι] [Fintype κ] (μ : Measure ℝ) [SigmaFinite μ] (f : κ ≃ ι) :
    MeasurePreserving (fun x : ι → ℝ => x ∘ f) (indep ι μ) (indep κ μ) := by
  have hmp := measurePreserving_piCongrLeft (fun _ : κ => μ) f.symm
  have e : (fun x : ι → ℝ => x ∘ f) = MeasurableEquiv.piCongrLeft (fun _ : κ => ℝ) f.symm := by
    funext x i
    have := MeasurableEquiv.piCongrLeft_apply_apply (β := fun _ : κ => ℝ) f.symm x (f i)
    simpa using this.symm
  rw [e]
  exact hmp

theorem row_le_one {r : ℕ} {B : Matrix (Fin m) (Fin r) ℝ} (hB : Bᵀ * B = 1) (j : Fin m) : ∑ p, B j p ^ 2 ≤ 1 := by
  have h := Proof.froSq_orth_transpose_mul_le hB (Matrix.of fun (i : Fin m) (_ : Fin 1) => if i = j then (1 : ℝ) else 0)
  unfold froSq at h
  simpa [mul_apply] using h

/-! ### The probability -/

theorem sp_dev_second {r : ℕ} {q : ℝ} (hq : 0 < q) (hd : 0 < d) (u : Fin d × Fin m → ℝ) (B : Matrix (Fin m) (Fin r) ℝ) :
    Integrable (fun v => sjltDev (spMat q u v) B) (indep _ unif01) ∧
    ∫ v, sjltDev (spMat q u v) B ∂(indep (Fin d × Fin m) unif01) =
      ∑ p, ∑ p', spInner q u (fun i => B i p) (fun i => B i p') := by
  unfold sjltDev
  have h2 := fun p p' => sp_second hq hd u (fun i => B i p) (fun i => B i p')
  have h1 := fun p => integrable_finsetSum (μ := indep (Fin d × Fin m) unif01) Finset.univ fun p' _ => (h2 p p').1
  refine ⟨integrable_finsetSum _ fun p _ => h1 p, ?_⟩
  rw [integral_finsetSum _ fun p _ => h1 p]
  refine Finset.sum_congr rfl fun p _ => ?_
  rw [integral_finsetSum _ fun p' _ => (h2 p p').1]
  exact Finset.sum_congr rfl fun p' _ => (h2 p p').2

theorem sp_dev_mean {r : ℕ} {q : ℝ} (hq : 0 < q) (h1 : q ≤ 1) (hd : 0 < d) {B : Matrix (Fin m) (Fin r) ℝ}
    (hB : Bᵀ * B = 1) :
    Integrable (fun u => ∑ p, ∑ p', spInner q u (fun i => B i p) (fun i => B i p')) (indep (Fin d × Fin m) unif01) ∧
    ∫ u, ∑ p, ∑ p', spInner q u (fun i => B i p) (fun i => B i p') ∂(indep (Fin d × Fin m) unif01) ≤
      (r ^ 2 + r / q) / d := by
  have hdR : (0 : ℝ) < d := Nat.cast_pos.2 hd
  have h2 := fun p p' => sp_second_mean hq h1 hd (fun i => B i p) (fun i => B i p')
  have i1 := fun p => integrable_finsetSum (μ := indep (Fin d × Fin m) unif01) Finset.univ fun p' _ => (h2 p p').1
  refine ⟨integrable_finsetSum _ fun p _ => i1 p, ?_⟩
  rw [integral_finsetSum _ fun p _ => i1 p]
  simp only [fun p => integral_finsetSum Finset.univ fun p' (_ : p' ∈ Finset.univ) => (h2 p p').1]
  have hpq : ∀ p p', (fun i => B i p) ⬝ᵥ (fun i => B i p') = if p = p' then 1 else 0 := fun p p' => by
    have := congrFun (congrFun hB p) p'
    rw [one_apply] at this
    exact this
  refine (Finset.sum_le_sum fun p _ => Finset.sum_le_sum fun p' _ => (h2 p p').2).trans ?_
  have e1 : ∀ p p' : Fin r, (sqNorm (fun i => B i p) * sqNorm (fun i => B i p') +
      ((fun i => B i p) ⬝ᵥ fun i => B i p') ^ 2) / (d : ℝ) = 1 / d + (if p = p' then 1 / (d : ℝ) else 0) := by
    intro p p'
    rw [sqNorm_eq_dot, sqNorm_eq_dot, hpq, hpq, hpq, if_pos rfl, if_pos rfl]
    split <;> ring
  have e2 : ∑ p, ∑ p', ∑ j, (B j p * B j p') ^ 2 ≤ r := by
    have : ∑ p, ∑ p', ∑ j, (B j p * B j p') ^ 2 = ∑ j, (∑ p, B j p ^ 2) * (∑ p, B j p ^ 2) := by
      simp only [Finset.sum_mul_sum]
      rw [Finset.sum_comm' (t' := Finset.univ) (s' := fun _ => Finset.univ) (by simp)]
      rw [Finset.sum_comm]
      conv_rhs => rw [Finset.sum_comm]
      refine Finset.sum_congr rfl fun p _ => ?_
      rw [Finset.sum_comm]
      exact Finset.sum_congr rfl fun j _ => Finset.sum_congr rfl fun p' _ => by ring
    rw [this]
    have hr : ∑ j, ∑ p, B j p ^ 2 = r := Proof.froSq_orth hB
    rw [← hr]
    refine Finset.sum_le_sum fun j _ => ?_
    have h0 : 0 ≤ ∑ p, B j p ^ 2 := Finset.sum_nonneg fun p _ => sq_nonneg _
    nlinarith [row_le_one hB j]
  simp only [Finset.sum_add_distrib, e1, ← Finset.mul_sum]
  have e3 : ∑ _p : Fin r, ∑ _p' : Fin r, 1 / (d : ℝ) + ∑ p : Fin r, ∑ p' : Fin r, (if p = p' then 1 / (d : ℝ) else 0) =
      (r ^ 2 + r) / d := by
    simp
    ring
  rw [e3]
  have hc : 0 ≤ (1 - q) / (d * q) := div_nonneg (by linarith) (by positivity)
  refine (add_le_add_right (mul_le_mul_of_nonneg_left e2 hc) _).trans (le_of_eq ?_)
  field_simp
  ring

theorem sp_bad {r : ℕ} {q : ℝ} (hq : 0 < q) (h1 : q ≤ 1) (hd : 0 < d) (f : Fin d × Fin m ≃ Fin N)
    (S : (Fin N → ℝ) → (Fin N → ℝ) → Matrix (Fin d) (Fin m) ℝ)
    (hS : ∀ u, ∃ g : Fin d × Fin m ≃ Fin N, ∀ v, S u v = spMat q (u ∘ f) (v ∘ g))
    {B : Matrix (Fin m) (Fin r) ℝ} (hB : Bᵀ * B = 1) {ε : ℝ} (hε : 0 < ε)
    (hE : MeasurableSet {ω : (Fin N → ℝ) × (Fin N → ℝ) | ε ^ 2 < sjltDev (S ω.1 ω.2) B}) :
    ((indep (Fin N) unif01).prod (indep (Fin N) unif01)) {ω | ε ^ 2 < sjltDev (S ω.1 ω.2) B} ≤
      ENNReal.ofReal ((r ^ 2 + r / q) / (d * ε ^ 2)) := by
  obtain ⟨I, hI⟩ : ∃ I : (Fin d × Fin m → ℝ) → ℝ, I = fun u =>
    ∑ p, ∑ p', spInner q u (fun i => B i p) (fun i => B i p') := ⟨_, rfl⟩
  have hdev : ∀ u v, 0 ≤ sjltDev (spMat q (d := d) (m := m) u v) B := fun u v =>
    Finset.sum_nonneg fun p _ => Finset.sum_nonneg fun p' _ => sq_nonneg _
  have hsec := fun u => sp_dev_second (m := m) hq hd u B
  have hI0 : ∀ u, 0 ≤ I u := fun u => by
    rw [hI]
    simp only
    rw [← (hsec u).2]
    exact integral_nonneg fun v => hdev u v
  obtain ⟨m1, m2⟩ := sp_dev_mean (m := m) hq h1 hd hB
  rw [← hI] at m1
  rw [Measure.prod_apply hE]
  have hin : ∀ u, indep (Fin N) unif01 (Prod.mk u ⁻¹' {ω : (Fin N → ℝ) × (Fin N → ℝ) | ε ^ 2 < sjltDev (S ω.1 ω.2) B}) ≤
      ENNReal.ofReal (I (u ∘ f) / ε ^ 2) := by
    intro u
    obtain ⟨g, hg⟩ := hS u
    have hpre : (Prod.mk u ⁻¹' {ω : (Fin N → ℝ) × (Fin N → ℝ) | ε ^ 2 < sjltDev (S ω.1 ω.2) B}) =
        (fun v : Fin N → ℝ => v ∘ g) ⁻¹' {v | ε ^ 2 < sjltDev (spMat q (u ∘ f) v) B} := by
      ext v
      simp only [Set.mem_preimage, Set.mem_ofPred_eq, hg]
    rw [hpre]
    have hmp := measurePreserving_reindex unif01 g
    have hle := Measure.le_map_apply (μ := indep (Fin N) unif01) hmp.measurable.aemeasurable
      {v | ε ^ 2 < sjltDev (spMat q (u ∘ f) v) B}
    rw [hmp.map_eq] at hle
    refine hle.trans ?_
    refine (ENNReal.le_ofReal_iff_toReal_le (measure_ne_top _ _) (div_nonneg (hI0 _) (sq_nonneg _))).2 ?_
    rw [le_div_iff₀ (by positivity), mul_comm]
    have := mul_meas_ge_le_integral_of_nonneg (μ := indep (Fin d × Fin m) unif01)
      (Filter.Eventually.of_forall fun v => hdev (u ∘ f) v) (hsec (u ∘ f)).1 (ε ^ 2)
    rw [(hsec (u ∘ f)).2] at this
    rw [hI]
    refine le_trans (mul_le_mul_of_nonneg_left ?_ (sq_nonneg _)) this
    exact measureReal_mono fun v hv => le_of_lt (show ε ^ 2 < _ from hv)
  refine (lintegral_mono hin).trans ?_
  have hmf := measurePreserving_reindex unif01 f
  have hint : Integrable (fun u : Fin N → ℝ => I (u ∘ f)) (indep (Fin N) unif01) := hmf.integrable_comp_of_integrable m1
  have hval : ∫ u : Fin N → ℝ, I (u ∘ f) ∂(indep (Fin N) unif01) = ∫ u, I u ∂(indep (Fin d × Fin m) unif01) := by
    rw [← hmf.map_eq]
    exact (integral_map hmf.measurable.aemeasurable (by rw [hmf.map_eq]; exact m1.aestronglyMeasurable)).symm
  rw [← ofReal_integral_eq_lintegral_ofReal (hint.div_const _)
    (Filter.Eventually.of_forall fun u => div_nonneg (hI0 _) (sq_nonneg _))]
  refine ENNReal.ofReal_le_ofReal ?_
  rw [integral_div, hval, ← div_div, hI]
  exact div_le_div_of_nonneg_right m2 (sq_nonneg _)

/-- the draws of `sparse_sign_operator`: the positions and the signs -/
noncomputable def sparseDraws (r c : ℕ) : Measure ((Fin (r * c) → ℝ) × (Fin (r * c) → ℝ)) :=
  (indep (Fin (r * c)) unif01).prod (indep (Fin (r * c)) unif01)

theorem measurable_sparseOf (r c : ℕ) (q : ℝ) (i : Fin r) (j : Fin c) :
    Measurable fun ω : (Fin (r * c) → ℝ) × (Fin (r * c) → ℝ) => sparseOf r c q (fun t => ω.1 t < q) ω.2 i j := by
  have h1 : Measurable fun ω : (Fin (r * c) → Prop) × (Fin (r * c) → ℝ) => sparseOf r c q ω.1 ω.2 i j := by
    refine measurable_from_prod_countable_right fun mask => ?_
    obtain ⟨π, hπ⟩ := sparseOf_signs r c q mask
    simp only [hπ]
    exact ((spSign_isSign.meas.comp (measurable_pi_apply _)).const_mul _).div_const _
  have h2 : Measurable fun ω : (Fin (r * c) → ℝ) × (Fin (r * c) → ℝ) => ((fun t => ω.1 t < q : Fin (r * c) → Prop), ω.2) := by
    refine Measurable.prodMk (measurable_pi_iff.2 fun t => ?_) measurable_snd
    exact measurableSet_setOfPred.1 (measurableSet_lt ((measurable_pi_apply t).comp measurable_fst) measurable_const)
  exact Measurable.comp (g := fun ω : (Fin (r * c) → Prop) × (Fin (r * c) → ℝ) => sparseOf r c q ω.1 ω.2 i j)
    (f := fun ω : (Fin (r * c) → ℝ) × (Fin (r * c) → ℝ) => ((fun t => ω.1 t < q : Fin (r * c) → Prop), ω.2)) h1 h2

theorem measurable_dev {Ω : Type} [MeasurableSpace Ω] {r : ℕ} {S : Ω → Matrix (Fin d) (Fin m) ℝ}
    (h : ∀ i j, Measurable fun ω => S ω i j) (B : Matrix (Fin m) (Fin r) ℝ) : Measurable fun ω => sjltDev (S ω) B := by
  unfold sjltDev
  simp only [dotProduct, mulVec]
  refine Finset.measurable_sum _ fun p _ => Finset.measurable_sum _ fun q _ => ?_
  refine Measurable.pow_const (Measurable.sub_const (Finset.measurable_sum _ fun k _ => ?_) _) 2
  exact (Finset.measurable_sum _ fun i _ => (h k i).mul_const _).mul
    (Finset.measurable_sum _ fun i _ => (h k i).mul_const _)

/-- the wide case -/
theorem sp_bad_wide {r : ℕ} {q : ℝ} (hq : 0 < q) (h1 : q ≤ 1) (hd : 0 < d) (hdm : d ≤ m)
    {B : Matrix (Fin m) (Fin r) ℝ} (hB : Bᵀ * B = 1) {ε : ℝ} (hε : 0 < ε) :
    sparseDraws d m {ω | ε ^ 2 < sjltDev (sparseOf d m q (fun t => ω.1 t < q) ω.2) B} ≤
      ENNReal.ofReal ((r ^ 2 + r / q) / (d * ε ^ 2)) := by
  refine sp_bad hq h1 hd finProdFinEquiv (fun u v => sparseOf d m q (fun t => u t < q) v) (fun u => ?_) hB hε
    (measurableSet_lt measurable_const (measurable_dev (measurable_sparseOf d m q) B))
  obtain ⟨π, hπ⟩ := sparseOf_signs d m q (fun t => u t < q)
  refine ⟨finProdFinEquiv.trans π, fun v => ?_⟩
  ext i j
  rw [hπ, min_eq_left hdm]
  rfl

/-- the tall case: the transpose -/
theorem sp_bad_tall {r : ℕ} {q : ℝ} (hq : 0 < q) (h1 : q ≤ 1) (hd : 0 < d) (hdm : d ≤ m)
    {B : Matrix (Fin m) (Fin r) ℝ} (hB : Bᵀ * B = 1) {ε : ℝ} (hε : 0 < ε) :
    sparseDraws m d {ω | ε ^ 2 < sjltDev (sparseOf m d q (fun t => ω.1 t < q) ω.2)ᵀ B} ≤
      ENNReal.ofReal ((r ^ 2 + r / q) / (d * ε ^ 2)) := by
  refine sp_bad hq h1 hd ((Equiv.prodComm _ _).trans finProdFinEquiv)
    (fun u v => (sparseOf m d q (fun t => u t < q) v)ᵀ) (fun u => ?_) hB hε
    (measurableSet_lt measurable_const (measurable_dev (fun i j => measurable_sparseOf m d q j i) B))
  obtain ⟨π, hπ⟩ := sparseOf_signs m d q (fun t => u t < q)
  refine ⟨((Equiv.prodComm _ _).trans finProdFinEquiv).trans π, fun v => ?_⟩
  ext i j
  rw [transpose_apply, hπ, min_eq_right hdm]
  rfl

/-! ### The operator -/

/-- In world `w`, `rng.random(N)` returns `u`, and `rng.random(nnz)` after it returns the first `nnz` numbers of `v`, for
the number `nnz` of positions at which `u < density`. -/
def NextSparse {G : Type} (R : NpRng G) (w : World G) (q : ℝ) (N : ℕ) (u v : Fin N → ℝ) : Prop :=
  (R.random N w.rng).1 = u ∧
    ∀ t, (R.random (whereIdx fun t => u t < q).length (R.random N w.rng).2).1 t =
      v (Fin.castLE (whereIdx_length_le _) t)

theorem sparse_next {G : Type} {R : NpRng G} {w : World G} {r c : ℕ} {q : ℝ} {u v : Fin (r * c) → ℝ}
    (h : NextSparse R w q (r * c) u v) (hne : ∃ t, u t < q) :
    ∃ w', sparseSignOperator R q r c w = .ok (sparseOf r c q (fun t => u t < q) v, w') := by
  obtain ⟨rfl, h2⟩ := h
  have hrun := (sparseSign_eq R q r c w).2 0 (by omega) (by simp) hne
  have e : (R.random _ (maskState R (r * c) w.rng (0 + 1))).1 = fun t => v (Fin.castLE (whereIdx_length_le
    (inMask R (r * c) q w.rng 0)) t) := funext h2
  rw [e] at hrun
  exact ⟨_, hrun⟩

theorem sparseOf_empty {r c : ℕ} {q : ℝ} {mask : Fin (r * c) → Prop} (h : ∀ t, ¬ mask t) (v : Fin (r * c) → ℝ) :
    sparseOf r c q mask v = 0 := by
  ext i j
  exact (sparseSignMat_entry q mask _ i j).1 (h _)

/-- **C84** (subspaces).  For a subspace `U ≠ 0` of `ℝ^m` of dimension `r`, `0 < density ≤ 1`, `0 < d ≤ m` and
`0 < ε < 1`, except for draws of probability at most `(r² + r/density)/(d ε²)`, `sparse_sign_operator(d, m)` returns at
its first attempt a matrix that changes no squared norm of a vector of `U` by more than a factor `1 ± ε`; so does the
transpose of the result of `sparse_sign_operator(m, d)`. -/
theorem C84_sparse_sign_subspace (U : Submodule ℝ (Fin m → ℝ)) (hU : U ≠ ⊥) (q : ℝ) (hq : 0 < q) (h1 : q ≤ 1)
    (hd : 0 < d) (hdm : d ≤ m) (ε : ℝ) (hε : 0 < ε) (hε1 : ε < 1) :
    (∃ E : Set ((Fin (d * m) → ℝ) × (Fin (d * m) → ℝ)),
      sparseDraws d m E ≤ ENNReal.ofReal ((Module.finrank ℝ U ^ 2 + Module.finrank ℝ U / q) / (d * ε ^ 2)) ∧
      ∀ u v, (u, v) ∉ E → ∀ (G : Type) (R : NpRng G) (w : World G), NextSparse R w q (d * m) u v →
        ∃ S w', sparseSignOperator R q d m w = .ok (S, w') ∧
          ∀ x ∈ U, (1 - ε) * sqNorm x ≤ sqNorm (S *ᵥ x) ∧ sqNorm (S *ᵥ x) ≤ (1 + ε) * sqNorm x) ∧
    (∃ E : Set ((Fin (m * d) → ℝ) × (Fin (m * d) → ℝ)),
      sparseDraws m d E ≤ ENNReal.ofReal ((Module.finrank ℝ U ^ 2 + Module.finrank ℝ U / q) / (d * ε ^ 2)) ∧
      ∀ u v, (u, v) ∉ E → ∀ (G : Type) (R : NpRng G) (w : World G), NextSparse R w q (m * d) u v →
        ∃ S w', sparseSignOperator R q m d w = .ok (S, w') ∧
          ∀ x ∈ U, (1 - ε) * sqNorm x ≤ sqNorm (Sᵀ *ᵥ x) ∧ sqNorm (Sᵀ *ᵥ x) ≤ (1 + ε) * sqNorm x) := by
  obtain ⟨B, hB, hU'⟩ := exists_ortho_basis U
  obtain ⟨x0, hx0, hne⟩ := Submodule.exists_mem_ne_zero_of_ne_bot hU
  have hpos : 0 < sqNorm x0 := lt_of_le_of_ne (sqNorm_nonneg _) (fun h => hne (sqNorm_eq_zero.1 h.symm))
  have key : ∀ S : Matrix (Fin d) (Fin m) ℝ, sjltDev S B ≤ ε ^ 2 → ∀ x ∈ U,
      (1 - ε) * sqNorm x ≤ sqNorm (S *ᵥ x) ∧ sqNorm (S *ᵥ x) ≤ (1 + ε) * sqNorm x := by
    intro S hS x hx
    obtain ⟨z, rfl⟩ := hU' x hx
    have := abs_le.1 (embed_of_dev hB hε.le hS z)
    constructor <;> linarith [this.1, this.2]
  have hz : ¬ (1 - ε) * sqNorm x0 ≤ sqNorm ((0 : Matrix (Fin d) (Fin m) ℝ) *ᵥ x0) := by
    rw [zero_mulVec, sqNorm_eq_zero.2 rfl, not_le]
    exact mul_pos (by linarith) hpos
  constructor
  · refine ⟨_, sp_bad_wide hq h1 hd hdm hB hε, fun u v hE G R w hw => ?_⟩
    have hdev : sjltDev (sparseOf d m q (fun t => u t < q) v) B ≤ ε ^ 2 := not_lt.1 hE
    have hex : ∃ t, u t < q := by
      by_contra hc
      push Not at hc
      have h0 := sparseOf_empty (q := q) (mask := fun t => u t < q) (fun t => not_lt.2 (hc t)) v
      rw [h0] at hdev
      exact hz (key _ hdev x0 hx0).1
    obtain ⟨w', h⟩ := sparse_next hw hex
    exact ⟨_, w', h, key _ hdev⟩
  · refine ⟨_, sp_bad_tall hq h1 hd hdm hB hε, fun u v hE G R w hw => ?_⟩
    have hdev : sjltDev (sparseOf m d q (fun t => u t < q) v)ᵀ B ≤ ε ^ 2 := not_lt.1 hE
    have hex : ∃ t, u t < q := by
      by_contra hc
      push Not at hc
      have h0 := sparseOf_empty (q := q) (mask := fun t => u t < q) (fun t => not_lt.2 (hc t)) v
      rw [h0, transpose_zero] at hdev
      exact hz (key _ hdev x0 hx0).1
    obtain ⟨w', h⟩ := sparse_next hw hex
    exact ⟨_, w', h, key _ hdev⟩

/-- **C84** (the range of `A`). -/
theorem C84_sparse_sign_embeds (A : Matrix (Fin m) (Fin n) ℝ) (hA : A ≠ 0) (q : ℝ) (hq : 0 < q) (h1 : q ≤ 1)
    (hd : 0 < d) (hdm : d ≤ m) (ε : ℝ) (hε : 0 < ε) (hε1 : ε < 1) :
    ∃ E : Set ((Fin (d * m) → ℝ) × (Fin (d * m) → ℝ)),
      sparseDraws d m E ≤ ENNReal.ofReal ((A.rank ^ 2 + A.rank / q) / (d * ε ^ 2)) ∧
      ∀ u v, (u, v) ∉ E → ∀ (G : Type) (R : NpRng G) (w : World G), NextSparse R w q (d * m) u v →
        ∃ S w', sparseSignOperator R q d m w = .ok (S, w') ∧ Embeds S A ε := by
  have hU : colSpace A ≠ ⊥ := by
    intro h
    apply hA
    have h0 : ∀ x, A *ᵥ x = 0 := fun x => by
      have : A *ᵥ x ∈ colSpace A := mem_colSpace.2 ⟨x, rfl⟩
      rw [h] at this
      exact (Submodule.mem_bot ℝ).1 this
    ext i j
    have := congrFun (h0 (Pi.single j 1)) i
    rw [mulVec_single_one] at this
    exact this
  obtain ⟨⟨E, e1, e2⟩, -⟩ := C84_sparse_sign_subspace (colSpace A) hU q hq h1 hd hdm ε hε hε1
  rw [finrank_colSpace] at e1
  refine ⟨E, e1, fun u v hE G R w hw => ?_⟩
  obtain ⟨S, w', hS, he⟩ := e2 u v hE G R w hw
  exact ⟨S, w', hS, fun x => he _ (mem_colSpace.2 ⟨x, rfl⟩)⟩

/-! ### The mean -/

theorem sp_mean {q : ℝ} (hq : 0 < q) (h1 : q ≤ 1) (hd : 0 < d) (f : Fin d × Fin m ≃ Fin N)
    (S : (Fin N → ℝ) → (Fin N → ℝ) → Matrix (Fin d) (Fin m) ℝ)
    (hS : ∀ u, ∃ g : Fin d × Fin m ≃ Fin N, ∀ v, S u v = spMat q (u ∘ f) (v ∘ g))
    (hmeas : ∀ i j, Measurable fun ω : (Fin N → ℝ) × (Fin N → ℝ) => S ω.1 ω.2 i j) (a b : Fin m) :
    ∫ ω, ((S ω.1 ω.2)ᵀ * S ω.1 ω.2) a b ∂((indep (Fin N) unif01).prod (indep (Fin N) unif01)) =
      if a = b then 1 else 0 := by
  obtain ⟨x, hx⟩ : ∃ x : Fin m → ℝ, x = Pi.single a 1 := ⟨_, rfl⟩
  obtain ⟨y, hy⟩ : ∃ y : Fin m → ℝ, y = Pi.single b 1 := ⟨_, rfl⟩
  have hxy : x ⬝ᵥ y = if a = b then 1 else 0 := by
    rw [hx, hy, single_dotProduct, one_mul, Pi.single_apply]
  have e0 : ∀ M : Matrix (Fin d) (Fin m) ℝ, (Mᵀ * M) a b = (M *ᵥ x) ⬝ᵥ (M *ᵥ y) := by
    intro M
    rw [hx, hy, mulVec_single_one, mulVec_single_one]
    rfl
  have hbd : ∀ u v i j, |S u v i j| ≤ 1 / √(d * q) := by
    intro u v i j
    obtain ⟨g, hg⟩ := hS u
    rw [hg]
    unfold spMat
    rw [of_apply, abs_div, abs_of_nonneg (Real.sqrt_nonneg _), abs_mul]
    refine div_le_div_of_nonneg_right ?_ (Real.sqrt_nonneg _)
    have h1 := spXi_norm q ((u ∘ f) (i, j))
    have h2 := spSign_isSign.abs ((v ∘ g) (i, j))
    rw [Real.norm_eq_abs] at h1 h2
    rw [h2, mul_one]
    exact h1
  have hint : Integrable (fun ω : (Fin N → ℝ) × (Fin N → ℝ) => ((S ω.1 ω.2)ᵀ * S ω.1 ω.2) a b)
      ((indep (Fin N) unif01).prod (indep (Fin N) unif01)) := by
    simp only [mul_apply, transpose_apply]
    refine integrable_finsetSum _ fun i _ => ?_
    refine Integrable.of_bound ((hmeas i a).mul (hmeas i b)).aestronglyMeasurable ((1 / √(d * q)) * (1 / √(d * q)))
      (Filter.Eventually.of_forall fun ω => ?_)
    rw [Real.norm_eq_abs, abs_mul]
    exact mul_le_mul (hbd _ _ _ _) (hbd _ _ _ _) (abs_nonneg _) (by positivity)
  rw [integral_prod _ hint]
  have hin : ∀ u, ∫ v, ((S u v)ᵀ * S u v) a b ∂(indep (Fin N) unif01) =
      (if a = b then 1 else 0) + ∑ p : Fin d × Fin m, x p.2 * y p.2 / (d * q) * (spXi q (u (f p)) - q) := by
    intro u
    obtain ⟨g, hg⟩ := hS u
    have hmp := measurePreserving_reindex unif01 g
    have h0 : ∀ p, spCoef q (u ∘ f) x y p p = 0 := fun p => by unfold spCoef; rw [if_neg (fun h => h.2 rfl)]
    obtain ⟨c1, c2⟩ := spSign_isSign.chaos_mean (spCoef q (u ∘ f) x y) h0
    obtain ⟨K, hK⟩ : ∃ K, K = (if a = b then (1 : ℝ) else 0) +
      ∑ p : Fin d × Fin m, x p.2 * y p.2 / (d * q) * (spXi q (u (f p)) - q) := ⟨_, rfl⟩
    have e : ∀ v, ((S u v)ᵀ * S u v) a b = K + chaos spSign (spCoef q (u ∘ f) x y) (v ∘ g) := by
      intro v
      rw [e0, hg, hK, ← hxy]
      have := sp_form hq hd (u ∘ f) (v ∘ g) x y
      simp only [Function.comp_apply] at this
      linarith
    simp only [e]
    have ic := hmp.integrable_comp_of_integrable c1
    have iv : ∫ v : Fin N → ℝ, chaos spSign (spCoef q (u ∘ f) x y) (v ∘ g) ∂(indep (Fin N) unif01) = 0 := by
      rw [← c2, ← hmp.map_eq]
      exact (integral_map hmp.measurable.aemeasurable (by rw [hmp.map_eq]; exact c1.aestronglyMeasurable)).symm
    refine (integral_add (integrable_const _) ic).trans ?_
    rw [hK]
    have iv' : ∫ v : Fin N → ℝ, ((chaos spSign (spCoef q (u ∘ f) x y)) ∘ fun x : Fin N → ℝ => x ∘ g) v
      ∂(indep (Fin N) unif01) = 0 := iv
    rw [iv']
    simp
  simp only [hin]
  have hone := fun p : Fin d × Fin m => spXi_one (ι := Fin N) hq.le h1 (f p)
  have hterm : ∀ p : Fin d × Fin m, Integrable (fun u : Fin N → ℝ => x p.2 * y p.2 / (d * q) * (spXi q (u (f p)) - q))
      (indep (Fin N) unif01) := fun p => ((hone p).1.sub (integrable_const _)).const_mul _
  rw [integral_add (integrable_const _) (integrable_finsetSum _ fun p _ => hterm p),
    integral_finsetSum _ fun p _ => hterm p]
  have hz : ∀ p : Fin d × Fin m, ∫ u : Fin N → ℝ, x p.2 * y p.2 / (d * q) * (spXi q (u (f p)) - q)
      ∂(indep (Fin N) unif01) = 0 := by
    intro p
    rw [integral_const_mul, integral_sub (hone p).1 (integrable_const _), (hone p).2]
    simp
  simp [hz]

/-- the probability of an empty mask -/
theorem empty_mask (N : ℕ) {q : ℝ} (hq : 0 ≤ q) (h1 : q ≤ 1) :
    indep (Fin N) unif01 {u | ∀ t, ¬ u t < q} = ENNReal.ofReal ((1 - q) ^ N) := by
  have e : {u : Fin N → ℝ | ∀ t, ¬ u t < q} = Set.univ.pi fun _ => (Set.Iio q)ᶜ := by
    ext u
    rw [Set.mem_univ_pi]
    rfl
  unfold indep
  rw [e, Measure.pi_pi]
  have h : unif01 (Set.Iio q)ᶜ = ENNReal.ofReal (1 - q) := by
    rw [prob_compl_eq_one_sub measurableSet_Iio, unif01_lt hq h1, ← ENNReal.ofReal_one, ENNReal.ofReal_sub _ hq]
  rw [h, Finset.prod_const, Finset.card_univ, Fintype.card_fin, ENNReal.ofReal_pow (by linarith)]

/-- **C84** (mean).  Let `S` be the result of `sparse_sign_operator` if the first mask is not empty, and zero if it is, an
event of probability `(1 - density)^(n_rows n_cols)`.  The mean of `S'S` is the identity if `n_rows ≤ n_cols`, and that
of `SS'` if `n_cols ≤ n_rows`. -/
theorem C84_sparse_sign_mean (r c : ℕ) (hr : 0 < r) (hc : 0 < c) (q : ℝ) (hq : 0 < q) (h1 : q ≤ 1) :
    ∃ S : (Fin (r * c) → ℝ) × (Fin (r * c) → ℝ) → Matrix (Fin r) (Fin c) ℝ,
      (∀ u v, (∀ t, ¬ u t < q) → S (u, v) = 0) ∧
      sparseDraws r c {ω | ∀ t, ¬ ω.1 t < q} = ENNReal.ofReal ((1 - q) ^ (r * c)) ∧
      (∀ u v, (∃ t, u t < q) → ∀ (G : Type) (R : NpRng G) (w : World G), NextSparse R w q (r * c) u v →
        ∃ w', sparseSignOperator R q r c w = .ok (S (u, v), w')) ∧
      (r ≤ c → ∀ a b, ∫ ω, ((S ω)ᵀ * S ω) a b ∂(sparseDraws r c) = if a = b then 1 else 0) ∧
      (c ≤ r → ∀ a b, ∫ ω, (S ω * (S ω)ᵀ) a b ∂(sparseDraws r c) = if a = b then 1 else 0) := by
  refine ⟨fun ω => sparseOf r c q (fun t => ω.1 t < q) ω.2, fun u v h => sparseOf_empty h v, ?_,
    fun u v h G R w hw => sparse_next hw h, fun hrc a b => ?_, fun hrc a b => ?_⟩
  · rw [← empty_mask (r * c) hq.le h1]
    have e : {ω : (Fin (r * c) → ℝ) × (Fin (r * c) → ℝ) | ∀ t, ¬ ω.1 t < q} =
        {u : Fin (r * c) → ℝ | ∀ t, ¬ u t < q} ×ˢ Set.univ := by ext ω; simp
    unfold sparseDraws
    rw [e, Measure.prod_prod, measure_univ, mul_one]
  · refine sp_mean hq h1 hr finProdFinEquiv (fun u v => sparseOf r c q (fun t => u t < q) v) (fun u => ?_)
      (measurable_sparseOf r c q) a b
    obtain ⟨π, hπ⟩ := sparseOf_signs r c q (fun t => u t < q)
    refine ⟨finProdFinEquiv.trans π, fun v => ?_⟩
    ext i j
    rw [hπ, min_eq_left hrc]
    rfl
  · have := sp_mean hq h1 hc ((Equiv.prodComm _ _).trans finProdFinEquiv)
      (fun u v => (sparseOf r c q (fun t => u t < q) v)ᵀ) (fun u => ?_) (fun i j => measurable_sparseOf r c q j i) a b
    · simp only [transpose_transpose] at this
      exact this
    · obtain ⟨π, hπ⟩ := sparseOf_signs r c q (fun t => u t < q)
      refine ⟨((Equiv.prodComm _ _).trans finProdFinEquiv).trans π, fun v => ?_⟩
      ext i j
      rw [transpose_apply, hπ, min_eq_right hrc]
      rfl

/-- **C84** (failure).  If the eleven masks are drawn from independent uniform numbers, `sparse_sign_operator` raises
`RuntimeError` with probability exactly `(1 - density)^(11 n_rows n_cols)`. -/
theorem C84_sparse_sign_failure (r c : ℕ) (q : ℝ) (hq : 0 ≤ q) (h1 : q ≤ 1) :
    ∃ E : Set (Fin 11 → Fin (r * c) → ℝ),
      Measure.pi (fun _ : Fin 11 => indep (Fin (r * c)) unif01) E = ENNReal.ofReal ((1 - q) ^ (11 * (r * c))) ∧
      ∀ (U : Fin 11 → Fin (r * c) → ℝ) (G : Type) (R : NpRng G) (w : World G),
        (∀ k : Fin 11, (R.random (r * c) (maskState R (r * c) w.rng k)).1 = U k) →
        (U ∈ E → sparseSignOperator R q r c w = .error .runtime) ∧
        (U ∉ E → ∃ S w', sparseSignOperator R q r c w = .ok (S, w')) := by
  refine ⟨Set.univ.pi fun _ => {u | ∀ t, ¬ u t < q}, ?_, fun U G R w hU => ?_⟩
  · rw [Measure.pi_pi]
    simp only [empty_mask (r * c) hq h1]
    rw [Finset.prod_const, Finset.card_univ, Fintype.card_fin, ← ENNReal.ofReal_pow (pow_nonneg (by linarith) _), ← pow_mul,
      mul_comm (r * c)]
  · obtain ⟨e1, e2⟩ := C46_sparse_sign_retry R q r c w
    have hin : ∀ (k : Fin 11) t, inMask R (r * c) q w.rng k t ↔ U k t < q := by
      intro k t
      unfold inMask
      rw [hU k]
    constructor
    · intro h
      refine e1.2 fun k hk t => ?_
      rw [hin ⟨k, by omega⟩]
      exact h ⟨k, by omega⟩ trivial t
    · intro h
      rw [Set.mem_univ_pi] at h
      push Not at h
      obtain ⟨k, hk⟩ := h
      have hk' : ∃ t, U k t < q := by
        by_contra hc
        push Not at hc
        exact hk fun t => hc t
      obtain ⟨t, ht⟩ := hk'
      exact e2 ⟨k.1, by omega, t, (hin k t).2 ht⟩

/-- The hypotheses are met, with probability of failure below `1/10`: the line through `e_0` in `ℝ^m`, density `1/2`,
`ε = 1/2`, `d = 150`; and there are runs, for example with the generator `demoRng`. -/
example : (1 ^ 2 + 1 / (1 / 2) : ℝ) / ((150 : ℕ) * (1 / 2) ^ 2) < 1 / 10 ∧
    NextSparse demoRng ⟨0, 0, []⟩ (1 / 2) (150 * 200) (fun _ => 1 / 4) (fun _ => 1 / 4) := by
  refine ⟨by norm_num, rfl, fun t => rfl⟩

end Parla.Props
