import Verif.Props.SJLT
import Verif.Proof.Expect

/-! # Properties C45, C55: expectations of `sjlt_operator` and `gaussian_operator`

The expectation is taken over independent draws with the documented distributions: uniform on
`[0, 1)` for `rng.random`, standard normal for `rng.standard_normal`. -/

namespace Parla.Props

open Matrix Parla Spec MeasureTheory

variable {G : Type}

/-- the uniform distribution on `[0, 1)` -/
noncomputable def unif01 : Measure ℝ := volume.restrict (Set.Ico 0 1)

instance : IsProbabilityMeasure unif01 :=
  ⟨by unfold unif01; rw [Measure.restrict_apply_univ, Real.volume_Ico]; norm_num⟩

theorem measurable_sjltSign : Measurable sjltSign := by
  unfold sjltSign
  exact Measurable.ite measurableSet_Iic measurable_const measurable_const

theorem integrable_sjltSign : Integrable sjltSign unif01 := by
  refine Integrable.of_bound measurable_sjltSign.aestronglyMeasurable 1 (Filter.Eventually.of_forall fun u => ?_)
  rcases sjltSign_cases u with h | h <;> rw [h] <;> norm_num

theorem integral_sjltSign : ∫ u, sjltSign u ∂unif01 = 0 := by
  have h1 : Set.Ico (0 : ℝ) 1 = Set.Icc 0 (1 / 2) ∪ Set.Ioo (1 / 2) 1 := by
    ext x
    simp only [Set.mem_Ico, Set.mem_union, Set.mem_Icc, Set.mem_Ioo]
    constructor
    · rintro ⟨a, b⟩
      rcases le_or_gt x (1 / 2) with h | h
      · exact Or.inl ⟨a, h⟩
      · exact Or.inr ⟨h, b⟩
    · rintro (⟨a, b⟩ | ⟨a, b⟩) <;> constructor <;> linarith
  have hd : Disjoint (Set.Icc (0 : ℝ) (1 / 2)) (Set.Ioo (1 / 2) 1) := by
    rw [Set.disjoint_left]
    rintro x ⟨-, a⟩ ⟨b, -⟩
    linarith
  have hI : ∀ {a b : ℝ} {s : Set ℝ}, s ⊆ Set.Icc a b → IntegrableOn sjltSign s := by
    intro a b s hs
    haveI : IsFiniteMeasure (volume.restrict s : Measure ℝ) :=
      ⟨by rw [Measure.restrict_apply_univ]
          exact (measure_mono hs).trans_lt (by rw [Real.volume_Icc]; exact ENNReal.ofReal_lt_top)⟩
    refine Integrable.of_bound measurable_sjltSign.aestronglyMeasurable 1
      (Filter.Eventually.of_forall fun u => ?_)
    rcases sjltSign_cases u with h | h <;> rw [h] <;> norm_num
  unfold unif01
  rw [h1, setIntegral_union hd measurableSet_Ioo (hI subset_rfl) (hI Set.Ioo_subset_Icc_self)]
  have e1 : ∫ u in Set.Icc (0 : ℝ) (1 / 2), sjltSign u = ∫ u in Set.Icc (0 : ℝ) (1 / 2), (-1 : ℝ) :=
    setIntegral_congr_fun measurableSet_Icc fun u hu => by
      unfold sjltSign; exact if_pos hu.2
  have e2 : ∫ u in Set.Ioo (1 / 2 : ℝ) 1, sjltSign u = ∫ u in Set.Ioo (1 / 2 : ℝ) 1, (1 : ℝ) :=
    setIntegral_congr_fun measurableSet_Ioo fun u hu => by
      unfold sjltSign; exact if_neg (not_le.2 hu.1)
  rw [e1, e2, setIntegral_const, setIntegral_const, Measure.real, Measure.real, Real.volume_Icc, Real.volume_Ioo]
  norm_num

theorem sjltSign_pair {ι : Type} [Fintype ι] [DecidableEq ι] (p q : ι) :
    Integrable (fun x : ι → ℝ => sjltSign (x p) * sjltSign (x q)) (Proof.indep ι unif01) ∧
    ∫ x, sjltSign (x p) * sjltSign (x q) ∂(Proof.indep ι unif01) = if p = q then 1 else 0 := by
  have h2 : (fun t => sjltSign t * sjltSign t) = fun _ => (1 : ℝ) := by
    funext t; rw [← sq, sjltSign_sq]
  refine Proof.indep_pair integrable_sjltSign ?_ integral_sjltSign ?_ p q
  · rw [h2]; exact integrable_const _
  · rw [h2]; simp

/-- entries of `S' S` -/
theorem sjltMat_gram {r c s : ℕ} (rv : Fin c → Fin s → Fin r) (u : Fin (c * s) → ℝ) (a b : Fin c) :
    ((sjltMat rv u)ᵀ * sjltMat rv u) a b = ∑ x : Fin s, ∑ y : Fin s,
      (if rv a x = rv b y then 1 / (s : ℝ) else 0) *
        (sjltSign (u (finProdFinEquiv (a, x))) * sjltSign (u (finProdFinEquiv (b, y)))) := by
  rw [mul_apply]
  simp only [transpose_apply, sjltMat_apply, Finset.sum_mul_sum]
  rw [Finset.sum_comm]
  refine Finset.sum_congr rfl fun x _ => ?_
  rw [Finset.sum_comm]
  refine Finset.sum_congr rfl fun y _ => ?_
  rw [Finset.sum_eq_single (rv a x)]
  · rw [if_pos rfl]
    by_cases h : rv a x = rv b y
    · rw [if_pos h.symm, if_pos h, div_mul_div_comm, Real.mul_self_sqrt (Nat.cast_nonneg _)]
      ring
    · rw [if_neg (fun h' => h h'.symm), if_neg h, mul_zero, zero_mul]
  · intro i _ hi
    rw [if_neg (fun h => hi h.symm), zero_mul]
  · intro h; exact absurd (Finset.mem_univ _) h

/-- **C45** (isometry in expectation).  For `n_cols ≥ n_rows`, whatever rows were chosen (also with
repetitions), the expectation of `S' S` over the signs is the identity. -/
theorem C45_sjlt_expectation {r c s : ℕ} (hs : 0 < s) (rv : Fin c → Fin s → Fin r) (a b : Fin c) :
    Integrable (fun u => ((sjltMat rv u)ᵀ * sjltMat rv u) a b) (Proof.indep _ unif01) ∧
    ∫ u, ((sjltMat rv u)ᵀ * sjltMat rv u) a b ∂(Proof.indep _ unif01) =
      (1 : Matrix (Fin c) (Fin c) ℝ) a b := by
  simp only [sjltMat_gram]
  have hi : ∀ x y : Fin s, Integrable (fun u : Fin (c * s) → ℝ =>
      (if rv a x = rv b y then 1 / (s : ℝ) else 0) *
        (sjltSign (u (finProdFinEquiv (a, x))) * sjltSign (u (finProdFinEquiv (b, y)))))
        (Proof.indep _ unif01) := fun x y => (sjltSign_pair _ _).1.const_mul _
  refine ⟨integrable_finsetSum _ fun x _ => integrable_finsetSum _ fun y _ => hi x y, ?_⟩
  rw [integral_finsetSum _ fun x _ => integrable_finsetSum _ fun y _ => hi x y]
  have h1 : ∀ x, ∫ u, ∑ y : Fin s, (if rv a x = rv b y then 1 / (s : ℝ) else 0) *
        (sjltSign (u (finProdFinEquiv (a, x))) * sjltSign (u (finProdFinEquiv (b, y))))
        ∂(Proof.indep (Fin (c * s)) unif01) = if a = b then 1 / (s : ℝ) else 0 := by
    intro x
    rw [integral_finsetSum _ fun y _ => hi x y]
    simp only [integral_const_mul, (sjltSign_pair _ _).2, finProdFinEquiv.injective.eq_iff, Prod.mk.injEq]
    by_cases hab : a = b
    · subst hab
      rw [Finset.sum_eq_single x]
      · simp
      · intro y _ hy
        rw [if_neg (fun h => hy h.2.symm : ¬ (a = a ∧ x = y)), mul_zero]
      · intro h; exact absurd (Finset.mem_univ _) h
    · rw [if_neg hab]
      exact Finset.sum_eq_zero fun y _ => by
        rw [if_neg (fun h => hab h.1 : ¬ (a = b ∧ x = y)), mul_zero]
  simp only [h1, Finset.sum_const, Finset.card_univ, Fintype.card_fin, nsmul_eq_mul]
  rw [one_apply]
  have : (s : ℝ) ≠ 0 := by exact_mod_cast hs.ne'
  split
  · field_simp
  · rw [mul_zero]

/-- **C45** (link to the operator).  What `sjlt_operator` returns for `n_cols ≥ n_rows` is the matrix
of `C45_sjlt_expectation` for some rows and the uniforms the generator drew last; for
`n_rows > n_cols` it is the transpose of such a matrix, so there the expectation of `S S'` is the
identity. -/
theorem C45_sjlt_drawn (R : NpRng G) (s r c : ℕ) (w w' : World G) (S : Matrix (Fin r) (Fin c) ℝ)
    (h : sjltOperator R s r c w = .ok (S, w')) :
    (r ≤ c → ∃ (rv : Fin c → Fin (min c s) → Fin r) (g : G),
      S = sjltMat rv (R.random (c * min c s) g).1) ∧
    (c < r → ∃ (rv : Fin r → Fin (min r s) → Fin c) (g : G),
      S = (sjltMat rv (R.random (r * min r s) g).1)ᵀ) := by
  unfold sjltOperator at h
  by_cases hc : r ≤ c
  · rw [if_pos hc] at h
    obtain ⟨rv, g, h1, -⟩ := sjltWide_ok h
    exact ⟨fun _ => ⟨rv, g, h1⟩, fun h => absurd h (by omega)⟩
  · rw [if_neg hc, Py.bind_ok_iff] at h
    obtain ⟨T, w₁, h, h'⟩ := h
    cases h'
    obtain ⟨rv, g, h1, -⟩ := sjltWide_ok h
    exact ⟨fun h => absurd h hc, fun _ => ⟨rv, g, by rw [h1]⟩⟩

/-- The expectation is that of a matrix that is not constant: for one row, two columns and one
nonzero per column, `S' S` takes a value different from the identity. -/
example : ((sjltMat (fun (_ : Fin 2) (_ : Fin 1) => (0 : Fin 1)) (fun _ => 1))ᵀ *
    sjltMat (fun (_ : Fin 2) (_ : Fin 1) => (0 : Fin 1)) (fun _ => 1)) ≠ 1 := by
  intro h
  have := congrFun (congrFun h 0) 1
  rw [sjltMat_gram] at this
  simp [sjltSign] at this
  norm_num at this

/-! ### Gaussian operators -/

/-- the standard normal distribution -/
noncomputable def stdNormal : Measure ℝ := ProbabilityTheory.gaussianReal 0 1

instance : IsProbabilityMeasure stdNormal := by unfold stdNormal; infer_instance

theorem stdNormal_moments : Integrable (fun t : ℝ => t) stdNormal ∧
    Integrable (fun t : ℝ => t * t) stdNormal ∧ ∫ t, t ∂stdNormal = 0 ∧ ∫ t, t * t ∂stdNormal = 1 := by
  unfold stdNormal
  have h2 : MemLp (fun t : ℝ => t) 2 (ProbabilityTheory.gaussianReal 0 1) :=
    ProbabilityTheory.memLp_id_gaussianReal 2
  have h1 : Integrable (fun t : ℝ => t) (ProbabilityTheory.gaussianReal 0 1) :=
    h2.integrable (by norm_num)
  have h3 : ∫ t, t ∂(ProbabilityTheory.gaussianReal 0 1) = 0 := ProbabilityTheory.integral_id_gaussianReal
  refine ⟨h1, ?_, h3, ?_⟩
  · have := h2.integrable_sq
    simpa [sq] using this
  · have hv := ProbabilityTheory.variance_fun_id_gaussianReal (μ := 0) (v := 1)
    rw [ProbabilityTheory.variance_of_integral_eq_zero h1.aemeasurable h3] at hv
    simpa [sq] using hv

/-- `gaussian_operator(..., normalize=True)` as a function of the standard normal draw -/
theorem gaussian_ok {R : NpRng G} {r c : ℕ} {w w' : World G} {S : Matrix (Fin r) (Fin c) ℝ}
    (h : gaussianOperator R true r c w = .ok (S, w')) :
    min r c ≠ 0 ∧ S = Real.sqrt (1 / (min r c : ℕ)) • (R.standardNormal r c w.rng).1 ∧
      w' = { w with rng := (R.standardNormal r c w.rng).2 } := by
  unfold gaussianOperator at h
  rw [if_pos rfl] at h
  by_cases hm : min r c = 0
  · rw [if_pos hm] at h; cases h
  · rw [if_neg hm] at h
    cases h
    exact ⟨hm, rfl, rfl⟩

/-- **C55** (Gaussian operators).  With `normalize=True` and a nonempty shape the call returns
`scale` times a standard normal array with `scale = sqrt(1/min(n_rows, n_cols))`; without
normalisation the array itself; for an empty shape the normalised call raises
`ZeroDivisionError`. -/
theorem C55_gaussian_result (R : NpRng G) (r c : ℕ) (w : World G) :
    (min r c ≠ 0 → gaussianOperator R true r c w =
      .ok (Real.sqrt (1 / (min r c : ℕ)) • (R.standardNormal r c w.rng).1,
        { w with rng := (R.standardNormal r c w.rng).2 })) ∧
    (min r c = 0 → gaussianOperator R true r c w = .error .zeroDivision) ∧
    gaussianOperator R false r c w =
      .ok ((R.standardNormal r c w.rng).1, { w with rng := (R.standardNormal r c w.rng).2 }) := by
  unfold gaussianOperator
  refine ⟨fun h => ?_, fun h => ?_, ?_⟩
  · rw [if_pos rfl, if_neg h]; rfl
  · rw [if_pos rfl, if_pos h]; rfl
  · rw [if_neg (by simp)]; rfl

/-- **C55** (isometry in expectation).  For `Z` with independent standard normal entries and
`S = sqrt(1/min(n_rows, n_cols)) Z`, the expectation of `S' S` is the identity for
`0 < n_rows ≤ n_cols` and the expectation of `S S'` is the identity for `0 < n_cols ≤ n_rows`. -/
theorem C55_gaussian_expectation (r c : ℕ) (S : (Fin r × Fin c → ℝ) → Matrix (Fin r) (Fin c) ℝ)
    (hS : ∀ Z, S Z = Real.sqrt (1 / (min r c : ℕ)) • Matrix.of fun i j => Z (i, j)) :
    (0 < r → r ≤ c → ∀ a b, ∫ Z, ((S Z)ᵀ * S Z) a b ∂(Proof.indep (Fin r × Fin c) stdNormal) =
      (1 : Matrix (Fin c) (Fin c) ℝ) a b) ∧
    (0 < c → c ≤ r → ∀ a b, ∫ Z, (S Z * (S Z)ᵀ) a b ∂(Proof.indep (Fin r × Fin c) stdNormal) =
      (1 : Matrix (Fin r) (Fin r) ℝ) a b) := by
  have hS' : ∀ Z i j, S Z i j = Real.sqrt (1 / (min r c : ℕ)) * Z (i, j) := fun Z i j => by
    rw [hS]; rfl
  simp only [mul_apply, transpose_apply, hS']
  obtain ⟨g1, g2, g3, g4⟩ := stdNormal_moments
  have hp := fun p q : Fin r × Fin c => Proof.indep_pair g1 g2 g3 g4 p q
  have e : ∀ (k : ℕ) (x y : ℝ), (Real.sqrt (1 / (k : ℝ)) * x) * (Real.sqrt (1 / (k : ℝ)) * y) =
      1 / (k : ℝ) * (x * y) := by
    intro k x y
    rw [mul_mul_mul_comm, Real.mul_self_sqrt (by positivity)]
  constructor
  · intro hr hrc a b
    rw [Nat.min_eq_left hrc]
    simp only [e]
    rw [integral_finsetSum _ fun i _ => (hp _ _).1.const_mul _]
    simp only [integral_const_mul, (hp _ _).2, Prod.mk.injEq, true_and]
    rw [Finset.sum_const, Finset.card_univ, Fintype.card_fin, nsmul_eq_mul, one_apply]
    have : (r : ℝ) ≠ 0 := by exact_mod_cast hr.ne'
    split <;> field_simp
  · intro hc hrc a b
    rw [Nat.min_eq_right hrc]
    simp only [e]
    rw [integral_finsetSum _ fun i _ => (hp _ _).1.const_mul _]
    simp only [integral_const_mul, (hp _ _).2, Prod.mk.injEq, and_true]
    rw [Finset.sum_const, Finset.card_univ, Fintype.card_fin, nsmul_eq_mul, one_apply]
    have : (c : ℝ) ≠ 0 := by exact_mod_cast hc.ne'
    split <;> field_simp

end Parla.Props
