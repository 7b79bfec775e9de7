import Verif.Proof.Chaos
import Mathlib.Probability.UniformOn
import Verif.Props.Embedding
import Verif.Props.SRCT

/-! # Property C70: SJLTs embed subspaces with high probability, and what follows for the drivers -/

namespace Parla.Props

open MeasureTheory ProbabilityTheory Matrix Parla Spec

variable {m n d s : ℕ}

theorem sjltSign_isSign : Proof.IsSign sjltSign unif01 :=
  ⟨measurable_sjltSign, fun t => by rw [← sq, sjltSign_sq], integral_sjltSign⟩

/-! ### One choice of the rows -/

open Classical in
/-- coefficients of `x' (S'S - I) y` as a quadratic form in the signs -/
noncomputable def sjltCoef (rv : Fin m → Fin s → Fin d) (x y : Fin m → ℝ) (p q : Fin (m * s)) : ℝ :=
  if (finProdFinEquiv.symm p).1 ≠ (finProdFinEquiv.symm q).1 ∧
      rv (finProdFinEquiv.symm p).1 (finProdFinEquiv.symm p).2 = rv (finProdFinEquiv.symm q).1 (finProdFinEquiv.symm q).2
    then 1 / (s : ℝ) * (x (finProdFinEquiv.symm p).1 * y (finProdFinEquiv.symm q).1) else 0

theorem sum_flat {M : Type} [AddCommMonoid M] (F : Fin (m * s) → M) :
    ∑ p, F p = ∑ a : Fin m, ∑ i : Fin s, F (finProdFinEquiv (a, i)) := by
  rw [← Equiv.sum_comp finProdFinEquiv, Fintype.sum_prod_type]

theorem sjlt_diag (hs : 0 < s) {rv : Fin m → Fin s → Fin d} (hrv : ∀ j, Function.Injective (rv j)) (u : Fin (m * s) → ℝ)
    (a : Fin m) : ((sjltMat rv u)ᵀ * sjltMat rv u) a a = 1 := by
  have := (sjltMat_sparse u hrv).unit hs a
  rw [mul_apply]
  unfold sqNorm at this
  simpa [sq] using this

theorem sjlt_form (hs : 0 < s) {rv : Fin m → Fin s → Fin d} (hrv : ∀ j, Function.Injective (rv j)) (u : Fin (m * s) → ℝ)
    (x y : Fin m → ℝ) :
    (sjltMat rv u *ᵥ x) ⬝ᵥ (sjltMat rv u *ᵥ y) - x ⬝ᵥ y = Proof.chaos sjltSign (sjltCoef rv x y) u := by
  classical
  have h1 : (sjltMat rv u *ᵥ x) ⬝ᵥ (sjltMat rv u *ᵥ y) = ∑ a, ∑ b, x a * y b * ((sjltMat rv u)ᵀ * sjltMat rv u) a b := by
    rw [dotProduct_comm, dot_mulVec, mulVec_mulVec, dotProduct_comm]
    simp only [dotProduct, mulVec, Finset.mul_sum]
    exact Finset.sum_congr rfl fun a _ => Finset.sum_congr rfl fun b _ => by ring
  have h2 : x ⬝ᵥ y = ∑ a, ∑ b, x a * y b * (if a = b then 1 else 0) := by
    simp [dotProduct]
  rw [h1, h2, ← Finset.sum_sub_distrib]
  unfold Proof.chaos
  rw [sum_flat]
  refine Finset.sum_congr rfl fun a _ => ?_
  rw [← Finset.sum_sub_distrib]
  simp only [sum_flat (m := m) (s := s)]
  rw [Finset.sum_comm (s := (Finset.univ : Finset (Fin s)))]
  refine Finset.sum_congr rfl fun b _ => ?_
  unfold sjltCoef
  simp only [Equiv.symm_apply_apply]
  by_cases hab : a = b
  · subst hab
    rw [sjlt_diag hs hrv]
    simp
  · rw [if_neg hab, mul_zero, sub_zero, sjltMat_gram, Finset.mul_sum]
    refine Finset.sum_congr rfl fun i _ => ?_
    rw [Finset.mul_sum]
    refine Finset.sum_congr rfl fun j _ => ?_
    by_cases hij : rv a i = rv b j
    · rw [if_pos hij, if_pos ⟨hab, hij⟩]; ring
    · rw [if_neg hij, if_neg (fun h => hij h.2)]; ring

open Classical in
/-- the second moment over the signs -/
theorem sjlt_second (hs : 0 < s) {rv : Fin m → Fin s → Fin d} (hrv : ∀ j, Function.Injective (rv j)) (x y : Fin m → ℝ) :
    Integrable (fun u => ((sjltMat rv u *ᵥ x) ⬝ᵥ (sjltMat rv u *ᵥ y) - x ⬝ᵥ y) ^ 2) (Proof.indep _ unif01) ∧
    ∫ u, ((sjltMat rv u *ᵥ x) ⬝ᵥ (sjltMat rv u *ᵥ y) - x ⬝ᵥ y) ^ 2 ∂(Proof.indep (Fin (m * s)) unif01) =
      ∑ a, ∑ b, (if a = b then 0 else 1 / (s : ℝ) ^ 2 * (x a ^ 2 * y b ^ 2 + x a * y a * (x b * y b))) *
        ∑ i : Fin s, ∑ j : Fin s, if rv a i = rv b j then 1 else 0 := by
  simp only [sjlt_form hs hrv]
  obtain ⟨h1, h2⟩ := sjltSign_isSign.chaos_sq (sjltCoef rv x y) (fun p => by unfold sjltCoef; simp)
  refine ⟨h1, h2.trans ?_⟩
  rw [sum_flat]
  refine Finset.sum_congr rfl fun a _ => ?_
  simp only [sum_flat (m := m) (s := s)]
  rw [Finset.sum_comm (s := (Finset.univ : Finset (Fin s)))]
  refine Finset.sum_congr rfl fun b _ => ?_
  rw [Finset.mul_sum]
  refine Finset.sum_congr rfl fun i _ => ?_
  rw [Finset.mul_sum]
  refine Finset.sum_congr rfl fun j _ => ?_
  unfold sjltCoef
  simp only [Equiv.symm_apply_apply]
  by_cases hab : a = b
  · subst hab; simp
  · by_cases hij : rv a i = rv b j
    · rw [if_pos ⟨hab, hij⟩, if_pos ⟨fun h => hab h.symm, hij.symm⟩, if_neg hab, if_pos hij]; ring
    · rw [if_neg (fun h => hij h.2), if_neg hab, if_neg hij]; ring

/-! ### The average over the rows -/

/-- change the rows of column `a` by a permutation -/
def permRows (a : Fin m) (σ : Equiv.Perm (Fin d)) : (Fin m → (Fin s ↪ Fin d)) ≃ (Fin m → (Fin s ↪ Fin d)) where
  toFun rv := Function.update rv a ((rv a).trans σ.toEmbedding)
  invFun rv := Function.update rv a ((rv a).trans σ.symm.toEmbedding)
  left_inv rv := by
    ext b i
    by_cases h : b = a
    · subst h; simp
    · simp [h]
  right_inv rv := by
    ext b i
    by_cases h : b = a
    · subst h; simp
    · simp [h]

/-- two positions of different columns agree with probability `1/d` -/
theorem collide (a b : Fin m) (hab : a ≠ b) (i j : Fin s) :
    (d : ℝ) * ∑ rv : Fin m → (Fin s ↪ Fin d), (if rv a i = rv b j then 1 else 0 : ℝ) =
      Fintype.card (Fin m → (Fin s ↪ Fin d)) := by
  rcases Nat.eq_zero_or_pos d with rfl | hd
  · haveI : IsEmpty (Fin m → (Fin s ↪ Fin 0)) := ⟨fun rv => (rv a i).elim0⟩
    simp
  haveI : NeZero d := ⟨hd.ne'⟩
  have h1 : ∀ k : Fin d, ∑ rv : Fin m → (Fin s ↪ Fin d), (if rv a i = rv b j then 1 else 0 : ℝ) =
      ∑ rv : Fin m → (Fin s ↪ Fin d), (if k + rv a i = rv b j then 1 else 0 : ℝ) := fun k => by
    rw [← Equiv.sum_comp (permRows a (Equiv.addLeft k))]
    refine Finset.sum_congr rfl fun rv _ => ?_
    simp [permRows, Function.update_of_ne hab.symm]
  have h2 : (d : ℝ) * ∑ rv : Fin m → (Fin s ↪ Fin d), (if rv a i = rv b j then 1 else 0 : ℝ) =
      ∑ k : Fin d, ∑ rv : Fin m → (Fin s ↪ Fin d), (if k + rv a i = rv b j then 1 else 0 : ℝ) := by
    rw [← Finset.sum_congr rfl fun k _ => h1 k, Finset.sum_const, Finset.card_univ, Fintype.card_fin, nsmul_eq_mul]
  rw [h2, Finset.sum_comm]
  simp only [← eq_sub_iff_add_eq, Finset.sum_ite_eq', Finset.mem_univ, if_true, Finset.sum_const, Finset.card_univ,
    nsmul_eq_mul, mul_one]

/-- the second moment, averaged over the rows -/
theorem sjlt_second_mean (hs : 0 < s) (hsd : s ≤ d) (x y : Fin m → ℝ) :
    (1 / (Fintype.card (Fin m → (Fin s ↪ Fin d)) : ℝ)) * ∑ rv : Fin m → (Fin s ↪ Fin d),
      ∫ u, ((sjltMat (fun j => rv j) u *ᵥ x) ⬝ᵥ (sjltMat (fun j => rv j) u *ᵥ y) - x ⬝ᵥ y) ^ 2
        ∂(Proof.indep (Fin (m * s)) unif01) ≤ (sqNorm x * sqNorm y + (x ⬝ᵥ y) ^ 2) / d := by
  classical
  have hd : (0 : ℝ) < d := by exact_mod_cast (show 0 < d by omega)
  have hs' : (0 : ℝ) < s := by exact_mod_cast hs
  obtain ⟨N, hN⟩ : ∃ N : ℝ, N = Fintype.card (Fin m → (Fin s ↪ Fin d)) := ⟨_, rfl⟩
  have hN0 : 0 < N := by
    rw [hN]
    exact_mod_cast Fintype.card_pos_iff.2 ⟨fun _ => Fin.castLEEmb hsd⟩
  simp only [fun rv : Fin m → (Fin s ↪ Fin d) => (sjlt_second hs (rv := fun j => rv j) (fun j => (rv j).injective) x y).2]
  have h1 : ∀ a b, a ≠ b → ∑ i : Fin s, ∑ j : Fin s, ∑ rv : Fin m → (Fin s ↪ Fin d),
      (if rv a i = rv b j then 1 else 0 : ℝ) = s ^ 2 * (N / d) := fun a b hab => by
    have : ∀ i j : Fin s, ∑ rv : Fin m → (Fin s ↪ Fin d), (if rv a i = rv b j then 1 else 0 : ℝ) = N / d := fun i j => by
      rw [eq_div_iff hd.ne', hN, ← collide a b hab i j, mul_comm]
    simp only [this, Finset.sum_const, Finset.card_univ, Fintype.card_fin, nsmul_eq_mul]
    ring
  rw [Finset.sum_comm]
  simp only [Finset.sum_comm (s := (Finset.univ : Finset (Fin m → (Fin s ↪ Fin d)))), ← Finset.mul_sum]
  rw [← hN]
  have h2 : ∀ a b : Fin m, (if a = b then 0 else 1 / (s : ℝ) ^ 2 * (x a ^ 2 * y b ^ 2 + x a * y a * (x b * y b))) *
      (∑ i : Fin s, ∑ j : Fin s, ∑ rv : Fin m → (Fin s ↪ Fin d), (if rv a i = rv b j then 1 else 0 : ℝ)) ≤
      N / d * (x a ^ 2 * y b ^ 2 + x a * y a * (x b * y b)) := fun a b => by
    by_cases hab : a = b
    · subst hab
      rw [if_pos rfl, zero_mul]
      have : x a ^ 2 * y a ^ 2 + x a * y a * (x a * y a) = 2 * (x a * y a) ^ 2 := by ring
      rw [this]
      positivity
    · rw [if_neg hab, h1 a b hab]
      apply le_of_eq
      field_simp
  refine (mul_le_mul_of_nonneg_left (Finset.sum_le_sum fun a _ => Finset.sum_le_sum fun b _ => h2 a b)
    (by positivity : (0 : ℝ) ≤ 1 / N)).trans (le_of_eq ?_)
  have e1 : ∑ a, ∑ b, x a ^ 2 * y b ^ 2 = sqNorm x * sqNorm y := by
    unfold sqNorm; rw [Finset.sum_mul_sum]
  have e2 : ∑ a, ∑ b, x a * y a * (x b * y b) = (x ⬝ᵥ y) ^ 2 := by
    rw [sq, dotProduct, Finset.sum_mul_sum]
  simp only [← Finset.mul_sum, Finset.sum_add_distrib]
  field_simp
  rw [← e1, ← e2]
  simp only [Finset.mul_sum]

/-! ### Subspaces -/

/-- an orthonormal basis of a subspace, as the columns of a matrix -/
theorem exists_ortho_basis (U : Submodule ℝ (Fin m → ℝ)) :
    ∃ B : Matrix (Fin m) (Fin (Module.finrank ℝ U)) ℝ, Bᵀ * B = 1 ∧ ∀ x ∈ U, ∃ z, x = B *ᵥ z := by
  let e := (WithLp.linearEquiv 2 ℝ (Fin m → ℝ)).symm
  let V : Submodule ℝ (EuclideanSpace ℝ (Fin m)) := U.map e.toLinearMap
  have hfin : Module.finrank ℝ V = Module.finrank ℝ U := LinearEquiv.finrank_map_eq e U
  let b := (stdOrthonormalBasis ℝ V).reindex (finCongr hfin)
  refine ⟨Matrix.of fun i j => (b j : EuclideanSpace ℝ (Fin m)).ofLp i, ?_, fun x hx => ?_⟩
  · ext i j
    have h := orthonormal_iff_ite.1 b.orthonormal j i
    rw [mul_apply, one_apply]
    simp only [transpose_apply, of_apply]
    have h' : (if i = j then 1 else 0 : ℝ) = if j = i then 1 else 0 := by simp only [eq_comm]
    rw [h', ← h, Submodule.coe_inner, PiLp.inner_apply]
    exact Finset.sum_congr rfl fun k _ => rfl
  · refine ⟨fun j => b.repr ⟨WithLp.toLp 2 x, x, hx, rfl⟩ j, ?_⟩
    have h := b.sum_repr ⟨WithLp.toLp 2 x, x, hx, rfl⟩
    have h1 := congrArg (fun v : V => (v : EuclideanSpace ℝ (Fin m)).ofLp) h
    simp only at h1
    refine h1.symm.trans ?_
    ext i
    simp [mulVec, dotProduct, mul_comm]

/-- total squared deviation on a basis -/
noncomputable def sjltDev {r : ℕ} (S : Matrix (Fin d) (Fin m) ℝ) (B : Matrix (Fin m) (Fin r) ℝ) : ℝ :=
  ∑ p, ∑ q, ((S *ᵥ (fun i => B i p)) ⬝ᵥ (S *ᵥ (fun i => B i q)) - (fun i => B i p) ⬝ᵥ (fun i => B i q)) ^ 2

theorem embed_of_dev {r : ℕ} {S : Matrix (Fin d) (Fin m) ℝ} {B : Matrix (Fin m) (Fin r) ℝ} (hB : Bᵀ * B = 1) {ε : ℝ}
    (hε : 0 ≤ ε) (h : sjltDev S B ≤ ε ^ 2) (z : Fin r → ℝ) :
    |sqNorm (S *ᵥ (B *ᵥ z)) - sqNorm (B *ᵥ z)| ≤ ε * sqNorm (B *ᵥ z) := by
  have h1 : sqNorm (S *ᵥ (B *ᵥ z)) - sqNorm (B *ᵥ z) = ∑ p, ∑ q, z p * z q *
      ((S *ᵥ (fun i => B i p)) ⬝ᵥ (S *ᵥ (fun i => B i q)) - (fun i => B i p) ⬝ᵥ (fun i => B i q)) := by
    have e : ∀ {k : ℕ} (M : Matrix (Fin k) (Fin r) ℝ), sqNorm (M *ᵥ z) =
        ∑ p, ∑ q, z p * z q * ((fun i => M i p) ⬝ᵥ (fun i => M i q)) := fun M => by
      rw [sqNorm_eq_dot, dot_mulVec, mulVec_mulVec, dotProduct_comm]
      simp only [dotProduct, mulVec, Finset.mul_sum]
      refine Finset.sum_congr rfl fun p _ => Finset.sum_congr rfl fun q _ => ?_
      rw [mul_apply, Finset.sum_mul, Finset.mul_sum]
      exact Finset.sum_congr rfl fun i _ => by rw [transpose_apply]; ring
    rw [mulVec_mulVec, e, e, ← Finset.sum_sub_distrib]
    refine Finset.sum_congr rfl fun p _ => ?_
    rw [← Finset.sum_sub_distrib]
    refine Finset.sum_congr rfl fun q _ => ?_
    rw [mul_sub]
    rfl
  have h2 : sqNorm (B *ᵥ z) = sqNorm z := sqNorm_orth_mulVec hB z
  have h3 : (sqNorm (S *ᵥ (B *ᵥ z)) - sqNorm (B *ᵥ z)) ^ 2 ≤ (ε * sqNorm z) ^ 2 := by
    rw [h1]
    have c := Finset.sum_mul_sq_le_sq_mul_sq (Finset.univ : Finset (Fin r × Fin r)) (fun t => z t.1 * z t.2)
      (fun t => (S *ᵥ (fun i => B i t.1)) ⬝ᵥ (S *ᵥ (fun i => B i t.2)) - (fun i => B i t.1) ⬝ᵥ (fun i => B i t.2))
    simp only [Fintype.sum_prod_type] at c
    refine c.trans ?_
    have e1 : ∑ p, ∑ q, (z p * z q) ^ 2 = sqNorm z ^ 2 := by
      unfold sqNorm
      rw [sq, Finset.sum_mul_sum]
      simp only [mul_pow]
    rw [e1]
    change sqNorm z ^ 2 * sjltDev S B ≤ _
    rw [mul_pow, mul_comm]
    exact mul_le_mul_of_nonneg_right h (sq_nonneg _)
  rw [h2] at h3 ⊢
  exact abs_le_of_sq_le_sq h3 (mul_nonneg hε (sqNorm_nonneg z))

/-! ### The probability -/

instance : MeasurableSpace (Fin s ↪ Fin d) := ⊤
instance : DiscreteMeasurableSpace (Fin s ↪ Fin d) := ⟨fun _ => trivial⟩

/-- The draws of `sjlt_operator` for `d × m` and `s` nonzeros per column: for every column a uniformly random list of
`s` distinct rows, and for every nonzero a uniform number in `[0, 1)`, all independent. -/
noncomputable def sjltDraws (d m s : ℕ) : Measure ((Fin m → (Fin s ↪ Fin d)) × (Fin (m * s) → ℝ)) :=
  (uniformOn Set.univ).prod (Proof.indep (Fin (m * s)) unif01)

theorem uniform_mean {X : Type} [Fintype X] [MeasurableSpace X] [DiscreteMeasurableSpace X] (f : X → ENNReal) :
    ∫⁻ x, f x ∂(uniformOn (Set.univ : Set X)) = (Fintype.card X : ENNReal)⁻¹ * ∑ x, f x := by
  unfold uniformOn ProbabilityTheory.cond
  rw [lintegral_smul_measure, Measure.restrict_univ, lintegral_count, tsum_fintype, Measure.count_univ]
  simp

theorem sjltDev_second {r : ℕ} (hs : 0 < s) {rv : Fin m → Fin s → Fin d} (hrv : ∀ j, Function.Injective (rv j))
    (B : Matrix (Fin m) (Fin r) ℝ) :
    Integrable (fun u => sjltDev (sjltMat rv u) B) (Proof.indep _ unif01) ∧
    ∫ u, sjltDev (sjltMat rv u) B ∂(Proof.indep (Fin (m * s)) unif01) = ∑ p, ∑ q,
      ∫ u, ((sjltMat rv u *ᵥ (fun i => B i p)) ⬝ᵥ (sjltMat rv u *ᵥ (fun i => B i q)) -
        (fun i => B i p) ⬝ᵥ (fun i => B i q)) ^ 2 ∂(Proof.indep (Fin (m * s)) unif01) := by
  unfold sjltDev
  have h2 := fun p q => (sjlt_second hs hrv (fun i => B i p) (fun i => B i q)).1
  have h1 := fun p => integrable_finsetSum (μ := Proof.indep (Fin (m * s)) unif01) Finset.univ fun q _ => h2 p q
  refine ⟨integrable_finsetSum _ fun p _ => h1 p, ?_⟩
  rw [integral_finsetSum _ fun p _ => h1 p]
  exact Finset.sum_congr rfl fun p _ => integral_finsetSum _ fun q _ => h2 p q

theorem measurable_sjltDev {r : ℕ} (rv : Fin m → Fin s → Fin d) (B : Matrix (Fin m) (Fin r) ℝ) :
    Measurable fun u => sjltDev (sjltMat rv u) B := by
  have h : ∀ i j, Measurable fun u : Fin (m * s) → ℝ => sjltMat rv u i j := fun i j => by
    simp only [sjltMat_apply]
    refine Finset.measurable_sum _ fun k _ => ?_
    by_cases hk : rv j k = i
    · simp only [hk, if_true]
      exact (measurable_sjltSign.comp (measurable_pi_apply _)).div_const _
    · simp only [hk, if_false]; exact measurable_const
  unfold sjltDev
  simp only [dotProduct, mulVec]
  refine Finset.measurable_sum _ fun p _ => Finset.measurable_sum _ fun q _ => ?_
  refine Measurable.pow_const (Measurable.sub_const (Finset.measurable_sum _ fun k _ => ?_) _) 2
  exact (Finset.measurable_sum _ fun i _ => (h k i).mul_const _).mul
    (Finset.measurable_sum _ fun i _ => (h k i).mul_const _)

/-- the failure probability -/
theorem sjlt_bad {r : ℕ} (hs : 0 < s) (hsd : s ≤ d) {B : Matrix (Fin m) (Fin r) ℝ} (hB : Bᵀ * B = 1) {ε : ℝ}
    (hε : 0 < ε) :
    sjltDraws d m s {ω | ε ^ 2 < sjltDev (sjltMat (fun j => ω.1 j) ω.2) B} ≤
      ENNReal.ofReal ((r ^ 2 + r) / (d * ε ^ 2)) := by
  have hd : (0 : ℝ) < d := by exact_mod_cast (show 0 < d by omega)
  obtain ⟨N, hN⟩ : ∃ N : ℕ, N = Fintype.card (Fin m → (Fin s ↪ Fin d)) := ⟨_, rfl⟩
  have hN0 : 0 < N := by
    rw [hN]
    exact Fintype.card_pos_iff.2 ⟨fun _ => Fin.castLEEmb hsd⟩
  have hm : Measurable fun ω : (Fin m → (Fin s ↪ Fin d)) × (Fin (m * s) → ℝ) =>
      sjltDev (sjltMat (fun j => ω.1 j) ω.2) B :=
    measurable_from_prod_countable_right fun rv => measurable_sjltDev (fun j => rv j) B
  have hE : MeasurableSet {ω : (Fin m → (Fin s ↪ Fin d)) × (Fin (m * s) → ℝ) |
      ε ^ 2 < sjltDev (sjltMat (fun j => ω.1 j) ω.2) B} := measurableSet_lt measurable_const hm
  unfold sjltDraws
  rw [Measure.prod_apply hE, uniform_mean, ← hN]
  obtain ⟨I, hI⟩ : ∃ I : (Fin m → (Fin s ↪ Fin d)) → ℝ, I = fun rv =>
    ∫ u, sjltDev (sjltMat (fun j => rv j) u) B ∂(Proof.indep (Fin (m * s)) unif01) := ⟨_, rfl⟩
  have hI0 : ∀ rv, 0 ≤ I rv := fun rv => by
    rw [hI]
    exact integral_nonneg fun u => Finset.sum_nonneg fun p _ => Finset.sum_nonneg fun q _ => sq_nonneg _
  have h1 : ∀ rv : Fin m → (Fin s ↪ Fin d), Proof.indep (Fin (m * s)) unif01 (Prod.mk rv ⁻¹'
      {ω : (Fin m → (Fin s ↪ Fin d)) × (Fin (m * s) → ℝ) | ε ^ 2 < sjltDev (sjltMat (fun j => ω.1 j) ω.2) B}) ≤
      ENNReal.ofReal (I rv / ε ^ 2) := fun rv => by
    refine (ENNReal.le_ofReal_iff_toReal_le (measure_ne_top _ _) (div_nonneg (hI0 rv) (sq_nonneg _))).2 ?_
    rw [le_div_iff₀ (by positivity), mul_comm]
    have := mul_meas_ge_le_integral_of_nonneg (μ := Proof.indep (Fin (m * s)) unif01)
      (Filter.Eventually.of_forall fun u => Finset.sum_nonneg fun p _ => Finset.sum_nonneg fun q _ => sq_nonneg _)
      (sjltDev_second hs (rv := fun j => rv j) (fun j => (rv j).injective) B).1 (ε ^ 2)
    rw [hI]
    refine le_trans (mul_le_mul_of_nonneg_left ?_ (sq_nonneg _)) this
    exact measureReal_mono fun u hu => le_of_lt (show ε ^ 2 < _ from hu)
  have h2 : (1 / (N : ℝ)) * ∑ rv, I rv ≤ (r ^ 2 + r) / d := by
    rw [hI]
    simp only [fun rv : Fin m → (Fin s ↪ Fin d) =>
      (sjltDev_second hs (rv := fun j => rv j) (fun j => (rv j).injective) B).2]
    rw [Finset.sum_comm, Finset.mul_sum]
    have hpq : ∀ p q, (fun i => B i p) ⬝ᵥ (fun i => B i q) = if p = q then 1 else 0 := fun p q => by
      have := congrFun (congrFun hB p) q
      rw [one_apply] at this
      exact this
    have h3 : ∀ p q : Fin r, (1 / (N : ℝ)) * ∑ rv : Fin m → (Fin s ↪ Fin d),
        ∫ u, ((sjltMat (fun j => rv j) u *ᵥ (fun i => B i p)) ⬝ᵥ (sjltMat (fun j => rv j) u *ᵥ (fun i => B i q)) -
          (fun i => B i p) ⬝ᵥ (fun i => B i q)) ^ 2 ∂(Proof.indep (Fin (m * s)) unif01) ≤
        1 / d + (if p = q then 1 / (d : ℝ) else 0) := fun p q => by
      rw [hN]
      refine (sjlt_second_mean hs hsd _ _).trans (le_of_eq ?_)
      rw [sqNorm_eq_dot, sqNorm_eq_dot, hpq, hpq, hpq, if_pos rfl, if_pos rfl]
      split
      · ring
      · ring
    have h4 : ∑ p : Fin r, ∑ q : Fin r, (1 / d + (if p = q then 1 / (d : ℝ) else 0)) = (r ^ 2 + r) / d := by
      simp [Finset.sum_add_distrib]
      ring
    rw [← h4]
    refine Finset.sum_le_sum fun p _ => ?_
    rw [Finset.sum_comm, Finset.mul_sum]
    exact Finset.sum_le_sum fun q _ => h3 p q
  refine (mul_le_mul_right (Finset.sum_le_sum fun rv _ => h1 rv) _).trans ?_
  rw [← ENNReal.ofReal_sum_of_nonneg fun rv _ => div_nonneg (hI0 rv) (sq_nonneg _),
    ← ENNReal.ofReal_natCast, ← ENNReal.ofReal_inv_of_pos (by exact_mod_cast hN0), ← ENNReal.ofReal_mul (by positivity)]
  refine ENNReal.ofReal_le_ofReal ?_
  rw [← Finset.sum_div, ← mul_div_assoc, ← div_div, ← one_div]
  exact div_le_div_of_nonneg_right h2 (sq_nonneg _)

/-! ### The operator -/

/-- In world `w` the next `m` calls of `rng.choice(d, s, replace=False)` return the lists `rv 0, ..., rv (m-1)`, and
`rng.random(m * s)` after them returns `u`. -/
def NextSJLT {G : Type} (R : NpRng G) (w : World G) (d m s : ℕ) (rv : Fin m → (Fin s ↪ Fin d)) (u : Fin (m * s) → ℝ) :
    Prop :=
  ∃ (h : s ≤ d) (g : ℕ → G), g 0 = w.rng ∧ (∀ j : Fin m, R.choiceNoRepl d s h (g j) = (rv j, g (j + 1))) ∧
    (R.random (m * s) (g m)).1 = u

theorem drawMany_next {G : Type} {R : NpRng G} {d s : ℕ} (h : s ≤ d) (g : ℕ → G) : ∀ {m : ℕ} (w : World G)
    (_ : g 0 = w.rng) (rv : Fin m → (Fin s ↪ Fin d))
    (_ : ∀ j : Fin m, R.choiceNoRepl d s h (g j) = (rv j, g (j + 1))),
    drawMany (R.choice d s false) m w = .ok (fun j => (rv j : Fin s → Fin d), { w with rng := g m })
  | 0, w, h0, rv, _ => by
    unfold drawMany
    have e : (fun j => (rv j : Fin s → Fin d)) = Fin.elim0 := funext fun j => j.elim0
    rw [e, h0]
    rfl
  | m + 1, w, h0, rv, hr => by
    unfold drawMany
    rw [Py.bind_eq_of_ok (drawMany_next h g w h0 (fun j => rv j.castSucc) (fun j => hr j.castSucc))]
    have e1 : R.choice d s false { w with rng := g m } = .ok ((rv (Fin.last m) : Fin s → Fin d), { w with rng := g (m + 1) }) := by
      have := hr (Fin.last m)
      unfold NpRng.choice
      rw [if_neg (by simp), dif_pos h]
      show Except.ok (((R.choiceNoRepl d s h (g m)).1 : Fin s → Fin d), { w with rng := (R.choiceNoRepl d s h (g m)).2 }) = _
      rw [show R.choiceNoRepl d s h (g m) = _ from this]
      rfl
    rw [Py.bind_eq_of_ok e1]
    have e2 : (Fin.snoc (fun j : Fin m => (rv j.castSucc : Fin s → Fin d)) (rv (Fin.last m) : Fin s → Fin d) :
        Fin (m + 1) → Fin s → Fin d) = fun j => (rv j : Fin s → Fin d) := by
      funext j
      refine Fin.lastCases ?_ (fun i => ?_) j
      · rw [Fin.snoc_last]
      · rw [Fin.snoc_castSucc]
    rw [← e2]
    rfl

theorem sjltWide_unfold {G : Type} (R : NpRng G) {v r c k : ℕ} (h : min c v = k) : sjltWide R v r c = (do
    Py.warnIf (decide (r < k))
    let rowVecs ← drawMany (R.choice r k (decide (r < k))) c
    Py.raiseIf (c = 0) .value
    let u ← Py.draw (R.random (c * k))
    pure (sjltMat rowVecs u)) := by
  subst h; rfl

/-- what `sjlt_operator` returns for the draws `rv`, `u` -/
theorem sjlt_next {G : Type} {R : NpRng G} {w : World G} (hdm : d ≤ m) (hd : 0 < d)
    {rv : Fin m → (Fin s ↪ Fin d)} {u : Fin (m * s) → ℝ} (h : NextSJLT R w d m s rv u) :
    ∃ w', sjltOperator R s d m w = .ok (sjltMat (fun j => rv j) u, w') := by
  obtain ⟨hs, g, h0, h1, h2⟩ := h
  refine ⟨{ w with rng := (R.random (m * s) (g m)).2 }, ?_⟩
  unfold sjltOperator
  rw [if_pos hdm, sjltWide_unfold R (by omega : min m s = s), decide_eq_false (by omega : ¬ d < s)]
  show (drawMany _ m >>= _) w = _
  rw [Py.bind_eq_of_ok (drawMany_next hs g w h0 rv h1), decide_eq_false (by omega : ¬ m = 0), raiseIf_false_bind, ← h2]
  rfl

/-- **C70** (one subspace).  For a subspace `U` of `ℝ^m` of dimension `r`, `1 ≤ vec_nnz ≤ d ≤ m` and `ε > 0`, except
for draws of probability at most `(r² + r)/(d ε²)`, `sjlt_operator` returns a `d × m` matrix that changes no squared
norm of a vector of `U` by more than a factor `1 ± ε`.  The bound depends neither on `m` nor on `vec_nnz`. -/
theorem C70_sjlt_subspace (U : Submodule ℝ (Fin m → ℝ)) (hs : 0 < s) (hsd : s ≤ d) (hdm : d ≤ m) (ε : ℝ) (hε : 0 < ε) :
    ∃ E : Set ((Fin m → (Fin s ↪ Fin d)) × (Fin (m * s) → ℝ)),
      sjltDraws d m s E ≤ ENNReal.ofReal ((Module.finrank ℝ U ^ 2 + Module.finrank ℝ U) / (d * ε ^ 2)) ∧
      ∀ rv u, (rv, u) ∉ E → ∀ (G : Type) (R : NpRng G) (w : World G), NextSJLT R w d m s rv u →
        ∃ S w', sjltOperator R s d m w = .ok (S, w') ∧
          ∀ x ∈ U, (1 - ε) * sqNorm x ≤ sqNorm (S *ᵥ x) ∧ sqNorm (S *ᵥ x) ≤ (1 + ε) * sqNorm x := by
  obtain ⟨B, hB, hU⟩ := exists_ortho_basis U
  refine ⟨_, sjlt_bad hs hsd hB hε, fun rv u hE G R w hw => ?_⟩
  obtain ⟨w', h⟩ := sjlt_next hdm (by omega) hw
  refine ⟨_, w', h, fun x hx => ?_⟩
  obtain ⟨z, rfl⟩ := hU x hx
  have h1 : sjltDev (sjltMat (fun j => rv j) u) B ≤ ε ^ 2 := not_lt.1 hE
  have := abs_le.1 (embed_of_dev hB hε.le h1 z)
  constructor <;> linarith [this.1, this.2]

/-- **C70** (the range of `A`). -/
theorem C70_sjlt_embeds (A : Matrix (Fin m) (Fin n) ℝ) (hs : 0 < s) (hsd : s ≤ d) (hdm : d ≤ m) (ε : ℝ) (hε : 0 < ε) :
    ∃ E : Set ((Fin m → (Fin s ↪ Fin d)) × (Fin (m * s) → ℝ)),
      sjltDraws d m s E ≤ ENNReal.ofReal ((A.rank ^ 2 + A.rank) / (d * ε ^ 2)) ∧
      ∀ rv u, (rv, u) ∉ E → ∀ (G : Type) (R : NpRng G) (w : World G), NextSJLT R w d m s rv u →
        ∃ S w', sjltOperator R s d m w = .ok (S, w') ∧ Embeds S A ε := by
  obtain ⟨E, h1, h2⟩ := C70_sjlt_subspace (colSpace A) hs hsd hdm ε hε
  rw [finrank_colSpace] at h1
  refine ⟨E, h1, fun rv u hE G R w hw => ?_⟩
  obtain ⟨S, w', hS, he⟩ := h2 rv u hE G R w hw
  exact ⟨S, w', hS, fun x => he _ (mem_colSpace.2 ⟨x, rfl⟩)⟩

/-- the draws have total probability one -/
theorem sjltDraws_univ (hsd : s ≤ d) : sjltDraws d m s Set.univ = 1 := by
  unfold sjltDraws
  haveI : Nonempty (Fin m → (Fin s ↪ Fin d)) := ⟨fun _ => Fin.castLEEmb hsd⟩
  haveI : IsProbabilityMeasure (uniformOn (Set.univ : Set (Fin m → (Fin s ↪ Fin d)))) :=
    uniformOn_isProbabilityMeasure Set.finite_univ Set.univ_nonempty
  exact measure_univ

end Parla.Props
