import Verif.Proof.IDExpected
import Verif.Props.IDError
import Verif.Props.Expected
import Verif.Props.EVD2Error

/-! # Property C77: expected error of randomized interpolative and CUR decompositions

As in C65, `g` is a function of the draw only: for almost every array `Z`, every run (backend, generator,
state) in which `rng.standard_normal` returns `Z` returns, and its squared error is at most `g Z`. -/

namespace Parla.Props

open Matrix Parla Spec MeasureTheory

variable {G : Type} {m n r : ℕ}

/-! ### The range of a power sketch -/

theorem orthoCols_loop' (la : LinAlg) (A : Matrix (Fin m) (Fin n) ℝ) (q done : ℕ) (S T : Cols n)
    (w w' : World G) (hS : OrthoCols S.mat)
    (h : rs1Loop (orth la) 1 A q done S w = .ok (T, w')) : OrthoCols T.mat := by
  induction q generalizing done S w with
  | zero =>
    have h2 : (Except.ok (S, w) : Except PyErr (Cols n × World G)) = .ok (T, w') := h
    cases h2
    exact hS
  | succ q ih =>
    obtain ⟨Y, w1, Z, w2, h1, h2, h3⟩ := rs1Loop_succ h
    rw [maybeStab_one, Except.ok.injEq, Prod.mk.injEq] at h2
    have hZ : OrthoCols Z.mat := by rw [← h2.1]; exact la.qr_orth _
    exact ih _ _ _ hZ h3

/-- with at least one pass the sketch is orthonormal; with none it is the draw -/
theorem rs1_orth (la : LinAlg) {gen : SkOpGen G} {p : ℤ} {A : Matrix (Fin m) (Fin n) ℝ} {k : ℕ}
    {S : Cols n} {w w' : World G} (h : rs1Call gen p (orth la) 1 A k w = .ok (S, w')) :
    (p = 0 → ∃ S0 w₁, gen n k w = .ok (S0, w₁) ∧ S = ⟨k, S0⟩) ∧ (0 < p → OrthoCols S.mat) := by
  obtain ⟨hp, ⟨hev, S0, w1, g1, g2⟩ | ⟨hev, S0, w1, S1, w2, g1, g2, g3⟩⟩ := rs1Call_open h
  · refine ⟨?_, ?_⟩
    · rintro rfl
      have : (Except.ok ((⟨k, S0⟩ : Cols n), w1) : Except PyErr (Cols n × World G)) = .ok (S, w') := g2
      cases this
      exact ⟨S0, _, g1, rfl⟩
    · intro h0
      obtain ⟨q, hq⟩ : ∃ q, (p / 2).toNat = q + 1 := ⟨(p / 2).toNat - 1, by omega⟩
      rw [hq] at g2
      obtain ⟨Y, w3, Z, w4, h4, h5, h6⟩ := rs1Loop_succ g2
      rw [maybeStab_one, Except.ok.injEq, Prod.mk.injEq] at h5
      have hZ : OrthoCols Z.mat := by rw [← h5.1]; exact la.qr_orth _
      exact orthoCols_loop' la A _ _ _ _ _ _ hZ h6
  · refine ⟨?_, ?_⟩
    · rintro rfl
      exact absurd rfl hev
    · intro _
      rw [if_pos rfl] at g2
      simp [callStab, Py.bind_apply] at g2
      have hZ : OrthoCols S1.mat := by rw [← g2.1]; exact la.qr_orth _
      exact orthoCols_loop' la A _ _ _ _ _ _ hZ g3

/-- the error of projecting the rows of `A` onto a power sketch with at least one pass -/
theorem rs1_range_bound (la : LinAlg) (gen : SkOpGen G) (A : Matrix (Fin m) (Fin n) ℝ)
    {U : Matrix (Fin m) (Fin r) ℝ} {s : Fin r → ℝ} {V : Matrix (Fin n) (Fin r) ℝ} (hA : IsSVD A U s V)
    (t : ℕ) (ht : t ≤ r) (hpos : ∀ j : Fin t, 0 < s (Fin.castLE ht j)) (τ : ℝ)
    (hτ : ∀ (i : Fin r) (j : Fin t), t ≤ i.1 → s i ≤ τ * s (Fin.castLE ht j))
    (p : ℤ) (hp : 1 ≤ p) (k : ℕ) (w w' : World G) (S : Cols n)
    (h : rs1Call gen p (orth la) 1 A k w = .ok (S, w')) :
    (p % 2 = 0 → ∃ S0 w₁, gen n k w = .ok (S0, w₁) ∧
      ∀ W : Matrix (Fin k) (Fin t) ℝ, firstRows ht (Vᵀ * S0) * W = 1 →
        froSq (Aᵀ - S.mat * (S.matᵀ * Aᵀ)) ≤ tailSq s t +
          τ ^ (2 * (p - 1).toNat) * froSq (diagonal (tail s t) * (Vᵀ * S0 * W))) ∧
    (p % 2 = 1 → ∃ S0 w₁, gen m k w = .ok (S0, w₁) ∧
      ∀ W : Matrix (Fin k) (Fin t) ℝ, firstRows ht (Uᵀ * S0) * W = 1 →
        froSq (Aᵀ - S.mat * (S.matᵀ * Aᵀ)) ≤ tailSq s t +
          τ ^ (2 * (p - 1).toNat) * froSq (diagonal (tail s t) * (Uᵀ * S0 * W))) := by
  obtain ⟨h1, h2⟩ := C02_rs1_range_parla la gen p (orth la) (Or.inl rfl) 1 A k w w' S h
  have hS : OrthoCols S.mat := (rs1_orth la h).2 (by omega)
  have hT := Proof.isSVD_transpose hA
  constructor
  · intro hev
    obtain ⟨S0, ⟨w₁, hg⟩, hle, -⟩ := h1 hev
    refine ⟨S0, w₁, hg, fun W hW => ?_⟩
    refine Proof.range_bound hT ht hpos τ hτ (p - 1).toNat (Vᵀ * S0) W hW hS (le_trans (le_of_eq ?_) hle)
    obtain ⟨q, hq⟩ : ∃ q, (p / 2).toNat = q + 1 := ⟨(p / 2).toNat - 1, by omega⟩
    rw [hq, Proof.svd_gram_power hA, Matrix.mul_assoc _ Vᵀ, show 2 * q + 2 = (p - 1).toNat + 1 by omega]
  · intro hodd
    obtain ⟨S0, ⟨w₁, hg⟩, hle, -⟩ := h2 hodd
    refine ⟨S0, w₁, hg, fun W hW => ?_⟩
    refine Proof.range_bound hT ht hpos τ hτ (p - 1).toNat (Uᵀ * S0) W hW hS (le_trans (le_of_eq ?_) hle)
    rw [← Matrix.mul_assoc _ Aᵀ, Proof.svd_gram_power_transpose hA, Matrix.mul_assoc _ Uᵀ,
      show 2 * ((p - 1) / 2).toNat + 1 = (p - 1).toNat + 1 by omega]

theorem scale_rows {a k t : ℕ} {ht : t ≤ r} {X : Matrix (Fin a) (Fin r) ℝ} {M : Matrix (Fin a) (Fin k) ℝ}
    {W : Matrix (Fin k) (Fin t) ℝ} {u : ℝ} (hu : u ≠ 0) (h : firstRows ht (Xᵀ * M) * W = 1) :
    firstRows ht (Xᵀ * (u • M)) * (u⁻¹ • W) = 1 ∧ Xᵀ * (u • M) * (u⁻¹ • W) = Xᵀ * M * W := by
  rw [Matrix.mul_smul Xᵀ]
  have : firstRows ht (u • (Xᵀ * M)) = u • firstRows ht (Xᵀ * M) := rfl
  rw [this]
  simp only [Matrix.smul_mul, Matrix.mul_smul, smul_smul, inv_mul_cancel₀ hu, one_smul]
  exact ⟨h, trivial⟩

theorem rs1_range_expected (A : Matrix (Fin m) (Fin n) ℝ)
    {U : Matrix (Fin m) (Fin r) ℝ} {s : Fin r → ℝ} {V : Matrix (Fin n) (Fin r) ℝ} (hA : IsSVD A U s V)
    (k : ℕ) (hk' : k ≤ min m n) (t : ℕ) (ht : t ≤ r) (htr : t ≤ A.rank) (htk : t + 2 ≤ k) (τ : ℝ)
    (hτ : ∀ (i : Fin r) (j : Fin t), t ≤ i.1 → s i ≤ τ * s (Fin.castLE ht j)) (p : ℤ) (hp : 1 ≤ p) :
    ∃ g : (Fin (startRows p m n) × Fin k → ℝ) → ℝ, (∀ Z, 0 ≤ g Z) ∧ Integrable g (normals _ k) ∧
      ∫ Z, g Z ∂(normals _ k) = tailSq s t * (1 + τ ^ (2 * (p - 1).toNat) * (t / ((k : ℝ) - t - 1))) ∧
      ∀ᵐ Z ∂(normals _ k), ∀ (G : Type) (la : LinAlg) (R : NpRng G) (w w' : World G) (S : Cols n),
        NextNormal R w _ _ Z → rs1Call (gaussianOperator R true) p (orth la) 1 A k w = .ok (S, w') →
        fro (Aᵀ - S.mat * (S.matᵀ * Aᵀ)) ^ 2 ≤ g Z := by
  have hτn : 0 ≤ τ ^ (2 * (p - 1).toNat) := by rw [pow_mul]; positivity
  have htail : 0 ≤ tailSq s t := Finset.sum_nonneg fun i _ => sq_nonneg _
  have hnn : ∀ {a : ℕ} (X : Matrix (Fin a) (Fin r) ℝ) (Z : Fin a × Fin k → ℝ),
      0 ≤ tailSq s t + τ ^ (2 * (p - 1).toNat) * sketchBound s t k ht X Z := fun X Z =>
    add_nonneg htail (mul_nonneg hτn (froSq_nonneg _))
  have hpos : ∀ j : Fin t, 0 < s (Fin.castLE ht j) := by
    by_contra hc
    have := rank_le_of_svd hA ht hc
    omega
  have core : ∀ {a : ℕ} {X : Matrix (Fin a) (Fin r) ℝ}, OrthoCols X →
      Integrable (fun Z => tailSq s t + τ ^ (2 * (p - 1).toNat) * sketchBound s t k ht X Z) (normals a k) ∧
      ∫ Z, (tailSq s t + τ ^ (2 * (p - 1).toNat) * sketchBound s t k ht X Z) ∂(normals a k) =
        tailSq s t * (1 + τ ^ (2 * (p - 1).toNat) * (t / ((k : ℝ) - t - 1))) := by
    intro a X hX
    obtain ⟨⟨h1, h2⟩, -⟩ := sketchBound_mean s t k ht htk hX
    refine ⟨(integrable_const _).add (h1.const_mul _), ?_⟩
    rw [integral_add (integrable_const _) (h1.const_mul _), integral_const_mul, h2]
    simp
    ring
  by_cases hp2 : p % 2 = 0
  · rw [show startRows p m n = n from if_pos hp2]
    refine ⟨_, hnn V, (core hA.right).1, (core hA.right).2, ?_⟩
    filter_upwards [(sketchBound_mean s t k ht htk hA.right).2] with Z hZ G la R w w' S hw h
    obtain ⟨S0, w₁, g1, g2⟩ := (rs1_range_bound la _ A hA t ht hpos τ hτ p hp k w w' S h).1 hp2
    obtain ⟨u, hu, hgen⟩ := gaussian_next R (r := n) (c := k) (by omega) hw
    rw [hgen] at g1
    cases g1
    obtain ⟨e1, e2⟩ := scale_rows hu hZ
    have := g2 _ e1
    rw [e2] at this
    rw [fro_sq]
    exact this
  · rw [show startRows p m n = m from if_neg hp2]
    refine ⟨_, hnn U, (core hA.left).1, (core hA.left).2, ?_⟩
    filter_upwards [(sketchBound_mean s t k ht htk hA.left).2] with Z hZ G la R w w' S hw h
    obtain ⟨S0, w₁, g1, g2⟩ := (rs1_range_bound la _ A hA t ht hpos τ hτ p hp k w w' S h).2 (by omega)
    obtain ⟨u, hu, hgen⟩ := gaussian_next R (r := m) (c := k) (by omega) hw
    rw [hgen] at g1
    cases g1
    obtain ⟨e1, e2⟩ := scale_rows hu hZ
    have := g2 _ e1
    rw [e2] at this
    rw [fro_sq]
    exact this

/-! ### The three regimes -/

/-- no oversampling -/
theorem id_expected_plain (A : Matrix (Fin m) (Fin n) ℝ)
    {U : Matrix (Fin m) (Fin r) ℝ} {s : Fin r → ℝ} {V : Matrix (Fin n) (Fin r) ℝ} (hA : IsSVD A U s V)
    (k : ℕ) (hk' : k ≤ min m n) (t : ℕ) (ht : t ≤ r) (htk : t + 2 ≤ k) (τ : ℝ)
    (hτ : ∀ (i : Fin r) (j : Fin t), t ≤ i.1 → s i ≤ τ * s (Fin.castLE ht j)) (q : ℤ) (hq : 0 ≤ q) :
    ∃ g : (Fin (startRows q n m) × Fin (k + 0) → ℝ) → ℝ, (∀ Z, 0 ≤ g Z) ∧ Integrable g (normals _ (k + 0)) ∧
      ∫ Z, g Z ∂(normals _ (k + 0)) =
        (1 + pivotGrowth n k) * (tailSq s t * (1 + τ ^ (2 * q.toNat) * (t / ((k : ℝ) - t - 1)))) ∧
      ∀ᵐ Z ∂(normals _ (k + 0)), ∀ (G : Type) (la : LinAlg) (R : NpRng G) (w w' : World G) (o : ColID n),
        NextNormal R w _ _ Z →
        (OSID1 la (RS1 (gaussianOperator R true) q (orth la) 1)).col m n A k 0 w = .ok (o, w') →
        fro (A - A.submatrix id o.Js * o.X) ^ 2 ≤ g Z := by
  obtain ⟨g, h0, h1, h2, h3⟩ := rs1_expected Aᵀ (Proof.isSVD_transpose hA) (k + 0) (by omega) t ht htk τ hτ q hq
  have hg0 : 0 ≤ 1 + pivotGrowth n k := by have := pivotGrowth_nonneg (show k ≤ n by omega); linarith
  refine ⟨fun Z => (1 + pivotGrowth n k) * g Z, fun Z => mul_nonneg hg0 (h0 Z), h1.const_mul _, ?_, ?_⟩
  · rw [integral_const_mul, h2]
    rfl
  · filter_upwards [h3] with Z hZ G la R w w' o hw h
    obtain ⟨S, w1, hS, -, -, -, -, b3⟩ := osid1_col_error h
    have hc : S.c = k + 0 := rs1Call_width_eq (fun _ _ => rfl) (by omega) hS
    obtain ⟨c, Q, hcr, hQ, hle⟩ := Proof.exists_orth_basis (Aᵀ * S.mat)
    have hle' : colSpace Q ≤ colSpace (Aᵀ * S.mat) := by
      refine le_of_eq (Submodule.eq_of_le_of_finrank_le hle ?_).symm
      rw [finrank_colSpace, finrank_colSpace]
      exact (rank_le_width' _).trans hcr
    obtain ⟨W, hW⟩ := colSpace_le_iff.1 hle'
    refine (b3 (by omega) (A * Q * Wᵀ)).trans (mul_le_mul_of_nonneg_left ?_ hg0)
    have := hZ G la R w w1 S hw hS c Q hQ hle
    have e : A - A * Q * Wᵀ * (S.matᵀ * A) = (Aᵀ - Q * (Qᵀ * Aᵀ))ᵀ := by
      have hQt : Wᵀ * (S.matᵀ * A) = Qᵀ := by
        rw [hW, transpose_mul, transpose_mul, transpose_transpose]
      rw [transpose_sub, transpose_mul, transpose_mul, transpose_transpose, transpose_transpose,
        Matrix.mul_assoc (A * Q), hQt]
    rw [e, fro_transpose']
    exact this

/-- at least one pass -/
theorem id_expected_power (A : Matrix (Fin m) (Fin n) ℝ)
    {U : Matrix (Fin m) (Fin r) ℝ} {s : Fin r → ℝ} {V : Matrix (Fin n) (Fin r) ℝ} (hA : IsSVD A U s V)
    (k over : ℕ) (hkn : k ≤ n) (hk' : k + over ≤ min m n) (t : ℕ) (ht : t ≤ r) (htr : t ≤ A.rank)
    (htk : t + 2 ≤ k + over) (τ : ℝ)
    (hτ : ∀ (i : Fin r) (j : Fin t), t ≤ i.1 → s i ≤ τ * s (Fin.castLE ht j)) (q : ℤ) (hq : 1 ≤ q) :
    ∃ g : (Fin (startRows q n m) × Fin (k + over) → ℝ) → ℝ, (∀ Z, 0 ≤ g Z) ∧
      Integrable g (normals _ (k + over)) ∧
      ∫ Z, g Z ∂(normals _ (k + over)) =
        (1 + pivotGrowth n k) * (tailSq s t * (1 + τ ^ (2 * (q - 1).toNat) * (t / ((k : ℝ) + over - t - 1)))) +
          pivotLoss n k * tailSq s k ∧
      ∀ᵐ Z ∂(normals _ (k + over)), ∀ (G : Type) (la : LinAlg) (R : NpRng G) (w w' : World G) (o : ColID n),
        NextNormal R w _ _ Z →
        (OSID1 la (RS1 (gaussianOperator R true) q (orth la) 1)).col m n A k over w = .ok (o, w') →
        fro (A - A.submatrix id o.Js * o.X) ^ 2 ≤ g Z := by
  obtain ⟨g, h0, h1, h2, h3⟩ := rs1_range_expected Aᵀ (Proof.isSVD_transpose hA) (k + over) (by omega) t ht
    (by rwa [rank_transpose]) htk τ hτ q hq
  have hg0 : 0 ≤ 1 + pivotGrowth n k := by have := pivotGrowth_nonneg hkn; linarith
  have hl0 := pivotLoss_nonneg hkn
  have htail : 0 ≤ tailSq s k := Finset.sum_nonneg fun i _ => sq_nonneg _
  obtain ⟨B, hB, hAB⟩ := exists_best hA k
  refine ⟨fun Z => pivotLoss n k * tailSq s k + (1 + pivotGrowth n k) * g Z,
    fun Z => add_nonneg (mul_nonneg hl0 htail) (mul_nonneg hg0 (h0 Z)),
    (integrable_const _).add (h1.const_mul _), ?_, ?_⟩
  · refine (mean_const_add (h1.const_mul _) _ ((integral_const_mul _ _).trans (by rw [h2]))).trans ?_
    push_cast
    ring
  · filter_upwards [h3] with Z hZ G la R w w' o hw h
    obtain ⟨S, w1, hS, -, -, -, b2, -⟩ := osid1_col_error h
    have ho := (rs1_orth la hS).2 (by omega)
    have := hZ G la R w w1 S hw hS
    rw [transpose_transpose] at this
    refine (b2 ho B hB).trans ?_
    rw [fro_sq (A - B), hAB, add_comm]
    exact add_le_add le_rfl (mul_le_mul_of_nonneg_left this hg0)

theorem rows_product_mean {a : ℕ} (s : Fin r → ℝ) (t k : ℕ) (ht : t ≤ r) (hk : t + 2 ≤ k)
    {X : Matrix (Fin a) (Fin r) ℝ} (hX : OrthoCols X) :
    Integrable (fun Z : Fin a × Fin k → ℝ => froSq (Proof.rpinv (firstRows ht (Xᵀ * Proof.drawMat Z))) *
      froSq (diagonal (tail s t) * (Xᵀ * Proof.drawMat Z))) (normals a k) ∧
    ∫ Z : Fin a × Fin k → ℝ, froSq (Proof.rpinv (firstRows ht (Xᵀ * Proof.drawMat Z))) *
      froSq (diagonal (tail s t) * (Xᵀ * Proof.drawMat Z)) ∂(normals a k) =
      t / ((k : ℝ) - t - 1) * (tailSq s t * k) := by
  obtain ⟨b, rfl⟩ : ∃ b, r = t + b := ⟨r - t, by omega⟩
  have hmp := Proof.gauss_map_rows (k := k) hX
  obtain ⟨h1, h2⟩ := Proof.mean_prod_rows (t := t) (k := k) hk (diagonal fun i : Fin b => s (Fin.natAdd t i))
  have hg : ∀ Z : Fin a × Fin k → ℝ, froSq (Proof.rpinv (firstRows ht (Xᵀ * Proof.drawMat Z))) *
      froSq (diagonal (tail s t) * (Xᵀ * Proof.drawMat Z)) =
      froSq (Proof.rpinv ((Proof.drawMat (Proof.entries (Xᵀ * Proof.drawMat Z))).submatrix (Fin.castAdd b) id)) *
      froSq (diagonal (fun i : Fin b => s (Fin.natAdd t i)) *
        (Proof.drawMat (Proof.entries (Xᵀ * Proof.drawMat Z))).submatrix (Fin.natAdd t) id) := by
    intro Z
    rw [froSq_tail_rows]
    rfl
  constructor
  · have := hmp.integrable_comp_of_integrable h1
    refine this.congr (Filter.Eventually.of_forall fun Z => (hg Z).symm)
  · rw [integral_congr_ae (Filter.Eventually.of_forall hg)]
    have := mp_integral hmp h1
    rw [h2, tailSq_rows] at this
    exact this

theorem froSq_smul {a b : ℕ} (u : ℝ) (M : Matrix (Fin a) (Fin b) ℝ) : froSq (u • M) = u ^ 2 * froSq M := by
  unfold froSq
  simp only [Matrix.smul_apply, smul_eq_mul, mul_pow, Finset.mul_sum]

/-- a plain Gaussian sketch -/
theorem id_expected_gauss (A : Matrix (Fin m) (Fin n) ℝ)
    {U : Matrix (Fin m) (Fin r) ℝ} {s : Fin r → ℝ} {V : Matrix (Fin n) (Fin r) ℝ} (hA : IsSVD A U s V)
    (k over : ℕ) (hkn : k ≤ n) (hk' : k + over ≤ min m n) (t : ℕ) (ht : t ≤ r) (htk' : t ≤ k)
    (htk : t + 2 ≤ k + over) :
    ∃ g : (Fin (startRows 0 n m) × Fin (k + over) → ℝ) → ℝ, (∀ Z, 0 ≤ g Z) ∧
      Integrable g (normals _ (k + over)) ∧
      ∫ Z, g Z ∂(normals _ (k + over)) =
        tailSq s t * (2 * (1 + pivotGrowth n k) * (1 + t / ((k : ℝ) + over - t - 1)) +
          2 * pivotLoss n k * ((k + over) * (t / ((k : ℝ) + over - t - 1)))) ∧
      ∀ᵐ Z ∂(normals _ (k + over)), ∀ (G : Type) (la : LinAlg) (R : NpRng G) (w w' : World G) (o : ColID n),
        NextNormal R w _ _ Z →
        (OSID1 la (RS1 (gaussianOperator R true) 0 (orth la) 1)).col m n A k over w = .ok (o, w') →
        fro (A - A.submatrix id o.Js * o.X) ^ 2 ≤ g Z := by
  change ∃ g : (Fin m × Fin (k + over) → ℝ) → ℝ, (∀ Z, 0 ≤ g Z) ∧ Integrable g (normals m (k + over)) ∧
      ∫ Z, g Z ∂(normals m (k + over)) = _ ∧ ∀ᵐ Z ∂(normals m (k + over)), ∀ (G : Type) (la : LinAlg) (R : NpRng G)
        (w w' : World G) (o : ColID n), NextNormal R w m (k + over) Z → _ → _
  have hg0 : 0 ≤ 1 + pivotGrowth n k := by have := pivotGrowth_nonneg hkn; linarith
  have hl0 := pivotLoss_nonneg hkn
  have htail : 0 ≤ tailSq s t := Finset.sum_nonneg fun i _ => sq_nonneg _
  obtain ⟨⟨a1, a2⟩, a3⟩ := sketchBound_mean s t (k + over) ht htk hA.left
  obtain ⟨b1, b2⟩ := rows_product_mean s t (k + over) ht htk hA.left
  refine ⟨fun Z => 2 * (1 + pivotGrowth n k) * (tailSq s t + sketchBound s t (k + over) ht U Z) +
      2 * pivotLoss n k * (froSq (Proof.rpinv (firstRows ht (Uᵀ * Proof.drawMat Z))) *
        froSq (diagonal (tail s t) * (Uᵀ * Proof.drawMat Z))), fun Z => ?_, ?_, ?_, ?_⟩
  · refine add_nonneg (mul_nonneg (by linarith) (add_nonneg htail (froSq_nonneg _)))
      (mul_nonneg (by linarith) (mul_nonneg (froSq_nonneg _) (froSq_nonneg _)))
  · exact (((integrable_const _).add a1).const_mul _).add (b1.const_mul _)
  · have e1 : ∫ Z, (tailSq s t + sketchBound s t (k + over) ht U Z) ∂(normals m (k + over)) = _ :=
      mean_const_add a1 (tailSq s t) a2
    have e2 : Integrable (fun Z => 2 * (1 + pivotGrowth n k) * (tailSq s t + sketchBound s t (k + over) ht U Z))
        (normals m (k + over)) := ((integrable_const _).add a1).const_mul _
    refine (integral_add e2 (b1.const_mul _)).trans ?_
    rw [integral_const_mul, integral_const_mul, b2, e1]
    push_cast
    ring
  · filter_upwards [a3] with Z hZ G la R w w' o hw h
    obtain ⟨S, w1, hS, -, -, c1, -, -⟩ := osid1_col_error h
    obtain ⟨S0, w₁, hg, rfl⟩ := (rs1_orth la hS).1 rfl
    obtain ⟨u, hu, hgen⟩ := gaussian_next R (r := m) (c := k + over) (by omega) hw
    rw [hgen] at hg
    cases hg
    obtain ⟨e1, e2⟩ := scale_rows hu hZ
    obtain ⟨C, B, hB, hC, hAC, hZB⟩ := Proof.interp_first hA ht (u • Proof.drawMat Z)
      (u⁻¹ • Proof.rpinv (firstRows ht (Uᵀ * Proof.drawMat Z))) e1
    have := c1 C ((u • Proof.drawMat Z)ᵀ * B) ((Matrix.rank_mul_le_right _ _).trans (hB.trans htk'))
    rw [e2] at hAC
    have f1 : fro (A - C * ((u • Proof.drawMat Z)ᵀ * A)) ^ 2 = tailSq s t + sketchBound s t (k + over) ht U Z := by
      rw [fro_sq, hAC]; rfl
    have f2 : fro C ^ 2 * fro ((u • Proof.drawMat Z)ᵀ * A - (u • Proof.drawMat Z)ᵀ * B) ^ 2 =
        froSq (Proof.rpinv (firstRows ht (Uᵀ * Proof.drawMat Z))) *
          froSq (diagonal (tail s t) * (Uᵀ * Proof.drawMat Z)) := by
      rw [fro_sq, fro_sq, hC, hZB, Matrix.mul_smul, Matrix.mul_smul, froSq_smul, froSq_smul]
      field_simp
    obtain ⟨x, hx⟩ : ∃ x, x = √(1 + pivotGrowth n k) * fro (A - C * ((u • Proof.drawMat Z)ᵀ * A)) := ⟨_, rfl⟩
    obtain ⟨y, hy⟩ : ∃ y, y = fro C * (√(pivotLoss n k) *
      fro ((u • Proof.drawMat Z)ᵀ * A - (u • Proof.drawMat Z)ᵀ * B)) := ⟨_, rfl⟩
    have g1 : fro (A - A.submatrix id o.Js * o.X) ≤ x + y := by rw [hx, hy]; exact this
    have hx2 : x ^ 2 = (1 + pivotGrowth n k) * (tailSq s t + sketchBound s t (k + over) ht U Z) := by
      rw [hx, mul_pow, Real.sq_sqrt hg0, f1]
    have hy2 : y ^ 2 = pivotLoss n k * (froSq (Proof.rpinv (firstRows ht (Uᵀ * Proof.drawMat Z))) *
          froSq (diagonal (tail s t) * (Uᵀ * Proof.drawMat Z))) := by
      rw [hy, mul_pow, mul_pow, Real.sq_sqrt hl0, ← f2]; ring
    have g2 : fro (A - A.submatrix id o.Js * o.X) ^ 2 ≤ (x + y) ^ 2 :=
      pow_le_pow_left₀ (fro_nonneg _) g1 2
    have g3 : (x + y) ^ 2 ≤ 2 * x ^ 2 + 2 * y ^ 2 := by nlinarith [sq_nonneg (x - y)]
    rw [hx2, hy2] at g3
    refine (g2.trans g3).trans (le_of_eq ?_)
    ring

theorem id_expected_col (A : Matrix (Fin m) (Fin n) ℝ)
    {U : Matrix (Fin m) (Fin r) ℝ} {s : Fin r → ℝ} {V : Matrix (Fin n) (Fin r) ℝ} (hA : IsSVD A U s V)
    (k over : ℕ) (hk : 0 < k) (hr : k ≤ A.rank) (hk' : k + over ≤ min m n) (t : ℕ) (ht : t ≤ r) (htk' : t ≤ k)
    (htk : t + 2 ≤ k + over) (τ : ℝ)
    (hτ : ∀ (i : Fin r) (j : Fin t), t ≤ i.1 → s i ≤ τ * s (Fin.castLE ht j)) (q : ℤ) (hq : 0 ≤ q) :
    ∃ g : (Fin (startRows q n m) × Fin (k + over) → ℝ) → ℝ, (∀ Z, 0 ≤ g Z) ∧
      Integrable g (normals _ (k + over)) ∧
      ∫ Z, g Z ∂(normals _ (k + over)) = idBound n k over t s τ q.toNat ∧
      ∀ᵐ Z ∂(normals _ (k + over)), ∀ (G : Type) (la : LinAlg) (R : NpRng G) (w : World G),
        NextNormal R w _ _ Z →
        ∃ o w', (OSID1 la (RS1 (gaussianOperator R true) q (orth la) 1)).col m n A k over w = .ok (o, w') ∧
          o.c = k ∧ FullColRank (A.submatrix id o.Js) ∧ fro (A - A.submatrix id o.Js * o.X) ^ 2 ≤ g Z := by
  have hkn : k ≤ n := by omega
  have key : ∃ g : (Fin (startRows q n m) × Fin (k + over) → ℝ) → ℝ, (∀ Z, 0 ≤ g Z) ∧
      Integrable g (normals _ (k + over)) ∧
      ∫ Z, g Z ∂(normals _ (k + over)) = idBound n k over t s τ q.toNat ∧
      ∀ᵐ Z ∂(normals _ (k + over)), ∀ (G : Type) (la : LinAlg) (R : NpRng G) (w w' : World G) (o : ColID n),
        NextNormal R w _ _ Z →
        (OSID1 la (RS1 (gaussianOperator R true) q (orth la) 1)).col m n A k over w = .ok (o, w') →
        fro (A - A.submatrix id o.Js * o.X) ^ 2 ≤ g Z := by
    unfold idBound
    by_cases h0 : over = 0
    · subst h0
      rw [if_pos rfl]
      exact id_expected_plain A hA k hk' t ht htk τ hτ q hq
    · rw [if_neg h0]
      by_cases h1 : q = 0
      · subst h1
        rw [if_pos Int.toNat_zero]
        exact id_expected_gauss A hA k over hkn hk' t ht htk' htk
      · rw [if_neg (by omega), show q.toNat - 1 = (q - 1).toNat by omega]
        exact id_expected_power A hA k over hkn hk' t ht (by omega) htk τ hτ q (by omega)
  obtain ⟨g, h0, h1, h2, h3⟩ := key
  refine ⟨g, h0, h1, h2, ?_⟩
  filter_upwards [h3, osid1_col_ae A k over hk hr q hq] with Z hZ hZ' G la R w hw
  obtain ⟨o, w', e1, -⟩ := hZ' G la R w hw
  obtain ⟨S, w1, -, -, f, -⟩ := osid1_col_error e1
  exact ⟨o, w', e1, (osid1_col_interp e1).1, f, hZ G la R w w' o hw e1⟩

theorem id_expected_row (A : Matrix (Fin m) (Fin n) ℝ)
    {U : Matrix (Fin m) (Fin r) ℝ} {s : Fin r → ℝ} {V : Matrix (Fin n) (Fin r) ℝ} (hA : IsSVD A U s V)
    (k over : ℕ) (hk : 0 < k) (hr : k ≤ A.rank) (hk' : k + over ≤ min m n) (t : ℕ) (ht : t ≤ r) (htk' : t ≤ k)
    (htk : t + 2 ≤ k + over) (τ : ℝ)
    (hτ : ∀ (i : Fin r) (j : Fin t), t ≤ i.1 → s i ≤ τ * s (Fin.castLE ht j)) (q : ℤ) (hq : 0 ≤ q) :
    ∃ g : (Fin (startRows q m n) × Fin (k + over) → ℝ) → ℝ, (∀ Z, 0 ≤ g Z) ∧
      Integrable g (normals _ (k + over)) ∧
      ∫ Z, g Z ∂(normals _ (k + over)) = idBound m k over t s τ q.toNat ∧
      ∀ᵐ Z ∂(normals _ (k + over)), ∀ (G : Type) (la : LinAlg) (R : NpRng G) (w : World G),
        NextNormal R w _ _ Z →
        ∃ o w', (OSID1 la (RS1 (gaussianOperator R true) q (orth la) 1)).row m n A k over w = .ok (o, w') ∧
          o.c = k ∧ FullColRank (A.submatrix o.Is id)ᵀ ∧ fro (A - o.Z * A.submatrix o.Is id) ^ 2 ≤ g Z := by
  obtain ⟨g, h0, h1, h2, h3⟩ := id_expected_col Aᵀ (Proof.isSVD_transpose hA) k over hk (by rwa [rank_transpose])
    (by omega) t ht htk' htk τ hτ q hq
  refine ⟨g, h0, h1, h2, ?_⟩
  filter_upwards [h3] with Z hZ G la R w hw
  obtain ⟨o, w', e1, e2, e3, e4⟩ := hZ G la R w hw
  refine ⟨RowID.ofCol o, w', osid1_row_ok.2 ⟨o, e1, rfl⟩, e2, ?_, ?_⟩
  · have e : (A.submatrix o.Js id)ᵀ = Aᵀ.submatrix id o.Js := by rw [transpose_submatrix]
    show FullColRank (A.submatrix o.Js id)ᵀ
    rw [e]
    exact e3
  · have e0 : fro (Aᵀ - Aᵀ.submatrix id o.Js * o.X) = fro (A - o.Xᵀ * A.submatrix o.Js id) := by
      rw [← fro_transpose', transpose_sub, transpose_mul, transpose_submatrix, transpose_transpose]
    rw [e0] at e4
    exact e4

/-! ### The drivers -/

/-- **C77** (`osid1`, columns).  `osid1(A, k, over, p, axis=1, rng)` with `p ≥ 1`, `0 < k ≤ rank(A)`,
`k + over ≤ min(m, n)`, `t ≤ k`, `t + 2 ≤ k + over` and singular values with ratio at most `τ` across the gap
at `t`: for almost every array of normals the call returns `k` columns and its squared Frobenius error is at
most a function of that array whose mean is `idBound n k over t s τ (p-1)`. -/
theorem C77_osid1_column (A : Matrix (Fin m) (Fin n) ℝ)
    {U : Matrix (Fin m) (Fin r) ℝ} {s : Fin r → ℝ} {V : Matrix (Fin n) (Fin r) ℝ} (hA : IsSVD A U s V)
    (k over : ℕ) (hk : 0 < k) (hr : k ≤ A.rank) (hk' : k + over ≤ min m n) (t : ℕ) (ht : t ≤ r) (htk' : t ≤ k)
    (htk : t + 2 ≤ k + over) (τ : ℝ)
    (hτ : ∀ (i : Fin r) (j : Fin t), t ≤ i.1 → s i ≤ τ * s (Fin.castLE ht j)) (p : ℤ) (hp : 1 ≤ p) :
    ∃ g : (Fin (startRows (p - 1) n m) × Fin (k + over) → ℝ) → ℝ, (∀ Z, 0 ≤ g Z) ∧
      Integrable g (normals _ (k + over)) ∧
      ∫ Z, g Z ∂(normals _ (k + over)) = idBound n k over t s τ (p - 1).toNat ∧
      ∀ᵐ Z ∂(normals _ (k + over)), ∀ (G : Type) (la : LinAlg) (R : NpRng G) (w : World G),
        NextNormal R w _ _ Z →
        ∃ o w', osid1 la (gaussianOperator R true) A k over p 1 w = .ok (.col o, w') ∧ o.c = k ∧
          fro (A - A.submatrix id o.Js * o.X) ^ 2 ≤ g Z := by
  obtain ⟨g, h0, h1, h2, h3⟩ := id_expected_col A hA k over hk hr hk' t ht htk' htk τ hτ (p - 1) (by omega)
  refine ⟨g, h0, h1, h2, ?_⟩
  filter_upwards [h3] with Z hZ G la R w hw
  obtain ⟨o, w', e1, e2, -, e4⟩ := hZ G la R w hw
  exact ⟨o, w', call_col.2 ⟨o, e1, rfl⟩, e2, e4⟩

/-- **C77** (`osid1`, rows). -/
theorem C77_osid1_row (A : Matrix (Fin m) (Fin n) ℝ)
    {U : Matrix (Fin m) (Fin r) ℝ} {s : Fin r → ℝ} {V : Matrix (Fin n) (Fin r) ℝ} (hA : IsSVD A U s V)
    (k over : ℕ) (hk : 0 < k) (hr : k ≤ A.rank) (hk' : k + over ≤ min m n) (t : ℕ) (ht : t ≤ r) (htk' : t ≤ k)
    (htk : t + 2 ≤ k + over) (τ : ℝ)
    (hτ : ∀ (i : Fin r) (j : Fin t), t ≤ i.1 → s i ≤ τ * s (Fin.castLE ht j)) (p : ℤ) (hp : 1 ≤ p) :
    ∃ g : (Fin (startRows (p - 1) m n) × Fin (k + over) → ℝ) → ℝ, (∀ Z, 0 ≤ g Z) ∧
      Integrable g (normals _ (k + over)) ∧
      ∫ Z, g Z ∂(normals _ (k + over)) = idBound m k over t s τ (p - 1).toNat ∧
      ∀ᵐ Z ∂(normals _ (k + over)), ∀ (G : Type) (la : LinAlg) (R : NpRng G) (w : World G),
        NextNormal R w _ _ Z →
        ∃ o w', osid1 la (gaussianOperator R true) A k over p 0 w = .ok (.row o, w') ∧ o.c = k ∧
          fro (A - o.Z * A.submatrix o.Is id) ^ 2 ≤ g Z := by
  obtain ⟨g, h0, h1, h2, h3⟩ := id_expected_row A hA k over hk hr hk' t ht htk' htk τ hτ (p - 1) (by omega)
  refine ⟨g, h0, h1, h2, ?_⟩
  filter_upwards [h3] with Z hZ G la R w hw
  obtain ⟨o, w', e1, e2, -, e4⟩ := hZ G la R w hw
  exact ⟨o, w', call_row.2 ⟨o, e1, rfl⟩, e2, e4⟩

/-- **C77** (`osid2`, columns): the same bound. -/
theorem C77_osid2_column (A : Matrix (Fin m) (Fin n) ℝ)
    {U : Matrix (Fin m) (Fin r) ℝ} {s : Fin r → ℝ} {V : Matrix (Fin n) (Fin r) ℝ} (hA : IsSVD A U s V)
    (k over : ℕ) (hk : 0 < k) (hr : k ≤ A.rank) (hk' : k + over ≤ min m n) (t : ℕ) (ht : t ≤ r) (htk' : t ≤ k)
    (htk : t + 2 ≤ k + over) (τ : ℝ)
    (hτ : ∀ (i : Fin r) (j : Fin t), t ≤ i.1 → s i ≤ τ * s (Fin.castLE ht j)) (p : ℤ) (hp : 1 ≤ p) :
    ∃ g : (Fin (startRows (p - 1) n m) × Fin (k + over) → ℝ) → ℝ, (∀ Z, 0 ≤ g Z) ∧
      Integrable g (normals _ (k + over)) ∧
      ∫ Z, g Z ∂(normals _ (k + over)) = idBound n k over t s τ (p - 1).toNat ∧
      ∀ᵐ Z ∂(normals _ (k + over)), ∀ (G : Type) (la : LinAlg) (R : NpRng G) (w : World G),
        NextNormal R w _ _ Z →
        ∃ o w', osid2 la (gaussianOperator R true) A k over p 1 w = .ok (.col o, w') ∧ o.c = k ∧
          fro (A - A.submatrix id o.Js * o.X) ^ 2 ≤ g Z := by
  obtain ⟨g, h0, h1, h2, h3⟩ := C77_osid1_column A hA k over hk hr hk' t ht htk' htk τ hτ p hp
  refine ⟨g, h0, h1, h2, ?_⟩
  filter_upwards [h3] with Z hZ G la R w hw
  obtain ⟨o, w', e1, e2, e4⟩ := hZ G la R w hw
  obtain ⟨X2, f1, f2⟩ := C76_osid2_column la _ A k over w w' o e1
  exact ⟨_, w', f1, e2, (pow_le_pow_left₀ (fro_nonneg _) f2 2).trans e4⟩

/-- **C77** (`osid2`, rows). -/
theorem C77_osid2_row (A : Matrix (Fin m) (Fin n) ℝ)
    {U : Matrix (Fin m) (Fin r) ℝ} {s : Fin r → ℝ} {V : Matrix (Fin n) (Fin r) ℝ} (hA : IsSVD A U s V)
    (k over : ℕ) (hk : 0 < k) (hr : k ≤ A.rank) (hk' : k + over ≤ min m n) (t : ℕ) (ht : t ≤ r) (htk' : t ≤ k)
    (htk : t + 2 ≤ k + over) (τ : ℝ)
    (hτ : ∀ (i : Fin r) (j : Fin t), t ≤ i.1 → s i ≤ τ * s (Fin.castLE ht j)) (p : ℤ) (hp : 1 ≤ p) :
    ∃ g : (Fin (startRows (p - 1) m n) × Fin (k + over) → ℝ) → ℝ, (∀ Z, 0 ≤ g Z) ∧
      Integrable g (normals _ (k + over)) ∧
      ∫ Z, g Z ∂(normals _ (k + over)) = idBound m k over t s τ (p - 1).toNat ∧
      ∀ᵐ Z ∂(normals _ (k + over)), ∀ (G : Type) (la : LinAlg) (R : NpRng G) (w : World G),
        NextNormal R w _ _ Z →
        ∃ o w', osid2 la (gaussianOperator R true) A k over p 0 w = .ok (.row o, w') ∧ o.c = k ∧
          fro (A - o.Z * A.submatrix o.Is id) ^ 2 ≤ g Z := by
  obtain ⟨g, h0, h1, h2, h3⟩ := C77_osid1_row A hA k over hk hr hk' t ht htk' htk τ hτ p hp
  refine ⟨g, h0, h1, h2, ?_⟩
  filter_upwards [h3] with Z hZ G la R w hw
  obtain ⟨o, w', e1, e2, e4⟩ := hZ G la R w hw
  obtain ⟨Z2, f1, f2⟩ := C76_osid2_row la _ A k over w w' o e1
  exact ⟨_, w', f1, e2, (pow_le_pow_left₀ (fro_nonneg _) f2 2).trans e4⟩

/-- **C77** (`tsid1`): the same bound, with the number of columns for `m > n` and of rows otherwise. -/
theorem C77_tsid1 (A : Matrix (Fin m) (Fin n) ℝ)
    {U : Matrix (Fin m) (Fin r) ℝ} {s : Fin r → ℝ} {V : Matrix (Fin n) (Fin r) ℝ} (hA : IsSVD A U s V)
    (k over : ℕ) (hk : 0 < k) (hr : k ≤ A.rank) (hk' : k + over ≤ min m n) (t : ℕ) (ht : t ≤ r) (htk' : t ≤ k)
    (htk : t + 2 ≤ k + over) (τ : ℝ)
    (hτ : ∀ (i : Fin r) (j : Fin t), t ≤ i.1 → s i ≤ τ * s (Fin.castLE ht j)) (p : ℤ) (hp : 1 ≤ p) :
    (m > n → ∃ g : (Fin (startRows (p - 1) n m) × Fin (k + over) → ℝ) → ℝ, (∀ Z, 0 ≤ g Z) ∧
      Integrable g (normals _ (k + over)) ∧
      ∫ Z, g Z ∂(normals _ (k + over)) = idBound n k over t s τ (p - 1).toNat ∧
      ∀ᵐ Z ∂(normals _ (k + over)), ∀ (G : Type) (la : LinAlg) (R : NpRng G) (w : World G),
        NextNormal R w _ _ Z →
        ∃ o w', tsid1 la (gaussianOperator R true) A k over p w = .ok (o, w') ∧ o.row.c = k ∧ o.col.c = k ∧
          fro (A - o.row.Z * A.submatrix o.row.Is o.col.Js * o.col.X) ^ 2 ≤ g Z) ∧
    (m ≤ n → ∃ g : (Fin (startRows (p - 1) m n) × Fin (k + over) → ℝ) → ℝ, (∀ Z, 0 ≤ g Z) ∧
      Integrable g (normals _ (k + over)) ∧
      ∫ Z, g Z ∂(normals _ (k + over)) = idBound m k over t s τ (p - 1).toNat ∧
      ∀ᵐ Z ∂(normals _ (k + over)), ∀ (G : Type) (la : LinAlg) (R : NpRng G) (w : World G),
        NextNormal R w _ _ Z →
        ∃ o w', tsid1 la (gaussianOperator R true) A k over p w = .ok (o, w') ∧ o.row.c = k ∧ o.col.c = k ∧
          fro (A - o.row.Z * A.submatrix o.row.Is o.col.Js * o.col.X) ^ 2 ≤ g Z) := by
  constructor
  · intro hmn
    obtain ⟨g, h0, h1, h2, h3⟩ := id_expected_col A hA k over hk hr hk' t ht htk' htk τ hτ (p - 1) (by omega)
    refine ⟨g, h0, h1, h2, ?_⟩
    filter_upwards [h3] with Z hZ G la R w hw
    obtain ⟨o, w', e1, e2, e3, e4⟩ := hZ G la R w hw
    have hrk : (A.submatrix id o.Js).rank = k := by rw [← e2]; exact e3
    obtain ⟨x, hx⟩ := (qrcpCol_cases la (A.submatrix id o.Js)ᵀ k).1 (by rw [rank_transpose, hrk])
    have hts : tsid1 la (gaussianOperator R true) A k over p w = .ok (⟨RowID.ofCol x, o⟩, w') :=
      (tsid1_tall hmn).2 ⟨e1, qrcpRow_ok.2 ⟨x, hx, rfl⟩⟩
    obtain ⟨f1, f2, -, -, f5⟩ := C21_tsid1 la _ A k over p w w' _ hts
    rw [if_pos hmn] at f5
    refine ⟨_, w', hts, f1, f2, ?_⟩
    rw [f5]
    exact e4
  · intro hmn
    obtain ⟨g, h0, h1, h2, h3⟩ := id_expected_row A hA k over hk hr hk' t ht htk' htk τ hτ (p - 1) (by omega)
    refine ⟨g, h0, h1, h2, ?_⟩
    filter_upwards [h3] with Z hZ G la R w hw
    obtain ⟨o, w', e1, e2, e3, e4⟩ := hZ G la R w hw
    have hrk : (A.submatrix o.Is id).rank = k := by
      rw [← rank_transpose, ← e2]; exact e3
    obtain ⟨x, hx⟩ := (qrcpCol_cases la (A.submatrix o.Is id) k).1 hrk.ge
    have hts : tsid1 la (gaussianOperator R true) A k over p w = .ok (⟨o, x⟩, w') :=
      (tsid1_wide (by omega)).2 ⟨e1, hx⟩
    obtain ⟨f1, f2, -, -, f5⟩ := C21_tsid1 la _ A k over p w w' _ hts
    rw [if_neg (by omega)] at f5
    refine ⟨_, w', hts, f1, f2, ?_⟩
    rw [f5]
    exact e4

/-- **C77** (`cur1`), which spends one pass less on its sketch (`p ≥ 2`): the bound grows by the factor
`(1 + √(k + (m-k)(4^k-1)/3))²` of `C76` (tall), or the same with `n` for `m` (wide). -/
theorem C77_cur1 (A : Matrix (Fin m) (Fin n) ℝ)
    {U : Matrix (Fin m) (Fin r) ℝ} {s : Fin r → ℝ} {V : Matrix (Fin n) (Fin r) ℝ} (hA : IsSVD A U s V)
    (k over : ℕ) (hk : 0 < k) (hr : k ≤ A.rank) (hk' : k + over ≤ min m n) (t : ℕ) (ht : t ≤ r) (htk' : t ≤ k)
    (htk : t + 2 ≤ k + over) (τ : ℝ)
    (hτ : ∀ (i : Fin r) (j : Fin t), t ≤ i.1 → s i ≤ τ * s (Fin.castLE ht j)) (p : ℤ) (hp : 2 ≤ p) :
    (m > n → ∃ g : (Fin (startRows (p - 2) n m) × Fin (k + over) → ℝ) → ℝ, (∀ Z, 0 ≤ g Z) ∧
      Integrable g (normals _ (k + over)) ∧
      ∫ Z, g Z ∂(normals _ (k + over)) =
        (1 + √(k + pivotGrowth m k)) ^ 2 * idBound n k over t s τ (p - 2).toNat ∧
      ∀ᵐ Z ∂(normals _ (k + over)), ∀ (G : Type) (la : LinAlg) (R : NpRng G) (w : World G),
        NextNormal R w _ _ Z →
        ∃ o w', cur1 la (gaussianOperator R true) A k over p w = .ok (o, w') ∧
          fro (A - A.submatrix id o.Js * o.U * A.submatrix o.Is id) ^ 2 ≤ g Z) ∧
    (m ≤ n → ∃ g : (Fin (startRows (p - 2) m n) × Fin (k + over) → ℝ) → ℝ, (∀ Z, 0 ≤ g Z) ∧
      Integrable g (normals _ (k + over)) ∧
      ∫ Z, g Z ∂(normals _ (k + over)) =
        (1 + √(k + pivotGrowth n k)) ^ 2 * idBound m k over t s τ (p - 2).toNat ∧
      ∀ᵐ Z ∂(normals _ (k + over)), ∀ (G : Type) (la : LinAlg) (R : NpRng G) (w : World G),
        NextNormal R w _ _ Z →
        ∃ o w', cur1 la (gaussianOperator R true) A k over p w = .ok (o, w') ∧
          fro (A - A.submatrix id o.Js * o.U * A.submatrix o.Is id) ^ 2 ≤ g Z) := by
  constructor
  · intro hmn
    obtain ⟨g, h0, h1, h2, h3⟩ := id_expected_col A hA k over hk hr hk' t ht htk' htk τ hτ (p - 2) (by omega)
    refine ⟨fun Z => (1 + √(k + pivotGrowth m k)) ^ 2 * g Z, fun Z => mul_nonneg (sq_nonneg _) (h0 Z),
      h1.const_mul _, by rw [integral_const_mul, h2], ?_⟩
    filter_upwards [h3] with Z hZ G la R w hw
    obtain ⟨o, w', e1, e2, e3, e4⟩ := hZ G la R w hw
    obtain ⟨out, f1, f2⟩ := C76_cur1_tall la _ A hmn k over w w' o e1 e2 e3
    refine ⟨out, w', f1, (pow_le_pow_left₀ (fro_nonneg _) f2 2).trans ?_⟩
    rw [mul_pow]
    exact mul_le_mul_of_nonneg_left e4 (sq_nonneg _)
  · intro hmn
    obtain ⟨g, h0, h1, h2, h3⟩ := id_expected_row A hA k over hk hr hk' t ht htk' htk τ hτ (p - 2) (by omega)
    refine ⟨fun Z => (1 + √(k + pivotGrowth n k)) ^ 2 * g Z, fun Z => mul_nonneg (sq_nonneg _) (h0 Z),
      h1.const_mul _, by rw [integral_const_mul, h2], ?_⟩
    filter_upwards [h3] with Z hZ G la R w hw
    obtain ⟨o, w', e1, e2, e3, e4⟩ := hZ G la R w hw
    obtain ⟨out, f1, f2⟩ := C76_cur1_wide la _ A hmn k over w w' o e1 e2 e3
    refine ⟨out, w', f1, (pow_le_pow_left₀ (fro_nonneg _) f2 2).trans ?_⟩
    rw [mul_pow]
    exact mul_le_mul_of_nonneg_left e4 (sq_nonneg _)

/-! ### In probability -/

/-- Markov's inequality together with an almost sure statement -/
theorem exceptional {X : Type} [MeasurableSpace X] {μ : Measure X} [IsProbabilityMeasure μ] {g : X → ℝ}
    (h0 : ∀ x, 0 ≤ g x) (h1 : Integrable g μ) {b : ℝ} (h2 : ∫ x, g x ∂μ = b) {δ : ℝ} (hδ : 0 < δ) {P : X → Prop}
    (h3 : ∀ᵐ x ∂μ, P x) : ∃ E : Set X, μ E ≤ ENNReal.ofReal δ ∧ ∀ x ∉ E, P x ∧ g x ≤ b / δ := by
  refine ⟨{x | b / δ < g x} ∪ {x | ¬ P x}, (measure_union_le _ _).trans ?_, fun x hx => ?_⟩
  · rw [ae_iff.1 h3, add_zero]; exact markov h0 h1 h2 hδ
  · rw [Set.mem_union, not_or] at hx
    exact ⟨not_not.1 hx.2, not_lt.1 hx.1⟩

/-- **C77** (`osid1`, columns, in probability). -/
theorem C77_osid1_column_probability (A : Matrix (Fin m) (Fin n) ℝ)
    {U : Matrix (Fin m) (Fin r) ℝ} {s : Fin r → ℝ} {V : Matrix (Fin n) (Fin r) ℝ} (hA : IsSVD A U s V)
    (k over : ℕ) (hk : 0 < k) (hr : k ≤ A.rank) (hk' : k + over ≤ min m n) (t : ℕ) (ht : t ≤ r) (htk' : t ≤ k)
    (htk : t + 2 ≤ k + over) (τ : ℝ)
    (hτ : ∀ (i : Fin r) (j : Fin t), t ≤ i.1 → s i ≤ τ * s (Fin.castLE ht j)) (p : ℤ) (hp : 1 ≤ p)
    (δ : ℝ) (hδ : 0 < δ) :
    ∃ E : Set (Fin (startRows (p - 1) n m) × Fin (k + over) → ℝ), normals _ (k + over) E ≤ ENNReal.ofReal δ ∧
      ∀ Z ∉ E, ∀ (G : Type) (la : LinAlg) (R : NpRng G) (w : World G), NextNormal R w _ _ Z →
        ∃ o w', osid1 la (gaussianOperator R true) A k over p 1 w = .ok (.col o, w') ∧ o.c = k ∧
          fro (A - A.submatrix id o.Js * o.X) ^ 2 ≤ idBound n k over t s τ (p - 1).toNat / δ := by
  obtain ⟨g, h0, h1, h2, h3⟩ := C77_osid1_column A hA k over hk hr hk' t ht htk' htk τ hτ p hp
  obtain ⟨E, hE, h4⟩ := exceptional h0 h1 h2 hδ h3
  refine ⟨E, hE, fun Z hZ G la R w hw => ?_⟩
  obtain ⟨h5, h6⟩ := h4 Z hZ
  obtain ⟨o, w', e1, e2, e3⟩ := h5 G la R w hw
  exact ⟨o, w', e1, e2, e3.trans h6⟩

/-- **C77** (`osid1`, rows, in probability). -/
theorem C77_osid1_row_probability (A : Matrix (Fin m) (Fin n) ℝ)
    {U : Matrix (Fin m) (Fin r) ℝ} {s : Fin r → ℝ} {V : Matrix (Fin n) (Fin r) ℝ} (hA : IsSVD A U s V)
    (k over : ℕ) (hk : 0 < k) (hr : k ≤ A.rank) (hk' : k + over ≤ min m n) (t : ℕ) (ht : t ≤ r) (htk' : t ≤ k)
    (htk : t + 2 ≤ k + over) (τ : ℝ)
    (hτ : ∀ (i : Fin r) (j : Fin t), t ≤ i.1 → s i ≤ τ * s (Fin.castLE ht j)) (p : ℤ) (hp : 1 ≤ p)
    (δ : ℝ) (hδ : 0 < δ) :
    ∃ E : Set (Fin (startRows (p - 1) m n) × Fin (k + over) → ℝ), normals _ (k + over) E ≤ ENNReal.ofReal δ ∧
      ∀ Z ∉ E, ∀ (G : Type) (la : LinAlg) (R : NpRng G) (w : World G), NextNormal R w _ _ Z →
        ∃ o w', osid1 la (gaussianOperator R true) A k over p 0 w = .ok (.row o, w') ∧ o.c = k ∧
          fro (A - o.Z * A.submatrix o.Is id) ^ 2 ≤ idBound m k over t s τ (p - 1).toNat / δ := by
  obtain ⟨g, h0, h1, h2, h3⟩ := C77_osid1_row A hA k over hk hr hk' t ht htk' htk τ hτ p hp
  obtain ⟨E, hE, h4⟩ := exceptional h0 h1 h2 hδ h3
  refine ⟨E, hE, fun Z hZ G la R w hw => ?_⟩
  obtain ⟨h5, h6⟩ := h4 Z hZ
  obtain ⟨o, w', e1, e2, e3⟩ := h5 G la R w hw
  exact ⟨o, w', e1, e2, e3.trans h6⟩

/-- **C77** (`cur1`, in probability). -/
theorem C77_cur1_probability (A : Matrix (Fin m) (Fin n) ℝ)
    {U : Matrix (Fin m) (Fin r) ℝ} {s : Fin r → ℝ} {V : Matrix (Fin n) (Fin r) ℝ} (hA : IsSVD A U s V)
    (k over : ℕ) (hk : 0 < k) (hr : k ≤ A.rank) (hk' : k + over ≤ min m n) (t : ℕ) (ht : t ≤ r) (htk' : t ≤ k)
    (htk : t + 2 ≤ k + over) (τ : ℝ)
    (hτ : ∀ (i : Fin r) (j : Fin t), t ≤ i.1 → s i ≤ τ * s (Fin.castLE ht j)) (p : ℤ) (hp : 2 ≤ p)
    (δ : ℝ) (hδ : 0 < δ) :
    (m > n → ∃ E : Set (Fin (startRows (p - 2) n m) × Fin (k + over) → ℝ),
      normals _ (k + over) E ≤ ENNReal.ofReal δ ∧
      ∀ Z ∉ E, ∀ (G : Type) (la : LinAlg) (R : NpRng G) (w : World G), NextNormal R w _ _ Z →
        ∃ o w', cur1 la (gaussianOperator R true) A k over p w = .ok (o, w') ∧
          fro (A - A.submatrix id o.Js * o.U * A.submatrix o.Is id) ^ 2 ≤
            (1 + √(k + pivotGrowth m k)) ^ 2 * idBound n k over t s τ (p - 2).toNat / δ) ∧
    (m ≤ n → ∃ E : Set (Fin (startRows (p - 2) m n) × Fin (k + over) → ℝ),
      normals _ (k + over) E ≤ ENNReal.ofReal δ ∧
      ∀ Z ∉ E, ∀ (G : Type) (la : LinAlg) (R : NpRng G) (w : World G), NextNormal R w _ _ Z →
        ∃ o w', cur1 la (gaussianOperator R true) A k over p w = .ok (o, w') ∧
          fro (A - A.submatrix id o.Js * o.U * A.submatrix o.Is id) ^ 2 ≤
            (1 + √(k + pivotGrowth n k)) ^ 2 * idBound m k over t s τ (p - 2).toNat / δ) := by
  obtain ⟨c1, c2⟩ := C77_cur1 A hA k over hk hr hk' t ht htk' htk τ hτ p hp
  constructor
  · intro hmn
    obtain ⟨g, h0, h1, h2, h3⟩ := c1 hmn
    obtain ⟨E, hE, h4⟩ := exceptional h0 h1 h2 hδ h3
    refine ⟨E, hE, fun Z hZ G la R w hw => ?_⟩
    obtain ⟨h5, h6⟩ := h4 Z hZ
    obtain ⟨o, w', e1, e2⟩ := h5 G la R w hw
    exact ⟨o, w', e1, e2.trans h6⟩
  · intro hmn
    obtain ⟨g, h0, h1, h2, h3⟩ := c2 hmn
    obtain ⟨E, hE, h4⟩ := exceptional h0 h1 h2 hδ h3
    refine ⟨E, hE, fun Z hZ G la R w hw => ?_⟩
    obtain ⟨h5, h6⟩ := h4 Z hZ
    obtain ⟨o, w', e1, e2⟩ := h5 G la R w hw
    exact ⟨o, w', e1, e2.trans h6⟩

/-- the hypotheses of this file, with and without oversampling, on a matrix of rank four -/
example : IsSVD (diagonal ![4, 3, 2, 1] : Matrix (Fin 4) (Fin 4) ℝ) 1 ![4, 3, 2, 1] 1 ∧
    3 ≤ (diagonal ![4, 3, 2, 1] : Matrix (Fin 4) (Fin 4) ℝ).rank ∧ 3 + 0 ≤ min 4 4 ∧ 3 + 1 ≤ min 4 4 ∧
    1 + 2 ≤ 3 + 0 ∧ 2 + 2 ≤ 3 + 1 ∧
    (∀ (i : Fin 4) (j : Fin 1), 1 ≤ i.1 →
      (![4, 3, 2, 1] : Fin 4 → ℝ) i ≤ 3 / 4 * (![4, 3, 2, 1] : Fin 4 → ℝ) (Fin.castLE (by omega) j)) := by
  refine ⟨⟨?_, ?_, ?_, ?_, ?_⟩, ?_, by omega, by omega, by omega, by omega, ?_⟩
  · show (1 : Matrix (Fin 4) (Fin 4) ℝ)ᵀ * 1 = 1
    simp
  · show (1 : Matrix (Fin 4) (Fin 4) ℝ)ᵀ * 1 = 1
    simp
  · intro i; fin_cases i <;> simp
  · intro i j h
    fin_cases i <;> fin_cases j <;> first | (exfalso; revert h; decide) | (simp; try norm_num)
  · simp
  · have : IsUnit (diagonal ![4, 3, 2, 1] : Matrix (Fin 4) (Fin 4) ℝ) := by
      rw [Matrix.isUnit_iff_isUnit_det, det_diagonal, Fin.prod_univ_four]
      simp
    rw [Matrix.rank_of_isUnit _ this, Fintype.card_fin]
    norm_num
  · intro i j h
    have hj : j = 0 := Subsingleton.elim _ _
    subst hj
    fin_cases i <;> simp at h ⊢ <;> norm_num

end Parla.Props
