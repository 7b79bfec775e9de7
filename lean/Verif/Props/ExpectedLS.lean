import Verif.Props.Expected
import Verif.Props.AlmostSureLS

/-! # C64: sketch-and-solve least squares with a Gaussian sketch, in expectation

With a Gaussian sketch of `d ≥ n + 2` rows the sketch-and-solve solution is an unbiased estimate of the least
squares solution, and its mean squared residual is exactly `1 + n/(d-n-1)` times the optimal one. -/

namespace Parla.Props

open Matrix Parla Spec MeasureTheory

variable {G : Type} {m n d : ℕ}

/-- the solution of the sketched problem and its moments, as statements about the Gaussian array alone -/
theorem sketched_ls_mean (A : Matrix (Fin m) (Fin n) ℝ) (hA : FullColRank A) (b : Fin m → ℝ) (xs : Fin n → ℝ)
    (hxs : Aᵀ *ᵥ (b - A *ᵥ xs) = 0) (hd : n + 2 ≤ d) (hr : b - A *ᵥ xs ≠ 0) :
    ∃ X : (Fin d × Fin m → ℝ) → Fin n → ℝ,
      (∀ j, Integrable (fun Z => X Z j) (normals d m) ∧ ∫ Z, X Z j ∂(normals d m) = xs j) ∧
      Integrable (fun Z => sqNorm (A *ᵥ X Z - b)) (normals d m) ∧
      ∫ Z, sqNorm (A *ᵥ X Z - b) ∂(normals d m) =
        (1 + n / ((d : ℝ) - n - 1)) * sqNorm (A *ᵥ xs - b) ∧
      ∀ᵐ Z ∂(normals d m), (Proof.drawMat Z * A)ᵀ *ᵥ (Proof.drawMat Z *ᵥ b - (Proof.drawMat Z * A) *ᵥ X Z) = 0 := by
  obtain ⟨c, Q, hc, hQ, hAQ⟩ := Proof.exists_orth_basis A
  have hQA : Q * (Qᵀ * A) = A := proj_of_colSpace hQ hAQ
  have hcn : c = n := by
    have h1 : A.rank ≤ c := by
      conv_lhs => rw [← hQA]
      exact (rank_mul_le_left _ _).trans ((rank_le_card_width _).trans (by simp))
    unfold FullColRank at hA
    omega
  subst hcn
  obtain ⟨M, hM⟩ : ∃ M, M = Qᵀ * A := ⟨_, rfl⟩
  rw [← hM] at hQA
  have hMdet : IsUnit M.det := by
    rw [isUnit_iff_ne_zero]
    intro h0
    obtain ⟨v, hv, hv0⟩ := exists_mulVec_eq_zero_iff.2 h0
    refine hv (fullColRank_iff_inj.1 hA v ?_)
    rw [← hQA, ← mulVec_mulVec, hv0, mulVec_zero]
  obtain ⟨ρ, hρ⟩ : ∃ ρ, ρ = norm2 (b - A *ᵥ xs) := ⟨_, rfl⟩
  have hρ0 : 0 < ρ := hρ ▸ norm2_pos.2 hr
  obtain ⟨u, hu⟩ : ∃ u, u = ρ⁻¹ • (b - A *ᵥ xs) := ⟨_, rfl⟩
  have hbu : b = A *ᵥ xs + ρ • u := by
    rw [hu, smul_smul, mul_inv_cancel₀ hρ0.ne', one_smul]; abel
  have hu1 : sqNorm u = 1 := by
    rw [hu, sqNorm_smul, ← norm2_sq, ← hρ, inv_pow, inv_mul_cancel₀ (by positivity)]
  have hQu : Qᵀ *ᵥ u = 0 := by
    have h1 : Mᵀ *ᵥ (Qᵀ *ᵥ u) = 0 := by
      rw [mulVec_mulVec, ← transpose_mul, hQA, hu, mulVec_smul, hxs, smul_zero]
    have h2 : IsUnit Mᵀ.det := by rwa [det_transpose]
    have := congrArg (fun v => Mᵀ⁻¹ *ᵥ v) h1
    simp only [mulVec_mulVec, mulVec_zero] at this
    rwa [← Matrix.mul_assoc, Matrix.nonsing_inv_mul _ h2, Matrix.one_mul] at this
  obtain ⟨N, hN⟩ : ∃ N : Matrix (Fin m) (Fin 1) ℝ, N = Matrix.of fun i _ => u i := ⟨_, rfl⟩
  have hNN : Nᵀ * N = 1 := by
    ext i j
    rw [Subsingleton.elim i j, one_apply_eq, Matrix.mul_apply, ← hu1]
    simp [hN, sqNorm, sq]
  have hQN : Qᵀ * N = 0 := by
    ext i j
    have := congrFun hQu i
    rw [Matrix.mul_apply]
    simpa [hN, mulVec, dotProduct] using this
  have hP : (hcat Q N)ᵀ * hcat Q N = 1 := hcat_orth hQ hNN hQN
  have hmp := (Proof.gauss_map_rows (k := d) hP).comp (Proof.gauss_map_transpose (a := d) (k := m))
  obtain ⟨D, hD⟩ : ∃ D : Matrix (Fin 1) (Fin 1) ℝ, D = Matrix.of fun _ _ => ρ := ⟨_, rfl⟩
  obtain ⟨⟨i1, i2⟩, i3⟩ := Proof.mean_pinv_rows (t := c) (a := 1) hd D
  obtain ⟨f, hf⟩ : ∃ f : (Fin d × Fin m → ℝ) → Fin c → ℝ,
      f = fun Z => ρ • ((Proof.rpinv (Qᵀ * (Proof.drawMat Z)ᵀ))ᵀ *ᵥ (Proof.drawMat Z *ᵥ u)) := ⟨_, rfl⟩
  obtain ⟨T, hT⟩ : ∃ T : (Fin d × Fin m → ℝ) → Fin (c + 1) × Fin d → ℝ,
      T = fun Z => Proof.entries ((hcat Q N)ᵀ * Proof.drawMat (Proof.entries (Proof.drawMat Z)ᵀ)) := ⟨_, rfl⟩
  have hmp : MeasurePreserving T (normals d m) (Proof.gauss (Fin (c + 1) × Fin d)) := by rw [hT]; exact hmp
  have hfF : ∀ Z j, (D * (Proof.drawMat (T Z)).submatrix (Fin.natAdd c) id *
      Proof.rpinv ((Proof.drawMat (T Z)).submatrix (Fin.castAdd 1) id)) 0 j = f Z j := by
    intro Z j
    have e1 : (Proof.drawMat (T Z)).submatrix (Fin.castAdd 1) id = Qᵀ * (Proof.drawMat Z)ᵀ := by
      rw [hT]
      simp only [Proof.drawMat_entries, hcat_transpose, vcat_mul]
      ext i j; simp
    have e2 : (Proof.drawMat (T Z)).submatrix (Fin.natAdd c) id = Nᵀ * (Proof.drawMat Z)ᵀ := by
      rw [hT]
      simp only [Proof.drawMat_entries, hcat_transpose, vcat_mul]
      ext i j; simp
    rw [e1, e2, hf, Matrix.mul_apply]
    simp only [Pi.smul_apply, smul_eq_mul, mulVec, dotProduct, transpose_apply, Finset.mul_sum]
    refine Finset.sum_congr rfl fun k _ => ?_
    rw [Matrix.mul_apply]
    simp only [Finset.univ_unique, Finset.sum_singleton, hD, of_apply, Matrix.mul_apply, hN, transpose_apply,
      Finset.mul_sum, Finset.sum_mul]
    refine Finset.sum_congr rfl fun l _ => ?_
    ring
  have hfi : ∀ j, Integrable (fun Z => f Z j) (normals d m) ∧ ∫ Z, f Z j ∂(normals d m) = 0 := by
    intro j
    obtain ⟨j1, j2⟩ := i3 0 j
    have k1 := hmp.integrable_comp_of_integrable j1
    have k2 := mp_integral hmp j1
    rw [j2] at k2
    simp only [Function.comp_def, hfF] at k1 k2
    exact ⟨k1, k2⟩
  have hfs : ∀ Z, Parla.froSq (D * (Proof.drawMat (T Z)).submatrix (Fin.natAdd c) id *
      Proof.rpinv ((Proof.drawMat (T Z)).submatrix (Fin.castAdd 1) id)) = sqNorm (f Z) := by
    intro Z
    unfold Parla.froSq sqNorm
    rw [Finset.univ_unique, Finset.sum_singleton]
    refine Finset.sum_congr rfl fun j _ => ?_
    rw [← hfF Z j]; rfl
  have hfq : Integrable (fun Z => sqNorm (f Z)) (normals d m) ∧
      ∫ Z, sqNorm (f Z) ∂(normals d m) = ρ ^ 2 * (c / ((d : ℝ) - c - 1)) := by
    have k1 := hmp.integrable_comp_of_integrable i1
    have k2 := mp_integral hmp i1
    rw [i2] at k2
    simp only [Function.comp_def, hfs] at k1 k2
    refine ⟨k1, k2.trans ?_⟩
    congr 1
    simp [Parla.froSq, hD]
  have hX : ∀ v, A *ᵥ (xs + M⁻¹ *ᵥ v) = A *ᵥ xs + Q *ᵥ v := by
    intro v
    rw [mulVec_add, mulVec_mulVec]
    congr 2
    conv_lhs => rw [← hQA]
    rw [Matrix.mul_assoc, Matrix.mul_nonsing_inv _ hMdet, Matrix.mul_one]
  have hobj : ∀ v, sqNorm (A *ᵥ (xs + M⁻¹ *ᵥ v) - b) = sqNorm (A *ᵥ xs - b) + sqNorm v := by
    intro v
    have h1 := lsq_of_normal hxs (xs + M⁻¹ *ᵥ v)
    rw [← sqNorm_neg (_ - b), neg_sub, h1, ← sqNorm_neg (_ - b), neg_sub]
    congr 1
    rw [mulVec_sub, hX, sub_add_cancel_left, sqNorm_neg, sqNorm_orth_mulVec hQ]
  have hρs : ρ ^ 2 = sqNorm (A *ᵥ xs - b) := by
    rw [hρ, norm2_sq, ← sqNorm_neg, neg_sub]
  refine ⟨fun Z => xs + M⁻¹ *ᵥ f Z, fun j => ?_, ?_, ?_, ?_⟩
  · have hi : Integrable (fun Z => ∑ l, M⁻¹ j l * f Z l) (normals d m) :=
      integrable_finsetSum _ fun l _ => (hfi l).1.const_mul _
    refine ⟨(integrable_const _).add hi, ?_⟩
    have h0 : ∫ Z, ∑ l, M⁻¹ j l * f Z l ∂(normals d m) = 0 := by
      rw [integral_finsetSum _ fun l _ => (hfi l).1.const_mul _]
      refine Finset.sum_eq_zero fun l _ => ?_
      rw [integral_const_mul, (hfi l).2, mul_zero]
    have := mean_const_add hi (xs j) h0
    rw [add_zero] at this
    exact this
  · simp only [hobj]
    exact (integrable_const _).add hfq.1
  · simp only [hobj]
    rw [mean_const_add hfq.1 _ hfq.2, hρs]
    ring
  · have hdet : ∀ᵐ Z ∂(normals d m), (Qᵀ * (Proof.drawMat Z)ᵀ * (Qᵀ * (Proof.drawMat Z)ᵀ)ᵀ).det ≠ 0 := by
      have hm2 := (Proof.gauss_map_rows (k := d) hQ).comp (Proof.gauss_map_transpose (a := d) (k := m))
      exact hm2.quasiMeasurePreserving.ae (Proof.gram_det_ae c d (by omega))
    filter_upwards [hdet] with Z hZ
    obtain ⟨H, hH⟩ : ∃ H, H = Qᵀ * (Proof.drawMat Z)ᵀ := ⟨_, rfl⟩
    have hHt : Proof.drawMat Z * Q = Hᵀ := by rw [hH, transpose_mul, transpose_transpose, transpose_transpose]
    rw [← hH] at hZ
    have hres : Proof.drawMat Z *ᵥ b - (Proof.drawMat Z * A) *ᵥ (xs + M⁻¹ *ᵥ f Z) =
        ρ • (Proof.drawMat Z *ᵥ u) - Hᵀ *ᵥ f Z := by
      rw [← mulVec_mulVec, hX, hbu, mulVec_add, mulVec_add, mulVec_smul, mulVec_mulVec _ _ Q, hHt]
      abel
    rw [hres]
    have hZA : (Proof.drawMat Z * A)ᵀ = Mᵀ * H := by
      rw [← hQA, ← Matrix.mul_assoc, hHt, transpose_mul, transpose_transpose]
    rw [hZA, ← mulVec_mulVec, mulVec_sub, mulVec_smul, hf]
    simp only [← hH]
    have hpin : H * (Hᵀ * (Proof.rpinv H)ᵀ) = H := by
      have : Proof.rpinv H * (H * Hᵀ) = Hᵀ := by
        unfold Proof.rpinv
        rw [Matrix.mul_assoc, Matrix.nonsing_inv_mul _ (isUnit_iff_ne_zero.2 hZ), Matrix.mul_one]
      have := congrArg transpose this
      rwa [transpose_mul, transpose_mul, transpose_transpose, Matrix.mul_assoc] at this
    rw [mulVec_smul, mulVec_smul, mulVec_mulVec, mulVec_mulVec, mulVec_mulVec, Matrix.mul_assoc, ← Matrix.mul_assoc H]
    rw [show H * Hᵀ * (Proof.rpinv H)ᵀ = H by rw [Matrix.mul_assoc]; exact hpin]
    simp

/-- the same including consistent systems, with the sketched matrix of full rank -/
theorem sketched_ls (A : Matrix (Fin m) (Fin n) ℝ) (hA : FullColRank A) (b : Fin m → ℝ) (xs : Fin n → ℝ)
    (hxs : IsRidgeMin A b 0 xs) (hd : n + 2 ≤ d) :
    ∃ X : (Fin d × Fin m → ℝ) → Fin n → ℝ,
      (∀ j, Integrable (fun Z => X Z j) (normals d m) ∧ ∫ Z, X Z j ∂(normals d m) = xs j) ∧
      Integrable (fun Z => sqNorm (A *ᵥ X Z - b)) (normals d m) ∧
      ∫ Z, sqNorm (A *ᵥ X Z - b) ∂(normals d m) =
        (1 + n / ((d : ℝ) - n - 1)) * sqNorm (A *ᵥ xs - b) ∧
      ∀ᵐ Z ∂(normals d m), FullColRank (Proof.drawMat Z * A) ∧
        (Proof.drawMat Z * A)ᵀ *ᵥ (Proof.drawMat Z *ᵥ b - (Proof.drawMat Z * A) *ᵥ X Z) = 0 := by
  have hxs' : Aᵀ *ᵥ (b - A *ᵥ xs) = 0 := by
    have := normal_of_ridge LinAlg.ref le_rfl hxs
    rwa [zero_smul, sub_zero] at this
  have hfull : ∀ᵐ Z ∂(normals d m), FullColRank (Proof.drawMat Z * A) := by
    filter_upwards [Proof.ae_rank_mul_left (μ := stdNormal) A d] with Z hZ
    unfold FullColRank at hA ⊢
    rw [hZ, hA]; omega
  by_cases hr : b - A *ᵥ xs = 0
  · have hb : A *ᵥ xs - b = 0 := by rw [← neg_sub, hr, neg_zero]
    refine ⟨fun _ => xs, fun j => ⟨integrable_const _, by simp⟩, integrable_const _, ?_, ?_⟩
    · simp [hb, sqNorm_zero']
    · filter_upwards [hfull] with Z hZ
      refine ⟨hZ, ?_⟩
      rw [← mulVec_mulVec _ _ A, ← mulVec_sub, hr, mulVec_zero, mulVec_zero]
  · obtain ⟨X, h1, h2, h3, h4⟩ := sketched_ls_mean A hA b xs hxs' hd hr
    refine ⟨X, h1, h2, h3, ?_⟩
    filter_upwards [h4, hfull] with Z e1 e2 using ⟨e2, e1⟩

/-- the solution of the sketched problem does not depend on the scale of the sketch -/
theorem sketched_unique {S : Matrix (Fin d) (Fin m) ℝ} {A : Matrix (Fin m) (Fin n) ℝ} {b : Fin m → ℝ}
    {x z : Fin n → ℝ} {t : ℝ} (ht : t ≠ 0) (hf : FullColRank (S * A))
    (hx : (S * A)ᵀ *ᵥ (S *ᵥ b - (S * A) *ᵥ x) = 0) (hz : IsRidgeMin ((t • S) * A) ((t • S) *ᵥ b) 0 z) : z = x := by
  have h1 := normal_of_ridge LinAlg.ref le_rfl hz
  rw [zero_smul, sub_zero, smul_mul, transpose_smul, smul_mulVec, smul_mulVec, smul_mulVec, ← smul_sub, mulVec_smul,
    smul_smul] at h1
  have h2 : (S * A)ᵀ *ᵥ (S *ᵥ b - (S * A) *ᵥ z) = 0 := (smul_eq_zero.1 h1).resolve_left (mul_ne_zero ht ht)
  have h3 := lsq_of_normal hx z
  have h4 := lsq_of_normal h2 x
  have h5 : sqNorm ((S * A) *ᵥ (x - z)) = 0 := by
    have e1 := sqNorm_nonneg ((S * A) *ᵥ (x - z))
    have e2 := sqNorm_nonneg ((S * A) *ᵥ (z - x))
    linarith
  exact (sub_eq_zero.1 (fullColRank_iff_inj.1 hf _ (sqNorm_eq_zero.1 h5))).symm

/-- **C64** (`SSO1` with a Gaussian sketch).  Let `A` have full column rank, `xs` be the least squares solution and
`d = min(int(sampling_factor * n), m) ≥ n + 2`.  Then what `SSO1(A, b, 0)` returns is, for almost every draw, a
function `X` of the draw; its mean is `xs`, and the mean of `‖A X - b‖²` is exactly `1 + n/(d-n-1)` times the optimal
value. -/
theorem C64_sso1 (A : Matrix (Fin m) (Fin n) ℝ) (hA : FullColRank A) (hn : 0 < n) (b : Fin m → ℝ)
    (xs : Fin n → ℝ) (hxs : IsRidgeMin A b 0 xs) (sf : ℝ) (hd : n + 2 ≤ sketchRows sf m n) :
    ∃ X : (Fin (sketchRows sf m n) × Fin m → ℝ) → Fin n → ℝ,
      (∀ᵐ Z ∂(normals _ m), ∀ (G : Type) (la : LinAlg) (R : NpRng G) (w : World G) (tol : Tol) (L : ℤ),
        NextNormal R w _ _ Z →
        ∃ w', sso1Call la (gaussianOperator R true) sf A b 0 tol L w = .ok (X Z, w')) ∧
      (∀ j, Integrable (fun Z => X Z j) (normals _ m) ∧ ∫ Z, X Z j ∂(normals _ m) = xs j) ∧
      Integrable (fun Z => sqNorm (A *ᵥ X Z - b)) (normals _ m) ∧
      ∫ Z, sqNorm (A *ᵥ X Z - b) ∂(normals _ m) =
        (1 + n / ((sketchRows sf m n : ℝ) - n - 1)) * sqNorm (A *ᵥ xs - b) := by
  obtain ⟨X, h1, h2, h3, h4⟩ := sketched_ls A hA b xs hxs hd
  refine ⟨X, ?_, h1, h2, h3⟩
  have hmn : n ≤ m := by unfold sketchRows at hd; omega
  have hsf : (n : ℤ) ≤ pyInt (sf * n) := by unfold sketchRows at hd; omega
  filter_upwards [h4] with Z ⟨hf, hX⟩ G la R w tol L hw
  rw [sso1_eq]
  obtain ⟨dd, hdd, e1, e2, e3⟩ := (C35_dim_checks sf m n { w with warns := w.warns + sso1Warns tol L }).2 hmn hsf
  obtain rfl : dd = sketchRows sf m n := by unfold sketchRows; omega
  have hw' : NextNormal R { w with warns := w.warns + sso1Warns tol L + if (m : ℤ) < pyInt (sf * n) then 1 else 0 }
    _ _ Z := hw
  obtain ⟨t, ht, hgen⟩ := gaussian_next R (by omega) hw'
  rw [Py.bind_eq_of_ok hdd, Py.bind_eq_of_ok hgen]
  obtain ⟨k1, -⟩ := lstsqv_lift la ((t • Proof.drawMat Z) * A) ((t • Proof.drawMat Z) *ᵥ b) le_rfl
  have := sketched_unique ht hf hX (ridge_of_normal le_rfl k1)
  rw [← this]
  exact ⟨_, rfl⟩

/-- **C64** (with high probability).  Except for draws of probability at most `ε`, the squared residual of what
`SSO1(A, b, 0)` returns is at most `1 + n/((d-n-1) ε)` times the optimal one. -/
theorem C64_sso1_probability (A : Matrix (Fin m) (Fin n) ℝ) (hA : FullColRank A) (hn : 0 < n) (b : Fin m → ℝ)
    (xs : Fin n → ℝ) (hxs : IsRidgeMin A b 0 xs) (sf : ℝ) (hd : n + 2 ≤ sketchRows sf m n) (ε : ℝ) (hε : 0 < ε) :
    ∃ E : Set (Fin (sketchRows sf m n) × Fin m → ℝ), normals _ m E ≤ ENNReal.ofReal ε ∧
      ∀ Z ∉ E, ∀ (G : Type) (la : LinAlg) (R : NpRng G) (w : World G) (tol : Tol) (L : ℤ), NextNormal R w _ _ Z →
        ∃ x w', sso1Call la (gaussianOperator R true) sf A b 0 tol L w = .ok (x, w') ∧
          sqNorm (A *ᵥ x - b) ≤
            (1 + n / ((sketchRows sf m n : ℝ) - n - 1) / ε) * sqNorm (A *ᵥ xs - b) := by
  obtain ⟨X, h1, -, h3, h4⟩ := C64_sso1 A hA hn b xs hxs sf hd
  have h0 : ∀ Z, 0 ≤ sqNorm (A *ᵥ X Z - b) - sqNorm (A *ᵥ xs - b) := fun Z => by
    have := hxs (X Z)
    rw [zero_mul, zero_mul, add_zero, add_zero] at this
    linarith
  have hi : Integrable (fun Z => sqNorm (A *ᵥ X Z - b) - sqNorm (A *ᵥ xs - b)) (normals _ m) :=
    h3.sub (integrable_const _)
  have hm : ∫ Z, (sqNorm (A *ᵥ X Z - b) - sqNorm (A *ᵥ xs - b)) ∂(normals _ m) =
      n / ((sketchRows sf m n : ℝ) - n - 1) * sqNorm (A *ᵥ xs - b) := by
    rw [integral_sub h3 (integrable_const _), h4]
    simp
    ring
  have hmk := markov h0 hi hm hε
  obtain ⟨c, hc⟩ : ∃ c, c = n / ((sketchRows sf m n : ℝ) - n - 1) * sqNorm (A *ᵥ xs - b) := ⟨_, rfl⟩
  rw [← hc] at hmk
  refine ⟨{Z | c / ε < sqNorm (A *ᵥ X Z - b) - sqNorm (A *ᵥ xs - b)} ∪
    {Z | ¬ ∀ (G : Type) (la : LinAlg) (R : NpRng G) (w : World G) (tol : Tol) (L : ℤ),
        NextNormal R w _ _ Z →
        ∃ w', sso1Call la (gaussianOperator R true) sf A b 0 tol L w = .ok (X Z, w')},
    (measure_union_le _ _).trans ?_, fun Z hZ G la R w tol L hw => ?_⟩
  · rw [ae_iff.1 h1, add_zero]; exact hmk
  · rw [Set.mem_union, not_or] at hZ
    obtain ⟨hZ1, hZ2⟩ := hZ
    obtain ⟨w', e1⟩ := (not_not.1 hZ2) G la R w tol L hw
    refine ⟨X Z, w', e1, ?_⟩
    have hZ1 : sqNorm (A *ᵥ X Z - b) - sqNorm (A *ᵥ xs - b) ≤ c / ε := not_lt.1 hZ1
    rw [add_mul, one_mul, div_mul_eq_mul_div, ← hc]
    linarith

/-- **C64** (`SPO` with a Gaussian sketch, QR or Cholesky mode).  Under the same conditions there is a function `g` of
the draw with mean `1 + n/(d-n-1)` times the optimal value, such that for almost every draw and every `iter_lim ≥ 0`
(even 0): without logging `SPO(A, b, 0)` returns an `x` with `‖A x - b‖² ≤ g`; with logging the same, or ValueError. -/
theorem C64_spo (A : Matrix (Fin m) (Fin n) ℝ) (hA : FullColRank A) (hn : 0 < n) (b : Fin m → ℝ)
    (xs : Fin n → ℝ) (hxs : IsRidgeMin A b 0 xs) (sf : ℝ) (hd : n + 2 ≤ sketchRows sf m n) :
    ∃ g : (Fin (sketchRows sf m n) × Fin m → ℝ) → ℝ, (∀ Z, sqNorm (A *ᵥ xs - b) ≤ g Z) ∧
      Integrable g (normals _ m) ∧
      ∫ Z, g Z ∂(normals _ m) = (1 + n / ((sketchRows sf m n : ℝ) - n - 1)) * sqNorm (A *ᵥ xs - b) ∧
      ∀ᵐ Z ∂(normals _ m), ∀ (G : Type) (la : LinAlg) (R : NpRng G) (w : World G) (tol : ℝ) (L : ℤ)
        (clock : LogTimes) (mode : SPOMode), 0 ≤ L → mode = .qr ∨ mode = .chol → NextNormal R w _ _ Z →
        (∃ out w' x, spoCall la (gaussianOperator R true) sf mode A b 0 tol L false clock w = .ok (out, w') ∧
          out.x = some x ∧ sqNorm (A *ᵥ x - b) ≤ g Z) ∧
        ((∃ out w' x lg, spoCall la (gaussianOperator R true) sf mode A b 0 tol L true clock w = .ok (out, w') ∧
            out.x = some x ∧ out.log = some lg ∧ sqNorm (A *ᵥ x - b) ≤ g Z) ∨
          spoCall la (gaussianOperator R true) sf mode A b 0 tol L true clock w = .error .value) := by
  obtain ⟨X, h1, h2, h3, h4⟩ := sketched_ls A hA b xs hxs hd
  refine ⟨fun Z => sqNorm (A *ᵥ X Z - b), fun Z => ?_, h2, h3, ?_⟩
  · have := hxs (X Z)
    rw [zero_mul, zero_mul, add_zero, add_zero] at this
    exact this
  have hmn : n ≤ m := by unfold sketchRows at hd; omega
  have hsf : (n : ℤ) ≤ pyInt (sf * n) := by unfold sketchRows at hd; omega
  filter_upwards [h4] with Z ⟨hf, hX⟩ G la R w tol L clock mode hL hm hw
  obtain ⟨dd, hdd, e1, e2, e3⟩ := (C35_dim_checks sf m n w).2 hmn hsf
  obtain rfl : dd = sketchRows sf m n := by unfold sketchRows; omega
  have hw' : NextNormal R { w with warns := w.warns + if (m : ℤ) < pyInt (sf * n) then 1 else 0 } _ _ Z := hw
  obtain ⟨t, ht, hgen⟩ := gaussian_next R (by omega) hw'
  have hft : FullColRank ((t • Proof.drawMat Z) * A) := by
    rw [smul_mul]; exact (fullColRank_smul ht).2 hf
  have hfl := aLift_full_of_full _ 0 hft
  have hmin : IsRidgeMin ((t • Proof.drawMat Z) * A) ((t • Proof.drawMat Z) *ᵥ b) 0 (X Z) := by
    obtain ⟨k1, -⟩ := lstsqv_lift la ((t • Proof.drawMat Z) * A) ((t • Proof.drawMat Z) *ᵥ b) le_rfl
    have k2 := ridge_of_normal le_rfl k1
    rwa [sketched_unique ht hf hX k2] at k2
  constructor
  · obtain ⟨out, x, g1, g2, -, g4⟩ := spo_unlogged la _ sf A b 0 tol le_rfl L hL clock w _ _ hn _
      hdd hgen e1 mode hm hfl
    have := g4 _ hmin
    rw [zero_mul, zero_mul, add_zero, add_zero] at this
    exact ⟨out, _, x, g1, g2, this⟩
  · obtain ⟨x0, g1, g2, g3⟩ := spo_outcomes la _ sf A b 0 tol le_rfl L hL clock w _ _ hn _
      hdd hgen e1 mode hm hfl
    by_cases h0 : IsRidgeMin A b 0 x0
    · exact Or.inr (g2 h0)
    · obtain ⟨out, x, lg, k1, k2, k3, k4⟩ := g3 h0
      refine Or.inl ⟨out, _, x, lg, k1, k2, k3, ?_⟩
      rw [zero_mul, zero_mul, add_zero, add_zero] at k4
      refine k4.trans ?_
      rcases g1 with ⟨g1, -⟩ | ⟨rfl, g1⟩
      · rw [sketched_unique ht hf hX g1]
      · have := g1 _ hmin
        rw [zero_mul, add_zero] at this
        refine le_trans (le_of_eq ?_) this
        simp [sqNorm]

/-- the hypotheses are met by a `5 × 1` matrix, `b` outside its range, and `sampling_factor = 4` -/
example : FullColRank (Matrix.of ![![1], ![0], ![0], ![0], ![0]] : Matrix (Fin 5) (Fin 1) ℝ) ∧
    IsRidgeMin (Matrix.of ![![1], ![0], ![0], ![0], ![0]] : Matrix (Fin 5) (Fin 1) ℝ) ![2, 1, 0, 0, 0] 0 ![2] ∧
    1 + 2 ≤ sketchRows 4 5 1 := by
  refine ⟨?_, ?_, ?_⟩
  · refine fullColRank_iff_inj.2 fun x hx => ?_
    have := congrFun hx 0
    ext i
    rw [Subsingleton.elim i 0]
    simpa [mulVec, dotProduct] using this
  · intro z
    simp [sqNorm, mulVec, dotProduct, Fin.sum_univ_five]
    nlinarith [sq_nonneg (z 0 - 2)]
  · have : pyInt (4 * ((1 : ℕ) : ℝ)) = 4 := by
      unfold pyInt
      norm_num
    unfold sketchRows
    rw [this]; decide

end Parla.Props
