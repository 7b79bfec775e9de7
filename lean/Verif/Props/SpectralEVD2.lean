import Verif.Proof.SpecNystrom
import Verif.Props.SpectralTail
import Verif.Props.EVD2Error
import Verif.Proof.RoundingPCG

/-! # C95 for `EVD2` and `evd2` -/

namespace Parla.Props

open Matrix Parla Spec MeasureTheory
open Parla.Proof

variable {G : Type} {n : ℕ}

private theorem specNorm_add {m p : ℕ} {E F : Matrix (Fin m) (Fin p) ℝ} {e f : ℝ} (hE : SpecNormLE E e) (hF : SpecNormLE F f) :
    SpecNormLE (E + F) (e + f) := by
  intro x
  rw [add_mulVec, add_mul]
  exact (norm2_add_le _ _).trans (add_le_add (hE x) (hF x))

private theorem specNorm_diag {p : ℕ} {U : Matrix (Fin n) (Fin p) ℝ} (hU : Uᵀ * U = 1) {d : Fin p → ℝ} {e : ℝ} (he : 0 ≤ e)
    (hd : ∀ i, |d i| ≤ e) : SpecNormLE (U * diagonal d * Uᵀ) e := by
  intro x
  rw [← mulVec_mulVec, ← mulVec_mulVec]
  unfold norm2
  rw [sqNorm_orth_mulVec hU, sqNorm_diag]
  have h1 : ∑ i, d i ^ 2 * (Uᵀ *ᵥ x) i ^ 2 ≤ e ^ 2 * sqNorm x := by
    refine le_trans ?_ (mul_le_mul_of_nonneg_left (bessel hU x) (sq_nonneg e))
    unfold sqNorm
    rw [Finset.mul_sum]
    refine Finset.sum_le_sum fun i _ => mul_le_mul_of_nonneg_right ?_ (sq_nonneg _)
    rw [← sq_abs (d i)]
    exact pow_le_pow_left₀ (abs_nonneg _) (hd i) 2
  calc √(∑ i, d i ^ 2 * (Uᵀ *ᵥ x) i ^ 2) ≤ √(e ^ 2 * sqNorm x) := Real.sqrt_le_sqrt h1
    _ = e * √(sqNorm x) := by rw [Real.sqrt_mul (sq_nonneg _), Real.sqrt_sq he]

theorem evd2Post_spec (la : LinAlg) {A V : Matrix (Fin n) (Fin n) ℝ} (hA : IsPSD A) {lam : Fin n → ℝ}
    (hV : IsSVD A V lam V) {k : ℕ} {S : Cols n} {out : EVDOut n} (h : evd2Post la A k S = .ok out)
    {t l : ℕ} (ht : t ≤ n) (q : ℕ) (S0 : Matrix (Fin n) (Fin l) ℝ) (hS : colSpace (A ^ q * S0) ≤ colSpace S.mat)
    (W : Matrix (Fin l) (Fin t) ℝ) (hW : firstRows ht (Vᵀ * S0) * W = 1) (nu : ℝ)
    (hnue : nu = Real.sqrt n * eps * fro (A * S.mat)) :
    SpecNormLE (A - out.V * diagonal out.lamb * out.Vᵀ) (nth lam out.r + (nth lam t + nu) *
      (1 + froSq (diagonal (tail (fun _ : Fin n => (1 : ℝ)) t) * (Vᵀ * S0 * W))) ^ (2 * (q : ℝ) + 1)⁻¹ + 3 * nu) := by
  obtain ⟨R, B, hny, -, r, hr, -, -, rfl⟩ := evd2Post_open la hA.1 h
  have hnu := evd2Nu_nonneg A S.mat
  rw [show evd2Nu A S.mat = nu from hnue.symm] at *
  have hres := nystrom_residual hV hnu hny ht q S0 hS W hW
  obtain ⟨Q, hQ, hBQ, -⟩ := nystrom_factor hV hnu hny
  obtain ⟨hU, hV2⟩ := svdFull_econ la B
  obtain ⟨σ, hσ⟩ : ∃ σ, σ = (la.svdFull B).2.1 := ⟨_, rfl⟩
  obtain ⟨U, hUe⟩ : ∃ U, U = (la.svdFull B).1.submatrix id (minL : Fin (min n S.c) → Fin n) := ⟨_, rfl⟩
  obtain ⟨Y, hY⟩ : ∃ Y, Y = (la.svdFull B).2.2.submatrix (minR : Fin (min n S.c) → Fin S.c) id := ⟨_, rfl⟩
  obtain ⟨X, hX⟩ : ∃ X : Matrix (Fin n) (Fin (min r (min n S.c))) ℝ,
    X = (la.svdFull B).1.submatrix id (minL ∘ takeIdx r (min n S.c)) := ⟨_, rfl⟩
  have hB : B = U * diagonal σ * Y := by rw [hUe, hσ, hY]; exact (la.svdFull_mul B).symm
  have hσ0 : ∀ i, 0 ≤ σ i := by rw [hσ]; exact la.svdFull_nonneg B
  have hσa : Antitone σ := by rw [hσ]; exact la.svdFull_anti B
  rw [← hUe] at hU
  rw [← hY] at hV2
  have hXU : X = U.submatrix id (takeIdx r (min n S.c)) := by rw [hX, hUe]; rfl
  have hXo : Xᵀ * X = 1 := by rw [hXU]; exact orth_submatrix hU (takeIdx_injective _ _)
  change SpecNormLE (A - (la.svdFull B).1.submatrix id (minL ∘ takeIdx r (min n S.c)) *
    diagonal (fun i => takev r (la.svdFull B).2.1 i ^ 2 - nu) *
    ((la.svdFull B).1.submatrix id (minL ∘ takeIdx r (min n S.c)))ᵀ) (nth lam (min r (min n S.c)) + _ + _)
  rw [← hX, ← hσ]
  obtain ⟨ρ, hρ⟩ : ∃ ρ, ρ = min r (min n S.c) := ⟨_, rfl⟩
  have hn0 : 0 ≤ nth lam (min r (min n S.c)) := nth_nonneg hV.nonneg
  -- what truncation drops
  have hdrop : ∀ i : Fin (min n S.c), min r (min n S.c) ≤ i.1 → σ i ^ 2 ≤ nth lam (min r (min n S.c)) + nu := by
    intro i hi
    have hρc : min r (min n S.c) < min n S.c := lt_of_le_of_lt hi i.2
    have hBs : IsSVD Bᵀ Yᵀ σ U := isSVD_transpose ⟨hU, by unfold OrthoCols; rw [transpose_transpose]; exact hV2, hσ0, hσa, by
      rw [transpose_transpose]; exact hB⟩
    have hw := weyl_sq (e := 0) hBs (sqrtShift_svd hV hnu) (fun x => by
      rw [← hBQ, transpose_mul, sqrtShift_transpose, ← mulVec_mulVec]
      have := bessel hQ (sqrtShift V lam nu *ᵥ x)
      linarith) (min r (min n S.c))
    have h1 : σ i ≤ nth σ (min r (min n S.c)) := by
      rw [nth_of_lt hρc]; exact hσa (Fin.le_def.2 hi)
    have h2 : nth (fun i => √(lam i + nu)) (min r (min n S.c)) ^ 2 = nth lam (min r (min n S.c)) + nu := by
      have : min r (min n S.c) < n := by omega
      rw [nth_of_lt this, nth_of_lt this, Real.sq_sqrt (by linarith [hV.nonneg ⟨min r (min n S.c), this⟩])]
    rw [h2] at hw
    have h3 := pow_le_pow_left₀ (hσ0 i) h1 2
    linarith
  obtain ⟨d, hd⟩ : ∃ d : Fin (min n S.c) → ℝ, d = fun i => if i.1 < min r (min n S.c) then 0 else σ i ^ 2 := ⟨_, rfl⟩
  have htr : SpecNormLE (U * diagonal d * Uᵀ) (nth lam (min r (min n S.c)) + nu) := by
    refine specNorm_diag hU (by linarith) fun i => ?_
    rw [hd]; dsimp only
    split
    · rw [abs_zero]; linarith
    · rename_i hi
      rw [abs_of_nonneg (sq_nonneg _)]; exact hdrop i (by omega)
  have hBB : B * Bᵀ = U * diagonal (fun i => σ i ^ 2) * Uᵀ := by
    rw [hB]
    simp only [transpose_mul, diagonal_transpose, Matrix.mul_assoc]
    rw [← Matrix.mul_assoc Y, hV2, Matrix.one_mul, ← Matrix.mul_assoc (diagonal σ), diagonal_mul_diagonal]
    simp only [← sq]
  have hXX : X * diagonal (fun i => takev r σ i ^ 2) * Xᵀ = U * diagonal (fun i => σ i ^ 2 - d i) * Uᵀ := by
    ext a b
    rw [Matrix.mul_apply, Matrix.mul_apply]
    simp only [mul_diagonal, transpose_apply]
    rw [← sum_take_tail r fun i => U a i * (σ i ^ 2 - d i) * U b i]
    rw [Finset.sum_eq_zero (f := fun i => tail (fun i => U a i * (σ i ^ 2 - d i) * U b i) (min r (min n S.c)) i), add_zero]
    · refine Finset.sum_congr rfl fun i _ => ?_
      have : d (takeIdx r (min n S.c) i) = 0 := by rw [hd]; exact if_pos i.2
      rw [this, sub_zero, hXU]; rfl
    · intro i _
      unfold tail
      split
      · rfl
      · rename_i hi
        rw [hd]; dsimp only; rw [if_neg hi]; ring
  have hI : SpecNormLE ((-nu) • (1 - X * Xᵀ : Matrix (Fin n) (Fin n) ℝ)) nu := by
    intro x
    rw [smul_mulVec, norm2_smul, abs_neg, abs_of_nonneg hnu]
    refine mul_le_mul_of_nonneg_left ?_ hnu
    unfold norm2
    refine Real.sqrt_le_sqrt ?_
    have h1 : sqNorm x = sqNorm (X *ᵥ (Xᵀ *ᵥ x)) + sqNorm ((1 - X * Xᵀ) *ᵥ x) := by
      have h2 : x = X *ᵥ (Xᵀ *ᵥ x) + (1 - X * Xᵀ) *ᵥ x := by
        rw [sub_mulVec, one_mulVec, ← mulVec_mulVec]; abel
      have h3 : Xᵀ *ᵥ ((1 - X * Xᵀ) *ᵥ x) = 0 := by
        rw [mulVec_mulVec, Matrix.mul_sub, Matrix.mul_one, ← Matrix.mul_assoc, hXo, Matrix.one_mul, sub_self, zero_mulVec]
      nth_rw 1 [h2]
      rw [sqNorm_add, dotProduct_comm (X *ᵥ _), dotProduct_mulVec, ← mulVec_transpose, h3, zero_dotProduct]
      ring
    have := sqNorm_nonneg (X *ᵥ (Xᵀ *ᵥ x))
    linarith
  have e : A - X * diagonal (fun i => takev r σ i ^ 2 - nu) * Xᵀ =
      (A + nu • 1 - B * Bᵀ) + U * diagonal d * Uᵀ + (-nu) • (1 - X * Xᵀ) := by
    have e1 : diagonal (fun i => takev r σ i ^ 2 - nu) =
        diagonal (fun i => takev r σ i ^ 2) - nu • (1 : Matrix (Fin (min r (min n S.c))) (Fin (min r (min n S.c))) ℝ) := by
      rw [← diagonal_one, ← diagonal_smul, diagonal_sub]
      congr 1
      funext i
      simp
    have e2 : U * diagonal (fun i => σ i ^ 2 - d i) * Uᵀ = U * diagonal (fun i => σ i ^ 2) * Uᵀ - U * diagonal d * Uᵀ := by
      rw [← Matrix.sub_mul, ← Matrix.mul_sub, diagonal_sub]
    rw [e1, Matrix.mul_sub, Matrix.sub_mul, hXX, e2, hBB, Matrix.mul_smul, Matrix.mul_one, Matrix.smul_mul, smul_sub, neg_smul,
      neg_smul]
    abel
  rw [e]
  refine SpecNormLE.mono (specNorm_add (specNorm_add hres htr) hI) (le_of_eq ?_)
  ring

/-- **C95** (`evd2`).  Whenever `evd2(A, k, over, p, rng)` returns on a positive semidefinite `A` with eigenvalues `lam` and eigenvectors
`V`, there is a shift `nu` (`sqrt(n) eps ‖A S0‖` when `p = 1`, at most `sqrt(n) eps ‖A‖` otherwise) such that for every `t` and every right
inverse `W` of the first `t` rows of `V'S0`, `S0` the start the call drew,

  `‖A - V diag(lamb) V'‖₂ ≤ lam_r + (lam_t + nu)(1 + ‖Ω₂W‖²)^(1/(2p-1)) + 3 nu`

where `r` is the number of components returned and `Ω₂` are the other rows of `V'S0`. -/
theorem C95_evd2_error (la : LinAlg) (gauss : SkOpGen G) (A : Matrix (Fin n) (Fin n) ℝ) (hA : IsPSD A)
    {V : Matrix (Fin n) (Fin n) ℝ} {lam : Fin n → ℝ} (hV : IsSVD A V lam V)
    (k : ℤ) (over : ℕ) (p : ℤ) (w w' : World G) (out : EVDOut n)
    (h : evd2 la gauss A k over p w = .ok (out, w')) :
    ∃ S0 w1 nu, gauss n (k + over).toNat w = .ok (S0, w1) ∧ 0 ≤ nu ∧ (p = 1 → nu = √n * eps * fro (A * S0)) ∧
      (2 ≤ p → nu ≤ √n * eps * fro A) ∧
      ∀ (t : ℕ) (ht : t ≤ n) (W : Matrix (Fin (k + over).toNat) (Fin t) ℝ), firstRows ht (Vᵀ * S0) * W = 1 →
        SpecNormLE (A - out.V * diagonal out.lamb * out.Vᵀ) (nth lam out.r + (nth lam t + nu) *
          (1 + fro (diagonal (tail (fun _ => 1) t) * (Vᵀ * S0 * W)) ^ 2) ^ (2 * (p : ℝ) - 1)⁻¹ + 3 * nu) := by
  unfold evd2 at h
  rw [Py.bind_ok_iff] at h
  obtain ⟨_, w0, ha, h⟩ := h
  rw [Py.assert_ok_iff] at ha
  obtain ⟨hp, rfl⟩ := ha
  obtain ⟨-, -, S, w1, hS, hpost⟩ := evd2_open la _ A k .nan over _ w' out h
  obtain ⟨S0, w2, g1, g2, g3, g4⟩ := rs1_symm (k := (k + over).toNat) la hA.1 hS
  have he : (0 : ℝ) ≤ √n * eps := by unfold eps; positivity
  refine ⟨S0, w2, √n * eps * fro (A * S.mat), g1, mul_nonneg he (fro_nonneg _), ?_, ?_, fun t ht W hW => ?_⟩
  · intro h1
    rw [g3 (by omega)]
  · intro h2
    refine mul_le_mul_of_nonneg_left ?_ he
    unfold fro
    refine Real.sqrt_le_sqrt ?_
    rw [← froSq_transpose, transpose_mul]
    exact (Proof.froSq_orth_transpose_mul_le (g4 (by omega)) _).trans (le_of_eq (froSq_transpose _))
  · have := evd2Post_spec la hA hV hpost ht (p - 1).toNat S0 g2 W hW _ rfl
    rw [show 2 * ((p - 1).toNat : ℝ) + 1 = 2 * (p : ℝ) - 1 by rw [cast_pass hp]; push_cast; ring, ← fro_sq] at this
    exact this

/-- what follows for one run of `evd2` in which the generator returns `Z` -/
private theorem evd2_run (A : Matrix (Fin n) (Fin n) ℝ) (hA : IsPSD A) {V : Matrix (Fin n) (Fin n) ℝ}
    {lam : Fin n → ℝ} (hV : IsSVD A V lam V) (k over : ℕ) (hk : 0 < k) (ho : k + over ≤ n) (t : ℕ) (ht : t ≤ n)
    (p : ℤ) (hp : 2 ≤ p) {Z : Fin n × Fin (k + over) → ℝ}
    (hZ : firstRows ht (Vᵀ * drawMat Z) * rpinv (firstRows ht (Vᵀ * drawMat Z)) = 1)
    (la : LinAlg) (R : NpRng G) (w w' : World G) (hw : NextNormal R w n (k + over) Z) (out : EVDOut n)
    (h : evd2 la (gaussianOperator R true) A k over p w = .ok (out, w')) (nu : ℝ) (hnu : nu = √n * eps * fro A)
    (e : ℝ) (he : nth lam out.r + (nth lam t + nu) *
      (1 + sketchBound (fun _ => 1) t (k + over) ht V Z) ^ (2 * (p : ℝ) - 1)⁻¹ + 3 * nu ≤ e) :
    SpecNormLE (A - out.V * diagonal out.lamb * out.Vᵀ) e ∧
      ∀ i : Fin out.r, out.lamb i ≤ nth lam i + nu ∧ nth lam i ≤ out.lamb i + e ∧
        norm2 (A *ᵥ out.V.col i - out.lamb i • out.V.col i) ≤ e ∧ ∃ j, |lam j - out.lamb i| ≤ e := by
  have hkn : ((k : ℤ) + over).toNat = k + over := by omega
  have hen : (0 : ℝ) ≤ √n * eps := by unfold eps; positivity
  have hnu0 : 0 ≤ nu := by rw [hnu]; exact mul_nonneg hen (fro_nonneg _)
  have hE := C95_evd2_error la _ A hA hV k over p w w' out h
  rw [hkn] at hE
  obtain ⟨S0, w1, nu', g1, g2, -, g4, g5⟩ := hE
  obtain ⟨u, hu, hgen⟩ := gaussian_next R (r := n) (c := k + over) (by omega) hw
  rw [hgen] at g1
  cases g1
  have g4' := g4 hp
  rw [← hnu] at g4'
  have hpow : 0 ≤ (1 + sketchBound (fun _ => 1) t (k + over) ht V Z) ^ (2 * (p : ℝ) - 1)⁻¹ :=
    Real.rpow_nonneg (add_nonneg zero_le_one (froSq_nonneg _)) _
  have hn1 : 0 ≤ nth lam out.r := nth_nonneg hV.nonneg
  have hn2 : 0 ≤ nth lam t := nth_nonneg hV.nonneg
  have he0 : 0 ≤ e := le_trans (by positivity) he
  have hspec : SpecNormLE (A - out.V * diagonal out.lamb * out.Vᵀ) e := by
    obtain ⟨e1, e2⟩ := scale_rows hu hZ
    have := g5 t ht _ e1
    rw [e2, fro_sq] at this
    refine SpecNormLE.mono this (le_trans ?_ he)
    have := mul_le_mul_of_nonneg_right (add_le_add_right g4' (nth lam t)) hpow
    change nth lam out.r + (nth lam t + nu') * (1 + sketchBound (fun _ => 1) t (k + over) ht V Z) ^ (2 * (p : ℝ) - 1)⁻¹ + 3 * nu' ≤ _
    linarith
  refine ⟨hspec, fun i => ?_⟩
  have hEV : IsEVD A V lam := ⟨hV.left, hV.anti, hV.eq⟩
  unfold evd2 at h
  rw [Py.assert_pos_bind (by omega : p ≥ 1)] at h
  obtain ⟨S, w2, hS, v1, -⟩ := C93_evd2_values la _ A hA k .nan over w w' out h V lam hEV e he0 hspec
  obtain ⟨c1, c2, -⟩ := C94_evd2 la _ A hA k .nan over w w' out h V lam hEV e hspec i
  refine ⟨(v1 i).1.trans (add_le_add le_rfl ?_), (v1 i).2, c1, c2⟩
  rw [hnu]
  refine mul_le_mul_of_nonneg_left ?_ hen
  obtain ⟨-, -, -, -, -, g6⟩ := rs1_symm (k := ((k : ℤ) + over).toNat) la hA.1 hS
  unfold fro
  refine Real.sqrt_le_sqrt ?_
  rw [← froSq_transpose, transpose_mul]
  exact (Proof.froSq_orth_transpose_mul_le (g6 (by omega)) _).trans (le_of_eq (froSq_transpose _))

/-- **C95** (mean) for `evd2(A, k, over, p, rng)`, `p ≥ 2`, on a positive semidefinite `A ≠ 0` with eigenvalues `lam`: with
`nu = sqrt(n) eps ‖A‖` there is a function `g` of the draws of mean at most

  `lam_ρ + (lam_t + nu)(1 + (n - t) t/(k + over - t - 1))^(1/(2p-1)) + 3 nu`

such that almost surely `ρ` components are returned (`k`, or one less than the rank if that is smaller than `k`), the spectral norm of the
error is at most `g`, and each value and vector returned is right to within `g`. -/
theorem C95_evd2_mean (A : Matrix (Fin n) (Fin n) ℝ) (hA : IsPSD A) (hA0 : A ≠ 0) {V : Matrix (Fin n) (Fin n) ℝ}
    {lam : Fin n → ℝ} (hV : IsSVD A V lam V) (k over : ℕ) (hk : 0 < k) (hk' : k < n) (ho : k + over ≤ n)
    (ρ : ℕ) (hρ : ρ = if k ≤ A.rank then k else A.rank - 1)
    (t : ℕ) (ht : t ≤ n) (htk : t + 2 ≤ k + over) (p : ℤ) (hp : 2 ≤ p) (nu : ℝ) (hnu : nu = √n * eps * fro A) :
    ∃ g : (Fin n × Fin (k + over) → ℝ) → ℝ, (∀ Z, 0 ≤ g Z) ∧ Integrable g (normals n (k + over)) ∧
      ∫ Z, g Z ∂(normals n (k + over)) ≤ nth lam ρ + (nth lam t + nu) *
        (1 + ((n : ℝ) - t) * (t / (((k + over : ℕ) : ℝ) - t - 1))) ^ (2 * (p : ℝ) - 1)⁻¹ + 3 * nu ∧
      ∀ᵐ Z ∂(normals n (k + over)), ∀ (G : Type) (la : LinAlg) (R : NpRng G) (w : World G), NextNormal R w n (k + over) Z →
        ∃ out w', evd2 la (gaussianOperator R true) A k over p w = .ok (out, w') ∧ out.r = ρ ∧ OrthoCols out.V ∧
          SpecNormLE (A - out.V * diagonal out.lamb * out.Vᵀ) (g Z) ∧
          ∀ i : Fin out.r, out.lamb i ≤ nth lam i + nu ∧ nth lam i ≤ out.lamb i + g Z ∧
            norm2 (A *ᵥ out.V.col i - out.lamb i • out.V.col i) ≤ g Z ∧ ∃ j, |lam j - out.lamb i| ≤ g Z := by
  have : IsProbabilityMeasure (normals n (k + over)) := by
    change IsProbabilityMeasure (Proof.gauss _); infer_instance
  have hpr : (2 : ℝ) ≤ (p : ℝ) := by exact_mod_cast hp
  have a0 : (0 : ℝ) ≤ (2 * (p : ℝ) - 1)⁻¹ := inv_nonneg.2 (by linarith)
  have a1 : (2 * (p : ℝ) - 1)⁻¹ ≤ 1 := inv_le_one_of_one_le₀ (by linarith)
  have hn1 : 0 ≤ nth lam ρ := nth_nonneg hV.nonneg
  have hn2 : 0 ≤ nth lam t := nth_nonneg hV.nonneg
  have hnu0 : 0 ≤ nu := by
    rw [hnu]; have := fro_nonneg A
    unfold eps; positivity
  obtain ⟨⟨g1, g2⟩, hae⟩ := sketchBound_mean (fun _ : Fin n => (1 : ℝ)) t (k + over) ht htk hV.left
  rw [tailSq_one t ht] at g2
  have hsb : ∀ Z, 0 ≤ sketchBound (fun _ : Fin n => (1 : ℝ)) t (k + over) ht V Z := fun Z => froSq_nonneg _
  obtain ⟨m1, m2⟩ := mean_rpow hsb g1 a0 a1
  have hae2 := C59_evd2 A hA hA0 k hk hk' over ho p (by omega)
  rw [show startRows (p - 1) n n = n by unfold startRows; split <;> rfl] at hae2
  refine ⟨fun Z => nth lam ρ + (nth lam t + nu) *
    (1 + sketchBound (fun _ => 1) t (k + over) ht V Z) ^ (2 * (p : ℝ) - 1)⁻¹ + 3 * nu, fun Z => ?_, ?_, ?_, ?_⟩
  · have := Real.rpow_nonneg (add_nonneg zero_le_one (hsb Z)) (2 * (p : ℝ) - 1)⁻¹
    positivity
  · exact ((integrable_const _).add (m1.const_mul _)).add (integrable_const _)
  · have e1 : ∫ Z, (nth lam ρ + (nth lam t + nu) *
        (1 + sketchBound (fun _ => 1) t (k + over) ht V Z) ^ (2 * (p : ℝ) - 1)⁻¹ + 3 * nu) ∂(normals n (k + over)) =
        nth lam ρ + (nth lam t + nu) * (∫ Z, (1 + sketchBound (fun _ => 1) t (k + over) ht V Z) ^ (2 * (p : ℝ) - 1)⁻¹
          ∂(normals n (k + over))) + 3 * nu := by
      have c1 := m1.const_mul (nth lam t + nu)
      have c2 : Integrable (fun Z => nth lam ρ + (nth lam t + nu) *
          (1 + sketchBound (fun _ => 1) t (k + over) ht V Z) ^ (2 * (p : ℝ) - 1)⁻¹) (normals n (k + over)) :=
        (integrable_const _).add c1
      rw [integral_add c2 (integrable_const _), integral_add (integrable_const _) c1, integral_const_mul]
      simp
    rw [e1]
    rw [g2] at m2
    have := mul_le_mul_of_nonneg_left m2 (add_nonneg hn2 hnu0)
    linarith
  · filter_upwards [hae, hae2] with Z hZ hZ2 G la R w hw
    obtain ⟨out, w', e1, e2, e3⟩ := hZ2 G la R w hw
    have hr : out.r = ρ := by
      rw [hρ]
      split
      · rename_i h; exact e2 h
      · rename_i h; have := e3 (by omega); omega
    have hVo : OrthoCols out.V := by
      have h := e1
      unfold evd2 at h
      rw [Py.assert_pos_bind (by omega : p ≥ 1)] at h
      obtain ⟨-, -, -, -, -, -, ho', -⟩ := C16_evd2_psd la _ A hA k .nan over w w' out h
      exact ho'
    refine ⟨out, w', e1, hr, hVo, ?_⟩
    refine evd2_run A hA hV k over hk ho t ht p hp hZ la R w w' hw out e1 nu hnu _ ?_
    rw [hr]

/-- **C95** (failure probability) for `evd2`, under the same conditions: except for draws of probability at most
`3·9^t·exp(-(k + over)ε²/32)`, the bound is `lam_ρ + (lam_t + nu)(1 + (n - t)(1 + ε/2)/(1 - ε))^(1/(2p-1)) + 3 nu`. -/
theorem C95_evd2_tail (A : Matrix (Fin n) (Fin n) ℝ) (hA : IsPSD A) (hA0 : A ≠ 0) {V : Matrix (Fin n) (Fin n) ℝ}
    {lam : Fin n → ℝ} (hV : IsSVD A V lam V) (k over : ℕ) (hk : 0 < k) (hk' : k < n) (ho : k + over ≤ n)
    (ρ : ℕ) (hρ : ρ = if k ≤ A.rank then k else A.rank - 1)
    (t : ℕ) (ht : t ≤ n) (p : ℤ) (hp : 2 ≤ p) (nu : ℝ) (hnu : nu = √n * eps * fro A) (ε : ℝ) (h0 : 0 ≤ ε) (h1 : ε < 1)
    (e : ℝ) (he : e = nth lam ρ + (nth lam t + nu) *
      (1 + ((n : ℝ) - t) * ((1 + ε / 2) / (1 - ε))) ^ (2 * (p : ℝ) - 1)⁻¹ + 3 * nu) :
    ∃ E : Set (Fin n × Fin (k + over) → ℝ),
      normals n (k + over) E ≤ ENNReal.ofReal (3 * 9 ^ t * Real.exp (-(((k + over : ℕ) : ℝ) * ε ^ 2 / 32))) ∧
      ∀ Z ∉ E, ∀ (G : Type) (la : LinAlg) (R : NpRng G) (w : World G), NextNormal R w n (k + over) Z →
        ∃ out w', evd2 la (gaussianOperator R true) A k over p w = .ok (out, w') ∧ out.r = ρ ∧ OrthoCols out.V ∧
          SpecNormLE (A - out.V * diagonal out.lamb * out.Vᵀ) (e) ∧
          ∀ i : Fin out.r, out.lamb i ≤ nth lam i + nu ∧ nth lam i ≤ out.lamb i + e ∧
            norm2 (A *ᵥ out.V.col i - out.lamb i • out.V.col i) ≤ e ∧ ∃ j, |lam j - out.lamb i| ≤ e := by
  have hpr : (2 : ℝ) ≤ (p : ℝ) := by exact_mod_cast hp
  have a0 : (0 : ℝ) ≤ (2 * (p : ℝ) - 1)⁻¹ := inv_nonneg.2 (by linarith)
  have hn2 : 0 ≤ nth lam t := nth_nonneg hV.nonneg
  have hnu0 : 0 ≤ nu := by
    rw [hnu]; have := fro_nonneg A
    unfold eps; positivity
  have hae2 := C59_evd2 A hA hA0 k hk hk' over ho p (by omega)
  rw [show startRows (p - 1) n n = n by unfold startRows; split <;> rfl] at hae2
  obtain ⟨E, hE, h4⟩ := except_ae (tame_probability (fun _ => (1 : ℝ)) t (k + over) ht (by omega) hV.left h0 h1.le) hae2
  refine ⟨E, hE, fun Z hZE G la R w hw => ?_⟩
  · obtain ⟨z1, z2⟩ := h4 Z hZE
    have htame := not_not.1 z1
    obtain ⟨hZ, t2, -⟩ := tame_bound (by omega) h1 htame
    rw [tailSq_one t ht] at t2
    obtain ⟨out, w', e1, e2, e3⟩ := z2 G la R w hw
    have hr : out.r = ρ := by
      rw [hρ]
      split
      · rename_i h; exact e2 h
      · rename_i h; have := e3 (by omega); omega
    have hVo : OrthoCols out.V := by
      have h := e1
      unfold evd2 at h
      rw [Py.assert_pos_bind (by omega : p ≥ 1)] at h
      obtain ⟨-, -, -, -, -, -, ho', -⟩ := C16_evd2_psd la _ A hA k .nan over w w' out h
      exact ho'
    refine ⟨out, w', e1, hr, hVo, ?_⟩
    refine evd2_run A hA hV k over hk ho t ht p hp hZ la R w w' hw out e1 nu hnu _ ?_
    rw [hr, he]
    have hsb : 0 ≤ sketchBound (fun _ : Fin n => (1 : ℝ)) t (k + over) ht V Z := froSq_nonneg _
    unfold sketchCost at t2
    have := mul_le_mul_of_nonneg_left (Real.rpow_le_rpow (by linarith) (add_le_add_right t2 1) a0) (add_nonneg hn2 hnu0)
    linarith

end Parla.Props
