import Verif.Props.SJLTExpect
import Verif.Proof.SPO
import Verif.Base.LinAlgExists

/-! # Property C49: `orthonormal_operator` -/

namespace Parla.Props

open Matrix Parla Spec

variable {G : Type}

/-! ### Specification -/

/-- `S` is the orthonormal factor of `Z` in the QR factorisation with positive diagonal. -/
def IsPosQR {m n : ℕ} (Z S : Matrix (Fin m) (Fin n) ℝ) : Prop :=
  OrthoCols S ∧ ∃ T : Matrix (Fin n) (Fin n) ℝ, Z = S * T ∧ (∀ i j, j < i → T i j = 0) ∧ ∀ i, 0 < T i i

/-! ### Lemmas -/

/-- An upper triangular orthogonal matrix is diagonal. -/
theorem diag_of_upper_orth {n : ℕ} {W : Matrix (Fin n) (Fin n) ℝ} (hW : W.BlockTriangular id)
    (ho : Wᵀ * W = 1) {i j : Fin n} (hij : i ≠ j) : W i j = 0 := by
  rcases lt_or_gt_of_ne hij with h | h
  · have hinv : W⁻¹ = Wᵀ := Matrix.inv_eq_left_inv ho
    have : Invertible W := ⟨Wᵀ, ho, mul_eq_one_comm.1 ho⟩
    have h2 := Matrix.blockTriangular_inv_of_blockTriangular hW
    rw [hinv] at h2
    exact h2 (show id i < id j from h)
  · exact hW h

/-- Uniqueness of the QR factorisation with positive diagonal. -/
theorem IsPosQR.unique {m n : ℕ} {Z S₁ S₂ : Matrix (Fin m) (Fin n) ℝ} (h₁ : IsPosQR Z S₁)
    (h₂ : IsPosQR Z S₂) : S₁ = S₂ := by
  obtain ⟨o1, T₁, e1, u1, p1⟩ := h₁
  obtain ⟨o2, T₂, e2, u2, p2⟩ := h₂
  have b1 : T₁.BlockTriangular id := fun i j h => u1 i j h
  have b2 : T₂.BlockTriangular id := fun i j h => u2 i j h
  have d1 : IsUnit T₁.det := by
    rw [Matrix.det_of_isUpperTriangular b1, isUnit_iff_ne_zero, Finset.prod_ne_zero_iff]
    exact fun i _ => (p1 i).ne'
  have d2 : IsUnit T₂.det := by
    rw [Matrix.det_of_isUpperTriangular b2, isUnit_iff_ne_zero, Finset.prod_ne_zero_iff]
    exact fun i _ => (p2 i).ne'
  set W := T₂ * T₁⁻¹ with hWdef
  have hS : S₁ = S₂ * W := by
    rw [hWdef, ← Matrix.mul_assoc, ← e2, e1, Matrix.mul_assoc, mul_nonsing_inv _ d1, Matrix.mul_one]
  have hW : W.BlockTriangular id := by
    have : Invertible T₁ := Matrix.invertibleOfIsUnitDet T₁ d1
    exact b2.mul (Matrix.blockTriangular_inv_of_blockTriangular b1)
  have ho : Wᵀ * W = 1 := by
    have := o1
    unfold OrthoCols at this o2
    rw [hS, transpose_mul, Matrix.mul_assoc, ← Matrix.mul_assoc S₂ᵀ, o2, Matrix.one_mul] at this
    exact this
  have hT : W * T₁ = T₂ := by
    rw [hWdef, Matrix.mul_assoc, nonsing_inv_mul _ d1, Matrix.mul_one]
  have hdiag : ∀ i, W i i * T₁ i i = T₂ i i := by
    intro i
    rw [← hT, mul_apply, Finset.sum_eq_single i]
    · intro j _ hj
      rw [diag_of_upper_orth hW ho (Ne.symm hj), zero_mul]
    · intro h; exact absurd (Finset.mem_univ i) h
  have hone : W = 1 := by
    ext i j
    by_cases hij : i = j
    · subst hij
      rw [one_apply_eq]
      have hpos : 0 < W i i := by
        by_contra hneg
        have := mul_nonpos_of_nonpos_of_nonneg (not_lt.1 hneg) (p1 i).le
        rw [hdiag] at this
        exact absurd (p2 i) (not_lt.2 this)
      have hsq : W i i * W i i = 1 := by
        have := congrFun (congrFun ho i) i
        rw [one_apply_eq, mul_apply, Finset.sum_eq_single i] at this
        · exact this
        · intro j _ hj
          rw [transpose_apply, diag_of_upper_orth hW ho hj, zero_mul]
        · intro h; exact absurd (Finset.mem_univ i) h
      nlinarith
    · rw [one_apply_ne hij, diag_of_upper_orth hW ho hij]
  rw [hS, hone, Matrix.mul_one]

/-- A positive multiple has the same factor. -/
theorem IsPosQR.of_smul {m n : ℕ} {Z S : Matrix (Fin m) (Fin n) ℝ} {a : ℝ} (ha : 0 < a)
    (h : IsPosQR (a • Z) S) : IsPosQR Z S := by
  obtain ⟨o, T, e, u, p⟩ := h
  refine ⟨o, a⁻¹ • T, ?_, fun i j hij => ?_, fun i => ?_⟩
  · rw [Matrix.mul_smul, ← e, smul_smul, inv_mul_cancel₀ ha.ne', one_smul]
  · rw [Matrix.smul_apply, u i j hij, smul_zero]
  · rw [Matrix.smul_apply, smul_eq_mul]
    exact mul_pos (inv_pos.2 ha) (p i)

theorem fullColRank_smul {m n : ℕ} {Z : Matrix (Fin m) (Fin n) ℝ} {a : ℝ} (ha : a ≠ 0) :
    FullColRank (a • Z) ↔ FullColRank Z := by
  rw [fullColRank_iff_inj, fullColRank_iff_inj]
  refine forall_congr' fun x => ?_
  rw [Matrix.smul_mulVec, smul_eq_zero, or_iff_right ha]

/-- The signed factor, for a tall or square draw. -/
theorem signedQ_spec (la : LinAlg) {m n : ℕ} (h : min m n = n) (Z : Matrix (Fin m) (Fin n) ℝ) :
    (FullColRank Z → IsPosQR Z (castCols h (signedQ la Z))) ∧
    (¬ FullColRank Z → ∃ j, ∀ i, castCols h (signedQ la Z) i j = 0) := by
  obtain ⟨e1, e2, e3⟩ := qr_square la Z h
  have hfull := tri_full h (la.qr_mul Z) (la.qr_orth Z) e3
  set Q := castCols h (la.qr Z).1 with hQ
  set R := castRows h (la.qr Z).2 with hR
  have hS : castCols h (signedQ la Z) = Q * diagonal (fun i => Real.sign (R i i)) := by
    ext i j
    rw [mul_diagonal]
    rfl
  constructor
  · intro hZ
    have hd := hfull.1 hZ
    have hs : ∀ i, Real.sign (R i i) * Real.sign (R i i) = 1 := by
      intro i
      rcases Real.sign_apply_eq_of_ne_zero _ (hd i) with h | h <;> rw [h] <;> norm_num
    refine ⟨?_, diagonal (fun i => Real.sign (R i i)) * R, ?_, fun i j hij => ?_, fun i => ?_⟩
    · unfold OrthoCols
      rw [hS, transpose_mul, diagonal_transpose, Matrix.mul_assoc, ← Matrix.mul_assoc Qᵀ, e2,
        Matrix.one_mul, diagonal_mul_diagonal]
      simp only [hs]
      exact diagonal_one
    · rw [hS, Matrix.mul_assoc, ← Matrix.mul_assoc (diagonal _), diagonal_mul_diagonal]
      simp only [hs]
      rw [show diagonal (fun _ : Fin n => (1 : ℝ)) = 1 from diagonal_one, Matrix.one_mul, e1]
    · rw [diagonal_mul, hR, show castRows h (la.qr Z).2 i j = 0 from la.qr_upper Z _ _ hij, mul_zero]
    · rw [diagonal_mul]
      exact Real.sign_mul_pos_of_ne_zero _ (hd i)
  · intro hZ
    rw [hfull] at hZ
    push Not at hZ
    obtain ⟨j, hj⟩ := hZ
    refine ⟨j, fun i => ?_⟩
    rw [hS, mul_diagonal, hj, Real.sign_zero, mul_zero]

/-! ### Theorems -/

/-- **C49** (tall and square operators).  For `n_rows ≥ n_cols > 0` a call returns; it makes one
standard normal draw `N` of the requested shape.  If `N` has full column rank the result has orthonormal
columns and is the factor of `N` in the QR factorisation with positive diagonal; there is only one such
factor, so the result does not depend on the QR backend.  Otherwise some column of the result is zero. -/
theorem C49_orthonormal_tall (la : LinAlg) (R : NpRng G) (r c : ℕ) (hrc : c ≤ r) (hc : 0 < c)
    (w : World G) :
    let N := (R.standardNormal r c w.rng).1
    ∃ S, orthonormalOperator la R r c w = .ok (S, { w with rng := (R.standardNormal r c w.rng).2 }) ∧
      (FullColRank N → OrthoCols S ∧ IsPosQR N S ∧ ∀ S', IsPosQR N S' → S' = S) ∧
      (¬ FullColRank N → ∃ j, ∀ i, S i j = 0) := by
  intro N
  have ha : 0 < Real.sqrt (1 / (min r c : ℕ)) := by
    apply Real.sqrt_pos.2
    have : (0 : ℝ) < (min r c : ℕ) := by exact_mod_cast (show 0 < min r c by omega)
    positivity
  have hg : gaussianOperator R true r c w =
      .ok (Real.sqrt (1 / (min r c : ℕ)) • N, { w with rng := (R.standardNormal r c w.rng).2 }) := by
    unfold gaussianOperator
    rw [if_pos rfl, if_neg (by omega)]
    rfl
  obtain ⟨h1, h2⟩ := signedQ_spec la (show min r c = c by omega) (Real.sqrt (1 / (min r c : ℕ)) • N)
  refine ⟨castCols (by omega) (signedQ la (Real.sqrt (1 / (min r c : ℕ)) • N)), ?_, fun hN => ?_,
    fun hN => ?_⟩
  · unfold orthonormalOperator
    rw [dif_neg (by omega), Py.bind_eq_of_ok hg]
    rfl
  · have h3 := (h1 ((fullColRank_smul ha.ne').2 hN)).of_smul ha
    exact ⟨h3.1, h3, fun S' h' => h'.unique h3⟩
  · exact h2 (fun h => hN ((fullColRank_smul ha.ne').1 h))

/-- **C49** (wide operators).  For `0 < n_rows < n_cols` the result is the transpose of the factor of
one `n_cols × n_rows` draw: it has orthonormal rows if that draw has full column rank. -/
theorem C49_orthonormal_wide (la : LinAlg) (R : NpRng G) (r c : ℕ) (hrc : r < c) (hr : 0 < r)
    (w : World G) :
    let N := (R.standardNormal c r w.rng).1
    ∃ S, orthonormalOperator la R r c w = .ok (S, { w with rng := (R.standardNormal c r w.rng).2 }) ∧
      (FullColRank N → OrthoRows S ∧ IsPosQR N Sᵀ ∧ ∀ S', IsPosQR N S' → S' = Sᵀ) ∧
      (¬ FullColRank N → ∃ i, ∀ j, S i j = 0) := by
  intro N
  obtain ⟨S, h1, h2, h3⟩ := C49_orthonormal_tall la R c r hrc.le hr w
  refine ⟨Sᵀ, ?_, fun hN => ?_, fun hN => ?_⟩
  · unfold orthonormalOperator at h1 ⊢
    rw [dif_neg (by omega), Py.bind_ok_iff] at h1
    obtain ⟨Z, w₁, h4, h5⟩ := h1
    rw [dif_pos hrc, Py.bind_eq_of_ok h4]
    cases h5
    rfl
  · obtain ⟨g1, g2, g3⟩ := h2 hN
    refine ⟨?_, g2, g3⟩
    unfold OrthoRows
    rw [transpose_transpose]
    exact g1
  · obtain ⟨j, hj⟩ := h3 hN
    exact ⟨j, fun i => hj i⟩

/-- **C49** (empty shapes).  The call raises `ZeroDivisionError`. -/
theorem C49_orthonormal_empty (la : LinAlg) (R : NpRng G) (r c : ℕ) (h : min r c = 0) (w : World G) :
    orthonormalOperator la R r c w = .error .zeroDivision := by
  unfold orthonormalOperator
  by_cases hrc : r < c
  · rw [dif_pos hrc]
    apply Py.bind_eq_of_error
    unfold gaussianOperator
    rw [if_pos rfl, if_pos (by omega)]
    rfl
  · rw [dif_neg hrc]
    apply Py.bind_eq_of_error
    unfold gaussianOperator
    rw [if_pos rfl, if_pos (by omega)]
    rfl

/-- **C49** (rotations).  If a second generator's draw is `U N` for an orthogonal `U`, the operator
built from it (with any backend) is `U S`. -/
theorem C49_orthonormal_equivariant (la la' : LinAlg) (R R' : NpRng G) (r c : ℕ) (hrc : c ≤ r) (hc : 0 < c)
    (U : Matrix (Fin r) (Fin r) ℝ) (hU : Uᵀ * U = 1) (w w' : World G)
    (hN : FullColRank (R.standardNormal r c w.rng).1)
    (hN' : (R'.standardNormal r c w'.rng).1 = U * (R.standardNormal r c w.rng).1) :
    ∃ S v v', orthonormalOperator la R r c w = .ok (S, v) ∧
      orthonormalOperator la' R' r c w' = .ok (U * S, v') := by
  obtain ⟨S, h1, h2, -⟩ := C49_orthonormal_tall la R r c hrc hc w
  obtain ⟨S', h1', h2', -⟩ := C49_orthonormal_tall la' R' r c hrc hc w'
  obtain ⟨o, ⟨-, T, e, u, p⟩, -⟩ := h2 hN
  have hfull : FullColRank (R'.standardNormal r c w'.rng).1 := by
    rw [hN', fullColRank_iff_inj]
    intro x hx
    apply fullColRank_iff_inj.1 hN
    have := congrArg (Uᵀ *ᵥ ·) hx
    simp only [mulVec_mulVec, mulVec_zero] at this
    rwa [← Matrix.mul_assoc, hU, Matrix.one_mul] at this
  have := (h2' hfull).2.2 (U * S) ⟨?_, T, ?_, u, p⟩
  · exact ⟨S, _, _, h1, this ▸ h1'⟩
  · unfold OrthoCols at o ⊢
    rw [transpose_mul, Matrix.mul_assoc, ← Matrix.mul_assoc Uᵀ, hU, Matrix.one_mul, o]
  · rw [hN', e, Matrix.mul_assoc]

/-- The hypotheses are met: `demoRng` draws the first columns of the identity, which have full rank. -/
example : ∃ S v, orthonormalOperator LinAlg.ref demoRng 3 2 ⟨0, 0, []⟩ = .ok (S, v) ∧ OrthoCols S := by
  obtain ⟨S, h1, h2, -⟩ := C49_orthonormal_tall LinAlg.ref demoRng 3 2 (by norm_num) (by norm_num)
    ⟨0, 0, []⟩
  refine ⟨S, _, h1, (h2 ?_).1⟩
  apply fullColRank_of_orth
  ext i j
  simp only [demoRng, mul_apply, transpose_apply, of_apply, one_apply]
  fin_cases i <;> fin_cases j <;> simp [Fin.sum_univ_three]

end Parla.Props
