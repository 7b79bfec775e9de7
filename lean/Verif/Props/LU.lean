import Verif.Proof.Stab
import Verif.Proof.Rank
import Verif.Base.LinAlgExists

/-! # Property C52: the wrappers of parla/utils/linalg_wrappers.py -/

namespace Parla.Props

open Matrix Parla Spec

variable {m n p : ℕ}

/-! ### Specification -/

/-- `P` is the matrix of a permutation: some permutation of the rows of the identity. -/
def IsPermMat (P : Matrix (Fin n) (Fin n) ℝ) : Prop :=
  ∃ σ : Equiv.Perm (Fin n), P = (1 : Matrix (Fin n) (Fin n) ℝ).submatrix σ id

/-- lower trapezoidal -/
def IsLower {a b : ℕ} (L : Matrix (Fin a) (Fin b) ℝ) : Prop := ∀ i j, i.1 < j.1 → L i j = 0

/-- upper trapezoidal with ones on the diagonal -/
def IsUnitUpper {a b : ℕ} (U : Matrix (Fin a) (Fin b) ℝ) : Prop :=
  (∀ i j, j.1 < i.1 → U i j = 0) ∧ ∀ i j, i.1 = j.1 → U i j = 1

/-- `P` is the Moore-Penrose pseudoinverse of `A`. -/
def IsPinv (A : Matrix (Fin m) (Fin n) ℝ) (P : Matrix (Fin n) (Fin m) ℝ) : Prop :=
  A * P * A = A ∧ P * A * P = P ∧ (A * P)ᵀ = A * P ∧ (P * A)ᵀ = P * A

/-! ### Lemmas -/

theorem permMat_isPerm (σ : Equiv.Perm (Fin n)) : IsPermMat (permMat σ) := by
  refine ⟨σ, ?_⟩
  ext i j
  simp [permMat, one_apply]

theorem permMat_transpose_isPerm (σ : Equiv.Perm (Fin n)) : IsPermMat (permMat σ)ᵀ := by
  refine ⟨σ.symm, ?_⟩
  ext i j
  simp only [permMat, transpose_apply, of_apply, submatrix_apply, one_apply, id_eq]
  congr 1
  rw [Equiv.symm_apply_eq]
  exact propext eq_comm

theorem eq_zero_of_gram {M : Matrix (Fin m) (Fin n) ℝ} (h : Mᵀ * M = 0) : M = 0 := by
  ext i j
  have hj := congrFun (congrFun h j) j
  rw [mul_apply, Matrix.zero_apply] at hj
  simp only [transpose_apply] at hj
  rw [Finset.sum_eq_zero_iff_of_nonneg fun _ _ => mul_self_nonneg _] at hj
  exact mul_self_eq_zero.1 (hj i (Finset.mem_univ _))

/-- A matrix with the two properties of the least squares kernel is unique. -/
theorem ls_unique {A : Matrix (Fin m) (Fin n) ℝ} {X Y : Matrix (Fin n) (Fin p) ℝ}
    (h : Aᵀ * (A * X) = Aᵀ * (A * Y)) (hX : ∃ W : Matrix (Fin m) (Fin p) ℝ, X = Aᵀ * W)
    (hY : ∃ W : Matrix (Fin m) (Fin p) ℝ, Y = Aᵀ * W) : X = Y := by
  obtain ⟨W, hW⟩ := hX
  obtain ⟨V, hV⟩ := hY
  have h1 : A * (X - Y) = 0 := by
    apply eq_zero_of_gram
    rw [transpose_mul, Matrix.mul_assoc, Matrix.mul_sub, Matrix.mul_sub, h, sub_self, Matrix.mul_zero]
  rw [← sub_eq_zero]
  apply eq_zero_of_gram
  have h2 : (X - Y)ᵀ = (W - V)ᵀ * A := by
    rw [hW, hV, ← Matrix.mul_sub, transpose_mul, transpose_transpose]
  rw [h2, Matrix.mul_assoc, h1, Matrix.mul_zero]

theorem lstsq_one_pinv (la : LinAlg) (A : Matrix (Fin m) (Fin n) ℝ) : IsPinv A (la.lstsq A (1 : Matrix (Fin m) (Fin m) ℝ)) := by
  set P := la.lstsq A (1 : Matrix (Fin m) (Fin m) ℝ) with hP
  have e1 : Aᵀ * (A * P) = Aᵀ := by rw [hP, la.lstsq_normal, Matrix.mul_one]
  obtain ⟨W, e2⟩ := la.lstsq_row A (1 : Matrix (Fin m) (Fin m) ℝ)
  rw [← hP] at e2
  have hs : (A * P)ᵀ = A * P := by
    have : (A * P)ᵀ * (A * P) = (A * P)ᵀ := by
      rw [transpose_mul, Matrix.mul_assoc, e1]
    have h2 := congrArg transpose this
    rw [transpose_mul, transpose_transpose] at h2
    exact this.symm.trans h2
  have hA : A * P * A = A := by
    have := congrArg transpose e1
    rw [transpose_mul, transpose_transpose, hs] at this
    exact this
  refine ⟨hA, ?_, hs, ?_⟩
  · have h0 : A * (P * A * P - P) = 0 := by
      rw [Matrix.mul_sub, ← Matrix.mul_assoc, ← Matrix.mul_assoc, hA, sub_self]
    rw [← sub_eq_zero]
    apply eq_zero_of_gram
    have h2 : P * A * P - P = Aᵀ * (W * A * P - W) := by
      rw [Matrix.mul_sub, ← e2, ← Matrix.mul_assoc, ← Matrix.mul_assoc, ← e2]
    have h3 : (P * A * P - P)ᵀ = (W * A * P - W)ᵀ * A := by
      rw [h2, transpose_mul, transpose_transpose]
    rw [h3, Matrix.mul_assoc, h0, Matrix.mul_zero]
  · have h1 : A * (1 - P * A) = 0 := by
      rw [Matrix.mul_sub, Matrix.mul_one, ← Matrix.mul_assoc, hA, sub_self]
    have h2 : (1 - P * A)ᵀ * (P * A) = 0 := by
      have : P * A = Aᵀ * (W * A) := by rw [e2, Matrix.mul_assoc]
      rw [this, ← Matrix.mul_assoc, ← this, ← transpose_mul, h1, transpose_zero, Matrix.zero_mul]
    rw [transpose_sub, transpose_one, Matrix.sub_mul, Matrix.one_mul, sub_eq_zero] at h2
    have h3 : (P * A)ᵀ = (P * A)ᵀ * (P * A) := by
      conv_lhs => rw [h2]
      rw [transpose_mul, transpose_transpose]
    exact h3.trans h2.symm

theorem IsPinv.unique {A : Matrix (Fin m) (Fin n) ℝ} {P Q : Matrix (Fin n) (Fin m) ℝ} (h : IsPinv A P)
    (h' : IsPinv A Q) : P = Q := by
  have key : ∀ {P : Matrix (Fin n) (Fin m) ℝ}, IsPinv A P → Aᵀ * (A * P) = Aᵀ ∧
      ∃ W : Matrix (Fin m) (Fin m) ℝ, P = Aᵀ * W := by
    intro P h
    refine ⟨?_, Pᵀ * P, ?_⟩
    · rw [← h.2.2.1, ← transpose_mul, h.1]
    · rw [← Matrix.mul_assoc, ← transpose_mul, h.2.2.2, h.2.1]
  exact ls_unique ((key h).1.trans (key h').1.symm) (key h).2 (key h').2

/-! ### Theorems -/

/-- **C52** (`lupt`).  `lupt(M)` returns `(L, U, P)` with `M = L U P'` and `M P = L U`, `L` lower
trapezoidal, `U` unit upper trapezoidal and `P` a permutation matrix. -/
theorem C52_lupt (la : LinAlg) (M : Matrix (Fin m) (Fin n) ℝ) :
    (lupt la M).1 * (lupt la M).2.1 * (lupt la M).2.2ᵀ = M ∧
    M * (lupt la M).2.2 = (lupt la M).1 * (lupt la M).2.1 ∧
    IsLower (lupt la M).1 ∧ IsUnitUpper (lupt la M).2.1 ∧ IsPermMat (lupt la M).2.2 := by
  have h1 : (lupt la M).1 * (lupt la M).2.1 * (lupt la M).2.2ᵀ = M := by
    have := congrArg transpose (la.lu_mul Mᵀ)
    rw [transpose_transpose, transpose_mul, transpose_mul, ← Matrix.mul_assoc] at this
    exact this
  refine ⟨h1, ?_, fun i j hij => la.lu_upper Mᵀ j i hij, ⟨fun i j hij => la.lu_lower Mᵀ j i hij,
    fun i j hij => ?_⟩, permMat_isPerm _⟩
  · have := congrArg (· * (lupt la M).2.2) h1
    simp only [Matrix.mul_assoc (_ * _)] at this
    rw [← this]
    show _ * ((permMat _)ᵀ * permMat _) = _
    rw [permMat_transpose_mul, Matrix.mul_one]
  · have := la.lu_unit Mᵀ i
    have e : (minL i : Fin n) = j := Fin.ext hij
    rw [e] at this
    exact this

/-- **C52** (`lup`).  `lup(M)` returns `(L, U, P)` with `M = L U P`, `L` lower trapezoidal, `U` unit
upper trapezoidal and `P` a permutation matrix. -/
theorem C52_lup (la : LinAlg) (M : Matrix (Fin m) (Fin n) ℝ) :
    (lup la M).1 * (lup la M).2.1 * (lup la M).2.2 = M ∧
    IsLower (lup la M).1 ∧ IsUnitUpper (lup la M).2.1 ∧ IsPermMat (lup la M).2.2 := by
  obtain ⟨h1, -, h3, h4, -⟩ := C52_lupt la M
  exact ⟨h1, h3, h4, permMat_transpose_isPerm _⟩

/-- **C52** (`lu_stabilize`).  The range of the result contains the range of the input, and equals it if
the input has full column rank; then the result again has full column rank. -/
theorem C52_lu_stabilize (la : LinAlg) (r : ℕ) (S : Cols r) :
    colSpace S.mat ≤ colSpace (luStabilize la r S).mat ∧ (luStabilize la r S).c = min r S.c ∧
    (FullColRank S.mat → colSpace (luStabilize la r S).mat = colSpace S.mat) := by
  refine ⟨luStabilize_le la r S, rfl, fun h => ?_⟩
  refine (colSpace_eq_of_le_rank (luStabilize_le la r S) ?_).symm
  rw [h]
  exact luStabilize_width la r S

/-- **C52** (`orth`).  The result has orthonormal columns, its range contains the range of the input, and
equals it if the input has full column rank. -/
theorem C52_orth (la : LinAlg) (r : ℕ) (S : Cols r) :
    OrthoCols (orth la r S).mat ∧ colSpace S.mat ≤ colSpace (orth la r S).mat ∧
    (orth la r S).c = min r S.c ∧
    (FullColRank S.mat → colSpace (orth la r S).mat = colSpace S.mat) := by
  refine ⟨la.qr_orth S.mat, orth_le la r S, rfl, fun h => ?_⟩
  refine (colSpace_eq_of_le_rank (orth_le la r S) ?_).symm
  rw [h]
  exact orth_width la r S

/-- **C52** (pseudoinverses).  Every matrix `A` has exactly one Moore-Penrose pseudoinverse `P`;
`apply_pinv_on_left(T, A)` is `P T` and `apply_pinv_on_right(T, A)` is `T P`, for every target. -/
theorem C52_apply_pinv (la : LinAlg) (A : Matrix (Fin m) (Fin n) ℝ) :
    ∃ P, IsPinv A P ∧ (∀ P', IsPinv A P' → P' = P) ∧
      (∀ (q : ℕ) (T : Matrix (Fin m) (Fin q) ℝ), applyPinvOnLeft la T A = P * T) ∧
      ∀ (q : ℕ) (T : Matrix (Fin q) (Fin n) ℝ), applyPinvOnRight la T A = T * P := by
  have left : ∀ {m n : ℕ} (A : Matrix (Fin m) (Fin n) ℝ) (q : ℕ) (T : Matrix (Fin m) (Fin q) ℝ),
      la.lstsq A T = la.lstsq A 1 * T := by
    intro m n A q T
    obtain ⟨W, hW⟩ := la.lstsq_row A (1 : Matrix (Fin m) (Fin m) ℝ)
    refine ls_unique ?_ (la.lstsq_row A T) ⟨W * T, by rw [hW, Matrix.mul_assoc]⟩
    rw [la.lstsq_normal, ← Matrix.mul_assoc A, ← Matrix.mul_assoc Aᵀ, la.lstsq_normal, Matrix.mul_one]
  have hP := lstsq_one_pinv la A
  refine ⟨la.lstsq A 1, hP, fun P' h => h.unique hP, fun q T => left A q T, fun q T => ?_⟩
  have ht : IsPinv A (la.lstsq Aᵀ 1)ᵀ := by
    obtain ⟨a1, a2, a3, a4⟩ := lstsq_one_pinv la Aᵀ
    refine ⟨?_, ?_, ?_, ?_⟩
    · have := congrArg transpose a1
      simpa only [transpose_mul, transpose_transpose, Matrix.mul_assoc] using this
    · have := congrArg transpose a2
      simpa only [transpose_mul, transpose_transpose, Matrix.mul_assoc] using this
    · have := congrArg transpose a4
      simpa only [transpose_mul, transpose_transpose] using this
    · have := congrArg transpose a3
      simpa only [transpose_mul, transpose_transpose] using this
  unfold applyPinvOnRight
  rw [left Aᵀ q Tᵀ, transpose_mul, transpose_transpose, ht.unique hP]

/-- Not vacuous: a wide rank-one matrix has a pseudoinverse and an `LU` factorisation. -/
example : IsPinv !![(2 : ℝ), 0; 0, 0] !![1 / 2, 0; 0, 0] := by
  refine ⟨?_, ?_, ?_, ?_⟩ <;> ext i j <;> fin_cases i <;> fin_cases j <;> simp

end Parla.Props
