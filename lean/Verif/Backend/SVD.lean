import Verif.Backend.Householder
import Mathlib.Analysis.Matrix.Spectrum
import Mathlib.Analysis.Matrix.PosDef
import Mathlib.Data.Fin.Tuple.Sort

/-!
# Existence of eigendecompositions, SVDs, Cholesky factors and least-squares solutions
-/

namespace Parla.Backend

open Matrix

theorem exists_eigh_unsorted {n : ℕ} (C : Matrix (Fin n) (Fin n) ℝ) (hC : Cᵀ = C) :
    ∃ (d : Fin n → ℝ) (V : Matrix (Fin n) (Fin n) ℝ), V * diagonal d * Vᵀ = C ∧ Vᵀ * V = 1 := by
  have hH : C.IsHermitian := by
    rw [IsHermitian, conjTranspose_eq_transpose_of_trivial]; exact hC
  set V : Matrix (Fin n) (Fin n) ℝ := (hH.eigenvectorUnitary : Matrix (Fin n) (Fin n) ℝ)
  have hV : Vᵀ * V = 1 := by
    have := Unitary.coe_star_mul_self hH.eigenvectorUnitary
    rwa [star_eq_conjTranspose, conjTranspose_eq_transpose_of_trivial] at this
  refine ⟨hH.eigenvalues, V, ?_, hV⟩
  have := hH.spectral_theorem
  rw [Unitary.conjStarAlgAut_apply, star_eq_conjTranspose,
    conjTranspose_eq_transpose_of_trivial] at this
  exact this.symm

/-- relabelling eigenpairs -/
theorem eigh_perm {n : ℕ} {C V : Matrix (Fin n) (Fin n) ℝ} {d : Fin n → ℝ}
    (h1 : V * diagonal d * Vᵀ = C) (h2 : Vᵀ * V = 1) (σ : Equiv.Perm (Fin n)) :
    V.submatrix id σ * diagonal (d ∘ σ) * (V.submatrix id σ)ᵀ = C ∧
      (V.submatrix id σ)ᵀ * V.submatrix id σ = 1 := by
  constructor
  · rw [← h1]
    ext i j
    rw [mul_apply, mul_apply]
    simp only [mul_diagonal, transpose_apply, submatrix_apply, id, Function.comp]
    exact Equiv.sum_comp σ (fun l => V i l * d l * V j l)
  · have : (V.submatrix id σ)ᵀ * V.submatrix id σ = (Vᵀ * V).submatrix σ σ := by
      ext i j; simp [mul_apply]
    rw [this, h2]; ext i j; simp [one_apply]

theorem exists_eigh {n : ℕ} (C : Matrix (Fin n) (Fin n) ℝ) :
    ∃ x : (Fin n → ℝ) × Matrix (Fin n) (Fin n) ℝ, Cᵀ = C →
      x.2 * diagonal x.1 * x.2ᵀ = C ∧ x.2ᵀ * x.2 = 1 ∧ Monotone x.1 := by
  by_cases hC : Cᵀ = C
  · obtain ⟨d, V, h1, h2⟩ := exists_eigh_unsorted C hC
    have := eigh_perm h1 h2 (Tuple.sort d)
    exact ⟨(_, _), fun _ => ⟨this.1, this.2, Tuple.monotone_sort d⟩⟩
  · exact ⟨(0, 0), fun h => absurd h hC⟩

theorem exists_eigh_desc {n : ℕ} (C : Matrix (Fin n) (Fin n) ℝ) (hC : Cᵀ = C) :
    ∃ (d : Fin n → ℝ) (V : Matrix (Fin n) (Fin n) ℝ), V * diagonal d * Vᵀ = C ∧ Vᵀ * V = 1 ∧
      Antitone d := by
  obtain ⟨x, hx⟩ := exists_eigh C
  obtain ⟨h1, h2, h3⟩ := hx hC
  have := eigh_perm h1 h2 Fin.revPerm
  exact ⟨_, _, this.1, this.2, fun i j hij => h3 (by simpa using hij)⟩

/-- An upper trapezoidal matrix with orthogonal columns of non-increasing norm is diagonal. -/
theorem diag_of_upper {m n : ℕ} {R : Matrix (Fin m) (Fin n) ℝ} {d : Fin n → ℝ}
    (hU : ∀ i j, j.1 < i.1 → R i j = 0) (hR : Rᵀ * R = diagonal d) (hd : Antitone d) :
    ∀ i j, i.1 ≠ j.1 → R i j = 0 := by
  have key : ∀ (N : ℕ) (i : Fin m) (j : Fin n), i.1 < N → i.1 < j.1 → R i j = 0 := by
    intro N
    induction N with
    | zero => intro i _ h; omega
    | succ N ih =>
      intro i j hi hij
      set k : Fin n := ⟨i.1, by omega⟩
      have hcol : ∀ l, l ≠ i → R l k = 0 := by
        intro l hl
        rcases lt_trichotomy l.1 i.1 with h | h | h
        · exact ih l k (by omega) h
        · exact absurd (Fin.ext h) hl
        · exact hU l k h
      have hin : ∀ j', ∑ l, R l k * R l j' = R i k * R i j' := fun j' =>
        Finset.sum_eq_single i (fun l _ hl => by rw [hcol l hl, zero_mul])
          (fun h => absurd (Finset.mem_univ _) h)
      have hent : ∀ a b, ∑ l, R l a * R l b = diagonal d a b := fun a b => by
        have := congrFun (congrFun hR a) b
        simpa [mul_apply] using this
      by_cases h0 : R i k = 0
      · have hdk : d k = 0 := by
          have := hent k k
          rw [hin, h0, zero_mul, diagonal_apply_eq] at this; exact this.symm
        have hdj : d j ≤ 0 := by rw [← hdk]; exact hd (show k ≤ j from le_of_lt hij)
        have hj := hent j j
        rw [diagonal_apply_eq] at hj
        have hnn : ∀ l ∈ Finset.univ, 0 ≤ R l j * R l j := fun l _ => mul_self_nonneg _
        have h0' : ∑ l, R l j * R l j = 0 :=
          le_antisymm (hj ▸ hdj) (Finset.sum_nonneg hnn)
        exact mul_self_eq_zero.1 ((Finset.sum_eq_zero_iff_of_nonneg hnn).1 h0' i
          (Finset.mem_univ _))
      · have := hent k j
        rw [hin, diagonal_apply_ne _ (by intro e; rw [← e] at hij; exact lt_irrefl _ hij)] at this
        exact (mul_eq_zero.1 this).resolve_left h0
  intro i j hij
  rcases lt_or_gt_of_ne hij with h | h
  · exact key (i.1 + 1) i j (by omega) h
  · exact hU i j h

theorem exists_svdFull {m n : ℕ} (A : Matrix (Fin m) (Fin n) ℝ) :
    ∃ x : Matrix (Fin m) (Fin m) ℝ × (Fin (min m n) → ℝ) × Matrix (Fin n) (Fin n) ℝ,
      x.1.submatrix id minL * diagonal x.2.1 * x.2.2.submatrix minR id = A ∧
      x.1ᵀ * x.1 = 1 ∧ x.2.2 * x.2.2ᵀ = 1 ∧ (∀ i, 0 ≤ x.2.1 i) ∧ Antitone x.2.1 := by
  obtain ⟨d, V, h1, h2, h3⟩ := exists_eigh_desc (Aᵀ * A) (by simp)
  have hVV : V * Vᵀ = 1 := mul_eq_one_comm.1 h2
  obtain ⟨Q, R, σ, hQ, hQR, hU, hσ, -⟩ := exists_qr_full False m n (A * V)
  have hQR' : Q * R = A * V := by rw [hQR, hσ not_false]; rfl
  have hRR : Rᵀ * R = diagonal d := by
    have : Rᵀ * R = (Q * R)ᵀ * (Q * R) := by
      rw [transpose_mul, Matrix.mul_assoc, ← Matrix.mul_assoc Qᵀ, hQ, Matrix.one_mul]
    rw [this, hQR', transpose_mul]
    calc Vᵀ * Aᵀ * (A * V) = Vᵀ * (Aᵀ * A) * V := by simp only [Matrix.mul_assoc]
      _ = Vᵀ * (V * diagonal d * Vᵀ) * V := by rw [h1]
      _ = (Vᵀ * V) * diagonal d * (Vᵀ * V) := by simp only [Matrix.mul_assoc]
      _ = diagonal d := by rw [h2]; simp
  have hdiag := diag_of_upper hU hRR h3
  have hsq : ∀ i : Fin (min m n), R (minL i) (minR i) ^ 2 = d (minR i) := by
    intro i
    have := congrFun (congrFun hRR (minR i)) (minR i)
    rw [diagonal_apply_eq, mul_apply, Finset.sum_eq_single (minL i)] at this
    · simpa [sq] using this
    · intro l _ hl
      rw [hdiag l (minR i), mul_zero]
      intro e; exact hl (Fin.ext e)
    · intro h; exact absurd (Finset.mem_univ _) h
  set sg : Fin m → ℝ := fun l => if h : l.1 < n then (if R l ⟨l.1, h⟩ < 0 then -1 else 1) else 1
  have hsg : ∀ l, sg l * sg l = 1 := by
    intro l; simp only [sg]; split_ifs <;> norm_num
  have hsgR : ∀ i : Fin (min m n), sg (minL i) * |R (minL i) (minR i)| = R (minL i) (minR i) := by
    intro i
    have hi : (minL i : Fin m).1 < n := by have := i.2; simp only [minL]; omega
    have e : (⟨(minL i : Fin m).1, hi⟩ : Fin n) = minR i := rfl
    simp only [sg, dif_pos hi, e]
    split_ifs with h
    · rw [abs_of_neg h]; ring
    · rw [abs_of_nonneg (not_lt.1 h), one_mul]
  refine ⟨(Q * diagonal sg, fun i => |R (minL i) (minR i)|, Vᵀ), ?_, ?_, ?_, fun i => abs_nonneg _, ?_⟩
  · have hA : A = Q * R * Vᵀ := by rw [hQR', Matrix.mul_assoc, hVV, Matrix.mul_one]
    have hmid : (Q * diagonal sg).submatrix id (minL : Fin (min m n) → Fin m) *
        diagonal (fun i : Fin (min m n) => |R (minL i) (minR i)|) *
        (Vᵀ).submatrix (minR : Fin (min m n) → Fin n) id =
        Q.submatrix id (minL : Fin (min m n) → Fin m) * (R.submatrix minL id * Vᵀ) := by
      rw [Matrix.mul_assoc]
      have e1 : (Q * diagonal sg).submatrix id (minL : Fin (min m n) → Fin m) =
          Q.submatrix id (minL : Fin (min m n) → Fin m) * diagonal (fun i => sg (minL i)) := by
        ext i j; simp
      rw [e1, Matrix.mul_assoc]
      congr 1
      ext i j
      rw [← Matrix.mul_assoc, diagonal_mul_diagonal, diagonal_mul, hsgR, mul_apply,
        Finset.sum_eq_single (minR i)]
      · rfl
      · intro l _ hl
        simp only [submatrix_apply, id]
        rw [hdiag (minL i) l, zero_mul]
        intro e; exact hl (Fin.ext e.symm)
      · intro h; exact absurd (Finset.mem_univ _) h
    rw [hmid, ← Matrix.mul_assoc, econ_mul Q R hU, ← hA]
  · rw [transpose_mul, diagonal_transpose, Matrix.mul_assoc, ← Matrix.mul_assoc Qᵀ, hQ,
      Matrix.one_mul, diagonal_mul_diagonal]
    simp only [hsg]; exact diagonal_one
  · simpa using h2
  · intro i j hij
    have : R (minL j) (minR j) ^ 2 ≤ R (minL i) (minR i) ^ 2 := by
      rw [hsq, hsq]; exact h3 hij
    exact sq_le_sq.1 this

theorem exists_svd {m n : ℕ} (A : Matrix (Fin m) (Fin n) ℝ) :
    ∃ x : Matrix (Fin m) (Fin (min m n)) ℝ × (Fin (min m n) → ℝ) × Matrix (Fin (min m n)) (Fin n) ℝ,
      x.1 * diagonal x.2.1 * x.2.2 = A ∧ x.1ᵀ * x.1 = 1 ∧ x.2.2 * x.2.2ᵀ = 1 ∧
      (∀ i, 0 ≤ x.2.1 i) ∧ Antitone x.2.1 := by
  obtain ⟨⟨U, s, V⟩, h1, h2, h3, h4, h5⟩ := exists_svdFull A
  refine ⟨(U.submatrix id minL, s, V.submatrix minR id), h1, econ_orth h2, ?_, h4, h5⟩
  have : V.submatrix (minR : Fin (min m n) → Fin n) id *
      (V.submatrix (minR : Fin (min m n) → Fin n) id)ᵀ =
      (V * Vᵀ).submatrix (minR : Fin (min m n) → Fin n) minR := by
    ext i j; simp [mul_apply]
  change V.submatrix (minR : Fin (min m n) → Fin n) id *
      (V.submatrix (minR : Fin (min m n) → Fin n) id)ᵀ = 1
  rw [this]
  change V * Vᵀ = 1 at h3
  rw [h3]; ext i j; simp [one_apply, minR, Fin.ext_iff]

theorem exists_chol {n : ℕ} (C : Matrix (Fin n) (Fin n) ℝ) (hC : C.PosDef) :
    ∃ R : Matrix (Fin n) (Fin n) ℝ, Rᵀ * R = C ∧ (∀ i j, j < i → R i j = 0) ∧
      ∀ i, 0 < R i i := by
  have hCt : Cᵀ = C := by
    have := hC.1; rwa [IsHermitian, conjTranspose_eq_transpose_of_trivial] at this
  obtain ⟨d, V, h1, h2⟩ := exists_eigh_unsorted C hCt
  have hVV : V * Vᵀ = 1 := mul_eq_one_comm.1 h2
  have hd : ∀ i, 0 ≤ d i := by
    intro i
    have h := hC.posSemidef.dotProduct_mulVec_nonneg (fun j => V j i)
    have e : C *ᵥ (fun j => V j i) = fun j => d i * V j i := by
      have : C * V = V * diagonal d := by
        rw [← h1, Matrix.mul_assoc, h2, Matrix.mul_one]
      ext j
      have := congrFun (congrFun this j) i
      rw [mul_diagonal] at this
      rw [mul_comm, ← this]; rfl
    rw [e] at h
    have e2 : (star fun j => V j i) ⬝ᵥ (fun j => d i * V j i) = d i := by
      have := congrFun (congrFun h2 i) i
      simp only [mul_apply, transpose_apply, one_apply_eq] at this
      simp only [dotProduct, star_trivial]
      have e3 : d i = d i * ∑ j, V j i * V j i := by rw [this, mul_one]
      conv_rhs => rw [e3]
      rw [Finset.mul_sum]
      exact Finset.sum_congr rfl fun x _ => mul_left_comm (V x i) (d i) (V x i)
    rwa [e2] at h
  obtain ⟨Q, R, σ, hQ, hQR, hU, hσ, -⟩ :=
    exists_qr_full False n n (diagonal (fun i => Real.sqrt (d i)) * Vᵀ)
  have hQR' : Q * R = diagonal (fun i => Real.sqrt (d i)) * Vᵀ := by rw [hQR, hσ not_false]; rfl
  have hRR : Rᵀ * R = C := by
    have : Rᵀ * R = (Q * R)ᵀ * (Q * R) := by
      rw [transpose_mul, Matrix.mul_assoc, ← Matrix.mul_assoc Qᵀ, hQ, Matrix.one_mul]
    rw [this, hQR', transpose_mul, transpose_transpose, diagonal_transpose, Matrix.mul_assoc,
      ← Matrix.mul_assoc (diagonal _), diagonal_mul_diagonal, ← Matrix.mul_assoc, ← h1]
    simp only [Real.mul_self_sqrt (hd _)]
  have hdet : R.det ≠ 0 := by
    intro h
    have : C.det = 0 := by rw [← hRR, det_mul, h, mul_zero]
    exact hC.det_pos.ne' this
  have hne : ∀ i, R i i ≠ 0 := by
    have : R.BlockTriangular id := fun i j h => hU i j h
    rw [Matrix.det_of_isUpperTriangular this] at hdet
    intro i; exact (Finset.prod_ne_zero_iff.1 hdet) i (Finset.mem_univ _)
  refine ⟨diagonal (fun i => if R i i < 0 then -1 else 1) * R, ?_, ?_, ?_⟩
  · rw [transpose_mul, diagonal_transpose, Matrix.mul_assoc, ← Matrix.mul_assoc (diagonal _),
      diagonal_mul_diagonal]
    have : (fun i => (if R i i < 0 then (-1 : ℝ) else 1) * (if R i i < 0 then -1 else 1)) =
        fun _ => 1 := by
      ext i; split_ifs <;> norm_num
    rw [this, show diagonal (fun _ : Fin n => (1 : ℝ)) = 1 from diagonal_one, Matrix.one_mul, hRR]
  · intro i j h; rw [diagonal_mul, hU i j h, mul_zero]
  · intro i
    rw [diagonal_mul]
    split_ifs with h
    · linarith
    · rw [one_mul]; exact lt_of_le_of_ne (not_lt.1 h) (hne i).symm

theorem exists_lstsq {m n p : ℕ} (A : Matrix (Fin m) (Fin n) ℝ) (B : Matrix (Fin m) (Fin p) ℝ) :
    ∃ X : Matrix (Fin n) (Fin p) ℝ, Aᵀ * (A * X) = Aᵀ * B ∧
      ∃ W : Matrix (Fin m) (Fin p) ℝ, X = Aᵀ * W := by
  obtain ⟨⟨U, s, V⟩, h1, h2, h3, h4, h5⟩ := exists_svd A
  simp only at h1 h2 h3
  have hA : Aᵀ = Vᵀ * diagonal s * Uᵀ := by
    rw [← h1]; simp only [transpose_mul, diagonal_transpose, Matrix.mul_assoc]
  have hAX : ∀ D : Fin (min m n) → ℝ, Aᵀ * (A * (Vᵀ * (diagonal D * (Uᵀ * B)))) =
      Vᵀ * (diagonal (fun i => s i * (s i * D i)) * (Uᵀ * B)) := by
    intro D
    rw [hA, ← h1]
    calc _ = Vᵀ * diagonal s * ((Uᵀ * U) * diagonal s * ((V * Vᵀ) * (diagonal D * (Uᵀ * B)))) := by
          simp only [Matrix.mul_assoc]
      _ = Vᵀ * (diagonal s * (diagonal s * (diagonal D * (Uᵀ * B)))) := by
          rw [h2, h3]; simp only [Matrix.one_mul, Matrix.mul_assoc]
      _ = _ := by
          rw [← Matrix.mul_assoc (diagonal s) (diagonal D), diagonal_mul_diagonal,
            ← Matrix.mul_assoc (diagonal s) (diagonal _), diagonal_mul_diagonal]
  refine ⟨Vᵀ * (diagonal (fun i => (s i)⁻¹) * (Uᵀ * B)), ?_,
    U * (diagonal (fun i => (s i)⁻¹ * (s i)⁻¹) * (Uᵀ * B)), ?_⟩
  · rw [hAX, hA]
    have : (fun i => s i * (s i * (s i)⁻¹)) = s := by
      ext i; by_cases h : s i = 0
      · simp [h]
      · field_simp
    rw [this]; simp only [Matrix.mul_assoc]
  · rw [hA]
    calc _ = Vᵀ * (diagonal s * (diagonal (fun i => (s i)⁻¹ * (s i)⁻¹) * (Uᵀ * B))) := by
          rw [← Matrix.mul_assoc (diagonal s), diagonal_mul_diagonal]
          congr 3; ext i
          by_cases h : s i = 0
          · simp [h]
          · field_simp
      _ = Vᵀ * diagonal s * (Uᵀ * U) * (diagonal (fun i => (s i)⁻¹ * (s i)⁻¹) * (Uᵀ * B)) := by
          rw [h2]; simp only [Matrix.mul_one, Matrix.mul_assoc]
      _ = _ := by simp only [Matrix.mul_assoc]

end Parla.Backend
