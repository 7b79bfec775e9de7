import Verif.Proof.Mat
import Verif.Spec
import Verif.Model.LinalgWrappers

/-! Stabilisers and column spaces (helper lemmas). -/

namespace Parla

open Matrix Spec

variable {m n k a b c : ℕ}

theorem qr_range (la : LinAlg) (A : Matrix (Fin m) (Fin n) ℝ) : colSpace A ≤ colSpace (la.qr A).1 :=
  colSpace_le_iff.2 ⟨_, (la.qr_mul A).symm⟩

theorem rank_le_width' (M : Matrix (Fin m) (Fin n) ℝ) : M.rank ≤ n := by
  simpa using M.rank_le_width

theorem colSpace_eq_of_le_rank {M : Matrix (Fin m) (Fin n) ℝ} {N : Matrix (Fin m) (Fin k) ℝ}
    (h : colSpace M ≤ colSpace N) (hr : k ≤ M.rank) : colSpace M = colSpace N := by
  apply Submodule.eq_of_le_of_finrank_le h
  rw [finrank_colSpace, finrank_colSpace]
  exact (rank_le_width' N).trans hr

theorem orthoCols_rank {Q : Matrix (Fin m) (Fin k) ℝ} (hQ : Qᵀ * Q = 1) : Q.rank = k := by
  apply le_antisymm (rank_le_width' Q)
  have := Matrix.rank_mul_le_right Qᵀ Q
  rw [hQ, Matrix.rank_one] at this
  simpa using this

theorem permMat_transpose_mul (σ : Equiv.Perm (Fin n)) : (permMat σ)ᵀ * permMat σ = 1 := by
  ext i j
  simp only [Matrix.mul_apply, Matrix.transpose_apply, permMat, Matrix.of_apply, Matrix.one_apply]
  rw [Finset.sum_eq_single (σ.symm i)]
  · simp
  · intro l _ hl
    rw [if_neg]; · simp
    intro h; apply hl; rw [← h]; simp
  · simp

theorem permMat_mul_transpose (σ : Equiv.Perm (Fin n)) : permMat σ * (permMat σ)ᵀ = 1 :=
  mul_eq_one_comm.1 (permMat_transpose_mul σ)

theorem orth_le (la : LinAlg) (r : ℕ) (S : Cols r) : colSpace S.mat ≤ colSpace (orth la r S).mat :=
  qr_range la S.mat

theorem orth_width (la : LinAlg) (r : ℕ) (S : Cols r) : (orth la r S).c ≤ S.c := by
  simp [orth]

theorem luStabilize_le (la : LinAlg) (r : ℕ) (S : Cols r) :
    colSpace S.mat ≤ colSpace (luStabilize la r S).mat :=
  colSpace_le_iff.2 ⟨_, (la.lu_mul S.mat).symm⟩

theorem luStabilize_width (la : LinAlg) (r : ℕ) (S : Cols r) : (luStabilize la r S).c ≤ S.c := by
  simp [luStabilize]

end Parla
