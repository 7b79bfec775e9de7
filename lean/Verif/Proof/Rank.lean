import Verif.Proof.Stab

/-! Full column rank (helper lemmas). -/

namespace Parla

open Matrix Spec

variable {m n k : ℕ}

theorem fullColRank_iff_li {M : Matrix (Fin m) (Fin n) ℝ} :
    FullColRank M ↔ LinearIndependent ℝ M.col := by
  rw [linearIndependent_iff_card_eq_finrank_span, FullColRank, Matrix.rank_eq_finrank_span_cols]
  simp [Set.finrank, eq_comm]

theorem fullColRank_iff_inj {M : Matrix (Fin m) (Fin n) ℝ} :
    FullColRank M ↔ ∀ x, M *ᵥ x = 0 → x = 0 := by
  rw [fullColRank_iff_li, ← Matrix.mulVec_injective_iff]
  constructor
  · intro h x hx
    apply h
    rw [hx, Matrix.mulVec_zero]
  · intro h x y hxy
    apply sub_eq_zero.1
    apply h
    simp only [Matrix.mulVec_sub]
    exact sub_eq_zero.2 hxy

theorem Spec.FullColRank.submatrix {M : Matrix (Fin m) (Fin n) ℝ} (h : FullColRank M) {f : Fin k → Fin n}
    (hf : Function.Injective f) : FullColRank (M.submatrix id f) := by
  rw [fullColRank_iff_li] at h ⊢
  exact h.comp f hf

theorem fullColRank_of_orth {M : Matrix (Fin m) (Fin n) ℝ} (h : Mᵀ * M = 1) : FullColRank M :=
  orthoCols_rank h

/-- the Gram matrix of a full column rank matrix is invertible -/
theorem Spec.FullColRank.gram_unit {M : Matrix (Fin m) (Fin n) ℝ} (h : FullColRank M) :
    IsUnit (Mᵀ * M).det := by
  rw [isUnit_iff_ne_zero]
  intro hd
  obtain ⟨v, hv, hv0⟩ := Matrix.exists_mulVec_eq_zero_iff.2 hd
  apply hv
  apply fullColRank_iff_inj.1 h
  rw [← sqNorm_eq_zero, sqNorm_eq_dot, dot_mulVec, Matrix.mulVec_mulVec, hv0, zero_dotProduct]

theorem fullColRank_of_left_inv {M : Matrix (Fin m) (Fin n) ℝ} {L : Matrix (Fin n) (Fin m) ℝ}
    (h : L * M = 1) : FullColRank M := by
  rw [fullColRank_iff_inj]
  intro x hx
  have := congrArg (L *ᵥ ·) hx
  simpa [Matrix.mulVec_mulVec, h] using this

end Parla
