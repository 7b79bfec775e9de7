import Verif.Backend.SVD
import Verif.Backend.LU

/-!
# The backend contracts are consistent

`LinAlg.exists` proves that some backend satisfies every law of `LinAlg`, so theorems
quantified over all backends are not vacuous.
-/

namespace Parla

open Matrix Backend

theorem exists_lu {m n : ℕ} (A : Matrix (Fin m) (Fin n) ℝ) :
    ∃ x : Equiv.Perm (Fin m) × Matrix (Fin m) (Fin (min m n)) ℝ × Matrix (Fin (min m n)) (Fin n) ℝ,
      permMat x.1 * x.2.1 * x.2.2 = A ∧ (∀ i j, i.1 < j.1 → x.2.1 i j = 0) ∧
      (∀ j, x.2.1 (minL j) j = 1) ∧ ∀ i j, j.1 < i.1 → x.2.2 i j = 0 := by
  obtain ⟨σ, L, U, h1, h2, h3, h4⟩ := exists_lu_full m n A
  refine ⟨(σ⁻¹, L.submatrix id minL, U.submatrix minL id), ?_, ?_, ?_, ?_⟩
  · rw [Matrix.mul_assoc, econ_mul L U h4, h1]
    ext i j
    simp only [mul_apply, permMat, of_apply, submatrix_apply, id, ite_mul, one_mul, zero_mul,
      Finset.sum_ite_eq, Finset.mem_univ, if_true]
    simp
  · intro i j h; exact h2 _ _ h
  · intro j; exact h3 _
  · intro i j h; exact h4 _ _ h

open Classical in
/-- Some backend satisfies all contracts. -/
noncomputable def LinAlg.ref : LinAlg where
  qr A := (exists_qr A).choose
  qr_mul A := (exists_qr A).choose_spec.1
  qr_orth A := (exists_qr A).choose_spec.2.1
  qr_upper A := (exists_qr A).choose_spec.2.2
  qrp A := (exists_qrp A).choose
  qrp_mul A := (exists_qrp A).choose_spec.1
  qrp_orth A := (exists_qrp A).choose_spec.2.1
  qrp_upper A := (exists_qrp A).choose_spec.2.2.1
  qrp_pivot A := (exists_qrp A).choose_spec.2.2.2
  svd A := (exists_svd A).choose
  svd_mul A := (exists_svd A).choose_spec.1
  svd_left A := (exists_svd A).choose_spec.2.1
  svd_right A := (exists_svd A).choose_spec.2.2.1
  svd_nonneg A := (exists_svd A).choose_spec.2.2.2.1
  svd_anti A := (exists_svd A).choose_spec.2.2.2.2
  svdFull A := (exists_svdFull A).choose
  svdFull_mul A := (exists_svdFull A).choose_spec.1
  svdFull_left A := (exists_svdFull A).choose_spec.2.1
  svdFull_right A := (exists_svdFull A).choose_spec.2.2.1
  svdFull_nonneg A := (exists_svdFull A).choose_spec.2.2.2.1
  svdFull_anti A := (exists_svdFull A).choose_spec.2.2.2.2
  eigh C := (exists_eigh C).choose
  eigh_mul C h := ((exists_eigh C).choose_spec h).1
  eigh_orth C h := ((exists_eigh C).choose_spec h).2.1
  eigh_mono C h := ((exists_eigh C).choose_spec h).2.2
  cholesky C := if h : C.PosDef then .ok (exists_chol C h).choose else .error .linAlg
  chol_posDef C h := ⟨_, dif_pos h, (exists_chol C h).choose_spec⟩
  chol_fail _ _ h := dif_neg h
  lstsq A B := (exists_lstsq A B).choose
  lstsq_normal A B := (exists_lstsq A B).choose_spec.1
  lstsq_row A B := (exists_lstsq A B).choose_spec.2
  lu A := (exists_lu A).choose
  lu_mul A := (exists_lu A).choose_spec.1
  lu_lower A := (exists_lu A).choose_spec.2.1
  lu_unit A := (exists_lu A).choose_spec.2.2.1
  lu_upper A := (exists_lu A).choose_spec.2.2.2
  argsort v := Tuple.sort v
  argsort_mono v := Tuple.monotone_sort v

theorem LinAlg.exists : Nonempty LinAlg := ⟨LinAlg.ref⟩

end Parla
