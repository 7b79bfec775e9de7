import Verif.Base.LinAlg
import Mathlib.Tactic.FieldSimp

/-!
# Existence of LU factorisations with row interchanges (for `LinAlg`'s consistency)
-/

namespace Parla.Backend

open Matrix

theorem exists_lu_full : ∀ (m n : ℕ) (A : Matrix (Fin m) (Fin n) ℝ),
    ∃ (σ : Equiv.Perm (Fin m)) (L : Matrix (Fin m) (Fin m) ℝ) (U : Matrix (Fin m) (Fin n) ℝ),
      L * U = A.submatrix σ id ∧ (∀ i j, i.1 < j.1 → L i j = 0) ∧ (∀ i, L i i = 1) ∧
      (∀ i j, j.1 < i.1 → U i j = 0) := by
  classical
  intro m
  induction m with
  | zero =>
    intro n A
    exact ⟨1, 1, A, by ext i; exact i.elim0, fun i => i.elim0, fun i => i.elim0, fun i => i.elim0⟩
  | succ m ih =>
    intro n A
    cases n with
    | zero =>
      refine ⟨1, 1, A, by ext i j; exact j.elim0, ?_, by simp, fun _ j => j.elim0⟩
      intro i j h; exact one_apply_ne (by intro e; subst e; exact lt_irrefl _ h)
    | succ n =>
      obtain ⟨c, hc⟩ : ∃ c : Fin (m + 1), A c 0 = 0 → ∀ i, A i 0 = 0 := by
        by_cases h : ∃ c, A c 0 ≠ 0
        · obtain ⟨c, hc⟩ := h; exact ⟨c, fun h => absurd h hc⟩
        · push Not at h; exact ⟨0, fun _ => h⟩
      set s : Equiv.Perm (Fin (m + 1)) := Equiv.swap 0 c
      set A' := A.submatrix s id
      have hA0 : A' 0 0 = 0 → ∀ i, A' i 0 = 0 := by
        intro h i; exact hc (by simpa [A', s] using h) _
      set l : Fin m → ℝ := fun i => A' i.succ 0 / A' 0 0
      have hl : ∀ i : Fin m, l i * A' 0 0 = A' i.succ 0 := by
        intro i
        by_cases h : A' 0 0 = 0
        · rw [h, hA0 h, mul_zero]
        · simp only [l]; field_simp
      obtain ⟨σ1, L1, U1, h1, h2, h3, h4⟩ :=
        ih n (Matrix.of fun i j => A' i.succ j.succ - l i * A' 0 j.succ)
      set t : Equiv.Perm (Fin (m + 1)) := Equiv.Perm.decomposeFin.symm (0, σ1)
      have ht0 : t 0 = 0 := by simp [t]
      have hts : ∀ j : Fin m, t j.succ = (σ1 j).succ := fun j => by simp [t]
      refine ⟨s * t, Matrix.of fun i j => Fin.cases (Fin.cases 1 (fun _ => 0) j)
          (fun i => Fin.cases (l (σ1 i)) (fun j => L1 i j) j) i,
        Matrix.of fun i j => Fin.cases (A' 0 j) (fun i => Fin.cases 0 (fun j => U1 i j) j) i,
        ?_, ?_, ?_, ?_⟩
      · have : A.submatrix (s * t : Equiv.Perm _) id = A'.submatrix t id := rfl
        rw [this]
        ext i j
        cases i using Fin.cases with
        | zero => simp [mul_apply, Fin.sum_univ_succ, ht0]
        | succ i =>
          cases j using Fin.cases with
          | zero => simp [mul_apply, Fin.sum_univ_succ, hts, hl]
          | succ j =>
            have := congrFun (congrFun h1 i) j
            simp only [mul_apply, submatrix_apply, of_apply, id] at this
            simp [mul_apply, Fin.sum_univ_succ, hts, this]
      · intro i j hij
        cases j using Fin.cases with
        | zero => simp at hij
        | succ j =>
          cases i using Fin.cases with
          | zero => simp
          | succ i => exact h2 i j (by simpa using hij)
      · intro i
        cases i using Fin.cases with
        | zero => simp
        | succ i => exact h3 i
      · intro i j hij
        cases i using Fin.cases with
        | zero => simp at hij
        | succ i =>
          cases j using Fin.cases with
          | zero => simp
          | succ j => exact h4 i j (by simpa using hij)

end Parla.Backend
