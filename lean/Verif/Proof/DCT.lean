import Verif.Model.Sketching

/-! # The orthonormal DCT-II matrix is orthogonal -/

namespace Parla.Proof

open Matrix Parla

theorem cos_sum_zero {n m : ℕ} (h0 : 0 < m) (hm : m < 2 * n) :
    ∑ i : Fin n, Real.cos (Real.pi * m * (2 * i.1 + 1) / (2 * n)) = 0 := by
  have hn : (0 : ℝ) < n := by
    have : 0 < n := by omega
    exact_mod_cast this
  have hm0 : (0 : ℝ) < m := by exact_mod_cast h0
  have hm' : (m : ℝ) < 2 * n := by exact_mod_cast hm
  have hs : Real.sin (Real.pi * m / (2 * n)) ≠ 0 := by
    apply ne_of_gt
    apply Real.sin_pos_of_pos_of_lt_pi
    · have := Real.pi_pos
      positivity
    · rw [div_lt_iff₀ (by positivity)]
      exact mul_lt_mul_of_pos_left hm' Real.pi_pos
  have h1 : ∀ i : ℕ, 2 * Real.sin (Real.pi * m / (2 * n)) *
      Real.cos (Real.pi * m * (2 * i + 1) / (2 * n)) =
      Real.sin (Real.pi * m * ((i + 1 : ℕ) : ℝ) / n) - Real.sin (Real.pi * m * (i : ℝ) / n) := by
    intro i
    rw [Real.sin_sub_sin]
    congr 1
    · congr 2
      push_cast
      field_simp
      ring
    · congr 1
      push_cast
      field_simp
      ring
  have h2 : 2 * Real.sin (Real.pi * m / (2 * n)) *
      ∑ i : Fin n, Real.cos (Real.pi * m * (2 * i.1 + 1) / (2 * n)) = 0 := by
    rw [Finset.mul_sum]
    simp only [h1]
    rw [Fin.sum_univ_eq_sum_range (fun i => Real.sin (Real.pi * m * ((i + 1 : ℕ) : ℝ) / n) -
      Real.sin (Real.pi * m * (i : ℝ) / n)), Finset.sum_range_sub
      (fun i : ℕ => Real.sin (Real.pi * m * (i : ℝ) / n))]
    rw [mul_div_assoc, div_self hn.ne', mul_one, mul_comm Real.pi, Real.sin_nat_mul_pi]
    simp
  have h3 : (2 : ℝ) * Real.sin (Real.pi * m / (2 * n)) ≠ 0 := mul_ne_zero two_ne_zero hs
  exact (mul_eq_zero.1 h2).resolve_left h3

theorem cos_mul_sum {n k l : ℕ} (hl : l ≤ k) (hk : k < n) :
    ∑ i : Fin n, Real.cos (Real.pi * k * (2 * i.1 + 1) / (2 * n)) *
      Real.cos (Real.pi * l * (2 * i.1 + 1) / (2 * n)) =
      if k = l then (if k = 0 then (n : ℝ) else n / 2) else 0 := by
  have h1 : ∀ i : Fin n, Real.cos (Real.pi * k * (2 * i.1 + 1) / (2 * n)) *
      Real.cos (Real.pi * l * (2 * i.1 + 1) / (2 * n)) =
      (1 / 2) * Real.cos (Real.pi * ((k - l : ℕ) : ℝ) * (2 * i.1 + 1) / (2 * n)) +
      (1 / 2) * Real.cos (Real.pi * ((k + l : ℕ) : ℝ) * (2 * i.1 + 1) / (2 * n)) := by
    intro i
    rw [Nat.cast_sub hl, Nat.cast_add]
    have e1 : Real.pi * ((k : ℝ) - l) * (2 * i.1 + 1) / (2 * n) =
        Real.pi * k * (2 * i.1 + 1) / (2 * n) - Real.pi * l * (2 * i.1 + 1) / (2 * n) := by ring
    have e2 : Real.pi * ((k : ℝ) + l) * (2 * i.1 + 1) / (2 * n) =
        Real.pi * k * (2 * i.1 + 1) / (2 * n) + Real.pi * l * (2 * i.1 + 1) / (2 * n) := by ring
    rw [e1, e2, Real.cos_sub, Real.cos_add]
    ring
  simp only [h1, Finset.sum_add_distrib, ← Finset.mul_sum]
  by_cases hkl : k = l
  · subst hkl
    rw [if_pos rfl]
    have e : ∑ i : Fin n, Real.cos (Real.pi * ((k - k : ℕ) : ℝ) * (2 * i.1 + 1) / (2 * n)) = n := by
      simp
    rw [e]
    by_cases h0 : k = 0
    · subst h0
      rw [if_pos rfl]
      have e2 : ∑ i : Fin n, Real.cos (Real.pi * ((0 + 0 : ℕ) : ℝ) * (2 * i.1 + 1) / (2 * n)) = n := by
        simp
      rw [e2]; ring
    · rw [if_neg h0, cos_sum_zero (by omega) (by omega)]; ring
  · rw [if_neg hkl, cos_sum_zero (by omega) (by omega), cos_sum_zero (by omega) (by omega)]; ring

/-- the DCT matrix is orthogonal -/
theorem dctMat_orth (n : ℕ) : dctMat n * (dctMat n)ᵀ = 1 := by
  have key : ∀ k l : Fin n, l.1 ≤ k.1 → (dctMat n * (dctMat n)ᵀ) k l = (1 : Matrix (Fin n) (Fin n) ℝ) k l := by
    intro k l hlk
    have hn : (0 : ℝ) < n := by
      have := k.2
      have : 0 < n := by omega
      exact_mod_cast this
    rw [mul_apply]
    simp only [transpose_apply, dctMat, of_apply]
    have : ∀ i : Fin n, (if k.1 = 0 then Real.sqrt (1 / n) else Real.sqrt (2 / n)) *
        Real.cos (Real.pi * k.1 * (2 * i.1 + 1) / (2 * n)) *
        ((if l.1 = 0 then Real.sqrt (1 / n) else Real.sqrt (2 / n)) *
        Real.cos (Real.pi * l.1 * (2 * i.1 + 1) / (2 * n))) =
        ((if k.1 = 0 then Real.sqrt (1 / n) else Real.sqrt (2 / n)) *
          (if l.1 = 0 then Real.sqrt (1 / n) else Real.sqrt (2 / n))) *
        (Real.cos (Real.pi * k.1 * (2 * i.1 + 1) / (2 * n)) *
          Real.cos (Real.pi * l.1 * (2 * i.1 + 1) / (2 * n))) := fun i => by ring
    simp only [this]
    rw [← Finset.mul_sum, cos_mul_sum hlk k.2, one_apply]
    by_cases hkl : k = l
    · subst hkl
      rw [if_pos rfl, if_pos rfl]
      by_cases h0 : k.1 = 0
      · rw [if_pos h0, if_pos h0, Real.mul_self_sqrt (by positivity)]
        field_simp
      · rw [if_neg h0, if_neg h0, Real.mul_self_sqrt (by positivity)]
        field_simp
    · rw [if_neg (fun h => hkl (Fin.ext h)), if_neg hkl, mul_zero]
  ext k l
  rcases le_total l.1 k.1 with h | h
  · exact key k l h
  · have := key l k h
    have e : (dctMat n * (dctMat n)ᵀ)ᵀ = dctMat n * (dctMat n)ᵀ := by
      rw [transpose_mul, transpose_transpose]
    calc (dctMat n * (dctMat n)ᵀ) k l = (dctMat n * (dctMat n)ᵀ)ᵀ k l := by rw [e]
      _ = (1 : Matrix (Fin n) (Fin n) ℝ) l k := this
      _ = _ := by rw [one_apply, one_apply]; simp only [eq_comm]

theorem dctMat_orth' (n : ℕ) : (dctMat n)ᵀ * dctMat n = 1 :=
  mul_eq_one_comm.1 (dctMat_orth n)

end Parla.Proof
