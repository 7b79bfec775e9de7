import Verif.Proof.Weyl
import Verif.Proof.IDExpected
import Verif.Props.AlmostSure
import Mathlib.Analysis.MeanInequalitiesPow

/-! # Spectral-norm error of projecting onto a power sketch -/

namespace Parla.Proof

open Matrix Parla Spec
open Parla.Props

variable {m n r l c t : ℕ}

/-- powers of weighted sums -/
theorem pow_sum_le {ι : Type} (F : Finset ι) (a x : ι → ℝ) (ha : ∀ i, 0 ≤ a i) (hx : ∀ i, 0 ≤ x i) (e : ℕ) :
    (∑ i ∈ F, a i * x i) ^ (e + 1) ≤ (∑ i ∈ F, a i) ^ e * ∑ i ∈ F, a i * x i ^ (e + 1) := by
  obtain ⟨T, hT⟩ : ∃ T, T = ∑ i ∈ F, a i := ⟨_, rfl⟩
  have hT0 : 0 ≤ T := hT ▸ Finset.sum_nonneg fun i _ => ha i
  rcases hT0.eq_or_lt with h0 | h0
  · have hz : ∀ i ∈ F, a i = 0 := (Finset.sum_eq_zero_iff_of_nonneg fun i _ => ha i).1 (by rw [← hT, ← h0])
    rw [Finset.sum_eq_zero fun i hi => by rw [hz i hi, zero_mul], Finset.sum_eq_zero (s := F) (f := fun i => a i * x i ^ (e + 1))
      fun i hi => by rw [hz i hi, zero_mul]]
    simp
  · have h1 := Real.pow_arith_mean_le_arith_mean_pow F (fun i => a i / T) x (fun i _ => div_nonneg (ha i) hT0)
      (by rw [← Finset.sum_div, ← hT, div_self h0.ne']) (fun i _ => hx i) (e + 1)
    have e1 : ∑ i ∈ F, a i / T * x i = (∑ i ∈ F, a i * x i) / T := by
      rw [Finset.sum_div]; exact Finset.sum_congr rfl fun i _ => by ring
    have e2 : ∑ i ∈ F, a i / T * x i ^ (e + 1) = (∑ i ∈ F, a i * x i ^ (e + 1)) / T := by
      rw [Finset.sum_div]; exact Finset.sum_congr rfl fun i _ => by ring
    rw [e1, e2, div_pow, div_le_div_iff₀ (by positivity) h0] at h1
    rw [← hT]
    refine le_of_mul_le_mul_right ?_ h0
    calc _ ≤ _ := h1
      _ = _ := by rw [pow_succ]; ring

/-- if `Ω'b = 0` and the first rows of `Ω` have a right inverse `W`, then `b` is small where its last entries are -/
theorem head_le {a : ℕ} (Ω : Matrix (Fin (t + a)) (Fin l) ℝ) (W : Matrix (Fin l) (Fin t) ℝ)
    (hW : (Ω.submatrix (Fin.castAdd a) id) * W = 1) (b : Fin (t + a) → ℝ) (hb : Ωᵀ *ᵥ b = 0) :
    sqNorm b ≤ (1 + ∑ i : Fin a, ∑ j, (Ω * W) (Fin.natAdd t i) j ^ 2) * ∑ i : Fin a, b (Fin.natAdd t i) ^ 2 := by
  have h1 : (Ω * W)ᵀ *ᵥ b = 0 := by rw [transpose_mul, ← mulVec_mulVec, hb, mulVec_zero]
  have h2 : ∀ j : Fin t, b (Fin.castAdd a j) = - ∑ i : Fin a, (Ω * W) (Fin.natAdd t i) j * b (Fin.natAdd t i) := by
    intro j
    have := congrFun h1 j
    simp only [mulVec, dotProduct, Fin.sum_univ_add, transpose_apply, Pi.zero_apply] at this
    have hd : ∀ i : Fin t, (Ω * W) (Fin.castAdd a i) j = if i = j then 1 else 0 := by
      intro i
      have := congrFun (congrFun hW i) j
      rw [Matrix.one_apply] at this
      exact this
    simp only [hd, ite_mul, one_mul, zero_mul, Finset.sum_ite_eq', Finset.mem_univ, if_true] at this
    linarith
  have h3 : sqNorm b = ∑ j : Fin t, b (Fin.castAdd a j) ^ 2 + ∑ i : Fin a, b (Fin.natAdd t i) ^ 2 := by
    unfold sqNorm; rw [Fin.sum_univ_add]
  have h4 : ∑ j : Fin t, b (Fin.castAdd a j) ^ 2 ≤
      (∑ i : Fin a, ∑ j, (Ω * W) (Fin.natAdd t i) j ^ 2) * ∑ i : Fin a, b (Fin.natAdd t i) ^ 2 := by
    rw [Finset.sum_comm, Finset.sum_mul]
    refine Finset.sum_le_sum fun j _ => ?_
    rw [h2 j, neg_sq]
    exact Finset.sum_mul_sq_le_sq_mul_sq _ _ _
  rw [h3, add_mul, one_mul]
  linarith

/-- Spectral norm of the error of projecting onto a range containing that of `U diag(s^(e+1)) Ω`: no gap is needed. -/
theorem spec_range_bound {A : Matrix (Fin m) (Fin n) ℝ} {U : Matrix (Fin m) (Fin r) ℝ} {s : Fin r → ℝ}
    {V : Matrix (Fin n) (Fin r) ℝ} (h : IsSVD A U s V) (ht : t ≤ r) (e : ℕ)
    (Ω : Matrix (Fin r) (Fin l) ℝ) (W : Matrix (Fin l) (Fin t) ℝ)
    (hW : (Ω.submatrix (Fin.castLE ht) id) * W = 1)
    {Q : Matrix (Fin m) (Fin c) ℝ} (hQ : Qᵀ * Q = 1)
    (hY : colSpace (U * diagonal (fun i => s i ^ (e + 1)) * Ω) ≤ colSpace Q) (z : Fin m → ℝ) :
    sqNorm ((A - Q * (Qᵀ * A))ᵀ *ᵥ z) ^ (e + 1) ≤
      (nth s t ^ 2) ^ (e + 1) * (1 + froSq (diagonal (tail (fun _ : Fin r => (1 : ℝ)) t) * (Ω * W))) * sqNorm z ^ (e + 1) := by
  obtain ⟨a, rfl⟩ : ∃ a, r = t + a := ⟨r - t, by omega⟩
  obtain ⟨y, hy⟩ : ∃ y, y = z - Q *ᵥ (Qᵀ *ᵥ z) := ⟨_, rfl⟩
  have hU : Uᵀ * U = 1 := h.left
  have hQy : Qᵀ *ᵥ y = 0 := by rw [hy, mulVec_sub, mulVec_mulVec _ Qᵀ Q, hQ, one_mulVec, sub_self]
  have hyz : sqNorm y ≤ sqNorm z := by
    have h1 : z = Q *ᵥ (Qᵀ *ᵥ z) + y := by rw [hy]; abel
    have h2 : sqNorm z = sqNorm (Qᵀ *ᵥ z) + sqNorm y := by
      nth_rw 1 [h1]
      rw [sqNorm_add, sqNorm_orth_mulVec hQ, dotProduct_comm, dotProduct_mulVec, ← mulVec_transpose, hQy, zero_dotProduct]
      ring
    rw [h2]; have := sqNorm_nonneg (Qᵀ *ᵥ z); linarith
  have hN : (A - Q * (Qᵀ * A))ᵀ *ᵥ z = Aᵀ *ᵥ y := by
    rw [hy, mulVec_sub, mulVec_mulVec, mulVec_mulVec, ← sub_mulVec]
    congr 1
    rw [transpose_sub, transpose_mul, transpose_mul, transpose_transpose, Matrix.mul_assoc]
  -- the coordinates of `y`
  obtain ⟨b, hb⟩ : ∃ b : Fin (t + a) → ℝ, b = fun i => s i ^ (e + 1) * (Uᵀ *ᵥ y) i := ⟨_, rfl⟩
  have hOb : Ωᵀ *ᵥ b = 0 := by
    have h1 : (U * diagonal (fun i => s i ^ (e + 1)) * Ω)ᵀ *ᵥ y = 0 := by
      rw [← proj_of_colSpace hQ hY, transpose_mul, transpose_mul, transpose_transpose, Matrix.mul_assoc, ← mulVec_mulVec,
        ← mulVec_mulVec, hQy, mulVec_zero, mulVec_zero]
    rw [transpose_mul, transpose_mul, diagonal_transpose, ← mulVec_mulVec, ← mulVec_mulVec] at h1
    rw [← h1]
    congr 1
    funext i
    rw [mulVec_diagonal, hb]
  have hbn := head_le Ω W hW b hOb
  have hfro : froSq (diagonal (tail (fun _ : Fin (t + a) => (1 : ℝ)) t) * (Ω * W)) =
      ∑ i : Fin a, ∑ j, (Ω * W) (Fin.natAdd t i) j ^ 2 := by
    unfold froSq
    rw [Fin.sum_univ_add, Finset.sum_eq_zero, zero_add]
    · refine Finset.sum_congr rfl fun i _ => Finset.sum_congr rfl fun j _ => ?_
      rw [diagonal_mul, tail, if_neg (by simp), one_mul]
    · intro i _
      refine Finset.sum_eq_zero fun j _ => ?_
      rw [diagonal_mul, tail, if_pos (by simp), zero_mul]; ring
  rw [← hfro] at hbn
  obtain ⟨F, hF⟩ : ∃ F, F = froSq (diagonal (tail (fun _ : Fin (t + a) => (1 : ℝ)) t) * (Ω * W)) := ⟨_, rfl⟩
  rw [← hF] at hbn ⊢
  have hF0 : 0 ≤ F := hF ▸ froSq_nonneg _
  have htail : ∑ i : Fin a, b (Fin.natAdd t i) ^ 2 ≤ (nth s t ^ 2) ^ (e + 1) * sqNorm y := by
    have h1 : ∑ i : Fin a, b (Fin.natAdd t i) ^ 2 ≤ ∑ i : Fin a, (nth s t ^ 2) ^ (e + 1) * (Uᵀ *ᵥ y) (Fin.natAdd t i) ^ 2 := by
      refine Finset.sum_le_sum fun i _ => ?_
      have htr : t < t + a := by have := i.2; omega
      have h2 : s (Fin.natAdd t i) ≤ nth s t := by
        rw [nth_of_lt htr]; exact h.anti (Fin.le_def.2 (by simp))
      rw [hb]; dsimp only
      rw [mul_pow, ← pow_mul, mul_comm (e + 1) 2, pow_mul]
      exact mul_le_mul_of_nonneg_right (pow_le_pow_left₀ (sq_nonneg _) (pow_le_pow_left₀ (h.nonneg _) h2 2) _) (sq_nonneg _)
    refine h1.trans ?_
    rw [← Finset.mul_sum]
    refine mul_le_mul_of_nonneg_left ?_ (by positivity)
    refine le_trans ?_ (bessel hU y)
    unfold sqNorm
    rw [Fin.sum_univ_add]
    have : 0 ≤ ∑ i : Fin t, (Uᵀ *ᵥ y) (Fin.castAdd a i) ^ 2 := Finset.sum_nonneg fun i _ => sq_nonneg _
    linarith
  have hb2 : sqNorm b ≤ (1 + F) * ((nth s t ^ 2) ^ (e + 1) * sqNorm y) :=
    hbn.trans (mul_le_mul_of_nonneg_left htail (by linarith))
  have hpow := pow_sum_le Finset.univ (fun i => (Uᵀ *ᵥ y) i ^ 2) (fun i => s i ^ 2) (fun i => sq_nonneg _) (fun i => sq_nonneg _) e
  have hAy : sqNorm (Aᵀ *ᵥ y) = ∑ i, (Uᵀ *ᵥ y) i ^ 2 * s i ^ 2 := by
    rw [svd_mulVec (isSVD_transpose h) y]; exact Finset.sum_congr rfl fun i _ => by ring
  have hbs : sqNorm b = ∑ i, (Uᵀ *ᵥ y) i ^ 2 * (s i ^ 2) ^ (e + 1) := by
    unfold sqNorm
    refine Finset.sum_congr rfl fun i _ => ?_
    rw [hb]; dsimp only
    rw [mul_pow, ← pow_mul, mul_comm (e + 1) 2, pow_mul]; ring
  rw [← hAy, ← hbs] at hpow
  rw [hN]
  have hUy : ∑ i, (Uᵀ *ᵥ y) i ^ 2 ≤ sqNorm z := (bessel hU y).trans hyz
  have hz := sqNorm_nonneg z
  have hy0 := sqNorm_nonneg y
  calc sqNorm (Aᵀ *ᵥ y) ^ (e + 1) ≤ (∑ i, (Uᵀ *ᵥ y) i ^ 2) ^ e * sqNorm b := hpow
    _ ≤ sqNorm z ^ e * ((1 + F) * ((nth s t ^ 2) ^ (e + 1) * sqNorm z)) := by
        refine mul_le_mul (pow_le_pow_left₀ (Finset.sum_nonneg fun i _ => sq_nonneg _) hUy e) (hb2.trans ?_) (sqNorm_nonneg _)
          (by positivity)
        exact mul_le_mul_of_nonneg_left (mul_le_mul_of_nonneg_left hyz (by positivity)) (by linarith)
    _ = _ := by rw [pow_succ (sqNorm z)]; ring

end Parla.Proof
