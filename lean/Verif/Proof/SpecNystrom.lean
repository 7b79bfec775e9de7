import Verif.Proof.SpecRange
import Verif.Proof.EVD2Error
import Verif.Props.Pairs
import Mathlib.Analysis.SpecialFunctions.Pow.Real

/-! # Spectral-norm error of a Nyström approximation from a power sketch -/

namespace Parla.Proof

open Matrix Parla Spec
open Parla.Props

variable {n l c t : ℕ}

variable {A V : Matrix (Fin n) (Fin n) ℝ} {lam : Fin n → ℝ} {nu : ℝ}

/-- a vector orthogonal to `H A^q S0` (`H` the square root of `A + nu I`) has a small `H`-norm -/
theorem nystrom_dir (hV : IsSVD A V lam V) (hnu : 0 ≤ nu) (ht : t ≤ n) (q : ℕ)
    (Ω : Matrix (Fin n) (Fin l) ℝ) (W : Matrix (Fin l) (Fin t) ℝ)
    (hW : (Ω.submatrix (Fin.castLE ht) id) * W = 1) (y : Fin n → ℝ)
    (hy : (V * diagonal (fun i => √(lam i + nu) * lam i ^ q) * Ω)ᵀ *ᵥ y = 0) :
    sqNorm (sqrtShift V lam nu *ᵥ y) ≤ ((nth lam t + nu) *
      (1 + froSq (diagonal (tail (fun _ : Fin n => (1 : ℝ)) t) * (Ω * W))) ^ (2 * (q : ℝ) + 1)⁻¹ + nu) * sqNorm y := by
  obtain ⟨a, rfl⟩ : ∃ a, n = t + a := ⟨n - t, by omega⟩
  have hl := hV.nonneg
  have hVo : Vᵀ * V = 1 := hV.left
  obtain ⟨b, hb⟩ : ∃ b : Fin (t + a) → ℝ, b = fun i => (√(lam i + nu) * lam i ^ q) * (Vᵀ *ᵥ y) i := ⟨_, rfl⟩
  have hOb : Ωᵀ *ᵥ b = 0 := by
    rw [transpose_mul, transpose_mul, diagonal_transpose, ← mulVec_mulVec, ← mulVec_mulVec] at hy
    rw [← hy]
    congr 1
    funext i
    rw [mulVec_diagonal, hb]
  have hbn := head_le Ω W hW b hOb
  have hfro : froSq (diagonal (tail (fun _ : Fin (t + a) => (1 : ℝ)) t) * (Ω * W)) =
      ∑ i : Fin a, ∑ j, (Ω * W) (Fin.natAdd t i) j ^ 2 := by
    unfold froSq
    rw [Fin.sum_univ_add, Finset.sum_eq_zero, zero_add]
    · refine Finset.sum_congr rfl fun i _ => Finset.sum_congr rfl fun j _ => ?_
      rw [diagonal_mul, tail, if_neg (by simp), one_mul]
    · intro i _
      refine Finset.sum_eq_zero fun j _ => ?_
      rw [diagonal_mul, tail, if_pos (by simp), zero_mul]; ring
  rw [← hfro] at hbn
  obtain ⟨F, hF⟩ : ∃ F, F = froSq (diagonal (tail (fun _ : Fin (t + a) => (1 : ℝ)) t) * (Ω * W)) := ⟨_, rfl⟩
  rw [← hF] at hbn ⊢
  have hF0 : 0 ≤ F := hF ▸ froSq_nonneg _
  have hn0 : 0 ≤ nth lam t := nth_nonneg hl
  have hb2 : ∀ i, b i ^ 2 = (lam i + nu) * (lam i ^ 2) ^ q * (Vᵀ *ᵥ y) i ^ 2 := by
    intro i
    rw [hb]; dsimp only
    rw [mul_pow, mul_pow, Real.sq_sqrt (by linarith [hl i]), ← pow_mul, mul_comm q 2, pow_mul]
  have hVy := bessel hVo y
  have htail : ∑ i : Fin a, b (Fin.natAdd t i) ^ 2 ≤ (nth lam t + nu) ^ (2 * q + 1) * sqNorm y := by
    have h1 : ∑ i : Fin a, b (Fin.natAdd t i) ^ 2 ≤
        ∑ i : Fin a, (nth lam t + nu) ^ (2 * q + 1) * (Vᵀ *ᵥ y) (Fin.natAdd t i) ^ 2 := by
      refine Finset.sum_le_sum fun i _ => ?_
      have htr : t < t + a := by have := i.2; omega
      have h2 : lam (Fin.natAdd t i) ≤ nth lam t := by
        rw [nth_of_lt htr]; exact hV.anti (Fin.le_def.2 (by simp))
      have h3 := hl (Fin.natAdd t i)
      rw [hb2]
      refine mul_le_mul_of_nonneg_right ?_ (sq_nonneg _)
      rw [← pow_mul, pow_succ, mul_comm]
      exact mul_le_mul (pow_le_pow_left₀ h3 (by linarith) _) (by linarith) (by linarith) (by positivity)
    refine h1.trans ?_
    rw [← Finset.mul_sum]
    refine mul_le_mul_of_nonneg_left (le_trans ?_ hVy) (by positivity)
    unfold sqNorm
    rw [Fin.sum_univ_add]
    have : 0 ≤ ∑ i : Fin t, (Vᵀ *ᵥ y) (Fin.castAdd a i) ^ 2 := Finset.sum_nonneg fun i _ => sq_nonneg _
    linarith
  have hbb : sqNorm b ≤ (1 + F) * ((nth lam t + nu) ^ (2 * q + 1) * sqNorm y) :=
    hbn.trans (mul_le_mul_of_nonneg_left htail (by linarith))
  have hpow := pow_sum_le Finset.univ (fun i => (Vᵀ *ᵥ y) i ^ 2) lam (fun i => sq_nonneg _) hl (2 * q)
  have hlow : ∑ i, (Vᵀ *ᵥ y) i ^ 2 * lam i ^ (2 * q + 1) ≤ sqNorm b := by
    unfold sqNorm
    refine Finset.sum_le_sum fun i _ => ?_
    rw [hb2, show lam i ^ (2 * q + 1) = lam i * (lam i ^ 2) ^ q by rw [pow_succ, pow_mul, mul_comm], mul_comm]
    refine mul_le_mul_of_nonneg_right ?_ (sq_nonneg _)
    exact mul_le_mul_of_nonneg_right (by linarith) (pow_nonneg (sq_nonneg _) _)
  have hy0 := sqNorm_nonneg y
  have hVy' : ∑ i, (Vᵀ *ᵥ y) i ^ 2 ≤ sqNorm y := hVy
  obtain ⟨D, hD⟩ : ∃ D, D = (1 + F) ^ (2 * (q : ℝ) + 1)⁻¹ := ⟨_, rfl⟩
  have hD0 : 0 ≤ D := hD ▸ Real.rpow_nonneg (by linarith) _
  have hDp : D ^ (2 * q + 1) = 1 + F := by
    rw [hD, show (2 * (q : ℝ) + 1) = ((2 * q + 1 : ℕ) : ℝ) by push_cast; ring]
    exact Real.rpow_inv_natCast_pow (by linarith) (by omega)
  have hmain : ∑ i, (Vᵀ *ᵥ y) i ^ 2 * lam i ≤ (nth lam t + nu) * D * sqNorm y := by
    refine le_of_pow_le_pow_left₀ (n := 2 * q + 1) (by omega) (by positivity) ?_
    calc (∑ i, (Vᵀ *ᵥ y) i ^ 2 * lam i) ^ (2 * q + 1)
        ≤ (∑ i, (Vᵀ *ᵥ y) i ^ 2) ^ (2 * q) * ∑ i, (Vᵀ *ᵥ y) i ^ 2 * lam i ^ (2 * q + 1) := hpow
      _ ≤ sqNorm y ^ (2 * q) * ((1 + F) * ((nth lam t + nu) ^ (2 * q + 1) * sqNorm y)) := by
          refine mul_le_mul (pow_le_pow_left₀ (Finset.sum_nonneg fun i _ => sq_nonneg _) hVy' _) (hlow.trans hbb)
            (Finset.sum_nonneg fun i _ => mul_nonneg (sq_nonneg _) (pow_nonneg (hl i) _)) (by positivity)
      _ = _ := by rw [mul_pow, mul_pow, hDp, pow_succ (sqNorm y)]; ring
  rw [svd_mulVec (sqrtShift_svd hV hnu) y, ← hD]
  have e : ∑ j, √(lam j + nu) ^ 2 * (Vᵀ *ᵥ y) j ^ 2 = ∑ i, (Vᵀ *ᵥ y) i ^ 2 * lam i + nu * ∑ i, (Vᵀ *ᵥ y) i ^ 2 := by
    rw [Finset.mul_sum, ← Finset.sum_add_distrib]
    refine Finset.sum_congr rfl fun i _ => ?_
    rw [Real.sq_sqrt (by linarith [hl i])]; ring
  rw [e, add_mul]
  exact add_le_add hmain (mul_le_mul_of_nonneg_left hVy' hnu)

theorem evd_pow (hV : IsSVD A V lam V) (p : ℕ) : Vᵀ * A ^ p = diagonal (fun i => lam i ^ p) * Vᵀ := by
  have h1 : Vᵀ * A = diagonal lam * Vᵀ := by
    conv_lhs => rw [hV.eq]
    rw [← Matrix.mul_assoc, ← Matrix.mul_assoc, show Vᵀ * V = 1 from hV.left, Matrix.one_mul]
  induction p with
  | zero => simp
  | succ p ih =>
    rw [pow_succ, ← Matrix.mul_assoc, ih, Matrix.mul_assoc, h1, ← Matrix.mul_assoc, diagonal_mul_diagonal]
    congr 2

/-- the residual `A + nu I - B B'` of the Nyström factor -/
theorem nystrom_residual (hV : IsSVD A V lam V) (hnu : 0 ≤ nu) {S : Matrix (Fin n) (Fin c) ℝ}
    {R : Matrix (Fin c) (Fin c) ℝ} {B : Matrix (Fin n) (Fin c) ℝ} (h : Nystrom A nu S R B) (ht : t ≤ n) (q : ℕ)
    (S0 : Matrix (Fin n) (Fin l) ℝ) (hS : colSpace (A ^ q * S0) ≤ colSpace S) (W : Matrix (Fin l) (Fin t) ℝ)
    (hW : ((Vᵀ * S0).submatrix (Fin.castLE ht) id) * W = 1) :
    SpecNormLE (A + nu • 1 - B * Bᵀ) ((nth lam t + nu) *
      (1 + froSq (diagonal (tail (fun _ : Fin n => (1 : ℝ)) t) * (Vᵀ * S0 * W))) ^ (2 * (q : ℝ) + 1)⁻¹ + nu) := by
  obtain ⟨Q, hQ, hB, hr⟩ := nystrom_factor hV hnu h
  have hQ' : Qᵀ * Q = 1 := hQ
  obtain ⟨H, hH⟩ : ∃ H, H = sqrtShift V lam nu := ⟨_, rfl⟩
  have hHH : H * H = A + nu • 1 := hH ▸ sqrtShift_mul hV hnu
  have hHt : Hᵀ = H := hH ▸ sqrtShift_transpose
  rw [← hH] at hB hr
  obtain ⟨g, hg⟩ : ∃ g, g = (nth lam t + nu) *
      (1 + froSq (diagonal (tail (fun _ : Fin n => (1 : ℝ)) t) * (Vᵀ * S0 * W))) ^ (2 * (q : ℝ) + 1)⁻¹ + nu := ⟨_, rfl⟩
  rw [← hg]
  have hg0 : 0 ≤ g := by
    rw [hg]
    have h1 : 0 ≤ nth lam t := nth_nonneg hV.nonneg
    have h2 := Real.rpow_nonneg (add_nonneg zero_le_one (froSq_nonneg
      (diagonal (tail (fun _ : Fin n => (1 : ℝ)) t) * (Vᵀ * S0 * W)))) (2 * (q : ℝ) + 1)⁻¹
    positivity
  -- the factor
  obtain ⟨N, hN⟩ : ∃ N, N = H - Q * (Qᵀ * H) := ⟨_, rfl⟩
  have hNt : SpecNormLE Nᵀ (√g) := by
    intro z
    obtain ⟨y, hy⟩ : ∃ y, y = z - Q *ᵥ (Qᵀ *ᵥ z) := ⟨_, rfl⟩
    have hQy : Qᵀ *ᵥ y = 0 := by rw [hy, mulVec_sub, mulVec_mulVec _ Qᵀ Q, hQ', one_mulVec, sub_self]
    have hyz : sqNorm y ≤ sqNorm z := by
      have h1 : z = Q *ᵥ (Qᵀ *ᵥ z) + y := by rw [hy]; abel
      have h2 : sqNorm z = sqNorm (Qᵀ *ᵥ z) + sqNorm y := by
        nth_rw 1 [h1]
        rw [sqNorm_add, sqNorm_orth_mulVec hQ', dotProduct_comm, dotProduct_mulVec, ← mulVec_transpose, hQy, zero_dotProduct]
        ring
      rw [h2]; have := sqNorm_nonneg (Qᵀ *ᵥ z); linarith
    have hNz : Nᵀ *ᵥ z = H *ᵥ y := by
      rw [hy, hN, mulVec_sub, transpose_sub, sub_mulVec, transpose_mul, transpose_mul, transpose_transpose, hHt,
        Matrix.mul_assoc, ← mulVec_mulVec, ← mulVec_mulVec]
    have hcol : colSpace (H * (A ^ q * S0)) ≤ colSpace Q := (colSpace_mul_mono H hS).trans hr
    have e : H * (A ^ q * S0) = V * diagonal (fun i => √(lam i + nu) * lam i ^ q) * (Vᵀ * S0) := by
      rw [hH, sqrtShift]
      have h1 : Vᵀ * A ^ q = diagonal (fun i => lam i ^ q) * Vᵀ := evd_pow hV q
      simp only [Matrix.mul_assoc]
      rw [← Matrix.mul_assoc Vᵀ (A ^ q), h1, Matrix.mul_assoc, ← Matrix.mul_assoc (diagonal _) (diagonal _),
        diagonal_mul_diagonal]
    rw [e] at hcol
    have hz : (V * diagonal (fun i => √(lam i + nu) * lam i ^ q) * (Vᵀ * S0))ᵀ *ᵥ y = 0 := by
      rw [← proj_of_colSpace hQ' hcol, transpose_mul, transpose_mul, transpose_transpose, Matrix.mul_assoc, ← mulVec_mulVec,
        ← mulVec_mulVec, hQy, mulVec_zero, mulVec_zero]
    have h1 := nystrom_dir hV hnu ht q (Vᵀ * S0) W hW y hz
    rw [← hg, ← hH] at h1
    rw [hNz]
    unfold norm2
    rw [← Real.sqrt_mul hg0]
    exact Real.sqrt_le_sqrt (h1.trans (mul_le_mul_of_nonneg_left hyz hg0))
  have hNN : A + nu • 1 - B * Bᵀ = Nᵀ * N := by
    rw [← hHH, ← hB, hN, transpose_mul, hHt, transpose_sub, transpose_mul, transpose_mul, transpose_transpose, hHt,
      Matrix.sub_mul, Matrix.mul_sub, Matrix.mul_sub]
    have e2 : H * Q * Qᵀ * (Q * (Qᵀ * H)) = H * Q * (Qᵀ * H) := by
      rw [Matrix.mul_assoc (H * Q), ← Matrix.mul_assoc Qᵀ, hQ', Matrix.one_mul]
    rw [e2]
    simp only [Matrix.mul_assoc]
    abel
  rw [hNN]
  have hN' := specNorm_transpose (Real.sqrt_nonneg g) hNt
  rw [transpose_transpose] at hN'
  intro x
  rw [← mulVec_mulVec]
  calc norm2 (Nᵀ *ᵥ (N *ᵥ x)) ≤ √g * norm2 (N *ᵥ x) := hNt _
    _ ≤ √g * (√g * norm2 x) := mul_le_mul_of_nonneg_left (hN' x) (Real.sqrt_nonneg _)
    _ = g * norm2 x := by rw [← mul_assoc, Real.mul_self_sqrt hg0]

end Parla.Proof
