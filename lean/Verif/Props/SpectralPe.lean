import Verif.Props.SpectralTail

/-! # C95 for the pass-efficient `qb_b_pe` -/

namespace Parla.Props

open Matrix Parla Spec MeasureTheory
open Parla.Proof

variable {G : Type} {m n r : ℕ}

/-- **C95** (mean) for `qb_b_pe(p, blk, A, k, tol, rng)`, `0 < k < min(m, n)`, `k ≤ rank(A)`, any block size: for the runs that build all `k`
columns the spectral norm of the error is at most a function of the draws of mean at most `s_t (1 + (r - t) t/(k - t - 1))^(1/(2p))`. -/
theorem C95_qb_b_pe_mean (A : Matrix (Fin m) (Fin n) ℝ)
    {U : Matrix (Fin m) (Fin r) ℝ} {s : Fin r → ℝ} {V : Matrix (Fin n) (Fin r) ℝ} (hA : IsSVD A U s V)
    (k : ℕ) (hk' : k < min m n) (hr : k ≤ A.rank) (t : ℕ) (ht : t ≤ r) (htk : t + 2 ≤ k) (p : ℤ) (hp : 1 ≤ p)
    (blk : ℕ) (hblk : 0 < blk) (tol : Tol) :
    ∃ g : (Fin (startRows (p - 1) m n) × Fin k → ℝ) → ℝ, (∀ Z, 0 ≤ g Z) ∧ Integrable g (normals _ k) ∧
      ∫ Z, g Z ∂(normals _ k) ≤ nth s t * (1 + ((r : ℝ) - t) * (t / ((k : ℝ) - t - 1))) ^ (2 * (p : ℝ))⁻¹ ∧
      ∀ᵐ Z ∂(normals _ k), ∀ (G : Type) (la : LinAlg) (R : NpRng G) (w : World G), NextNormal R w _ _ Z →
        ∃ out w', qbBPe la (gaussianOperator R true) p blk A k tol w = .ok (out, w') ∧ OrthoCols out.Q ∧
          (out.c = k ∨ ∃ u, tol = .val u ∧ 0 < u ∧ fro (A - out.Q * out.B) ≤ u * fro A) ∧
          (out.c = k → SpecNormLE (A - out.Q * out.B) (g Z)) := by
  have : IsProbabilityMeasure (normals (startRows (p - 1) m n) k) := by
    change IsProbabilityMeasure (Proof.gauss _); infer_instance
  obtain ⟨g, h0, h1, h2, h3⟩ := rs1_spec_mean A hA k (by omega) t ht htk (p - 1)
  obtain ⟨c1, c2, c3⟩ := bound_mean h0 h1 (nth_nonneg hA.nonneg (i := t)) h2 (p - 1).toNat
  rw [show 2 * (((p - 1).toNat : ℝ) + 1) = 2 * (p : ℝ) by rw [cast_pass hp]; push_cast; ring] at c1 c2 c3 h3
  refine ⟨_, c1, c2, c3, ?_⟩
  filter_upwards [h3, C59_qb_b_pe A k (by omega) hk' hr p hp blk hblk tol] with Z hZ hZ' G la R w hw
  obtain ⟨out, w', e1, e2, -, -, e3, -⟩ := hZ' G la R w hw
  refine ⟨out, w', e1, e2, e3, fun hc => ?_⟩
  obtain ⟨g1, g2, S, w1, g3, g4⟩ := qbBPe_range hk' e1 hc
  rw [g2]
  exact hZ G la R w w1 S hw g3 _ _ g1 g4

/-- **C95** (failure probability) for `qb_b_pe`, under the same conditions. -/
theorem C95_qb_b_pe_tail (A : Matrix (Fin m) (Fin n) ℝ)
    {U : Matrix (Fin m) (Fin r) ℝ} {s : Fin r → ℝ} {V : Matrix (Fin n) (Fin r) ℝ} (hA : IsSVD A U s V)
    (k : ℕ) (hk : 0 < k) (hk' : k < min m n) (hr : k ≤ A.rank) (t : ℕ) (ht : t ≤ r) (p : ℤ) (hp : 1 ≤ p)
    (blk : ℕ) (hblk : 0 < blk) (tol : Tol) (ε : ℝ) (h0 : 0 ≤ ε) (h1 : ε < 1) :
    ∃ E : Set (Fin (startRows (p - 1) m n) × Fin k → ℝ),
      normals _ k E ≤ ENNReal.ofReal (3 * 9 ^ t * Real.exp (-(k * ε ^ 2 / 32))) ∧
      ∀ Z ∉ E, ∀ (G : Type) (la : LinAlg) (R : NpRng G) (w : World G), NextNormal R w _ _ Z →
        ∃ out w', qbBPe la (gaussianOperator R true) p blk A k tol w = .ok (out, w') ∧ OrthoCols out.Q ∧
          (out.c = k ∨ ∃ u, tol = .val u ∧ 0 < u ∧ fro (A - out.Q * out.B) ≤ u * fro A) ∧
          (out.c = k → SpecNormLE (A - out.Q * out.B)
            (nth s t * (1 + ((r : ℝ) - t) * ((1 + ε / 2) / (1 - ε))) ^ (2 * (p : ℝ))⁻¹)) := by
  obtain ⟨E, hE, h3⟩ := rs1_spec_tail A hA k hk (by omega) t ht (p - 1) ε h0 h1
  rw [show 2 * (((p - 1).toNat : ℝ) + 1) = 2 * (p : ℝ) by rw [cast_pass hp]; push_cast; ring] at h3
  obtain ⟨E', hE', h4⟩ := except_ae hE (C59_qb_b_pe A k hk hk' hr p hp blk hblk tol)
  refine ⟨E', hE', fun Z hZ G la R w hw => ?_⟩
  obtain ⟨z1, z2⟩ := h4 Z hZ
  obtain ⟨out, w', e1, e2, -, -, e3, -⟩ := z2 G la R w hw
  refine ⟨out, w', e1, e2, e3, fun hc => ?_⟩
  obtain ⟨g1, g2, S, w1, g3, g4⟩ := qbBPe_range hk' e1 hc
  rw [g2]
  exact h3 Z z1 G la R w w1 S hw g3 _ _ g1 g4

/-- the conditions of `C95_qb_b_pe_mean` are met by the 6×6 identity, `t = 2`, `k = 4`, `p = 3`, blocks of 2 -/
example : ∃ g : (Fin (startRows (3 - 1) 6 6) × Fin 4 → ℝ) → ℝ, ∫ Z, g Z ∂(normals _ 4) ≤ 9 ^ ((6 : ℝ)⁻¹) ∧
    ∀ᵐ Z ∂(normals _ 4), ∀ (G : Type) (la : LinAlg) (R : NpRng G) (w : World G), NextNormal R w _ _ Z →
      ∃ out w', qbBPe la (gaussianOperator R true) 3 2 (1 : Matrix (Fin 6) (Fin 6) ℝ) (4 : ℕ) .nan w = .ok (out, w') ∧
        out.c = 4 ∧ SpecNormLE (1 - out.Q * out.B) (g Z) := by
  have hs : IsSVD (1 : Matrix (Fin 6) (Fin 6) ℝ) (1 : Matrix (Fin 6) (Fin 6) ℝ) (fun _ => 1) (1 : Matrix (Fin 6) (Fin 6) ℝ) :=
    ⟨by simp [OrthoCols], by simp [OrthoCols], fun _ => zero_le_one, fun _ _ _ => le_rfl, by simp⟩
  obtain ⟨g, -, -, h3, h4⟩ := C95_qb_b_pe_mean (m := 6) (n := 6) (1 : Matrix (Fin 6) (Fin 6) ℝ) hs 4 (by norm_num)
    (by rw [Matrix.rank_one]; norm_num) 2 (by norm_num) (by norm_num) 3 (by norm_num) 2 (by norm_num) .nan
  refine ⟨g, h3.trans (le_of_eq ?_), ?_⟩
  · simp [nth]
    norm_num
  · filter_upwards [h4] with Z hZ G la R w hw
    obtain ⟨out, w', e1, -, e3, e4⟩ := hZ G la R w hw
    have hc : out.c = 4 := by
      rcases e3 with h | ⟨u, hu, -⟩
      · exact h
      · cases hu
    exact ⟨out, w', e1, hc, e4 hc⟩

end Parla.Props
