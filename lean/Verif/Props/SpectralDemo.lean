import Verif.Props.SpectralBlocks
import Verif.Props.SpectralEVD2
import Verif.Props.Witness

/-! # C95: an instance without a gap -/

namespace Parla.Props

open Matrix Parla Spec MeasureTheory
open Parla.Proof

/-- all singular values are equal: there is no gap anywhere -/
theorem flat_svd (n : ℕ) : IsSVD (1 : Matrix (Fin n) (Fin n) ℝ) (1 : Matrix (Fin n) (Fin n) ℝ) (fun _ => 1) (1 : Matrix (Fin n) (Fin n) ℝ) :=
  ⟨by simp [OrthoCols], by simp [OrthoCols], fun _ => zero_le_one, fun _ _ _ => le_rfl, by simp⟩

/-- the conditions of `C95_rf1_mean` are met by the 6×6 identity, `t = 2`, `k = 4`, `p = 3`; the bound is `9^(1/6) < 3/2` -/
example : ∃ g : (Fin (startRows (3 - 1) 6 6) × Fin 4 → ℝ) → ℝ, (∀ Z, 0 ≤ g Z) ∧ Integrable g (normals _ 4) ∧
    ∫ Z, g Z ∂(normals _ 4) ≤ 9 ^ ((6 : ℝ)⁻¹) ∧ (9 : ℝ) ^ ((6 : ℝ)⁻¹) < 3 / 2 ∧
    ∀ᵐ Z ∂(normals _ 4), ∀ (G : Type) (la : LinAlg) (R : NpRng G) (w : World G), NextNormal R w _ _ Z →
      ∃ Q w', rf1 la (gaussianOperator R true) (1 : Matrix (Fin 6) (Fin 6) ℝ) (4 : ℕ) 3 w = .ok (Q, w') ∧ Q.c = 4 ∧
        SpecNormLE ((1 : Matrix (Fin 6) (Fin 6) ℝ) - Q.mat * (Q.matᵀ * (1 : Matrix (Fin 6) (Fin 6) ℝ))) (g Z) := by
  obtain ⟨g, h0, h1, h2, h3⟩ := C95_rf1_mean (m := 6) (n := 6) (1 : Matrix (Fin 6) (Fin 6) ℝ) (flat_svd 6) 4 (by norm_num) 2 (by norm_num) (by norm_num) 3 (by norm_num)
  refine ⟨g, h0, h1, ?_, ?_, ?_⟩
  · refine h2.trans (le_of_eq ?_)
    simp [nth]
    norm_num
  · have h : ((9 : ℝ) ^ ((6 : ℝ)⁻¹)) ^ 6 = 9 := by
      have := Real.rpow_inv_natCast_pow (n := 6) (x := (9 : ℝ)) (by norm_num) (by norm_num)
      exact_mod_cast this
    by_contra hc
    have := pow_le_pow_left₀ (by norm_num) (not_lt.1 hc) 6
    rw [h] at this
    norm_num at this
  · filter_upwards [h3] with Z hZ G la R w hw
    obtain ⟨Q, w', e1, e2, -, e4⟩ := hZ G la R w hw
    exact ⟨Q, w', e1, e2, e4⟩

/-- a state of a generator that draws a given array exists, so the conclusions of C95 are not empty: `svd1` of the 6×6 identity -/
example : ∃ (R : NpRng ℕ) (w w' : World ℕ) (out : SVDOut 6 6),
    svd1 LinAlg.ref (gaussianOperator R true) (1 : Matrix (Fin 6) (Fin 6) ℝ) 4 1 .nan 3 5 w = .ok (out, w') ∧
    ∀ i, out.s i ≤ nth (fun _ : Fin 6 => (1 : ℝ)) i := by
  have hprob : IsProbabilityMeasure stdNormal := by unfold stdNormal; infer_instance
  obtain ⟨g, -, -, -, h3⟩ := C95_svd1 (m := 6) (n := 6) (1 : Matrix (Fin 6) (Fin 6) ℝ) (flat_svd 6) 4 1 5 (by norm_num) 3 (by norm_num) 5 (by norm_num) 5 (by norm_num) 3 (by norm_num)
    (by norm_num) (Or.inl le_rfl)
  have hne : IsProbabilityMeasure (normalSeq (startRows (3 - 2) 6 6) (blockWidths 5 5)) := inferInstance
  obtain ⟨Zs, hZs⟩ := h3.exists
  obtain ⟨R, hR⟩ := exists_generator (blockWidths 5 5) Zs
  obtain ⟨out, w', e1, e2, -⟩ := hZs ℕ LinAlg.ref R ⟨0, 0, []⟩ hR
  exact ⟨R, _, w', out, e1, fun i => (e2 i).1⟩

/-- the conditions of `C95_rf1_tail` are met by a 400×400 matrix with singular values `100, 1, …, 1` (`t = 1`, `k = 300`, `p = 6`): the
exceptional draws have probability below 1, and outside them the spectral norm falls from 100 to below 2 -/
example : ∃ E : Set (Fin (startRows (6 - 1) 400 400) × Fin 300 → ℝ), normals _ 300 E < 1 ∧
    ∀ Z ∉ E, ∀ (G : Type) (la : LinAlg) (R : NpRng G) (w : World G), NextNormal R w _ _ Z →
      ∃ Q w', rf1 la (gaussianOperator R true) (diagonal demoTailS) (300 : ℕ) 6 w = .ok (Q, w') ∧
        SpecNormLE (diagonal demoTailS - Q.mat * (Q.matᵀ * diagonal demoTailS)) 2 := by
  obtain ⟨f1, -, -, f4, -⟩ := demoTail_facts
  obtain ⟨E, hE, h3⟩ := C95_rf1_tail (m := 400) (n := 400) (diagonal demoTailS) f1 300 (by norm_num) (by norm_num) 1 (by norm_num) 6
    (by norm_num) (3 / 4) (by norm_num) (by norm_num)
  refine ⟨E, hE.trans_lt ?_, fun Z hZ G la R w hw => ?_⟩
  · rw [← ENNReal.ofReal_one]
    exact (ENNReal.ofReal_lt_ofReal_iff one_pos).2 f4
  · obtain ⟨Q, w', e1, -, -, e4⟩ := h3 Z hZ G la R w hw
    refine ⟨Q, w', e1, SpecNormLE.mono e4 ?_⟩
    have h1 : nth demoTailS 1 = 1 := by
      unfold nth demoTailS
      rw [dif_pos (by norm_num)]
      norm_num
    rw [h1, one_mul]
    have h2 : (2 : ℝ) = (4096 : ℝ) ^ (2 * ((6 : ℤ) : ℝ))⁻¹ := by
      rw [show (4096 : ℝ) = 2 ^ (12 : ℝ) by norm_num, ← Real.rpow_mul (by norm_num)]
      norm_num
    exact (Real.rpow_le_rpow (z := (2 * ((6 : ℤ) : ℝ))⁻¹) (by norm_num) (by norm_num) (by norm_num)).trans h2.ge

/-- the conditions of `C95_evd2_mean` are met by the 6×6 identity (`k = 3`, `over = 2`, `t = 3`, `p = 2`): almost surely three components
are returned, with values at most `1 + nu`, and the mean of the error is at most `1 + (1 + nu) 10^(1/3) + 3 nu` -/
example : ∃ (g : (Fin 6 × Fin (3 + 2) → ℝ) → ℝ) (nu : ℝ), nu = √6 * eps * fro (1 : Matrix (Fin 6) (Fin 6) ℝ) ∧
    ∫ Z, g Z ∂(normals 6 (3 + 2)) ≤ 1 + (1 + nu) * 10 ^ ((3 : ℝ)⁻¹) + 3 * nu ∧
    ∀ᵐ Z ∂(normals 6 (3 + 2)), ∀ (G : Type) (la : LinAlg) (R : NpRng G) (w : World G), NextNormal R w 6 (3 + 2) Z →
      ∃ out w', evd2 la (gaussianOperator R true) (1 : Matrix (Fin 6) (Fin 6) ℝ) 3 2 2 w = .ok (out, w') ∧ out.r = 3 ∧
        (∀ i, out.lamb i ≤ 1 + nu ∧ 1 ≤ out.lamb i + g Z) ∧
        SpecNormLE ((1 : Matrix (Fin 6) (Fin 6) ℝ) - out.V * diagonal out.lamb * out.Vᵀ) (g Z) := by
  have hpsd : IsPSD (1 : Matrix (Fin 6) (Fin 6) ℝ) :=
    ⟨transpose_one, fun x => by rw [one_mulVec, ← sqNorm_eq_dot]; exact sqNorm_nonneg x⟩
  have hrk : (1 : Matrix (Fin 6) (Fin 6) ℝ).rank = 6 := by rw [Matrix.rank_one]; rfl
  obtain ⟨g, -, -, h3, h4⟩ := C95_evd2_mean (n := 6) (1 : Matrix (Fin 6) (Fin 6) ℝ) hpsd one_ne_zero (flat_svd 6) 3 2 (by norm_num)
    (by norm_num) (by norm_num) 3 (by rw [hrk, if_pos (by norm_num)]) 3 (by norm_num) (by norm_num) 2 le_rfl _ rfl
  have hone : ∀ i : ℕ, i < 6 → nth (fun _ : Fin 6 => (1 : ℝ)) i = 1 := fun i hi => by unfold nth; rw [dif_pos hi]
  refine ⟨g, _, rfl, ?_, ?_⟩
  · refine h3.trans (le_of_eq ?_)
    rw [hone 3 (by norm_num)]
    norm_num
  · filter_upwards [h4] with Z hZ G la R w hw
    obtain ⟨out, w', e1, e2, -, e4, e5⟩ := hZ G la R w hw
    refine ⟨out, w', e1, e2, fun i => ?_, e4⟩
    obtain ⟨f1, f2, -⟩ := e5 i
    rw [hone i (by have := i.2; omega)] at f1 f2
    exact ⟨f1, f2⟩

end Parla.Props
