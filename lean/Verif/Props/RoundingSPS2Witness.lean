import Verif.Props.RoundingSPS2
import Verif.Props.RoundingLSWitness

/-! # C106: a case that meets the hypotheses -/

namespace Parla.Props

open Matrix Parla Spec Parla.Proof

theorem saddle3 : SolvesSaddle col3 ((some ![1, 2, 6] : Option (Fin 3 → ℝ)).getD 0) (cVec (some ![3])) 0 ![2] ![-1, 0, 4] := by
  constructor
  · ext i; fin_cases i <;> norm_num [col3, mulVec, dotProduct]
  · ext i; fin_cases i
    simp [col3, mulVec, dotProduct, cVec, Fin.sum_univ_three]
    show -1 + 4 = (3 : ℝ)
    norm_num

/-- `SPS2` with a wrong arithmetic on `A = (1,1,1)'`, `b = (1,2,6)`, `c = 3`, whose solution is `x = 2`, `y = (-1,0,4)`: the logging call
with `PcSS1` returns, and after the `k` iterations of its log it is that close to the solution. -/
example (L : ℕ) : ∃ out w' lg k x y, sps2CallFl (inflatedLS LinAlg.ref (1 / 10000)) weightGen 3 PcSS1 col3 (some ![1, 2, 6]) (some ![3]) 0 0 L
      true ⟨0, 0, 0, 0, 0⟩ ⟨0, 0, []⟩ = .ok (out, w') ∧ out.log = some lg ∧ lg.errors.length = k + 1 ∧ out.x = some x ∧ out.y = some y ∧
      √(sqNorm (y - ![-1, 0, 4]) + 0 * sqNorm (x - ![2])) ≤
        2 * (31 / 200) ^ k * (√(sqNorm (col3 *ᵥ ![2]) + 0 * sqNorm ![2]) + 1 / 20 * norm2 (cVec (some ![3])) / (8 * 1)) +
          1 / 20 * norm2 (cVec (some ![3])) / (8 * 1) := by
  have hlo : ∀ v, (1 : ℝ) ^ 2 * sqNorm v ≤ sqNorm (col3 *ᵥ v) + 0 * sqNorm v := fun v => by
    rw [zero_mul, add_zero]; exact lo3 v
  obtain ⟨w1, w2, w3⟩ := witness_setup .svd
  obtain ⟨-, out, w', lg, k, h, hlg, hk⟩ := C106_sps2_total (inflatedLS LinAlg.ref (1 / 10000)) 4 (1 / 10000) (by norm_num)
    (inflatedLS_accurate _ (by norm_num) _) weightGen 3 PcSS1 (.inl rfl) col3 (some ![1, 2, 6]) (some ![3]) 0 0 le_rfl le_rfl L (by omega)
    ⟨0, 0, 0, 0, 0⟩ ⟨0, 0, []⟩ (by norm_num) (by norm_num) (by norm_num) (by rw [demo31_pyInt]; norm_num) (1 / 10) (by norm_num)
    (by norm_num) 1 (by norm_num) hlo (1 / 20)
    (fun d w₁ h => by
      rw [demo31_dim] at h; cases h
      exact ⟨_, _, weightGen_ok, w1, w2, w3⟩) (by norm_num)
  obtain ⟨x, y, h1, h2, -, h3⟩ := C106_sps2 (inflatedLS LinAlg.ref (1 / 10000)) 4 (1 / 10000) (by norm_num)
    (inflatedLS_accurate _ (by norm_num) _) weightGen 3 PcSS1 (.inl rfl) col3 (some ![1, 2, 6]) (some ![3]) 0 0 le_rfl le_rfl L
    ⟨0, 0, 0, 0, 0⟩ ⟨0, 0, []⟩ w' out h (by norm_num) (by norm_num) (1 / 10) (by norm_num) (by norm_num) 1 (by norm_num) hlo (1 / 20)
    (fun d w₁ S h1 h2 => by
      rw [demo31_dim] at h1; cases h1
      rw [weightGen_ok] at h2; cases h2
      exact ⟨w1, w2, w3⟩) (31 / 200) (by norm_num) (by norm_num) lg hlg k hk _ _ saddle3
  exact ⟨out, w', lg, k, x, y, h, hlg, hk, h1, h2, h3⟩

end Parla.Props
