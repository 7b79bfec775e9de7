import Verif.Props.RoundingNys
import Verif.Props.RoundingWitness

/-! # C101: the hypotheses are met by arithmetic that does round -/

namespace Parla.Props

open Matrix Parla Spec Parla.Proof

/-- A machine whose products, sums and square roots are too large by the factor `1 + ε`, and whose Cholesky factorisation reads the
upper triangle of its argument. -/
noncomputable def inflatedNys (la : LinAlg) (ε : ℝ) : FlNys where
  toFlAlg := inflated la ε
  sqrt x := (1 + ε) * √x
  axpy Y nu S := (1 + ε) • (Y + nu • S)
  chol C := la.cholesky (upSym C)
  solveT := solveUpperT
  svdFull := la.svdFull

theorem upSym_symm {c : ℕ} (C : Matrix (Fin c) (Fin c) ℝ) : (upSym C)ᵀ = upSym C := by rw [upSym_eq, lowSym_symm]

theorem inflatedNys_accurate (la : LinAlg) {ε : ℝ} (hε : 0 ≤ ε) (N : ℕ) : (inflatedNys la ε).Accurate N ε where
  alg := inflated_accurate la hε N
  sqrt x hx := by
    change |(1 + ε) * √x - √x| ≤ _
    rw [show (1 + ε) * √x - √x = ε * √x by ring, abs_of_nonneg (mul_nonneg hε (Real.sqrt_nonneg _))]
  axpy Y nu S _ _ := by
    change fro ((1 + ε) • (Y + nu • S) - (Y + nu • S)) ≤ _
    rw [fro_inflate hε]
    refine mul_le_mul_of_nonneg_left ?_ hε
    rw [← fro_smul]
    exact fro_triangle _ _
  chol C R _ h := by
    change la.cholesky (upSym C) = .ok R at h
    by_cases hp : (upSym C).PosDef
    · obtain ⟨R', h1, h2, h3, h4⟩ := la.chol_posDef _ hp
      rw [h] at h1
      cases h1
      refine ⟨h3, h4, ?_⟩
      rw [h2, sub_self, fro, froSq_zero, Real.sqrt_zero]; exact mul_nonneg hε (fro_nonneg _)
    · rw [la.chol_fail _ (upSym_symm C) hp] at h
      cases h
  chol_fail C e _ h := by
    change la.cholesky (upSym C) = .error e at h
    by_contra hne
    push Not at hne
    have hp : (upSym C).PosDef := by
      refine posDef_of_quad (upSym_symm C) fun x hx => lt_of_le_of_lt ?_ (hne x hx)
      exact mul_nonneg (mul_nonneg hε (fro_nonneg _)) (sqNorm_nonneg _)
    obtain ⟨R', h1, -⟩ := la.chol_posDef _ hp
    rw [h] at h1
    cases h1
  solveT R Z _ _ h1 h2 := by
    have hd : ¬ ∃ i, R i i = 0 := by rintro ⟨i, hi⟩; exact h2 i hi
    refine ⟨((triu R)ᵀ)⁻¹ * Z, ?_, ?_⟩
    · change solveUpperT R Z = _
      rw [solveUpperT, if_neg hd]
    · have hu := isUnit_det_triu hd
      rw [triu_eq_self h1] at hu ⊢
      rw [← Matrix.mul_assoc, Matrix.mul_nonsing_inv _ (by rw [det_transpose]; exact hu), Matrix.one_mul, sub_self, fro, froSq_zero,
        Real.sqrt_zero]
      exact mul_nonneg (mul_nonneg hε (Real.sqrt_nonneg _)) (Real.sqrt_nonneg _)
  svdFull B _ _ := ⟨_, _, la.svdFull_left B, la.svdFull_right B, by
    change fro ((la.svdFull B).1 - (la.svdFull B).1) ≤ _
    rw [sub_self, fro, froSq_zero, Real.sqrt_zero]; exact hε, by
    change fro ((la.svdFull B).2.2 - (la.svdFull B).2.2) ≤ _
    rw [sub_self, fro, froSq_zero, Real.sqrt_zero]; exact hε, by
    change fro ((la.svdFull B).1.submatrix id minL * diagonal (la.svdFull B).2.1 * (la.svdFull B).2.2.submatrix minR id - B) ≤ _
    rw [la.svdFull_mul, sub_self, fro, froSq_zero, Real.sqrt_zero]; exact mul_nonneg hε (fro_nonneg _)⟩
  svdFull_nonneg := la.svdFull_nonneg
  svdFull_anti := la.svdFull_anti

/-- A run as `C101_evd2_returns` asks for, on a machine with rounding errors of relative size `2⁻⁷⁰`. -/
example : ∃ out, evd2CallFl (inflatedNys LinAlg.ref (2 ^ (-70 : ℤ))) (fun _ n _ _ => pure ⟨1, fun i _ => if i.1 = 0 then 1 else 0⟩)
    (!![2, 0; 0, 1] : Matrix (Fin 2) (Fin 2) ℝ) 1 .nan 0 (⟨0, 0, []⟩ : World ℕ) = .ok (out, ⟨0, 0, [Ev.mulA]⟩) := by
  obtain ⟨ε, hεe⟩ : ∃ ε : ℝ, ε = 2 ^ (-70 : ℤ) := ⟨_, rfl⟩
  have hε : 0 < ε := by rw [hεe]; positivity
  have hεs : ε * 2 ^ 70 = 1 := by rw [hεe]; norm_num
  have hε1 : ε ≤ 1 := by nlinarith
  rw [← hεe]
  obtain ⟨S, hS⟩ : ∃ S : Matrix (Fin 2) (Fin 1) ℝ, S = fun i _ => if i.1 = 0 then 1 else 0 := ⟨_, rfl⟩
  obtain ⟨A, hA⟩ : ∃ A : Matrix (Fin 2) (Fin 2) ℝ, A = !![2, 0; 0, 1] := ⟨_, rfl⟩
  have fS : fro S = 1 := by
    rw [fro, show froSq S = 1 by simp [froSq, hS], Real.sqrt_one]
  have fAS : fro (A * S) = 2 := by
    rw [fro, show froSq (A * S) = 2 ^ 2 by simp only [froSq, mul_apply]; simp [hS, hA, Fin.sum_univ_two], Real.sqrt_sq (by norm_num)]
  have fA : fro A ≤ 3 := by
    rw [fro_le_iff_sq (by norm_num), show froSq A = 5 by simp [froSq, hA, Fin.sum_univ_two]; norm_num]
    norm_num
  have hnu := C101_nu (inflatedNys_accurate LinAlg.ref hε.le 2) hε.le hε1 (n := 2) le_rfl (c := 1) (by norm_num) A S
  obtain ⟨nu, hnue⟩ : ∃ nu, nu = evd2NuFl (inflatedNys LinAlg.ref ε) A S := ⟨_, rfl⟩
  rw [← hnue, fAS, fS] at hnu
  have hps : IsPSD A := by
    refine ⟨by rw [hA]; ext i j; fin_cases i <;> fin_cases j <;> rfl, fun x => ?_⟩
    have : x ⬝ᵥ (A *ᵥ x) = 2 * x 0 ^ 2 + x 1 ^ 2 := by
      rw [hA]; simp [dotProduct, mulVec, Fin.sum_univ_two]; ring
    rw [this]; positivity
  have hlow : ∀ v, (1 : ℝ) ^ 2 * sqNorm v ≤ sqNorm (S *ᵥ v) := by
    intro v
    rw [one_pow, one_mul]
    apply le_of_eq
    simp [sqNorm, mulVec, dotProduct, hS]
  have a0 := fro_nonneg A
  have hs2 : 1 ≤ Real.sqrt ((2 : ℕ) : ℝ) := by
    rw [Real.one_le_sqrt]; norm_num
  have heps : eps * 2 ^ 52 = 1 := by unfold eps; norm_num
  have e0 := eps_pos
  have hlo : 1 / 2 * eps ≤ nu := by
    refine le_trans ?_ hnu.2.1
    have h1 : 1 ≤ 2 - ε * fro A * 1 := by nlinarith
    have h2 : (1 / 2 : ℝ) ≤ (1 - ε) ^ 4 := by
      have h := one_add_mul_le_pow (a := -ε) (by linarith) 4
      have h' : ε ≤ 1 / 8 := by norm_num at hεs; linarith
      push_cast at h
      rw [← sub_eq_add_neg] at h
      linarith
    have h3 : eps ≤ Real.sqrt ((2 : ℕ) : ℝ) * eps * (2 - ε * fro A * 1) := by
      have : eps * 1 ≤ Real.sqrt ((2 : ℕ) : ℝ) * eps * (2 - ε * fro A * 1) :=
        mul_le_mul (by nlinarith) h1 (by norm_num) (by positivity)
      linarith
    exact mul_le_mul h2 h3 e0.le (by positivity)
  have hhi : nu ≤ 1 := by
    refine hnu.2.2.trans ?_
    have h1 : (1 + ε) ^ 4 ≤ 2 ^ 4 := pow_le_pow_left₀ (by linarith) (by linarith) 4
    have h2 : Real.sqrt ((2 : ℕ) : ℝ) ≤ 2 := by
      rw [Real.sqrt_le_left (by norm_num)]; norm_num
    have h3 : 2 + ε * fro A * 1 ≤ 5 := by nlinarith
    have h4 : Real.sqrt ((2 : ℕ) : ℝ) * eps * (2 + ε * fro A * 1) ≤ 2 * eps * 5 :=
      mul_le_mul (mul_le_mul_of_nonneg_right h2 e0.le) h3 (by positivity) (by positivity)
    have h5 : (1 + ε) ^ 4 * (Real.sqrt ((2 : ℕ) : ℝ) * eps * (2 + ε * fro A * 1)) ≤ 2 ^ 4 * (2 * eps * 5) :=
      mul_le_mul h1 h4 (by positivity) (by positivity)
    norm_num at heps
    linarith
  obtain ⟨out, h, -⟩ := C101_evd2_returns (inflatedNys_accurate LinAlg.ref hε.le 2) hε.le hε1 (n := 2) le_rfl
    (fun _ n _ _ => pure ⟨1, fun i _ => if i.1 = 0 then 1 else 0⟩) A hps 1 (by norm_num) (by norm_num) .nan 0
    (⟨0, 0, []⟩ : World ℕ) ⟨0, 0, []⟩ ⟨1, S⟩ (by rw [hS]; rfl) (by norm_num) 1 one_pos hlow (by
      show 29 * ε * (fro S ^ 2 * (fro A + evd2NuFl _ A S)) < evd2NuFl _ A S * 1 ^ 2
      rw [← hnue, fS, one_pow, one_mul, mul_one]
      have k1 : 29 * ε * (fro A + nu) ≤ 29 * ε * 4 := mul_le_mul_of_nonneg_left (by linarith) (by linarith)
      norm_num at heps hεs
      linarith)
  rw [hA] at h
  exact ⟨out, h⟩

/-- A run as `C101_evd2` asks for, its condition on the regularisation parameter included. -/
example : ∃ out w', evd2Fl (inflatedNys LinAlg.ref (2 ^ (-70 : ℤ))) (idGen (G := ℕ)) (1 : Matrix (Fin 2) (Fin 2) ℝ) 1 0 2
    ⟨0, 0, []⟩ = .ok (out, w') := by
  obtain ⟨ε, hεe⟩ : ∃ ε : ℝ, ε = 2 ^ (-70 : ℤ) := ⟨_, rfl⟩
  have hε : 0 < ε := by rw [hεe]; positivity
  have hεs : ε * 2 ^ 70 = 1 := by rw [hεe]; norm_num
  have hε8 : ε ≤ 1 / 8 := by norm_num at hεs; linarith
  rw [← hεe]
  have hps : IsPSD (1 : Matrix (Fin 2) (Fin 2) ℝ) := by
    refine ⟨transpose_one, fun x => ?_⟩
    rw [one_mulVec]
    exact Finset.sum_nonneg fun i _ => mul_self_nonneg (x i)
  obtain ⟨⟨c, S⟩, hc, ho, hret, -⟩ := C101_evd2 (inflatedNys_accurate LinAlg.ref hε.le 2) hε.le (by linarith) (n := 2) le_rfl
    (idGen (G := ℕ)) 1 hps 1 (by norm_num) (by norm_num) 0 (by norm_num) 2 le_rfl ⟨0, 0, []⟩ ⟨_, _, rfl⟩
  change c = 1 at hc
  subst hc
  refine hret ?_
  clear hret
  change fro (Sᵀ * S - 1) ≤ 3 * ε at ho
  show 29 * ε * ((Real.sqrt ((1 : ℕ) : ℝ) + 1) ^ 2 * (fro (1 : Matrix (Fin 2) (Fin 2) ℝ) + evd2NuFl (inflatedNys LinAlg.ref ε) 1 S)) <
    evd2NuFl (inflatedNys LinAlg.ref ε) 1 S * (1 - ε) ^ 2
  have h11 : fro (Sᵀ * S - 1) = |froSq S - 1| := by
    rw [fro, show froSq (Sᵀ * S - 1) = (froSq S - 1) ^ 2 by
      simp [froSq, mul_apply, Fin.sum_univ_two, pow_two], Real.sqrt_sq_eq_abs]
  rw [h11, ← fro_sq] at ho
  have ho' := abs_le.1 ho
  have s0 := fro_nonneg S
  have slo : 1 / 2 ≤ fro S := by nlinarith
  have shi : fro S ≤ 2 := by nlinarith
  have fA : fro (1 : Matrix (Fin 2) (Fin 2) ℝ) ≤ 2 := by
    rw [fro_le_iff_sq (by norm_num), show froSq (1 : Matrix (Fin 2) (Fin 2) ℝ) = 2 by
      simp [froSq, one_apply]]
    norm_num
  have a0 := fro_nonneg (1 : Matrix (Fin 2) (Fin 2) ℝ)
  have hnu := C101_nu (inflatedNys_accurate LinAlg.ref hε.le 2) hε.le (by linarith) (n := 2) le_rfl (c := 1) (by norm_num) 1 S
  obtain ⟨nu, hnue⟩ : ∃ nu, nu = evd2NuFl (inflatedNys LinAlg.ref ε) 1 S := ⟨_, rfl⟩
  obtain ⟨a, ha⟩ : ∃ a, a = fro (1 : Matrix (Fin 2) (Fin 2) ℝ) := ⟨_, rfl⟩
  rw [← hnue, Matrix.one_mul, ← ha] at hnu
  rw [← hnue, ← ha, Nat.cast_one, Real.sqrt_one]
  rw [← ha] at fA a0
  have hs2 : 1 ≤ Real.sqrt ((2 : ℕ) : ℝ) := by
    rw [Real.one_le_sqrt]; norm_num
  have heps : eps * 2 ^ 52 = 1 := by unfold eps; norm_num
  have e0 := eps_pos
  have has : 0 ≤ a * fro S ∧ a * fro S ≤ 4 := ⟨mul_nonneg a0 s0, by nlinarith⟩
  have hε70 : ε ≤ 1 / 1000 := by norm_num at hεs; linarith
  have hlo : 1 / 8 * eps ≤ nu := by
    refine le_trans ?_ hnu.2.1
    have h1 : 1 / 4 ≤ fro S - ε * a * fro S := by rw [mul_assoc]; nlinarith
    have h2 : (1 / 2 : ℝ) ≤ (1 - ε) ^ 4 := by
      have h := one_add_mul_le_pow (a := -ε) (by linarith) 4
      push_cast at h
      rw [← sub_eq_add_neg] at h
      linarith
    have h3 : eps * (1 / 4) ≤ Real.sqrt ((2 : ℕ) : ℝ) * eps * (fro S - ε * a * fro S) :=
      mul_le_mul (by nlinarith) h1 (by norm_num) (by positivity)
    calc 1 / 8 * eps = 1 / 2 * (eps * (1 / 4)) := by ring
      _ ≤ _ := mul_le_mul h2 h3 (by positivity) (by positivity)
  have hhi : nu ≤ 1 := by
    refine hnu.2.2.trans ?_
    have h1 : (1 + ε) ^ 4 ≤ 2 ^ 4 := pow_le_pow_left₀ (by linarith) (by linarith) 4
    have h2 : Real.sqrt ((2 : ℕ) : ℝ) ≤ 2 := by
      rw [Real.sqrt_le_left (by norm_num)]; norm_num
    have h3 : fro S + ε * a * fro S ≤ 5 := by rw [mul_assoc]; nlinarith
    have h4 : Real.sqrt ((2 : ℕ) : ℝ) * eps * (fro S + ε * a * fro S) ≤ 2 * eps * 5 :=
      mul_le_mul (mul_le_mul_of_nonneg_right h2 e0.le) h3 (by positivity) (by positivity)
    have h5 : (1 + ε) ^ 4 * (Real.sqrt ((2 : ℕ) : ℝ) * eps * (fro S + ε * a * fro S)) ≤ 2 ^ 4 * (2 * eps * 5) :=
      mul_le_mul h1 h4 (by positivity) (by positivity)
    norm_num at heps
    linarith
  have k1 : 29 * ε * ((1 + 1) ^ 2 * (a + nu)) ≤ 29 * ε * (4 * 3) :=
    mul_le_mul_of_nonneg_left (by linarith) (by linarith)
  have k2 : 1 / 2 ≤ (1 - ε) ^ 2 := by nlinarith
  have k3 : 1 / 8 * eps * (1 / 2) ≤ nu * (1 - ε) ^ 2 := mul_le_mul hlo k2 (by norm_num) hnu.1
  norm_num at heps hεs
  linarith

end Parla.Props
