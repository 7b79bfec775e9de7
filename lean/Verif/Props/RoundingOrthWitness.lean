import Verif.Props.RoundingOrth

/-! # A two-block run that meets the hypotheses of C81_orth

`A = diag(3, 1)`, block size 1, target rank 2, arithmetic that inflates every product and difference by `1 + ε`, and a
generator whose draws are the first and then the second coordinate vector. -/

namespace Parla.Props

open Matrix Parla Spec Parla.Proof

/-- the second unit vector as a column -/
def unit2 : Matrix (Fin 2) (Fin 1) ℝ := Matrix.of fun i _ => if i.1 = 1 then 1 else 0

theorem unit2_orth : unit2ᵀ * unit2 = 1 := by
  ext i j
  fin_cases i; fin_cases j
  simp [unit2, Matrix.mul_apply, Fin.sum_univ_two]

theorem unit12 : unit1ᵀ * unit2 = 0 := by
  ext i j
  fin_cases i; fin_cases j
  simp [unit1, unit2, Matrix.mul_apply, Fin.sum_univ_two]

theorem along_qr2 {s : ℝ} (hs : s ≠ 0) : ∃ z : ℝ, z ^ 2 = 1 ∧ (LinAlg.ref.qr (s • unit2)).1 = z • unit2 := by
  obtain ⟨Q, hQ⟩ : ∃ Q : Matrix (Fin 2) (Fin 1) ℝ, Q = (LinAlg.ref.qr (s • unit2)).1 := ⟨_, rfl⟩
  obtain ⟨R, hR⟩ : ∃ R : Matrix (Fin 1) (Fin 1) ℝ, R = (LinAlg.ref.qr (s • unit2)).2 := ⟨_, rfl⟩
  have h1 : Q * R = s • unit2 := by rw [hQ, hR]; exact LinAlg.ref.qr_mul _
  have h2 : Qᵀ * Q = 1 := by rw [hQ]; exact LinAlg.ref.qr_orth _
  have e0 : Q 1 0 * R 0 0 = s := by
    have := congrFun (congrFun h1 1) 0
    simpa [Matrix.mul_apply, unit2] using this
  have e1 : Q 0 0 * R 0 0 = 0 := by
    have := congrFun (congrFun h1 0) 0
    simpa [Matrix.mul_apply, unit2] using this
  have e2 : Q 0 0 * Q 0 0 + Q 1 0 * Q 1 0 = 1 := by
    have := congrFun (congrFun h2 0) 0
    simpa [Matrix.mul_apply, Fin.sum_univ_two] using this
  have hr : R 0 0 ≠ 0 := fun h => hs (by rw [← e0, h, mul_zero])
  have hq : Q 0 0 = 0 := (mul_eq_zero.1 e1).resolve_right hr
  refine ⟨Q 1 0, by rw [hq] at e2; linarith, ?_⟩
  change (LinAlg.ref.qr (s • unit2)).1 = Q 1 0 • unit2
  rw [← hQ]
  ext i j
  fin_cases j
  fin_cases i
  · simpa [unit2] using hq
  · simp [unit2]

/-- a generator whose draws are successive coordinate vectors -/
def stepGen : SkOpGen ℕ := fun _ _ w =>
  .ok (Matrix.of fun i j => if i.1 = j.1 + w.rng then 1 else 0, ⟨w.rng + 1, w.warns, w.trace⟩)

theorem norm2_scaled_col {c : ℝ} (hc : 1 ≤ c) {z : ℝ} (hz : z ^ 2 = 1) (u : Matrix (Fin 2) (Fin 1) ℝ) (hu : uᵀ * u = 1)
    (v : Fin 1 → ℝ) : 1 * norm2 v ≤ norm2 (((c * z) • u) *ᵥ v) := by
  have hz' : |z| = 1 := by
    have := sq_abs z
    rw [hz] at this
    nlinarith [abs_nonneg z]
  have h1 : sqNorm (u *ᵥ v) = sqNorm v := sqNorm_orth_mulVec hu v
  rw [Matrix.smul_mulVec, norm2_smul, abs_mul, hz', mul_one, abs_of_nonneg (by linarith)]
  have : norm2 (u *ᵥ v) = norm2 v := by unfold norm2; rw [h1]
  rw [this]
  exact mul_le_mul_of_nonneg_right hc (Real.sqrt_nonneg _)

/-- the hypotheses of C81_orth hold, with `σ = 1`, of a call of `qb_b` that takes two blocks -/
theorem witness_orth (ε : ℝ) (hε : 0 < ε) : ∃ out w',
    qbBFl (inflated LinAlg.ref ε) stepGen 2 1 false (!![3, 0; 0, 1] : Matrix (Fin 2) (Fin 2) ℝ) 2 .nan ⟨0, 0, []⟩ = .ok (out, w') ∧
    out.1.c = 2 ∧
    ∃ st, qb2RunFl (inflated LinAlg.ref ε) (RF1Fl (inflated LinAlg.ref ε) (RS1Fl (inflated LinAlg.ref ε) stepGen (2 - 2)
        (orthFl (inflated LinAlg.ref ε)) 1)) 1 (!![3, 0; 0, 1] : Matrix (Fin 2) (Fin 2) ℝ) 2 .nan ⟨0, 0, []⟩ = .ok (st, w') ∧
      st.calls.length = 2 ∧
      WellProjected (inflated LinAlg.ref ε) 1 (0 : Matrix (Fin 2) (Fin 0) ℝ) (st.calls.map (·.out)) := by
  obtain ⟨fl, hfl⟩ : ∃ fl, fl = inflated LinAlg.ref ε := ⟨_, rfl⟩
  rw [← hfl]
  obtain ⟨A, hA⟩ : ∃ A, A = (!![3, 0; 0, 1] : Matrix (Fin 2) (Fin 2) ℝ) := ⟨_, rfl⟩
  obtain ⟨S1, hS1⟩ : ∃ S, S = (Matrix.of fun i j => if i.1 = j.1 + 0 then 1 else 0 : Matrix (Fin 2) (Fin 1) ℝ) := ⟨_, rfl⟩
  obtain ⟨S2, hS2⟩ : ∃ S, S = (Matrix.of fun i j => if i.1 = j.1 + 1 then 1 else 0 : Matrix (Fin 2) (Fin 1) ℝ) := ⟨_, rfl⟩
  have hone : (1 + ε) ≠ 0 := by linarith
  rw [← hA]
  have hAS : A * S1 = (3 : ℝ) • unit1 := by
    rw [hA, hS1]; ext i j; fin_cases i <;> fin_cases j <;> simp [Matrix.mul_apply, unit1]
  have hS2u : S2 = unit2 := by
    rw [hS2]; ext i j; fin_cases i <;> fin_cases j <;> simp [unit2]
  have hA2 : A * unit2 = unit2 := by
    rw [hA]; ext i j; fin_cases i <;> fin_cases j <;> simp [Matrix.mul_apply, unit2]
  have hQA : unit1ᵀ * A = (3 : ℝ) • unit1ᵀ := by
    rw [hA]; ext i j; fin_cases i <;> fin_cases j <;> simp [Matrix.mul_apply, unit1]
  have hrf1 : ∀ (X : Matrix (Fin 2) (Fin 2) ℝ) (w : World ℕ), w.rng = 0 →
      RF1Fl fl (RS1Fl fl stepGen (2 - 2) (orthFl fl) 1) 2 2 X 1 .nan w =
      .ok (⟨1, (LinAlg.ref.qr ((1 + ε) • (X * S1))).1⟩, ⟨1, w.warns, w.trace ++ [.mulA]⟩) := fun X w hw => by
    obtain ⟨r, a, b⟩ := w; cases hw
    rw [hfl, hS1]; rfl
  have hrf2 : ∀ (X : Matrix (Fin 2) (Fin 2) ℝ) (w : World ℕ), w.rng = 1 →
      RF1Fl fl (RS1Fl fl stepGen (2 - 2) (orthFl fl) 1) 2 2 X 1 .nan w =
      .ok (⟨1, (LinAlg.ref.qr ((1 + ε) • (X * S2))).1⟩, ⟨2, w.warns, w.trace ++ [.mulA]⟩) := fun X w hw => by
    obtain ⟨r, a, b⟩ := w; cases hw
    rw [hfl, hS2]; rfl
  obtain ⟨O1, hO1⟩ : ∃ O : Matrix (Fin 2) (Fin 1) ℝ, O = (LinAlg.ref.qr (((1 + ε) * 3) • unit1)).1 := ⟨_, rfl⟩
  have a1 : Along O1 := by rw [hO1]; exact along_qr (mul_ne_zero hone (by norm_num))
  obtain ⟨z1, hz1, hz1'⟩ := a1
  have hW1 : projectOutFl fl O1 (0 : Matrix (Fin 2) (Fin 0) ℝ) = ((1 + ε) * z1) • unit1 := by
    rw [hfl]
    change (1 + ε) • (O1 - (1 + ε) • ((0 : Matrix (Fin 2) (Fin 0) ℝ) * _)) = _
    rw [Matrix.zero_mul, smul_zero, sub_zero, hz1', smul_smul]
  obtain ⟨Q1, hQ1⟩ : ∃ Q : Matrix (Fin 2) (Fin 1) ℝ, Q = (fl.qr (projectOutFl fl O1 (0 : Matrix (Fin 2) (Fin 0) ℝ))).1 := ⟨_, rfl⟩
  have b1 : Along Q1 := by
    rw [hQ1, hW1, hfl]
    exact along_qr (mul_ne_zero hone (fun h => by rw [h] at hz1; norm_num at hz1))
  obtain ⟨y, hy, hy'⟩ := b1
  obtain ⟨st1, hst1⟩ : ∃ st1, st1 = qb2UpdateFl fl 1 (qb2InitFl fl A 1) ⟨1, O1⟩ := ⟨_, rfl⟩
  have hst1A : st1.A * S2 = (1 + ε) • unit2 := by
    have : st1.A = (1 + ε) • (A - (1 + ε) • (Q1 * ((1 + ε) • (Q1ᵀ * A)))) := by
      rw [hst1, hQ1, hfl]; rfl
    rw [this, hy', hS2u]
    simp only [transpose_smul, Matrix.smul_mul, Matrix.mul_smul, hQA, Matrix.sub_mul, hA2, Matrix.mul_assoc, unit12,
      Matrix.mul_zero, smul_zero, sub_zero]
  obtain ⟨O2, hO2⟩ : ∃ O : Matrix (Fin 2) (Fin 1) ℝ, O = (LinAlg.ref.qr ((1 + ε) • (st1.A * S2))).1 := ⟨_, rfl⟩
  obtain ⟨z2, hz2, hz2'⟩ : ∃ z : ℝ, z ^ 2 = 1 ∧ O2 = z • unit2 := by
    rw [hO2, hst1A, smul_smul]; exact along_qr2 (mul_ne_zero hone hone)
  have hW2 : projectOutFl fl O2 Q1 = ((1 + ε) * z2) • unit2 := by
    rw [hfl]
    change (1 + ε) • (O2 - (1 + ε) • (Q1 * ((1 + ε) • (Q1ᵀ * O2)))) = _
    rw [hy', hz2']
    simp only [transpose_smul, Matrix.smul_mul, Matrix.mul_smul, unit12, smul_zero, Matrix.mul_zero, sub_zero, smul_smul]
  have hloop : qb2LoopFl fl (RF1Fl fl (RS1Fl fl stepGen (2 - 2) (orthFl fl) 1)) 2 (Tol.nan).use
      (absSqTolFl fl .nan A) (2 + 1) (qb2InitFl fl A 1) ⟨0, 0, []⟩ =
      .ok (qb2UpdateFl fl 1 st1 ⟨1, O2⟩, ⟨2, 0, [.mulA, .mulAT, .mulA, .mulAT]⟩) := by
    have h1 := hrf1 A ⟨0, 0, []⟩ rfl
    rw [hAS, smul_smul, ← hO1] at h1
    have h2 := hrf2 st1.A ⟨1, 0, [.mulA, .mulAT]⟩ rfl
    rw [← hO2] at h2
    have second : qb2LoopFl fl (RF1Fl fl (RS1Fl fl stepGen (2 - 2) (orthFl fl) 1)) 2 (Tol.nan).use
        (absSqTolFl fl .nan A) 2 st1 ⟨1, 0, [.mulA, .mulAT]⟩ =
        .ok (qb2UpdateFl fl 1 st1 ⟨1, O2⟩, ⟨2, 0, [.mulA, .mulAT, .mulA, .mulAT]⟩) := by
      unfold qb2LoopFl
      have hb : qb2Blk 2 st1.c st1.blk = 1 := by rw [hst1]; rfl
      dsimp only
      rw [hb]
      refine (Py.bind_eq_of_ok (qb2Draw_of_ok h2)).trans ?_
      refine (congrFun (if_neg (by simp [Tol.use])) _).trans ?_
      refine (congrFun (if_pos (by rw [hst1]; exact le_rfl)) _).trans ?_
      rfl
    unfold qb2LoopFl
    refine (Py.bind_eq_of_ok (qb2Draw_of_ok h1)).trans ?_
    refine (congrFun (if_neg (by simp [Tol.use])) _).trans ?_
    refine (congrFun (if_neg (by change ¬ 1 ≥ 2; norm_num)) _).trans ?_
    exact (hst1 ▸ second)
  have hrun : qb2RunFl fl (RF1Fl fl (RS1Fl fl stepGen (2 - 2) (orthFl fl) 1)) 1 A 2 .nan ⟨0, 0, []⟩ =
      .ok (qb2UpdateFl fl 1 st1 ⟨1, O2⟩, ⟨2, 0, [.mulA, .mulAT, .mulA, .mulAT]⟩) := hloop
  refine ⟨_, _, (by unfold qbBFl qb2CallFl; rw [Py.bind_eq_of_ok hrun]; rfl), by rw [hst1]; rfl, _, hrun, by rw [hst1]; rfl, ?_⟩
  have hone' : 1 ≤ 1 + ε := by linarith
  have hcalls : ((qb2UpdateFl fl 1 st1 ⟨1, O2⟩).calls.map (·.out) : List (Cols 2)) = [⟨1, O1⟩, ⟨1, O2⟩] := by rw [hst1]; rfl
  rw [hcalls]
  refine ⟨fun v => ?_, ?_, trivial⟩
  · change _ ≤ norm2 (projectOutFl fl O1 (0 : Matrix (Fin 2) (Fin 0) ℝ) *ᵥ v)
    rw [hW1]; exact norm2_scaled_col hone' hz1 _ unit1_orth v
  · intro v
    change _ ≤ norm2 (projectOutFl fl O2 (hcat (0 : Matrix (Fin 2) (Fin 0) ℝ) (fl.qr (projectOutFl fl O1 (0 : Matrix (Fin 2) (Fin 0) ℝ))).1) *ᵥ v)
    have : projectOutFl fl O2 (hcat (0 : Matrix (Fin 2) (Fin 0) ℝ) Q1) = projectOutFl fl O2 Q1 := by rw [hcat_zero_one]
    have key : 1 * norm2 v ≤ norm2 (projectOutFl fl O2 (hcat (0 : Matrix (Fin 2) (Fin 0) ℝ) Q1) *ᵥ v) := by
      rw [this, hW2]; exact norm2_scaled_col hone' hz2 _ unit2_orth v
    rw [hQ1] at key
    exact key

/-- … and so the theorem applies: with `ε = 10⁻⁴`, `‖Q'Q - I‖` is bounded, for a `Q` of two columns -/
example : ∃ out w' st,
    qbBFl (inflated LinAlg.ref (1 / 10000)) stepGen 2 1 false (!![3, 0; 0, 1] : Matrix (Fin 2) (Fin 2) ℝ) 2 .nan ⟨0, 0, []⟩ = .ok (out, w') ∧
    out.1.c = 2 ∧ (7 * (2 + Real.sqrt out.1.c) * (1 / 10000) ≤ 1) ∧ 20 * (1 / 10000) * (2 + Real.sqrt out.1.c) ^ 3 ≤ 1 ∧
    qb2RunFl (inflated LinAlg.ref (1 / 10000)) (RF1Fl (inflated LinAlg.ref (1 / 10000)) (RS1Fl (inflated LinAlg.ref (1 / 10000)) stepGen (2 - 2)
        (orthFl (inflated LinAlg.ref (1 / 10000))) 1)) 1 (!![3, 0; 0, 1] : Matrix (Fin 2) (Fin 2) ℝ) 2 .nan ⟨0, 0, []⟩ = .ok (st, w') ∧
      WellProjected (inflated LinAlg.ref (1 / 10000)) 1 (0 : Matrix (Fin 2) (Fin 0) ℝ) (st.calls.map (·.out)) := by
  obtain ⟨out, w', h, hc, st, h1, -, h2⟩ := witness_orth (1 / 10000) (by norm_num)
  have hs : Real.sqrt (out.1.c : ℝ) ≤ 2 := by
    rw [hc, Real.sqrt_le_left (by norm_num)]; norm_num
  have hs0 : 0 ≤ Real.sqrt (out.1.c : ℝ) := Real.sqrt_nonneg _
  obtain ⟨s, hs'⟩ : ∃ s, s = Real.sqrt (out.1.c : ℝ) := ⟨_, rfl⟩
  rw [← hs'] at hs hs0
  refine ⟨out, w', st, h, hc, ?_, ?_, h1, h2⟩
  · rw [← hs']; linarith
  · rw [← hs']
    have : (2 + s) ^ 3 ≤ 4 ^ 3 := pow_le_pow_left₀ (by linarith) (by linarith) 3
    linarith

end Parla.Props
