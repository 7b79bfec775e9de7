import Verif.Proof.LsqrRot
import Verif.Proof.SvdUnique
import Verif.Props.PcSS2

/-! Preconditioners with the same `M M'` (helper lemmas). -/

namespace Parla

open Matrix Spec

variable {m n r₁ r₂ : ℕ}

theorem exists_left_inv {M : Matrix (Fin n) (Fin r₁) ℝ} (h : FullColRank M) :
    ∃ L : Matrix (Fin r₁) (Fin n) ℝ, L * M = 1 :=
  ⟨(Mᵀ * M)⁻¹ * Mᵀ, by rw [Matrix.mul_assoc, nonsing_inv_mul _ h.gram_unit]⟩

theorem norm2_orth_mulVec {Q : Matrix (Fin m) (Fin n) ℝ} (hQ : Qᵀ * Q = 1) (v : Fin n → ℝ) :
    norm2 (Q *ᵥ v) = norm2 v := by
  unfold norm2; rw [sqNorm_orth_mulVec hQ]

/-- Two factors of full column rank with the same `M M'` differ by an orthogonal matrix. -/
theorem exists_rot {M₁ : Matrix (Fin n) (Fin r₁) ℝ} {M₂ : Matrix (Fin n) (Fin r₂) ℝ}
    (h : M₁ * M₁ᵀ = M₂ * M₂ᵀ) (h₁ : FullColRank M₁) (h₂ : FullColRank M₂) :
    ∃ O : Matrix (Fin r₁) (Fin r₂) ℝ, Oᵀ * O = 1 ∧ M₁ * O = M₂ ∧ O * M₂ᵀ = M₁ᵀ := by
  obtain ⟨L₁, hL₁⟩ := exists_left_inv h₁
  obtain ⟨L₂, hL₂⟩ := exists_left_inv h₂
  have hLT : M₂ᵀ * L₂ᵀ = 1 := by rw [← transpose_mul, hL₂, transpose_one]
  have e : M₁ * (M₁ᵀ * L₂ᵀ) = M₂ := by
    rw [← Matrix.mul_assoc, h, Matrix.mul_assoc, hLT, Matrix.mul_one]
  refine ⟨M₁ᵀ * L₂ᵀ, ?_, e, ?_⟩
  · rw [transpose_mul, transpose_transpose, transpose_transpose, Matrix.mul_assoc, e, hL₂]
  · have : M₁ * (M₁ᵀ * L₂ᵀ * M₂ᵀ) = M₁ * M₁ᵀ := by rw [← Matrix.mul_assoc, e, h]
    have := congrArg (L₁ * ·) this
    simpa only [← Matrix.mul_assoc, hL₁, Matrix.one_mul] using this

theorem gram_norm_eq {M₁ : Matrix (Fin n) (Fin r₁) ℝ} {M₂ : Matrix (Fin n) (Fin r₂) ℝ}
    (h : M₁ * M₁ᵀ = M₂ * M₂ᵀ) (v : Fin n → ℝ) : norm2 (M₁ᵀ *ᵥ v) = norm2 (M₂ᵀ *ᵥ v) := by
  have key : ∀ {r : ℕ} (M : Matrix (Fin n) (Fin r) ℝ), sqNorm (Mᵀ *ᵥ v) = v ⬝ᵥ ((M * Mᵀ) *ᵥ v) := by
    intro r M
    rw [← mulVec_mulVec, dot_mulVec, sqNorm_eq_dot]
  unfold norm2
  rw [key, key, h]

/-- PcSS2 depends on the preconditioner only through `M M'` and on the start only through `M z0`. -/
theorem pcss2_gram (A : Matrix (Fin m) (Fin n) ℝ) (b : BArg m) (c : Option (Fin n → ℝ)) {δ : ℝ}
    (hδ : 0 ≤ δ) (tol : ℝ) (L : ℤ) {P₁ P₂ : Precond n} (hP₁ : P₁.Ok) (hP₂ : P₂.Ok)
    (hM : P₁.mat * P₁.matᵀ = P₂.mat * P₂.matᵀ) (hf₁ : FullColRank P₁.mat) (hf₂ : FullColRank P₂.mat)
    (z₁ : Option (Fin P₁.dim → ℝ)) (z₂ : Option (Fin P₂.dim → ℝ))
    (hz : z₁.map (P₁.mat *ᵥ ·) = z₂.map (P₂.mat *ᵥ ·)) :
    pcss2 A b c δ tol L P₁ z₁ = pcss2 A b c δ tol L P₂ z₂ := by
  obtain ⟨O, hO, e1, e2⟩ := exists_rot hM hf₁ hf₂
  have hz' : z₁ = z₂.map (O *ᵥ ·) := by
    cases z₁ with
    | none => cases z₂ with
      | none => rfl
      | some z => cases hz
    | some z => cases z₂ with
      | none => cases hz
      | some z' =>
        simp only [Option.map, Option.some.injEq] at hz ⊢
        obtain ⟨L₁, hL₁⟩ := exists_left_inv hf₁
        have := congrArg (L₁ *ᵥ ·) hz
        simp only [mulVec_mulVec, hL₁, one_mulVec] at this
        rw [this, ← e1, ← Matrix.mul_assoc, hL₁, Matrix.one_mul]
  cases b with
  | multi k hk =>
    rw [(Props.C34_pcss2_rejects A c δ tol L P₁ z₁).1 k hk, (Props.C34_pcss2_rejects A c δ tol L P₂ z₂).1 k hk]
  | none => ?_
  | vec b => ?_
  all_goals by_cases hc : cIsZero c
  · have hc' : Props.cVec c = 0 := by
      cases c with
      | none => rfl
      | some c => exact norm2_eq_zero.1 hc
    rcases hδ.lt_or_eq with hpos | h0
    · rw [(Props.C34_pcss2_rejects A c δ tol L P₁ z₁).2.2.1 hc' hpos,
        (Props.C34_pcss2_rejects A c δ tol L P₂ z₂).2.2.1 hc' hpos]
    · rw [(Props.C34_pcss2_rejects A c δ tol L P₁ z₁).2.2.2 hc' h0.symm,
        (Props.C34_pcss2_rejects A c δ tol L P₂ z₂).2.2.2 hc' h0.symm]
  · exact under .none trivial hc
  · have hr : Rotated (aLift A (Real.sqrt δ) * P₁.mat) (aLift A (Real.sqrt δ) * P₂.mat) 1 O :=
      ⟨fun u => by rw [one_mulVec], norm2_orth_mulVec hO,
        fun v => by rw [one_mulVec, mulVec_mulVec, Matrix.mul_assoc, e1],
        fun u => by rw [one_mulVec, transpose_mul, transpose_mul, mulVec_mulVec, ← Matrix.mul_assoc, e2]⟩
    have := lsqr_rot hr (catv b 0) 0 ⟨tol, tol, 10 ^ 8⟩ L z₂
    rw [one_mulVec, ← hz'] at this
    rw [Props.pcss2_over_eq A b c hδ tol L hP₁ z₁ hc, Props.pcss2_over_eq A b c hδ tol L hP₂ z₂ hc, this]
    cases lsqr (LinOp.ofMat (aLift A (Real.sqrt δ) * P₂.mat)) (catv b 0) 0 ⟨tol, tol, 10 ^ 8⟩ (some L) z₂ with
    | error e => rfl
    | ok res =>
      simp only [Except.map, LsqrOut.rot, mulVec_mulVec, e1]
  · by_cases hb : (BArg.vec b).isZero
    · exact under _ hb hc
    · have hc' : Props.cVec c ≠ 0 := by
        intro h
        apply hc
        cases c with
        | none => trivial
        | some c => exact norm2_eq_zero.2 h
      have hb' : b ≠ 0 := fun h => hb (norm2_eq_zero.2 h)
      rw [(Props.C34_pcss2_rejects A c δ tol L P₁ z₁).2.1 b hb' hc', (Props.C34_pcss2_rejects A c δ tol L P₂ z₂).2.1 b hb' hc']
where
  under (b : BArg m) (hb : b.isZero) (hc : ¬ cIsZero c) : pcss2 A b c δ tol L P₁ z₁ = pcss2 A b c δ tol L P₂ z₂ := by
    obtain ⟨O, hO, e1, e2⟩ := exists_rot hM hf₁ hf₂
    cases c with
    | none => exact absurd trivial hc
    | some c =>
      have hc' : c ≠ 0 := fun h => hc (norm2_eq_zero.2 h)
      have hr : Rotated (aLift A (Real.sqrt δ) * P₁.mat)ᵀ (aLift A (Real.sqrt δ) * P₂.mat)ᵀ O 1 :=
        ⟨norm2_orth_mulVec hO, fun u => by rw [one_mulVec],
          fun u => by rw [one_mulVec, transpose_mul, transpose_mul, mulVec_mulVec, ← Matrix.mul_assoc, e2],
          fun v => by rw [one_mulVec, transpose_transpose, transpose_transpose, mulVec_mulVec, Matrix.mul_assoc, e1]⟩
      have := lsqr_rot hr (P₂.matᵀ *ᵥ c) 0 ⟨tol, tol, 10 ^ 8⟩ L none
      rw [mulVec_mulVec, e2] at this
      rw [Props.pcss2_under_eq A b c hδ tol L hP₁ z₁ hb hc', Props.pcss2_under_eq A b c hδ tol L hP₂ z₂ hb hc']
      change lsqr _ _ _ _ _ none false = _ at this
      rw [this]
      cases lsqr (LinOp.ofMat (aLift A (Real.sqrt δ) * P₂.mat)ᵀ) (P₂.matᵀ *ᵥ c) 0 ⟨tol, tol, 10 ^ 8⟩ (some L) none with
      | error e => rfl
      | ok res =>
        simp only [Except.map, LsqrOut.rot, one_mulVec]

end Parla
