import Verif.Props.RoundingEVD
import Verif.Props.RoundingWitness

/-! # C100: the hypotheses are met by arithmetic that does round -/

namespace Parla.Props

open Matrix Parla Spec Parla.Proof

/-- An eigensolver that reads the lower triangle and whose eigenvalues are too large by the factor `1 + ε`. -/
noncomputable def inflatedEigh (la : LinAlg) (ε : ℝ) : FlEigh where
  eigh C := (fun i => (1 + ε) * (la.eigh (lowSym C)).1 i, (la.eigh (lowSym C)).2)
  argsort := la.argsort

theorem inflatedEigh_accurate (la : LinAlg) {ε : ℝ} (hε : 0 ≤ ε) (N : ℕ) : (inflatedEigh la ε).Accurate N ε where
  eigh C _ := by
    refine ⟨(la.eigh (lowSym C)).2, la.eigh_orth _ (lowSym_symm C), ?_, ?_⟩
    · change fro ((la.eigh (lowSym C)).2 - (la.eigh (lowSym C)).2) ≤ _
      rw [sub_self, fro, froSq_zero, Real.sqrt_zero]; exact hε
    · change fro ((la.eigh (lowSym C)).2 * diagonal (fun i => (1 + ε) * (la.eigh (lowSym C)).1 i) * (la.eigh (lowSym C)).2ᵀ -
        lowSym C) ≤ _
      have e1 : (diagonal fun i => (1 + ε) * (la.eigh (lowSym C)).1 i) = (1 + ε) • diagonal (la.eigh (lowSym C)).1 := by
        rw [← diagonal_smul]; rfl
      rw [e1, Matrix.mul_smul, Matrix.smul_mul, la.eigh_mul _ (lowSym_symm C), fro_inflate hε]
  argsort_mono := la.argsort_mono

/-- A run of `evd1` as `C100_evd1` asks for, early stop included, and so of `C100_evd1_class`. -/
example : ∃ out w', evd1Fl (inflated LinAlg.ref (1 / 1000)) (inflatedEigh LinAlg.ref (1 / 1000)) (idGen (G := ℕ))
    (!![3, 0; 0, 0] : Matrix (Fin 2) (Fin 2) ℝ) 2 (.val (4 / 10)) 0 2 1 ⟨0, 0, []⟩ = .ok (out, w') ∧
    (!![3, 0; 0, 0] : Matrix (Fin 2) (Fin 2) ℝ)ᵀ = !![3, 0; 0, 0] ∧
    ∃ qbo A', qbBFl (inflated LinAlg.ref (1 / 1000)) (idGen (G := ℕ)) 2 1 false (!![3, 0; 0, 0] : Matrix (Fin 2) (Fin 2) ℝ)
      ((2 : ℤ) + (0 : ℕ)) (Tol.val (4 / 10)).half.half ⟨0, 0, []⟩ = .ok ((qbo, A'), w') ∧
      7 * (2 + Real.sqrt qbo.c) * (1 / 1000) ≤ 1 ∧ (qbo.c : ℤ) ≤ 2 ∧ (qbo.c : ℤ) < min ((2 : ℤ) + (0 : ℕ)) (2 : ℕ) := by
  obtain ⟨⟨q, A'⟩, w', h, h1, h2⟩ := witness_round_stop false
  have ht : (Tol.val (4 / 10)).half.half = .val (1 / 10) := by
    show Tol.val (4 / 10 / 2 / 2) = _
    norm_num
  have hk : (2 : ℤ) + (0 : ℕ) = 2 := by norm_num
  have hq : QB2Fl (inflated LinAlg.ref (1 / 1000)) (RF1Fl (inflated LinAlg.ref (1 / 1000)) (RS1Fl (inflated LinAlg.ref (1 / 1000))
      (idGen (G := ℕ)) (2 - 2) (orthFl (inflated LinAlg.ref (1 / 1000))) 1)) 1 false 2 2 !![3, 0; 0, 0]
      ((2 : ℤ) + (0 : ℕ)) (Tol.val (4 / 10)).half.half ⟨0, 0, []⟩ = .ok (q, w') := by
    rw [ht, hk]
    unfold QB2Fl
    exact Py.bind_eq_of_ok h
  refine ⟨evd1PostFl (inflated LinAlg.ref (1 / 1000)) (inflatedEigh LinAlg.ref (1 / 1000)) 2 q, w', ?_, ?_, q, A', by rw [ht, hk]; exact h, h1, ?_, ?_⟩
  · unfold evd1Fl
    rw [Py.assert_pos_bind (by norm_num)]
    unfold evd1CallFl
    rw [Py.assert_pos_bind (by norm_num), Py.assert_pos_bind (by norm_num)]
    have : (assertTolNonneg (Tol.val (4 / 10)).half : Py ℕ Unit) ⟨0, 0, []⟩ = .ok ((), ⟨0, 0, []⟩) :=
      Py.assert_ok_iff.2 ⟨(by show (4 / 10 / 2 : ℝ) ≥ 0; norm_num), rfl⟩
    rw [Py.bind_eq_of_ok this, Py.bind_eq_of_ok hq]
    rfl
  · ext i j; fin_cases i <;> fin_cases j <;> rfl
  · change (q.c : ℤ) < min 2 (min 2 2 : ℕ) at h2; omega
  · change (q.c : ℤ) < min 2 (min 2 2 : ℕ) at h2; omega

end Parla.Props
