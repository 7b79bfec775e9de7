import Verif.Props.RoundingSVD
import Verif.Base.LinAlgExists
import Verif.Props.SSO1

/-! # C81: the hypotheses are met by arithmetic that does round -/

namespace Parla.Props

open Matrix Parla Spec Parla.Proof

/-- A machine whose products, differences and norms are all too large by the factor `1 + ε`. -/
noncomputable def inflated (la : LinAlg) (ε : ℝ) : FlAlg where
  mul X Y := (1 + ε) • (X * Y)
  sub X Y := (1 + ε) • (X - Y)
  qr := la.qr
  svd := la.svd
  norm A := (1 + ε) * fro A
  smul x y := (1 + ε) * (x * y)
  ssub x y := (1 + ε) * (x - y)

theorem fro_inflate {m n : ℕ} {ε : ℝ} (hε : 0 ≤ ε) (M : Matrix (Fin m) (Fin n) ℝ) :
    fro ((1 + ε) • M - M) = ε * fro M := by
  have e : (1 + ε) • M - M = ε • M := by rw [add_smul, one_smul, add_sub_cancel_left]
  rw [e, fro, show froSq (ε • M) = ε ^ 2 * froSq M by
    simp only [froSq, Matrix.smul_apply, smul_eq_mul, mul_pow, Finset.mul_sum], Real.sqrt_mul (sq_nonneg _), Real.sqrt_sq hε]
  rfl

/-- It is accurate to `ε`, for arrays of every size. -/
theorem inflated_accurate (la : LinAlg) {ε : ℝ} (hε : 0 ≤ ε) (N : ℕ) : (inflated la ε).Accurate N ε where
  mul X Y _ _ _ := by
    change fro ((1 + ε) • (X * Y) - X * Y) ≤ _
    rw [fro_inflate hε, mul_assoc]
    exact mul_le_mul_of_nonneg_left (fro_mul_le _ _) hε
  sub X Y _ _ := (fro_inflate hε (X - Y)).le
  qr A _ _ := ⟨_, la.qr_orth A, by
    change fro ((la.qr A).1 - (la.qr A).1) ≤ _
    rw [sub_self, fro, froSq_zero, Real.sqrt_zero]; exact hε, by
    change fro ((la.qr A).1 * (la.qr A).2 - A) ≤ _
    rw [la.qr_mul, sub_self, fro, froSq_zero, Real.sqrt_zero]; exact mul_nonneg hε (fro_nonneg _)⟩
  svd A _ _ := ⟨_, _, la.svd_left A, la.svd_right A, by
    change fro ((la.svd A).1 - (la.svd A).1) ≤ _
    rw [sub_self, fro, froSq_zero, Real.sqrt_zero]; exact hε, by
    change fro ((la.svd A).2.2 - (la.svd A).2.2) ≤ _
    rw [sub_self, fro, froSq_zero, Real.sqrt_zero]; exact hε, by
    change fro ((la.svd A).1 * diagonal (la.svd A).2.1 * (la.svd A).2.2 - A) ≤ _
    rw [la.svd_mul, sub_self, fro, froSq_zero, Real.sqrt_zero]; exact mul_nonneg hε (fro_nonneg _)⟩
  svd_nonneg := la.svd_nonneg
  svd_anti := la.svd_anti
  norm A _ _ := by
    change |(1 + ε) * fro A - fro A| ≤ _
    rw [show (1 + ε) * fro A - fro A = ε * fro A by ring, abs_of_nonneg (mul_nonneg hε (fro_nonneg _))]
  smul x y := by
    change |(1 + ε) * (x * y) - x * y| ≤ _
    rw [show (1 + ε) * (x * y) - x * y = ε * (x * y) by ring, abs_mul, abs_of_nonneg hε]
  ssub x y := by
    change |(1 + ε) * (x - y) - (x - y)| ≤ _
    rw [show (1 + ε) * (x - y) - (x - y) = ε * (x - y) by ring, abs_mul, abs_of_nonneg hε]

/-- What the hypotheses of `C81_qb` ask for: a run of `qb`, and a right inverse for the draw. -/
example : ∃ out w', qbFl (inflated LinAlg.ref (1 / 100)) (idGen (G := ℕ)) 2 (!![3, 0; 0, 1] : Matrix (Fin 2) (Fin 2) ℝ) 1 ⟨0, 0, []⟩ =
    .ok (out, w') ∧ 3 * (2 + Real.sqrt out.c) * (1 / 100) ≤ 1 ∧ (out.c : ℤ) = 1 := by
  refine ⟨_, _, rfl, ?_, rfl⟩
  change 3 * (2 + Real.sqrt ((1 : ℕ) : ℝ)) * (1 / 100) ≤ 1
  norm_num

theorem fro_coeff {m n b : ℕ} {Q : Matrix (Fin m) (Fin b) ℝ} (hQ : OrthoCols Q) (X : Matrix (Fin b) (Fin n) ℝ)
    (A : Matrix (Fin m) (Fin n) ℝ) (hA : A = Q * X) : fro (Qᵀ * A) = fro A := by
  rw [hA, ← Matrix.mul_assoc, show Qᵀ * Q = 1 from hQ, Matrix.one_mul, fro_orth_mul hQ]

/-- What the hypotheses of `C81_qb_b` ask for, the early stop included: a matrix of rank one with target rank two, where the
first block takes the computed squared norm below the tolerance. -/
theorem witness_round_stop (o : Bool) : ∃ out w', qbBFl (inflated LinAlg.ref (1 / 1000)) (idGen (G := ℕ)) 2 1 o
    (!![3, 0; 0, 0] : Matrix (Fin 2) (Fin 2) ℝ) 2 (.val (1 / 10)) ⟨0, 0, []⟩ = .ok (out, w') ∧
    7 * (2 + Real.sqrt out.1.c) * (1 / 1000) ≤ 1 ∧ (out.1.c : ℤ) < min 2 (min 2 2 : ℕ) := by
  obtain ⟨A, hA⟩ : ∃ A, A = (!![3, 0; 0, 0] : Matrix (Fin 2) (Fin 2) ℝ) := ⟨_, rfl⟩
  obtain ⟨fl, hfl⟩ : ∃ fl, fl = inflated LinAlg.ref (1 / 1000) := ⟨_, rfl⟩
  obtain ⟨S, hS⟩ : ∃ S, S = (Matrix.of fun i j => if i.1 = j.1 then 1 else 0 : Matrix (Fin 2) (Fin 1) ℝ) := ⟨_, rfl⟩
  obtain ⟨q, hq⟩ : ∃ q : Matrix (Fin 2) (Fin 1) ℝ, q = (fl.qr (fl.mul A S)).1 := ⟨_, rfl⟩
  rw [← hA, ← hfl]
  have hrf : RF1Fl fl (RS1Fl fl (idGen (G := ℕ)) (2 - 2) (orthFl fl) 1) 2 2 A ((qb2Blk 2 0 1 : ℕ) : ℤ) .nan ⟨0, 0, []⟩ =
      .ok (⟨1, q⟩, ⟨0, 0, [.mulA]⟩) := by rw [hq, hS]; rfl
  have hst : (qb2UpdateFl fl 1 (qb2InitFl fl A 1) ⟨1, q⟩).sqn ≤ absSqTolFl fl (.val (1 / 10)) A := by
    obtain ⟨Q, hQ⟩ : ∃ Q : Matrix (Fin 2) (Fin 1) ℝ, Q = (fl.qr (projectOutFl fl q (0 : Matrix (Fin 2) (Fin 0) ℝ))).1 :=
      ⟨_, rfl⟩
    have hB : fro (Qᵀ * A) = fro A := by
      have h0 : projectOutFl fl q (0 : Matrix (Fin 2) (Fin 0) ℝ) = (1 + 1 / 1000 : ℝ) • q := by
        rw [hfl]
        change (1 + 1 / 1000 : ℝ) • (q - (1 + 1 / 1000 : ℝ) • ((0 : Matrix (Fin 2) (Fin 0) ℝ) * _)) = _
        rw [Matrix.zero_mul, smul_zero, sub_zero]
      obtain ⟨R1, h1⟩ : ∃ R1 : Matrix (Fin 1) (Fin 1) ℝ, Q * R1 = (1 + 1 / 1000 : ℝ) • q :=
        ⟨(LinAlg.ref.qr ((1 + 1 / 1000 : ℝ) • q)).2, by rw [hQ, h0, hfl]; exact LinAlg.ref.qr_mul _⟩
      obtain ⟨R2, h2⟩ : ∃ R2 : Matrix (Fin 1) (Fin 1) ℝ, q * R2 = (1 + 1 / 1000 : ℝ) • (A * S) :=
        ⟨(LinAlg.ref.qr ((1 + 1 / 1000 : ℝ) • (A * S))).2, by rw [hq, hfl]; exact LinAlg.ref.qr_mul _⟩
      have h3 : (A * S) * (Matrix.of fun _ j => if j.1 = 0 then 1 else 0 : Matrix (Fin 1) (Fin 2) ℝ) = A := by
        rw [hA, hS]; ext i j; fin_cases i <;> fin_cases j <;> simp [Matrix.mul_apply, vecHead]
      have hQo : OrthoCols Q := by rw [hQ, hfl]; exact LinAlg.ref.qr_orth _
      refine fro_coeff hQo ((1 + 1 / 1000 : ℝ)⁻¹ • (1 + 1 / 1000 : ℝ)⁻¹ • (R1 * R2 *
        (Matrix.of fun _ j => if j.1 = 0 then 1 else 0 : Matrix (Fin 1) (Fin 2) ℝ))) A ?_
      rw [Matrix.mul_smul, Matrix.mul_smul, ← Matrix.mul_assoc, ← Matrix.mul_assoc, h1, Matrix.smul_mul, h2,
        smul_smul, Matrix.smul_mul, Matrix.smul_mul, h3, smul_smul, smul_smul]
      norm_num
    have hsq : (qb2UpdateFl fl 1 (qb2InitFl fl A 1) ⟨1, q⟩).sqn =
        fl.ssub (fl.smul (fl.norm A) (fl.norm A)) (fl.smul (fl.norm (fl.mul Qᵀ A)) (fl.norm (fl.mul Qᵀ A))) := by rw [hQ]; rfl
    rw [hsq, hfl]
    change (1 + 1 / 1000 : ℝ) * ((1 + 1 / 1000) * (((1 + 1 / 1000) * fro A) * ((1 + 1 / 1000) * fro A)) -
      (1 + 1 / 1000) * (((1 + 1 / 1000) * fro ((1 + 1 / 1000 : ℝ) • (Qᵀ * A))) * ((1 + 1 / 1000) * fro ((1 + 1 / 1000 : ℝ) • (Qᵀ * A))))) ≤
      (1 + 1 / 1000) * (((1 + 1 / 1000) * (((1 + 1 / 1000) * fro A) * ((1 + 1 / 1000) * fro A))) * ((1 + 1 / 1000) * (1 / 10 * (1 / 10))))
    have e : fro ((1 + 1 / 1000 : ℝ) • (Qᵀ * A)) = (1 + 1 / 1000) * fro A := by
      rw [← hB, fro, show froSq ((1 + 1 / 1000 : ℝ) • (Qᵀ * A)) = (1 + 1 / 1000) ^ 2 * froSq (Qᵀ * A) by
        simp only [froSq, Matrix.smul_apply, smul_eq_mul, mul_pow, Finset.mul_sum], Real.sqrt_mul (sq_nonneg _),
        Real.sqrt_sq (by norm_num)]
      rfl
    rw [e]
    nlinarith [fro_nonneg A]
  have hrun : qb2RunFl fl (RF1Fl fl (RS1Fl fl (idGen (G := ℕ)) (2 - 2) (orthFl fl) 1)) 1 A 2 (.val (1 / 10)) ⟨0, 0, []⟩ =
      .ok (qb2UpdateFl fl 1 (qb2InitFl fl A 1) ⟨1, q⟩, ⟨0, 0, [.mulA, .mulAT]⟩) := by
    have hl : qb2LoopFl fl (RF1Fl fl (RS1Fl fl (idGen (G := ℕ)) (2 - 2) (orthFl fl) 1)) 2 (Tol.val (1 / 10)).use
        (absSqTolFl fl (.val (1 / 10)) A) (2 + 1) (qb2InitFl fl A 1) ⟨0, 0, []⟩ =
      .ok (qb2UpdateFl fl 1 (qb2InitFl fl A 1) ⟨1, q⟩, ⟨0, 0, [.mulA, .mulAT]⟩) := by
      unfold qb2LoopFl
      refine (Py.bind_eq_of_ok (qb2Draw_of_ok hrf)).trans ?_
      exact congrFun (if_pos ⟨(by unfold Tol.use; norm_num), hst⟩) _
    exact hl
  refine ⟨_, _, (by unfold qbBFl qb2CallFl; rw [Py.bind_eq_of_ok hrun]; rfl), ?_, ?_⟩
  · change 7 * (2 + Real.sqrt ((1 : ℕ) : ℝ)) * (1 / 1000) ≤ 1
    norm_num
  · change ((1 : ℕ) : ℤ) < _
    norm_num

/-- A run of `svd1` as `C81_svd1_driver` and `C81_svd1` ask for. -/
example : ∃ out w', svd1Fl (inflated LinAlg.ref (1 / 1000)) (idGen (G := ℕ)) (!![3, 0; 0, 0] : Matrix (Fin 2) (Fin 2) ℝ) 2 0
    (.val (1 / 10)) 2 1 ⟨0, 0, []⟩ = .ok (out, w') := by
  obtain ⟨⟨q, A'⟩, w', h, -, -⟩ := witness_round_stop false
  have hq : QB2Fl (inflated LinAlg.ref (1 / 1000)) (RF1Fl (inflated LinAlg.ref (1 / 1000)) (RS1Fl (inflated LinAlg.ref (1 / 1000))
      (idGen (G := ℕ)) (2 - 2) (orthFl (inflated LinAlg.ref (1 / 1000))) 1)) 1 false 2 2 !![3, 0; 0, 0]
      ((2 + 0 : ℕ) : ℤ) (.val (1 / 10)) ⟨0, 0, []⟩ = .ok (q, w') := by
    unfold QB2Fl
    exact Py.bind_eq_of_ok h
  obtain ⟨r, hr, h1, -⟩ := svd1Fl_open (inflated LinAlg.ref (1 / 1000)) LinAlg.ref.svd_anti _ _ 2 (.val (1 / 10)) 0 _ w' q hq
  exact ⟨_, _, h1⟩

end Parla.Props
