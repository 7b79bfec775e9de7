import Verif.Props.RoundingSPU
import Verif.Props.RoundingWitness
import Verif.Proof.EVD2

/-! # C82: the hypotheses can be met -/

namespace Parla.Props

open Matrix Parla Spec Parla.Proof

/-- An arithmetic that gets every product, difference, square root and quotient wrong by the factor `1 + ε`. -/
noncomputable def inflatedLS (la : LinAlg) (ε : ℝ) : FlLS where
  toFlAlg := inflated la ε
  mulv X v := (1 + ε) • (X *ᵥ v)
  sqrt x := (1 + ε) * √x
  gram X δ := (1 + ε) • (Xᵀ * X + δ • 1)
  chol := la.cholesky
  divCols V s := Matrix.of fun i j => (1 + ε) * (V j i / s j)
  lstsqv := la.lstsqv

theorem norm2_inflate {n : ℕ} {ε : ℝ} (hε : 0 ≤ ε) (v : Fin n → ℝ) : norm2 ((1 + ε) • v - v) = ε * norm2 v := by
  have e : (1 + ε) • v - v = ε • v := by rw [add_smul, one_smul, add_sub_cancel_left]
  rw [e, norm2_smul, abs_of_nonneg hε]

/-- It is accurate to `ε`, for arrays of every size. -/
theorem inflatedLS_accurate (la : LinAlg) {ε : ℝ} (hε : 0 ≤ ε) (N : ℕ) : (inflatedLS la ε).Accurate N ε where
  alg := inflated_accurate la hε N
  qr_upper := la.qr_upper
  mulv X v _ _ := by
    change norm2 ((1 + ε) • (X *ᵥ v) - X *ᵥ v) ≤ _
    rw [norm2_inflate hε, mul_assoc]
    exact mul_le_mul_of_nonneg_left (norm2_mulVec_fro _ _) hε
  sqrt x _ := by
    change |(1 + ε) * √x - √x| ≤ _
    rw [show (1 + ε) * √x - √x = ε * √x by ring, abs_of_nonneg (mul_nonneg hε (Real.sqrt_nonneg _))]
  gram_symm X δ := by
    change ((1 + ε) • (Xᵀ * X + δ • (1 : Matrix _ _ ℝ)))ᵀ = (1 + ε) • (Xᵀ * X + δ • 1)
    rw [transpose_smul, transpose_add, transpose_mul, transpose_transpose, transpose_smul, transpose_one]
  gram {m n} X δ hδ _ _ := by
    change fro ((1 + ε) • (Xᵀ * X + δ • (1 : Matrix (Fin n) (Fin n) ℝ)) - (Xᵀ * X + δ • 1)) ≤ _
    rw [fro_inflate hε]
    refine mul_le_mul_of_nonneg_left ?_ hε
    refine (fro_triangle _ _).trans (add_le_add ?_ ?_)
    · have := fro_mul_le Xᵀ X
      rwa [fro_tr, ← sq] at this
    · rcases Nat.eq_zero_or_pos n with h | h
      · subst h
        have : fro (δ • (1 : Matrix (Fin 0) (Fin 0) ℝ)) = 0 := by
          unfold fro froSq; simp
        rw [this]; simp
      · exact fro_smul_one_le h hδ
  chol C R hC _ h := by
    obtain ⟨-, h1, h2, h3⟩ := chol_ok la hC h
    refine ⟨h2, h3, ?_⟩
    rw [h1, sub_self, fro, froSq_zero, Real.sqrt_zero]; exact mul_nonneg hε (fro_nonneg _)
  chol_fail C e hC _ h := by
    have hp : ¬ C.PosDef := fun hp => by
      obtain ⟨R, h1, -⟩ := la.chol_posDef C hp
      have : la.cholesky C = .error e := h
      rw [h1] at this; cases this
    have : la.cholesky C = .error e := h
    rw [la.chol_fail C hC hp] at this
    refine ⟨(Except.error.inj this).symm, ?_⟩
    by_contra hc
    push Not at hc
    exact hp (posDef_of_quad hC fun v hv => lt_of_le_of_lt
      (mul_nonneg (mul_nonneg hε (fro_nonneg _)) (sqNorm_nonneg _)) (hc v hv))
  divCols V s i j := by
    change |(1 + ε) * (V j i / s j) - V j i / s j| ≤ _
    rw [show (1 + ε) * (V j i / s j) - V j i / s j = ε * (V j i / s j) by ring, abs_mul, abs_of_nonneg hε]
  lstsqv {m n} A b _ _ := by
    refine ⟨0, 0, ?_, ?_, fun z => ?_⟩
    · rw [fro, froSq_zero, Real.sqrt_zero]; exact mul_nonneg hε (fro_nonneg _)
    · rw [norm2, sqNorm_zero', Real.sqrt_zero]; exact mul_nonneg hε (norm2_nonneg _)
    · rw [add_zero, add_zero]
      have h : IsRidgeMin A b 0 (la.lstsqv A b) := ridge_of_normal le_rfl (by
        rw [mulVec_sub, lstsqv_normal, zero_smul, sub_self, sub_self])
      have := h z
      rw [zero_mul, zero_mul, add_zero, add_zero] at this
      exact norm2_le_norm2.2 this

/-- `A = (1,1,1)'` -/
noncomputable def col3 : Matrix (Fin 3) (Fin 1) ℝ := !![1; 1; 1]

/-- a sketch that weighs the third equation by `11/10` -/
noncomputable def weight3 : Matrix (Fin 3) (Fin 3) ℝ := !![1, 0, 0; 0, 1, 0; 0, 0, 11 / 10]

theorem size3 : sketchSize weight3 col3 0 ≤ 4 := by
  have h1 : fro weight3 ≤ 2 := by
    refine Real.sqrt_le_iff.2 ⟨by norm_num, ?_⟩
    simp [froSq, weight3, Fin.sum_univ_three]; norm_num
  have h2 : fro col3 ≤ 2 := by
    refine Real.sqrt_le_iff.2 ⟨by norm_num, ?_⟩
    simp [froSq, col3, Fin.sum_univ_three]; norm_num
  have h3 := mul_le_mul h1 h2 (fro_nonneg _) (by norm_num)
  unfold sketchSize
  rw [Real.sqrt_zero, zero_mul]
  linarith

theorem low3 : (9 / 10 : ℝ) ≤ √(1 - 1 / 10) * 1 := by
  rw [mul_one]
  refine Real.le_sqrt_of_sq_le ?_
  norm_num

theorem ratio3 : 0 ≤ sketchSize weight3 col3 0 / (√(1 - 1 / 10) * 1) ∧ sketchSize weight3 col3 0 / (√(1 - 1 / 10) * 1) ≤ 5 := by
  have h0 := low3
  have h1 := size3
  refine ⟨div_nonneg (sketchSize_nonneg _ _ _) (by linarith), ?_⟩
  rw [div_le_iff₀ (by linarith)]
  linarith

/-- What `C82_spo`, `C82_spo_total` and `C82_spu1` ask of a sketch, with `ε = 10^-4`, `η = 1/10`, `lo = 1` and `θ = 1/20`. -/
theorem witness_setup (mode : SPOMode) : Embeds weight3 col3 (1 / 10) ∧
    setupLoss mode (1 / 10000) (sketchSize weight3 col3 0) (√(1 - 1 / 10) * 1) 1 ≤ 1 / 20 ∧
    16 * (1 : ℕ) * eps * sketchSize weight3 col3 0 ≤ √(1 - 1 / 10) * 1 := by
  obtain ⟨r, hr⟩ : ∃ r, r = sketchSize weight3 col3 0 / (√(1 - 1 / 10) * 1) := ⟨_, rfl⟩
  obtain ⟨h1, h2⟩ := ratio3
  rw [← hr] at h1 h2
  refine ⟨weight_embeds, ?_, ?_⟩
  · unfold setupLoss
    cases mode <;> simp only [← hr, Nat.cast_one, Real.sqrt_one] <;> nlinarith
  · have h3 : eps ≤ 1 / 1000 := by unfold eps; norm_num
    have h4 := size3
    have h5 := low3
    have h6 := sketchSize_nonneg weight3 col3 0
    have := mul_le_mul_of_nonneg_right h3 h6
    push_cast
    linarith

theorem cond3 : (1 : ℕ) * √((1 + 31 / 200) / (1 - 31 / 200)) < 10 ^ 8 - eps := by
  have h1 : eps ≤ 1 := by unfold eps; norm_num
  have h2 : √((1 + 31 / 200) / (1 - 31 / 200)) ≤ 2 := by
    rw [Real.sqrt_le_left (by norm_num)]; norm_num
  push_cast
  norm_num at h2 ⊢
  linarith

theorem lo3 (v : Fin 1 → ℝ) : (1 : ℝ) ^ 2 * sqNorm v ≤ sqNorm (col3 *ᵥ v) := by
  simp [sqNorm, Fin.sum_univ_three, col3, mulVec, dotProduct]
  nlinarith [sq_nonneg (v 0)]

/-- `SPO` with a wrong arithmetic, in every mode, on `A = (1,1,1)'`, `b = (1,2,6)`: it returns, and after `L` iterations with `tol = 0`
the objective exceeds its minimum by at most `(2 (31/200)^L)²` times what it did at the start. -/
example (mode : SPOMode) (hmode : mode ≠ .other) (L : ℕ) (f : (Fin 1 → ℝ) → ℝ)
    (hf : f = fun x => sqNorm (col3 *ᵥ x - ![1, 2, 6]) + 0 * sqNorm x) :
    ∃ out w' x, spoCallFl (inflatedLS LinAlg.ref (1 / 10000)) weightGen 3 mode col3 ![1, 2, 6] 0 0 L false ⟨0, 0, 0, 0, 0⟩ ⟨0, 0, []⟩ =
      .ok (out, w') ∧ out.x = some x ∧ ∃ x0, f x - f ![3] ≤ (2 * (31 / 200) ^ L) ^ 2 * (f x0 - f ![3]) ∧ f x0 ≤ 41 := by
  have hb : (![1, 2, 6] : Fin 3 → ℝ) ≠ 0 := fun h => by simpa using congrFun h 0
  have hlo : ∀ v, (1 : ℝ) ^ 2 * sqNorm v ≤ sqNorm (col3 *ᵥ v) + 0 * sqNorm v := fun v => by
    rw [zero_mul, add_zero]; exact lo3 v
  have hmin : IsRidgeMin col3 ![1, 2, 6] 0 ![3] := by
    intro z
    simp [sqNorm, Fin.sum_univ_three, mulVec, dotProduct, col3]
    nlinarith [sq_nonneg (z 0 - 3)]
  obtain ⟨w1, w2, w3⟩ := witness_setup mode
  obtain ⟨out, w', h⟩ := C82_spo_total (inflatedLS LinAlg.ref (1 / 10000)) 4 (1 / 10000) (by norm_num)
    (inflatedLS_accurate _ (by norm_num) _) weightGen 3 mode hmode col3 ![1, 2, 6] hb 0 0 le_rfl le_rfl L ⟨0, 0, 0, 0, 0⟩ ⟨0, 0, []⟩
    (by norm_num) (by norm_num) (1 / 10) (by norm_num) (by norm_num) 1 (by norm_num) hlo (1 / 20) (by norm_num)
    (by rw [demo31_pyInt]; norm_num)
    (fun d w₁ h => by
      rw [demo31_dim] at h; cases h
      exact ⟨_, _, weightGen_ok, w1, w2, fun _ => w3⟩) (31 / 200) (by norm_num) (by norm_num) cond3
  obtain ⟨x, out0, x0, g1, -, -, g2, -, -, g3⟩ := C82_spo (inflatedLS LinAlg.ref (1 / 10000)) 4 (1 / 10000) (by norm_num)
    (inflatedLS_accurate _ (by norm_num) _) weightGen 3 mode col3 ![1, 2, 6] hb 0 0 le_rfl le_rfl L false ⟨0, 0, 0, 0, 0⟩ ⟨0, 0, []⟩
    w' out h (by norm_num) (by norm_num) (1 / 10) (by norm_num) (by norm_num) 1 (by norm_num) hlo (1 / 20)
    (fun d w₁ S h1 h2 => by
      rw [demo31_dim] at h1; cases h1
      rw [weightGen_ok] at h2; cases h2
      exact ⟨w1, w2, fun _ => w3⟩) (31 / 200) (by norm_num) (by norm_num) cond3 ![3] hmin f hf
  refine ⟨out, w', x, h, g1, x0, g3 rfl, g2.trans_eq ?_⟩
  simp [sqNorm, Fin.sum_univ_three]; norm_num

/-- `SSO1` with a wrong arithmetic: the hypotheses of `C82_sso1` are met. -/
example : ∃ x, sso1CallFl (inflatedLS LinAlg.ref (1 / 100)) weightGen 3 col3 ![1, 2, 6] 0 .nan 1 ⟨0, 0, []⟩ = .ok (x, ⟨0, 0, []⟩) ∧
    ∀ z, ((1 - 1 / 4) * sqNorm (col3 *ᵥ z - ![1, 2, 6]) ≤ sqNorm (weight3 *ᵥ (col3 *ᵥ z - ![1, 2, 6])) ∧
      sqNorm (weight3 *ᵥ (col3 *ᵥ z - ![1, 2, 6])) ≤ (1 + 1 / 4) * sqNorm (col3 *ᵥ z - ![1, 2, 6])) := by
  obtain ⟨fl, hfl⟩ : ∃ fl, fl = inflatedLS LinAlg.ref (1 / 100) := ⟨_, rfl⟩
  rw [← hfl]
  refine ⟨fl.lstsqv (liftFl fl (fl.mul weight3 col3) 0) (catv (fl.mulv weight3 ![1, 2, 6]) 0), ?_, fun z => ?_⟩
  · rw [sso1Fl_eq]
    refine (Py.bind_eq_of_ok (demo31_dim _)).trans ?_
    exact (Py.bind_eq_of_ok weightGen_ok).trans rfl
  · have e : ∀ r : Fin 3 → ℝ, sqNorm (weight3 *ᵥ r) = r 0 ^ 2 + r 1 ^ 2 + (121 / 100) * r 2 ^ 2 := fun r => by
      simp [sqNorm, weight3, Fin.sum_univ_three, mulVec, dotProduct]
      ring
    have e2 : ∀ r : Fin 3 → ℝ, sqNorm r = r 0 ^ 2 + r 1 ^ 2 + r 2 ^ 2 := fun r => by simp [sqNorm, Fin.sum_univ_three]
    obtain ⟨r, hr⟩ : ∃ r : Fin 3 → ℝ, r = col3 *ᵥ z - ![1, 2, 6] := ⟨_, rfl⟩
    rw [← hr, e, e2]
    constructor <;> nlinarith [sq_nonneg (r 0), sq_nonneg (r 1), sq_nonneg (r 2)]

/-- `SPU1` with a wrong arithmetic: a logging call returns, and the hypotheses of `C82_spu1` are met (those about the sketch by
`witness_setup`). -/
example : ∃ out lg k, spu1CallFl (inflatedLS LinAlg.ref (1 / 10000)) weightGen 3 col3 ![6] 0 1 true ⟨0, 0, 0, 0, 0⟩ ⟨0, 0, []⟩ =
      .ok (out, ⟨0, 0, []⟩) ∧ out.log = some lg ∧ lg.errors.length = k + 1 := by
  obtain ⟨fl, hfl⟩ : ∃ fl, fl = inflatedLS LinAlg.ref (1 / 10000) := ⟨_, rfl⟩
  have hacc : fl.Accurate 4 (1 / 10000) := by rw [hfl]; exact inflatedLS_accurate _ (by norm_num) _
  have hc : (![6] : Fin 1 → ℝ) ≠ 0 := fun h => by simpa using congrFun h 0
  obtain ⟨w1, w2, w3⟩ := witness_setup .svd
  have hsz : fro weight3 * fro col3 = sketchSize weight3 col3 0 := by unfold sketchSize; rw [Real.sqrt_zero, zero_mul, add_zero]
  have hμ : (0 : ℝ) < √(1 - 1 / 10) * 1 := by have := low3; linarith
  obtain ⟨o, ho, hr, hM⟩ := svdPrecFl_spec (T := weight3 * col3) hacc (by norm_num) (by norm_num) (by norm_num) (by norm_num) hμ
    (fun v => by
      rw [← lift_zero_eq]
      exact lift_low le_rfl (by norm_num) (by norm_num) w1 (fun v => by rw [zero_mul, add_zero]; exact lo3 v) v)
    ((fro_mul_le _ _).trans_eq hsz)
    (by have := hacc.alg.mul weight3 col3 (by norm_num) (by norm_num) (by norm_num); rwa [mul_assoc, hsz] at this)
    (lt_of_le_of_lt w2 (by norm_num)) w3
  rw [← hfl]
  have hp := pcss2_under_eq col3 .none ![6] le_rfl 0 1 (P := .gen o.r o.M) trivial none trivial hc
  rcases C30_lsqr_total (aLift col3 (√0) * (Precond.gen o.r o.M).mat)ᵀ ((Precond.gen o.r o.M).matᵀ *ᵥ ![6]) 0 ⟨0, 0, 10 ^ 8⟩ (some 1) none with
    ⟨q, hq⟩ | ⟨-, ⟨l, hl, hl'⟩, -⟩
  · rw [hq] at hp
    rcases C30_lsqr_arnorms _ _ _ _ _ _ hq with ⟨a1, -⟩ | ⟨-, l, a2, -⟩
    · exfalso
      -- the start would be optimal, that is, `c` zero
      rw [Option.getD_none, mulVec_zero, sub_zero, transpose_transpose] at a1
      have a1 : (aLift col3 (√0) * o.M) *ᵥ (o.Mᵀ *ᵥ ![6]) = 0 := a1
      have hconds : Conds (aLift (weight3 * col3) (√0)) o.M (1 / 20) := fun z => by
        have := conds_mono hM w2 z
        have e : sqNorm (aLift (weight3 * col3) (√0) *ᵥ (o.M *ᵥ z)) = sqNorm ((weight3 * col3) *ᵥ (o.M *ᵥ z)) := by
          rw [sqNorm_aLift, Real.sqrt_zero]; ring
        rwa [e]
      have hiso := conds_iso le_rfl (by norm_num) (by norm_num) (by norm_num) (by norm_num) w1 hconds
      have h0 := (hiso (o.Mᵀ *ᵥ ![6])).2
      rw [a1, sqNorm_zero', mul_zero] at h0
      have h1 : o.Mᵀ *ᵥ ![6] = 0 := sqNorm_eq_zero.1 (le_antisymm h0 (sqNorm_nonneg _))
      have htop : colSpace o.M = ⊤ := colSpace_cast hr fun z hz => hiso.inj z hz
      obtain ⟨z, hz⟩ := mem_colSpace.1 (htop ▸ Submodule.mem_top : (![6] : Fin 1 → ℝ) ∈ colSpace o.M)
      have h2 : sqNorm (![6] : Fin 1 → ℝ) = 0 := by
        rw [sqNorm_eq_dot]
        conv_lhs => arg 2; rw [← hz]
        rw [dot_mulVec, h1, zero_dotProduct]
      exact hc (sqNorm_eq_zero.1 h2)
    · obtain ⟨lg, b1, b2, -⟩ := C42_wrap_up ⟨0, 0, 0, 0, 0⟩ l (norm2 (col3 *ᵥ (o.M *ᵥ (o.Mᵀ *ᵥ ![6]))))
      refine ⟨⟨topv q.x, some lg⟩, lg, l.length, ?_, rfl, by rw [b2, List.length_cons]⟩
      unfold spu1CallFl
      refine (Py.bind_eq_of_ok (demo31_dim _)).trans ?_
      refine (Py.bind_eq_of_ok weightGen_ok).trans ?_
      have : spuPostFl fl weight3 col3 ![6] 0 1 true ⟨0, 0, 0, 0, 0⟩ = .ok ⟨topv q.x, some lg⟩ := by
        unfold spuPostFl
        simp only [ho, bind, Except.bind, hp, a2, finishLog, if_true, b1]
        rfl
      exact congrArg (fun e => Py.lift e _) this
  · cases hl'; norm_num at hl

end Parla.Props
