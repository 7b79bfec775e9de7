import Verif.Props.SPO

/-! # Property C38 (end to end) and C43: `SPO` computes the minimiser; logging without iterations -/

namespace Parla.Props

open Matrix Parla Spec

variable {G : Type} {m n d : ℕ}

/-- a minimiser of the ridge objective is stationary -/
theorem normal_of_ridge (la : LinAlg) {A : Matrix (Fin m) (Fin n) ℝ} {b : Fin m → ℝ} {δ : ℝ}
    (hδ : 0 ≤ δ) {x : Fin n → ℝ} (h : IsRidgeMin A b δ x) : Aᵀ *ᵥ (b - A *ᵥ x) - δ • x = 0 := by
  obtain ⟨h1, -⟩ := lstsqv_lift la A b hδ
  set y := la.lstsqv (aLift A (Real.sqrt δ)) (catv b 0)
  have h2 := h y
  rw [ridge_excess hδ h1 x] at h2
  have h3 : aLift A (Real.sqrt δ) *ᵥ (y - x) = 0 :=
    sqNorm_eq_zero.1 (le_antisymm (by linarith) (sqNorm_nonneg _))
  rw [mulVec_sub, sub_eq_zero] at h3
  rw [← lift_normal A b hδ, ← h3, lift_normal A b hδ, h1]

theorem froSq_eq_sum_cols {p k : ℕ} (F : Matrix (Fin p) (Fin k) ℝ) :
    froSq F = ∑ j, sqNorm (F *ᵥ Pi.single j 1) := by
  unfold froSq sqNorm
  rw [Finset.sum_comm]
  refine Finset.sum_congr rfl fun j _ => Finset.sum_congr rfl fun i _ => ?_
  rw [mulVec_single_one]
  rfl

/-- an embedding of the range of `A` embeds the range of the lifted matrix -/
theorem lift_embeds {S : Matrix (Fin d) (Fin m) ℝ} {A : Matrix (Fin m) (Fin n) ℝ} {δ ε : ℝ} (hδ : 0 ≤ δ)
    (hε : 0 ≤ ε) (h : Embeds S A ε) (x : Fin n → ℝ) :
    (1 - ε) * sqNorm (aLift A (Real.sqrt δ) *ᵥ x) ≤ sqNorm (aLift (S * A) (Real.sqrt δ) *ᵥ x) ∧
    sqNorm (aLift (S * A) (Real.sqrt δ) *ᵥ x) ≤ (1 + ε) * sqNorm (aLift A (Real.sqrt δ) *ᵥ x) := by
  rw [sqNorm_aLift, sqNorm_aLift, Real.sq_sqrt hδ, ← mulVec_mulVec]
  obtain ⟨h1, h2⟩ := h x
  have h3 := mul_nonneg hε (mul_nonneg hδ (sqNorm_nonneg x))
  constructor <;> nlinarith

/-- bounds on the preconditioned matrix -/
theorem precond_bounds {k : ℕ} {S : Matrix (Fin d) (Fin m) ℝ} {A : Matrix (Fin m) (Fin n) ℝ} {δ ε : ℝ}
    (hδ : 0 ≤ δ) (hε : 0 ≤ ε) (hε1 : ε < 1) (hS : Embeds S A ε) {M : Matrix (Fin n) (Fin k) ℝ}
    (hM : (aLift (S * A) (Real.sqrt δ) * M)ᵀ * (aLift (S * A) (Real.sqrt δ) * M) = 1) :
    (∀ z, 1 / Real.sqrt (1 + ε) * norm2 z ≤ norm2 ((aLift A (Real.sqrt δ) * M) *ᵥ z)) ∧
    (∀ z, norm2 ((aLift A (Real.sqrt δ) * M) *ᵥ z) ≤ 1 / Real.sqrt (1 - ε) * norm2 z) ∧
    froSq (aLift A (Real.sqrt δ) * M) ≤ k / (1 - ε) := by
  have key : ∀ z, (1 - ε) * sqNorm ((aLift A (Real.sqrt δ) * M) *ᵥ z) ≤ sqNorm z ∧
      sqNorm z ≤ (1 + ε) * sqNorm ((aLift A (Real.sqrt δ) * M) *ᵥ z) := by
    intro z
    have h1 := lift_embeds hδ hε hS (M *ᵥ z)
    rw [mulVec_mulVec, mulVec_mulVec, sqNorm_orth_mulVec hM] at h1
    exact h1
  have p1 : 0 < Real.sqrt (1 + ε) := Real.sqrt_pos.2 (by linarith)
  have p2 : 0 < Real.sqrt (1 - ε) := Real.sqrt_pos.2 (by linarith)
  refine ⟨fun z => ?_, fun z => ?_, ?_⟩
  · rw [div_mul_eq_mul_div, one_mul, div_le_iff₀ p1]
    unfold norm2
    rw [← Real.sqrt_mul (sqNorm_nonneg _)]
    exact Real.sqrt_le_sqrt (by linarith [(key z).2])
  · rw [div_mul_eq_mul_div, one_mul, le_div_iff₀ p2]
    unfold norm2
    rw [← Real.sqrt_mul (sqNorm_nonneg _)]
    exact Real.sqrt_le_sqrt (by linarith [(key z).1])
  · rw [le_div_iff₀ (by linarith), froSq_eq_sum_cols, Finset.sum_mul]
    have : ∀ j ∈ (Finset.univ : Finset (Fin k)),
        sqNorm ((aLift A (Real.sqrt δ) * M) *ᵥ Pi.single j 1) * (1 - ε) ≤ 1 := by
      intro j _
      have := (key (Pi.single j 1)).1
      have e : sqNorm (Pi.single j 1 : Fin k → ℝ) = 1 := by simp [sqNorm, Pi.single_apply]
      rw [e] at this
      linarith
    refine (Finset.sum_le_sum this).trans ?_
    simp

/-- the condition of `lsqr` for the preconditioned matrix -/
theorem precond_cond {k : ℕ} {S : Matrix (Fin d) (Fin m) ℝ} {A : Matrix (Fin m) (Fin n) ℝ} {δ ε : ℝ}
    (hδ : 0 ≤ δ) (hε : 0 ≤ ε) (hε1 : ε < 1) (hS : Embeds S A ε) {M : Matrix (Fin n) (Fin k) ℝ}
    (hM : (aLift (S * A) (Real.sqrt δ) * M)ᵀ * (aLift (S * A) (Real.sqrt δ) * M) = 1)
    (hc : k * Real.sqrt ((1 + ε) / (1 - ε)) < 10 ^ 8 - eps) :
    fro (aLift A (Real.sqrt δ) * M) * Real.sqrt (aLift A (Real.sqrt δ) * M).rank <
      1 / Real.sqrt (1 + ε) * (10 ^ 8 - eps) := by
  obtain ⟨-, -, h3⟩ := precond_bounds hδ hε hε1 hS hM
  set F := aLift A (Real.sqrt δ) * M
  have p1 : 0 < Real.sqrt (1 + ε) := Real.sqrt_pos.2 (by linarith)
  have p2 : 0 < Real.sqrt (1 - ε) := Real.sqrt_pos.2 (by linarith)
  have h4 : fro F ≤ Real.sqrt k / Real.sqrt (1 - ε) := by
    unfold fro
    rw [← Real.sqrt_div (Nat.cast_nonneg _)]
    exact Real.sqrt_le_sqrt h3
  have h5 : Real.sqrt F.rank ≤ Real.sqrt k := Real.sqrt_le_sqrt (by exact_mod_cast F.rank_le_width)
  have h6 : fro F * Real.sqrt F.rank ≤ Real.sqrt k / Real.sqrt (1 - ε) * Real.sqrt k :=
    mul_le_mul h4 h5 (Real.sqrt_nonneg _) (by positivity)
  have h7 : Real.sqrt k / Real.sqrt (1 - ε) * Real.sqrt k = k / Real.sqrt (1 - ε) := by
    rw [div_mul_eq_mul_div, Real.mul_self_sqrt (Nat.cast_nonneg _)]
  rw [h7] at h6
  refine lt_of_le_of_lt h6 ?_
  rw [Real.sqrt_div (by linarith)] at hc
  rw [div_mul_eq_mul_div, one_mul, lt_div_iff₀ p1, div_mul_eq_mul_div, ← mul_div_assoc']
  exact hc

/-- **C38** (end to end).  If the sketch drawn (that is, any the generator returns in the state of the call) embeds the range of `A` up to
`1 ± ε` with `n √((1+ε)/(1-ε)) < 10^8 - eps`, `A` (or `δ > 0`) has full column rank, and the requested
embedding dimension is admissible, then `SPO` in QR or Cholesky mode (or in SVD mode if moreover the
sketches have numerically full rank), called with `tol = 0` and `iter_lim ≥ n`, returns the exact
minimiser of `‖Ax - b‖² + δ‖x‖²`. -/
theorem C38_spo_exact (la : LinAlg) (gen : SkOpGen G) (sf : ℝ) (mode : SPOMode)
    (A : Matrix (Fin m) (Fin n) ℝ) (b : Fin m → ℝ) (δ : ℝ) (hδ : 0 ≤ δ) (L : ℤ) (hL : (n : ℤ) ≤ L)
    (clock : LogTimes) (w : World G)
    (hA : FullColRank (aLift A (Real.sqrt δ))) (hmn : n ≤ m) (hsf : (n : ℤ) ≤ pyInt (sf * n))
    (hgen : ∀ d w, n ≤ d → d ≤ m → ∃ S w', gen d m w = .ok (S, w'))
    (ε : ℝ) (hε : 0 ≤ ε) (hε1 : ε < 1)
    (hS : ∀ d : ℕ, (d : ℤ) = min (pyInt (sf * n)) m → ∀ v S w', v.rng = w.rng → gen d m v = .ok (S, w') →
      Embeds S A ε ∧
      (mode = .svd → n ≠ 0 ∧ WellCond (aLift (S * A) (Real.sqrt δ))))
    (hmode : mode ≠ .other) (hc : n * Real.sqrt ((1 + ε) / (1 - ε)) < 10 ^ 8 - eps) :
    ∃ out w' x, spoCall la gen sf mode A b δ 0 L false clock w = .ok (out, w') ∧ out.x = some x ∧
      IsRidgeMin A b δ x := by
  obtain ⟨d, h1, hd, hdm, hdim0⟩ := (C35_dim_checks (G := G) sf m n w).2 hmn hsf
  obtain ⟨S, w', h2⟩ := hgen d
    { w with warns := w.warns + if (m : ℤ) < pyInt (sf * n) then 1 else 0 } hd hdm
  obtain ⟨hSe, hSw⟩ := hS _ hdim0 _ _ _ (by rfl) h2
  have hfull : FullColRank (aLift (S * A) (Real.sqrt δ)) := by
    rw [fullColRank_iff_inj]
    intro x hx
    have := (lift_embeds hδ hε hSe x).1
    rw [hx, sqNorm_zero'] at this
    refine fullColRank_iff_inj.1 hA x (sqNorm_eq_zero.1 (le_antisymm ?_ (sqNorm_nonneg _)))
    by_contra hc
    push Not at hc
    have := mul_pos (sub_pos.2 hε1) hc
    linarith
  obtain ⟨f, hf⟩ := spoFactor_total la (mode := mode) S A b hδ hd (by
    cases mode with
    | qr => exact Or.inr ⟨Or.inl rfl, hfull⟩
    | chol => exact Or.inr ⟨Or.inr rfl, hfull⟩
    | svd => exact Or.inl ⟨rfl, (hSw rfl).1⟩
    | other => exact absurd rfl hmode)
  obtain ⟨hg, hdim⟩ := spoFactor_ok la hδ hd hf
  have hdim' : f.P.dim = n := hdim (by
    cases mode with
    | qr => exact Or.inl rfl
    | chol => exact Or.inr (Or.inl rfl)
    | svd => exact Or.inr (Or.inr (hSw rfl).2)
    | other => exact absurd rfl hmode)
  obtain ⟨e1, e2⟩ := sandwich_inv hdim' (lift_gram_sandwich (S * A) hδ hg.orth)
  have htop : colSpace f.P.mat = ⊤ := by
    refine eq_top_iff.2 fun v _ => mem_colSpace.2
      ⟨f.P.matᵀ *ᵥ (((S * A)ᵀ * (S * A) + δ • 1) *ᵥ v), ?_⟩
    rw [mulVec_mulVec, mulVec_mulVec, e1, one_mulVec]
  obtain ⟨q1, -, -⟩ := precond_bounds hδ hε hε1 hSe hg.orth
  have hrank : ((aLift A (Real.sqrt δ) * f.P.mat).rank : ℤ) ≤ L := by
    have := (aLift A (Real.sqrt δ) * f.P.mat).rank_le_width
    omega
  have p1 : 0 < Real.sqrt (1 + ε) := Real.sqrt_pos.2 (by linarith)
  obtain ⟨res, x, r1, r2, -, r3⟩ := C34_pcss2_over_exact A b none δ hδ L f.P hg.ok htop
    (spoStart A b δ f) rfl hrank (1 / Real.sqrt (1 + ε)) (by positivity) (fun z _ => q1 z)
    (precond_cond hδ hε hε1 hSe hg.orth (by rw [hdim']; exact hc))
  refine ⟨⟨res.x, none⟩, w', x, ?_, r2, r3⟩
  rw [spoCall_eq mode A b δ 0 L false clock h1 h2, (spoPost_eq clock hδ hd hf r1).1]

/-! ## C43 -/

/-- **C43** (what happens).  Suppose a call without logging returns.  If the starting point — the
result of the same call with `iter_lim = 0` — is already a minimiser, the call with logging raises
`ValueError` instead of returning it; otherwise it returns the same point, with a log.  (For the QR
and Cholesky modes, and the SVD mode with a sketch of numerically full rank.) -/
theorem C43_spo_logging (la : LinAlg) (gen : SkOpGen G) (sf : ℝ) (mode : SPOMode)
    (A : Matrix (Fin m) (Fin n) ℝ) (b : Fin m → ℝ) (δ tol : ℝ) (hδ : 0 ≤ δ) (L : ℤ)
    (clock : LogTimes) (w w' : World G) (out out0 : SPOOut n) (x0 : Fin n → ℝ)
    (h : spoCall la gen sf mode A b δ tol L false clock w = .ok (out, w'))
    (h0 : spoCall la gen sf mode A b δ tol 0 false clock w = .ok (out0, w')) (hx0 : out0.x = some x0)
    (hw : mode = .svd → ∀ d w₁ S, (dimChecks sf m n : Py G ℕ) w = .ok (d, w₁) →
      gen d m w₁ = .ok (S, w') → WellCond (aLift (S * A) (Real.sqrt δ))) :
    (IsRidgeMin A b δ x0 → spoCall la gen sf mode A b δ tol L true clock w = .error .value) ∧
    (¬ IsRidgeMin A b δ x0 → ∃ lg, spoCall la gen sf mode A b δ tol L true clock w =
      .ok (⟨out.x, some lg⟩, w')) := by
  obtain ⟨d, S, w₁, hd, -, h1, h2, h⟩ := spoCall_ok h
  obtain ⟨f, res, hf, hr, hx, -⟩ := spoPost_ok hδ hd h
  obtain ⟨hg, hdim⟩ := spoFactor_ok la hδ hd hf
  have hdim' : f.P.dim = n := hdim (by
    cases mode with
    | qr => exact Or.inl rfl
    | chol => exact Or.inr (Or.inl rfl)
    | svd => exact Or.inr (Or.inr (hw rfl _ _ _ h1 h2))
    | other => cases hf)
  obtain ⟨e1, e2⟩ := sandwich_inv hdim' (lift_gram_sandwich (S * A) hδ hg.orth)
  -- the starting point
  obtain ⟨o, ho, ho', -⟩ := C30_lsqr_start (aLift A (Real.sqrt δ) * f.P.mat) (catv b 0) 0
    ⟨tol, tol, 10 ^ 8⟩ (spoStart A b δ f)
  have hr0 := pcss2_over_eq A b none hδ tol 0 hg.ok (spoStart A b δ f) trivial
  rw [ho] at hr0
  have hstart : x0 = f.P.mat *ᵥ (spoStart A b δ f).getD 0 := by
    rw [spoCall_eq mode A b δ tol 0 false clock h1 h2, (spoPost_eq clock hδ hd hf hr0).1] at h0
    cases h0
    cases hx0
    rw [ho']
  have hiff : IsRidgeMin A b δ x0 ↔ (aLift A (Real.sqrt δ) * f.P.mat)ᵀ *ᵥ (catv b 0 -
      (aLift A (Real.sqrt δ) * f.P.mat) *ᵥ (spoStart A b δ f).getD 0) = 0 := by
    rw [mul_T_mulVec, ← mulVec_mulVec, ← hstart, lift_normal A b hδ]
    constructor
    · intro hm
      rw [normal_of_ridge la hδ hm, mulVec_zero]
    · intro hm
      refine ridge_of_normal hδ ?_
      have := congrArg (((S * A)ᵀ * (S * A) + δ • 1) *ᵥ ·) (congrArg (f.P.mat *ᵥ ·) hm)
      simpa only [mulVec_mulVec, ← Matrix.mul_assoc, e2, one_mulVec, mulVec_zero,
        Matrix.mul_assoc] using this
  -- the result
  have hl := pcss2_over_eq A b none hδ tol L hg.ok (spoStart A b δ f) trivial
  rw [hr] at hl
  cases hq : lsqr (LinOp.ofMat (aLift A (Real.sqrt δ) * f.P.mat)) (catv b 0) 0 ⟨tol, tol, 10 ^ 8⟩
      (some L) (spoStart A b δ f) with
  | error e => rw [hq] at hl; cases hl
  | ok q =>
    rw [hq] at hl
    cases hl
    obtain ⟨-, s2, s3⟩ := spoPost_eq clock hδ hd hf hr
    rw [hiff, spoCall_eq mode A b δ tol L true clock h1 h2]
    rcases C30_lsqr_arnorms _ _ _ _ _ _ hq with ⟨g0, -, g2, -⟩ | ⟨g0, l, g2, -⟩
    · exact ⟨fun _ => by rw [s3 _ g2], fun hn => absurd g0 hn⟩
    · obtain ⟨lg, hlg⟩ := s2 l g2
      refine ⟨fun hn => absurd hn g0, fun _ => ⟨lg, ?_⟩⟩
      rw [hlg, hx]

/-- **C43** (the claim is false).  For every `b` orthogonal to the range of `A` — so that `x = 0` is a
minimiser and SPO starts from it — a logged call raises `ValueError`, whatever the sketch, in all
three modes; without logging the call returns `x = 0`. -/
theorem C43_spo_orthogonal (la : LinAlg) (gen : SkOpGen G) (sf : ℝ) (mode : SPOMode)
    (A : Matrix (Fin m) (Fin n) ℝ) (b : Fin m → ℝ) (δ tol : ℝ) (hδ : 0 ≤ δ) (L : ℤ)
    (clock : LogTimes) (w w₁ w' : World G) (hb : Aᵀ *ᵥ b = 0) (S : Matrix (Fin d) (Fin m) ℝ)
    (h1 : (dimChecks sf m n : Py G ℕ) w = .ok (d, w₁)) (h2 : gen d m w₁ = .ok (S, w'))
    (hm : mode = .svd ∧ n ≠ 0 ∨ (mode = .qr ∨ mode = .chol) ∧
      FullColRank (aLift (S * A) (Real.sqrt δ))) :
    spoCall la gen sf mode A b δ tol L true clock w = .error .value ∧
    ∃ out, spoCall la gen sf mode A b δ tol L false clock w = .ok (out, w') ∧ out.x = some 0 := by
  obtain ⟨-, -, hd, -⟩ := dimChecks_ok h1
  obtain ⟨f, hf⟩ := spoFactor_total la (mode := mode) S A b hδ hd hm
  obtain ⟨hg, -⟩ := spoFactor_ok la hδ hd hf
  -- the start is `0`: every other point is at least as bad
  have hstart : f.P.mat *ᵥ (spoStart A b δ f).getD 0 = 0 := by
    by_cases hb0 : b = 0
    · have hz : f.z = 0 := by rw [hg.z, hb0]; simp only [mulVec_zero]
      have : (spoStart A b δ f).getD 0 = 0 := by
        cases hs : spoStart A b δ f with
        | none => rfl
        | some z =>
          unfold spoStart at hs
          simp only at hs
          split at hs
          · cases hs
          · cases hs; exact hz
      rw [this, mulVec_zero]
    · have e : sqNorm (A *ᵥ f.x - b) = sqNorm (A *ᵥ f.x) + sqNorm b := by
        rw [sqNorm_sub, dotProduct_comm, dot_mulVec, hb, zero_dotProduct]; ring
      rw [spoStart_none hδ hb0 (by
        rw [e]; nlinarith [sqNorm_nonneg (A *ᵥ f.x), mul_nonneg hδ (sqNorm_nonneg f.x)]),
        Option.getD_none, mulVec_zero]
  have hr := pcss2_over_eq A b none hδ tol L hg.ok (spoStart A b δ f) trivial
  have hzero : (aLift A (Real.sqrt δ) * f.P.mat)ᵀ *ᵥ (catv b 0 -
      (aLift A (Real.sqrt δ) * f.P.mat) *ᵥ (spoStart A b δ f).getD 0) = 0 := by
    rw [mul_T_mulVec, ← mulVec_mulVec, hstart, lift_normal A b hδ, mulVec_zero, sub_zero, hb, smul_zero,
      sub_zero, mulVec_zero]
  rw [lsqr_early _ _ _ _ _ _ hzero] at hr
  obtain ⟨s1, -, s3⟩ := spoPost_eq clock hδ hd hf hr
  rw [spoCall_eq mode A b δ tol L true clock h1 h2, spoCall_eq mode A b δ tol L false clock h1 h2, s1,
    s3 0 rfl]
  refine ⟨rfl, _, rfl, ?_⟩
  show some (f.P.mat *ᵥ (spoStart A b δ f).getD 0) = some 0
  rw [hstart]

/-! ### Non-vacuity: a 3 x 1 problem with a full-size sketch -/

theorem demo31_pyInt : pyInt (3 * (1 : ℕ)) = 3 := by
  unfold pyInt; rw [if_pos (by norm_num), Int.floor_eq_iff]; norm_num

theorem demo31_dim (w : World ℕ) : (dimChecks 3 3 1 : Py ℕ ℕ) w = .ok (3, w) := by
  obtain ⟨d, h, -, -, h'⟩ := (C35_dim_checks 3 3 1 w).2 (by norm_num) (by rw [demo31_pyInt]; norm_num)
  rw [demo31_pyInt] at h h'
  have : d = 3 := by norm_num at h'; omega
  rw [h, this]; rfl

theorem demo31_full {p : ℕ} (B : Matrix (Fin p) (Fin 1) ℝ) (i : Fin p) (h : B i 0 ≠ 0) :
    FullColRank B := by
  rw [fullColRank_iff_inj]
  intro x hx
  have := congrFun hx i
  simp [mulVec, dotProduct] at this
  funext j
  fin_cases j
  exact this.resolve_left h

theorem demo31_aLift {p : ℕ} (B : Matrix (Fin p) (Fin 1) ℝ) (i : Fin p) (h : B i 0 ≠ 0) :
    FullColRank (aLift B (Real.sqrt 0)) := by
  refine demo31_full _ (Fin.castAdd _ i) ?_
  simp [aLift, vcat]
  exact h

/-- The only sketch drawn has full size and is the identity; all hypotheses of `C38_spo_exact` hold and
SPO finds the mean of the data. -/
example : ∃ out w', spoCall LinAlg.ref (idGen (G := ℕ)) 3 .qr
      (!![1; 1; 1] : Matrix (Fin 3) (Fin 1) ℝ) ![1, 2, 6] 0 0 1 false ⟨0, 0, 0, 0, 0⟩ ⟨0, 0, []⟩ =
        .ok (out, w') ∧ out.x = some ![3] := by
  obtain ⟨out, w', x, h1, h2, h3⟩ := C38_spo_exact LinAlg.ref (idGen (G := ℕ)) 3 .qr
    (!![1; 1; 1] : Matrix (Fin 3) (Fin 1) ℝ) ![1, 2, 6] 0 le_rfl 1 le_rfl ⟨0, 0, 0, 0, 0⟩ ⟨0, 0, []⟩
    (demo31_aLift _ 0 (by simp)) (by norm_num) (by rw [demo31_pyInt]; norm_num)
    (fun d w _ _ => ⟨_, _, rfl⟩) 0 le_rfl (by norm_num) (by
      intro d hd v S w' _ h
      rw [demo31_pyInt] at hd
      have : d = 3 := by norm_num at hd; omega
      subst this
      rw [idGen_ok] at h
      cases h
      refine ⟨fun z => ?_, (nomatch ·)⟩
      simp) (nomatch ·) (by
      have : eps ≤ 1 := by unfold eps; norm_num
      norm_num; linarith)
  refine ⟨out, w', h1, h2.trans (congrArg some ?_)⟩
  have h6 := h3 ![3]
  funext i
  fin_cases i
  simp [sqNorm, Fin.sum_univ_three, mulVec, dotProduct] at h6 ⊢
  nlinarith [sq_nonneg (x 0 - 3)]

/-- The hypotheses of `C43_spo_orthogonal` are met: `A = (1,1,1)'`, `b = (1,-1,0)`. -/
example : spoCall LinAlg.ref (idGen (G := ℕ)) 3 .qr
      (!![1; 1; 1] : Matrix (Fin 3) (Fin 1) ℝ) ![1, -1, 0] 0 0 1 true ⟨0, 0, 0, 0, 0⟩ ⟨0, 0, []⟩ =
        .error .value :=
  (C43_spo_orthogonal LinAlg.ref (idGen (G := ℕ)) 3 .qr
    (!![1; 1; 1] : Matrix (Fin 3) (Fin 1) ℝ) ![1, -1, 0] 0 0 le_rfl 1 ⟨0, 0, 0, 0, 0⟩ ⟨0, 0, []⟩ _ _
    (by funext i; fin_cases i; simp [mulVec, dotProduct, Fin.sum_univ_three, Matrix.transpose]) 1
    (demo31_dim _) (idGen_ok _) (Or.inr ⟨Or.inl rfl, by
      rw [Matrix.one_mul]; exact demo31_aLift _ 0 (by simp)⟩)).1

end Parla.Props
