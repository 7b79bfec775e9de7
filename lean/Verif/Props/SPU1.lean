import Verif.Props.SPOExact

/-! # Property C39: `SPU1` -/

namespace Parla.Props

open Matrix Parla Spec

variable {G : Type} {m n d : ℕ}

/-- opening a successful call of `SPU1` -/
theorem spu1_ok {la : LinAlg} {gen : SkOpGen G} {sf : ℝ} {A : Matrix (Fin m) (Fin n) ℝ} {c : Fin n → ℝ}
    {tol : ℝ} {L : ℤ} {logging : Bool} {clock : LogTimes} {w w' : World G} {out : SPUOut m}
    (h : spu1Call la gen sf A c tol L logging clock w = .ok (out, w')) :
    ∃ (d : ℕ) (S : Matrix (Fin d) (Fin m) ℝ) (w₁ : World G) (o : PrecOut d n) (res : SaddleOut m n),
      n ≤ d ∧ d ≤ m ∧ (dimChecks sf m n : Py G ℕ) w = .ok (d, w₁) ∧ gen d m w₁ = .ok (S, w') ∧
      svdRightPrecond la (S * A) = .ok o ∧
      pcss2 A .none (some c) 0 tol L (.gen o.r o.M) none = .ok res ∧ out.y = res.y ∧
      finishLog logging clock res.errs (norm2 (A *ᵥ (o.M *ᵥ (o.Mᵀ *ᵥ c)))) = .ok out.log := by
  unfold spu1Call at h
  rw [Py.bind_ok_iff] at h
  obtain ⟨d, w₁, h1, h⟩ := h
  rw [Py.bind_ok_iff] at h
  obtain ⟨S, w₂, h2, h⟩ := h
  rw [Py.lift_ok_iff] at h
  obtain ⟨h, rfl⟩ := h
  obtain ⟨-, -, h3, h4, -⟩ := dimChecks_ok h1
  unfold spuPost at h
  cases ho : svdRightPrecond la (S * A) with
  | error e => rw [ho] at h; cases h
  | ok o =>
    rw [ho] at h
    simp only [bind, Except.bind] at h
    cases hr : pcss2 A .none (some c) 0 tol L (.gen o.r o.M) none with
    | error e => rw [hr] at h; cases h
    | ok res =>
      rw [hr] at h
      simp only at h
      cases hl : finishLog logging clock res.errs (norm2 (A *ᵥ (o.M *ᵥ (o.Mᵀ *ᵥ c)))) with
      | error e => rw [hl] at h; cases h
      | ok lg =>
        rw [hl] at h
        cases h
        exact ⟨d, S, w₁, o, res, h3, h4, h1, h2, ho, hr, rfl, hl⟩

/-- a call of `SPU1` that draws the sketch `S` -/
theorem spu1_eq (la : LinAlg) {gen : SkOpGen G} {sf : ℝ} (A : Matrix (Fin m) (Fin n) ℝ) (c : Fin n → ℝ)
    (tol : ℝ) (L : ℤ) (logging : Bool) (clock : LogTimes) {w w₁ w' : World G}
    {S : Matrix (Fin d) (Fin m) ℝ}
    (h1 : (dimChecks sf m n : Py G ℕ) w = .ok (d, w₁)) (h2 : gen d m w₁ = .ok (S, w')) :
    spu1Call la gen sf A c tol L logging clock w =
      match spuPost la S A c tol L logging clock with
      | .ok out => .ok (out, w')
      | .error e => .error e := by
  unfold spu1Call
  rw [Py.bind_eq_of_ok h1, Py.bind_eq_of_ok h2]
  generalize spuPost la S A c tol L logging clock = e
  cases e <;> rfl

/-- **C39** (range).  For `c ≠ 0` the result of a successful call lies in the range of `A`. -/
theorem C39_spu1_range (la : LinAlg) (gen : SkOpGen G) (sf : ℝ) (A : Matrix (Fin m) (Fin n) ℝ)
    (c : Fin n → ℝ) (hc : c ≠ 0) (tol : ℝ) (L : ℤ) (logging : Bool) (clock : LogTimes) (w w' : World G)
    (out : SPUOut m) (h : spu1Call la gen sf A c tol L logging clock w = .ok (out, w')) :
    out.y ∈ colSpace A := by
  obtain ⟨d, S, w₁, o, res, -, -, -, -, -, hr, hy, -⟩ := spu1_ok h
  rw [hy]
  exact (C34_pcss2_under A .none c 0 le_rfl tol L (.gen o.r o.M) trivial none (Or.inl rfl) hc res hr).2.2

/-- a solution of `A'y = c` in the range of `A` has minimum norm -/
theorem minNorm_of_range {A : Matrix (Fin m) (Fin n) ℝ} {c : Fin n → ℝ} {y : Fin m → ℝ}
    (hy : y ∈ colSpace A) (h : Aᵀ *ᵥ y = c) : IsMinNormSol A c y := by
  refine ⟨h, fun z hz => norm2_le_norm2.2 ?_⟩
  obtain ⟨u, rfl⟩ := mem_colSpace.1 hy
  have e : (z - A *ᵥ u) ⬝ᵥ (A *ᵥ u) = 0 := by
    rw [dot_mulVec, mulVec_sub, hz, h, sub_self, zero_dotProduct]
  have : sqNorm z = sqNorm (z - A *ᵥ u) + sqNorm (A *ᵥ u) := by
    have e2 := sqNorm_add (z - A *ᵥ u) (A *ᵥ u)
    rw [sub_add_cancel, e] at e2
    linarith
  linarith [sqNorm_nonneg (z - A *ᵥ u)]

/-- **C39** (minimum norm).  If the call returned a solution of `A'y = c` it is the minimum-norm
one; and it did return a solution as soon as the sketch has full column rank and the residual
`A M M'(c - A'y)` that LSQR drives to zero, with `M M' = ((SA)'(SA))^{-1}`, is zero. -/
theorem C39_spu1_min_norm (la : LinAlg) (gen : SkOpGen G) (sf : ℝ) (A : Matrix (Fin m) (Fin n) ℝ)
    (c : Fin n → ℝ) (hc : c ≠ 0) (tol : ℝ) (L : ℤ) (logging : Bool) (clock : LogTimes) (w w' : World G)
    (out : SPUOut m) (h : spu1Call la gen sf A c tol L logging clock w = .ok (out, w')) :
    (Aᵀ *ᵥ out.y = c → IsMinNormSol A c out.y) ∧
    ∃ (d : ℕ) (S : Matrix (Fin d) (Fin m) ℝ) (w₁ : World G),
      (dimChecks sf m n : Py G ℕ) w = .ok (d, w₁) ∧ gen d m w₁ = .ok (S, w') ∧
      (FullColRank (S * A) →
        A *ᵥ (((S * A)ᵀ * (S * A))⁻¹ *ᵥ (c - Aᵀ *ᵥ out.y)) = 0 → IsMinNormSol A c out.y) := by
  have hy := C39_spu1_range la gen sf A c hc tol L logging clock w w' out h
  refine ⟨minNorm_of_range hy, ?_⟩
  obtain ⟨d, S, w₁, o, res, -, -, hdc, hg, -⟩ := spu1_ok h
  refine ⟨d, S, w₁, hdc, hg, fun hf h0 => minNorm_of_range hy ?_⟩
  have h1 : (S * A) *ᵥ (((S * A)ᵀ * (S * A))⁻¹ *ᵥ (c - Aᵀ *ᵥ out.y)) = 0 := by
    rw [← mulVec_mulVec, h0, mulVec_zero]
  have h2 := fullColRank_iff_inj.1 hf _ h1
  have hdet : IsUnit ((S * A)ᵀ * (S * A)).det :=
    (Matrix.isUnit_iff_isUnit_det _).1 ((gram_posDef_iff _).2 hf).isUnit
  have h3 := congrArg (((S * A)ᵀ * (S * A)) *ᵥ ·) h2
  simp only [mulVec_mulVec _ _ ((S * A)ᵀ * (S * A))⁻¹, mul_nonsing_inv _ hdet, one_mulVec,
    mulVec_zero] at h3
  exact (sub_eq_zero.1 h3).symm

/-- **C39** (`c = 0`; the claim is false).  Whatever the sketch, a call with `c = 0` that gets past
the dimension checks and the sketch raises `TypeError` instead of returning `y = 0`. -/
theorem C39_spu1_zero (la : LinAlg) (gen : SkOpGen G) (sf : ℝ) (A : Matrix (Fin m) (Fin n) ℝ)
    (hn : n ≠ 0) (tol : ℝ) (L : ℤ) (logging : Bool) (clock : LogTimes) (w w₁ w' : World G)
    (S : Matrix (Fin d) (Fin m) ℝ)
    (h1 : (dimChecks sf m n : Py G ℕ) w = .ok (d, w₁)) (h2 : gen d m w₁ = .ok (S, w')) :
    spu1Call la gen sf A 0 tol L logging clock w = .error .type := by
  obtain ⟨-, -, hd, -⟩ := dimChecks_ok h1
  obtain ⟨o, ho⟩ := (C26_empty la (S * A)).2 (by omega) hn
  rw [spu1_eq la A 0 tol L logging clock h1 h2]
  unfold spuPost
  rw [ho]
  simp only [bind, Except.bind]
  rw [(C34_pcss2_rejects A (some 0) 0 tol L (.gen o.r o.M) none).2.2.2 rfl rfl]

/-- **C39**: hence no successful call ever has `c = 0` (for `n > 0`). -/
theorem C39_spu1_nonzero (la : LinAlg) (gen : SkOpGen G) (sf : ℝ) (A : Matrix (Fin m) (Fin n) ℝ)
    (hn : n ≠ 0) (c : Fin n → ℝ) (tol : ℝ) (L : ℤ) (logging : Bool) (clock : LogTimes) (w w' : World G)
    (out : SPUOut m) (h : spu1Call la gen sf A c tol L logging clock w = .ok (out, w')) : c ≠ 0 := by
  rintro rfl
  obtain ⟨d, S, w₁, o, res, -, -, h1, h2, -⟩ := spu1_ok h
  rw [C39_spu1_zero la gen sf A hn tol L logging clock w w₁ w' S h1 h2] at h
  cases h

theorem aLift_gram_zero (B : Matrix (Fin d) (Fin n) ℝ) :
    (aLift B (Real.sqrt 0))ᵀ * aLift B (Real.sqrt 0) = Bᵀ * B := by
  rw [aLift_gram_sqrt B le_rfl, zero_smul, add_zero]

/-- the call of `SPU1` that draws the sketch `S` -/
theorem spu1_exact_drawn (la : LinAlg) {gen : SkOpGen G} {sf : ℝ}
    (A : Matrix (Fin m) (Fin n) ℝ) {c : Fin n → ℝ} (hc : c ≠ 0) {L : ℤ} (hL : (n : ℤ) ≤ L)
    (logging : Bool) (clock : LogTimes) {w w₁ w' : World G} (hn : 0 < n) {S : Matrix (Fin d) (Fin m) ℝ}
    (h1 : (dimChecks sf m n : Py G ℕ) w = .ok (d, w₁)) (h2 : gen d m w₁ = .ok (S, w'))
    {ε : ℝ} (hε : 0 ≤ ε) (hε1 : ε < 1) (hSe : Embeds S A ε) (hSw : WellCond (S * A))
    (hcond : n * Real.sqrt ((1 + ε) / (1 - ε)) < 10 ^ 8 - eps) :
    ∃ out, spu1Call la gen sf A c 0 L logging clock w = .ok (out, w') ∧ IsMinNormSol A c out.y := by
  obtain ⟨-, -, hd, -⟩ := dimChecks_ok h1
  obtain ⟨o, ho⟩ := (C26_empty la (S * A)).2 (by omega) (by omega)
  obtain ⟨g1, g2, -, -, -, -, g3⟩ := C26_svd_right_precond la _ o ho
  have hr := WellCond.no_truncation la hSw ho
  obtain ⟨e1, e2⟩ := g3 hr
  have horth : (aLift (S * A) (Real.sqrt 0) * o.M)ᵀ * (aLift (S * A) (Real.sqrt 0) * o.M) = 1 := by
    have : (aLift (S * A) (Real.sqrt 0) * o.M)ᵀ * (aLift (S * A) (Real.sqrt 0) * o.M) =
        o.Mᵀ * ((aLift (S * A) (Real.sqrt 0))ᵀ * aLift (S * A) (Real.sqrt 0)) * o.M := by
      rw [transpose_mul]; simp only [Matrix.mul_assoc]
    rw [this, aLift_gram_zero]
    have g2' : o.Uᵀ * o.U = 1 := g2
    rw [← g1, transpose_mul] at g2'
    rw [← g2']; simp only [Matrix.mul_assoc]
  have htop : colSpace (Precond.gen o.r o.M).mat = ⊤ := by
    refine eq_top_iff.2 fun v _ => mem_colSpace.2 ⟨o.Mᵀ *ᵥ (((S * A)ᵀ * (S * A)) *ᵥ v), ?_⟩
    show o.M *ᵥ _ = v
    rw [mulVec_mulVec, mulVec_mulVec, e1, one_mulVec]
  obtain ⟨q1, -, -⟩ := precond_bounds le_rfl hε hε1 hSe horth
  have p1 : 0 < Real.sqrt (1 + ε) := Real.sqrt_pos.2 (by linarith)
  have hinj : ∀ x, A *ᵥ x = 0 → x = 0 := by
    intro x hx
    refine fullColRank_iff_inj.1 (WellCond.fullColRank hSw) x ?_
    rw [← mulVec_mulVec, hx, mulVec_zero]
  have hsol : ∃ y, Aᵀ *ᵥ y = c := by
    have hf : FullColRank A := fullColRank_iff_inj.2 hinj
    have hdet : IsUnit (Aᵀ * A).det :=
      (Matrix.isUnit_iff_isUnit_det _).1 ((gram_posDef_iff _).2 hf).isUnit
    exact ⟨A *ᵥ ((Aᵀ * A)⁻¹ *ᵥ c), by
      rw [mulVec_mulVec, mulVec_mulVec, mul_nonsing_inv _ hdet, one_mulVec]⟩
  obtain ⟨res, r1, -, r3⟩ := C34_pcss2_under_exact A .none c 0 le_rfl L (.gen o.r o.M) trivial htop
    none (Or.inl rfl) hc (by
      have := (aLift A (Real.sqrt 0) * (Precond.gen o.r o.M).mat).rank_le_width
      have : (Precond.gen o.r o.M).dim = o.r := rfl
      omega) (1 / Real.sqrt (1 + ε)) (by positivity) (fun z hz => low_transpose (by positivity) q1 hz)
    (precond_cond le_rfl hε hε1 hSe horth (by
      show (o.r : ℝ) * _ < _
      rw [hr]; exact hcond))
  have hlog : ∃ lg, finishLog logging clock res.errs (norm2 (A *ᵥ (o.M *ᵥ (o.Mᵀ *ᵥ c)))) = .ok lg := by
    cases logging with
    | false => exact ⟨_, rfl⟩
    | true =>
      rcases C34_pcss2_under_log A .none c 0 le_rfl 0 L (.gen o.r o.M) trivial none (Or.inl rfl) hc res r1
        with ⟨-, -, l3⟩ | ⟨l, l1, -⟩
      · exfalso
        apply hc
        have l4 : (aLift A (Real.sqrt 0))ᵀ *ᵥ (aLift A (Real.sqrt 0) *ᵥ (o.M *ᵥ (o.Mᵀ *ᵥ c))) = 0 := by
          have : aLift A (Real.sqrt 0) *ᵥ (o.M *ᵥ (o.Mᵀ *ᵥ c)) = 0 := l3
          rw [this, mulVec_zero]
        rw [mulVec_mulVec, aLift_gram_zero] at l4
        have l5 : sqNorm (A *ᵥ (o.M *ᵥ (o.Mᵀ *ᵥ c))) = 0 := by
          rw [sqNorm_eq_dot, dot_mulVec, mulVec_mulVec, l4, zero_dotProduct]
        have l6 := hinj _ (sqNorm_eq_zero.1 l5)
        have l7 := congrArg (((S * A)ᵀ * (S * A)) *ᵥ ·) l6
        simp only [mulVec_zero] at l7
        rw [mulVec_mulVec, mulVec_mulVec] at l7
        rwa [Matrix.mul_assoc _ o.M, e2, one_mulVec] at l7
      · rw [l1]; exact ⟨_, rfl⟩
  obtain ⟨lg, hlg⟩ := hlog
  refine ⟨⟨res.y, lg⟩, ?_, r3 rfl hsol⟩
  rw [spu1_eq la A c 0 L logging clock h1 h2]
  unfold spuPost
  rw [ho]
  simp only [bind, Except.bind, r1, hlg, pure, Except.pure]

/-- **C39** (end to end).  If the sketch drawn (that is, any the generator returns in the state of the call) embeds the range of `A` up to
`1 ± ε` with `n √((1+ε)/(1-ε)) < 10^8 - eps` and the sketched matrix has numerically full column
rank, then `SPU1` called with `c ≠ 0`, `tol = 0` and `iter_lim ≥ n`, with or without logging, returns
the minimum-norm solution of `A'y = c`. -/
theorem C39_spu1_exact (la : LinAlg) (gen : SkOpGen G) (sf : ℝ)
    (A : Matrix (Fin m) (Fin n) ℝ) (c : Fin n → ℝ) (hc : c ≠ 0) (L : ℤ) (hL : (n : ℤ) ≤ L)
    (logging : Bool) (clock : LogTimes) (w : World G)
    (hmn : n ≤ m) (hsf : (n : ℤ) ≤ pyInt (sf * n))
    (hgen : ∀ d w, n ≤ d → d ≤ m → ∃ S w', gen d m w = .ok (S, w'))
    (ε : ℝ) (hε : 0 ≤ ε) (hε1 : ε < 1)
    (hS : ∀ d : ℕ, (d : ℤ) = min (pyInt (sf * n)) m → ∀ v S w', v.rng = w.rng → gen d m v = .ok (S, w') →
      Embeds S A ε ∧ WellCond (S * A))
    (hcond : n * Real.sqrt ((1 + ε) / (1 - ε)) < 10 ^ 8 - eps) :
    ∃ out w', spu1Call la gen sf A c 0 L logging clock w = .ok (out, w') ∧ IsMinNormSol A c out.y := by
  have hn : n ≠ 0 := by
    rintro rfl
    exact hc (Subsingleton.elim _ _)
  obtain ⟨d, h1, hd, hdm, hdim0⟩ := (C35_dim_checks (G := G) sf m n w).2 hmn hsf
  obtain ⟨S, w', h2⟩ := hgen d
    { w with warns := w.warns + if (m : ℤ) < pyInt (sf * n) then 1 else 0 } hd hdm
  obtain ⟨hSe, hSw⟩ := hS _ hdim0 _ _ _ (by rfl) h2
  obtain ⟨out, g1, g2⟩ := spu1_exact_drawn la A hc hL logging clock (by omega) h1 h2 hε hε1 hSe hSw hcond
  exact ⟨out, w', g1, g2⟩

/-- The hypotheses of `C39_spu1_exact` are met: the minimum-norm `y` with `y₁ + y₂ + y₃ = 6`. -/
example : ∃ out w', spu1Call LinAlg.ref (idGen (G := ℕ)) 3
      (!![1; 1; 1] : Matrix (Fin 3) (Fin 1) ℝ) ![6] 0 1 true ⟨0, 0, 0, 0, 0⟩ ⟨0, 0, []⟩ =
        .ok (out, w') ∧ out.y = ![2, 2, 2] := by
  have hw : WellCond (!![1; 1; 1] : Matrix (Fin 3) (Fin 1) ℝ) := by
    have e : ∀ x : Fin 1 → ℝ, norm2 ((!![1; 1; 1] : Matrix (Fin 3) (Fin 1) ℝ) *ᵥ x) =
        Real.sqrt 3 * norm2 x := by
      intro x
      unfold norm2
      rw [← Real.sqrt_mul (by norm_num)]
      congr 1
      simp [sqNorm, Fin.sum_univ_three, mulVec, dotProduct]
      ring
    refine ⟨Real.sqrt 3, Real.sqrt 3, fun x => (e x).ge, fun x => (e x).le, Real.sqrt_nonneg _, ?_⟩
    have h3 : (0 : ℝ) < Real.sqrt 3 := Real.sqrt_pos.2 (by norm_num)
    have : eps < 1 := by unfold eps; norm_num
    push_cast
    nlinarith
  obtain ⟨out, w', h1, h2, h3⟩ := C39_spu1_exact LinAlg.ref (idGen (G := ℕ)) 3
    (!![1; 1; 1] : Matrix (Fin 3) (Fin 1) ℝ) ![6] (fun h => by simpa using congrFun h 0) 1 le_rfl true
    ⟨0, 0, 0, 0, 0⟩ ⟨0, 0, []⟩ (by norm_num) (by rw [demo31_pyInt]; norm_num)
    (fun d w _ _ => ⟨_, _, rfl⟩) 0 le_rfl (by norm_num) (by
      intro d hd v S w' _ h
      rw [demo31_pyInt] at hd
      have : d = 3 := by norm_num at hd; omega
      subst this
      rw [idGen_ok] at h
      cases h
      refine ⟨fun z => ?_, ?_⟩
      · simp
      · rw [Matrix.one_mul]; exact hw) (by
      have : eps ≤ 1 := by unfold eps; norm_num
      norm_num; linarith)
  refine ⟨out, w', h1, ?_⟩
  have h4 := C39_spu1_range _ _ _ _ _ (fun h => by simpa using congrFun h 0) _ _ _ _ _ _ _ h1
  obtain ⟨u, hu⟩ := mem_colSpace.1 h4
  rw [← hu] at h2 ⊢
  have h5 := congrFun h2 0
  simp [mulVec, dotProduct, Fin.sum_univ_three] at h5
  funext i
  fin_cases i <;> simp [mulVec, dotProduct] <;> linarith

end Parla.Props
