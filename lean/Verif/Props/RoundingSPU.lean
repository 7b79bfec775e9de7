import Verif.Props.RoundingLS

/-! # C82: `SPU1` with rounding errors in the sketching and factorisation stages -/

namespace Parla.Props

open Matrix Parla Spec Parla.Proof

variable {G : Type} {m n d : ℕ}

theorem spuFl_open {fl : FlLS} {gen : SkOpGen G} {sf : ℝ} {A : Matrix (Fin m) (Fin n) ℝ} {c : Fin n → ℝ}
    {tol : ℝ} {L : ℤ} {logging : Bool} {clock : LogTimes} {w w' : World G} {out : SPUOut m}
    (h : spu1CallFl fl gen sf A c tol L logging clock w = .ok (out, w')) :
    ∃ (d : ℕ) (S : Matrix (Fin d) (Fin m) ℝ) (w₁ : World G) (o : PrecOut d n) (res : SaddleOut m n),
      n ≤ d ∧ d ≤ m ∧ (dimChecks sf m n : Py G ℕ) w = .ok (d, w₁) ∧ gen d m w₁ = .ok (S, w') ∧
      svdRightPrecondFl fl (fl.mul S A) = .ok o ∧
      pcss2 A .none (some c) 0 tol L (.gen o.r o.M) none = .ok res ∧ out.y = res.y ∧
      finishLog logging clock res.errs (norm2 (A *ᵥ (o.M *ᵥ (o.Mᵀ *ᵥ c)))) = .ok out.log := by
  unfold spu1CallFl at h
  rw [Py.bind_ok_iff] at h
  obtain ⟨d, w₁, h1, h⟩ := h
  rw [Py.bind_ok_iff] at h
  obtain ⟨S, w₂, h2, h⟩ := h
  rw [Py.lift_ok_iff] at h
  obtain ⟨h, rfl⟩ := h
  obtain ⟨-, -, h3, h4, -⟩ := dimChecks_ok h1
  unfold spuPostFl at h
  cases ho : svdRightPrecondFl fl (fl.mul S A) with
  | error e => rw [ho] at h; cases h
  | ok o =>
    rw [ho] at h
    simp only [bind, Except.bind] at h
    cases hr : pcss2 A .none (some c) 0 tol L (.gen o.r o.M) none with
    | error e => rw [hr] at h; cases h
    | ok res =>
      rw [hr] at h
      simp only at h
      cases hl : finishLog logging clock res.errs (norm2 (A *ᵥ (o.M *ᵥ (o.Mᵀ *ᵥ c)))) with
      | error e => rw [hl] at h; cases h
      | ok lg =>
        rw [hl] at h
        cases h
        exact ⟨d, S, w₁, o, res, h3, h4, h1, h2, ho, hr, rfl, hl⟩

theorem lift_zero_eq (S : Matrix (Fin d) (Fin m) ℝ) (A : Matrix (Fin m) (Fin n) ℝ) (v : Fin n → ℝ) :
    norm2 (aLift (S * A) (√0) *ᵥ v) = norm2 ((S * A) *ᵥ v) := by
  unfold norm2; rw [sqNorm_aLift, Real.sqrt_zero]; ring_nf

/-- the iterative stage of `SPU1` -/
theorem spu_rate {A : Matrix (Fin m) (Fin n) ℝ} {c : Fin n → ℝ} (hc : c ≠ 0) {tol : ℝ} {L : ℤ} {r : ℕ} {M : Matrix (Fin n) (Fin r) ℝ}
    {res : SaddleOut m n} (hr : pcss2 A .none (some c) 0 tol L (.gen r M) none = .ok res) {ε : ℝ} (hε : 0 ≤ ε) (hε1 : ε < 1)
    (hiso : NearIso (aLift A (√0) * M) ε) (hdim : r = n) {ys : Fin m → ℝ} (hys : IsMinNormSol A c ys)
    {clock : LogTimes} {a : ℝ} {lg : SPLog} (hlog : finishLog true clock res.errs a = .ok (some lg)) {k : ℕ}
    (hk : lg.errors.length = k + 1) :
    sqNorm (res.y - ys) ≤ (2 * ε ^ k) ^ 2 * ((1 + ε) / (1 - ε)) * sqNorm ys := by
  have p1 : (0 : ℝ) < 1 + ε := by linarith
  have p2 : (0 : ℝ) < 1 - ε := by linarith
  have htopM : colSpace M = ⊤ := colSpace_cast hdim fun z hz => hiso.inj z hz
  have hf : FullColRank A := by
    refine fullColRank_iff_inj.2 fun x hx => ?_
    obtain ⟨z, hz⟩ := mem_colSpace.1 (htopM ▸ Submodule.mem_top : x ∈ colSpace M)
    have h1 := (hiso z).2
    rw [← mulVec_mulVec, hz, sqNorm_aLift, Real.sqrt_zero, hx, sqNorm_zero'] at h1
    have : z = 0 := sqNorm_eq_zero.1 (le_antisymm (by linarith) (sqNorm_nonneg z))
    rw [← hz, this, mulVec_zero]
  obtain ⟨u, hu⟩ := mem_colSpace.1 (minNorm_range hf hys)
  have q1 : ∀ z, 1 / √(1 + ε) * norm2 z ≤ norm2 ((aLift A (√0) * M) *ᵥ z) := fun z => by
    rw [div_mul_eq_mul_div, one_mul, div_le_iff₀ (Real.sqrt_pos.2 p1), mul_comm]
    exact hiso.low hε z
  have q2 : ∀ z, norm2 ((aLift A (√0) * M) *ᵥ z) ≤ 1 / √(1 - ε) * norm2 z := fun z => by
    rw [div_mul_eq_mul_div, one_mul, le_div_iff₀ (Real.sqrt_pos.2 p2)]
    unfold norm2
    rw [← Real.sqrt_mul (sqNorm_nonneg _)]
    exact Real.sqrt_le_sqrt (by linarith [(hiso z).1])
  obtain ⟨F, hF⟩ : ∃ F, F = aLift A (Real.sqrt 0) * M := ⟨_, rfl⟩
  rw [← hF] at q1 q2
  -- the target, lifted
  obtain ⟨ws, hws⟩ : ∃ ws, ws = aLift A (Real.sqrt 0) *ᵥ u := ⟨_, rfl⟩
  have htop : topv ws = ys := by rw [hws, aLift_mulVec, topv_catv, hu]
  have hwn : sqNorm ws = sqNorm ys := by
    rw [hws, sqNorm_aLift, Real.sqrt_zero, hu]; ring
  have hwsF : ws ∈ colSpace F := by
    obtain ⟨z, hz⟩ := mem_colSpace.1 (htopM ▸ Submodule.mem_top : u ∈ colSpace M)
    exact mem_colSpace.2 ⟨z, by rw [hF, hws, ← mulVec_mulVec, hz]⟩
  have hsol : Mᵀ *ᵥ c = Fᵀ *ᵥ ws := by
    have e : √(0 : ℝ) • padv n (botv ws) = 0 := by
      rw [show √(0 : ℝ) • padv n (botv ws) = (0 : ℝ) • padv n (botv ws) from
        congrArg (· • padv n (botv ws)) Real.sqrt_zero, zero_smul]
    rw [hF, mul_T_mulVec, aLift_T_mulVec, htop, hys.1, e, add_zero]
  -- LSQR
  have hq := pcss2_under_eq A .none c le_rfl tol L (P := .gen r M) trivial none trivial hc
  rw [hr] at hq
  cases hl' : lsqr (LinOp.ofMat (aLift A (Real.sqrt 0) * (Precond.gen r M).mat)ᵀ)
      ((Precond.gen r M).matᵀ *ᵥ c) 0 ⟨tol, tol, 10 ^ 8⟩ (some L) none with
  | error e => rw [hl'] at hq; cases hq
  | ok q =>
    rw [hl'] at hq
    simp only [Except.ok.injEq] at hq
    have hl : lsqr (LinOp.ofMat Fᵀ) (Mᵀ *ᵥ c) 0 ⟨tol, tol, 10 ^ 8⟩ (some L) none = .ok q := by
      rw [hF]; exact hl'
    have hyq : res.y = topv q.x := by rw [hq]
    have herr : res.errs = q.arnorms := by rw [hq]
    -- the number of iterations
    have hki : q.itn = k := by
      rw [herr] at hlog
      rcases C30_lsqr_arnorms _ _ _ _ _ _ hl with ⟨-, -, a2, -⟩ | ⟨-, l', a2, a3, -⟩
      · rw [a2] at hlog; cases hlog
      · rw [a2] at hlog
        obtain ⟨lg', b1, b2, -⟩ := C42_wrap_up clock l' a
        unfold finishLog at hlog
        rw [if_pos rfl, b1] at hlog
        have b3 := Except.ok.inj hlog
        obtain rfl := Option.some.inj b3
        rw [b2, List.length_cons, a3] at hk
        omega
    have lo_sq : ∀ z ∈ colSpace F, 1 / (1 + ε) * sqNorm z ≤ sqNorm (Fᵀ *ᵥ z) := fun z hz => by
      have := low_transpose (one_div_pos.2 (Real.sqrt_pos.2 p1)) q1 hz
      have := pow_le_pow_left₀ (mul_nonneg (by positivity) (norm2_nonneg _)) this 2
      rwa [mul_pow, div_pow, one_pow, Real.sq_sqrt p1.le, norm2_sq, norm2_sq] at this
    have hi_sq : ∀ z, sqNorm (Fᵀ *ᵥ z) ≤ 1 / (1 - ε) * sqNorm z := fun z => by
      have := high_transpose (by positivity) q2 z
      have := pow_le_pow_left₀ (norm2_nonneg _) this 2
      rwa [mul_pow, div_pow, one_pow, Real.sq_sqrt p2.le, norm2_sq, norm2_sq] at this
    have hrate := C67_lsqr_rate Fᵀ (Mᵀ *ᵥ c) _ _ none q hl ws
      (fun z => by rw [← hsol, sub_self, sqNorm_zero']; exact sqNorm_nonneg _)
      (1 / (1 + ε)) (1 / (1 - ε)) (one_div_pos.2 p1) (one_div_le_one_div_of_le p2 (by linarith))
      (fun z hz => ⟨lo_sq z (by rwa [transpose_transpose] at hz), hi_sq z⟩)
    rw [hsol, sub_self, sqNorm_zero', sub_zero, sub_zero, Option.getD_none, mulVec_zero, sub_zero, hki,
      ← mulVec_sub] at hrate
    obtain ⟨v, hv⟩ := C33_lsqr_row_space _ _ _ _ _ _ _ hl
    rw [Option.getD_none, zero_add, transpose_transpose] at hv
    have hmem : ws - q.x ∈ colSpace F := Submodule.sub_mem _ hwsF (mem_colSpace.2 ⟨v, hv.symm⟩)
    have hlow := lo_sq _ hmem
    obtain ⟨r0, r1⟩ := rho_le hε hε1
    have hρ : (2 * ((√(1 / (1 - ε)) - √(1 / (1 + ε))) / (√(1 / (1 - ε)) + √(1 / (1 + ε)))) ^ k) ^ 2 ≤
        (2 * ε ^ k) ^ 2 :=
      pow_le_pow_left₀ (by positivity)
        (mul_le_mul_of_nonneg_left (pow_le_pow_left₀ r0 r1 k) zero_le_two) 2
    have hd : sqNorm (ws - q.x) ≤ (2 * ε ^ k) ^ 2 * ((1 + ε) / (1 - ε)) * sqNorm ys := by
      have c1 : 1 / (1 + ε) * sqNorm (ws - q.x) ≤ (2 * ε ^ k) ^ 2 * (1 / (1 - ε) * sqNorm ys) := by
        refine hlow.trans (hrate.trans ?_)
        rw [← hwn]
        exact mul_le_mul hρ (hi_sq ws) (sqNorm_nonneg _) (sq_nonneg _)
      rw [div_mul_eq_mul_div, one_mul, div_le_iff₀ p1] at c1
      refine c1.trans_eq ?_
      field_simp
    have hproj : sqNorm (res.y - ys) ≤ sqNorm (ws - q.x) := by
      have : res.y - ys = topv (q.x - ws) := by rw [hyq, ← htop]; rfl
      rw [this, ← sqNorm_neg (ws - q.x), neg_sub]
      have e := sqNorm_catv (topv (q.x - ws)) (botv (q.x - ws))
      rw [catv_top_bot] at e
      linarith [sqNorm_nonneg (botv (q.x - ws))]
    exact hproj.trans hd

/-- **C82** (`SPU1`).  Let the operations of the sketching and factorisation stages be accurate to `ε`, let `lo > 0` be a lower bound
of the singular values of `A`, and let the sketch drawn embed the range of `A` up to `1 ± η` with a loss of at most `θ` (of order
`ε √n κ` for the condition number `κ = ‖S‖‖A‖/(√(1-η) lo)`), `η' = η + θ + ηθ < 1`.  Then a logging call of `SPU1` whose log shows
`k` iterations returns a `y` with `‖y - y*‖² ≤ (2 η'^k)² (1+η')/(1-η') ‖y*‖²`, where `y*` is the exact minimum-norm solution of
`A'y = c`. -/
theorem C82_spu1 (fl : FlLS) (N : ℕ) (ε : ℝ) (hε : 0 ≤ ε) (hfl : fl.Accurate N ε) (gen : SkOpGen G) (sf : ℝ)
    (A : Matrix (Fin m) (Fin n) ℝ) (c : Fin n → ℝ) (hc : c ≠ 0) (tol : ℝ) (L : ℤ) (clock : LogTimes) (w w' : World G)
    (out : SPUOut m) (h : spu1CallFl fl gen sf A c tol L true clock w = .ok (out, w')) (hn : 0 < n) (hN : m ≤ N)
    (η : ℝ) (hη : 0 ≤ η) (hη1 : η < 1) (lo : ℝ) (hlo0 : 0 < lo) (hlo : ∀ v, lo ^ 2 * sqNorm v ≤ sqNorm (A *ᵥ v)) (θ : ℝ)
    (hS : ∀ d w₁ S, (dimChecks sf m n : Py G ℕ) w = .ok (d, w₁) → gen d m w₁ = .ok (S, w') →
      Embeds S A η ∧ setupLoss .svd ε (fro S * fro A) (√(1 - η) * lo) n ≤ θ ∧
        16 * n * eps * (fro S * fro A) ≤ √(1 - η) * lo)
    (η' : ℝ) (hη' : η' = η + θ + η * θ) (hη'1 : η' < 1)
    (lg : SPLog) (hlg : out.log = some lg) (k : ℕ) (hk : lg.errors.length = k + 1)
    (ys : Fin m → ℝ) (hys : IsMinNormSol A c ys) :
    sqNorm (out.y - ys) ≤ (2 * η' ^ k) ^ 2 * ((1 + η') / (1 - η')) * sqNorm ys := by
  obtain ⟨d, S, w₁, o, res, hd, hdm, h1, h2, ho, hr, hy, hlog⟩ := spuFl_open h
  obtain ⟨hSe, hSl, hcut⟩ := hS d w₁ S h1 h2
  have hμ : 0 < √(1 - η) * lo := mul_pos (Real.sqrt_pos.2 (by linarith)) hlo0
  have hγ0 : 0 ≤ fro S * fro A := mul_nonneg (fro_nonneg _) (fro_nonneg _)
  have hθ0 : 0 ≤ θ := (setupLoss_nonneg .svd hε hγ0 hμ.le n).trans hSl
  have hθ1 : θ < 1 := by have := mul_nonneg hη hθ0; linarith
  have hlow : ∀ v, √(1 - η) * lo * norm2 v ≤ norm2 ((S * A) *ᵥ v) := fun v => by
    rw [← lift_zero_eq]
    exact lift_low le_rfl hη hη1 hSe (fun v => by rw [zero_mul, add_zero]; exact hlo v) v
  obtain ⟨o', g1, g2, g3⟩ := svdPrecFl_spec hfl hε hn hd (by omega) hμ hlow (fro_mul_le S A)
    (by have := hfl.alg.mul S A (by omega) (by omega) (by omega); rwa [mul_assoc] at this)
    (hSl.trans_lt hθ1) hcut
  rw [ho] at g1; cases g1
  have hconds : Conds (aLift (S * A) (√0)) o.M θ := fun z => by
    have := conds_mono g3 hSl z
    have e : sqNorm (aLift (S * A) (√0) *ᵥ (o.M *ᵥ z)) = sqNorm ((S * A) *ᵥ (o.M *ᵥ z)) := by
      rw [sqNorm_aLift, Real.sqrt_zero]; ring
    rwa [e]
  have hiso := conds_iso le_rfl hη hη1 hθ0 hθ1 hSe hconds
  rw [← hη'] at hiso
  have hη'0 : 0 ≤ η' := by rw [hη']; have := mul_nonneg hη hθ0; linarith
  rw [hlg] at hlog
  rw [hy]
  exact spu_rate hc hr hη'0 hη'1 hiso g2 hys hlog hk

end Parla.Props
