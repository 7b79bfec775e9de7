import Verif.Proof.SPO

/-! # Properties C37, C38 and C43: `SPO`

`spoCall la gen sf mode A b δ tol L logging clock w` is a call of an `SPO` object with sketching
operator generator `gen`, sampling factor `sf` and the given `mode`.  In the statements `S` is the
sketching operator the call drew and `(SA)'(SA) + δ I` the sketched normal matrix. -/

namespace Parla.Props

open Matrix Parla Spec

variable {G : Type} {m n d : ℕ}

theorem spoPost_ok {la : LinAlg} {mode : SPOMode} {S : Matrix (Fin d) (Fin m) ℝ}
    {A : Matrix (Fin m) (Fin n) ℝ} {b : Fin m → ℝ} {δ tol : ℝ} {L : ℤ} {logging : Bool} {clock : LogTimes}
    {out : SPOOut n} (hδ : 0 ≤ δ) (hd : n ≤ d)
    (h : spoPost la mode S A b δ tol L logging clock = .ok out) :
    ∃ f res, spoFactor la mode S A b δ = .ok f ∧
      pcss2 A (.vec b) none δ tol L f.P (spoStart A b δ f) = .ok res ∧ out.x = res.x ∧
      (logging = false → out.log = none) ∧
      (logging = true → ∃ l lg, res.errs = .arr l ∧
        wrapUp clock (.arr l) (norm2 (f.P.matᵀ *ᵥ (Aᵀ *ᵥ b))) = .ok lg ∧ out.log = some lg) := by
  unfold spoPost at h
  cases hf : spoFactor la mode S A b δ with
  | error e => rw [hf] at h; cases h
  | ok f =>
    obtain ⟨hg, -⟩ := spoFactor_ok la hδ hd hf
    rw [hf] at h
    simp only [bind, Except.bind] at h
    cases hr : pcss2 A (.vec b) none δ tol L f.P (spoStart A b δ f) with
    | error e => rw [hr] at h; cases h
    | ok res =>
      rw [hr] at h
      simp only [precAdj_eq hg.ok, pure, Except.pure] at h
      refine ⟨f, res, rfl, hr, ?_⟩
      cases logging with
      | false =>
        cases h
        exact ⟨rfl, fun _ => rfl, (nomatch ·)⟩
      | true =>
        simp only [if_true, finishLog] at h
        cases he : res.errs with
        | scalar e =>
          rw [he] at h
          cases h
        | arr l =>
          rw [he] at h
          cases h
          exact ⟨rfl, (nomatch ·), fun _ => ⟨l, _, rfl, rfl, rfl⟩⟩

/-- what `SPO` returns, given the factorisation and the result of the iterative solver -/
theorem spoPost_eq {la : LinAlg} {mode : SPOMode} {S : Matrix (Fin d) (Fin m) ℝ}
    {A : Matrix (Fin m) (Fin n) ℝ} {b : Fin m → ℝ} {δ tol : ℝ} {L : ℤ} (clock : LogTimes)
    (hδ : 0 ≤ δ) (hd : n ≤ d) {f res} (hf : spoFactor la mode S A b δ = .ok f)
    (hr : pcss2 A (.vec b) none δ tol L f.P (spoStart A b δ f) = .ok res) :
    spoPost la mode S A b δ tol L false clock = .ok ⟨res.x, none⟩ ∧
    (∀ l, res.errs = .arr l → ∃ lg, spoPost la mode S A b δ tol L true clock = .ok ⟨res.x, some lg⟩) ∧
    (∀ e, res.errs = .scalar e → spoPost la mode S A b δ tol L true clock = .error .value) := by
  obtain ⟨hg, -⟩ := spoFactor_ok la hδ hd hf
  unfold spoPost
  simp only [hf, bind, Except.bind, hr, precAdj_eq hg.ok, pure, Except.pure, if_true, finishLog]
  refine ⟨rfl, fun l hl => ?_, fun e he => ?_⟩
  · rw [hl]; exact ⟨_, rfl⟩
  · rw [he]; rfl

/-- opening a successful call of `SPO` -/
theorem spoCall_ok {la : LinAlg} {gen : SkOpGen G} {sf : ℝ} {mode : SPOMode}
    {A : Matrix (Fin m) (Fin n) ℝ} {b : Fin m → ℝ} {δ tol : ℝ} {L : ℤ} {logging : Bool} {clock : LogTimes}
    {w w' : World G} {out : SPOOut n}
    (h : spoCall la gen sf mode A b δ tol L logging clock w = .ok (out, w')) :
    ∃ (d : ℕ) (S : Matrix (Fin d) (Fin m) ℝ) (w₁ : World G), n ≤ d ∧ d ≤ m ∧
      (dimChecks sf m n : Py G ℕ) w = .ok (d, w₁) ∧ gen d m w₁ = .ok (S, w') ∧
      spoPost la mode S A b δ tol L logging clock = .ok out := by
  unfold spoCall at h
  rw [Py.bind_ok_iff] at h
  obtain ⟨d, w₁, h1, h⟩ := h
  rw [Py.bind_ok_iff] at h
  obtain ⟨S, w₂, h2, h⟩ := h
  rw [Py.lift_ok_iff] at h
  obtain ⟨h, rfl⟩ := h
  obtain ⟨-, -, h3, h4, -⟩ := dimChecks_ok h1
  exact ⟨d, S, w₁, h3, h4, h1, h2, h⟩

/-- the call with another iteration limit, mode or logging flag, drawing the same sketch -/
theorem spoCall_eq {la : LinAlg} {gen : SkOpGen G} {sf : ℝ} (mode : SPOMode)
    (A : Matrix (Fin m) (Fin n) ℝ) (b : Fin m → ℝ) (δ tol : ℝ) (L : ℤ) (logging : Bool) (clock : LogTimes)
    {w w₁ w' : World G} {S : Matrix (Fin d) (Fin m) ℝ}
    (h1 : (dimChecks sf m n : Py G ℕ) w = .ok (d, w₁)) (h2 : gen d m w₁ = .ok (S, w')) :
    spoCall la gen sf mode A b δ tol L logging clock w =
      match spoPost la mode S A b δ tol L logging clock with
      | .ok out => .ok (out, w')
      | .error e => .error e := by
  unfold spoCall
  rw [Py.bind_eq_of_ok h1, Py.bind_eq_of_ok h2]
  generalize spoPost la mode S A b δ tol L logging clock = e
  cases e <;> rfl

/-! ## C37 -/

/-- **C37** (preconditioners).  For a sketch `S` with at least `n` rows: if the lifted sketch has
full column rank, the QR and Cholesky modes succeed, and if it has numerically full column rank so
does the SVD mode; the preconditioner `M` then satisfies `M M' = ((SA)'(SA) + δ I)^{-1}`, and the
sketch-and-solve start `x_ske` is the minimiser of `‖S(Ax - b)‖² + δ‖x‖²`. -/
theorem C37_spo_preconditioner (la : LinAlg) (mode : SPOMode) (S : Matrix (Fin d) (Fin m) ℝ)
    (A : Matrix (Fin m) (Fin n) ℝ) (b : Fin m → ℝ) (δ : ℝ) (hδ : 0 ≤ δ) (hd : n ≤ d)
    (hm : mode = .svd ∧ n ≠ 0 ∧ WellCond (aLift (S * A) (Real.sqrt δ)) ∨
      (mode = .qr ∨ mode = .chol) ∧ FullColRank (aLift (S * A) (Real.sqrt δ))) :
    ∃ f, spoFactor la mode S A b δ = .ok f ∧ f.P.dim = n ∧
      f.P.mat * f.P.matᵀ * ((S * A)ᵀ * (S * A) + δ • 1) = 1 ∧
      ((S * A)ᵀ * (S * A) + δ • 1) *ᵥ f.x = (S * A)ᵀ *ᵥ (S *ᵥ b) ∧
      IsRidgeMin (S * A) (S *ᵥ b) δ f.x ∧ f.x = f.P.mat *ᵥ f.z := by
  obtain ⟨f, hf⟩ := spoFactor_total la (mode := mode) S A b hδ hd
    (by rcases hm with ⟨h1, h2, -⟩ | h
        · exact Or.inl ⟨h1, h2⟩
        · exact Or.inr h)
  obtain ⟨hg, hdim⟩ := spoFactor_ok la hδ hd hf
  have hdim' := hdim (by
    rcases hm with ⟨-, -, h⟩ | ⟨h | h, -⟩
    · exact Or.inr (Or.inr h)
    · exact Or.inl h
    · exact Or.inr (Or.inl h))
  obtain ⟨e1, e2⟩ := sandwich_inv hdim' (lift_gram_sandwich (S * A) hδ hg.orth)
  have e3 : ((S * A)ᵀ * (S * A) + δ • 1) *ᵥ f.x = (S * A)ᵀ *ᵥ (S *ᵥ b) := by
    rw [hg.x, hg.z, mulVec_mulVec, mulVec_mulVec, Matrix.mul_assoc, e2, one_mulVec]
  refine ⟨f, hf, hdim', e1, e3, ridge_of_normal hδ ?_, hg.x⟩
  rw [mulVec_sub, ← e3, add_mulVec, smul_mulVec, one_mulVec, mulVec_mulVec]
  abel

/-- **C37** (singular sketches): if the lifted sketch is column rank deficient, the QR and Cholesky
modes raise `LinAlgError`. -/
theorem C37_spo_singular (la : LinAlg) (mode : SPOMode) (S : Matrix (Fin d) (Fin m) ℝ)
    (A : Matrix (Fin m) (Fin n) ℝ) (b : Fin m → ℝ) (δ tol : ℝ) (L : ℤ) (logging : Bool) (clock : LogTimes)
    (hδ : 0 ≤ δ) (hd : n ≤ d) (hm : mode = .qr ∨ mode = .chol)
    (hs : ¬ FullColRank (aLift (S * A) (Real.sqrt δ))) :
    spoPost la mode S A b δ tol L logging clock = .error .linAlg := by
  have : spoFactor la mode S A b δ = .error .linAlg := by
    rcases hm with rfl | rfl
    · exact (spoQR_spec la S A b hδ hd).2 hs
    · exact (spoChol_spec la S A b hδ).2 hs
  unfold spoPost
  rw [this]; rfl

/-- **C37** (unknown mode): it raises `ValueError`, after the sketch was drawn. -/
theorem C37_spo_unknown_mode (la : LinAlg) (gen : SkOpGen G) (sf : ℝ) (A : Matrix (Fin m) (Fin n) ℝ)
    (b : Fin m → ℝ) (δ tol : ℝ) (L : ℤ) (logging : Bool) (clock : LogTimes) (w w₁ w' : World G)
    (S : Matrix (Fin d) (Fin m) ℝ) (h1 : (dimChecks sf m n : Py G ℕ) w = .ok (d, w₁))
    (h2 : gen d m w₁ = .ok (S, w')) :
    spoCall la gen sf .other A b δ tol L logging clock w = .error .value := by
  rw [spoCall_eq .other A b δ tol L logging clock h1 h2]; rfl

/-- **C37** (never worse than zero).  Whatever the mode, the sketch, `tol` and `iter_lim`, the
objective at the returned `x` is at most `‖b‖²`. -/
theorem C37_spo_never_worse (la : LinAlg) (gen : SkOpGen G) (sf : ℝ) (mode : SPOMode)
    (A : Matrix (Fin m) (Fin n) ℝ) (b : Fin m → ℝ) (δ tol : ℝ) (hδ : 0 ≤ δ) (L : ℤ) (logging : Bool)
    (clock : LogTimes) (w w' : World G) (out : SPOOut n)
    (h : spoCall la gen sf mode A b δ tol L logging clock w = .ok (out, w')) :
    ∃ x, out.x = some x ∧ sqNorm (A *ᵥ x - b) + δ * sqNorm x ≤ sqNorm b := by
  obtain ⟨d, S, w₁, hd, -, -, -, h⟩ := spoCall_ok h
  obtain ⟨f, res, hf, hr, hx, -⟩ := spoPost_ok hδ hd h
  obtain ⟨hg, -⟩ := spoFactor_ok la hδ hd hf
  obtain ⟨x, h1, -⟩ := C34_pcss2_over A b none δ hδ tol L f.P hg.ok _ rfl res hr
  refine ⟨x, hx.trans h1, ?_⟩
  exact (C34_pcss2_never_worse A b none δ hδ tol L f.P hg.ok _ rfl res hr x h1).trans
    (spoStart_obj hδ hg)

/-- **C37** (monotone): more iterations never make the result worse.  If a run made `i` iterations,
its result is at least as good as that of a run limited to `j ≤ i`; in particular it is at least as
good as the start. -/
theorem C37_spo_vs_start (la : LinAlg) (gen : SkOpGen G) (sf : ℝ) (mode : SPOMode)
    (A : Matrix (Fin m) (Fin n) ℝ) (b : Fin m → ℝ) (δ tol : ℝ) (hδ : 0 ≤ δ) (L : ℤ) (logging : Bool)
    (clock : LogTimes) (w w' : World G) (out : SPOOut n)
    (h : spoCall la gen sf mode A b δ tol L logging clock w = .ok (out, w')) :
    ∃ x x0 out0, out.x = some x ∧
      spoCall la gen sf mode A b δ tol 0 false clock w = .ok (out0, w') ∧ out0.x = some x0 ∧
      sqNorm (A *ᵥ x - b) + δ * sqNorm x ≤ sqNorm (A *ᵥ x0 - b) + δ * sqNorm x0 := by
  obtain ⟨d, S, w₁, hd, -, h1, h2, h⟩ := spoCall_ok h
  obtain ⟨f, res, hf, hr, hx, -⟩ := spoPost_ok hδ hd h
  obtain ⟨hg, -⟩ := spoFactor_ok la hδ hd hf
  obtain ⟨x, g1, -⟩ := C34_pcss2_over A b none δ hδ tol L f.P hg.ok _ rfl res hr
  obtain ⟨o, ho, ho', -⟩ := C30_lsqr_start (aLift A (Real.sqrt δ) * f.P.mat) (catv b 0) 0
    ⟨tol, tol, 10 ^ 8⟩ (spoStart A b δ f)
  have h0 := pcss2_over_eq A b none hδ tol 0 hg.ok (spoStart A b δ f) trivial
  rw [ho] at h0
  refine ⟨x, f.P.mat *ᵥ o.x, ⟨some (f.P.mat *ᵥ o.x), none⟩, hx.trans g1, ?_, rfl, ?_⟩
  · rw [spoCall_eq mode A b δ tol 0 false clock h1 h2, (spoPost_eq clock hδ hd hf h0).1]
  · rw [ho']
    exact C34_pcss2_never_worse A b none δ hδ tol L f.P hg.ok _ rfl res hr x g1

/-- **C37** (the modes agree; choice of the start).  With `iter_lim = 0` every mode returns the same
point: the unique solution `x_ske` of `((SA)'(SA) + δ I) x = (SA)'Sb` if its objective is below `‖b‖²`,
and `0` otherwise.  (In the SVD mode for sketches of numerically full rank.) -/
theorem C37_spo_start (la : LinAlg) (gen : SkOpGen G) (sf : ℝ) (mode : SPOMode)
    (A : Matrix (Fin m) (Fin n) ℝ) (b : Fin m → ℝ) (δ tol : ℝ) (hδ : 0 ≤ δ) (clock : LogTimes)
    (w w' : World G) (out : SPOOut n)
    (h : spoCall la gen sf mode A b δ tol 0 false clock w = .ok (out, w')) :
    ∃ (d : ℕ) (S : Matrix (Fin d) (Fin m) ℝ) (w₁ : World G),
      (dimChecks sf m n : Py G ℕ) w = .ok (d, w₁) ∧ gen d m w₁ = .ok (S, w') ∧
      ((mode = .svd → WellCond (aLift (S * A) (Real.sqrt δ))) →
        FullColRank (aLift (S * A) (Real.sqrt δ)) ∧
        ∀ xs, ((S * A)ᵀ * (S * A) + δ • 1) *ᵥ xs = (S * A)ᵀ *ᵥ (S *ᵥ b) →
          (sqNorm (A *ᵥ xs - b) + δ * sqNorm xs < sqNorm b → out.x = some xs) ∧
          (sqNorm b ≤ sqNorm (A *ᵥ xs - b) + δ * sqNorm xs → out.x = some 0)) := by
  obtain ⟨d, S, w₁, hd, -, h1, h2, h⟩ := spoCall_ok h
  refine ⟨d, S, w₁, h1, h2, fun hw => ?_⟩
  obtain ⟨f, res, hf, hr, hx, -⟩ := spoPost_ok hδ hd h
  obtain ⟨hg, hdim⟩ := spoFactor_ok la hδ hd hf
  have hdim' : f.P.dim = n := hdim (by
    cases mode with
    | qr => exact Or.inl rfl
    | chol => exact Or.inr (Or.inl rfl)
    | svd => exact Or.inr (Or.inr (hw rfl))
    | other => cases hf)
  obtain ⟨e1, e2⟩ := sandwich_inv hdim' (lift_gram_sandwich (S * A) hδ hg.orth)
  obtain ⟨o, ho, ho', -⟩ := C30_lsqr_start (aLift A (Real.sqrt δ) * f.P.mat) (catv b 0) 0
    ⟨tol, tol, 10 ^ 8⟩ (spoStart A b δ f)
  have h0 := pcss2_over_eq A b none hδ tol 0 hg.ok (spoStart A b δ f) trivial
  rw [ho, hr] at h0
  have hout : out.x = some (f.P.mat *ᵥ (spoStart A b δ f).getD 0) := by
    rw [hx]; cases h0; rw [ho']
  refine ⟨?_, fun xs hxs => ?_⟩
  · rw [← aLift_gram_sqrt _ hδ, ← Matrix.mul_assoc] at e1
    exact fullColRank_of_left_inv e1
  have hxf : xs = f.x := by
    have := congrArg ((f.P.mat * f.P.matᵀ) *ᵥ ·) hxs
    simp only [mulVec_mulVec] at this
    rw [e1, one_mulVec] at this
    rw [this, hg.x, hg.z]
    simp only [mulVec_mulVec, Matrix.mul_assoc]
  rw [hxf]
  refine ⟨fun hlt => ?_, fun hge => ?_⟩
  · rw [hout, spoStart_some hδ (Or.inr hlt) hdim', Option.getD_some, ← hg.x]
  · by_cases hb : b = 0
    · have hfx : f.x = 0 := by
        rw [hg.x, hg.z, hb]; simp only [mulVec_zero]
      rw [hout, spoStart_some hδ (Or.inl ⟨hb, hfx⟩) hdim', Option.getD_some, ← hg.x, hfx]
    · rw [hout, spoStart_none hδ hb hge, Option.getD_none, mulVec_zero]

/-! ## C38 -/

/-- **C38** (the log).  A logged call records, for a matrix `M` with `M'((SA)'(SA) + δ I)M = I`
(square, hence `M M' = ((SA)'(SA) + δ I)^{-1}`, in the QR and Cholesky modes and for numerically full
rank), `‖M'A'b‖` followed by one entry per iteration: entry `i` is `‖M'(A'(b - A x_i) - δ x_i)‖` where
`x_i` is what the same call returns under `iter_lim = i`.  The returned point itself comes one
iteration after the last logged one. -/
theorem C38_spo_log (la : LinAlg) (gen : SkOpGen G) (sf : ℝ) (mode : SPOMode)
    (A : Matrix (Fin m) (Fin n) ℝ) (b : Fin m → ℝ) (δ tol : ℝ) (hδ : 0 ≤ δ) (L : ℤ)
    (clock : LogTimes) (w w' : World G) (out : SPOOut n)
    (h : spoCall la gen sf mode A b δ tol L true clock w = .ok (out, w')) :
    ∃ (d : ℕ) (S : Matrix (Fin d) (Fin m) ℝ) (w₁ : World G) (k : ℕ) (M : Matrix (Fin n) (Fin k) ℝ)
      (l : List ℝ) (lg : SPLog),
      (dimChecks sf m n : Py G ℕ) w = .ok (d, w₁) ∧ gen d m w₁ = .ok (S, w') ∧
      Mᵀ * ((S * A)ᵀ * (S * A) + δ • 1) * M = 1 ∧
      (mode = .qr ∨ mode = .chol ∨ WellCond (aLift (S * A) (Real.sqrt δ)) → k = n) ∧
      out.log = some lg ∧ lg.errors = norm2 (Mᵀ *ᵥ (Aᵀ *ᵥ b)) :: l ∧
      lg.times.length = l.length + 1 ∧ (l.length : ℤ) ≤ L ∧
      (∃ o, spoCall la gen sf mode A b δ tol l.length false clock w = .ok (o, w') ∧ o.x = out.x) ∧
      ∀ i (hi : i < l.length), ∃ o x, spoCall la gen sf mode A b δ tol i false clock w = .ok (o, w') ∧
        o.x = some x ∧ l[i] = norm2 (Mᵀ *ᵥ (Aᵀ *ᵥ (b - A *ᵥ x) - δ • x)) ∧ l[i] ≠ 0 := by
  obtain ⟨d, S, w₁, hd, -, h1, h2, h⟩ := spoCall_ok h
  obtain ⟨f, res, hf, hr, hx, -, hlog⟩ := spoPost_ok hδ hd h
  obtain ⟨hg, hdim⟩ := spoFactor_ok la hδ hd hf
  obtain ⟨l, lg, hl, hw, hlg⟩ := hlog rfl
  obtain ⟨lg', e1, e2, e3, -⟩ := C42_wrap_up clock l (norm2 (f.P.matᵀ *ᵥ (Aᵀ *ᵥ b)))
  rw [hw] at e1; cases e1
  obtain ⟨x, g1, -, -, g⟩ := C34_pcss2_over A b none δ hδ tol L f.P hg.ok _ rfl res hr
  rcases g with ⟨g, -⟩ | ⟨l', g2, g3, ⟨oi, g4, g5⟩, g6⟩
  · rw [hl] at g; cases g
  · rw [hl] at g2; cases g2
    refine ⟨d, S, w₁, f.P.dim, f.P.mat, l, lg, h1, h2, lift_gram_sandwich _ hδ hg.orth, hdim, hlg, e2,
      e3, g3, ⟨_, by rw [spoCall_eq mode A b δ tol _ false clock h1 h2,
        (spoPost_eq clock hδ hd hf g4).1], ?_⟩, fun i hi => ?_⟩
    · rw [hx, g1]; exact g5
    · obtain ⟨oi, xi, q1, q2, q3, q4⟩ := g6 i hi
      exact ⟨_, xi, by rw [spoCall_eq mode A b δ tol _ false clock h1 h2,
        (spoPost_eq clock hδ hd hf q1).1], q2, q3, q4⟩

/-- a point whose preconditioned gradient is small is nearly optimal -/
theorem precond_certificate {k : ℕ} {S : Matrix (Fin d) (Fin m) ℝ} {A : Matrix (Fin m) (Fin n) ℝ}
    (b : Fin m → ℝ) {δ ε : ℝ} (hδ : 0 ≤ δ) (hε : 0 ≤ ε) {M : Matrix (Fin n) (Fin k) ℝ}
    (hM : Mᵀ * ((S * A)ᵀ * (S * A) + δ • 1) * M = 1) (hk : k = n)
    (hS : ∀ x, sqNorm (S *ᵥ (A *ᵥ x)) ≤ (1 + ε) * sqNorm (A *ᵥ x)) (x z : Fin n → ℝ) :
    sqNorm (A *ᵥ x - b) + δ * sqNorm x ≤ sqNorm (A *ᵥ z - b) + δ * sqNorm z +
      (1 + ε) * norm2 (Mᵀ *ᵥ (Aᵀ *ᵥ (b - A *ᵥ x) - δ • x)) ^ 2 := by
  obtain ⟨e1, e2⟩ := sandwich_inv hk hM
  set g := Aᵀ *ᵥ (b - A *ᵥ x) - δ • x with hg
  -- the objective as a quadratic in the step
  have hq : sqNorm (A *ᵥ z - b) + δ * sqNorm z = sqNorm (A *ᵥ x - b) + δ * sqNorm x -
      2 * ((z - x) ⬝ᵥ g) + (sqNorm (A *ᵥ (z - x)) + δ * sqNorm (z - x)) := by
    have a1 : A *ᵥ z - b = A *ᵥ (z - x) - (b - A *ᵥ x) := by rw [mulVec_sub]; abel
    have a2 : sqNorm (A *ᵥ x - b) = sqNorm (b - A *ᵥ x) := by rw [← neg_sub, sqNorm_neg]
    have a3 : sqNorm z = sqNorm (z - x) + 2 * ((z - x) ⬝ᵥ x) + sqNorm x := by
      rw [← sqNorm_add, sub_add_cancel]
    have a4 : (A *ᵥ (z - x)) ⬝ᵥ (b - A *ᵥ x) = (z - x) ⬝ᵥ (Aᵀ *ᵥ (b - A *ᵥ x)) := by
      rw [dot_mulVec, transpose_transpose]
    rw [a1, sqNorm_sub, a4, a2, a3, hg, dotProduct_sub, dotProduct_smul, smul_eq_mul]
    ring
  -- the step in preconditioned coordinates
  set u := z - x
  set y := Mᵀ *ᵥ (((S * A)ᵀ * (S * A) + δ • 1) *ᵥ u) with hy
  have hu : u = M *ᵥ y := by
    rw [hy, mulVec_mulVec, mulVec_mulVec, e1, one_mulVec]
  have hyn : sqNorm y = sqNorm (S *ᵥ (A *ᵥ u)) + δ * sqNorm u := by
    have b1 : sqNorm y = y ⬝ᵥ ((Mᵀ * ((S * A)ᵀ * (S * A) + δ • 1) * M) *ᵥ y) := by
      rw [hM, one_mulVec, sqNorm_eq_dot]
    rw [b1, ← mulVec_mulVec, ← hu, ← mulVec_mulVec, dot_mulVec, transpose_transpose, ← hu, add_mulVec,
      smul_mulVec, one_mulVec, dotProduct_add, dotProduct_smul, smul_eq_mul, ← mulVec_mulVec,
      dot_mulVec, transpose_transpose, sqNorm_eq_dot, sqNorm_eq_dot, mulVec_mulVec]
  have hyl : sqNorm y ≤ (1 + ε) * (sqNorm (A *ᵥ u) + δ * sqNorm u) := by
    rw [hyn]
    have := hS u
    have := mul_nonneg hε (mul_nonneg hδ (sqNorm_nonneg u))
    nlinarith
  have hdot : u ⬝ᵥ g = y ⬝ᵥ (Mᵀ *ᵥ g) := by
    rw [dot_mulVec, transpose_transpose, ← hu]
  have hcs := dot_sq_le y (Mᵀ *ᵥ g)
  rw [← hdot] at hcs
  rw [norm2_sq]
  set t := sqNorm (A *ᵥ u) + δ * sqNorm u
  set s := sqNorm (Mᵀ *ᵥ g) with hs
  have ht : 0 ≤ t := add_nonneg (sqNorm_nonneg _) (mul_nonneg hδ (sqNorm_nonneg _))
  have hs0 : 0 ≤ s := sqNorm_nonneg _
  -- `(u·g)² ≤ (1+ε) t s`
  have h1 : (u ⬝ᵥ g) ^ 2 ≤ ((1 + ε) * s) * t := by
    refine hcs.trans ?_
    have := mul_le_mul_of_nonneg_right hyl hs0
    linarith
  have h2 : 2 * (u ⬝ᵥ g) ≤ t + (1 + ε) * s := by
    by_contra hc
    push Not at hc
    have h3 : 0 ≤ t + (1 + ε) * s := add_nonneg ht (mul_nonneg (by linarith) hs0)
    have h4 : (t + (1 + ε) * s) ^ 2 < (2 * (u ⬝ᵥ g)) ^ 2 := by
      exact pow_lt_pow_left₀ hc h3 (by norm_num)
    nlinarith [sq_nonneg (t - (1 + ε) * s)]
  linarith

/-- **C38** (solution and certificate).  There is an `M` with `M'((SA)'(SA) + δ I)M = I` (the matrix in
whose terms errors are logged) such that, if `M` is square, a returned `x` with zero preconditioned
residual `M'(A'(b - Ax) - δx)` is the exact minimiser; and if moreover `S` does not stretch the range
of `A` by more than `1 + ε`, the objective at `x` exceeds the minimum by at most
`(1 + ε) ‖M'(A'(b - Ax) - δx)‖²`. -/
theorem C38_spo_solves (la : LinAlg) (gen : SkOpGen G) (sf : ℝ) (mode : SPOMode)
    (A : Matrix (Fin m) (Fin n) ℝ) (b : Fin m → ℝ) (δ tol : ℝ) (hδ : 0 ≤ δ) (L : ℤ) (logging : Bool)
    (clock : LogTimes) (w w' : World G) (out : SPOOut n)
    (h : spoCall la gen sf mode A b δ tol L logging clock w = .ok (out, w')) :
    ∃ (d : ℕ) (S : Matrix (Fin d) (Fin m) ℝ) (w₁ : World G) (k : ℕ) (M : Matrix (Fin n) (Fin k) ℝ)
      (x : Fin n → ℝ),
      (dimChecks sf m n : Py G ℕ) w = .ok (d, w₁) ∧ gen d m w₁ = .ok (S, w') ∧ out.x = some x ∧
      Mᵀ * ((S * A)ᵀ * (S * A) + δ • 1) * M = 1 ∧
      (mode = .qr ∨ mode = .chol ∨ WellCond (aLift (S * A) (Real.sqrt δ)) → k = n) ∧
      (∀ lg, out.log = some lg → lg.errors.head? = some (norm2 (Mᵀ *ᵥ (Aᵀ *ᵥ b)))) ∧
      (k = n → Mᵀ *ᵥ (Aᵀ *ᵥ (b - A *ᵥ x) - δ • x) = 0 → IsRidgeMin A b δ x) ∧
      (k = n → ∀ ε, 0 ≤ ε → Embeds S A ε → ∀ z,
        sqNorm (A *ᵥ x - b) + δ * sqNorm x ≤ sqNorm (A *ᵥ z - b) + δ * sqNorm z +
          (1 + ε) * norm2 (Mᵀ *ᵥ (Aᵀ *ᵥ (b - A *ᵥ x) - δ • x)) ^ 2) := by
  obtain ⟨d, S, w₁, hd, -, h1, h2, h⟩ := spoCall_ok h
  obtain ⟨f, res, hf, hr, hx, hl0, hl1⟩ := spoPost_ok hδ hd h
  obtain ⟨hg, hdim⟩ := spoFactor_ok la hδ hd hf
  obtain ⟨x, g1, -⟩ := C34_pcss2_over A b none δ hδ tol L f.P hg.ok _ rfl res hr
  have hM := lift_gram_sandwich (S * A) hδ hg.orth
  refine ⟨d, S, w₁, f.P.dim, f.P.mat, x, h1, h2, hx.trans g1, hM, hdim, ?_, ?_, ?_⟩
  · intro lg hlg
    cases logging with
    | false => rw [hl0 rfl] at hlg; cases hlg
    | true =>
      obtain ⟨l, lg', -, hw, hlg'⟩ := hl1 rfl
      rw [hlg] at hlg'; cases hlg'
      cases hw
      rfl
  · intro hk h0
    obtain ⟨-, e2⟩ := sandwich_inv hk hM
    refine ridge_of_normal hδ ?_
    have := congrArg (((S * A)ᵀ * (S * A) + δ • 1) *ᵥ ·) (congrArg (f.P.mat *ᵥ ·) h0)
    simpa only [mulVec_mulVec, ← Matrix.mul_assoc, e2, one_mulVec, mulVec_zero,
      Matrix.mul_assoc] using this
  · intro hk ε hε hS z
    exact precond_certificate b hδ hε hM hk (fun x => (hS x).2) x z

end Parla.Props
