import Verif.Proof.RoundingIter
import Verif.Model.RoundingLS

/-! # C82: the least squares drivers with rounding errors in the sketching and factorisation stages -/

namespace Parla.Props

open Matrix Parla Spec Parla.Proof

variable {G : Type} {m n d : ℕ}

/-- **C82** (exact arithmetic).  With exact operations the drivers are those of C36–C38 and C67. -/
theorem C82_exact (la : LinAlg) (gen : SkOpGen G) (sf : ℝ) (mode : SPOMode) (A : Matrix (Fin m) (Fin n) ℝ) (b : Fin m → ℝ)
    (c : Fin n → ℝ) (δ tol : ℝ) (t : Tol) (L : ℤ) (logging : Bool) (clock : LogTimes) :
    sso1CallFl (exactLS la) gen sf A b δ t L = sso1Call la gen sf A b δ t L ∧
    spoCallFl (exactLS la) gen sf mode A b δ tol L logging clock = spoCall la gen sf mode A b δ tol L logging clock ∧
    spu1CallFl (exactLS la) gen sf A c tol L logging clock = spu1Call la gen sf A c tol L logging clock :=
  ⟨rfl, by cases mode <;> rfl, rfl⟩

/-! ## Sketch and solve -/

theorem sso1Fl_eq (fl : FlLS) (gen : SkOpGen G) (sf : ℝ) (A : Matrix (Fin m) (Fin n) ℝ) (b : Fin m → ℝ) (δ : ℝ) (tol : Tol) (L : ℤ)
    (w : World G) :
    sso1CallFl fl gen sf A b δ tol L w =
      (do
        let d ← dimChecks sf m n
        let S ← gen d m
        pure (fl.lstsqv (liftFl fl (fl.mul S A) δ) (catv (fl.mulv S b) 0)) : Py G (Fin n → ℝ))
      { w with warns := w.warns + sso1Warns tol L } := by
  unfold sso1CallFl sso1Warns
  by_cases h1 : tol.isNaN <;> by_cases h2 : L > 1
  · simp only [h1, h2, not_true, if_true, if_false, Py.pure_bind', zero_add]
    rw [Py.bind_eq_of_ok (Py.warn_apply w)]
  · simp only [h1, h2, not_true, if_true, if_false, Py.pure_bind', zero_add, add_zero]
  · simp only [h1, h2, not_false_iff, if_true, if_false]
    rw [Py.bind_eq_of_ok (Py.warn_apply w), Py.bind_eq_of_ok (Py.warn_apply _)]
  · simp only [h1, h2, not_false_iff, if_true, if_false, Py.pure_bind', add_zero]
    rw [Py.bind_eq_of_ok (Py.warn_apply w)]

theorem sso1Fl_open {fl : FlLS} {gen : SkOpGen G} {sf : ℝ} {A : Matrix (Fin m) (Fin n) ℝ} {b : Fin m → ℝ} {δ : ℝ} {tol : Tol} {L : ℤ}
    {w w' : World G} {x : Fin n → ℝ} (h : sso1CallFl fl gen sf A b δ tol L w = .ok (x, w')) :
    ∃ (d : ℕ) (S : Matrix (Fin d) (Fin m) ℝ) (w₁ : World G), n ≤ d ∧ d ≤ m ∧ (d : ℤ) = min (pyInt (sf * n)) m ∧ w₁.rng = w.rng ∧
      gen d m w₁ = .ok (S, w') ∧ x = fl.lstsqv (liftFl fl (fl.mul S A) δ) (catv (fl.mulv S b) 0) := by
  rw [sso1Fl_eq, Py.bind_ok_iff] at h
  obtain ⟨d, w3, h1, h⟩ := h
  rw [Py.bind_ok_iff] at h
  obtain ⟨S, w4, h2, h⟩ := h
  cases h
  obtain ⟨-, -, h3, h4, h5, rfl⟩ := dimChecks_ok h1
  refine ⟨d, S, _, h3, h4, h5, ?_, h2, rfl⟩
  rfl

theorem lift_resid (S : Matrix (Fin d) (Fin m) ℝ) (A : Matrix (Fin m) (Fin n) ℝ) (b : Fin m → ℝ) {δ : ℝ} (hδ : 0 ≤ δ) (x : Fin n → ℝ) :
    norm2 (aLift (S * A) (√δ) *ᵥ x - catv (S *ᵥ b) 0) = √(sqNorm (S *ᵥ (A *ᵥ x - b)) + δ * sqNorm x) := by
  rw [norm2_sub_symm]
  unfold norm2
  rw [lift_obj (S * A) (S *ᵥ b) hδ, ← mulVec_mulVec, mulVec_sub]

theorem norm2_catv_zero {k : ℕ} (v : Fin m → ℝ) : norm2 (catv v (0 : Fin k → ℝ)) = norm2 v := by
  unfold norm2; rw [sqNorm_catv, sqNorm_zero', add_zero]

theorem catv_zero_sub {k : ℕ} (u v : Fin m → ℝ) : catv u (0 : Fin k → ℝ) - catv v 0 = catv (u - v) 0 := by
  rw [catv_sub, sub_zero]

/-- **C82** (`SSO1`).  With operations accurate to `ε ≤ 1` and a sketch `S` that distorts the squared residuals `‖Az - b‖²` by at most
`1 ± η`, the result `x` satisfies for every `z`, with `f(x) = ‖Ax - b‖² + δ‖x‖²` and `γ = ‖S‖‖A‖ + √δ √n`,

`√(1-η) √f(x) ≤ √(1+η) √f(z) + 3ε (γ (‖x‖ + ‖z‖) + 2 ‖S‖ ‖b‖)`,

and if `μ‖v‖` is at most `√(‖SAv‖² + δ‖v‖²)` for every `v`, then `(μ - 3εγ) ‖x‖ ≤ (1 + 3ε) ‖S‖ ‖b‖`. -/
theorem C82_sso1 (fl : FlLS) (N : ℕ) (ε : ℝ) (hε : 0 ≤ ε) (hε1 : ε ≤ 1) (hfl : fl.Accurate N ε) (gen : SkOpGen G) (sf : ℝ)
    (A : Matrix (Fin m) (Fin n) ℝ) (b : Fin m → ℝ) (δ : ℝ) (hδ : 0 ≤ δ) (tol : Tol) (L : ℤ) (w w' : World G) (x : Fin n → ℝ)
    (h : sso1CallFl fl gen sf A b δ tol L w = .ok (x, w')) (hN : m + n ≤ N) (η : ℝ) (hη : 0 ≤ η) (hη1 : η < 1)
    (hS : ∀ d : ℕ, (d : ℤ) = min (pyInt (sf * n)) m → ∀ v S w', v.rng = w.rng → gen d m v = .ok (S, w') → ∀ z,
      (1 - η) * sqNorm (A *ᵥ z - b) ≤ sqNorm (S *ᵥ (A *ᵥ z - b)) ∧
      sqNorm (S *ᵥ (A *ᵥ z - b)) ≤ (1 + η) * sqNorm (A *ᵥ z - b))
    (f : (Fin n → ℝ) → ℝ) (hf : f = fun x => sqNorm (A *ᵥ x - b) + δ * sqNorm x) :
    ∃ (d : ℕ) (S : Matrix (Fin d) (Fin m) ℝ) (v : World G), (d : ℤ) = min (pyInt (sf * n)) m ∧ v.rng = w.rng ∧
      gen d m v = .ok (S, w') ∧
      (∀ z, √(1 - η) * √(f x) ≤ √(1 + η) * √(f z) +
        3 * ε * (sketchSize S A δ * (norm2 x + norm2 z) + 2 * (fro S * norm2 b))) ∧
      ∀ μ, (∀ v, μ * norm2 v ≤ √(sqNorm (S *ᵥ (A *ᵥ v)) + δ * sqNorm v)) →
        (μ - 3 * ε * sketchSize S A δ) * norm2 x ≤ (1 + 3 * ε) * (fro S * norm2 b) := by
  obtain ⟨d, S, v, hnd, hdm, hd, hv, hg, hx⟩ := sso1Fl_open h
  have hemb := hS d hd v S w' hv hg
  refine ⟨d, S, v, hd, hv, hg, ?_⟩
  obtain ⟨γ, hγ⟩ : ∃ γ, γ = sketchSize S A δ := ⟨_, rfl⟩
  obtain ⟨T, hT⟩ : ∃ T, T = aLift (S * A) (√δ) := ⟨_, rfl⟩
  obtain ⟨β, hβ⟩ : ∃ β, β = catv (S *ᵥ b) (0 : Fin (liftRows n (√δ)) → ℝ) := ⟨_, rfl⟩
  obtain ⟨That, hThat⟩ : ∃ That, That = liftFl fl (fl.mul S A) δ := ⟨_, rfl⟩
  obtain ⟨βhat, hβhat⟩ : ∃ βhat, βhat = catv (fl.mulv S b) (0 : Fin (liftRows n (√δ)) → ℝ) := ⟨_, rfl⟩
  have hrows : liftRows n (√δ) ≤ n := by unfold liftRows; split_ifs <;> omega
  obtain ⟨E, e, hE, he, hmin⟩ := hfl.lstsqv That βhat (by omega) (by omega)
  have hfT := fro_lift_le S A δ
  have hclose := lift_close hfl S A hδ (by omega) (by omega) (by omega)
  rw [← hThat, ← hβhat] at hx
  rw [← hT, ← hγ] at hfT
  rw [← hThat, ← hT, ← hγ] at hclose
  rw [← hx] at hmin
  have hK : fro (That + E - T) ≤ 3 * ε * γ := near_of_close hε hε1 hfT hclose (by rwa [add_sub_cancel_left])
  -- the right hand side
  obtain ⟨B, hB⟩ : ∃ B, B = fro S * norm2 b := ⟨_, rfl⟩
  have hSb : norm2 (S *ᵥ b) ≤ B := by rw [hB]; exact norm2_mulVec_fro S b
  have hB0 : 0 ≤ B := (norm2_nonneg _).trans hSb
  have hb1 : norm2 (fl.mulv S b - S *ᵥ b) ≤ ε * B := by
    have := hfl.mulv S b (by omega) (by omega)
    rwa [mul_assoc, ← hB] at this
  have hb2 : norm2 (βhat - β) ≤ ε * B := by
    rw [hβhat, hβ, catv_zero_sub, norm2_catv_zero]; exact hb1
  have hb3 : norm2 βhat ≤ 2 * B := by
    rw [hβhat, norm2_catv_zero]
    have := norm2_le_add (fl.mulv S b) (S *ᵥ b)
    have := mul_le_mul_of_nonneg_right hε1 hB0
    linarith
  have hb4 : norm2 (βhat + e - β) ≤ 3 * ε * B := by
    have e1 : βhat + e - β = (βhat - β) + e := by abel
    rw [e1]
    have := norm2_add_le' (βhat - β) e
    have := mul_le_mul_of_nonneg_left hb3 hε
    linarith
  -- the residuals
  have hres : ∀ z, norm2 (((That + E) *ᵥ z - (βhat + e)) - (T *ᵥ z - β)) ≤ 3 * ε * γ * norm2 z + 3 * ε * B := fun z => by
    have e1 : ((That + E) *ᵥ z - (βhat + e)) - (T *ᵥ z - β) = (That + E - T) *ᵥ z - (βhat + e - β) := by
      rw [sub_mulVec]; abel
    rw [e1]
    refine (norm2_sub_le _ _).trans (add_le_add ?_ hb4)
    exact (norm2_mulVec_fro _ _).trans (mul_le_mul_of_nonneg_right hK (norm2_nonneg _))
  rw [← hγ, ← hB]
  constructor
  · intro z
    have h1 := (norm2_abs_le (hres x)).2
    have h2 := (norm2_abs_le (hres z)).1
    have h3 := hmin z
    have h4 : norm2 (T *ᵥ x - β) ≤ norm2 (T *ᵥ z - β) + 3 * ε * (γ * (norm2 x + norm2 z) + 2 * B) := by linarith
    rw [hT, hβ, lift_resid S A b hδ, lift_resid S A b hδ] at h4
    have h5 : √(1 - η) * √(f x) ≤ √(sqNorm (S *ᵥ (A *ᵥ x - b)) + δ * sqNorm x) := by
      rw [← Real.sqrt_mul (by linarith), hf]
      refine Real.sqrt_le_sqrt ?_
      have := (hemb x).1
      have := mul_nonneg hη (mul_nonneg hδ (sqNorm_nonneg x))
      change (1 - η) * (sqNorm (A *ᵥ x - b) + δ * sqNorm x) ≤ _
      linarith
    have h6 : √(sqNorm (S *ᵥ (A *ᵥ z - b)) + δ * sqNorm z) ≤ √(1 + η) * √(f z) := by
      rw [← Real.sqrt_mul (by linarith), hf]
      refine Real.sqrt_le_sqrt ?_
      have := (hemb z).2
      have := mul_nonneg hη (mul_nonneg hδ (sqNorm_nonneg z))
      change _ ≤ (1 + η) * (sqNorm (A *ᵥ z - b) + δ * sqNorm z)
      linarith
    linarith
  · intro μ hμ
    have hTx : μ * norm2 x ≤ norm2 (T *ᵥ x) := by
      refine (hμ x).trans_eq ?_
      have := lift_resid S A 0 hδ x
      have z0 : catv (0 : Fin d → ℝ) (0 : Fin (liftRows n (√δ)) → ℝ) = 0 := by
        have := sqNorm_catv (0 : Fin d → ℝ) (0 : Fin (liftRows n (√δ)) → ℝ)
        rw [sqNorm_zero', sqNorm_zero', add_zero] at this
        exact sqNorm_eq_zero.1 this
      rw [mulVec_zero, z0, sub_zero, sub_zero, ← hT] at this
      exact this.symm
    have hKx : norm2 (T *ᵥ x) ≤ norm2 ((That + E) *ᵥ x) + 3 * ε * γ * norm2 x := by
      refine (norm2_abs_le (u := (That + E) *ᵥ x) ?_).2
      rw [← sub_mulVec]
      exact (norm2_mulVec_fro _ _).trans (mul_le_mul_of_nonneg_right hK (norm2_nonneg _))
    have hproj : norm2 ((That + E) *ᵥ x) ≤ norm2 (βhat + e) := by
      have hr : IsRidgeMin (That + E) (βhat + e) 0 x := fun z => by
        have := norm2_le_norm2.1 (hmin z)
        linarith
      have h1 := normal_of_ridge LinAlg.ref le_rfl hr
      rw [zero_smul, sub_zero] at h1
      have h2 : ((That + E) *ᵥ x) ⬝ᵥ (βhat + e - (That + E) *ᵥ x) = 0 := by
        rw [dotProduct_comm, dot_mulVec, dotProduct_comm] 
        rw [h1, dotProduct_zero]
      have h3 : sqNorm (βhat + e) = sqNorm (βhat + e - (That + E) *ᵥ x) + sqNorm ((That + E) *ᵥ x) := by
        have := sqNorm_add (βhat + e - (That + E) *ᵥ x) ((That + E) *ᵥ x)
        rw [sub_add_cancel, dotProduct_comm, h2] at this
        linarith
      exact norm2_le_norm2.2 (by linarith [sqNorm_nonneg (βhat + e - (That + E) *ᵥ x)])
    have hbe : norm2 (βhat + e) ≤ B + 3 * ε * B := by
      have := norm2_le_add (βhat + e) β
      rw [hβ, norm2_catv_zero, ← hβ] at this
      linarith
    linarith

/-! ## Sketch and precondition -/

/-- the smallest singular value survives sketching -/
theorem lift_low {S : Matrix (Fin d) (Fin m) ℝ} {A : Matrix (Fin m) (Fin n) ℝ} {δ η lo : ℝ} (hδ : 0 ≤ δ) (hη : 0 ≤ η) (hη1 : η < 1)
    (hS : Embeds S A η) (hlo : ∀ v, lo ^ 2 * sqNorm v ≤ sqNorm (A *ᵥ v) + δ * sqNorm v) (v : Fin n → ℝ) :
    √(1 - η) * lo * norm2 v ≤ norm2 (aLift (S * A) (√δ) *ᵥ v) := by
  have h1 := (lift_embeds hδ hη hS v).1
  have h2 : sqNorm (aLift A (√δ) *ᵥ v) = sqNorm (A *ᵥ v) + δ * sqNorm v := by rw [sqNorm_aLift, Real.sq_sqrt hδ]
  refine Real.le_sqrt_of_sq_le ?_
  rw [mul_pow, mul_pow, Real.sq_sqrt (by linarith), norm2_sq]
  have := mul_le_mul_of_nonneg_left (hlo v) (by linarith : 0 ≤ 1 - η)
  rw [h2] at h1
  linarith

/-- the factorisation stage in each mode -/
theorem factorFl_ok {fl : FlLS} {N : ℕ} {ε : ℝ} (hfl : fl.Accurate N ε) (hε : 0 ≤ ε) {mode : SPOMode} (hmode : mode ≠ .other)
    (S : Matrix (Fin d) (Fin m) ℝ) (A : Matrix (Fin m) (Fin n) ℝ) (b : Fin m → ℝ) {δ : ℝ} (hδ : 0 ≤ δ) (hn : 0 < n) (hd : n ≤ d)
    (hm : m ≤ N) (hN : d + n ≤ N) {μ : ℝ} (hμ : 0 < μ) (hT : ∀ v, μ * norm2 v ≤ norm2 (aLift (S * A) (√δ) *ᵥ v))
    (hθ : setupLoss mode ε (sketchSize S A δ) μ n < 1) (hcut : mode = .svd → 16 * n * eps * sketchSize S A δ ≤ μ) :
    ∃ f, spoFactorFl fl mode S A b δ = .ok f ∧ FacOk (aLift (S * A) (√δ)) (setupLoss mode ε (sketchSize S A δ) μ n) f := by
  cases mode with
  | qr => exact spoQRFl_spec hfl hε S A b hδ hn hd hm hN hμ hT hθ
  | chol => exact spoCholFl_spec hfl hε S A b hδ hn hm hN hμ hT hθ
  | svd => exact spoSVDFl_spec hfl hε S A b hδ hn hd hm hN hμ hT hθ (hcut rfl)
  | other => exact absurd rfl hmode

theorem setupLoss_nonneg (mode : SPOMode) {ε γ μ : ℝ} (hε : 0 ≤ ε) (hγ : 0 ≤ γ) (hμ : 0 ≤ μ) (n : ℕ) :
    0 ≤ setupLoss mode ε γ μ n := by
  have := div_nonneg hγ hμ
  unfold setupLoss
  cases mode <;> simp only <;> positivity

/-- **C82** (the preconditioners).  With operations accurate to `ε` and a sketch `S` with at least `n` rows whose lifted sketch keeps
`‖v‖` at least `μ‖v‖`, the factorisation stage of `SPO` succeeds in each of the modes `qr`, `chol` and `svd`, provided its loss
`θ = setupLoss mode` is less than one (and in mode `svd` no singular value is near the cutoff), and the preconditioner `M` it hands to the iterative
stage satisfies `(1-θ) ‖T M z‖² ≤ ‖z‖² ≤ (1+θ) ‖T M z‖²` for all `z`, where `‖T v‖² = ‖S A v‖² + δ‖v‖²`: the condition number of
the preconditioned sketch, 1 in exact arithmetic, is at most `√((1+θ)/(1-θ))`. -/
theorem C82_preconditioner (fl : FlLS) (N : ℕ) (ε : ℝ) (hε : 0 ≤ ε) (hfl : fl.Accurate N ε) (mode : SPOMode) (hmode : mode ≠ .other)
    (S : Matrix (Fin d) (Fin m) ℝ) (A : Matrix (Fin m) (Fin n) ℝ) (b : Fin m → ℝ) (δ : ℝ) (hδ : 0 ≤ δ) (hn : 0 < n) (hd : n ≤ d)
    (hm : m ≤ N) (hN : d + n ≤ N) (μ : ℝ) (hμ : 0 < μ)
    (hT : ∀ v, μ ^ 2 * sqNorm v ≤ sqNorm (S *ᵥ (A *ᵥ v)) + δ * sqNorm v)
    (θ : ℝ) (hθ : θ = setupLoss mode ε (sketchSize S A δ) μ n) (hθ1 : θ < 1)
    (hcut : mode = .svd → 16 * n * eps * sketchSize S A δ ≤ μ) :
    ∃ f, spoFactorFl fl mode S A b δ = .ok f ∧ f.P.Ok ∧ f.P.dim = n ∧ f.x = f.P.mat *ᵥ f.z ∧
      ∀ z, (1 - θ) * (sqNorm (S *ᵥ (A *ᵥ (f.P.mat *ᵥ z))) + δ * sqNorm (f.P.mat *ᵥ z)) ≤ sqNorm z ∧
        sqNorm z ≤ (1 + θ) * (sqNorm (S *ᵥ (A *ᵥ (f.P.mat *ᵥ z))) + δ * sqNorm (f.P.mat *ᵥ z)) := by
  have hsq : ∀ v, sqNorm (aLift (S * A) (√δ) *ᵥ v) = sqNorm (S *ᵥ (A *ᵥ v)) + δ * sqNorm v := fun v => by
    rw [sqNorm_aLift, Real.sq_sqrt hδ, ← mulVec_mulVec]
  obtain ⟨f, h1, h2⟩ := factorFl_ok hfl hε hmode S A b hδ hn hd hm hN hμ (fun v => by
    refine Real.le_sqrt_of_sq_le ?_
    rw [mul_pow, norm2_sq, hsq]; exact hT v) (by rw [← hθ]; exact hθ1) hcut
  refine ⟨f, h1, h2.ok, h2.dim, h2.x, fun z => ?_⟩
  have := h2.conds z
  rwa [hsq, ← hθ] at this

theorem spoFl_open {fl : FlLS} {gen : SkOpGen G} {sf : ℝ} {mode : SPOMode} {A : Matrix (Fin m) (Fin n) ℝ} {b : Fin m → ℝ} {δ tol : ℝ}
    {L : ℤ} {logging : Bool} {clock : LogTimes} {w w' : World G} {out : SPOOut n}
    (h : spoCallFl fl gen sf mode A b δ tol L logging clock w = .ok (out, w')) :
    ∃ (d : ℕ) (S : Matrix (Fin d) (Fin m) ℝ) (w₁ : World G) (f : SPOFac n) (res : SaddleOut m n), n ≤ d ∧ d ≤ m ∧
      (dimChecks sf m n : Py G ℕ) w = .ok (d, w₁) ∧ gen d m w₁ = .ok (S, w') ∧ spoFactorFl fl mode S A b δ = .ok f ∧
      pcss2 A (.vec b) none δ tol L f.P (spoStart A b δ f) = .ok res ∧ out.x = res.x := by
  unfold spoCallFl at h
  rw [Py.bind_ok_iff] at h
  obtain ⟨d, w₁, h1, h⟩ := h
  rw [Py.bind_ok_iff] at h
  obtain ⟨S, w₂, h2, h⟩ := h
  rw [Py.lift_ok_iff] at h
  obtain ⟨h, rfl⟩ := h
  obtain ⟨-, -, h3, h4, -⟩ := dimChecks_ok h1
  unfold spoPostFl at h
  cases hf : spoFactorFl fl mode S A b δ with
  | error e => rw [hf] at h; cases h
  | ok f =>
    rw [hf] at h
    simp only [bind, Except.bind] at h
    cases hr : pcss2 A (.vec b) none δ tol L f.P (spoStart A b δ f) with
    | error e => rw [hr] at h; cases h
    | ok res =>
      rw [hr] at h
      simp only [pure, Except.pure] at h
      refine ⟨d, S, w₁, f, res, h3, h4, h1, h2, hf, hr, ?_⟩
      cases logging with
      | false => simp only [Bool.false_eq_true, if_false] at h; cases h; rfl
      | true =>
        simp only [if_true] at h
        split at h
        · cases h
        · split at h
          · cases h
          · cases h; rfl

theorem spoFl_eq {fl : FlLS} {gen : SkOpGen G} {sf : ℝ} {mode : SPOMode} {A : Matrix (Fin m) (Fin n) ℝ} {b : Fin m → ℝ} {δ tol : ℝ}
    {L : ℤ} {clock : LogTimes} {w w₁ w' : World G} {S : Matrix (Fin d) (Fin m) ℝ} {f : SPOFac n} {res : SaddleOut m n}
    (h1 : (dimChecks sf m n : Py G ℕ) w = .ok (d, w₁)) (h2 : gen d m w₁ = .ok (S, w')) (hf : spoFactorFl fl mode S A b δ = .ok f)
    (hr : pcss2 A (.vec b) none δ tol L f.P (spoStart A b δ f) = .ok res) :
    spoCallFl fl gen sf mode A b δ tol L false clock w = .ok (⟨res.x, none⟩, w') := by
  unfold spoCallFl
  rw [Py.bind_eq_of_ok h1, Py.bind_eq_of_ok h2]
  have : spoPostFl fl mode S A b δ tol L false clock = .ok ⟨res.x, none⟩ := by
    unfold spoPostFl
    simp only [hf, bind, Except.bind, hr, pure, Except.pure, Bool.false_eq_true, if_false]
  rw [this]; rfl

/-- the common part of `C82_spo` and `C82_spo_total` -/
theorem spoFl_core {fl : FlLS} {N : ℕ} {ε : ℝ} (hε : 0 ≤ ε) (hfl : fl.Accurate N ε) {mode : SPOMode} (hmode : mode ≠ .other)
    {A : Matrix (Fin m) (Fin n) ℝ} {b : Fin m → ℝ} (hb : b ≠ 0) {δ tol : ℝ} (hδ : 0 ≤ δ) (ht : 0 ≤ tol) (hn : 0 < n) (hN : m + n ≤ N)
    {η : ℝ} (hη : 0 ≤ η) (hη1 : η < 1) {lo : ℝ} (hlo0 : 0 < lo)
    (hlo : ∀ v, lo ^ 2 * sqNorm v ≤ sqNorm (A *ᵥ v) + δ * sqNorm v) {θ : ℝ}
    {S : Matrix (Fin d) (Fin m) ℝ} (hd : n ≤ d) (hdm : d ≤ m) (hSe : Embeds S A η)
    (hSl : setupLoss mode ε (sketchSize S A δ) (√(1 - η) * lo) n ≤ θ)
    (hcut : mode = .svd → 16 * n * eps * sketchSize S A δ ≤ √(1 - η) * lo) {η' : ℝ} (hη' : η' = η + θ + η * θ) (hη'1 : η' < 1)
    (hc : n * √((1 + η') / (1 - η')) < 10 ^ 8 - eps) {xs : Fin n → ℝ} (f : (Fin n → ℝ) → ℝ)
    (hf : f = fun x => sqNorm (A *ᵥ x - b) + δ * sqNorm x) (hxs : ∀ x, f xs ≤ f x) :
    ∃ fc, spoFactorFl fl mode S A b δ = .ok fc ∧ f (fc.P.mat *ᵥ (spoStart A b δ fc).getD 0) ≤ sqNorm b ∧ ∀ L : ℕ,
      ∃ x y errs, pcss2 A (.vec b) none δ tol L fc.P (spoStart A b δ fc) = .ok ⟨some x, y, errs⟩ ∧
      f x ≤ f (fc.P.mat *ᵥ (spoStart A b δ fc).getD 0) ∧ (L = 0 → x = fc.P.mat *ᵥ (spoStart A b δ fc).getD 0) ∧
      (f x - f xs ≤ (2 * η' ^ L) ^ 2 * (f (fc.P.mat *ᵥ (spoStart A b δ fc).getD 0) - f xs) ∨
        f x ≤ (tol * norm2 b * (1 + 2 * √(n * (1 + η') / (1 - η')))) ^ 2 ∨
        f x - f xs ≤ (1 + η') * (tol * (√(n / (1 - η')) * √(f x) + eps)) ^ 2) := by
  have hμ : 0 < √(1 - η) * lo := mul_pos (Real.sqrt_pos.2 (by linarith)) hlo0
  have hθ0 : 0 ≤ θ := (setupLoss_nonneg mode hε (sketchSize_nonneg S A δ) hμ.le n).trans hSl
  have hθ1 : θ < 1 := by have := mul_nonneg hη hθ0; linarith
  obtain ⟨fc, h1, h2⟩ := factorFl_ok hfl hε hmode S A b hδ hn hd (by omega) (by omega) hμ
    (lift_low hδ hη hη1 hSe hlo) (hSl.trans_lt hθ1) hcut
  have hiso := conds_iso hδ hη hη1 hθ0 hθ1 hSe (conds_mono h2.conds hSl)
  rw [← hη'] at hiso
  have hst : f (fc.P.mat *ᵥ (spoStart A b δ fc).getD 0) ≤ sqNorm b := by rw [hf]; exact start_obj hb hδ h2.x
  have hη'0 : 0 ≤ η' := by rw [hη']; have := mul_nonneg hη hθ0; linarith
  refine ⟨fc, h1, hst, fun L => ?_⟩
  obtain ⟨x, y, errs, g1, g2, g3⟩ := pcss2_apriori A hb hδ ht L h2.ok h2.dim hη'0 hη'1 hiso hc (spoStart A b δ fc) f hf hxs hst
  refine ⟨x, y, errs, g1, g2, fun hL => ?_, g3⟩
  obtain ⟨o, ho, ho', -⟩ := C30_lsqr_start (aLift A (Real.sqrt δ) * fc.P.mat) (catv b 0) 0 ⟨tol, tol, 10 ^ 8⟩ (spoStart A b δ fc)
  have h0 := pcss2_over_eq A b none hδ tol 0 h2.ok (spoStart A b δ fc) trivial
  rw [ho] at h0
  subst hL
  rw [show ((0 : ℕ) : ℤ) = 0 from rfl, h0] at g1
  cases g1
  rw [ho']

/-- **C82** (`SPO`).  Let the operations of the sketching and factorisation stages be accurate to `ε`, let `lo > 0` be a lower bound
of the singular values of `A` with `√δ I` below, and let the sketch drawn embed the range of `A` up to `1 ± η` with a loss of at most
`θ` (`setupLoss`: of order `ε κ` in modes `qr` and `svd` and `ε κ²` in mode `chol`, for the condition number
`κ = (‖S‖‖A‖ + √δ√n)/(√(1-η) lo)`), `η' = η + θ + ηθ < 1` and `n √((1+η')/(1-η')) < 10^8 - eps`.
Then a call of `SPO` with `iter_lim = L` and tolerance `tol >= 0` that returns `x` satisfies the bounds of `C67_spo_apriori` with `η'`
in place of `η`: with `f(x) = ‖Ax - b‖² + δ‖x‖²` and the starting point `x0` (the result with `iter_lim = 0`; `f(x0) ≤ ‖b‖²`),
at least one of
* `f(x) - min f ≤ (2 η'^L)² (f(x0) - min f)`;
* `f(x) ≤ (tol ‖b‖ (1 + 2 √(n (1+η')/(1-η'))))²`;
* `f(x) - min f ≤ (1+η') (tol (√(n/(1-η')) √(f(x)) + eps))²`.

In particular with `tol = 0` the first bound holds for every `L`: rounding while sketching and factoring slows `SPO` down, but the
results still converge to the exact minimiser. -/
theorem C82_spo (fl : FlLS) (N : ℕ) (ε : ℝ) (hε : 0 ≤ ε) (hfl : fl.Accurate N ε) (gen : SkOpGen G) (sf : ℝ) (mode : SPOMode)
    (A : Matrix (Fin m) (Fin n) ℝ) (b : Fin m → ℝ) (hb : b ≠ 0) (δ tol : ℝ) (hδ : 0 ≤ δ) (ht : 0 ≤ tol) (L : ℕ)
    (logging : Bool) (clock : LogTimes) (w w' : World G) (out : SPOOut n)
    (h : spoCallFl fl gen sf mode A b δ tol L logging clock w = .ok (out, w')) (hn : 0 < n) (hN : m + n ≤ N)
    (η : ℝ) (hη : 0 ≤ η) (hη1 : η < 1) (lo : ℝ) (hlo0 : 0 < lo)
    (hlo : ∀ v, lo ^ 2 * sqNorm v ≤ sqNorm (A *ᵥ v) + δ * sqNorm v) (θ : ℝ)
    (hS : ∀ d w₁ S, (dimChecks sf m n : Py G ℕ) w = .ok (d, w₁) → gen d m w₁ = .ok (S, w') →
      Embeds S A η ∧ setupLoss mode ε (sketchSize S A δ) (√(1 - η) * lo) n ≤ θ ∧
        (mode = .svd → 16 * n * eps * sketchSize S A δ ≤ √(1 - η) * lo))
    (η' : ℝ) (hη' : η' = η + θ + η * θ) (hη'1 : η' < 1)
    (hc : n * √((1 + η') / (1 - η')) < 10 ^ 8 - eps) (xs : Fin n → ℝ) (hxs : IsRidgeMin A b δ xs)
    (f : (Fin n → ℝ) → ℝ) (hf : f = fun x => sqNorm (A *ᵥ x - b) + δ * sqNorm x) :
    ∃ x out0 x0, out.x = some x ∧ spoCallFl fl gen sf mode A b δ tol 0 false clock w = .ok (out0, w') ∧
      out0.x = some x0 ∧ f x0 ≤ sqNorm b ∧ f x ≤ f x0 ∧
      (f x - f xs ≤ (2 * η' ^ L) ^ 2 * (f x0 - f xs) ∨
        f x ≤ (tol * norm2 b * (1 + 2 * √(n * (1 + η') / (1 - η')))) ^ 2 ∨
        f x - f xs ≤ (1 + η') * (tol * (√(n / (1 - η')) * √(f x) + eps)) ^ 2) ∧
      (tol = 0 → f x - f xs ≤ (2 * η' ^ L) ^ 2 * (f x0 - f xs)) := by
  have hmin : ∀ x, f xs ≤ f x := fun x => by rw [hf]; exact hxs x
  have hf0 : ∀ x, 0 ≤ f x := fun x => by
    rw [hf]; exact add_nonneg (sqNorm_nonneg _) (mul_nonneg hδ (sqNorm_nonneg _))
  obtain ⟨d, S, w₁, fc, res, hd, hdm, h1, h2, hfc, hr, hx⟩ := spoFl_open h
  have hmode : mode ≠ .other := by rintro rfl; cases hfc
  obtain ⟨hSe, hSl, hcut⟩ := hS d w₁ S h1 h2
  obtain ⟨fc', g1, g2, g3⟩ := spoFl_core hε hfl hmode hb hδ ht hn hN hη hη1 hlo0 hlo hd hdm hSe hSl hcut hη' hη'1 hc f hf hmin
  rw [hfc] at g1; cases g1
  obtain ⟨x, y, errs, k1, k2, -, k3⟩ := g3 L
  rw [hr] at k1; cases k1
  obtain ⟨x0, y0, errs0, j1, -, j2, -⟩ := g3 0
  obtain rfl := j2 rfl
  refine ⟨x, _, _, hx, spoFl_eq h1 h2 hfc j1, rfl, g2, k2, k3, fun ht0 => ?_⟩
  have hpos : 0 ≤ (2 * η' ^ L) ^ 2 * (f (fc.P.mat *ᵥ (spoStart A b δ fc).getD 0) - f xs) :=
    mul_nonneg (sq_nonneg _) (sub_nonneg.2 (hmin _))
  rcases k3 with h | h | h
  · exact h
  · rw [ht0] at h
    simp only [zero_mul, ne_eq, OfNat.ofNat_ne_zero, not_false_eq_true, zero_pow] at h
    linarith [hf0 xs]
  · rw [ht0] at h
    simp only [zero_mul, ne_eq, OfNat.ofNat_ne_zero, not_false_eq_true, zero_pow, mul_zero] at h
    linarith

/-- **C82** (`SPO`, totality).  Under the hypotheses of `C82_spo`, a call without logging returns if the sketching operator does. -/
theorem C82_spo_total (fl : FlLS) (N : ℕ) (ε : ℝ) (hε : 0 ≤ ε) (hfl : fl.Accurate N ε) (gen : SkOpGen G) (sf : ℝ) (mode : SPOMode)
    (hmode : mode ≠ .other) (A : Matrix (Fin m) (Fin n) ℝ) (b : Fin m → ℝ) (hb : b ≠ 0) (δ tol : ℝ) (hδ : 0 ≤ δ) (ht : 0 ≤ tol) (L : ℕ)
    (clock : LogTimes) (w : World G) (hn : 0 < n) (hN : m + n ≤ N)
    (η : ℝ) (hη : 0 ≤ η) (hη1 : η < 1) (lo : ℝ) (hlo0 : 0 < lo)
    (hlo : ∀ v, lo ^ 2 * sqNorm v ≤ sqNorm (A *ᵥ v) + δ * sqNorm v) (θ : ℝ)
    (hmn : n ≤ m) (hsf : (n : ℤ) ≤ pyInt (sf * n))
    (hS : ∀ d w₁, (dimChecks sf m n : Py G ℕ) w = .ok (d, w₁) → ∃ S w', gen d m w₁ = .ok (S, w') ∧
      Embeds S A η ∧ setupLoss mode ε (sketchSize S A δ) (√(1 - η) * lo) n ≤ θ ∧
        (mode = .svd → 16 * n * eps * sketchSize S A δ ≤ √(1 - η) * lo))
    (η' : ℝ) (hη' : η' = η + θ + η * θ) (hη'1 : η' < 1) (hc : n * √((1 + η') / (1 - η')) < 10 ^ 8 - eps) :
    ∃ out w', spoCallFl fl gen sf mode A b δ tol L false clock w = .ok (out, w') := by
  obtain ⟨d, h1, hd, hdm, -⟩ := (C35_dim_checks sf m n w).2 hmn hsf
  obtain ⟨S, w', h2, hSe, hSl, hcut⟩ := hS _ _ h1
  obtain ⟨xs, hxs⟩ : ∃ xs, IsRidgeMin A b δ xs := ⟨_, ridge_of_normal hδ (lstsqv_lift LinAlg.ref A b hδ).1⟩
  obtain ⟨fc, g1, -, g3⟩ := spoFl_core hε hfl hmode hb hδ ht hn hN hη hη1 hlo0 hlo hd hdm hSe hSl hcut hη' hη'1 hc _ rfl hxs
  obtain ⟨x, y, errs, k1, -⟩ := g3 L
  exact ⟨_, _, spoFl_eq h1 h2 g1 k1⟩

end Parla.Props
