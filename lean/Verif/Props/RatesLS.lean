import Verif.Props.Rates
import Verif.Props.SPS1
import Verif.Props.SPU1

/-! # Property C67: convergence rates of `PcSS2` and `SPO` -/

namespace Parla.Props

open Matrix Parla Spec

variable {G : Type} {m n r p q d : ℕ}

/-- every run makes at most `rank(F)` iterations -/
theorem lsqr_itn_le_rank {F : Matrix (Fin p) (Fin q) ℝ} {b : Fin p → ℝ} {damp : ℝ} {T : LsqrTol}
    {lim : Option ℤ} {x0 : Option (Fin q → ℝ)} {out : LsqrOut q}
    (h : lsqr (LinOp.ofMat F) b damp T lim x0 = .ok out) : out.itn ≤ F.rank := by
  rcases lsqr_ok h with ⟨hg, rfl⟩ | ⟨hg, L, hL, K, hK, hK0, rfl, h4, h5, h6⟩
  · exact Nat.zero_le _
  · show K ≤ F.rank
    cases K with
    | zero => exact Nat.zero_le _
    | succ K => exact seqP_rank fun j hj => h6 j (by omega)

theorem lsqr_not_cond {F : Matrix (Fin p) (Fin q) ℝ} {b : Fin p → ℝ} {T : LsqrTol}
    {lim : Option ℤ} {x0 : Option (Fin q → ℝ)} {out : LsqrOut q}
    (h : lsqr (LinOp.ofMat F) b 0 T lim x0 = .ok out) {σ : ℝ} (hσ0 : 0 < σ)
    (hσ : ∀ z ∈ colSpace Fᵀ, σ * norm2 z ≤ norm2 (F *ᵥ z))
    (hc : fro F * Real.sqrt F.rank < σ * (T.conlim - eps)) : out.istop ≠ 3 := by
  intro c3
  have h3 := ((C32_lsqr_codes F b T lim x0 out h).2.2.2.2.2.1 c3).2
  have h4 := (C54_lsqr_acond F b T lim x0 out h σ hσ hσ0).2
  have h5 : Real.sqrt out.itn ≤ Real.sqrt F.rank :=
    Real.sqrt_le_sqrt (by exact_mod_cast lsqr_itn_le_rank h)
  have h6 := mul_le_mul_of_nonneg_left h5 (Real.sqrt_nonneg (froSq F))
  have h7 : T.conlim - eps ≤ out.acond := by linarith
  have h8 := mul_le_mul_of_nonneg_left h7 hσ0.le
  have h9 : fro F = Real.sqrt (froSq F) := rfl
  rw [h9] at hc
  linarith

/-- **C67** (a priori).  Let `lo ‖z‖² ≤ ‖F z‖² ≤ hi ‖z‖²` on the row space of `F`, `0 < lo ≤ hi`, let
the condition test be out of reach (`‖F‖_F √rank(F) < √lo (conlim - eps)`) and `b ≠ 0`.  Then `lsqr` with
`iter_lim = L` returns a point `x` that meets the rate bound with `k = L`, or one of its two residual
tests: `‖b - Fx‖ ≤ btol ‖b‖ + atol ‖F‖_F ‖x - x0‖`, or
`‖F'(b - Fx)‖ ≤ atol (‖F‖_F ‖b - Fx‖ + eps)`. -/
theorem C67_lsqr_apriori (F : Matrix (Fin p) (Fin q) ℝ) (b : Fin p → ℝ) (hb : b ≠ 0) (T : LsqrTol)
    (hT : 0 ≤ T.atol) (L : ℕ) (x0 : Option (Fin q → ℝ)) (xs : Fin q → ℝ)
    (hxs : ∀ z, sqNorm (b - F *ᵥ xs) ≤ sqNorm (b - F *ᵥ z)) (lo hi : ℝ) (hlo : 0 < lo)
    (hle : lo ≤ hi)
    (hs : ∀ z ∈ colSpace Fᵀ, lo * sqNorm z ≤ sqNorm (F *ᵥ z) ∧ sqNorm (F *ᵥ z) ≤ hi * sqNorm z)
    (hc : fro F * √F.rank < √lo * (T.conlim - eps)) :
    ∃ out, lsqr (LinOp.ofMat F) b 0 T (some (L : ℤ)) x0 = .ok out ∧
      (sqNorm (b - F *ᵥ out.x) - sqNorm (b - F *ᵥ xs) ≤
          (2 * ((√hi - √lo) / (√hi + √lo)) ^ L) ^ 2 *
            (sqNorm (b - F *ᵥ x0.getD 0) - sqNorm (b - F *ᵥ xs)) ∨
        norm2 (b - F *ᵥ out.x) ≤ T.btol * norm2 b + T.atol * fro F * norm2 (out.x - x0.getD 0) ∨
        norm2 (Fᵀ *ᵥ (b - F *ᵥ out.x)) ≤ T.atol * (fro F * norm2 (b - F *ᵥ out.x) + eps)) := by
  have hrho : ∀ k, 0 ≤ (2 * ((√hi - √lo) / (√hi + √lo)) ^ k) ^ 2 *
      (sqNorm (b - F *ᵥ x0.getD 0) - sqNorm (b - F *ᵥ xs)) := fun k =>
    mul_nonneg (sq_nonneg _) (sub_nonneg.2 (hxs _))
  obtain ⟨out, h⟩ | ⟨-, ⟨l, hl, e⟩, -⟩ := C30_lsqr_total F b 0 T (some (L : ℤ)) x0
  swap
  · cases e; omega
  refine ⟨out, h, ?_⟩
  have hrate := C67_lsqr_rate F b T (some (L : ℤ)) x0 out h xs hxs lo hi hlo hle hs
  have hopt : Fᵀ *ᵥ (b - F *ᵥ out.x) = 0 →
      sqNorm (b - F *ᵥ out.x) - sqNorm (b - F *ᵥ xs) ≤
          (2 * ((√hi - √lo) / (√hi + √lo)) ^ L) ^ 2 *
            (sqNorm (b - F *ᵥ x0.getD 0) - sqNorm (b - F *ᵥ xs)) := by
    intro h0
    refine le_trans ?_ (hrho L)
    have := lsq_of_normal h0 xs
    linarith [sqNorm_nonneg (F *ᵥ (out.x - xs))]
  have ha : out.anorm ≤ fro F := by
    rcases lsqr_ok h with ⟨hg, rfl⟩ | ⟨hg, L', hL', K, hK, hK0, rfl, h4, h5, h6⟩
    · exact Real.sqrt_nonneg _
    · show (seqP F b (x0.getD 0) 0 K).anorm ≤ _
      cases K with
      | zero => exact Real.sqrt_nonneg _
      | succ K =>
        have f := seqP_facts h6
        have ha := f.anorm
        rw [zero_pow two_ne_zero, mul_zero, add_zero] at ha
        exact Real.le_sqrt_of_sq_le ha
  obtain ⟨-, cc, e0, e1, e2, -, e4, e5, e7⟩ := C32_lsqr_codes F b T _ x0 out h
  have hn3 := lsqr_not_cond h (Real.sqrt_pos.2 hlo) (fun z hz => by
    have := (hs z hz).1
    unfold norm2
    rw [← Real.sqrt_mul hlo.le]
    exact Real.sqrt_le_sqrt this) hc
  rcases cc with cd | cd | cd | cd | cd | cd | cd
  · obtain ⟨g1, g2, g | g⟩ := e0 cd
    · exact Or.inl (hopt (by rw [g1]; exact g))
    · left
      rw [g2] at hrate
      have : L = 0 := by
        have g : (L : ℤ) = 0 := g
        exact_mod_cast g
      rw [this]; exact hrate
  · refine Or.inr (Or.inl ((e1 cd hb).trans ?_))
    have := mul_le_mul_of_nonneg_right (mul_le_mul_of_nonneg_left ha hT) (norm2_nonneg (out.x - x0.getD 0))
    linarith
  · refine Or.inr (Or.inr ((e2 cd).trans ?_))
    refine mul_le_mul_of_nonneg_left ?_ hT
    have := mul_le_mul_of_nonneg_right ha (norm2_nonneg (b - F *ᵥ out.x))
    linarith
  · exact absurd cd hn3
  · exact Or.inl (hopt (by rw [e4 cd, sub_self, mulVec_zero]))
  · exact Or.inl (hopt (e5 cd))
  · left
    have : out.itn = L := by
      have g : (out.itn : ℤ) = L := e7 cd
      exact_mod_cast g
    rw [this] at hrate; exact hrate

/-- **C67** (`PcSS2`, overdetermined branch).  Let `M` be nonsingular (as a map onto the space of the
unknowns) with `lo ‖z‖² ≤ ‖A M z‖² + δ ‖M z‖² ≤ hi ‖z‖²`, `0 < lo ≤ hi`.  Then the excess of the ridge
objective at the returned `x` over its minimum is at most `(2 ((√hi - √lo)/(√hi + √lo))^k)²` times that
of the start `M z0`, where `k` is the number of entries of the returned error history (and the excess
is zero if that history is a scalar). -/
theorem C67_pcss2_rate (A : Matrix (Fin m) (Fin n) ℝ) (b : Fin m → ℝ) (c : Option (Fin n → ℝ))
    (δ : ℝ) (hδ : 0 ≤ δ) (tol : ℝ) (L : ℤ) (P : Precond n) (hP : P.Ok) (hM : colSpace P.mat = ⊤)
    (z0 : Option (Fin P.dim → ℝ)) (hc : cVec c = 0) (out : SaddleOut m n)
    (h : pcss2 A (.vec b) c δ tol L P z0 = .ok out) (lo hi : ℝ) (hlo : 0 < lo) (hle : lo ≤ hi)
    (hs : ∀ z, lo * sqNorm z ≤ sqNorm (A *ᵥ (P.mat *ᵥ z)) + δ * sqNorm (P.mat *ᵥ z) ∧
      sqNorm (A *ᵥ (P.mat *ᵥ z)) + δ * sqNorm (P.mat *ᵥ z) ≤ hi * sqNorm z)
    (xs : Fin n → ℝ) (hxs : IsRidgeMin A b δ xs) :
    ∃ x, out.x = some x ∧
      ((∃ e, out.errs = .scalar e ∧ IsRidgeMin A b δ x) ∨ ∃ l, out.errs = .arr l ∧
        (sqNorm (A *ᵥ x - b) + δ * sqNorm x) - (sqNorm (A *ᵥ xs - b) + δ * sqNorm xs) ≤
          (2 * ((√hi - √lo) / (√hi + √lo)) ^ l.length) ^ 2 *
            ((sqNorm (A *ᵥ (P.mat *ᵥ z0.getD 0) - b) + δ * sqNorm (P.mat *ᵥ z0.getD 0)) -
              (sqNorm (A *ᵥ xs - b) + δ * sqNorm xs))) := by
  have hc' : cIsZero c := by
    cases c with
    | none => trivial
    | some c => exact norm2_eq_zero.2 hc
  rw [pcss2_over_eq A b c hδ tol L hP z0 hc'] at h
  obtain ⟨zs, rfl⟩ := mem_colSpace.1 (hM ▸ Submodule.mem_top : xs ∈ colSpace P.mat)
  cases hl : lsqr (LinOp.ofMat (aLift A (Real.sqrt δ) * P.mat)) (catv b 0) 0 ⟨tol, tol, 10 ^ 8⟩
      (some L) z0 with
  | error e => rw [hl] at h; cases h
  | ok res =>
    rw [hl] at h
    cases h
    refine ⟨_, rfl, ?_⟩
    rcases C30_lsqr_arnorms _ _ _ _ _ _ hl with ⟨g0, g1, g2, -⟩ | ⟨-, l, g2, g3, -⟩
    · refine Or.inl ⟨0, g2, ?_⟩
      rw [g1]
      refine ridge_of_normal hδ (T_inj_of_top hM ?_)
      rwa [mul_T_mulVec, ← mulVec_mulVec, lift_normal A b hδ] at g0
    · refine Or.inr ⟨l, g2, ?_⟩
      have := C67_lsqr_rate _ _ _ _ _ res hl zs (fun z => by
        rw [← mulVec_mulVec, ← mulVec_mulVec, lift_obj A b hδ, lift_obj A b hδ]
        exact hxs _) lo hi hlo hle (fun z _ => by
        rw [← mulVec_mulVec, sqNorm_aLift, Real.sq_sqrt hδ]
        exact hs z)
      rw [← mulVec_mulVec, ← mulVec_mulVec, ← mulVec_mulVec, lift_obj A b hδ, lift_obj A b hδ,
        lift_obj A b hδ, ← g3] at this
      exact this

/-- the rate of a perfect embedding up to `1 ± ε` -/
theorem rho_le {ε : ℝ} (h0 : 0 ≤ ε) (h1 : ε < 1) :
    0 ≤ (√(1 / (1 - ε)) - √(1 / (1 + ε))) / (√(1 / (1 - ε)) + √(1 / (1 + ε))) ∧
      (√(1 / (1 - ε)) - √(1 / (1 + ε))) / (√(1 / (1 - ε)) + √(1 / (1 + ε))) ≤ ε := by
  have hle : √(1 / (1 + ε)) ≤ √(1 / (1 - ε)) :=
    Real.sqrt_le_sqrt (one_div_le_one_div_of_le (by linarith) (by linarith))
  have pp : 0 < √(1 / (1 - ε)) := Real.sqrt_pos.2 (one_div_pos.2 (by linarith))
  have pq : 0 < √(1 / (1 + ε)) := Real.sqrt_pos.2 (one_div_pos.2 (by linarith))
  refine ⟨div_nonneg (sub_nonneg.2 hle) (by linarith), ?_⟩
  rw [div_le_iff₀ (by linarith)]
  -- `u (1 - ε) ≤ v (1 + ε)`
  obtain ⟨u, hu⟩ : ∃ u, u = √(1 / (1 - ε)) := ⟨_, rfl⟩
  obtain ⟨v, hv⟩ : ∃ v, v = √(1 / (1 + ε)) := ⟨_, rfl⟩
  have hu2 : u ^ 2 * (1 - ε) = 1 := by
    rw [hu, Real.sq_sqrt (one_div_pos.2 (by linarith)).le, one_div_mul_cancel (by linarith)]
  have hv2 : v ^ 2 * (1 + ε) = 1 := by
    rw [hv, Real.sq_sqrt (one_div_pos.2 (by linarith)).le, one_div_mul_cancel (by linarith)]
  rw [← hu] at pp ⊢
  rw [← hv] at pq ⊢
  have : (u * (1 - ε)) ^ 2 ≤ (v * (1 + ε)) ^ 2 := by
    have e1 : (u * (1 - ε)) ^ 2 = (1 - ε) := by
      rw [mul_pow, sq (1 - ε), ← mul_assoc, hu2, one_mul]
    have e2 : (v * (1 + ε)) ^ 2 = (1 + ε) := by
      rw [mul_pow, sq (1 + ε), ← mul_assoc, hv2, one_mul]
    rw [e1, e2]; linarith
  have := (pow_le_pow_iff_left₀ (mul_nonneg pp.le (by linarith)) (mul_nonneg pq.le (by linarith))
    two_ne_zero).1 this
  linarith

/-- What `SPO` does, in terms of `lsqr`: the data shared by the theorems below. -/
theorem spo_open {la : LinAlg} {gen : SkOpGen G} {sf : ℝ} {mode : SPOMode}
    {A : Matrix (Fin m) (Fin n) ℝ} {b : Fin m → ℝ} {δ tol : ℝ} (hδ : 0 ≤ δ) {L : ℤ} {logging : Bool}
    {clock : LogTimes} {w w' : World G} {out : SPOOut n}
    (h : spoCall la gen sf mode A b δ tol L logging clock w = .ok (out, w')) {ε : ℝ} (hε : 0 ≤ ε) (hε1 : ε < 1)
    (hS : ∀ d w₁ S, (dimChecks sf m n : Py G ℕ) w = .ok (d, w₁) → gen d m w₁ = .ok (S, w') →
      Embeds S A ε ∧ (mode = .svd → WellCond (aLift (S * A) (Real.sqrt δ)))) :
    ∃ (d : ℕ) (S : Matrix (Fin d) (Fin m) ℝ) (f : SPOFac n) (res : LsqrOut f.P.dim), Embeds S A ε ∧
      f.P.dim = n ∧ f.P.Ok ∧ colSpace f.P.mat = ⊤ ∧
      f.P.matᵀ * ((S * A)ᵀ * (S * A) + δ • 1) * f.P.mat = 1 ∧
      (aLift (S * A) (Real.sqrt δ) * f.P.mat)ᵀ * (aLift (S * A) (Real.sqrt δ) * f.P.mat) = 1 ∧
      lsqr (LinOp.ofMat (aLift A (Real.sqrt δ) * f.P.mat)) (catv b 0) 0 ⟨tol, tol, 10 ^ 8⟩
        (some L) (spoStart A b δ f) = .ok res ∧ out.x = some (f.P.mat *ᵥ res.x) ∧
      (∀ lg, out.log = some lg → lg.errors.length = res.itn + 1) ∧
      ∃ out0, spoCall la gen sf mode A b δ tol 0 false clock w = .ok (out0, w') ∧
        out0.x = some (f.P.mat *ᵥ (spoStart A b δ f).getD 0) := by
  obtain ⟨d, S, w₁, hd, -, h1, h2, h⟩ := spoCall_ok h
  obtain ⟨hSe, hw⟩ := hS d w₁ S h1 h2
  obtain ⟨f, res, hf, hr, hx, hlog0, hlog⟩ := spoPost_ok hδ hd h
  obtain ⟨hg, hdim⟩ := spoFactor_ok la hδ hd hf
  have hdim' : f.P.dim = n := hdim (by
    cases mode with
    | qr => exact Or.inl rfl
    | chol => exact Or.inr (Or.inl rfl)
    | svd => exact Or.inr (Or.inr (hw rfl))
    | other => cases hf)
  obtain ⟨e1, e2⟩ := sandwich_inv hdim' (lift_gram_sandwich (S * A) hδ hg.orth)
  have htop : colSpace f.P.mat = ⊤ := by
    refine eq_top_iff.2 fun v _ => mem_colSpace.2
      ⟨f.P.matᵀ *ᵥ (((S * A)ᵀ * (S * A) + δ • 1) *ᵥ v), ?_⟩
    rw [mulVec_mulVec, mulVec_mulVec, e1, one_mulVec]
  obtain ⟨o, ho, ho', -⟩ := C30_lsqr_start (aLift A (Real.sqrt δ) * f.P.mat) (catv b 0) 0
    ⟨tol, tol, 10 ^ 8⟩ (spoStart A b δ f)
  have h0 := pcss2_over_eq A b none hδ tol 0 hg.ok (spoStart A b δ f) trivial
  rw [ho] at h0
  have hl := pcss2_over_eq A b none hδ tol L hg.ok (spoStart A b δ f) trivial
  rw [hr] at hl
  cases hq : lsqr (LinOp.ofMat (aLift A (Real.sqrt δ) * f.P.mat)) (catv b 0) 0 ⟨tol, tol, 10 ^ 8⟩
      (some L) (spoStart A b δ f) with
  | error e => rw [hq] at hl; cases hl
  | ok q =>
    rw [hq] at hl
    cases hl
    refine ⟨d, S, f, q, hSe, hdim', hg.ok, htop, lift_gram_sandwich (S * A) hδ hg.orth, hg.orth, hq, hx, ?_,
      ⟨some (f.P.mat *ᵥ o.x), none⟩, ?_, ?_⟩
    · intro lg hlg
      cases logging with
      | false => rw [hlog0 rfl] at hlg; cases hlg
      | true =>
        obtain ⟨l, lg', hl, hw, hlg'⟩ := hlog rfl
        rw [hlg'] at hlg; cases hlg
        obtain ⟨lg'', e1, e2, -⟩ := C42_wrap_up clock l (norm2 (f.P.matᵀ *ᵥ (Aᵀ *ᵥ b)))
        rw [hw] at e1; cases e1
        rw [e2, List.length_cons]
        rcases C30_lsqr_arnorms _ _ _ _ _ _ hq with ⟨-, -, g2, -⟩ | ⟨-, l', g2, g3, -⟩
        · have hl : q.arnorms = .arr l := hl
          rw [g2] at hl; cases hl
        · have hl : q.arnorms = .arr l := hl
          rw [g2] at hl; cases hl
          rw [g3]
    · rw [spoCall_eq mode A b δ tol 0 false clock h1 h2, (spoPost_eq clock hδ hd hf h0).1]
    · show some (f.P.mat *ᵥ o.x) = _
      rw [ho']

/-- the triangle inequality -/
theorem norm2_sub_le {k : ℕ} (u v : Fin k → ℝ) : norm2 (u - v) ≤ norm2 u + norm2 v := by
  refine Real.sqrt_le_iff.2 ⟨add_nonneg (norm2_nonneg _) (norm2_nonneg _), ?_⟩
  have h1 : -(u ⬝ᵥ v) ≤ norm2 u * norm2 v := by
    refine (neg_le_abs _).trans (abs_le_of_sq_le_sq ?_ (mul_nonneg (norm2_nonneg _) (norm2_nonneg _)))
    rw [mul_pow, norm2_sq, norm2_sq]
    exact dot_sq_le u v
  rw [sqNorm_sub, add_sq, norm2_sq, norm2_sq]
  linarith

/-- the quadratic form of the preconditioned problem -/
theorem spo_form {A : Matrix (Fin m) (Fin n) ℝ} {S : Matrix (Fin d) (Fin m) ℝ} {δ ε : ℝ} (hδ : 0 ≤ δ)
    (hε : 0 ≤ ε) (hε1 : ε < 1) (hS : Embeds S A ε) {k : ℕ} {M : Matrix (Fin n) (Fin k) ℝ}
    (hM : (aLift (S * A) (Real.sqrt δ) * M)ᵀ * (aLift (S * A) (Real.sqrt δ) * M) = 1) (z : Fin k → ℝ) :
    1 / (1 + ε) * sqNorm z ≤ sqNorm ((aLift A (Real.sqrt δ) * M) *ᵥ z) ∧
      sqNorm ((aLift A (Real.sqrt δ) * M) *ᵥ z) ≤ 1 / (1 - ε) * sqNorm z := by
  have h1 := lift_embeds hδ hε hS (M *ᵥ z)
  rw [mulVec_mulVec, mulVec_mulVec, sqNorm_orth_mulVec hM] at h1
  constructor
  · rw [div_mul_eq_mul_div, one_mul, div_le_iff₀ (by linarith)]; linarith
  · rw [div_mul_eq_mul_div, one_mul, le_div_iff₀ (by linarith)]; linarith

/-- **C67** (`SPO`, observed iterations).  If the sketch drawn embeds the range of `A` up to `1 ± ε`,
`ε < 1`, a logged call of `SPO` that made `k` iterations (`k + 1` logged errors) returns an `x` whose
excess of `‖Ax - b‖² + δ‖x‖²` over the minimum is at most `(2 ε^k)²` times that of its starting point
`x0`, the result of the same call with `iter_lim = 0` (and hence at most `(2 ε^k)² ‖b‖²`). -/
theorem C67_spo_rate (la : LinAlg) (gen : SkOpGen G) (sf : ℝ) (mode : SPOMode)
    (A : Matrix (Fin m) (Fin n) ℝ) (b : Fin m → ℝ) (δ tol : ℝ) (hδ : 0 ≤ δ) (L : ℤ)
    (clock : LogTimes) (w w' : World G) (out : SPOOut n)
    (h : spoCall la gen sf mode A b δ tol L true clock w = .ok (out, w')) (ε : ℝ) (hε : 0 ≤ ε) (hε1 : ε < 1)
    (hS : ∀ d w₁ S, (dimChecks sf m n : Py G ℕ) w = .ok (d, w₁) → gen d m w₁ = .ok (S, w') →
      Embeds S A ε ∧ (mode = .svd → WellCond (aLift (S * A) (Real.sqrt δ))))
    (xs : Fin n → ℝ) (hxs : IsRidgeMin A b δ xs) (lg : SPLog) (hlg : out.log = some lg) (k : ℕ)
    (hk : lg.errors.length = k + 1) :
    ∃ x out0 x0, out.x = some x ∧ spoCall la gen sf mode A b δ tol 0 false clock w = .ok (out0, w') ∧
      out0.x = some x0 ∧ sqNorm (A *ᵥ x0 - b) + δ * sqNorm x0 ≤ sqNorm b ∧
      (sqNorm (A *ᵥ x - b) + δ * sqNorm x) - (sqNorm (A *ᵥ xs - b) + δ * sqNorm xs) ≤
        (2 * ε ^ k) ^ 2 *
          ((sqNorm (A *ᵥ x0 - b) + δ * sqNorm x0) - (sqNorm (A *ᵥ xs - b) + δ * sqNorm xs)) := by
  obtain ⟨d, S, f, res, hSe, hdim, hok, htop, -, horth, hl, hx, hlog, out0, h0, hx0⟩ :=
    spo_open hδ h hε hε1 hS
  obtain ⟨x0, g1, g2⟩ := C37_spo_never_worse la gen sf mode A b δ tol hδ 0 false clock w w' out0 h0
  rw [hx0] at g1; cases g1
  refine ⟨_, out0, _, hx, h0, hx0, g2, ?_⟩
  obtain ⟨zs, rfl⟩ := mem_colSpace.1 (htop ▸ Submodule.mem_top : xs ∈ colSpace f.P.mat)
  have hki : res.itn = k := by have := hlog lg hlg; omega
  have := C67_lsqr_rate _ _ _ _ _ res hl zs (fun z => by
        rw [← mulVec_mulVec, ← mulVec_mulVec, lift_obj A b hδ, lift_obj A b hδ]
        exact hxs _) (1 / (1 + ε)) (1 / (1 - ε)) (one_div_pos.2 (by linarith))
        (one_div_le_one_div_of_le (by linarith) (by linarith))
        (fun z _ => spo_form hδ hε hε1 hSe horth z)
  rw [← mulVec_mulVec, ← mulVec_mulVec, ← mulVec_mulVec, lift_obj A b hδ, lift_obj A b hδ,
        lift_obj A b hδ, hki] at this
  refine this.trans (mul_le_mul_of_nonneg_right ?_ (sub_nonneg.2 (hxs _)))
  obtain ⟨r0, r1⟩ := rho_le hε hε1
  exact pow_le_pow_left₀ (by positivity) (mul_le_mul_of_nonneg_left (pow_le_pow_left₀ r0 r1 k) zero_le_two) 2

/-- **C67** (`SPO`, a priori).  Let the sketch drawn embed the range of `A` up to `1 ± ε` with
`n √((1+ε)/(1-ε)) < 10^8 - eps`.  Then a call of `SPO` with `iter_lim = L` and tolerance `tol >= 0` that
returns `x` satisfies, with `f(x) = ‖Ax - b‖² + δ‖x‖²` and the starting point `x0` (the result of the
same call with `iter_lim = 0`; `f(x0) ≤ ‖b‖²`), at least one of:
* `f(x) - min f ≤ (2 ε^L)² (f(x0) - min f)`;
* `f(x) ≤ (tol ‖b‖ (1 + 2 √(n (1+ε)/(1-ε))))²`;
* `f(x) - min f ≤ (1+ε) (tol (√(n/(1-ε)) √(f(x)) + eps))²`.

In particular with `tol = 0` the first bound holds for every `L`. -/
theorem C67_spo_apriori (la : LinAlg) (gen : SkOpGen G) (sf : ℝ) (mode : SPOMode)
    (A : Matrix (Fin m) (Fin n) ℝ) (b : Fin m → ℝ) (δ tol : ℝ) (hδ : 0 ≤ δ) (ht : 0 ≤ tol) (L : ℕ)
    (logging : Bool) (clock : LogTimes) (w w' : World G) (out : SPOOut n)
    (h : spoCall la gen sf mode A b δ tol L logging clock w = .ok (out, w')) (ε : ℝ) (hε : 0 ≤ ε) (hε1 : ε < 1)
    (hS : ∀ d w₁ S, (dimChecks sf m n : Py G ℕ) w = .ok (d, w₁) → gen d m w₁ = .ok (S, w') →
      Embeds S A ε ∧ (mode = .svd → WellCond (aLift (S * A) (Real.sqrt δ))))
    (hc : n * √((1 + ε) / (1 - ε)) < 10 ^ 8 - eps) (xs : Fin n → ℝ) (hxs : IsRidgeMin A b δ xs)
    (f : (Fin n → ℝ) → ℝ) (hf : f = fun x => sqNorm (A *ᵥ x - b) + δ * sqNorm x) :
    ∃ x out0 x0, out.x = some x ∧ spoCall la gen sf mode A b δ tol 0 false clock w = .ok (out0, w') ∧
      out0.x = some x0 ∧ f x0 ≤ sqNorm b ∧
      (f x - f xs ≤ (2 * ε ^ L) ^ 2 * (f x0 - f xs) ∨
        f x ≤ (tol * norm2 b * (1 + 2 * √(n * (1 + ε) / (1 - ε)))) ^ 2 ∨
        f x - f xs ≤ (1 + ε) * (tol * (√(n / (1 - ε)) * √(f x) + eps)) ^ 2) ∧
      (tol = 0 → f x - f xs ≤ (2 * ε ^ L) ^ 2 * (f x0 - f xs)) := by
  obtain ⟨d, S, fc, res, hSe, hdim, hok, htop, hM, horth, hl, hx, hlog, out0, h0, hx0⟩ :=
    spo_open hδ h hε hε1 hS
  obtain ⟨x0, g1, g2⟩ := C37_spo_never_worse la gen sf mode A b δ tol hδ 0 false clock w w' out0 h0
  rw [hx0] at g1; cases g1
  obtain ⟨xr, g1, g3⟩ := C37_spo_never_worse la gen sf mode A b δ tol hδ L logging clock w w' out h
  rw [hx] at g1; cases g1
  have hfx : ∀ x, f x = sqNorm (A *ᵥ x - b) + δ * sqNorm x := fun x => by rw [hf]
  have hf0 : ∀ x, 0 ≤ f x := fun x => by
    rw [hfx]; exact add_nonneg (sqNorm_nonneg _) (mul_nonneg hδ (sqNorm_nonneg _))
  have hmin : ∀ x, f xs ≤ f x := fun x => by rw [hfx, hfx]; exact hxs x
  rw [← hfx] at g2 g3
  obtain ⟨x, hxd⟩ : ∃ x, x = fc.P.mat *ᵥ res.x := ⟨_, rfl⟩
  obtain ⟨x0, hx0d⟩ : ∃ x0, x0 = fc.P.mat *ᵥ (spoStart A b δ fc).getD 0 := ⟨_, rfl⟩
  rw [← hxd] at hx g3
  rw [← hx0d] at hx0 g2
  have key : (f x - f xs ≤ (2 * ε ^ L) ^ 2 * (f x0 - f xs) ∨
        f x ≤ (tol * norm2 b * (1 + 2 * √(n * (1 + ε) / (1 - ε)))) ^ 2 ∨
        f x - f xs ≤ (1 + ε) * (tol * (√(n / (1 - ε)) * √(f x) + eps)) ^ 2) := by
    by_cases hb : b = 0
    · right; left
      have : f x ≤ 0 := by rw [hb, sqNorm_zero'] at g3; exact g3
      exact this.trans (sq_nonneg _)
    obtain ⟨zs, hzs⟩ := mem_colSpace.1 (htop ▸ Submodule.mem_top : xs ∈ colSpace fc.P.mat)
    obtain ⟨F, hF⟩ : ∃ F, F = aLift A (Real.sqrt δ) * fc.P.mat := ⟨_, rfl⟩
    obtain ⟨q1, -, q3⟩ := precond_bounds hδ hε hε1 hSe horth
    have hcond := precond_cond hδ hε hε1 hSe horth (by rw [hdim]; exact hc)
    rw [← hF] at hl q1 q3 hcond
    have hobj : ∀ z, sqNorm (catv b 0 - F *ᵥ z) = f (fc.P.mat *ᵥ z) := fun z => by
      rw [hF, ← mulVec_mulVec, lift_obj A b hδ, hfx]
    have hcat : sqNorm (catv b (0 : Fin (liftRows n (Real.sqrt δ)) → ℝ)) = sqNorm b := by
      rw [sqNorm_catv, sqNorm_zero', add_zero]
    have hfro : fro F ≤ √(n / (1 - ε)) := by
      have e : ((fc.P.dim : ℕ) : ℝ) / (1 - ε) = n / (1 - ε) := by rw [hdim]
      exact Real.sqrt_le_sqrt (q3.trans_eq e)
    obtain ⟨out', h1, h2⟩ := C67_lsqr_apriori F (catv b 0) (fun h => hb (by
        have := hcat
        rw [h, sqNorm_zero'] at this
        exact sqNorm_eq_zero.1 this.symm)) ⟨tol, tol, 10 ^ 8⟩ ht L (spoStart A b δ fc) zs
      (fun z => by rw [hobj, hobj, hzs]; exact hmin _)
      (1 / (1 + ε)) (1 / (1 - ε)) (one_div_pos.2 (by linarith))
        (one_div_le_one_div_of_le (by linarith) (by linarith))
        (fun z _ => by rw [hF]; exact spo_form hδ hε hε1 hSe horth z)
      (by rw [Real.sqrt_div zero_le_one, Real.sqrt_one]; exact hcond)
    rw [hl] at h1; cases h1
    rw [hobj, hobj, hobj, hzs, ← hxd, ← hx0d] at h2
    have hn : ∀ z, norm2 (catv b 0 - F *ᵥ z) = √(f (fc.P.mat *ᵥ z)) := fun z => by
      unfold norm2; rw [hobj]
    rcases h2 with h2 | h2 | h2
    · left
      refine h2.trans (mul_le_mul_of_nonneg_right ?_ (sub_nonneg.2 (hmin _)))
      obtain ⟨r0, r1⟩ := rho_le hε hε1
      exact pow_le_pow_left₀ (by positivity)
        (mul_le_mul_of_nonneg_left (pow_le_pow_left₀ r0 r1 L) zero_le_two) 2
    · right; left
      rw [hn, ← hxd] at h2
      have hnb : norm2 (catv b (0 : Fin (liftRows n (Real.sqrt δ)) → ℝ)) = norm2 b := by
        unfold norm2; rw [hcat]
      simp only [hnb] at h2
      have p1 : 0 < √(1 + ε) := Real.sqrt_pos.2 (by linarith)
      -- the step
      have hstep : norm2 (res.x - (spoStart A b δ fc).getD 0) ≤ √(1 + ε) * (2 * norm2 b) := by
        have a1 := q1 (res.x - (spoStart A b δ fc).getD 0)
        rw [div_mul_eq_mul_div, one_mul, div_le_iff₀ p1, mul_comm] at a1
        refine a1.trans (mul_le_mul_of_nonneg_left ?_ p1.le)
        have e : F *ᵥ (res.x - (spoStart A b δ fc).getD 0) =
            (catv b 0 - F *ᵥ (spoStart A b δ fc).getD 0) - (catv b 0 - F *ᵥ res.x) := by
          rw [mulVec_sub]; abel
        rw [e]
        refine (norm2_sub_le _ _).trans ?_
        rw [hn, hn, ← hxd, ← hx0d]
        have b1 : √(f x0) ≤ norm2 b := Real.sqrt_le_sqrt g2
        have b2 : √(f x) ≤ norm2 b := Real.sqrt_le_sqrt g3
        linarith
      have h3 : √(f x) ≤ tol * norm2 b * (1 + 2 * √(n * (1 + ε) / (1 - ε))) := by
        refine h2.trans ?_
        have c1 : fro F * norm2 (res.x - (spoStart A b δ fc).getD 0) ≤
            √(n / (1 - ε)) * (√(1 + ε) * (2 * norm2 b)) :=
          mul_le_mul hfro hstep (norm2_nonneg _) (Real.sqrt_nonneg _)
        have c2 : √(n / (1 - ε)) * √(1 + ε) = √(n * (1 + ε) / (1 - ε)) := by
          rw [← Real.sqrt_mul (div_nonneg (Nat.cast_nonneg _) (by linarith)), div_mul_eq_mul_div]
        have c3 := mul_le_mul_of_nonneg_left c1 ht
        rw [← mul_assoc (√(n / (1 - ε))), c2] at c3
        calc tol * norm2 b + tol * fro F * norm2 (res.x - (spoStart A b δ fc).getD 0)
            = tol * norm2 b + tol * (fro F * norm2 (res.x - (spoStart A b δ fc).getD 0)) := by ring
          _ ≤ tol * norm2 b + tol * (√(n * (1 + ε) / (1 - ε)) * (2 * norm2 b)) := by linarith
          _ = _ := by ring
      calc f x = √(f x) ^ 2 := (Real.sq_sqrt (hf0 x)).symm
        _ ≤ _ := pow_le_pow_left₀ (Real.sqrt_nonneg _) h3 2
    · right; right
      have e : Fᵀ *ᵥ (catv b 0 - F *ᵥ res.x) = fc.P.matᵀ *ᵥ (Aᵀ *ᵥ (b - A *ᵥ x) - δ • x) := by
        rw [hF, mul_T_mulVec, ← mulVec_mulVec, lift_normal A b hδ, ← hxd]
      rw [e, hn, ← hxd] at h2
      have hcert := precond_certificate b hδ hε hM hdim (fun x => (hSe x).2) x xs
      rw [← hfx, ← hfx] at hcert
      have hfin : norm2 (fc.P.matᵀ *ᵥ (Aᵀ *ᵥ (b - A *ᵥ x) - δ • x)) ≤
          tol * (√(n / (1 - ε)) * √(f x) + eps) := by
        refine h2.trans (mul_le_mul_of_nonneg_left ?_ ht)
        have := mul_le_mul_of_nonneg_right hfro (Real.sqrt_nonneg (f x))
        linarith
      have := mul_le_mul_of_nonneg_left (pow_le_pow_left₀ (norm2_nonneg _) hfin 2) (by linarith : 0 ≤ 1 + ε)
      linarith
  refine ⟨x, out0, x0, hx, h0, hx0, g2, key, fun ht0 => ?_⟩
  have hpos : 0 ≤ (2 * ε ^ L) ^ 2 * (f x0 - f xs) := mul_nonneg (sq_nonneg _) (sub_nonneg.2 (hmin _))
  rcases key with h | h | h
  · exact h
  · rw [ht0] at h
    simp only [zero_mul, ne_eq, OfNat.ofNat_ne_zero, not_false_eq_true, zero_pow] at h
    linarith [hf0 xs]
  · rw [ht0] at h
    simp only [zero_mul, ne_eq, OfNat.ofNat_ne_zero, not_false_eq_true, zero_pow, mul_zero] at h
    linarith

/-- `C66_pcss1_rate` for a preconditioner known to be square -/
theorem pcss1_rate_sq (hr : r = n) {A : Matrix (Fin m) (Fin n) ℝ} {b : BArg m} {c : Option (Fin n → ℝ)}
    {δ tol : ℝ} (hδ : 0 ≤ δ) (ht : 0 ≤ tol) {L : ℤ} {R : Matrix (Fin n) (Fin r) ℝ} (hR : FullColRank R)
    {z0 : Option (Fin r → ℝ)} {out : SaddleOut m n} (h : pcss1 A b c δ tol L (.gen r R) z0 = .ok out)
    {lo hi : ℝ} (hlo : 0 < lo) (hle : lo ≤ hi)
    (hs : ∀ z, lo * sqNorm z ≤ sqNorm (A *ᵥ (R *ᵥ z)) + δ * sqNorm (R *ᵥ z) ∧
      sqNorm (A *ᵥ (R *ᵥ z)) + δ * sqNorm (R *ᵥ z) ≤ hi * sqNorm z)
    {xs : Fin n → ℝ} (hxs : Aᵀ *ᵥ (A *ᵥ xs) + δ • xs = Aᵀ *ᵥ bVec b - cVec c) :
    ∃ x log, out.x = some x ∧ out.errs = .arr log ∧
      sqNorm (A *ᵥ (x - xs)) + δ * sqNorm (x - xs) ≤
        (2 * ((√hi - √lo) / (√hi + √lo)) ^ log.length) ^ 2 *
          (sqNorm (A *ᵥ (pcss1Start R z0 - xs)) + δ * sqNorm (pcss1Start R z0 - xs)) := by
  subst hr
  exact C66_pcss1_rate A b c δ tol hδ ht L R hR z0 out h lo hi hlo hle hs xs hxs

/-- **C67** (`SPS1` with `PcSS1`).  Let `int(sf n) ≥ n`, and let the sketch drawn embed the range of `A`
up to `1 ± ε`, `ε < 1`, with a numerically full-rank lifted sketch.  A logged call that made `k` iterations
(`k + 1` logged errors) returns an `x` with
`‖A(x - x*)‖² + δ‖x - x*‖² ≤ (2 ε^k)² (‖A(x0 - x*)‖² + δ‖x0 - x*‖²)` for every solution `(x*, y*)` of the block
system, where `x0` is the starting point, the result of the call with `iter_lim = 0`. -/
theorem C67_sps1_rate (la : LinAlg) (gen : SkOpGen G) (sf : ℝ) (strategy : NystromStrategy)
    (A : Matrix (Fin m) (Fin n) ℝ) (b : Option (Fin m → ℝ)) (c : Option (Fin n → ℝ)) (δ tol : ℝ)
    (hδ : 0 ≤ δ) (ht : 0 ≤ tol) (L : ℤ) (clock : LogTimes) (w w' : World G) (out : SPSOut m n)
    (h : sps1Call la gen sf PcSS1 strategy A b c δ tol L true clock w = .ok (out, w'))
    (hsf : (n : ℤ) ≤ pyInt (sf * n)) (ε : ℝ) (hε : 0 ≤ ε) (hε1 : ε < 1)
    (hS : ∀ (d : ℕ) S, (d : ℤ) = pyInt (sf * n) → gen d m w = .ok (S, w') →
      Embeds S A ε ∧ WellCond (aLift (S * A) (Real.sqrt δ)))
    (lg : SPLog) (hlg : out.log = some lg) (k : ℕ) (hk : lg.errors.length = k + 1)
    (xs : Fin n → ℝ) (ys : Fin m → ℝ) (hxs : SolvesSaddle A (b.getD 0) (cVec c) δ xs ys) :
    ∃ x out0 x0, out.x = some x ∧
      sps1Call la gen sf PcSS1 strategy A b c δ tol 0 true clock w = .ok (out0, w') ∧ out0.x = some x0 ∧
      sqNorm (A *ᵥ (x - xs)) + δ * sqNorm (x - xs) ≤
        (2 * ε ^ k) ^ 2 * (sqNorm (A *ᵥ (x0 - xs)) + δ * sqNorm (x0 - xs)) := by
  have hx' : Aᵀ *ᵥ (A *ᵥ xs) + δ • xs = Aᵀ *ᵥ bVec (.vec (b.getD 0)) - cVec c := by
    obtain ⟨h1, h2⟩ := hxs
    show _ = Aᵀ *ᵥ b.getD 0 - cVec c
    rw [← h1, ← h2, mulVec_add]; abel
  obtain ⟨p, hp, h⟩ := sps1_ok h
  obtain ⟨res, hr, e1, -, e3⟩ := sps1Post_ok h
  -- the preconditioner
  have hprec : p.r = n ∧ FullColRank p.M ∧ ∀ z, 1 / (1 + ε) * sqNorm z ≤
      sqNorm (A *ᵥ (p.M *ᵥ z)) + δ * sqNorm (p.M *ᵥ z) ∧
      sqNorm (A *ᵥ (p.M *ᵥ z)) + δ * sqNorm (p.M *ᵥ z) ≤ 1 / (1 - ε) * sqNorm z := by
    cases hp with
    | right S hd hn => omega
    | left S hd hn => omega
    | @svd d S _ hd hn hs hg hp =>
      obtain ⟨hSe, hw⟩ := hS d S hd hg
      unfold sps1Svd at hp
      simp only at hp
      cases ho : svdRightPrecond la (aLift (S * A) (Real.sqrt δ)) with
      | error e => rw [ho] at hp; cases hp
      | ok o =>
        rw [ho] at hp
        simp only at hp
        have hrn := WellCond.no_truncation la hw ho
        obtain ⟨g1, g2, -⟩ := C26_svd_right_precond la _ o ho
        have horth : (aLift (S * A) (Real.sqrt δ) * o.M)ᵀ * (aLift (S * A) (Real.sqrt δ) * o.M) = 1 := by
          rw [g1]; exact g2
        have hfull : FullColRank o.M := by
          refine fullColRank_of_left_inv
            (L := (aLift (S * A) (Real.sqrt δ) * o.M)ᵀ * aLift (S * A) (Real.sqrt δ)) ?_
          rw [Matrix.mul_assoc, horth]
        cases hp
        refine ⟨hrn, hfull, fun z => ?_⟩
        have := spo_form hδ hε hε1 hSe horth z
        rw [← mulVec_mulVec, sqNorm_aLift, Real.sq_sqrt hδ] at this
        exact this
  obtain ⟨hrn, hfull, hs⟩ := hprec
  obtain ⟨x, log, g1, g2, g3⟩ := pcss1_rate_sq hrn hδ ht hfull (show pcss1 _ _ _ _ _ _ _ _ = _ from hr)
    (one_div_pos.2 (by linarith : 0 < 1 + ε)) (one_div_le_one_div_of_le (by linarith) (by linarith)) hs hx'
  -- the start
  obtain ⟨res0, x0, s1, s2, -⟩ := C29_pcss1_converges A (.vec (b.getD 0)) (fun _ _ => (nomatch ·)) c δ hδ
    tol ht 0 le_rfl p.M (Or.inl ⟨hrn, hfull⟩) p.z ⟨xs, hx'⟩
  obtain ⟨_, l0, -, -, g3', -⟩ := C29_pcss1_log A (.vec (b.getD 0)) c δ tol 0 (.gen p.r p.M) p.z res0 s1
  obtain ⟨lg0, k0⟩ := sps1Post_eq (solver := PcSS1) true clock s1 g3'
  rw [pcss1_start s1] at s2
  cases s2
  refine ⟨x, _, _, e1.trans g1, by rw [sps1_eq PcSS1 tol 0 true clock hp, k0], pcss1_start s1, g3.trans ?_⟩
  rw [g2] at e3
  have e4 := (Except.ok.inj e3).symm
  rw [hlg] at e4
  obtain rfl := Option.some.inj e4
  have hlen : log.length = k := by
    have : (norm2 (normalRhs A (b.getD 0) c) :: log).length = k + 1 := hk
    simpa using this
  rw [hlen]
  refine mul_le_mul_of_nonneg_right ?_ (add_nonneg (sqNorm_nonneg _) (mul_nonneg hδ (sqNorm_nonneg _)))
  obtain ⟨r0, r1⟩ := rho_le hε hε1
  exact pow_le_pow_left₀ (by positivity) (mul_le_mul_of_nonneg_left (pow_le_pow_left₀ r0 r1 k) zero_le_two) 2

/-- an upper bound for `F` is one for `F'` on the range of `F` -/
theorem high_transpose {F : Matrix (Fin p) (Fin q) ℝ} {σ : ℝ} (hσ : 0 ≤ σ)
    (h : ∀ z, norm2 (F *ᵥ z) ≤ σ * norm2 z) (w : Fin p → ℝ) : norm2 (Fᵀ *ᵥ w) ≤ σ * norm2 w := by
  have h1 : sqNorm (Fᵀ *ᵥ w) = (F *ᵥ (Fᵀ *ᵥ w)) ⬝ᵥ w := by
    rw [sqNorm_eq_dot, dot_mulVec, transpose_transpose]
  have h2 := dot_sq_le (F *ᵥ (Fᵀ *ᵥ w)) w
  rw [← h1, ← norm2_sq, ← norm2_sq, ← norm2_sq, ← mul_pow] at h2
  have h3 : norm2 (Fᵀ *ᵥ w) ^ 2 ≤ norm2 (F *ᵥ (Fᵀ *ᵥ w)) * norm2 w :=
    le_of_sq_le_sq h2 (mul_nonneg (norm2_nonneg _) (norm2_nonneg _))
  have h4 := mul_le_mul_of_nonneg_right (h (Fᵀ *ᵥ w)) (norm2_nonneg w)
  rcases eq_or_lt_of_le (norm2_nonneg (Fᵀ *ᵥ w)) with h0 | h0
  · rw [← h0]
    exact mul_nonneg hσ (norm2_nonneg _)
  · nlinarith [norm2_nonneg w]

/-- the minimum-norm solution lies in the range -/
theorem minNorm_range {A : Matrix (Fin m) (Fin n) ℝ} (hf : FullColRank A) {c : Fin n → ℝ} {y : Fin m → ℝ}
    (hy : IsMinNormSol A c y) : y ∈ colSpace A := by
  have hdet : IsUnit (Aᵀ * A).det :=
    (Matrix.isUnit_iff_isUnit_det _).1 ((gram_posDef_iff _).2 hf).isUnit
  have h1 : Aᵀ *ᵥ (A *ᵥ ((Aᵀ * A)⁻¹ *ᵥ c)) = c := by
    rw [mulVec_mulVec, mulVec_mulVec, mul_nonsing_inv _ hdet, one_mulVec]
  obtain ⟨u, hu⟩ : ∃ u, u = (Aᵀ * A)⁻¹ *ᵥ c := ⟨_, rfl⟩
  rw [← hu] at h1
  have h2 := norm2_le_norm2.1 (hy.2 _ h1)
  have e : (y - A *ᵥ u) ⬝ᵥ (A *ᵥ u) = 0 := by
    rw [dot_mulVec, mulVec_sub, hy.1, h1, sub_self, zero_dotProduct]
  have e2 := sqNorm_add (y - A *ᵥ u) (A *ᵥ u)
  rw [sub_add_cancel, e] at e2
  have h3 : sqNorm (y - A *ᵥ u) = 0 := le_antisymm (by linarith) (sqNorm_nonneg _)
  rw [sub_eq_zero.1 (sqNorm_eq_zero.1 h3)]
  exact mem_colSpace.2 ⟨u, rfl⟩

/-- **C67** (`SPU1`).  Let the sketch drawn embed the range of `A` up to `1 ± ε`, `ε < 1`, with a numerically
full-rank sketched matrix.  A logged call with `c ≠ 0` that made `k` iterations (`k + 1` logged errors)
returns a `y` whose squared distance to the minimum-norm solution `y*` of `A'y = c` is at most
`(2 ε^k)² (1+ε)/(1-ε) ‖y*‖²`. -/
theorem C67_spu1_rate (la : LinAlg) (gen : SkOpGen G) (sf : ℝ) (A : Matrix (Fin m) (Fin n) ℝ)
    (c : Fin n → ℝ) (hc : c ≠ 0) (tol : ℝ) (L : ℤ) (clock : LogTimes) (w w' : World G)
    (out : SPUOut m) (h : spu1Call la gen sf A c tol L true clock w = .ok (out, w'))
    (ε : ℝ) (hε : 0 ≤ ε) (hε1 : ε < 1)
    (hS : ∀ d w₁ S, (dimChecks sf m n : Py G ℕ) w = .ok (d, w₁) → gen d m w₁ = .ok (S, w') →
      Embeds S A ε ∧ WellCond (S * A))
    (lg : SPLog) (hlg : out.log = some lg) (k : ℕ) (hk : lg.errors.length = k + 1)
    (ys : Fin m → ℝ) (hys : IsMinNormSol A c ys) :
    sqNorm (out.y - ys) ≤ (2 * ε ^ k) ^ 2 * ((1 + ε) / (1 - ε)) * sqNorm ys := by
  obtain ⟨d, S, w₁, o, res, -, -, h1, h2, ho, hr, hy, hlog⟩ := spu1_ok h
  obtain ⟨hSe, hSw⟩ := hS _ _ _ h1 h2
  obtain ⟨g1, g2, -, -, -, -, g3⟩ := C26_svd_right_precond la _ o ho
  obtain ⟨e1, e2⟩ := g3 (WellCond.no_truncation la hSw ho)
  have horth : (aLift (S * A) (Real.sqrt 0) * o.M)ᵀ * (aLift (S * A) (Real.sqrt 0) * o.M) = 1 := by
    have : (aLift (S * A) (Real.sqrt 0) * o.M)ᵀ * (aLift (S * A) (Real.sqrt 0) * o.M) =
        o.Mᵀ * ((aLift (S * A) (Real.sqrt 0))ᵀ * aLift (S * A) (Real.sqrt 0)) * o.M := by
      rw [transpose_mul]; simp only [Matrix.mul_assoc]
    rw [this, aLift_gram_zero]
    have g2' : o.Uᵀ * o.U = 1 := g2
    rw [← g1, transpose_mul] at g2'
    rw [← g2']; simp only [Matrix.mul_assoc]
  obtain ⟨q1, q2, -⟩ := precond_bounds le_rfl hε hε1 hSe horth
  have hf : FullColRank A := by
    refine fullColRank_iff_inj.2 fun x hx => fullColRank_iff_inj.1 (WellCond.fullColRank hSw) x ?_
    rw [← mulVec_mulVec, hx, mulVec_zero]
  obtain ⟨u, hu⟩ := mem_colSpace.1 (minNorm_range hf hys)
  obtain ⟨F, hF⟩ : ∃ F, F = aLift A (Real.sqrt 0) * o.M := ⟨_, rfl⟩
  rw [← hF] at q1 q2
  -- the target, lifted
  obtain ⟨ws, hws⟩ : ∃ ws, ws = aLift A (Real.sqrt 0) *ᵥ u := ⟨_, rfl⟩
  have htop : topv ws = ys := by rw [hws, aLift_mulVec, topv_catv, hu]
  have hwn : sqNorm ws = sqNorm ys := by
    rw [hws, sqNorm_aLift, Real.sqrt_zero, hu]; ring
  have hwsF : ws ∈ colSpace F := by
    refine mem_colSpace.2 ⟨o.Mᵀ *ᵥ (((S * A)ᵀ * (S * A)) *ᵥ u), ?_⟩
    have e : o.M *ᵥ (o.Mᵀ *ᵥ (((S * A)ᵀ * (S * A)) *ᵥ u)) = u := by
      rw [mulVec_mulVec, mulVec_mulVec, e1, one_mulVec]
    rw [hF, hws, ← mulVec_mulVec, e]
  have hsol : o.Mᵀ *ᵥ c = Fᵀ *ᵥ ws := by
    have e : √(0 : ℝ) • padv n (botv ws) = 0 := by
      rw [show √(0 : ℝ) • padv n (botv ws) = (0 : ℝ) • padv n (botv ws) from
        congrArg (· • padv n (botv ws)) Real.sqrt_zero, zero_smul]
    rw [hF, mul_T_mulVec, aLift_T_mulVec, htop, hys.1, e, add_zero]
  -- LSQR
  have hq := pcss2_under_eq A .none c le_rfl tol L (P := .gen o.r o.M) trivial none trivial hc
  rw [hr] at hq
  cases hl' : lsqr (LinOp.ofMat (aLift A (Real.sqrt 0) * (Precond.gen o.r o.M).mat)ᵀ)
      ((Precond.gen o.r o.M).matᵀ *ᵥ c) 0 ⟨tol, tol, 10 ^ 8⟩ (some L) none with
  | error e => rw [hl'] at hq; cases hq
  | ok q =>
    rw [hl'] at hq
    simp only [Except.ok.injEq] at hq
    have hl : lsqr (LinOp.ofMat Fᵀ) (o.Mᵀ *ᵥ c) 0 ⟨tol, tol, 10 ^ 8⟩ (some L) none = .ok q := by
      rw [hF]; exact hl'
    have hyq : out.y = topv q.x := by rw [hy, hq]
    have herr : res.errs = q.arnorms := by rw [hq]
    -- the number of iterations
    have hki : q.itn = k := by
      rw [herr] at hlog
      rcases C30_lsqr_arnorms _ _ _ _ _ _ hl with ⟨-, -, a2, -⟩ | ⟨-, l', a2, a3, -⟩
      · rw [a2] at hlog; cases hlog
      · rw [a2] at hlog
        obtain ⟨lg', b1, b2, -⟩ := C42_wrap_up clock l' (norm2 (A *ᵥ (o.M *ᵥ (o.Mᵀ *ᵥ c))))
        unfold finishLog at hlog
        rw [if_pos rfl, b1] at hlog
        have b3 := Except.ok.inj hlog
        rw [hlg] at b3
        obtain rfl := Option.some.inj b3
        rw [b2, List.length_cons, a3] at hk
        omega
    have p1 : (0 : ℝ) < 1 + ε := by linarith
    have p2 : (0 : ℝ) < 1 - ε := by linarith
    have lo_sq : ∀ z ∈ colSpace F, 1 / (1 + ε) * sqNorm z ≤ sqNorm (Fᵀ *ᵥ z) := fun z hz => by
      have := low_transpose (one_div_pos.2 (Real.sqrt_pos.2 p1)) q1 hz
      have := pow_le_pow_left₀ (mul_nonneg (by positivity) (norm2_nonneg _)) this 2
      rwa [mul_pow, div_pow, one_pow, Real.sq_sqrt p1.le, norm2_sq, norm2_sq] at this
    have hi_sq : ∀ z, sqNorm (Fᵀ *ᵥ z) ≤ 1 / (1 - ε) * sqNorm z := fun z => by
      have := high_transpose (by positivity) q2 z
      have := pow_le_pow_left₀ (norm2_nonneg _) this 2
      rwa [mul_pow, div_pow, one_pow, Real.sq_sqrt p2.le, norm2_sq, norm2_sq] at this
    have hrate := C67_lsqr_rate Fᵀ (o.Mᵀ *ᵥ c) _ _ none q hl ws
      (fun z => by rw [← hsol, sub_self, sqNorm_zero']; exact sqNorm_nonneg _)
      (1 / (1 + ε)) (1 / (1 - ε)) (one_div_pos.2 p1) (one_div_le_one_div_of_le p2 (by linarith))
      (fun z hz => ⟨lo_sq z (by rwa [transpose_transpose] at hz), hi_sq z⟩)
    rw [hsol, sub_self, sqNorm_zero', sub_zero, sub_zero, Option.getD_none, mulVec_zero, sub_zero, hki,
      ← mulVec_sub] at hrate
    obtain ⟨v, hv⟩ := C33_lsqr_row_space _ _ _ _ _ _ _ hl
    rw [Option.getD_none, zero_add, transpose_transpose] at hv
    have hmem : ws - q.x ∈ colSpace F := Submodule.sub_mem _ hwsF (mem_colSpace.2 ⟨v, hv.symm⟩)
    have hlow := lo_sq _ hmem
    obtain ⟨r0, r1⟩ := rho_le hε hε1
    have hρ : (2 * ((√(1 / (1 - ε)) - √(1 / (1 + ε))) / (√(1 / (1 - ε)) + √(1 / (1 + ε)))) ^ k) ^ 2 ≤
        (2 * ε ^ k) ^ 2 :=
      pow_le_pow_left₀ (by positivity)
        (mul_le_mul_of_nonneg_left (pow_le_pow_left₀ r0 r1 k) zero_le_two) 2
    have hd : sqNorm (ws - q.x) ≤ (2 * ε ^ k) ^ 2 * ((1 + ε) / (1 - ε)) * sqNorm ys := by
      have c1 : 1 / (1 + ε) * sqNorm (ws - q.x) ≤ (2 * ε ^ k) ^ 2 * (1 / (1 - ε) * sqNorm ys) := by
        refine hlow.trans (hrate.trans ?_)
        rw [← hwn]
        exact mul_le_mul hρ (hi_sq ws) (sqNorm_nonneg _) (sq_nonneg _)
      rw [div_mul_eq_mul_div, one_mul, div_le_iff₀ p1] at c1
      refine c1.trans_eq ?_
      field_simp
    have hproj : sqNorm (out.y - ys) ≤ sqNorm (ws - q.x) := by
      have : out.y - ys = topv (q.x - ws) := by rw [hyq, ← htop]; rfl
      rw [this, ← sqNorm_neg (ws - q.x), neg_sub]
      have e := sqNorm_catv (topv (q.x - ws)) (botv (q.x - ws))
      rw [catv_top_bot] at e
      linarith [sqNorm_nonneg (botv (q.x - ws))]
    exact hproj.trans hd

/-! ### Non-vacuity -/

/-- A sketch of full size that weighs the third equation by `11/10`. -/
noncomputable def weightGen : SkOpGen ℕ := fun d m w =>
  .ok (fun i j => if i.1 = j.1 then (if i.1 = 2 then 11 / 10 else 1) else 0, w)

theorem weightGen_ok {w : World ℕ} : weightGen 3 3 w = .ok (!![1, 0, 0; 0, 1, 0; 0, 0, 11 / 10], w) := by
  unfold weightGen
  congr 2
  ext i j
  fin_cases i <;> fin_cases j <;> simp

theorem weight_embeds : Embeds (!![1, 0, 0; 0, 1, 0; 0, 0, 11 / 10] : Matrix (Fin 3) (Fin 3) ℝ)
    (!![1; 1; 1] : Matrix (Fin 3) (Fin 1) ℝ) (1 / 10) := by
  intro x
  simp [sqNorm, Fin.sum_univ_three, mulVec, dotProduct]
  constructor <;> nlinarith [sq_nonneg (x 0)]

theorem weight_all : ∀ (d : ℕ) (w₁ : World ℕ) (S : Matrix (Fin d) (Fin 3) ℝ),
    (dimChecks 3 3 1 : Py ℕ ℕ) ⟨0, 0, []⟩ = .ok (d, w₁) →
      weightGen d 3 w₁ = .ok (S, ⟨0, 0, []⟩) → Embeds S (!![1; 1; 1] : Matrix (Fin 3) (Fin 1) ℝ) (1 / 10) ∧
        (SPOMode.qr = .svd → WellCond (aLift (S * (!![1; 1; 1] : Matrix (Fin 3) (Fin 1) ℝ)) (Real.sqrt 0))) := by
  intro d w₁ S h1 h2
  rw [demo31_dim] at h1
  cases h1
  rw [weightGen_ok] at h2
  cases h2
  exact ⟨weight_embeds, nofun⟩

/-- The hypotheses of `C67_spo_rate` and `C67_spo_apriori` are met, with a start that is not optimal:
`A = (1,1,1)'`, `b = (1,2,6)`, one iteration, a sketch with `ε = 1/10`. -/
example : (∃ out lg k, spoCall LinAlg.ref weightGen 3 .qr
      (!![1; 1; 1] : Matrix (Fin 3) (Fin 1) ℝ) ![1, 2, 6] 0 0 1 true ⟨0, 0, 0, 0, 0⟩ ⟨0, 0, []⟩ =
        .ok (out, ⟨0, 0, []⟩) ∧ out.log = some lg ∧ lg.errors.length = k + 1) ∧
    (1 : ℕ) * √((1 + 1 / 10) / (1 - 1 / 10)) < 10 ^ 8 - eps ∧
    IsRidgeMin (!![1; 1; 1] : Matrix (Fin 3) (Fin 1) ℝ) ![1, 2, 6] 0 ![3] := by
  have hcond : (1 : ℕ) * √((1 + 1 / 10) / (1 - 1 / 10)) < 10 ^ 8 - eps := by
    have h1 : eps ≤ 1 := by unfold eps; norm_num
    have h2 : √((1 + 1 / 10) / (1 - 1 / 10)) ≤ 2 := by
      rw [Real.sqrt_le_left (by norm_num)]; norm_num
    push_cast
    norm_num at h2 ⊢
    linarith
  have hmin : IsRidgeMin (!![1; 1; 1] : Matrix (Fin 3) (Fin 1) ℝ) ![1, 2, 6] 0 ![3] := by
    intro z
    simp [sqNorm, Fin.sum_univ_three, mulVec, dotProduct]
    nlinarith [sq_nonneg (z 0 - 3)]
  refine ⟨?_, hcond, hmin⟩
  obtain ⟨out, w', x, h1, h2, h3⟩ := C38_spo_exact LinAlg.ref weightGen 3 .qr
    (!![1; 1; 1] : Matrix (Fin 3) (Fin 1) ℝ) ![1, 2, 6] 0 le_rfl 1 le_rfl ⟨0, 0, 0, 0, 0⟩ ⟨0, 0, []⟩
    (demo31_aLift _ 0 (by simp)) (by norm_num) (by rw [demo31_pyInt]; norm_num)
    (fun d w _ _ => ⟨_, _, rfl⟩) (1 / 10) (by norm_num) (by norm_num) (by
      intro d hd v S w' _ h
      rw [demo31_pyInt] at hd
      have : d = 3 := by norm_num at hd; omega
      subst this
      rw [weightGen_ok] at h
      cases h
      exact ⟨weight_embeds, nofun⟩) nofun hcond
  have hw : w' = ⟨0, 0, []⟩ := by
    obtain ⟨d, S, w₁, -, -, g1, g2, -⟩ := spoCall_ok h1
    rw [demo31_dim] at g1
    cases g1
    rw [weightGen_ok] at g2
    cases g2
    rfl
  subst hw
  obtain ⟨-, x0, out0, -, g2, g3, -⟩ := C37_spo_vs_start LinAlg.ref weightGen 3 .qr _ _ 0 0 le_rfl 1 false _ _ _ _ h1
  have hx0 : out0.x = some ![342 / 107] := by
    obtain ⟨d, S, w₁, q1, q2, q3⟩ := C37_spo_start LinAlg.ref weightGen 3 .qr _ _ 0 0 le_rfl _ _ _ _ g2
    rw [demo31_dim] at q1
    cases q1
    rw [weightGen_ok] at q2
    cases q2
    refine ((q3 nofun).2 ![342 / 107] ?_).1 ?_
    · funext i
      fin_cases i
      simp [mulVec, dotProduct, Fin.sum_univ_three, Matrix.mul_apply]
      norm_num
    · simp [sqNorm, Fin.sum_univ_three, mulVec, dotProduct]
      norm_num
  rw [g3] at hx0
  cases hx0
  obtain ⟨lg, hlg⟩ := (C43_spo_logging LinAlg.ref weightGen 3 .qr _ _ 0 0 le_rfl 1 _ _ _ _ _ _ h1 g2 g3 nofun).2 (by
    intro hm
    have := hm ![3]
    simp [sqNorm, Fin.sum_univ_three, mulVec, dotProduct] at this
    norm_num at this)
  obtain ⟨d, S, w₁, k, M, l, lg', -, -, -, -, a1, a2, -⟩ :=
    C38_spo_log LinAlg.ref weightGen 3 .qr _ _ 0 0 le_rfl 1 _ _ _ _ hlg
  exact ⟨_, lg', l.length, hlg, a1, by rw [a2, List.length_cons]⟩

theorem weight_wellCond : WellCond ((!![1, 0, 0; 0, 1, 0; 0, 0, 11 / 10] : Matrix (Fin 3) (Fin 3) ℝ) *
    (!![1; 1; 1] : Matrix (Fin 3) (Fin 1) ℝ)) := by
  have e : ∀ x : Fin 1 → ℝ, norm2 (((!![1, 0, 0; 0, 1, 0; 0, 0, 11 / 10] : Matrix (Fin 3) (Fin 3) ℝ) *
      (!![1; 1; 1] : Matrix (Fin 3) (Fin 1) ℝ)) *ᵥ x) = Real.sqrt (321 / 100) * norm2 x := by
    intro x
    unfold norm2
    rw [← Real.sqrt_mul (by norm_num)]
    congr 1
    simp [sqNorm, Fin.sum_univ_three, mulVec, dotProduct, Matrix.mul_apply]
    ring
  refine ⟨Real.sqrt (321 / 100), Real.sqrt (321 / 100), fun x => (e x).ge, fun x => (e x).le,
    Real.sqrt_nonneg _, ?_⟩
  have h3 : (0 : ℝ) < Real.sqrt (321 / 100) := Real.sqrt_pos.2 (by norm_num)
  have : eps < 1 := by unfold eps; norm_num
  push_cast
  nlinarith

/-- The hypotheses of `C67_spu1_rate` are met: `y₁ + y₂ + y₃ = 6`, a sketch with `ε = 1/10`. -/
example : ∃ out lg k, spu1Call LinAlg.ref weightGen 3
      (!![1; 1; 1] : Matrix (Fin 3) (Fin 1) ℝ) ![6] 0 1 true ⟨0, 0, 0, 0, 0⟩ ⟨0, 0, []⟩ =
        .ok (out, ⟨0, 0, []⟩) ∧ out.log = some lg ∧ lg.errors.length = k + 1 := by
  have hc : (![6] : Fin 1 → ℝ) ≠ 0 := fun h => by simpa using congrFun h 0
  obtain ⟨out, w', h1, h2, h3⟩ := C39_spu1_exact LinAlg.ref weightGen 3
    (!![1; 1; 1] : Matrix (Fin 3) (Fin 1) ℝ) ![6] hc 1 le_rfl true
    ⟨0, 0, 0, 0, 0⟩ ⟨0, 0, []⟩ (by norm_num) (by rw [demo31_pyInt]; norm_num)
    (fun d w _ _ => ⟨_, _, rfl⟩) (1 / 10) (by norm_num) (by norm_num) (by
      intro d hd v S w' _ h
      rw [demo31_pyInt] at hd
      have : d = 3 := by norm_num at hd; omega
      subst this
      rw [weightGen_ok] at h
      cases h
      exact ⟨weight_embeds, weight_wellCond⟩) (by
      have h1 : eps ≤ 1 := by unfold eps; norm_num
      have h2 : √((1 + 1 / 10) / (1 - 1 / 10)) ≤ 2 := by
        rw [Real.sqrt_le_left (by norm_num)]; norm_num
      push_cast
      norm_num at h2 ⊢
      linarith)
  obtain ⟨d, S, w₁, o, res, -, -, g1, g2, ho, hr, hy, hlog⟩ := spu1_ok h1
  rw [demo31_dim] at g1
  cases g1
  rw [weightGen_ok] at g2
  cases g2
  unfold finishLog at hlog
  rw [if_pos rfl] at hlog
  cases he : res.errs with
  | scalar e => rw [he] at hlog; cases hlog
  | arr l =>
    rw [he] at hlog
    obtain ⟨lg, b1, b2, -⟩ := C42_wrap_up ⟨0, 0, 0, 0, 0⟩ l
      (norm2 ((!![1; 1; 1] : Matrix (Fin 3) (Fin 1) ℝ) *ᵥ (o.M *ᵥ (o.Mᵀ *ᵥ ![6]))))
    rw [b1] at hlog
    exact ⟨out, lg, l.length, h1, (Except.ok.inj hlog).symm, by rw [b2, List.length_cons]⟩

end Parla.Props
