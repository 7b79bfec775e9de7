import Verif.Model.DriverFunctions
import Verif.Props.SJLT
import Verif.Props.SPU1
import Verif.Props.SPS1

/-! # Properties C56-C58: the function drivers `sso1`, `spo1`, `spo3`, `spu1`, `sps` -/

namespace Parla.Props

open Matrix Parla Spec

variable {G : Type} {m n d : ℕ}

theorem pyInt_natCast (k : ℕ) : pyInt (k : ℝ) = k := by
  unfold pyInt
  rw [if_pos (Nat.cast_nonneg k)]
  simp

/-- the default embedding dimension is `3 n` -/
theorem pyInt_three (n : ℕ) : pyInt ((({} : SketchArgs).samplingFactor) * n) = 3 * n := by
  have : ((({} : SketchArgs).samplingFactor) * n : ℝ) = ((3 * n : ℕ) : ℝ) := by push_cast; rfl
  rw [this, pyInt_natCast]
  push_cast
  ring

/-- the sketch the drivers draw: total for `1 ≤ n ≤ d ≤ m`, `vec_nnz` entries per column -/
theorem skop_spec (R : NpRng G) (a : SketchArgs) {d m : ℕ} (hd : 0 < d) (hdm : d ≤ m) (w : World G) :
    ∃ (S : Matrix (Fin d) (Fin m) ℝ) (w' : World G), a.skop R d m w = .ok (S, w') ∧
      (a.vecNnz ≤ d → SparseCols S a.vecNnz) ∧
      w'.warns = w.warns + if d < min m a.vecNnz then 1 else 0 := by
  obtain ⟨S, w', h⟩ := (C44_sjlt_total R a.vecNnz d m w).1 (by omega)
  refine ⟨S, w', h, fun hs => (C44_sjlt_structure R a.vecNnz d m (by omega) w w' S h).1 hdm, ?_⟩
  rw [C44_sjlt_warns R a.vecNnz d m w w' S h, min_eq_left hdm, max_eq_right hdm]

/-- **C56**.  For `delta >= 0`, `sso1` raises AssertionError when `A` is wide or
`int(sampling_factor * n) < n`, and otherwise (for at least one column) returns, on every state of
the generator, the minimum-norm minimiser of the problem sketched by a matrix with
`d = min(int(sampling_factor * n), m)` rows whose columns have exactly `vec_nnz` entries
`±1/sqrt(vec_nnz)` (if `vec_nnz ≤ d`); the only warnings are the one of `dim_checks` (when `d` was
clamped) and the one of the sketching operator (when `d < vec_nnz`). -/
theorem C56_sso1 (la : LinAlg) (R : NpRng G) (A : Matrix (Fin m) (Fin n) ℝ) (b : Fin m → ℝ) (δ : ℝ)
    (hδ : 0 ≤ δ) (a : SketchArgs) (w : World G) :
    (m < n ∨ pyInt (a.samplingFactor * n) < n → sso1Fn la R A b δ a w = .error .assertion) ∧
    (0 < n → n ≤ m → (n : ℤ) ≤ pyInt (a.samplingFactor * n) →
      ∃ (x : Fin n → ℝ) (w' : World G) (d : ℕ) (S : Matrix (Fin d) (Fin m) ℝ),
        sso1Fn la R A b δ a w = .ok (x, w') ∧ (d : ℤ) = min (pyInt (a.samplingFactor * n)) m ∧
        sjltOperator R a.vecNnz d m
          { w with warns := w.warns + if (m : ℤ) < pyInt (a.samplingFactor * n) then 1 else 0 } = .ok (S, w') ∧
        (a.vecNnz ≤ d → SparseCols S a.vecNnz) ∧
        IsRidgeMin (S * A) (S *ᵥ b) δ x ∧
        (∀ z, IsRidgeMin (S * A) (S *ᵥ b) δ z → norm2 x ≤ norm2 z) ∧
        w'.warns = w.warns + (if (m : ℤ) < pyInt (a.samplingFactor * n) then 1 else 0) +
          (if d < min m a.vecNnz then 1 else 0)) := by
  obtain ⟨t1, -⟩ := C36_sso1_total la (a.skop R) a.samplingFactor A b δ .nan 1 w
  refine ⟨t1, fun hn hmn hsf => ?_⟩
  obtain ⟨dd, hdd, e1, e2, e3⟩ := (C35_dim_checks a.samplingFactor m n w).2 hmn hsf
  obtain ⟨S, w', hS, hsp, hw⟩ := skop_spec R a (d := dd) (by omega) e2
    { w with warns := w.warns + if (m : ℤ) < pyInt (a.samplingFactor * n) then 1 else 0 }
  have hx : sso1Fn la R A b δ a w =
      .ok (la.lstsqv (aLift (S * A) (Real.sqrt δ)) (catv (S *ᵥ b) 0), w') := by
    unfold sso1Fn
    rw [sso1_eq]
    have hw0 : ({ w with warns := w.warns + sso1Warns .nan 1 } : World G) = w := by
      unfold sso1Warns
      simp [Tol.isNaN]
    rw [hw0, Py.bind_eq_of_ok hdd, Py.bind_eq_of_ok hS]
    rfl
  obtain ⟨k1, k2⟩ := lstsqv_lift la (S * A) (S *ᵥ b) hδ
  refine ⟨_, w', dd, S, hx, e3, hS, hsp, ridge_of_normal hδ k1, fun z hz => ?_, hw⟩
  exact Real.sqrt_le_sqrt (k2 z hz)

/-- **C56** (default arguments): the sketch has `min(3 n, m)` rows, a warning is given if `m < 3 n`,
and another one if there are fewer than 8 rows in the sketch (of a matrix with more rows). -/
theorem C56_sso1_default (la : LinAlg) (R : NpRng G) (A : Matrix (Fin m) (Fin n) ℝ) (b : Fin m → ℝ)
    (δ : ℝ) (hδ : 0 ≤ δ) (w : World G) (hn : 0 < n) (hmn : n ≤ m) :
    ∃ (x : Fin n → ℝ) (w' : World G) (S : Matrix (Fin (min (3 * n) m)) (Fin m) ℝ),
      sso1Fn la R A b δ {} w = .ok (x, w') ∧
      sjltOperator R 8 (min (3 * n) m) m { w with warns := w.warns + if m < 3 * n then 1 else 0 } = .ok (S, w') ∧
      (3 ≤ n → 8 ≤ m → SparseCols S 8) ∧ IsRidgeMin (S * A) (S *ᵥ b) δ x ∧
      (∀ z, IsRidgeMin (S * A) (S *ᵥ b) δ z → norm2 x ≤ norm2 z) ∧
      w'.warns = w.warns + (if m < 3 * n then 1 else 0) +
        (if min (3 * n) m < min m 8 then 1 else 0) := by
  obtain ⟨x, w', dd, S, h1, h2, h3, h4, h5, h6, h7⟩ := (C56_sso1 la R A b δ hδ {} w).2 hn hmn
    (by rw [pyInt_three]; omega)
  rw [pyInt_three] at h2 h3 h7
  have hd : dd = min (3 * n) m := by omega
  subst hd
  have : ((m : ℤ) < 3 * n) ↔ m < 3 * n := by omega
  simp only [this] at h3
  refine ⟨x, w', S, h1, h3, fun _ _ => h4 (show 8 ≤ _ by omega), h5, h6, ?_⟩
  rw [h7]
  simp only [this]

/-- a full call of `SPO` without logging, for a given sketch -/
theorem spo_total (la : LinAlg) (mode : SPOMode) (S : Matrix (Fin d) (Fin m) ℝ)
    (A : Matrix (Fin m) (Fin n) ℝ) (b : Fin m → ℝ) (δ tol : ℝ) (hδ : 0 ≤ δ) (L : ℤ) (hL : 0 ≤ L)
    (clock : LogTimes) (hn : 0 < n) (hd : n ≤ d)
    (hm : mode = .svd ∨ (mode = .qr ∨ mode = .chol) ∧ FullColRank (aLift (S * A) (Real.sqrt δ))) :
    (∃ out, spoPost la mode S A b δ tol L false clock = .ok out) ∧
    ((∃ out, spoPost la mode S A b δ tol L true clock = .ok out) ∨
      spoPost la mode S A b δ tol L true clock = .error .value) := by
  have hf : ∃ f, spoFactor la mode S A b δ = .ok f := by
    rcases hm with rfl | ⟨h, hr⟩
    · obtain ⟨o, ho⟩ := (C26_empty la (aLift (S * A) (Real.sqrt δ))).2 (by omega) (by omega)
      refine ⟨⟨.gen o.r o.M, (topRows o.U)ᵀ *ᵥ (S *ᵥ b), o.M *ᵥ ((topRows o.U)ᵀ *ᵥ (S *ᵥ b))⟩, ?_⟩
      show spoSVD la S A b δ = _
      unfold spoSVD
      simp only [ho]
    · obtain ⟨f, hf, -⟩ := C37_spo_preconditioner la mode S A b δ hδ hd (Or.inr ⟨h, hr⟩)
      exact ⟨f, hf⟩
  obtain ⟨f, hf⟩ := hf
  obtain ⟨hg, -⟩ := spoFactor_ok la hδ hd hf
  obtain ⟨res, hr⟩ := C34_pcss2_total A (.vec b) none δ hδ tol L hL f.P hg.ok (spoStart A b δ f)
    (Or.inl ⟨rfl, b, rfl⟩)
  obtain ⟨s1, s2, s3⟩ := spoPost_eq clock hδ hd hf hr
  refine ⟨⟨_, s1⟩, ?_⟩
  cases he : res.errs with
  | arr l => obtain ⟨lg, hlg⟩ := s2 l he; exact Or.inl ⟨_, hlg⟩
  | scalar e => exact Or.inr (s3 e he)

theorem aLift_full_of_pos (B : Matrix (Fin d) (Fin n) ℝ) {δ : ℝ} (hδ : 0 < δ) :
    FullColRank (aLift B (Real.sqrt δ)) := by
  refine fullColRank_iff_inj.2 fun x hx => ?_
  have h := sqNorm_aLift B (Real.sqrt δ) x
  rw [hx, Real.sq_sqrt hδ.le, show sqNorm (0 : Fin (d + liftRows n (Real.sqrt δ)) → ℝ) = 0 by
    simp [sqNorm]] at h
  have h1 : 0 ≤ sqNorm (B *ᵥ x) := sqNorm_nonneg _
  have h2 : 0 ≤ sqNorm x := sqNorm_nonneg _
  exact sqNorm_eq_zero.1 (by nlinarith)

/-- **C57** (`spo1`, outcomes).  For `1 ≤ n ≤ m`, `int(sampling_factor*n) ≥ n` and `iter_lim ≥ 0`,
`spo1` — on every state of the generator, whatever the rank of `A` — either returns a point whose
objective is at most that of 0, with a log, or raises ValueError. -/
theorem C57_spo1_outcomes (la : LinAlg) (R : NpRng G) (A : Matrix (Fin m) (Fin n) ℝ) (b : Fin m → ℝ)
    (δ tol : ℝ) (hδ : 0 ≤ δ) (L : ℤ) (hL : 0 ≤ L) (clock : LogTimes) (a : SketchArgs) (w : World G)
    (hn : 0 < n) (hmn : n ≤ m) (hsf : (n : ℤ) ≤ pyInt (a.samplingFactor * n)) :
    (∃ out w' x lg, spo1Fn la R A b δ tol L clock a w = .ok (out, w') ∧ out.x = some x ∧
      out.log = some lg ∧ sqNorm (A *ᵥ x - b) + δ * sqNorm x ≤ sqNorm b) ∨
    spo1Fn la R A b δ tol L clock a w = .error .value := by
  obtain ⟨dd, hdd, e1, e2, e3⟩ := (C35_dim_checks a.samplingFactor m n w).2 hmn hsf
  obtain ⟨S, w', hS, -, -⟩ := skop_spec R a (d := dd) (by omega) e2 _
  have key := spoCall_eq (la := la) (gen := a.skop R) .svd A b δ tol L true clock hdd hS
  obtain ⟨-, h | h⟩ := spo_total la .svd S A b δ tol hδ L hL clock hn e1 (Or.inl rfl)
  · left
    obtain ⟨out, h⟩ := h
    rw [h] at key
    obtain ⟨x, hx, hx'⟩ := C37_spo_never_worse la _ _ .svd A b δ tol hδ L true clock w w' out key
    obtain ⟨f, res, -, -, -, -, hlog⟩ := spoPost_ok hδ e1 h
    obtain ⟨l, lg, -, -, hlg⟩ := hlog rfl
    exact ⟨out, w', x, lg, key, hx, hlg, hx'⟩
  · right
    rw [h] at key
    exact key

/-- the outcomes of `SPO` in the QR and Cholesky modes, with logging, when the lifted sketch has full
column rank -/
theorem spo_outcomes (la : LinAlg) (gen : SkOpGen G) (sf : ℝ) (A : Matrix (Fin m) (Fin n) ℝ)
    (b : Fin m → ℝ) (δ tol : ℝ) (hδ : 0 ≤ δ) (L : ℤ) (hL : 0 ≤ L) (clock : LogTimes) (w w₁ w' : World G)
    (hn : 0 < n) {dd : ℕ} (S : Matrix (Fin dd) (Fin m) ℝ)
    (hdd : (dimChecks sf m n : Py G ℕ) w = .ok (dd, w₁)) (hS : gen dd m w₁ = .ok (S, w'))
    (e1 : n ≤ dd) (mode : SPOMode) (hm : mode = .qr ∨ mode = .chol)
    (hr : FullColRank (aLift (S * A) (Real.sqrt δ))) :
    ∃ x0, (IsRidgeMin (S * A) (S *ᵥ b) δ x0 ∧ sqNorm (A *ᵥ x0 - b) + δ * sqNorm x0 < sqNorm b ∨
        x0 = 0 ∧ ∀ z, IsRidgeMin (S * A) (S *ᵥ b) δ z → sqNorm b ≤ sqNorm (A *ᵥ z - b) + δ * sqNorm z) ∧
      (IsRidgeMin A b δ x0 → spoCall la gen sf mode A b δ tol L true clock w = .error .value) ∧
      (¬ IsRidgeMin A b δ x0 → ∃ out x lg,
        spoCall la gen sf mode A b δ tol L true clock w = .ok (out, w') ∧
        out.x = some x ∧ out.log = some lg ∧
        sqNorm (A *ᵥ x - b) + δ * sqNorm x ≤ sqNorm (A *ᵥ x0 - b) + δ * sqNorm x0) := by
  have hm' : mode ≠ .svd := by rcases hm with rfl | rfl <;> simp
  obtain ⟨⟨o, ho⟩, -⟩ := spo_total la mode S A b δ tol hδ L hL clock hn e1 (Or.inr ⟨hm, hr⟩)
  obtain ⟨⟨o0, ho0⟩, -⟩ := spo_total la mode S A b δ tol hδ 0 le_rfl clock hn e1 (Or.inr ⟨hm, hr⟩)
  have key := spoCall_eq (la := la) (gen := gen) mode A b δ tol L false clock hdd hS
  have key0 := spoCall_eq (la := la) (gen := gen) mode A b δ tol 0 false clock hdd hS
  rw [ho] at key
  rw [ho0] at key0
  obtain ⟨x, x0, out0, hx, hc0, hx0, hle⟩ :=
    C37_spo_vs_start la _ _ mode A b δ tol hδ L false clock w w' o key
  have : out0 = o0 := by rw [key0] at hc0; cases hc0; rfl
  subst this
  obtain ⟨c1, c2⟩ := C43_spo_logging la _ _ mode A b δ tol hδ L clock w w' o out0 x0 key key0 hx0
    (fun h => absurd h hm')
  refine ⟨x0, ?_, c1, fun hne => ?_⟩
  · obtain ⟨d', S', w₁', g1, g2, g3⟩ := C37_spo_start la _ _ mode A b δ tol hδ clock w w' out0 key0
    rw [hdd] at g1
    cases g1
    rw [hS] at g2
    cases g2
    obtain ⟨-, g3⟩ := g3 (fun h => absurd h hm')
    obtain ⟨f, -, -, -, f4, f5, -⟩ := C37_spo_preconditioner la mode S A b δ hδ e1 (Or.inr ⟨hm, hr⟩)
    by_cases hlt : sqNorm (A *ᵥ f.x - b) + δ * sqNorm f.x < sqNorm b
    · have := (g3 f.x f4).1 hlt
      rw [hx0] at this
      cases this
      exact Or.inl ⟨f5, hlt⟩
    · have := (g3 f.x f4).2 (not_lt.1 hlt)
      rw [hx0] at this
      cases this
      refine Or.inr ⟨rfl, fun z hz => ?_⟩
      have hzn := normal_of_ridge la hδ hz
      have hz' : ((S * A)ᵀ * (S * A) + δ • 1) *ᵥ z = (S * A)ᵀ *ᵥ (S *ᵥ b) := by
        rw [add_mulVec, smul_mulVec, one_mulVec, ← mulVec_mulVec]
        rw [mulVec_sub] at hzn
        have := sub_eq_zero.1 hzn
        rw [← this]
        abel
      by_contra hcon
      have := (g3 z hz').1 (not_le.1 hcon)
      rw [hx0] at this
      have h0 : z = 0 := by cases this; rfl
      rw [h0] at hcon
      simp [sqNorm] at hcon
  · obtain ⟨lg, hlg⟩ := c2 hne
    exact ⟨_, x, lg, hlg, hx, rfl, hle⟩

/-- **C57** (`spo3`, outcomes).  Under the same conditions `spo3` with mode `'qr'` or `'chol'` raises
LinAlgError exactly when the (lifted) sketch lacks full column rank; otherwise it returns a point
whose objective is at most that of 0, or raises ValueError — the latter exactly when the point it
starts from already minimises the objective.  In particular for `delta > 0` it never raises
LinAlgError.  Any other mode than `'qr'`, `'chol'`, `'svd'` raises ValueError, and mode `'svd'` is
`spo1`. -/
theorem C57_spo3_outcomes (la : LinAlg) (R : NpRng G) (A : Matrix (Fin m) (Fin n) ℝ) (b : Fin m → ℝ)
    (δ tol : ℝ) (hδ : 0 ≤ δ) (L : ℤ) (hL : 0 ≤ L) (clock : LogTimes) (a : SketchArgs) (w : World G)
    (hn : 0 < n) (hmn : n ≤ m) (hsf : (n : ℤ) ≤ pyInt (a.samplingFactor * n)) :
    (spo3Fn la R A b δ tol L clock a .svd w = spo1Fn la R A b δ tol L clock a w) ∧
    (spo3Fn la R A b δ tol L clock a .other w = .error .value) ∧
    ∀ mode, mode = .qr ∨ mode = .chol →
      ∃ (d : ℕ) (S : Matrix (Fin d) (Fin m) ℝ) (w' : World G),
        (d : ℤ) = min (pyInt (a.samplingFactor * n)) m ∧
        sjltOperator R a.vecNnz d m
          { w with warns := w.warns + if (m : ℤ) < pyInt (a.samplingFactor * n) then 1 else 0 } = .ok (S, w') ∧
        (¬ FullColRank (aLift (S * A) (Real.sqrt δ)) →
          spo3Fn la R A b δ tol L clock a mode w = .error .linAlg) ∧
        (FullColRank (aLift (S * A) (Real.sqrt δ)) → ∃ x0,
          (IsRidgeMin (S * A) (S *ᵥ b) δ x0 ∧
              sqNorm (A *ᵥ x0 - b) + δ * sqNorm x0 < sqNorm b ∨
            x0 = 0 ∧ ∀ z, IsRidgeMin (S * A) (S *ᵥ b) δ z →
              sqNorm b ≤ sqNorm (A *ᵥ z - b) + δ * sqNorm z) ∧
          (IsRidgeMin A b δ x0 → spo3Fn la R A b δ tol L clock a mode w = .error .value) ∧
          (¬ IsRidgeMin A b δ x0 → ∃ out x lg, spo3Fn la R A b δ tol L clock a mode w = .ok (out, w') ∧
            out.x = some x ∧ out.log = some lg ∧
            sqNorm (A *ᵥ x - b) + δ * sqNorm x ≤ sqNorm (A *ᵥ x0 - b) + δ * sqNorm x0)) ∧
        (0 < δ → FullColRank (aLift (S * A) (Real.sqrt δ))) := by
  obtain ⟨dd, hdd, e1, e2, e3⟩ := (C35_dim_checks a.samplingFactor m n w).2 hmn hsf
  obtain ⟨S, w', hS, -, -⟩ := skop_spec R a (d := dd) (by omega) e2 
    { w with warns := w.warns + if (m : ℤ) < pyInt (a.samplingFactor * n) then 1 else 0 }
  refine ⟨rfl, C37_spo_unknown_mode la _ _ A b δ tol L true clock w _ w' S hdd hS, fun mode hm => ?_⟩
  have hm' : mode ≠ .svd := by rcases hm with rfl | rfl <;> simp
  refine ⟨dd, S, w', e3, hS, fun hr => ?_, fun hr => ?_, fun hpos => ?_⟩
  · have key := spoCall_eq (la := la) (gen := a.skop R) mode A b δ tol L true clock hdd hS
    rw [C37_spo_singular la mode S A b δ tol L true clock hδ e1 hm hr] at key
    exact key
  · exact spo_outcomes la _ _ A b δ tol hδ L hL clock w _ w' hn S hdd hS e1 mode hm hr
  · exact aLift_full_of_pos _ hpos

/-- **C57** (`spo3`, default mode).  Called without a `mode`, `spo3` does what it does with `mode='qr'`: in
particular (unlike `mode='svd'`) it raises LinAlgError when the sketch lacks full column rank and `delta = 0`. -/
theorem C57_spo3_default (la : LinAlg) (R : NpRng G) (A : Matrix (Fin m) (Fin n) ℝ) (b : Fin m → ℝ)
    (δ tol : ℝ) (hδ : 0 ≤ δ) (L : ℤ) (hL : 0 ≤ L) (clock : LogTimes) (a : SketchArgs) (w : World G)
    (hn : 0 < n) (hmn : n ≤ m) (hsf : (n : ℤ) ≤ pyInt (a.samplingFactor * n)) :
    (spo3Fn la R A b δ tol L clock a) w = spo3Fn la R A b δ tol L clock a .qr w ∧
    (δ = 0 → ¬ FullColRank A → (spo3Fn la R A b δ tol L clock a) w = .error .linAlg) := by
  refine ⟨rfl, fun h0 hA => ?_⟩
  obtain ⟨-, -, h3⟩ := C57_spo3_outcomes la R A b δ tol hδ L hL clock a w hn hmn hsf
  obtain ⟨d, S, w', -, -, h4, -, -⟩ := h3 .qr (Or.inl rfl)
  refine h4 fun h => hA (fullColRank_iff_inj.2 fun x hx => ?_)
  refine fullColRank_iff_inj.1 h x (sqNorm_eq_zero.1 ?_)
  rw [sqNorm_eq_dot, dot_mulVec, mulVec_mulVec, aLift_gram, h0, Real.sqrt_zero]
  simp [← mulVec_mulVec, hx]

/-- the outcomes of `SPU1` with logging for a given sketch -/
theorem spu1_given (la : LinAlg) {gen : SkOpGen G} {sf : ℝ} (A : Matrix (Fin m) (Fin n) ℝ) (c : Fin n → ℝ) (hc : c ≠ 0)
    (tol : ℝ) (L : ℤ) (hL : 0 ≤ L) (clock : LogTimes) {w w₁ w' : World G} (hn : 0 < n) {S : Matrix (Fin d) (Fin m) ℝ}
    (e1 : n ≤ d) (hdd : (dimChecks sf m n : Py G ℕ) w = .ok (d, w₁)) (hS : gen d m w₁ = .ok (S, w')) :
    (∃ out lg, spu1Call la gen sf A c tol L true clock w = .ok (out, w') ∧ out.log = some lg ∧
        out.y ∈ colSpace A ∧ (Aᵀ *ᵥ out.y = c → IsMinNormSol A c out.y)) ∨
      spu1Call la gen sf A c tol L true clock w = .error .value ∧ ¬ WellCond (S * A) := by
  have key := spu1_eq la (gen := gen) A c tol L true clock hdd hS
  obtain ⟨o, ho⟩ := (C26_empty la (S * A)).2 (by omega) (by omega)
  obtain ⟨res, hr⟩ := C34_pcss2_total A .none (some c) 0 le_rfl tol L hL (.gen o.r o.M) trivial none
    (Or.inr ⟨hc, Or.inl rfl⟩)
  rcases C34_pcss2_under_log A .none c 0 le_rfl tol L (.gen o.r o.M) trivial none (Or.inl rfl) hc res hr
    with ⟨g1, -, g3⟩ | ⟨l, g1, -⟩
  · right
    have hpost : spuPost la S A c tol L true clock = .error .value := by
      unfold spuPost
      rw [ho]
      simp only [bind, Except.bind, hr, g1, finishLog, wrapUp, if_true, Except.map]
    rw [hpost] at key
    refine ⟨key, fun hw => hc ?_⟩
    have hr := WellCond.no_truncation la hw ho
    obtain ⟨-, -, -, -, -, -, g4⟩ := C26_svd_right_precond la _ o ho
    obtain ⟨-, e2⟩ := g4 hr
    have hinj : ∀ x, A *ᵥ x = 0 → x = 0 := by
      intro x hx
      refine fullColRank_iff_inj.1 (WellCond.fullColRank hw) x ?_
      rw [← mulVec_mulVec, hx, mulVec_zero]
    have l4 : (aLift A (Real.sqrt 0))ᵀ *ᵥ (aLift A (Real.sqrt 0) *ᵥ (o.M *ᵥ (o.Mᵀ *ᵥ c))) = 0 := by
      have : aLift A (Real.sqrt 0) *ᵥ (o.M *ᵥ (o.Mᵀ *ᵥ c)) = 0 := g3
      rw [this, mulVec_zero]
    rw [mulVec_mulVec, aLift_gram_zero] at l4
    have l5 : sqNorm (A *ᵥ (o.M *ᵥ (o.Mᵀ *ᵥ c))) = 0 := by
      rw [sqNorm_eq_dot, dot_mulVec, mulVec_mulVec, l4, zero_dotProduct]
    have l7 := congrArg (((S * A)ᵀ * (S * A)) *ᵥ ·) (hinj _ (sqNorm_eq_zero.1 l5))
    simp only [mulVec_zero] at l7
    rw [mulVec_mulVec, mulVec_mulVec] at l7
    rwa [Matrix.mul_assoc _ o.M, e2, one_mulVec] at l7
  · left
    have hpost : ∃ lg, spuPost la S A c tol L true clock = .ok ⟨res.y, some lg⟩ := by
      unfold spuPost
      rw [ho]
      simp only [bind, Except.bind, hr, g1, finishLog, wrapUp, if_true, Except.map, pure, Except.pure]
      exact ⟨_, rfl⟩
    obtain ⟨lg, hpost⟩ := hpost
    rw [hpost] at key
    refine ⟨_, lg, key, rfl, C39_spu1_range la _ _ A c hc tol L true clock w w' _ key,
      (C39_spu1_min_norm la _ _ A c hc tol L true clock w w' _ key).1⟩

/-- **C57** (`spu1`, outcomes).  Under the same conditions `spu1` raises TypeError for `c = 0`; for
`c ≠ 0` it either returns a `y` in the range of `A` — the minimum-norm solution as soon as it
satisfies `A'y = c` — or raises ValueError, and it cannot raise if the sketch is well conditioned. -/
theorem C57_spu1_outcomes (la : LinAlg) (R : NpRng G) (A : Matrix (Fin m) (Fin n) ℝ) (c : Fin n → ℝ)
    (tol : ℝ) (L : ℤ) (hL : 0 ≤ L) (clock : LogTimes) (a : SketchArgs) (w : World G)
    (hn : 0 < n) (hmn : n ≤ m) (hsf : (n : ℤ) ≤ pyInt (a.samplingFactor * n)) :
    (c = 0 → spu1Fn la R A c tol L clock a w = .error .type) ∧
    (c ≠ 0 → ∃ (d : ℕ) (S : Matrix (Fin d) (Fin m) ℝ) (w' : World G),
      (d : ℤ) = min (pyInt (a.samplingFactor * n)) m ∧
      sjltOperator R a.vecNnz d m { w with warns := w.warns + if (m : ℤ) < pyInt (a.samplingFactor * n) then 1 else 0 } =
        .ok (S, w') ∧
      ((∃ out lg, spu1Fn la R A c tol L clock a w = .ok (out, w') ∧ out.log = some lg ∧
          out.y ∈ colSpace A ∧ (Aᵀ *ᵥ out.y = c → IsMinNormSol A c out.y)) ∨
        spu1Fn la R A c tol L clock a w = .error .value ∧ ¬ WellCond (S * A))) := by
  obtain ⟨dd, hdd, e1, e2, e3⟩ := (C35_dim_checks a.samplingFactor m n w).2 hmn hsf
  obtain ⟨S, w', hS, -, -⟩ := skop_spec R a (d := dd) (by omega) e2
    { w with warns := w.warns + if (m : ℤ) < pyInt (a.samplingFactor * n) then 1 else 0 }
  refine ⟨fun hc => ?_, fun hc => ⟨dd, S, w', e3, hS, ?_⟩⟩
  · subst hc
    exact C39_spu1_zero la _ _ A (by omega) tol L true clock w _ w' S hdd hS
  · exact spu1_given la A c hc tol L hL clock hn e1 hdd hS

/-- the sketch of `sps`: total whenever `m` and the embedding dimension are positive -/
theorem skop_total (R : NpRng G) (a : SketchArgs) {d m : ℕ} (hd : 0 < d) (hm : 0 < m) (w : World G) :
    ∃ (S : Matrix (Fin d) (Fin m) ℝ) (w' : World G), a.skop R d m w = .ok (S, w') :=
  (C44_sjlt_total R a.vecNnz d m w).1 (by omega)

/-- **C58** (`sps`, result with PCG).  Whatever the sketch, every returned pair satisfies `y = b - A x`
exactly; the log starts with `||A'b - c||`, has at most `iter_lim` further entries, and its entries
are the true normal-equation residuals of the iterates. -/
theorem C58_sps_pcg_result (la : LinAlg) (R : NpRng G) (A : Matrix (Fin m) (Fin n) ℝ)
    (b : Option (Fin m → ℝ)) (c : Option (Fin n → ℝ)) (δ tol : ℝ) (L : ℤ) (clock : LogTimes)
    (a : SketchArgs) (w w' : World G) (out : SPSOut m n)
    (h : spsFn la R A b c δ tol L clock a .pcg w = .ok (out, w')) :
    ∃ x lg l, out.x = some x ∧ out.y = some (b.getD 0 - A *ᵥ x) ∧ out.log = some lg ∧
      lg.errors = norm2 (Aᵀ *ᵥ b.getD 0 - cVec c) :: l ∧ (l.length : ℤ) ≤ L ∧
      ∀ i (hi : i < l.length), ∃ oi xi,
        spsFn la R A b c δ tol i clock a .pcg w = .ok (oi, w') ∧ oi.x = some xi ∧
        l[i] = norm2 (Aᵀ *ᵥ (A *ᵥ xi) + δ • xi - (Aᵀ *ᵥ b.getD 0 - cVec c)) := by
  obtain ⟨x, h1, h2, -, h3⟩ := C41_sps1_result la _ _ .left A b c δ tol L true clock w w' out h
  obtain ⟨lg, l, g1, g2, g3, g4⟩ := h3 rfl
  exact ⟨x, lg, l, h1, h2, g1, g2, g3, g4⟩

/-- **C58** (`sps`, convergence with PCG).  For `delta ≥ 0`, `tol ≥ 0`, at least one row and column,
`n < 1/eps`, `int(sampling_factor*n) ≥ n` and a solvable system, `sps` returns on every state of the
generator for which the sketch of `A` is not the zero matrix (or `delta > 0`), and with
`iter_lim ≥ n` the normal-equation residual is at most `tol` times that of the start; for `tol = 0`
the block system is solved exactly. -/
theorem C58_sps_pcg_converges (la : LinAlg) (R : NpRng G) (A : Matrix (Fin m) (Fin n) ℝ)
    (b : Option (Fin m → ℝ)) (c : Option (Fin n → ℝ)) (δ tol : ℝ) (hδ : 0 ≤ δ) (ht : 0 ≤ tol) (L : ℤ)
    (hL : 0 ≤ L) (clock : LogTimes) (a : SketchArgs) (w : World G) (hn : 0 < n) (hm : 0 < m)
    (hne : (n : ℝ) * eps < 1) (hsf : (n : ℤ) ≤ pyInt (a.samplingFactor * n))
    (hx : ∃ xs ys, SolvesSaddle A (b.getD 0) (cVec c) δ xs ys) :
    ∃ (d : ℕ) (S : Matrix (Fin d) (Fin m) ℝ) (w' : World G), (d : ℤ) = pyInt (a.samplingFactor * n) ∧
      sjltOperator R a.vecNnz d m w = .ok (S, w') ∧
      (S * A ≠ 0 ∨ 0 < δ → ∃ out x y out0 x0,
        spsFn la R A b c δ tol L clock a .pcg w = .ok (out, w') ∧
        out.x = some x ∧ out.y = some y ∧ y = b.getD 0 - A *ᵥ x ∧
        spsFn la R A b c δ tol 0 clock a .pcg w = .ok (out0, w') ∧ out0.x = some x0 ∧
        ((n : ℤ) ≤ L → norm2 (Aᵀ *ᵥ (A *ᵥ x) + δ • x - (Aᵀ *ᵥ b.getD 0 - cVec c)) ≤
          tol * norm2 (Aᵀ *ᵥ (A *ᵥ x0) + δ • x0 - (Aᵀ *ᵥ b.getD 0 - cVec c))) ∧
        ((n : ℤ) ≤ L → tol = 0 → SolvesSaddle A (b.getD 0) (cVec c) δ x y)) := by
  obtain ⟨d, hd⟩ : ∃ d : ℕ, (d : ℤ) = pyInt (a.samplingFactor * n) :=
    ⟨(pyInt (a.samplingFactor * n)).toNat, by omega⟩
  obtain ⟨S, w', hS⟩ := skop_total R a (d := d) (m := m) (by omega) hm w
  refine ⟨d, S, w', hd, hS, fun hg => ?_⟩
  obtain ⟨out, x, y, out0, x0, h1, h2, h3, h4, h5, h6, -, h7, h8⟩ :=
    C41_sps1_converges la (a.skop R) a.samplingFactor .left A b c δ tol hδ ht L hL true clock w w'
      (by omega) hne hx (Or.inl ⟨d, S, hd, by omega, by simp, hS, hg⟩)
  exact ⟨out, x, y, out0, x0, h1, h2, h3, h4, h5, h6, h7, h8⟩

/-- **C58** (`sps`, default method).  Called without a `method`, `sps` does what it does with `method='pcg'`: for
`delta > 0` and nonnegative `tol` and `iter_lim` it returns on every state of the generator, also if `b` and `c` are
both nonzero (where `method='lsqr'` raises ValueError). -/
theorem C58_sps_default (la : LinAlg) (R : NpRng G) (A : Matrix (Fin m) (Fin n) ℝ)
    (b : Option (Fin m → ℝ)) (c : Option (Fin n → ℝ)) (δ tol : ℝ) (L : ℤ) (clock : LogTimes) (a : SketchArgs)
    (w : World G) :
    (spsFn la R A b c δ tol L clock a) w = spsFn la R A b c δ tol L clock a .pcg w ∧
    (0 < δ → 0 ≤ tol → 0 ≤ L → 0 < n → 0 < m → (n : ℝ) * eps < 1 → (n : ℤ) ≤ pyInt (a.samplingFactor * n) →
      ∃ out w', (spsFn la R A b c δ tol L clock a) w = .ok (out, w')) := by
  refine ⟨rfl, fun hδ ht hL hn hm hne hsf => ?_⟩
  have hpd : IsUnit (Aᵀ * A + δ • (1 : Matrix (Fin n) (Fin n) ℝ)).det := by
    have h := (gram_posDef_iff (aLift A (Real.sqrt δ))).2 (aLift_full_of_pos A hδ)
    rw [aLift_gram_sqrt A hδ.le] at h
    exact (Matrix.isUnit_iff_isUnit_det _).1 h.isUnit
  obtain ⟨d, S, w', -, -, h⟩ := C58_sps_pcg_converges la R A b c δ tol hδ.le ht L hL clock a w hn hm hne hsf
    ⟨(Aᵀ * A + δ • (1 : Matrix (Fin n) (Fin n) ℝ))⁻¹ *ᵥ (Aᵀ *ᵥ b.getD 0 - cVec c), _, by
      refine ⟨sub_add_cancel _ _, ?_⟩
      have e := congrArg (· *ᵥ (Aᵀ *ᵥ b.getD 0 - cVec c)) (mul_nonsing_inv _ hpd)
      simp only [← mulVec_mulVec, one_mulVec, add_mulVec, smul_mulVec] at e
      rw [mulVec_sub, sub_sub, e]
      abel⟩
  obtain ⟨out, -, -, -, -, h1, -⟩ := h (Or.inr hδ)
  exact ⟨out, w', h1⟩

/-- **C58** (`sps`, the LSQR method).  An unknown method raises ValueError; and `method='lsqr'` raises
ValueError for all `b ≠ 0`, `c ≠ 0`, whatever the sampling factor and the generator: LSQR cannot be
used for a general saddle point system. -/
theorem C58_sps_rejects (la : LinAlg) (R : NpRng G) (A : Matrix (Fin m) (Fin n) ℝ)
    (b : Option (Fin m → ℝ)) (c : Option (Fin n → ℝ)) (δ tol : ℝ) (L : ℤ) (clock : LogTimes)
    (a : SketchArgs) (w : World G) :
    spsFn la R A b c δ tol L clock a .other w = .error .value ∧
    (b.getD 0 ≠ 0 → cVec c ≠ 0 → spsFn la R A b c δ tol L clock a .lsqr w = .error .value) := by
  refine ⟨rfl, fun hb hc => ?_⟩
  have hn : n ≠ 0 := by rintro rfl; exact hc (Subsingleton.elim _ _)
  have hpost : ∀ p : SPSPrec n, sps1Post PcSS2 A (b.getD 0) c δ tol L p true clock = .error .value := by
    intro p
    unfold sps1Post PcSS2
    simp only [bind, Except.bind,
      (C34_pcss2_rejects A c δ tol L (.gen p.r p.M) p.z).2.1 (b.getD 0) hb hc]
  have hgen : ∀ (r k : ℕ) (w : World G), (∃ S w', a.skop R r k w = .ok (S, w')) ∨
      a.skop R r k w = .error .value := by
    intro r k w
    obtain ⟨h1, h2⟩ := C44_sjlt_total R a.vecNnz r k w
    by_cases h : 0 < max r k ∧ (0 < min r k ∨ a.vecNnz = 0)
    · exact Or.inl (h1 h)
    · exact Or.inr (h2 h)
  show sps1Call la (a.skop R) a.samplingFactor PcSS2 .left A b c δ tol L true clock w = _
  unfold sps1Call
  simp only [Py.assert_pos_bind (show NystromStrategy.left ≠ .other by simp)]
  by_cases hd : pyInt (a.samplingFactor * n) < 0
  · rw [if_pos hd]; rfl
  · rw [if_neg hd]
    simp only [hpost]
    by_cases hdn : (pyInt (a.samplingFactor * n)).toNat < n
    · rw [if_neg (not_not.2 hdn), if_neg (by simp)]
      rcases hgen (pyInt (a.samplingFactor * n)).toNat m w with ⟨S, w', h⟩ | h
      · rw [Py.bind_eq_of_ok h]; rfl
      · rw [Py.bind_eq_of_error h]
    · rw [if_pos hdn]
      rcases hgen (pyInt (a.samplingFactor * n)).toNat m w with ⟨S, w', h⟩ | h
      · rw [Py.bind_eq_of_ok h]
        obtain ⟨o, ho⟩ := (C26_empty la (aLift (S * A) (Real.sqrt δ))).2 (by omega) hn
        have hp : ∃ p, sps1Svd la S A (normalRhs A (b.getD 0) c) δ = .ok p := by
          unfold sps1Svd
          simp only [ho]
          exact ⟨_, rfl⟩
        obtain ⟨p, hp⟩ := hp
        rw [hp]; rfl
      · rw [Py.bind_eq_of_error h]

/-- **C58** (`sps`, what `method='lsqr'` returns).  If `c` is absent or zero, the returned pair has
`y = b - A x`; if `b` is absent or zero and `c ≠ 0`, then `y` lies in the range of `A` and, for
`delta > 0`, the second block equation `A'y - delta x = c` holds exactly, whereas for `delta = 0` the
returned `x` consists of NaN.  The log always starts with `||A'b - c||`, the residual of the *unpreconditioned* normal
equations. -/
theorem C58_sps_lsqr_result (la : LinAlg) (R : NpRng G) (A : Matrix (Fin m) (Fin n) ℝ)
    (b : Option (Fin m → ℝ)) (c : Option (Fin n → ℝ)) (δ tol : ℝ) (hδ : 0 ≤ δ) (L : ℤ) (clock : LogTimes)
    (a : SketchArgs) (w w' : World G) (out : SPSOut m n)
    (h : spsFn la R A b c δ tol L clock a .lsqr w = .ok (out, w')) :
    (b.getD 0 = 0 ∨ cVec c = 0) ∧
    (cVec c = 0 → ∃ x, out.x = some x ∧ out.y = some (b.getD 0 - A *ᵥ x)) ∧
    (cVec c ≠ 0 → ∃ y ∈ colSpace A, out.y = some y ∧
      (0 < δ → ∃ x, out.x = some x ∧ Aᵀ *ᵥ y - δ • x = cVec c) ∧ (δ = 0 → out.x = none)) ∧
    ∃ lg l, out.log = some lg ∧ lg.errors = norm2 (Aᵀ *ᵥ b.getD 0 - cVec c) :: l ∧
      (l.length : ℤ) ≤ L ∧ lg.times.length = l.length + 1 := by
  have hor : b.getD 0 = 0 ∨ cVec c = 0 := by
    by_contra hcon
    push Not at hcon
    rw [(C58_sps_rejects la R A b c δ tol L clock a w).2 hcon.1 hcon.2] at h
    cases h
  obtain ⟨p, -, hp⟩ := sps1_ok h
  obtain ⟨res, h1, h2, h3, h4⟩ := sps1Post_ok hp
  have h1 : pcss2 A (.vec (b.getD 0)) c δ tol L (.gen p.r p.M) p.z = .ok res := h1
  have hrhs : normalRhs A (b.getD 0) c = Aᵀ *ᵥ b.getD 0 - cVec c := by
    cases c with
    | none => show Aᵀ *ᵥ b.getD 0 = Aᵀ *ᵥ b.getD 0 - 0; rw [sub_zero]
    | some c => rfl
  have harr : ∀ {l}, res.errs = .arr l → (l.length : ℤ) ≤ L → ∃ lg l, out.log = some lg ∧
      lg.errors = norm2 (Aᵀ *ᵥ b.getD 0 - cVec c) :: l ∧ (l.length : ℤ) ≤ L ∧
      lg.times.length = l.length + 1 := by
    intro l hl hlL
    rw [hl] at h4
    obtain ⟨lg, g1, g2, g3, -⟩ := C42_wrap_up clock l (norm2 (normalRhs A (b.getD 0) c))
    unfold finishLog at h4
    rw [if_pos rfl, g1] at h4
    have h5 : out.log = some lg := by
      have h6 : (Except.ok (some lg) : Except PyErr _) = .ok out.log := h4
      exact (Except.ok.inj h6).symm
    exact ⟨lg, l, h5, by rw [g2, hrhs], hlL, g3⟩
  have hscal : ∀ {e}, res.errs = .scalar e → False := by
    intro e he
    rw [he] at h4
    cases h4
  refine ⟨hor, fun hc => ?_, fun hc => ?_, ?_⟩
  · obtain ⟨x, g1, g2, -⟩ := C34_pcss2_over A _ c δ hδ tol L (.gen p.r p.M) trivial p.z hc res h1
    exact ⟨x, by rw [h2, g1], by rw [h3, g2]⟩
  · cases c with
    | none => exact absurd rfl hc
    | some c =>
      have hb : b.getD 0 = 0 := hor.resolve_right hc
      rw [hb] at h1
      obtain ⟨g1, g2, g3⟩ := C34_pcss2_under A _ c δ hδ tol L (.gen p.r p.M) trivial p.z (Or.inr rfl) hc res h1
      refine ⟨res.y, g3, h3, fun hp => ?_, fun h0 => by rw [h2, g2 h0]⟩
      obtain ⟨x, k1, k2⟩ := g1 hp
      exact ⟨x, by rw [h2, k1], k2⟩
  · by_cases hc : cVec c = 0
    · obtain ⟨x, -, -, -, g⟩ := C34_pcss2_over A _ c δ hδ tol L (.gen p.r p.M) trivial p.z hc res h1
      rcases g with ⟨g, -⟩ | ⟨l, g, gl, -⟩
      · exact (hscal g).elim
      · exact harr g gl
    · cases c with
      | none => exact absurd rfl hc
      | some c =>
        have hb : b.getD 0 = 0 := hor.resolve_right hc
        rw [hb] at h1
        rcases C34_pcss2_under_log A _ c δ hδ tol L (.gen p.r p.M) trivial p.z (Or.inr rfl) hc res h1 with
          ⟨g, -⟩ | ⟨l, g, gl, -⟩
        · exact (hscal g).elim
        · exact harr g gl

/-! ### The hypotheses are met -/

/-- `sso1` on a 9 x 3 matrix with default arguments: 8 entries per column, no warning -/
example (A : Matrix (Fin 9) (Fin 3) ℝ) (b : Fin 9 → ℝ) :
    ∃ x w', sso1Fn LinAlg.ref demoRng A b 1 {} ⟨0, 0, []⟩ = .ok (x, w') ∧ w'.warns = 0 := by
  obtain ⟨x, w', S, h1, -, -, -, -, h⟩ := C56_sso1_default LinAlg.ref demoRng A b 1 zero_le_one
    ⟨0, 0, []⟩ (by norm_num) (by norm_num)
  exact ⟨x, w', h1, by rw [h]; norm_num⟩

/-- `spo3` with `delta = 1` never raises LinAlgError, and returns unless the start is optimal -/
example (A : Matrix (Fin 9) (Fin 3) ℝ) (b : Fin 9 → ℝ) (mode : SPOMode) (h : mode = .qr ∨ mode = .chol) :
    spo3Fn LinAlg.ref demoRng A b 1 0 5 ⟨0, 0, 0, 0, 0⟩ {} mode ⟨0, 0, []⟩ = .error .value ∨
    ∃ out w', spo3Fn LinAlg.ref demoRng A b 1 0 5 ⟨0, 0, 0, 0, 0⟩ {} mode ⟨0, 0, []⟩ = .ok (out, w') := by
  obtain ⟨-, -, h3⟩ := C57_spo3_outcomes LinAlg.ref demoRng A b 1 0 zero_le_one 5 (by norm_num)
    ⟨0, 0, 0, 0, 0⟩ {} ⟨0, 0, []⟩ (by norm_num) (by norm_num) (by rw [pyInt_three]; norm_num)
  obtain ⟨d, S, w', -, -, -, h4, h5⟩ := h3 mode h
  obtain ⟨x0, -, h6, h7⟩ := h4 (h5 one_pos)
  by_cases hx : IsRidgeMin A b 1 x0
  · exact Or.inl (h6 hx)
  · obtain ⟨out, x, lg, h8, -⟩ := h7 hx
    exact Or.inr ⟨out, w', h8⟩

/-- `sps` solves every regularised system with three unknowns, on every state of the generator -/
example (A : Matrix (Fin 9) (Fin 3) ℝ) (b : Fin 9 → ℝ) (c : Fin 3 → ℝ) (g : ℕ) :
    ∃ out w' x y, spsFn LinAlg.ref demoRng A (some b) (some c) 1 0 3 ⟨0, 0, 0, 0, 0⟩ {} .pcg
        ⟨g, 0, []⟩ = .ok (out, w') ∧ out.x = some x ∧ out.y = some y ∧ SolvesSaddle A b c 1 x y := by
  have hx : ∃ xs ys, SolvesSaddle A b c 1 xs ys := by
    have hd : IsUnit (Aᵀ * A + (1 : Matrix (Fin 3) (Fin 3) ℝ)).det := by
      have h1 : (aLift A (Real.sqrt 1))ᵀ * aLift A (Real.sqrt 1) = Aᵀ * A + 1 := by
        rw [aLift_gram, Real.sq_sqrt zero_le_one, one_smul]
      rw [← h1]
      exact (Matrix.isUnit_iff_isUnit_det _).1 ((gram_posDef_iff _).2 (aLift_full_of_pos A one_pos)).isUnit
    refine ⟨(Aᵀ * A + 1)⁻¹ *ᵥ (Aᵀ *ᵥ b - c), b - A *ᵥ ((Aᵀ * A + 1)⁻¹ *ᵥ (Aᵀ *ᵥ b - c)), ?_, ?_⟩
    · simp
    · have h2 : (Aᵀ * A + 1) *ᵥ ((Aᵀ * A + 1)⁻¹ *ᵥ (Aᵀ *ᵥ b - c)) = Aᵀ *ᵥ b - c := by
        rw [mulVec_mulVec, mul_nonsing_inv _ hd, one_mulVec]
      rw [add_mulVec, one_mulVec, ← mulVec_mulVec] at h2
      rw [mulVec_sub, one_smul]
      generalize (Aᵀ * A + 1)⁻¹ *ᵥ (Aᵀ *ᵥ b - c) = v at h2 ⊢
      rw [sub_sub, h2, sub_sub_cancel]
  obtain ⟨d, S, w', -, -, h⟩ := C58_sps_pcg_converges LinAlg.ref demoRng A (some b) (some c) 1 0
    zero_le_one le_rfl 3 (by norm_num) ⟨0, 0, 0, 0, 0⟩ {} ⟨g, 0, []⟩ (by norm_num) (by norm_num)
    (by unfold eps; norm_num) (by rw [pyInt_three]; norm_num) hx
  obtain ⟨out, x, y, out0, x0, h1, h2, h3, -, -, -, -, h8⟩ := h (Or.inr one_pos)
  exact ⟨out, w', x, y, h1, h2, h3, h8 (by norm_num) rfl⟩

end Parla.Props
