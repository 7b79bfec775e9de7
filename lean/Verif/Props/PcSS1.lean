import Verif.Model.PcSS1
import Verif.Proof.Precond
import Verif.Props.PCG

/-! # Property C29: `PcSS1` -/

namespace Parla.Props

open Matrix Parla Spec

variable {m n r : ℕ}

theorem mvGram_eq (A : Matrix (Fin m) (Fin n) ℝ) (δ : ℝ) :
    mvGram A δ = fun v => (Aᵀ * A + δ • (1 : Matrix (Fin n) (Fin n) ℝ)) *ᵥ v := by
  funext v
  rw [add_mulVec, smul_mulVec, one_mulVec, ← mulVec_mulVec]; rfl

theorem gram_psd (A : Matrix (Fin m) (Fin n) ℝ) {δ : ℝ} (hδ : 0 ≤ δ) :
    IsPSD (Aᵀ * A + δ • (1 : Matrix (Fin n) (Fin n) ℝ)) := by
  refine ⟨?_, fun x => ?_⟩
  · rw [transpose_add, transpose_mul, transpose_transpose, transpose_smul, transpose_one]
  · rw [add_mulVec, smul_mulVec, one_mulVec, dotProduct_add, dotProduct_smul, ← mulVec_mulVec,
      dot_mulVec, transpose_transpose, ← sqNorm_eq_dot, ← sqNorm_eq_dot, smul_eq_mul]
    exact add_nonneg (sqNorm_nonneg _) (mul_nonneg hδ (sqNorm_nonneg _))

/-- The vector `b` that a `b` argument stands for (`None` is zero). -/
def bVec : BArg m → Fin m → ℝ
  | .none => 0
  | .vec b => b
  | .multi _ _ => 0

/-- The vector a `c` argument stands for (`None` is zero). -/
def cVec : Option (Fin n → ℝ) → Fin n → ℝ
  | none => 0
  | some c => c

theorem normalRhs_eq (A : Matrix (Fin m) (Fin n) ℝ) (b : Fin m → ℝ) (c : Option (Fin n → ℝ)) :
    normalRhs A b c = Aᵀ *ᵥ b - cVec c := by
  cases c with
  | none => show _ = _ - 0; rw [sub_zero]; rfl
  | some c => rfl

/-- A successful `PcSS1` call in terms of `pcg`. -/
theorem pcss1_ok_iff {A : Matrix (Fin m) (Fin n) ℝ} {b : BArg m} {c : Option (Fin n → ℝ)} {δ tol : ℝ}
    {L : ℤ} {P : Precond n} {z0 : Option (Fin P.dim → ℝ)} {out : SaddleOut m n} :
    pcss1 A b c δ tol L P z0 = .ok out ↔ (∀ k hk, b ≠ .multi k hk) ∧
      ∃ r R, ∃ e : P = .gen r R, ∃ mvPre R' x log, pcss1Pre R δ = .ok (mvPre, R') ∧
        pcg (mvGram A δ) (normalRhs A (bVec b) c) mvPre L tol
          (pcss1Start R' (e ▸ z0 : Option (Fin (Precond.gen r R).dim → ℝ))) = .ok (x, log) ∧
        out = ⟨some x, bVec b - A *ᵥ x, .arr log⟩ := by
  have core : ∀ bb : Fin m → ℝ, pcss1.go A c δ tol L P z0 bb = .ok out ↔
      ∃ r R, ∃ e : P = .gen r R, ∃ mvPre R' x log, pcss1Pre R δ = .ok (mvPre, R') ∧
        pcg (mvGram A δ) (normalRhs A bb c) mvPre L tol
          (pcss1Start R' (e ▸ z0 : Option (Fin (Precond.gen r R).dim → ℝ))) = .ok (x, log) ∧
        out = ⟨some x, bb - A *ᵥ x, .arr log⟩ := by
    intro bb
    cases P with
    | tri R =>
      constructor
      · intro h; cases h
      · rintro ⟨r, R', e, -⟩; cases e
    | gen r R =>
      show pcss1Core A bb c δ tol L R z0 = .ok out ↔ _
      unfold pcss1Core
      constructor
      · intro h
        cases hp : pcss1Pre R δ with
        | error e => rw [hp] at h; cases h
        | ok pr =>
          obtain ⟨mvPre, R'⟩ := pr
          rw [hp] at h
          simp only at h
          cases hc : pcg (mvGram A δ) (normalRhs A bb c) mvPre L tol (pcss1Start R' z0) with
          | error e => rw [hc] at h; cases h
          | ok pr =>
            obtain ⟨x, log⟩ := pr
            rw [hc] at h
            cases h
            exact ⟨r, R, rfl, mvPre, R', x, log, hp, hc, rfl⟩
      · rintro ⟨r', R', e, mvPre, R'', x, log, h1, h2, rfl⟩
        cases e
        rw [h1]
        simp only
        have h2' : pcg (mvGram A δ) (normalRhs A bb c) mvPre L tol (pcss1Start R'' z0) =
          .ok (x, log) := h2
        rw [h2']
  cases b with
  | none => exact (core 0).trans ⟨fun h => ⟨(fun k hk h' => nomatch h'), h⟩, fun h => h.2⟩
  | vec b => exact (core b).trans ⟨fun h => ⟨(fun k hk h' => nomatch h'), h⟩, fun h => h.2⟩
  | multi k hk =>
    constructor
    · intro h; cases h
    · rintro ⟨h, -⟩; exact absurd rfl (h k hk)

/-- **C29** (what is returned): a successful `PcSS1` call returns `y = b - A x` and an error history
of at most `iter_lim` entries, the `i`-th of which is `||(A'A + delta I) x_i - (A'b - c)||` for the
iterate `x_i` (the `x` returned under `iter_lim = i`).  `None` for `b` or `c` acts as zero. -/
theorem C29_pcss1_log (A : Matrix (Fin m) (Fin n) ℝ) (b : BArg m) (c : Option (Fin n → ℝ))
    (δ tol : ℝ) (L : ℤ) (P : Precond n) (z0 : Option (Fin P.dim → ℝ)) (out : SaddleOut m n)
    (h : pcss1 A b c δ tol L P z0 = .ok out) :
    ∃ x log, out.x = some x ∧ out.y = bVec b - A *ᵥ x ∧ out.errs = .arr log ∧
      (log.length : ℤ) ≤ L ∧
      ∀ i (hi : i < log.length), ∃ outi xi, pcss1 A b c δ tol i P z0 = .ok outi ∧
        outi.x = some xi ∧
        log[i] = norm2 (Aᵀ *ᵥ (A *ᵥ xi) + δ • xi - (Aᵀ *ᵥ bVec b - cVec c)) := by
  obtain ⟨hb, r, R, e, mvPre, R', x, log, h1, h2, rfl⟩ := pcss1_ok_iff.1 h
  rw [mvGram_eq] at h2
  obtain ⟨g1, -, g3⟩ := C27_pcg_log _ _ _ _ _ _ _ _ h2
  refine ⟨x, log, rfl, rfl, rfl, g1, fun i hi => ?_⟩
  obtain ⟨xi, k1, k2, -⟩ := g3 i hi
  rw [← mvGram_eq] at k1
  refine ⟨_, xi, pcss1_ok_iff.2 ⟨hb, r, R, e, mvPre, R', xi, _, h1, k1, rfl⟩, rfl, ?_⟩
  have e1 : normalRhs A (bVec b) c - (Aᵀ * A + δ • (1 : Matrix (Fin n) (Fin n) ℝ)) *ᵥ xi =
      -(Aᵀ *ᵥ (A *ᵥ xi) + δ • xi - (Aᵀ *ᵥ bVec b - cVec c)) := by
    rw [normalRhs_eq, add_mulVec, smul_mulVec, one_mulVec, ← mulVec_mulVec]; abel
  rw [k2, e1]
  unfold norm2; rw [sqNorm_neg]

/-- `(x, b - A x)` solves the block system exactly when `x` solves the normal equations. -/
theorem solvesSaddle_iff (A : Matrix (Fin m) (Fin n) ℝ) (b : Fin m → ℝ) (c : Fin n → ℝ) (δ : ℝ)
    (x : Fin n → ℝ) :
    SolvesSaddle A b c δ x (b - A *ᵥ x) ↔ Aᵀ *ᵥ (A *ᵥ x) + δ • x = Aᵀ *ᵥ b - c := by
  unfold SolvesSaddle
  rw [sub_add_cancel, mulVec_sub]
  constructor
  · rintro ⟨-, h⟩; rw [← h]; abel
  · intro h
    refine ⟨rfl, ?_⟩
    have : c = Aᵀ *ᵥ b - (Aᵀ *ᵥ (A *ᵥ x) + δ • x) := by rw [h]; abel
    rw [this]; abel

/-- **C29** (block system): the returned pair solves `[I A; A' -delta I] [y; x] = [b; c]` exactly
when the normal-equation residual of `x` is zero. -/
theorem C29_pcss1_solves_iff (A : Matrix (Fin m) (Fin n) ℝ) (b : BArg m) (c : Option (Fin n → ℝ))
    (δ tol : ℝ) (L : ℤ) (P : Precond n) (z0 : Option (Fin P.dim → ℝ)) (out : SaddleOut m n)
    (h : pcss1 A b c δ tol L P z0 = .ok out) (x : Fin n → ℝ) (hx : out.x = some x) :
    SolvesSaddle A (bVec b) (cVec c) δ x out.y ↔
      norm2 (Aᵀ *ᵥ (A *ᵥ x) + δ • x - (Aᵀ *ᵥ bVec b - cVec c)) = 0 := by
  obtain ⟨x', log, h1, h2, -⟩ := C29_pcss1_log A b c δ tol L P z0 out h
  rw [h1] at hx; cases hx
  rw [h2, solvesSaddle_iff, norm2_eq_zero, sub_eq_zero]

/-- The matrix of `mv_pre`. -/
theorem pcss1Pre_eq {R : Matrix (Fin n) (Fin r) ℝ} {δ : ℝ} {mvPre R'}
    (h : pcss1Pre R δ = .ok (mvPre, R')) : ∃ N : Matrix (Fin n) (Fin n) ℝ, mvPre = (N *ᵥ ·) ∧
      ((r = n ∧ R' = R ∧ N = R * Rᵀ) ∨ (r ≠ n ∧ ∃ h : 0 < r, R' = lowRankR R δ h ∧
        N = lowRankR R δ h * (lowRankR R δ h)ᵀ + 1 - colNormalize R * (colNormalize R)ᵀ)) := by
  unfold pcss1Pre at h
  split at h
  · rename_i hr
    cases h
    exact ⟨R * Rᵀ, by funext v; rw [mulVec_mulVec], Or.inl ⟨hr, rfl, rfl⟩⟩
  · rename_i hr
    split at h
    · rename_i h0
      cases h
      exact ⟨_, by funext v; rw [sub_mulVec, add_mulVec, one_mulVec, mulVec_mulVec, mulVec_mulVec],
        Or.inr ⟨hr, h0, rfl, rfl⟩⟩
    · cases h

/-- `R R'` is positive definite for a nonsingular square `R`. -/
theorem pd_of_square {R : Matrix (Fin n) (Fin n) ℝ} (hR : FullColRank R) : IsPD (R * Rᵀ) := by
  refine ⟨by rw [transpose_mul, transpose_transpose], fun x hx => ?_⟩
  rw [← mulVec_mulVec, dot_mulVec, ← sqNorm_eq_dot]
  refine lt_of_le_of_ne (sqNorm_nonneg _) fun h0 => hx ?_
  have h1 : Rᵀ *ᵥ x = 0 := sqNorm_eq_zero.1 h0.symm
  have hT : FullColRank Rᵀ := by
    unfold FullColRank at hR ⊢; rw [rank_transpose, hR]
  exact fullColRank_iff_inj.1 hT x h1

theorem colNormalize_orth {R : Matrix (Fin n) (Fin r) ℝ}
    (hR : ∀ i j, i ≠ j → (Rᵀ * R) i j = 0) (h0 : ∀ j, ∃ i, R i j ≠ 0) :
    (colNormalize R)ᵀ * colNormalize R = 1 := by
  have hn : ∀ j, norm2 (fun i => R i j) ≠ 0 := by
    intro j hj
    obtain ⟨i, hi⟩ := h0 j
    exact hi (congrFun (norm2_eq_zero.1 hj) i)
  ext i j
  have e : ((colNormalize R)ᵀ * colNormalize R) i j = colScale R i * colScale R j * (Rᵀ * R) i j := by
    simp only [mul_apply, transpose_apply, colNormalize, of_apply, Finset.mul_sum]
    refine Finset.sum_congr rfl fun l _ => ?_
    ring
  rw [e]
  by_cases hij : i = j
  · subst hij
    have e2 : (Rᵀ * R) i i = norm2 (fun l => R l i) ^ 2 := by
      rw [norm2_sq]; simp only [mul_apply, transpose_apply, sqNorm, sq]
    rw [e2, one_apply_eq]
    unfold colScale
    field_simp [hn i]
  · rw [hR i j hij, mul_zero, one_apply_ne hij]

/-- The low-rank preconditioner is positive definite when the columns of `R` are orthogonal and
nonzero. -/
theorem pd_of_lowRank {R : Matrix (Fin n) (Fin r) ℝ} {δ : ℝ} (hδ : 0 ≤ δ) (h : 0 < r)
    (hR : ∀ i j, i ≠ j → (Rᵀ * R) i j = 0) (h0 : ∀ j, ∃ i, R i j ≠ 0) :
    IsPD (lowRankR R δ h * (lowRankR R δ h)ᵀ + 1 - colNormalize R * (colNormalize R)ᵀ) := by
  have hV := colNormalize_orth hR h0
  have hsc : ∀ j, 0 < colScale R j := by
    intro j
    unfold colScale
    have : 0 < norm2 (fun i => R i j) := norm2_pos.2 (by
      intro hz; obtain ⟨i, hi⟩ := h0 j; exact hi (congrFun hz i))
    positivity
  have hs : ∀ j, 0 < shiftedSing R δ j := by
    intro j
    unfold shiftedSing
    have := hsc j
    exact Real.sqrt_pos.2 (by positivity)
  set V := colNormalize R
  set R' := lowRankR R δ h
  refine ⟨?_, fun x hx => ?_⟩
  · rw [transpose_sub, transpose_add, transpose_mul, transpose_mul, transpose_transpose,
      transpose_transpose, transpose_one]
  · have e : x ⬝ᵥ ((R' * R'ᵀ + 1 - V * Vᵀ) *ᵥ x) = sqNorm (R'ᵀ *ᵥ x) + (sqNorm x - sqNorm (Vᵀ *ᵥ x)) := by
      rw [sub_mulVec, add_mulVec, one_mulVec, dotProduct_sub, dotProduct_add, ← mulVec_mulVec,
        ← mulVec_mulVec, dot_mulVec, dot_mulVec x V, ← sqNorm_eq_dot, ← sqNorm_eq_dot,
        ← sqNorm_eq_dot]
      ring
    -- Bessel
    have hb : sqNorm x - sqNorm (Vᵀ *ᵥ x) = sqNorm (x - V *ᵥ (Vᵀ *ᵥ x)) := by
      rw [sqNorm_sub, sqNorm_orth_mulVec hV, dot_mulVec, ← sqNorm_eq_dot]; ring
    rw [e, hb]
    refine lt_of_le_of_ne (add_nonneg (sqNorm_nonneg _) (sqNorm_nonneg _)) fun hz => hx ?_
    have h1 : sqNorm (R'ᵀ *ᵥ x) = 0 := by
      have a := sqNorm_nonneg (R'ᵀ *ᵥ x)
      have b := sqNorm_nonneg (x - V *ᵥ (Vᵀ *ᵥ x))
      linarith
    have h2 : sqNorm (x - V *ᵥ (Vᵀ *ᵥ x)) = 0 := by
      have a := sqNorm_nonneg (R'ᵀ *ᵥ x)
      have b := sqNorm_nonneg (x - V *ᵥ (Vᵀ *ᵥ x))
      linarith
    have h3 : Vᵀ *ᵥ x = 0 := by
      funext j
      have hj := congrFun (sqNorm_eq_zero.1 h1) j
      have e3 : (R'ᵀ *ᵥ x) j = (Vᵀ *ᵥ x) j / (shiftedSing R δ j / shiftedSing R δ ⟨r - 1, by omega⟩) := by
        simp only [mulVec, dotProduct, transpose_apply]
        rw [div_eq_mul_inv (Finset.sum _ _), Finset.sum_mul]
        refine Finset.sum_congr rfl fun i _ => ?_
        show V i j / _ * x i = V i j * x i * _
        rw [div_mul_eq_mul_div, div_eq_mul_inv]
      rw [e3] at hj
      simp only [Pi.zero_apply, div_eq_zero_iff] at hj ⊢
      rcases hj with hj | hj | hj
      · exact hj
      · exact absurd hj (hs j).ne'
      · exact absurd hj (hs _).ne'
    have h4 := sqNorm_eq_zero.1 h2
    rw [h3, mulVec_zero, sub_zero] at h4
    exact h4

/-- The preconditioners `PcSS1` is documented to accept: a nonsingular square `R`, or (low rank) an
`R` with at least one column whose columns are orthogonal and nonzero. -/
def GoodR (R : Matrix (Fin n) (Fin r) ℝ) : Prop :=
  (r = n ∧ FullColRank R) ∨
    (r ≠ n ∧ 0 < r ∧ (∀ i j, i ≠ j → (Rᵀ * R) i j = 0) ∧ ∀ j, ∃ i, R i j ≠ 0)

/-- **C29** (convergence): for `delta >= 0`, an admissible preconditioner, a consistent normal
equation (automatic if `delta > 0`) and `tol >= 0`, `PcSS1` never breaks down, and with
`iter_lim >= n` the normal-equation residual of the returned `x` is at most `tol` times the one of
the starting point `R z0` (or `0`). -/
theorem C29_pcss1_converges (A : Matrix (Fin m) (Fin n) ℝ) (b : BArg m) (hb : ∀ k hk, b ≠ .multi k hk)
    (c : Option (Fin n → ℝ)) (δ : ℝ) (hδ : 0 ≤ δ) (tol : ℝ) (ht : 0 ≤ tol) (L : ℤ) (hL : 0 ≤ L)
    (R : Matrix (Fin n) (Fin r) ℝ) (hR : GoodR R) (z0 : Option (Fin r → ℝ))
    (hx : ∃ xs, Aᵀ *ᵥ (A *ᵥ xs) + δ • xs = Aᵀ *ᵥ bVec b - cVec c) :
    ∃ out x, pcss1 A b c δ tol L (.gen r R) z0 = .ok out ∧ out.x = some x ∧
      ((n : ℤ) ≤ L → norm2 (Aᵀ *ᵥ (A *ᵥ x) + δ • x - (Aᵀ *ᵥ bVec b - cVec c)) ≤
        tol * norm2 (Aᵀ *ᵥ (A *ᵥ pcss1Start R z0) + δ • pcss1Start R z0 -
          (Aᵀ *ᵥ bVec b - cVec c))) := by
  have hpre : ∃ mvPre R', pcss1Pre R δ = .ok (mvPre, R') := by
    unfold pcss1Pre
    rcases hR with ⟨h, -⟩ | ⟨h, h0, -⟩
    · rw [if_pos h]; exact ⟨_, _, rfl⟩
    · rw [if_neg h, dif_pos h0]; exact ⟨_, _, rfl⟩
  obtain ⟨mvPre, R', hpre⟩ := hpre
  obtain ⟨N, hN, hcase⟩ := pcss1Pre_eq hpre
  have hPD : IsPD N := by
    rcases hR with ⟨h, hf⟩ | ⟨h, h0, h1, h2⟩
    · rcases hcase with ⟨-, -, rfl⟩ | ⟨h', -⟩
      · subst h; exact pd_of_square hf
      · exact absurd h h'
    · rcases hcase with ⟨h', -⟩ | ⟨-, h0', -, rfl⟩
      · exact absurd h' h
      · exact pd_of_lowRank hδ h0' h1 h2
  have hstart : pcss1Start R' z0 = pcss1Start R z0 := by
    rcases hcase with ⟨-, rfl, -⟩ | ⟨h, -⟩
    · rfl
    · unfold pcss1Start; rw [if_neg h, if_neg h]
  have hx' : ∃ xs, (Aᵀ * A + δ • (1 : Matrix (Fin n) (Fin n) ℝ)) *ᵥ xs = normalRhs A (bVec b) c := by
    obtain ⟨xs, hxs⟩ := hx
    refine ⟨xs, ?_⟩
    rw [normalRhs_eq, add_mulVec, smul_mulVec, one_mulVec, ← mulVec_mulVec, hxs]
  obtain ⟨x, log, g1, -, g3⟩ := C28_pcg_converges _ N (gram_psd A hδ) hPD _ (pcss1Start R z0) hx' L hL
    tol ht
  have key : ∀ v, norm2 (normalRhs A (bVec b) c - (Aᵀ * A + δ • (1 : Matrix (Fin n) (Fin n) ℝ)) *ᵥ v) =
      norm2 (Aᵀ *ᵥ (A *ᵥ v) + δ • v - (Aᵀ *ᵥ bVec b - cVec c)) := by
    intro v
    have e1 : normalRhs A (bVec b) c - (Aᵀ * A + δ • (1 : Matrix (Fin n) (Fin n) ℝ)) *ᵥ v =
        -(Aᵀ *ᵥ (A *ᵥ v) + δ • v - (Aᵀ *ᵥ bVec b - cVec c)) := by
      rw [normalRhs_eq, add_mulVec, smul_mulVec, one_mulVec, ← mulVec_mulVec]; abel
    rw [e1]; unfold norm2; rw [sqNorm_neg]
  refine ⟨⟨some x, bVec b - A *ᵥ x, .arr log⟩, x, pcss1_ok_iff.2 ⟨hb, r, R, rfl, mvPre, R', x, log,
    hpre, ?_, rfl⟩, rfl, fun hn => ?_⟩
  · rw [mvGram_eq, hN, hstart]; exact g1
  · rw [← key, ← key]
    exact g3 (by
      have := Matrix.rank_le_width (Aᵀ * A + δ • (1 : Matrix (Fin n) (Fin n) ℝ)); omega)

/-- the normal equations are consistent for `delta > 0` -/
theorem normal_consistent (A : Matrix (Fin m) (Fin n) ℝ) {δ : ℝ} (hδ : 0 < δ) (rhs : Fin n → ℝ) :
    ∃ xs, Aᵀ *ᵥ (A *ᵥ xs) + δ • xs = rhs := by
  set M := Aᵀ * A + δ • (1 : Matrix (Fin n) (Fin n) ℝ)
  have hinj : ∀ v, M *ᵥ v = 0 → v = 0 := by
    intro v hv
    have : v ⬝ᵥ (M *ᵥ v) = 0 := by rw [hv, dotProduct_zero]
    rw [add_mulVec, smul_mulVec, one_mulVec, dotProduct_add, dotProduct_smul, ← mulVec_mulVec,
      dot_mulVec, transpose_transpose, ← sqNorm_eq_dot, ← sqNorm_eq_dot, smul_eq_mul] at this
    have h1 := sqNorm_nonneg (A *ᵥ v)
    have h2 := sqNorm_nonneg v
    have : δ * sqNorm v = 0 := by nlinarith
    rcases mul_eq_zero.1 this with h | h
    · linarith
    · exact sqNorm_eq_zero.1 h
  have hu : IsUnit M.det := by
    rw [isUnit_iff_ne_zero]
    intro hd
    obtain ⟨v, hv, hv0⟩ := Matrix.exists_mulVec_eq_zero_iff.2 hd
    exact hv (hinj v hv0)
  refine ⟨M⁻¹ *ᵥ rhs, ?_⟩
  have : M *ᵥ (M⁻¹ *ᵥ rhs) = rhs := by rw [mulVec_mulVec, mul_nonsing_inv _ hu, one_mulVec]
  conv_rhs => rw [← this]
  rw [add_mulVec, smul_mulVec, one_mulVec, ← mulVec_mulVec]

/-- **C29** (solution): for `delta > 0`, an admissible preconditioner, `tol = 0` and
`iter_lim >= n`, `PcSS1` returns a solution of the block system. -/
theorem C29_pcss1_solves (A : Matrix (Fin m) (Fin n) ℝ) (b : BArg m) (hb : ∀ k hk, b ≠ .multi k hk)
    (c : Option (Fin n → ℝ)) (δ : ℝ) (hδ : 0 < δ) (L : ℤ) (hL : (n : ℤ) ≤ L)
    (R : Matrix (Fin n) (Fin r) ℝ) (hR : GoodR R) (z0 : Option (Fin r → ℝ)) :
    ∃ out x, pcss1 A b c δ 0 L (.gen r R) z0 = .ok out ∧ out.x = some x ∧
      SolvesSaddle A (bVec b) (cVec c) δ x out.y := by
  obtain ⟨out, x, h1, h2, h3⟩ := C29_pcss1_converges A b hb c δ hδ.le 0 le_rfl L (by omega) R hR z0
    (normal_consistent A hδ _)
  refine ⟨out, x, h1, h2, (C29_pcss1_solves_iff A b c δ 0 L (.gen r R) z0 out h1 x h2).2 ?_⟩
  have := h3 hL
  rw [zero_mul] at this
  exact le_antisymm this (norm2_nonneg _)

/-- **C29** (rejections): several right-hand sides, or `upper_tri=True`, raise
`NotImplementedError`. -/
theorem C29_pcss1_rejects (A : Matrix (Fin m) (Fin n) ℝ) (c : Option (Fin n → ℝ)) (δ tol : ℝ) (L : ℤ) :
    (∀ k hk (P : Precond n) z0, pcss1 A (.multi k hk) c δ tol L P z0 = .error .notImplemented) ∧
    ∀ b R z0, pcss1 A b c δ tol L (.tri R) z0 = .error .notImplemented := by
  refine ⟨fun _ _ _ _ => rfl, fun b R z0 => ?_⟩
  cases b <;> rfl

/-- **C29** (side effect): `PcSS1` overwrites the caller's array `R` when it has fewer (or more)
than `n` columns, and leaves it alone otherwise. -/
theorem C29_pcss1_R_overwritten (R : Matrix (Fin n) (Fin r) ℝ) (δ : ℝ) (mvPre R')
    (h : pcss1Pre R δ = .ok (mvPre, R')) :
    (r = n → R' = R) ∧ (r ≠ n → ∃ h : 0 < r, ∀ i j, R' i j = R i j * colScale R j /
      (shiftedSing R δ j / shiftedSing R δ ⟨r - 1, by omega⟩)) := by
  obtain ⟨N, -, hc⟩ := pcss1Pre_eq h
  rcases hc with ⟨h1, h2, -⟩ | ⟨h1, h0, rfl, -⟩
  · exact ⟨fun _ => h2, fun h => absurd h1 h⟩
  · exact ⟨fun h => absurd h h1, fun _ => ⟨h0, fun i j => rfl⟩⟩

/-- The hypotheses are met, in the full and the low-rank case: `R = diag(1, 2)` and
`R = [1; 0]`, `A = [[1, 0], [0, 2]]`, `b = (1, 1)`, `c = (0, 3)`, `delta = 1`. -/
example : (∃ out x, pcss1 (!![1, 0; 0, 2] : Matrix (Fin 2) (Fin 2) ℝ) (.vec ![1, 1]) (some ![0, 3]) 1 0 2
      (.gen 2 !![1, 0; 0, 2]) (some ![1, 1]) = .ok out ∧ out.x = some x ∧
      SolvesSaddle !![1, 0; 0, 2] ![1, 1] ![0, 3] 1 x out.y) ∧
    ∃ out x, pcss1 (!![1, 0; 0, 2] : Matrix (Fin 2) (Fin 2) ℝ) .none (some ![0, 3]) 1 0 2
      (.gen 1 !![1; 0]) none = .ok out ∧ out.x = some x ∧
      SolvesSaddle !![1, 0; 0, 2] 0 ![0, 3] 1 x out.y := by
  constructor
  · refine C29_pcss1_solves _ (.vec ![1, 1]) (fun k hk h => nomatch h) (some ![0, 3]) 1 one_pos 2
      (by norm_num) _ (Or.inl ⟨rfl, ?_⟩) _
    refine fullColRank_of_left_inv (L := !![1, 0; 0, 1/2]) ?_
    ext i j; fin_cases i <;> fin_cases j <;> simp [mul_apply, Fin.sum_univ_two]
  · refine C29_pcss1_solves _ .none (fun k hk h => nomatch h) (some ![0, 3]) 1 one_pos 2
      (by norm_num) _ (Or.inr ⟨by norm_num, by norm_num, ?_, ?_⟩) _
    · intro i j hij; exact absurd (Subsingleton.elim i j) hij
    · intro j; exact ⟨0, by fin_cases j; simp⟩

end Parla.Props
