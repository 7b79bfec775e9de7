import Verif.Props.SPSRates
import Verif.Props.IDError

/-! # C79: what a requested tolerance guarantees

`pcg` stops when the norm of the residual is at most `tol` times the initial one.  A user wants the error to be small.
Together with the rates of C66, C67 and C73 the theorems below bound the error of every result, whatever the tolerance
and the limit. -/

namespace Parla.Props

open Matrix Parla Spec Parla.Proof MeasureTheory

variable {m n d : ℕ} {G : Type}

/-! ### Energy and residual -/

/-- the Cauchy-Schwarz inequality for the form of a positive semidefinite matrix -/
theorem psd_cauchy {K : Matrix (Fin n) (Fin n) ℝ} (hK : IsPSD K) (u v : Fin n → ℝ) :
    (u ⬝ᵥ (K *ᵥ v)) ^ 2 ≤ (u ⬝ᵥ (K *ᵥ u)) * (v ⬝ᵥ (K *ᵥ v)) := by
  have hsym : v ⬝ᵥ (K *ᵥ u) = u ⬝ᵥ (K *ᵥ v) := by rw [dot_mulVec, hK.1, dotProduct_comm]
  have key : ∀ t : ℝ, 0 ≤ (v ⬝ᵥ (K *ᵥ v)) * (t * t) + (2 * (u ⬝ᵥ (K *ᵥ v))) * t + u ⬝ᵥ (K *ᵥ u) := by
    intro t
    have := hK.2 (u + t • v)
    simp only [mulVec_add, mulVec_smul, dotProduct_add, add_dotProduct, dotProduct_smul, smul_dotProduct,
      smul_eq_mul, hsym] at this
    linarith
  have := discrim_le_zero key
  unfold discrim at this
  nlinarith

/-- `lo e'Ke ≤ ‖Ke‖² ≤ hi e'Ke` when `lo ‖z‖² ≤ z'Kz ≤ hi ‖z‖²` for all `z` -/
theorem residual_energy {K : Matrix (Fin n) (Fin n) ℝ} (hK : IsPSD K) {lo hi : ℝ} (hlo : 0 < lo)
    (hk : ∀ z, lo * sqNorm z ≤ z ⬝ᵥ (K *ᵥ z) ∧ z ⬝ᵥ (K *ᵥ z) ≤ hi * sqNorm z) (e : Fin n → ℝ) :
    lo * (e ⬝ᵥ (K *ᵥ e)) ≤ sqNorm (K *ᵥ e) ∧ sqNorm (K *ᵥ e) ≤ hi * (e ⬝ᵥ (K *ᵥ e)) := by
  have he := hK.2 e
  constructor
  · rcases he.eq_or_lt with h | h
    · rw [← h, mul_zero]; exact sqNorm_nonneg _
    · have h1 := dot_sq_le e (K *ᵥ e)
      have h2 := (hk e).1
      have h3 := sqNorm_nonneg (K *ᵥ e)
      have h4 : lo * (e ⬝ᵥ (K *ᵥ e)) ^ 2 ≤ (e ⬝ᵥ (K *ᵥ e)) * sqNorm (K *ᵥ e) := by
        calc lo * (e ⬝ᵥ (K *ᵥ e)) ^ 2 ≤ lo * (sqNorm e * sqNorm (K *ᵥ e)) := mul_le_mul_of_nonneg_left h1 hlo.le
          _ = lo * sqNorm e * sqNorm (K *ᵥ e) := by ring
          _ ≤ _ := mul_le_mul_of_nonneg_right h2 h3
      have h5 : (e ⬝ᵥ (K *ᵥ e)) * (lo * (e ⬝ᵥ (K *ᵥ e))) ≤ (e ⬝ᵥ (K *ᵥ e)) * sqNorm (K *ᵥ e) := by
        calc _ = lo * (e ⬝ᵥ (K *ᵥ e)) ^ 2 := by ring
          _ ≤ _ := h4
      exact le_of_mul_le_mul_left h5 h
  · rcases (sqNorm_nonneg (K *ᵥ e)).eq_or_lt with h | h
    · rw [← h]
      rcases he.eq_or_lt with h' | h'
      · rw [← h', mul_zero]
      · have h2 := hk e
        have h3 := sqNorm_nonneg e
        have : 0 < hi * sqNorm e := h'.trans_le h2.2
        exact mul_nonneg (le_of_lt (pos_of_mul_pos_left this h3)) he
    · have h1 := psd_cauchy hK (K *ᵥ e) e
      rw [← sqNorm_eq_dot] at h1
      have h2 := mul_le_mul_of_nonneg_right (hk (K *ᵥ e)).2 he
      have h3 : sqNorm (K *ᵥ e) * sqNorm (K *ᵥ e) ≤ sqNorm (K *ᵥ e) * (hi * (e ⬝ᵥ (K *ᵥ e))) := by
        calc _ = sqNorm (K *ᵥ e) ^ 2 := by ring
          _ ≤ _ := h1
          _ ≤ hi * sqNorm (K *ᵥ e) * (e ⬝ᵥ (K *ᵥ e)) := h2
          _ = _ := by ring
      exact le_of_mul_le_mul_left h3 h

/-- a residual at most `tol` times another bounds the energy of the error by `tol² hi/lo` times the other's -/
theorem energy_of_tol {K : Matrix (Fin n) (Fin n) ℝ} (hK : IsPSD K) {lo hi : ℝ} (hlo : 0 < lo)
    (hk : ∀ z, lo * sqNorm z ≤ z ⬝ᵥ (K *ᵥ z) ∧ z ⬝ᵥ (K *ᵥ z) ≤ hi * sqNorm z) {rhs x x0 xs : Fin n → ℝ}
    (hx : K *ᵥ xs = rhs) {tol : ℝ} (h : norm2 (rhs - K *ᵥ x) ≤ tol * norm2 (rhs - K *ᵥ x0)) :
    (x - xs) ⬝ᵥ (K *ᵥ (x - xs)) ≤ tol ^ 2 * (hi / lo) * ((x0 - xs) ⬝ᵥ (K *ᵥ (x0 - xs))) := by
  have hres : ∀ z, norm2 (rhs - K *ᵥ z) ^ 2 = sqNorm (K *ᵥ (z - xs)) := fun z => by
    rw [norm2_sq, ← hx, mulVec_sub, ← sqNorm_neg, neg_sub]
  have h1 := pow_le_pow_left₀ (norm2_nonneg _) h 2
  rw [mul_pow, hres, hres] at h1
  have h2 := (residual_energy hK hlo hk (x - xs)).1
  have h3 := mul_le_mul_of_nonneg_left (residual_energy hK hlo hk (x0 - xs)).2 (sq_nonneg tol)
  rw [show tol ^ 2 * (hi / lo) * ((x0 - xs) ⬝ᵥ (K *ᵥ (x0 - xs))) =
    tol ^ 2 * (hi * ((x0 - xs) ⬝ᵥ (K *ᵥ (x0 - xs)))) / lo by ring, le_div_iff₀ hlo, mul_comm]
  linarith

/-- **C79** (`pcg`).  Let `mat` be symmetric with `klo ‖z‖² ≤ z' mat z ≤ khi ‖z‖²`, `0 < klo`, and let the nonzero
eigenvalues of `N mat` lie in `[lo, hi]`, `0 < lo`, for the positive definite preconditioner `N`.  For every right-hand
side, starting point, limit `L` and tolerance `tol >= 0`, `pcg` returns an `x` whose squared error in the energy norm is
at most `max(tol² khi/klo, (2 ((√hi - √lo)/(√hi + √lo))^L)²)` times that of the starting point. -/
theorem C79_pcg (K N : Matrix (Fin n) (Fin n) ℝ) (hK : IsPSD K) (hN : IsPD N) (rhs x0 xs : Fin n → ℝ)
    (hx : K *ᵥ xs = rhs) (L : ℕ) (tol : ℝ) (ht : 0 ≤ tol) (lo hi klo khi : ℝ) (hlo : 0 < lo) (hle : lo ≤ hi)
    (hs : ∀ (t : ℝ) (v : Fin n → ℝ), v ≠ 0 → (N * K) *ᵥ v = t • v → t ≠ 0 → lo ≤ t ∧ t ≤ hi) (hklo : 0 < klo)
    (hk : ∀ z, klo * sqNorm z ≤ z ⬝ᵥ (K *ᵥ z) ∧ z ⬝ᵥ (K *ᵥ z) ≤ khi * sqNorm z) :
    ∃ x log, pcg (K *ᵥ ·) rhs (N *ᵥ ·) L tol x0 = .ok (x, log) ∧
      (x - xs) ⬝ᵥ (K *ᵥ (x - xs)) ≤
        max (tol ^ 2 * (khi / klo)) ((2 * ((√hi - √lo) / (√hi + √lo)) ^ L) ^ 2) *
          ((x0 - xs) ⬝ᵥ (K *ᵥ (x0 - xs))) := by
  obtain ⟨x, log, h1, h2⟩ := C66_pcg_apriori K N hK hN rhs x0 xs hx L tol ht lo hi hlo hle hs
  refine ⟨x, log, h1, ?_⟩
  have h0 := hK.2 (x0 - xs)
  rcases h2 with h2 | h2
  · exact (energy_of_tol hK hklo hk hx h2).trans (mul_le_mul_of_nonneg_right (le_max_left _ _) h0)
  · exact h2.trans (mul_le_mul_of_nonneg_right (le_max_right _ _) h0)

/-! ### `PcSS1` -/

/-- a result of `PcSS1` has used all its iterations or meets the residual tolerance, relative to its start -/
theorem pcss1_stop {A : Matrix (Fin m) (Fin n) ℝ} {b : BArg m} {c : Option (Fin n → ℝ)} {δ tol : ℝ} {L : ℤ}
    {R : Matrix (Fin n) (Fin r) ℝ} {z0 : Option (Fin r → ℝ)} {out : SaddleOut m n}
    (h : pcss1 A b c δ tol L (.gen r R) z0 = .ok out) :
    ∃ x log, out.x = some x ∧ out.errs = .arr log ∧ ((log.length : ℤ) = L ∨
      norm2 (Aᵀ *ᵥ bVec b - cVec c - (Aᵀ * A + δ • (1 : Matrix (Fin n) (Fin n) ℝ)) *ᵥ x) ≤
        tol * norm2 (Aᵀ *ᵥ bVec b - cVec c - (Aᵀ * A + δ • (1 : Matrix (Fin n) (Fin n) ℝ)) *ᵥ pcss1Start R z0)) := by
  obtain ⟨-, r, R, e, mvPre, R', x, log, h1, h2, rfl⟩ := pcss1_ok_iff.1 h
  cases e
  obtain ⟨N, -, hc⟩ := pcss1Pre_eq h1
  have hst : pcss1Start R' z0 = pcss1Start R z0 := by
    rcases hc with ⟨-, rfl, -⟩ | ⟨hrn, -⟩
    · rfl
    · unfold pcss1Start; rw [if_neg hrn, if_neg hrn]
  rw [mvGram_eq, normalRhs_eq] at h2
  obtain ⟨-, g, -⟩ := C27_pcg_log _ _ _ _ _ _ _ _ h2
  refine ⟨x, log, rfl, rfl, g.imp id fun g => ?_⟩
  rw [← hst]
  exact g

/-- **C79** (`PcSS1` with a square preconditioner).  Let `klo ‖z‖² ≤ ‖A z‖² + δ‖z‖² ≤ khi ‖z‖²`, `0 < klo`, and let `R` be
nonsingular with `lo ‖z‖² ≤ ‖A R z‖² + δ‖R z‖² ≤ hi ‖z‖²`, `0 < lo ≤ hi`.  The `x` returned with limit `L` and tolerance
`tol >= 0` has `‖A(x - x*)‖² + δ‖x - x*‖²` at most `max(tol² khi/klo, (2 ((√hi - √lo)/(√hi + √lo))^L)²)` times its value at
the starting point, and `y = b - A x`. -/
theorem C79_pcss1 (A : Matrix (Fin m) (Fin n) ℝ) (b : BArg m) (c : Option (Fin n → ℝ)) (δ tol : ℝ)
    (hδ : 0 ≤ δ) (ht : 0 ≤ tol) (L : ℕ) (R : Matrix (Fin n) (Fin n) ℝ) (hR : FullColRank R)
    (z0 : Option (Fin n → ℝ)) (out : SaddleOut m n) (h : pcss1 A b c δ tol L (.gen n R) z0 = .ok out)
    (lo hi klo khi : ℝ) (hlo : 0 < lo) (hle : lo ≤ hi)
    (hs : ∀ z, lo * sqNorm z ≤ sqNorm (A *ᵥ (R *ᵥ z)) + δ * sqNorm (R *ᵥ z) ∧
      sqNorm (A *ᵥ (R *ᵥ z)) + δ * sqNorm (R *ᵥ z) ≤ hi * sqNorm z) (hklo : 0 < klo)
    (hk : ∀ z, klo * sqNorm z ≤ sqNorm (A *ᵥ z) + δ * sqNorm z ∧ sqNorm (A *ᵥ z) + δ * sqNorm z ≤ khi * sqNorm z)
    (xs : Fin n → ℝ) (hxs : Aᵀ *ᵥ (A *ᵥ xs) + δ • xs = Aᵀ *ᵥ bVec b - cVec c) :
    ∃ x, out.x = some x ∧ out.y = bVec b - A *ᵥ x ∧
      sqNorm (A *ᵥ (x - xs)) + δ * sqNorm (x - xs) ≤
        max (tol ^ 2 * (khi / klo)) ((2 * ((√hi - √lo) / (√hi + √lo)) ^ L) ^ 2) *
          (sqNorm (A *ᵥ (pcss1Start R z0 - xs)) + δ * sqNorm (pcss1Start R z0 - xs)) := by
  obtain ⟨x, log, g1, g2, g3⟩ := C66_pcss1_rate A b c δ tol hδ ht L R hR z0 out h lo hi hlo hle hs xs hxs
  obtain ⟨x', log', g4, g5, g6⟩ := pcss1_stop h
  obtain ⟨x'', -, g7, g8, -⟩ := C29_pcss1_log A b c δ tol L (.gen n R) z0 out h
  rw [g1] at g4 g7; cases g4; cases g7
  rw [g2] at g5; cases g5
  refine ⟨x, g1, g8, ?_⟩
  have h0 : 0 ≤ sqNorm (A *ᵥ (pcss1Start R z0 - xs)) + δ * sqNorm (pcss1Start R z0 - xs) :=
    add_nonneg (sqNorm_nonneg _) (mul_nonneg hδ (sqNorm_nonneg _))
  rcases g6 with g6 | g6
  · rw [show log.length = L by exact_mod_cast g6] at g3
    exact g3.trans (mul_le_mul_of_nonneg_right (le_max_right _ _) h0)
  · have hx' : (Aᵀ * A + δ • (1 : Matrix (Fin n) (Fin n) ℝ)) *ᵥ xs = Aᵀ *ᵥ bVec b - cVec c := by
      rw [add_mulVec, smul_mulVec, one_mulVec, ← mulVec_mulVec, hxs]
    have := energy_of_tol (gram_psd A hδ) hklo (fun z => by rw [gram_energy]; exact hk z) hx' g6
    rw [gram_energy, gram_energy] at this
    exact this.trans (mul_le_mul_of_nonneg_right (le_max_left _ _) h0)

/-! ### `SPS1` and `sps` -/

/-- a result of `SPS1` with `PcSS1` has used all its iterations or meets the residual tolerance, relative to the result
of the same call with `iter_lim = 0` -/
theorem sps1_stop {la : LinAlg} {gen : SkOpGen G} {sf : ℝ} {strategy : NystromStrategy}
    {A : Matrix (Fin m) (Fin n) ℝ} {b : Option (Fin m → ℝ)} {c : Option (Fin n → ℝ)} {δ tol : ℝ} {L : ℤ}
    {clock : LogTimes} {w w' : World G} {out out0 : SPSOut m n}
    (h : sps1Call la gen sf PcSS1 strategy A b c δ tol L true clock w = .ok (out, w'))
    (h0 : sps1Call la gen sf PcSS1 strategy A b c δ tol 0 true clock w = .ok (out0, w')) :
    ∃ x x0 lg k, out.x = some x ∧ out0.x = some x0 ∧ out.log = some lg ∧ lg.errors.length = k + 1 ∧ ((k : ℤ) = L ∨
      norm2 (Aᵀ *ᵥ b.getD 0 - cVec c - (Aᵀ * A + δ • (1 : Matrix (Fin n) (Fin n) ℝ)) *ᵥ x) ≤
        tol * norm2 (Aᵀ *ᵥ b.getD 0 - cVec c - (Aᵀ * A + δ • (1 : Matrix (Fin n) (Fin n) ℝ)) *ᵥ x0)) := by
  obtain ⟨p, hp, hpost⟩ := sps1_ok h
  obtain ⟨res, hr, e1, -, e3⟩ := sps1Post_ok hpost
  obtain ⟨x, log, g1, g2, g3⟩ := pcss1_stop (show pcss1 _ _ _ _ _ _ (.gen p.r p.M) p.z = _ from hr)
  rw [sps1_eq PcSS1 tol 0 true clock hp] at h0
  cases hq : sps1Post PcSS1 A (b.getD 0) c δ tol 0 p true clock with
  | error e => rw [hq] at h0; cases h0
  | ok o =>
    rw [hq] at h0
    cases h0
    obtain ⟨res0, hr0, q1, -, -⟩ := sps1Post_ok hq
    have hst := pcss1_start (show pcss1 _ _ _ _ _ _ (.gen p.r p.M) p.z = _ from hr0)
    rw [g2] at e3
    refine ⟨x, _, _, log.length, e1.trans g1, q1.trans hst, (Except.ok.inj e3).symm, rfl, g3⟩

/-- What the theorems below promise of a call with limit `L` and tolerance `tol`: it returns some `x` and
`y = b - A x` with `‖y - y*‖² + δ‖x - x*‖² ≤ max(tol² (hi²+δ)/(lo²+δ), (2 ε^L)²) (1+ε)/(1-ε) (‖A x*‖² + δ‖x*‖²)`. -/
def SpsTol (A : Matrix (Fin m) (Fin n) ℝ) (b : Option (Fin m → ℝ)) (δ tol : ℝ) (L : ℕ) (ε lo hi : ℝ) (xs : Fin n → ℝ)
    (ys : Fin m → ℝ) (res : Except PyErr (SPSOut m n × World G)) : Prop :=
  ∃ out w' x y, res = .ok (out, w') ∧ out.x = some x ∧ out.y = some y ∧ y = b.getD 0 - A *ᵥ x ∧
    sqNorm (y - ys) + δ * sqNorm (x - xs) ≤
      max (tol ^ 2 * ((hi ^ 2 + δ) / (lo ^ 2 + δ))) ((2 * ε ^ L) ^ 2) * ((1 + ε) / (1 - ε)) *
        (sqNorm (A *ᵥ xs) + δ * sqNorm xs)

/-- **C79** (`SPS1` with `PcSS1`, given the sketch).  Let `lo ‖x‖ ≤ ‖A x‖ ≤ hi ‖x‖` with
`√((1+ε)/(1-ε)) hi n eps < lo`, and let the sketch drawn embed the range of `A` up to `1 ± ε`, `ε < 1`.  Then for every
limit and tolerance the call keeps the promise of `SpsTol`. -/
theorem C79_sps1 (la : LinAlg) (gen : SkOpGen G) (sf : ℝ) (strategy : NystromStrategy) (hstr : strategy ≠ .other)
    (A : Matrix (Fin m) (Fin n) ℝ) (b : Option (Fin m → ℝ)) (c : Option (Fin n → ℝ)) (δ tol : ℝ) (hδ : 0 ≤ δ)
    (ht : 0 ≤ tol) (L : ℕ) (clock : LogTimes) (w w' : World G) (hn : 0 < n) (hd : (d : ℤ) = pyInt (sf * n)) (hnd : n ≤ d)
    (S : Matrix (Fin d) (Fin m) ℝ) (hgen : gen d m w = .ok (S, w')) (ε lo hi : ℝ) (hε : 0 ≤ ε) (hε1 : ε < 1)
    (hS : Embeds S A ε) (hlo : ∀ x, lo * norm2 x ≤ norm2 (A *ᵥ x)) (hhi : ∀ x, norm2 (A *ᵥ x) ≤ hi * norm2 x)
    (h0 : 0 ≤ hi) (hls : √((1 + ε) / (1 - ε)) * hi * n * eps < lo) (xs : Fin n → ℝ) (ys : Fin m → ℝ)
    (hxs : SolvesSaddle A (b.getD 0) (cVec c) δ xs ys) :
    SpsTol A b δ tol L ε lo hi xs ys (sps1Call la gen sf PcSS1 strategy A b c δ tol L true clock w) := by
  have hlo0 : 0 < lo := lt_of_le_of_lt (by unfold eps; positivity) hls
  obtain ⟨out, x, y, lg, k, g1, g2, g3, g4, g5, -, g6, -⟩ := sps1_given la (gen := gen) (strategy := strategy) hstr hδ ht
    (by omega : (0 : ℤ) ≤ L) clock hn hd hnd hgen hε hε1 hS hlo hhi h0 hls hxs
  obtain ⟨out0, -, -, -, -, q1, -⟩ := sps1_given la (gen := gen) (strategy := strategy) hstr hδ ht
    (le_refl (0 : ℤ)) clock hn hd hnd hgen hε hε1 hS hlo hhi h0 hls hxs
  have hw := wellCond_lift_of_embeds hn hδ hε hε1 hS hlo hhi h0 hls
  have hall : ∀ (d : ℕ) S, (d : ℤ) = pyInt (sf * n) → gen d m w = .ok (S, w') →
      Embeds S A ε ∧ WellCond (aLift (S * A) (Real.sqrt δ)) := fun d' S' k1 k2 => by
    obtain rfl : d' = d := by omega
    rw [hgen] at k2
    cases k2
    exact ⟨hS, hw⟩
  obtain ⟨x0, t1, t2⟩ := C73_sps1_start la gen sf strategy A b c δ tol hδ true clock w w' out0 q1 (by omega) ε hε hε1 hall
    xs ys hxs
  obtain ⟨x', x0', lg', k', r1, r2, r3, r4, r5⟩ := sps1_stop g1 q1
  rw [g2] at r1; cases r1
  rw [t1] at r2; cases r2
  rw [g4] at r3; cases r3
  obtain rfl : k' = k := by omega
  obtain ⟨x', r1, r2, -⟩ := C41_sps1_result la gen sf strategy A b c δ tol L true clock w w' out g1
  rw [g2] at r1; cases r1
  rw [g3] at r2; cases r2
  have hb : 0 ≤ (1 + ε) / (1 - ε) * (sqNorm (A *ᵥ xs) + δ * sqNorm xs) :=
    mul_nonneg (div_nonneg (by linarith) (by linarith)) (add_nonneg (sqNorm_nonneg _) (mul_nonneg hδ (sqNorm_nonneg _)))
  refine ⟨out, w', x, _, g1, g2, g3, rfl, ?_⟩
  rw [mul_assoc]
  rcases r5 with r5 | r5
  · obtain rfl : k' = L := by omega
    rw [mul_assoc] at g6
    exact g6.trans (mul_le_mul_of_nonneg_right (le_max_right _ _) hb)
  · have hx' : (Aᵀ * A + δ • (1 : Matrix (Fin n) (Fin n) ℝ)) *ᵥ xs = Aᵀ *ᵥ b.getD 0 - cVec c := by
      rw [add_mulVec, smul_mulVec, one_mulVec, ← mulVec_mulVec, ← hxs.1, ← hxs.2, mulVec_add]; abel
    have hk : ∀ z, (lo ^ 2 + δ) * sqNorm z ≤ z ⬝ᵥ ((Aᵀ * A + δ • (1 : Matrix (Fin n) (Fin n) ℝ)) *ᵥ z) ∧
        z ⬝ᵥ ((Aᵀ * A + δ • (1 : Matrix (Fin n) (Fin n) ℝ)) *ᵥ z) ≤ (hi ^ 2 + δ) * sqNorm z := fun z => by
      have a1 := pow_le_pow_left₀ (mul_nonneg hlo0.le (norm2_nonneg z)) (hlo z) 2
      have a2 := pow_le_pow_left₀ (norm2_nonneg _) (hhi z) 2
      rw [mul_pow, norm2_sq, norm2_sq] at a1 a2
      rw [gram_energy]
      constructor <;> linarith
    have := energy_of_tol (gram_psd A hδ) (by positivity : 0 < lo ^ 2 + δ) hk hx' r5
    rw [gram_energy, gram_energy] at this
    have hyx : sqNorm (b.getD 0 - A *ᵥ x - ys) = sqNorm (A *ᵥ (x - xs)) := by
      rw [← sqNorm_neg, ← hxs.1, mulVec_sub]; congr 1; abel
    rw [hyx]
    refine this.trans ((mul_le_mul_of_nonneg_left t2 (by positivity)).trans
      (mul_le_mul_of_nonneg_right (le_max_left _ _) hb))

/-- **C79** (`sps` as called by default, with an SJLT).  Let `lo ‖x‖ ≤ ‖A x‖ ≤ hi ‖x‖` with
`√((1+ε)/(1-ε)) hi n eps < lo` and `0 < ε < 1`; let `d = int(sampling_factor * n)` satisfy `n ≤ d ≤ m` and
`1 ≤ vec_nnz ≤ d`.  Except for draws of probability at most `(n² + n)/(d ε²)`: for every `b`, `c`, `δ ≥ 0`, `tol ≥ 0` and
limit, `sps` keeps the promise of `SpsTol`. -/
theorem C79_sps (A : Matrix (Fin m) (Fin n) ℝ) (hn : 0 < n) (a : SketchArgs)
    (hdd : (d : ℤ) = pyInt (a.samplingFactor * n)) (hd : n ≤ d) (hdm : d ≤ m) (hs : 0 < a.vecNnz) (hsd : a.vecNnz ≤ d)
    (ε lo hi : ℝ) (hε : 0 < ε) (hε1 : ε < 1) (hlo : ∀ x, lo * norm2 x ≤ norm2 (A *ᵥ x))
    (hhi : ∀ x, norm2 (A *ᵥ x) ≤ hi * norm2 x) (h0 : 0 ≤ hi) (hls : √((1 + ε) / (1 - ε)) * hi * n * eps < lo) :
    ∃ E : Set ((Fin m → (Fin a.vecNnz ↪ Fin d)) × (Fin (m * a.vecNnz) → ℝ)),
      sjltDraws d m _ E ≤ ENNReal.ofReal ((n ^ 2 + n) / (d * ε ^ 2)) ∧
      ∀ rv u, (rv, u) ∉ E → ∀ (G : Type) (la : LinAlg) (R : NpRng G) (w : World G) (b : Option (Fin m → ℝ))
        (c : Option (Fin n → ℝ)) (δ tol : ℝ) (L : ℕ) (clock : LogTimes) (xs : Fin n → ℝ) (ys : Fin m → ℝ),
        0 ≤ δ → 0 ≤ tol → NextSJLT R w d m _ rv u → SolvesSaddle A (b.getD 0) (cVec c) δ xs ys →
        SpsTol A b δ tol L ε lo hi xs ys ((spsFn la R A b c δ tol L clock a) w) := by
  have hr : (A.rank : ℝ) ≤ n := by exact_mod_cast A.rank_le_width
  obtain ⟨E, h1, h2⟩ := C70_sjlt_embeds A hs hsd hdm ε hε
  refine ⟨E, h1.trans (ENNReal.ofReal_le_ofReal (div_le_div_of_nonneg_right (add_le_add
    (pow_le_pow_left₀ (by positivity) hr 2) hr) (by positivity))),
    fun rv u hE G la R w b c δ tol L clock xs ys hδ ht hw hxs => ?_⟩
  obtain ⟨S, w', hgen, hS⟩ := h2 rv u hE G R w hw
  exact C79_sps1 la (a.skop R) _ .left (by simp) A b c δ tol hδ ht L clock w w' hn hdd hd S hgen ε lo hi hε.le hε1 hS hlo
    hhi h0 hls xs ys hxs

/-! ### `SPU1` -/

/-- `lsqr` for the minimum-norm solution of `F' x = F' ws` with a well-conditioned `F` -/
theorem lsqr_under {p r : ℕ} {F : Matrix (Fin p) (Fin r) ℝ} {ε tol : ℝ} (hε : 0 ≤ ε) (hε1 : ε < 1) (ht : 0 ≤ tol)
    (hrn : r ≤ n) (q1 : ∀ z, 1 / √(1 + ε) * norm2 z ≤ norm2 (F *ᵥ z)) (q2 : ∀ z, norm2 (F *ᵥ z) ≤ 1 / √(1 - ε) * norm2 z)
    (q3 : froSq F ≤ r / (1 - ε)) (hcond : fro F * √F.rank < 1 / √(1 + ε) * (10 ^ 8 - eps)) {ws : Fin p → ℝ}
    (hws : ws ∈ colSpace F) (hb : Fᵀ *ᵥ ws ≠ 0) (L : ℕ) {q : LsqrOut p}
    (hl : lsqr (LinOp.ofMat Fᵀ) (Fᵀ *ᵥ ws) 0 ⟨tol, tol, 10 ^ 8⟩ (some (L : ℤ)) none = .ok q) (κ : ℝ)
    (hκ : κ = √((1 + ε) / (1 - ε))) :
    norm2 (ws - q.x) ≤ max (2 * ε ^ L * κ) (tol * (κ * (1 + √n * (1 + κ)))) * norm2 ws + tol * ((1 + ε) * eps) := by
  have p1 : (0 : ℝ) < 1 + ε := by linarith
  have p2 : (0 : ℝ) < 1 - ε := by linarith
  have s1 : 0 < √(1 + ε) := Real.sqrt_pos.2 p1
  have s2 : 0 < √(1 - ε) := Real.sqrt_pos.2 p2
  have hκ' : κ = √(1 + ε) / √(1 - ε) := by rw [hκ, Real.sqrt_div p1.le]
  have hκ0 : 0 ≤ κ := hκ ▸ Real.sqrt_nonneg _
  have he : 0 ≤ eps := by unfold eps; positivity
  have hn0 : 0 ≤ √(n : ℝ) := Real.sqrt_nonneg _
  have hw0 := norm2_nonneg ws
  have low : ∀ z ∈ colSpace F, 1 / √(1 + ε) * norm2 z ≤ norm2 (Fᵀ *ᵥ z) := fun z hz =>
    low_transpose (one_div_pos.2 s1) q1 hz
  have high : ∀ z, norm2 (Fᵀ *ᵥ z) ≤ 1 / √(1 - ε) * norm2 z := high_transpose (by positivity) q2
  have hfro : fro F ≤ √n / √(1 - ε) := by
    rw [← Real.sqrt_div (Nat.cast_nonneg _)]
    exact Real.sqrt_le_sqrt (q3.trans (div_le_div_of_nonneg_right (by exact_mod_cast hrn) p2.le))
  have hf0 := fro_nonneg F
  -- the error in terms of the residual
  obtain ⟨v, hv⟩ := C33_lsqr_row_space _ _ _ _ _ _ _ hl
  rw [Option.getD_none, zero_add, transpose_transpose] at hv
  have hmem : ws - q.x ∈ colSpace F := Submodule.sub_mem _ hws (mem_colSpace.2 ⟨v, hv.symm⟩)
  have hres : Fᵀ *ᵥ ws - Fᵀ *ᵥ q.x = Fᵀ *ᵥ (ws - q.x) := (mulVec_sub _ _ _).symm
  obtain ⟨ρ, hρ⟩ : ∃ ρ, ρ = norm2 (Fᵀ *ᵥ ws - Fᵀ *ᵥ q.x) := ⟨_, rfl⟩
  have hρ0 : 0 ≤ ρ := hρ ▸ norm2_nonneg _
  have herr : norm2 (ws - q.x) ≤ √(1 + ε) * ρ := by
    have := low _ hmem
    rw [← hres, ← hρ, div_mul_eq_mul_div, one_mul, div_le_iff₀ s1, mul_comm] at this
    exact this
  have hb1 : norm2 (Fᵀ *ᵥ ws) ≤ 1 / √(1 - ε) * norm2 ws := high ws
  have hρb : ρ ≤ norm2 (Fᵀ *ᵥ ws) := by
    have := (C31_lsqr_never_worse _ _ _ _ _ _ hl).1
    rw [Option.getD_none, mulVec_zero, sub_zero, ← hρ] at this
    exact this
  have hk : √(1 + ε) * (1 / √(1 - ε)) = κ := by rw [hκ']; ring
  have herr0 : norm2 (ws - q.x) ≤ κ * norm2 ws := by
    calc _ ≤ √(1 + ε) * ρ := herr
      _ ≤ √(1 + ε) * (1 / √(1 - ε) * norm2 ws) := mul_le_mul_of_nonneg_left (hρb.trans hb1) s1.le
      _ = _ := by rw [← mul_assoc, hk]
  have hxn : norm2 q.x ≤ (1 + κ) * norm2 ws := by
    have : q.x = ws - (ws - q.x) := by abel
    rw [this]
    refine (norm2_sub_le _ _).trans ?_
    linarith
  obtain ⟨out', h1, h2⟩ := C67_lsqr_apriori Fᵀ (Fᵀ *ᵥ ws) hb ⟨tol, tol, 10 ^ 8⟩ ht L none ws
    (fun z => by rw [sub_self, sqNorm_zero']; exact sqNorm_nonneg _)
    (1 / (1 + ε)) (1 / (1 - ε)) (one_div_pos.2 p1) (one_div_le_one_div_of_le p2 (by linarith))
    (fun z hz => by
      rw [transpose_transpose] at hz
      have a1 := pow_le_pow_left₀ (mul_nonneg (by positivity) (norm2_nonneg _)) (low z hz) 2
      have a2 := pow_le_pow_left₀ (norm2_nonneg _) (high z) 2
      rw [mul_pow, div_pow, one_pow, Real.sq_sqrt p1.le, norm2_sq, norm2_sq] at a1
      rw [mul_pow, div_pow, one_pow, Real.sq_sqrt p2.le, norm2_sq, norm2_sq] at a2
      exact ⟨a1, a2⟩)
    (by
      rw [Real.sqrt_div zero_le_one, Real.sqrt_one, fro_transpose', rank_transpose]
      exact hcond)
  rw [hl] at h1; cases h1
  have htail : 0 ≤ tol * ((1 + ε) * eps) := by positivity
  rcases h2 with h2 | h2 | h2
  · -- all iterations
    rw [sub_self, sqNorm_zero', sub_zero, sub_zero, Option.getD_none, mulVec_zero, sub_zero] at h2
    obtain ⟨r0, r1⟩ := rho_le hε hε1
    have h3 : sqNorm (Fᵀ *ᵥ ws - Fᵀ *ᵥ q.x) ≤ (2 * ε ^ L) ^ 2 * sqNorm (Fᵀ *ᵥ ws) :=
      h2.trans (mul_le_mul_of_nonneg_right (pow_le_pow_left₀ (by positivity)
        (mul_le_mul_of_nonneg_left (pow_le_pow_left₀ r0 r1 L) zero_le_two) 2) (sqNorm_nonneg _))
    rw [← norm2_sq, ← norm2_sq, ← mul_pow, ← hρ] at h3
    have h4 : ρ ≤ 2 * ε ^ L * norm2 (Fᵀ *ᵥ ws) :=
      (pow_le_pow_iff_left₀ hρ0 (mul_nonneg (by positivity) (norm2_nonneg _)) two_ne_zero).1 h3
    have h5 : norm2 (ws - q.x) ≤ 2 * ε ^ L * κ * norm2 ws := by
      calc _ ≤ √(1 + ε) * ρ := herr
        _ ≤ √(1 + ε) * (2 * ε ^ L * (1 / √(1 - ε) * norm2 ws)) :=
          mul_le_mul_of_nonneg_left (h4.trans (mul_le_mul_of_nonneg_left hb1 (by positivity))) s1.le
        _ = 2 * ε ^ L * (√(1 + ε) * (1 / √(1 - ε))) * norm2 ws := by ring
        _ = _ := by rw [hk]
    have h6 := mul_le_mul_of_nonneg_right (le_max_left (2 * ε ^ L * κ) (tol * (κ * (1 + √n * (1 + κ))))) hw0
    linarith
  · -- first residual test
    rw [← hρ, Option.getD_none, sub_zero, fro_transpose'] at h2
    simp only at h2
    have h3 : ρ ≤ tol * (1 / √(1 - ε) * norm2 ws) + tol * (√n / √(1 - ε) * ((1 + κ) * norm2 ws)) := by
      refine h2.trans (add_le_add (mul_le_mul_of_nonneg_left hb1 ht) ?_)
      rw [mul_assoc]
      exact mul_le_mul_of_nonneg_left (mul_le_mul hfro hxn (norm2_nonneg _) (by positivity)) ht
    have h5 : norm2 (ws - q.x) ≤ tol * (κ * (1 + √n * (1 + κ))) * norm2 ws := by
      calc _ ≤ √(1 + ε) * ρ := herr
        _ ≤ √(1 + ε) * (tol * (1 / √(1 - ε) * norm2 ws) + tol * (√n / √(1 - ε) * ((1 + κ) * norm2 ws))) :=
          mul_le_mul_of_nonneg_left h3 s1.le
        _ = tol * ((√(1 + ε) * (1 / √(1 - ε))) * (1 + √n * (1 + κ))) * norm2 ws := by ring
        _ = _ := by rw [hk]
    have h6 := mul_le_mul_of_nonneg_right (le_max_right (2 * ε ^ L * κ) (tol * (κ * (1 + √n * (1 + κ))))) hw0
    linarith
  · -- second residual test
    rw [← hρ, transpose_transpose, fro_transpose'] at h2
    simp only at h2
    have h3 : ρ ≤ √(1 + ε) * (tol * (√n / √(1 - ε) * (1 / √(1 - ε) * norm2 ws) + eps)) := by
      have a := q1 (Fᵀ *ᵥ ws - Fᵀ *ᵥ q.x)
      rw [← hρ, div_mul_eq_mul_div, one_mul, div_le_iff₀ s1, mul_comm] at a
      refine a.trans (mul_le_mul_of_nonneg_left (h2.trans (mul_le_mul_of_nonneg_left ?_ ht)) s1.le)
      have := mul_le_mul hfro (hρb.trans hb1) hρ0 (by positivity)
      linarith
    have h5 : norm2 (ws - q.x) ≤ tol * (κ * (κ * √n)) * norm2 ws + tol * ((1 + ε) * eps) := by
      have e : √(1 + ε) * √(1 + ε) = 1 + ε := Real.mul_self_sqrt p1.le
      calc _ ≤ √(1 + ε) * ρ := herr
        _ ≤ √(1 + ε) * (√(1 + ε) * (tol * (√n / √(1 - ε) * (1 / √(1 - ε) * norm2 ws) + eps))) :=
          mul_le_mul_of_nonneg_left h3 s1.le
        _ = tol * ((√(1 + ε) * (1 / √(1 - ε))) * ((√(1 + ε) * (1 / √(1 - ε))) * √n)) * norm2 ws +
            tol * ((√(1 + ε) * √(1 + ε)) * eps) := by ring
        _ = _ := by rw [hk, e]
    have h7 : tol * (κ * (κ * √n)) * norm2 ws ≤ tol * (κ * (1 + √n * (1 + κ))) * norm2 ws := by
      refine mul_le_mul_of_nonneg_right (mul_le_mul_of_nonneg_left (mul_le_mul_of_nonneg_left ?_ hκ0) ht) hw0
      nlinarith
    have h6 := mul_le_mul_of_nonneg_right (le_max_right (2 * ε ^ L * κ) (tol * (κ * (1 + √n * (1 + κ))))) hw0
    linarith

/-- **C79** (`SPU1`).  Let the sketch drawn embed the range of `A` up to `1 ± ε`, `ε < 1`, with a numerically full-rank
sketched matrix, and put `κ = √((1+ε)/(1-ε))`, `n κ < 10^8 - eps`.  For every `c ≠ 0`, limit `L` and tolerance `tol >= 0`, the
`y` returned is within `max(2 ε^L κ, tol κ (1 + √n (1 + κ))) ‖y*‖ + tol (1+ε) eps` of the minimum-norm solution `y*` of
`A'y = c` (`eps` is the machine epsilon, which `lsqr` adds in one of its tests). -/
theorem C79_spu1 (la : LinAlg) (gen : SkOpGen G) (sf : ℝ) (A : Matrix (Fin m) (Fin n) ℝ)
    (c : Fin n → ℝ) (hc : c ≠ 0) (tol : ℝ) (ht : 0 ≤ tol) (L : ℕ) (logging : Bool) (clock : LogTimes) (w w' : World G)
    (out : SPUOut m) (h : spu1Call la gen sf A c tol L logging clock w = .ok (out, w'))
    (ε : ℝ) (hε : 0 ≤ ε) (hε1 : ε < 1)
    (hS : ∀ d w₁ S, (dimChecks sf m n : Py G ℕ) w = .ok (d, w₁) → gen d m w₁ = .ok (S, w') →
      Embeds S A ε ∧ WellCond (S * A)) (κ : ℝ) (hκ : κ = √((1 + ε) / (1 - ε))) (hcond : n * κ < 10 ^ 8 - eps)
    (ys : Fin m → ℝ) (hys : IsMinNormSol A c ys) :
    norm2 (out.y - ys) ≤ max (2 * ε ^ L * κ) (tol * (κ * (1 + √n * (1 + κ)))) * norm2 ys + tol * ((1 + ε) * eps) := by
  obtain ⟨d, S, w₁, o, res, -, -, h1, h2, ho, hr, hy, -⟩ := spu1_ok h
  obtain ⟨hSe, hSw⟩ := hS _ _ _ h1 h2
  obtain ⟨g1, g2, -, -, -, -, g3⟩ := C26_svd_right_precond la _ o ho
  have hrn : o.r = n := WellCond.no_truncation la hSw ho
  obtain ⟨e1, e2⟩ := g3 hrn
  have horth : (aLift (S * A) (Real.sqrt 0) * o.M)ᵀ * (aLift (S * A) (Real.sqrt 0) * o.M) = 1 := by
    have : (aLift (S * A) (Real.sqrt 0) * o.M)ᵀ * (aLift (S * A) (Real.sqrt 0) * o.M) =
        o.Mᵀ * ((aLift (S * A) (Real.sqrt 0))ᵀ * aLift (S * A) (Real.sqrt 0)) * o.M := by
      rw [transpose_mul]; simp only [Matrix.mul_assoc]
    rw [this, aLift_gram_zero]
    have g2' : o.Uᵀ * o.U = 1 := g2
    rw [← g1, transpose_mul] at g2'
    rw [← g2']; simp only [Matrix.mul_assoc]
  obtain ⟨q1, q2, q3⟩ := precond_bounds le_rfl hε hε1 hSe horth
  have hco := precond_cond le_rfl hε hε1 hSe horth (by rw [hrn, ← hκ]; exact hcond)
  have hf : FullColRank A := by
    refine fullColRank_iff_inj.2 fun x hx => fullColRank_iff_inj.1 (WellCond.fullColRank hSw) x ?_
    rw [← mulVec_mulVec, hx, mulVec_zero]
  obtain ⟨u, hu⟩ := mem_colSpace.1 (minNorm_range hf hys)
  obtain ⟨F, hF⟩ : ∃ F, F = aLift A (Real.sqrt 0) * o.M := ⟨_, rfl⟩
  rw [← hF] at q1 q2 q3 hco
  obtain ⟨ws, hws⟩ : ∃ ws, ws = aLift A (Real.sqrt 0) *ᵥ u := ⟨_, rfl⟩
  have htop : topv ws = ys := by rw [hws, aLift_mulVec, topv_catv, hu]
  have hwn : norm2 ws = norm2 ys := by
    unfold norm2
    congr 1
    rw [hws, sqNorm_aLift, Real.sqrt_zero, hu]; ring
  have hinv : ∀ v, o.M *ᵥ (o.Mᵀ *ᵥ (((S * A)ᵀ * (S * A)) *ᵥ v)) = v := fun v => by
    rw [mulVec_mulVec, mulVec_mulVec, e1, one_mulVec]
  have hwsF : ws ∈ colSpace F := by
    refine mem_colSpace.2 ⟨o.Mᵀ *ᵥ (((S * A)ᵀ * (S * A)) *ᵥ u), ?_⟩
    rw [hF, hws, ← mulVec_mulVec, hinv]
  have hsol : o.Mᵀ *ᵥ c = Fᵀ *ᵥ ws := by
    have e : √(0 : ℝ) • padv n (botv ws) = 0 := by
      rw [show √(0 : ℝ) • padv n (botv ws) = (0 : ℝ) • padv n (botv ws) from
        congrArg (· • padv n (botv ws)) Real.sqrt_zero, zero_smul]
    rw [hF, mul_T_mulVec, aLift_T_mulVec, htop, hys.1, e, add_zero]
  have hb : Fᵀ *ᵥ ws ≠ 0 := by
    rw [← hsol]
    intro hz
    refine hc ?_
    -- `M'` is injective, because `M` is onto
    have key : ∀ v, v ⬝ᵥ c = 0 := fun v => by
      rw [← hinv v, dotProduct_comm, dot_mulVec, hz, zero_dotProduct]
    have := key c
    rw [← sqNorm_eq_dot] at this
    exact sqNorm_eq_zero.1 this
  have hq := pcss2_under_eq A .none c le_rfl tol L (P := .gen o.r o.M) trivial none trivial hc
  rw [hr] at hq
  cases hl' : lsqr (LinOp.ofMat (aLift A (Real.sqrt 0) * (Precond.gen o.r o.M).mat)ᵀ)
      ((Precond.gen o.r o.M).matᵀ *ᵥ c) 0 ⟨tol, tol, 10 ^ 8⟩ (some (L : ℤ)) none with
  | error e => rw [hl'] at hq; cases hq
  | ok q =>
    rw [hl'] at hq
    simp only [Except.ok.injEq] at hq
    have hl : lsqr (LinOp.ofMat Fᵀ) (Fᵀ *ᵥ ws) 0 ⟨tol, tol, 10 ^ 8⟩ (some (L : ℤ)) none = .ok q := by
      rw [← hsol, hF]; exact hl'
    have hyq : out.y = topv q.x := by rw [hy, hq]
    have hproj : norm2 (out.y - ys) ≤ norm2 (ws - q.x) := by
      have : out.y - ys = topv (q.x - ws) := by rw [hyq, ← htop]; rfl
      rw [norm2_le_norm2, this, ← sqNorm_neg (ws - q.x), neg_sub]
      have e := sqNorm_catv (topv (q.x - ws)) (botv (q.x - ws))
      rw [catv_top_bot] at e
      linarith [sqNorm_nonneg (botv (q.x - ws))]
    rw [← hwn]
    exact hproj.trans (lsqr_under hε hε1 ht hrn.le q1 q2 q3 hco hwsF hb L hl κ hκ)

/-- **C79** (`spu1` as called by default, with an SJLT).  Let `lo ‖x‖ ≤ ‖A x‖ ≤ hi ‖x‖` with
`√((1+ε)/(1-ε)) hi n eps < lo`, `d = min(int(sampling_factor * n), m) ≥ n > 0`, `1 ≤ vec_nnz ≤ d`, `0 < ε < 1`,
`κ = √((1+ε)/(1-ε))` and `n κ < 10^8 - eps`.  Except for draws of probability at most `(n² + n)/(d ε²)`: for every `c ≠ 0`,
limit `L` and tolerance `tol ≥ 0`, `spu1` returns a `y` within
`max(2 ε^L κ, tol κ (1 + √n (1 + κ))) ‖y*‖ + tol (1+ε) eps` of the minimum-norm solution `y*` of `A'y = c`. -/
theorem C79_spu (A : Matrix (Fin m) (Fin n) ℝ) (hn : 0 < n) (a : SketchArgs)
    (hd : n ≤ sketchRows a.samplingFactor m n) (hs : 0 < a.vecNnz) (hsd : a.vecNnz ≤ sketchRows a.samplingFactor m n)
    (ε lo hi κ : ℝ) (hε : 0 < ε) (hε1 : ε < 1) (hlo : ∀ x, lo * norm2 x ≤ norm2 (A *ᵥ x))
    (hhi : ∀ x, norm2 (A *ᵥ x) ≤ hi * norm2 x) (h0 : 0 ≤ hi) (hls : √((1 + ε) / (1 - ε)) * hi * n * eps < lo)
    (hκ : κ = √((1 + ε) / (1 - ε))) (hcond : n * κ < 10 ^ 8 - eps) :
    ∃ E : Set ((Fin m → (Fin a.vecNnz ↪ Fin (sketchRows a.samplingFactor m n))) × (Fin (m * a.vecNnz) → ℝ)),
      sjltDraws _ m _ E ≤ ENNReal.ofReal ((n ^ 2 + n) / (sketchRows a.samplingFactor m n * ε ^ 2)) ∧
      ∀ rv u, (rv, u) ∉ E → ∀ (G : Type) (la : LinAlg) (R : NpRng G) (w : World G) (c : Fin n → ℝ) (tol : ℝ) (L : ℕ)
        (clock : LogTimes) (ys : Fin m → ℝ), c ≠ 0 → 0 ≤ tol → NextSJLT R w _ _ _ rv u → IsMinNormSol A c ys →
        ∃ out w', spu1Fn la R A c tol L clock a w = .ok (out, w') ∧
          norm2 (out.y - ys) ≤
            max (2 * ε ^ L * κ) (tol * (κ * (1 + √n * (1 + κ)))) * norm2 ys + tol * ((1 + ε) * eps) := by
  have hmn : n ≤ m := by unfold sketchRows at hd; omega
  have hsf : (n : ℤ) ≤ pyInt (a.samplingFactor * n) := by unfold sketchRows at hd; omega
  have hdm : sketchRows a.samplingFactor m n ≤ m := by unfold sketchRows; omega
  have hr : (A.rank : ℝ) ≤ n := by exact_mod_cast A.rank_le_width
  obtain ⟨E, h1, h2⟩ := C70_sjlt_embeds A hs hsd hdm ε hε
  refine ⟨E, h1.trans (ENNReal.ofReal_le_ofReal (div_le_div_of_nonneg_right (add_le_add
    (pow_le_pow_left₀ (by positivity) hr 2) hr) (by positivity))),
    fun rv u hE G la R w c tol L clock ys hc ht hw hys => ?_⟩
  have hw' : NextSJLT R { w with warns := w.warns + if (m : ℤ) < pyInt (a.samplingFactor * n) then 1 else 0 } _ _ _ rv u :=
    hw
  obtain ⟨S, w', hgen, hS⟩ := h2 rv u hE G R _ hw'
  have hSw := wellCond_of_embeds hε.le hε1 hS hlo hhi h0 hls
  have hdd := sjlt_driver (n := n) (m := m) hmn hsf w
  rcases spu1_given la (gen := a.skop R) A c hc tol L (by omega) clock hn hd hdd hgen with
    ⟨out, lg, g1, g2, g3, g4⟩ | ⟨-, g⟩
  swap
  · exact absurd hSw g
  refine ⟨out, w', g1, C79_spu1 la _ _ A c hc tol ht L true clock w w' out g1 ε hε.le hε1 (fun d w₁ S' k1 k2 => ?_) κ hκ
    hcond ys hys⟩
  rw [hdd] at k1
  cases k1
  unfold SketchArgs.skop at k2
  rw [hgen] at k2
  cases k2
  exact ⟨hS, hSw⟩

/-! ### `SPO` -/

/-- **C79** (`SPO`).  Let the sketch drawn embed the range of `A` up to `1 ± ε`, with `n √((1+ε)/(1-ε)) < 10^8 - eps`.  A call
with limit `L` and tolerance `tol >= 0` that returns `x` satisfies, with `f(x) = ‖Ax - b‖² + δ‖x‖²`,
`f(x) - min f ≤ max((2 ε^L)² ‖b‖², (tol ((1 + 2√(n(1+ε)/(1-ε))) ‖b‖ + 2 eps))²)`. -/
theorem C79_spo (la : LinAlg) (gen : SkOpGen G) (sf : ℝ) (mode : SPOMode)
    (A : Matrix (Fin m) (Fin n) ℝ) (b : Fin m → ℝ) (δ tol : ℝ) (hδ : 0 ≤ δ) (ht : 0 ≤ tol) (L : ℕ)
    (logging : Bool) (clock : LogTimes) (w w' : World G) (out : SPOOut n)
    (h : spoCall la gen sf mode A b δ tol L logging clock w = .ok (out, w')) (ε : ℝ) (hε : 0 ≤ ε) (hε1 : ε < 1)
    (hS : ∀ d w₁ S, (dimChecks sf m n : Py G ℕ) w = .ok (d, w₁) → gen d m w₁ = .ok (S, w') →
      Embeds S A ε ∧ (mode = .svd → WellCond (aLift (S * A) (Real.sqrt δ))))
    (hc : n * √((1 + ε) / (1 - ε)) < 10 ^ 8 - eps) (xs : Fin n → ℝ) (hxs : IsRidgeMin A b δ xs) :
    ∃ x, out.x = some x ∧
      (sqNorm (A *ᵥ x - b) + δ * sqNorm x) - (sqNorm (A *ᵥ xs - b) + δ * sqNorm xs) ≤
        max ((2 * ε ^ L) ^ 2 * sqNorm b) ((tol * ((1 + 2 * √(n * (1 + ε) / (1 - ε))) * norm2 b + 2 * eps)) ^ 2) := by
  obtain ⟨f, hf⟩ : ∃ f : (Fin n → ℝ) → ℝ, f = fun x => sqNorm (A *ᵥ x - b) + δ * sqNorm x := ⟨_, rfl⟩
  obtain ⟨x, out0, x0, h1, -, -, h2, h3, -⟩ :=
    C67_spo_apriori la gen sf mode A b δ tol hδ ht L logging clock w w' out h ε hε hε1 hS hc xs hxs f hf
  obtain ⟨x', h4, h5⟩ := C37_spo_never_worse la gen sf mode A b δ tol hδ L logging clock w w' out h
  rw [h1] at h4; cases h4
  have hfx : ∀ x, f x = sqNorm (A *ᵥ x - b) + δ * sqNorm x := fun x => by rw [hf]
  have hf0 : ∀ x, 0 ≤ f x := fun x => by
    rw [hfx]; exact add_nonneg (sqNorm_nonneg _) (mul_nonneg hδ (sqNorm_nonneg _))
  have p2 : (0 : ℝ) < 1 - ε := by linarith
  have he : 0 ≤ eps := by unfold eps; positivity
  have hb := norm2_nonneg b
  obtain ⟨K, hK⟩ : ∃ K, K = √(n * (1 + ε) / (1 - ε)) := ⟨_, rfl⟩
  have hK0 : 0 ≤ K := hK ▸ Real.sqrt_nonneg _
  refine ⟨x, h1, ?_⟩
  rw [← hfx, ← hfx, ← hK]
  rw [← hK] at h3
  rcases h3 with h3 | h3 | h3
  · refine h3.trans (le_max_of_le_left (mul_le_mul_of_nonneg_left ?_ (sq_nonneg _)))
    have := hf0 xs
    linarith
  · refine le_max_of_le_right ?_
    have h6 : tol * norm2 b * (1 + 2 * K) ≤ tol * ((1 + 2 * K) * norm2 b + 2 * eps) := by
      have := mul_nonneg ht he
      nlinarith
    have := pow_le_pow_left₀ (by positivity) h6 2
    have := hf0 xs
    linarith
  · refine le_max_of_le_right (h3.trans ?_)
    have hs : √(f x) ≤ norm2 b := by
      unfold norm2
      refine Real.sqrt_le_sqrt ?_
      rw [hfx]; exact h5
    have e1 : (1 + ε) = √(1 + ε) ^ 2 := (Real.sq_sqrt (by linarith)).symm
    have e2 : √(1 + ε) * √(n / (1 - ε)) = K := by
      rw [hK, ← Real.sqrt_mul (by linarith)]
      congr 1
      ring
    have e3 : √(1 + ε) ≤ 2 := by rw [Real.sqrt_le_left (by norm_num)]; linarith
    rw [e1, ← mul_pow]
    refine pow_le_pow_left₀ (by positivity) ?_ 2
    calc √(1 + ε) * (tol * (√(n / (1 - ε)) * √(f x) + eps))
        = tol * ((√(1 + ε) * √(n / (1 - ε))) * √(f x) + √(1 + ε) * eps) := by ring
      _ ≤ tol * ((1 + 2 * K) * norm2 b + 2 * eps) := by
        rw [e2]
        refine mul_le_mul_of_nonneg_left (add_le_add ?_ (mul_le_mul_of_nonneg_right e3 he)) ht
        have := mul_le_mul_of_nonneg_left hs hK0
        nlinarith

/-! ### Non-vacuity -/

/-- The hypotheses of `C79_pcg` are met: `mat = diag(1, 2)`, no preconditioner, any right-hand side. -/
example : ∃ K : Matrix (Fin 2) (Fin 2) ℝ, IsPSD K ∧ IsPD (1 : Matrix (Fin 2) (Fin 2) ℝ) ∧ (∀ rhs, ∃ xs, K *ᵥ xs = rhs) ∧
    (∀ (t : ℝ) (v : Fin 2 → ℝ), v ≠ 0 → (1 * K) *ᵥ v = t • v → t ≠ 0 → 1 ≤ t ∧ t ≤ 2) ∧
    ∀ z, 1 * sqNorm z ≤ z ⬝ᵥ (K *ᵥ z) ∧ z ⬝ᵥ (K *ᵥ z) ≤ 2 * sqNorm z := by
  refine ⟨!![1, 0; 0, 2], ⟨?_, fun z => ?_⟩, ⟨transpose_one, fun v hv => ?_⟩, fun rhs => ⟨![rhs 0, rhs 1 / 2], ?_⟩, fun t v hv h _ => ?_,
    fun z => ?_⟩
  · ext i j; fin_cases i <;> fin_cases j <;> rfl
  · simp [mulVec, dotProduct, Fin.sum_univ_two]; nlinarith [sq_nonneg (z 0), sq_nonneg (z 1)]
  · rw [one_mulVec, ← sqNorm_eq_dot]
    exact lt_of_le_of_ne (sqNorm_nonneg _) fun h => hv (sqNorm_eq_zero.1 h.symm)
  · ext i; fin_cases i <;> simp [mulVec, dotProduct, Fin.sum_univ_two]
    ring
  · rw [one_mul] at h
    have h1 := congrFun h 0
    have h2 := congrFun h 1
    simp [mulVec, dotProduct, Fin.sum_univ_two] at h1 h2
    by_cases v0 : v 0 = 0
    · by_cases v1 : v 1 = 0
      · exact absurd (by ext i; fin_cases i <;> simp [v0, v1]) hv
      · have : t = 2 := (h2.resolve_right v1).symm
        rw [this]; norm_num
    · have : t = 1 := mul_right_cancel₀ v0 (show t * v 0 = 1 * v 0 by linarith)
      rw [this]; norm_num
  · simp [mulVec, dotProduct, Fin.sum_univ_two, sqNorm]
    constructor <;> nlinarith [sq_nonneg (z 0), sq_nonneg (z 1)]

/-- The hypotheses of `C79_spu1` are met: `y₁ + y₂ + y₃ = 6`, a sketch with `ε = 1/10`, and a tolerance of `1/1000`. -/
example : ∃ out, spu1Call LinAlg.ref weightGen 3
      (!![1; 1; 1] : Matrix (Fin 3) (Fin 1) ℝ) ![6] (1 / 1000) 1 true ⟨0, 0, 0, 0, 0⟩ ⟨0, 0, []⟩ =
        .ok (out, ⟨0, 0, []⟩) ∧
      ∃ ys, IsMinNormSol (!![1; 1; 1] : Matrix (Fin 3) (Fin 1) ℝ) ![6] ys ∧
        norm2 (out.y - ys) ≤ max (2 * (1 / 10) ^ 1 * √((1 + 1 / 10) / (1 - 1 / 10)))
          (1 / 1000 * (√((1 + 1 / 10) / (1 - 1 / 10)) * (1 + √(1 : ℕ) * (1 + √((1 + 1 / 10) / (1 - 1 / 10)))))) * norm2 ys +
            1 / 1000 * ((1 + 1 / 10) * eps) := by
  have hc : (![6] : Fin 1 → ℝ) ≠ 0 := fun h => by simpa using congrFun h 0
  have hys : IsMinNormSol (!![1; 1; 1] : Matrix (Fin 3) (Fin 1) ℝ) ![6] ![2, 2, 2] := by
    refine ⟨?_, fun z hz => ?_⟩
    · ext i; fin_cases i; simp [mulVec, dotProduct, Fin.sum_univ_three]; norm_num
    · have := congrFun hz 0
      simp [mulVec, dotProduct, Fin.sum_univ_three] at this
      rw [norm2_le_norm2]
      simp [sqNorm, Fin.sum_univ_three]
      nlinarith [sq_nonneg (z 0 - 2), sq_nonneg (z 1 - 2), sq_nonneg (z 2 - 2)]
  rcases spu1_given LinAlg.ref (gen := weightGen) (sf := 3) (w := ⟨0, 0, []⟩) (!![1; 1; 1] : Matrix (Fin 3) (Fin 1) ℝ) ![6]
    hc (1 / 1000) (1 : ℕ) (by norm_num) ⟨0, 0, 0, 0, 0⟩ (by norm_num) (by norm_num) (demo31_dim _) weightGen_ok with
    ⟨out, lg, g1, -⟩ | ⟨-, g⟩
  swap
  · exact absurd weight_wellCond g
  refine ⟨out, g1, _, hys, C79_spu1 _ _ _ _ _ hc _ (by norm_num) _ _ _ _ _ _ g1 _ (by norm_num) (by norm_num) ?_ _ rfl ?_ _ hys⟩
  · intro d w₁ S k1 k2
    obtain ⟨e, -⟩ := weight_all d w₁ S k1 k2
    rw [demo31_dim] at k1
    cases k1
    rw [weightGen_ok] at k2
    cases k2
    exact ⟨e, weight_wellCond⟩
  · have h1 : eps ≤ 1 := by unfold eps; norm_num
    have h2 : √((1 + 1 / 10) / (1 - 1 / 10)) ≤ 2 := by
      rw [Real.sqrt_le_left (by norm_num)]; norm_num
    push_cast
    norm_num at h2 ⊢
    linarith

end Parla.Props
