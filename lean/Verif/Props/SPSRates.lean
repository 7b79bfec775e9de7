import Verif.Props.SRCTEmbed

/-! # Property C73: `sps` and `SPS1` converge at a known rate from a known start, with high probability -/

namespace Parla.Props

open MeasureTheory ProbabilityTheory Matrix Parla Spec

variable {G : Type} {m n d : ℕ}

/-- the starting point of `SPS1` is no worse than zero by more than the distortion of the sketch -/
theorem sps1_start_bound {S : Matrix (Fin d) (Fin m) ℝ} {A : Matrix (Fin m) (Fin n) ℝ} {δ ε : ℝ} (hδ : 0 ≤ δ)
    (hε : 0 ≤ ε) (hε1 : ε < 1) (hS : Embeds S A ε) {xs x0 u : Fin n → ℝ}
    (h1 : ((S * A)ᵀ * (S * A) + δ • (1 : Matrix (Fin n) (Fin n) ℝ)) *ᵥ x0 = Aᵀ *ᵥ (A *ᵥ xs) + δ • xs)
    (h2 : ((S * A)ᵀ * (S * A) + δ • (1 : Matrix (Fin n) (Fin n) ℝ)) *ᵥ u =
      Aᵀ *ᵥ (A *ᵥ (x0 - xs)) + δ • (x0 - xs))
    (h3 : u ⬝ᵥ (Aᵀ *ᵥ (A *ᵥ (x0 - xs)) + δ • (x0 - xs)) ≤ x0 ⬝ᵥ (Aᵀ *ᵥ (A *ᵥ xs) + δ • xs)) :
    sqNorm (A *ᵥ (x0 - xs)) + δ * sqNorm (x0 - xs) ≤ (1 + ε) / (1 - ε) * (sqNorm (A *ᵥ xs) + δ * sqNorm xs) := by
  obtain ⟨L, hL⟩ : ∃ L, L = aLift (S * A) (Real.sqrt δ) := ⟨_, rfl⟩
  obtain ⟨K, hK⟩ : ∃ K, K = aLift A (Real.sqrt δ) := ⟨_, rfl⟩
  have hLL : Lᵀ * L = (S * A)ᵀ * (S * A) + δ • (1 : Matrix (Fin n) (Fin n) ℝ) := by rw [hL, aLift_gram_sqrt _ hδ]
  have hKK : ∀ x, Kᵀ *ᵥ (K *ᵥ x) = Aᵀ *ᵥ (A *ᵥ x) + δ • x := fun x => by
    rw [mulVec_mulVec, hK, aLift_gram_sqrt _ hδ, add_mulVec, smul_mulVec, one_mulVec, ← mulVec_mulVec]
  have nK : ∀ x, sqNorm (K *ᵥ x) = sqNorm (A *ᵥ x) + δ * sqNorm x := fun x => by
    rw [hK, sqNorm_aLift, Real.sq_sqrt hδ]
  have nL : ∀ x, sqNorm (L *ᵥ x) = sqNorm (S *ᵥ (A *ᵥ x)) + δ * sqNorm x := fun x => by
    rw [hL, sqNorm_aLift, Real.sq_sqrt hδ, mulVec_mulVec]
  have lo : ∀ x, (1 - ε) * sqNorm (K *ᵥ x) ≤ sqNorm (L *ᵥ x) := fun x => by
    rw [nK, nL]
    have e1 := (hS x).1
    have e2 := mul_nonneg (mul_nonneg hε hδ) (sqNorm_nonneg x)
    linarith
  have hi : ∀ x, sqNorm (L *ᵥ x) ≤ (1 + ε) * sqNorm (K *ᵥ x) := fun x => by
    rw [nK, nL]
    have e1 := (hS x).2
    have e2 := mul_nonneg (mul_nonneg hε hδ) (sqNorm_nonneg x)
    linarith
  rw [← hLL, ← mulVec_mulVec] at h1 h2
  rw [← hKK] at h1 h2 h3
  rw [← hKK] at h3
  rw [← nK, ← nK]
  obtain ⟨e, he⟩ : ∃ e, e = x0 - xs := ⟨_, rfl⟩
  rw [← he] at h2 h3 ⊢
  have dotL : ∀ x y, x ⬝ᵥ (Lᵀ *ᵥ (L *ᵥ y)) = (L *ᵥ x) ⬝ᵥ (L *ᵥ y) := fun x y => by
    rw [dotProduct_comm, ← dot_mulVec, dotProduct_comm]
  have dotK : ∀ x y, x ⬝ᵥ (Kᵀ *ᵥ (K *ᵥ y)) = (K *ᵥ x) ⬝ᵥ (K *ᵥ y) := fun x y => by
    rw [dotProduct_comm, ← dot_mulVec, dotProduct_comm]
  -- `‖e‖²_K ≤ (1 + ε) u'g`
  have p0 : 0 < 1 - ε := by linarith
  have a1 : sqNorm (K *ᵥ e) = (L *ᵥ e) ⬝ᵥ (L *ᵥ u) := by rw [← dotL, h2, dotK, sqNorm_eq_dot]
  have a2 : u ⬝ᵥ (Kᵀ *ᵥ (K *ᵥ e)) = sqNorm (L *ᵥ u) := by rw [← h2, dotL, sqNorm_eq_dot]
  have a3 : sqNorm (K *ᵥ e) ≤ (1 + ε) * sqNorm (L *ᵥ u) := by
    have c := dot_sq_le (L *ᵥ e) (L *ᵥ u)
    rw [← a1] at c
    have c2 := c.trans (mul_le_mul_of_nonneg_right (hi e) (sqNorm_nonneg _))
    rcases (sqNorm_nonneg (K *ᵥ e)).eq_or_lt with h | h
    · rw [← h]; exact mul_nonneg (by linarith) (sqNorm_nonneg _)
    · refine le_of_mul_le_mul_left (a := sqNorm (K *ᵥ e)) ?_ h
      linarith
  -- `x0'rhs ≤ ‖x*‖²_K / (1 - ε)`
  have b1 : x0 ⬝ᵥ (Kᵀ *ᵥ (K *ᵥ xs)) = (K *ᵥ x0) ⬝ᵥ (K *ᵥ xs) := dotK _ _
  have b2 : x0 ⬝ᵥ (Kᵀ *ᵥ (K *ᵥ xs)) = sqNorm (L *ᵥ x0) := by rw [← h1, dotL, sqNorm_eq_dot]
  have b3 : (1 - ε) * sqNorm (L *ᵥ x0) ≤ sqNorm (K *ᵥ xs) := by
    have c := dot_sq_le (K *ᵥ x0) (K *ᵥ xs)
    rw [← b1, b2] at c
    have c1 := mul_le_mul_of_nonneg_right (lo x0) (sqNorm_nonneg (K *ᵥ xs))
    rcases (sqNorm_nonneg (L *ᵥ x0)).eq_or_lt with h | h
    · rw [← h, mul_zero]; exact sqNorm_nonneg _
    · refine le_of_mul_le_mul_left (a := sqNorm (L *ᵥ x0)) ?_ h
      nlinarith
  rw [a2, b2] at h3
  rw [div_mul_eq_mul_div, le_div_iff₀ p0]
  have q1 := mul_le_mul_of_nonneg_left h3 (by linarith : 0 ≤ 1 + ε)
  have q2 := mul_le_mul_of_nonneg_left (a3.trans q1) p0.le
  have q3 := mul_le_mul_of_nonneg_left b3 (by linarith : 0 ≤ 1 + ε)
  linarith

/-- **C73** (the start).  Let `int(sampling_factor n) ≥ n`, and let the sketch drawn embed the range of `A` up to
`1 ± ε`, `ε < 1`, with a numerically full-rank lifted sketch.  The starting point `x0` of `SPS1` (the result of a call
with `iter_lim = 0`) satisfies `‖A(x0 - x*)‖² + δ‖x0 - x*‖² ≤ (1+ε)/(1-ε) (‖A x*‖² + δ‖x*‖²)` for every solution
`(x*, y*)` of the block system. -/
theorem C73_sps1_start (la : LinAlg) (gen : SkOpGen G) (sf : ℝ) (strategy : NystromStrategy)
    (A : Matrix (Fin m) (Fin n) ℝ) (b : Option (Fin m → ℝ)) (c : Option (Fin n → ℝ)) (δ tol : ℝ)
    (hδ : 0 ≤ δ) (logging : Bool) (clock : LogTimes) (w w' : World G) (out : SPSOut m n)
    (h : sps1Call la gen sf PcSS1 strategy A b c δ tol 0 logging clock w = .ok (out, w'))
    (hsf : (n : ℤ) ≤ pyInt (sf * n)) (ε : ℝ) (hε : 0 ≤ ε) (hε1 : ε < 1)
    (hS : ∀ (d : ℕ) S, (d : ℤ) = pyInt (sf * n) → gen d m w = .ok (S, w') →
      Embeds S A ε ∧ WellCond (aLift (S * A) (Real.sqrt δ)))
    (xs : Fin n → ℝ) (ys : Fin m → ℝ) (hxs : SolvesSaddle A (b.getD 0) (cVec c) δ xs ys) :
    ∃ x0, out.x = some x0 ∧ sqNorm (A *ᵥ (x0 - xs)) + δ * sqNorm (x0 - xs) ≤
      (1 + ε) / (1 - ε) * (sqNorm (A *ᵥ xs) + δ * sqNorm xs) := by
  obtain ⟨d, S, hd, hg, hst⟩ := C41_sps1_start la gen sf strategy A b c δ tol hδ logging clock w w' out h hsf
  obtain ⟨he, hw⟩ := hS d S hd hg
  have hfull : FullColRank (aLift (S * A) (Real.sqrt δ)) := WellCond.fullColRank hw
  have hpd : IsUnit ((S * A)ᵀ * (S * A) + δ • (1 : Matrix (Fin n) (Fin n) ℝ)).det := by
    have h := (gram_posDef_iff (aLift (S * A) (Real.sqrt δ))).2 hfull
    rw [aLift_gram_sqrt _ hδ] at h
    exact (Matrix.isUnit_iff_isUnit_det _).1 h.isUnit
  have hsolve : ∀ v, ∃ x, ((S * A)ᵀ * (S * A) + δ • (1 : Matrix (Fin n) (Fin n) ℝ)) *ᵥ x = v := fun v =>
    ⟨((S * A)ᵀ * (S * A) + δ • (1 : Matrix (Fin n) (Fin n) ℝ))⁻¹ *ᵥ v, by
      rw [mulVec_mulVec, mul_nonsing_inv _ hpd, one_mulVec]⟩
  have hrhs : Aᵀ *ᵥ b.getD 0 - cVec c = Aᵀ *ᵥ (A *ᵥ xs) + δ • xs := by
    obtain ⟨h1, h2⟩ := hxs
    rw [← h1, ← h2, mulVec_add]; abel
  obtain ⟨xk, hxk⟩ := hsolve (Aᵀ *ᵥ (A *ᵥ xs) + δ • xs)
  have hg : Aᵀ *ᵥ (A *ᵥ xk) + δ • xk - (Aᵀ *ᵥ (A *ᵥ xs) + δ • xs) =
      Aᵀ *ᵥ (A *ᵥ (xk - xs)) + δ • (xk - xs) := by
    rw [mulVec_sub, mulVec_sub, smul_sub]; abel
  obtain ⟨u, hu⟩ := hsolve (Aᵀ *ᵥ (A *ᵥ (xk - xs)) + δ • (xk - xs))
  obtain ⟨k1, k2⟩ := hst hw _ _ xk _ u rfl rfl (by rw [hrhs]; exact hxk) (by rw [hrhs, hg]) hu
  rw [hrhs] at k1 k2
  have p0 : 0 < 1 - ε := by linarith
  rcases lt_or_ge (u ⬝ᵥ (Aᵀ *ᵥ (A *ᵥ (xk - xs)) + δ • (xk - xs))) (xk ⬝ᵥ (Aᵀ *ᵥ (A *ᵥ xs) + δ • xs)) with hlt | hge
  · exact ⟨xk, k1 hlt, sps1_start_bound hδ hε hε1 he hxk hu hlt.le⟩
  · refine ⟨0, k2 hge, ?_⟩
    have e1 : sqNorm (A *ᵥ (0 - xs)) + δ * sqNorm (0 - xs) = sqNorm (A *ᵥ xs) + δ * sqNorm xs := by
      rw [zero_sub, mulVec_neg]
      simp [sqNorm]
    rw [e1]
    refine le_mul_of_one_le_left (add_nonneg (sqNorm_nonneg _) (mul_nonneg hδ (sqNorm_nonneg _))) ?_
    rw [one_le_div p0]; linarith

/-- `SPS1` for a given sketch that embeds the range of `A` -/
theorem sps1_given (la : LinAlg) {gen : SkOpGen G} {sf : ℝ} {strategy : NystromStrategy} (hstr : strategy ≠ .other)
    {A : Matrix (Fin m) (Fin n) ℝ} {b : Option (Fin m → ℝ)} {c : Option (Fin n → ℝ)} {δ tol : ℝ} (hδ : 0 ≤ δ)
    (ht : 0 ≤ tol) {L : ℤ} (hL : 0 ≤ L) (clock : LogTimes) {w w' : World G} (hn : 0 < n) {S : Matrix (Fin d) (Fin m) ℝ}
    (hd : (d : ℤ) = pyInt (sf * n)) (hnd : n ≤ d) (hgen : gen d m w = .ok (S, w')) {ε lo hi : ℝ} (hε : 0 ≤ ε)
    (hε1 : ε < 1) (hS : Embeds S A ε) (hlo : ∀ x, lo * norm2 x ≤ norm2 (A *ᵥ x))
    (hhi : ∀ x, norm2 (A *ᵥ x) ≤ hi * norm2 x) (h0 : 0 ≤ hi) (hls : √((1 + ε) / (1 - ε)) * hi * n * eps < lo)
    {xs : Fin n → ℝ} {ys : Fin m → ℝ} (hxs : SolvesSaddle A (b.getD 0) (cVec c) δ xs ys) :
    ∃ out x y lg k, sps1Call la gen sf PcSS1 strategy A b c δ tol L true clock w = .ok (out, w') ∧
      out.x = some x ∧ out.y = some y ∧ out.log = some lg ∧ lg.errors.length = k + 1 ∧ (k : ℤ) ≤ L ∧
      sqNorm (y - ys) + δ * sqNorm (x - xs) ≤
        (2 * ε ^ k) ^ 2 * ((1 + ε) / (1 - ε)) * (sqNorm (A *ᵥ xs) + δ * sqNorm xs) ∧
      (tol = 0 → (n : ℤ) ≤ L → x = xs ∧ y = ys) := by
  have hlo0 : 0 < lo := lt_of_le_of_lt (by unfold eps; positivity) hls
  have hn' : (0 : ℝ) < n := by exact_mod_cast hn
  have he : 0 < eps := by unfold eps; positivity
  have hA : FullColRank A := fullColRank_iff_inj.2 fun x hx => by
    have h1 := hlo x
    rw [hx, show norm2 (0 : Fin m → ℝ) = 0 from norm2_eq_zero.2 rfl] at h1
    have h2 := norm2_nonneg x
    exact norm2_eq_zero.1 (by nlinarith)
  have hone : norm2 (Pi.single (⟨0, hn⟩ : Fin n) (1 : ℝ)) = 1 := by
    unfold norm2 sqNorm
    rw [Finset.sum_eq_single ⟨0, hn⟩]
    · simp
    · intro b _ hb; simp [Pi.single_eq_of_ne hb]
    · intro h; exact absurd (Finset.mem_univ _) h
  have hhl : lo ≤ hi := by
    have h1 := (hlo (Pi.single ⟨0, hn⟩ 1)).trans (hhi _)
    rwa [hone, mul_one, mul_one] at h1
  have hk1 : 1 ≤ √((1 + ε) / (1 - ε)) := Real.one_le_sqrt.2 ((one_le_div (by linarith)).2 (by linarith))
  have hne : (n : ℝ) * eps < 1 := by
    by_contra hc
    push Not at hc
    have h1 : lo ≤ √((1 + ε) / (1 - ε)) * hi := hhl.trans (le_mul_of_one_le_left h0 hk1)
    have h2 : √((1 + ε) / (1 - ε)) * hi * 1 ≤ √((1 + ε) / (1 - ε)) * hi * (n * eps) :=
      mul_le_mul_of_nonneg_left hc (by positivity)
    rw [← mul_assoc] at h2
    linarith
  have hw := wellCond_lift_of_embeds hn hδ hε hε1 hS hlo hhi h0 hls
  have hSA : S * A ≠ 0 := fun h => by
    have h1 := (hS (Pi.single ⟨0, hn⟩ 1)).1
    rw [mulVec_mulVec, h, zero_mulVec, show sqNorm (0 : Fin d → ℝ) = 0 from sqNorm_eq_zero.2 rfl] at h1
    have h2 := hlo (Pi.single ⟨0, hn⟩ 1)
    rw [hone, mul_one] at h2
    have h3 : 0 < sqNorm (A *ᵥ Pi.single (⟨0, hn⟩ : Fin n) (1 : ℝ)) := by
      rw [← norm2_sq]; exact pow_pos (hlo0.trans_le h2) 2
    have := mul_pos (by linarith : 0 < 1 - ε) h3
    linarith
  obtain ⟨out, x, y, out0, x0, g1, g2, g3, g4, g5, g6, -, -, g7⟩ := C41_sps1_converges la gen sf strategy A b c δ tol hδ ht
    L hL true clock w w' (by omega) hne ⟨xs, ys, hxs⟩ (Or.inl ⟨d, S, hd, hnd, hstr, hgen, Or.inl hSA⟩)
  have hsf : (n : ℤ) ≤ pyInt (sf * n) := by omega
  have hall : ∀ (d : ℕ) S, (d : ℤ) = pyInt (sf * n) → gen d m w = .ok (S, w') →
      Embeds S A ε ∧ WellCond (aLift (S * A) (Real.sqrt δ)) := fun d' S' k1 k2 => by
    obtain rfl : d' = d := by omega
    rw [hgen] at k2
    cases k2
    exact ⟨hS, hw⟩
  obtain ⟨x', r1, -, -, r2⟩ := C41_sps1_result la gen sf strategy A b c δ tol L true clock w w' out g1
  obtain ⟨lg, l, r3, r4, r5, -⟩ := r2 rfl
  have hlen : lg.errors.length = l.length + 1 := by rw [r4]; rfl
  obtain ⟨x2, out2, x02, s1, s2, s3, s4⟩ := C67_sps1_rate la gen sf strategy A b c δ tol hδ ht L clock w w' out g1 hsf ε hε
    hε1 hall lg r3 l.length hlen xs ys hxs
  rw [g2] at s1
  cases s1
  obtain ⟨x03, t1, t2⟩ := C73_sps1_start la gen sf strategy A b c δ tol hδ true clock w w' out2 s2 hsf ε hε hε1 hall xs ys hxs
  rw [s3] at t1
  cases t1
  have hyx : sqNorm (y - ys) = sqNorm (A *ᵥ (x - xs)) := by
    have : y - ys = -(A *ᵥ (x - xs)) := by
      rw [g4, ← hxs.1, mulVec_sub]; abel
    rw [this]
    simp [sqNorm]
  refine ⟨out, x, y, lg, l.length, g1, g2, g3, r3, hlen, r5, ?_, fun h1 h2 => ?_⟩
  · rw [hyx, mul_assoc ((2 * ε ^ l.length) ^ 2)]
    exact s4.trans (mul_le_mul_of_nonneg_left t2 (sq_nonneg _))
  · have hz := g7 h2 h1
    have e1 : Aᵀ *ᵥ (A *ᵥ (x - xs)) + δ • (x - xs) = 0 := by
      have q1 : Aᵀ *ᵥ (A *ᵥ x) + δ • x = Aᵀ *ᵥ b.getD 0 - cVec c := by
        rw [← hz.1, ← hz.2, mulVec_add]; abel
      have q2 : Aᵀ *ᵥ (A *ᵥ xs) + δ • xs = Aᵀ *ᵥ b.getD 0 - cVec c := by
        rw [← hxs.1, ← hxs.2, mulVec_add]; abel
      rw [mulVec_sub, mulVec_sub, smul_sub]
      have := sub_eq_zero.2 (q1.trans q2.symm)
      rw [← this]; abel
    have e2 : sqNorm (A *ᵥ (x - xs)) + δ * sqNorm (x - xs) = 0 := by
      have := congrArg (fun v => (x - xs) ⬝ᵥ v) e1
      simp only [dotProduct_add, dotProduct_smul, dotProduct_zero, smul_eq_mul] at this
      rw [sqNorm_eq_dot, sqNorm_eq_dot, dot_mulVec, dotProduct_comm]
      exact this
    have e3 := mul_nonneg hδ (sqNorm_nonneg (x - xs))
    have e4 : sqNorm (A *ᵥ (x - xs)) = 0 := le_antisymm (by linarith) (sqNorm_nonneg _)
    have e5 : x = xs := sub_eq_zero.1 (fullColRank_iff_inj.1 hA _ (sqNorm_eq_zero.1 e4))
    refine ⟨e5, ?_⟩
    rw [g4, e5, ← hxs.1]; abel

/-- What the theorems below promise of a call: it returns some `x`, `y` and a log with `k + 1` errors, where `k` is at
most the limit; `‖y - y*‖² + δ‖x - x*‖² ≤ (2 ε^k)² (1+ε)/(1-ε) (‖A x*‖² + δ‖x*‖²)`; and with `tol = 0` and limit at least
`n` it returns the solution `(x*, y*)`. -/
def SpsGood (A : Matrix (Fin m) (Fin n) ℝ) (δ tol : ℝ) (L : ℤ) (ε : ℝ) (xs : Fin n → ℝ) (ys : Fin m → ℝ)
    (res : Except PyErr (SPSOut m n × World G)) : Prop :=
  ∃ out w' x y lg k, res = .ok (out, w') ∧ out.x = some x ∧ out.y = some y ∧ out.log = some lg ∧
    lg.errors.length = k + 1 ∧ (k : ℤ) ≤ L ∧
    sqNorm (y - ys) + δ * sqNorm (x - xs) ≤ (2 * ε ^ k) ^ 2 * ((1 + ε) / (1 - ε)) * (sqNorm (A *ᵥ xs) + δ * sqNorm xs) ∧
    (tol = 0 → (n : ℤ) ≤ L → x = xs ∧ y = ys)

/-- **C73** (`sps` as called by default, with an SJLT).  Let `lo ‖x‖ ≤ ‖A x‖ ≤ hi ‖x‖` with
`√((1+ε)/(1-ε)) hi n eps < lo` and `0 < ε < 1`; let `d = int(sampling_factor * n)` satisfy `n ≤ d ≤ m` and
`1 ≤ vec_nnz ≤ d`.  Except for draws of probability at most `(n² + n)/(d ε²)`: for every `b`, `c`, `δ ≥ 0`, `tol ≥ 0` and
limit `≥ 0`, `sps(A, b, c, δ, tol, iter_lim, rng, sampling_factor, vec_nnz)` returns, with the promises of `SpsGood`. -/
theorem C73_sps (A : Matrix (Fin m) (Fin n) ℝ) (hn : 0 < n) (a : SketchArgs)
    (hdd : (d : ℤ) = pyInt (a.samplingFactor * n)) (hd : n ≤ d) (hdm : d ≤ m) (hs : 0 < a.vecNnz) (hsd : a.vecNnz ≤ d)
    (ε lo hi : ℝ) (hε : 0 < ε) (hε1 : ε < 1) (hlo : ∀ x, lo * norm2 x ≤ norm2 (A *ᵥ x))
    (hhi : ∀ x, norm2 (A *ᵥ x) ≤ hi * norm2 x) (h0 : 0 ≤ hi) (hls : √((1 + ε) / (1 - ε)) * hi * n * eps < lo) :
    ∃ E : Set ((Fin m → (Fin a.vecNnz ↪ Fin d)) × (Fin (m * a.vecNnz) → ℝ)),
      sjltDraws d m _ E ≤ ENNReal.ofReal ((n ^ 2 + n) / (d * ε ^ 2)) ∧
      ∀ rv u, (rv, u) ∉ E → ∀ (G : Type) (la : LinAlg) (R : NpRng G) (w : World G) (b : Option (Fin m → ℝ))
        (c : Option (Fin n → ℝ)) (δ tol : ℝ) (L : ℤ) (clock : LogTimes) (xs : Fin n → ℝ) (ys : Fin m → ℝ),
        0 ≤ δ → 0 ≤ tol → 0 ≤ L → NextSJLT R w d m _ rv u → SolvesSaddle A (b.getD 0) (cVec c) δ xs ys →
        SpsGood A δ tol L ε xs ys ((spsFn la R A b c δ tol L clock a) w) := by
  have hr : (A.rank : ℝ) ≤ n := by exact_mod_cast A.rank_le_width
  obtain ⟨E, h1, h2⟩ := C70_sjlt_embeds A hs hsd hdm ε hε
  refine ⟨E, h1.trans (ENNReal.ofReal_le_ofReal (div_le_div_of_nonneg_right (add_le_add
    (pow_le_pow_left₀ (by positivity) hr 2) hr) (by positivity))),
    fun rv u hE G la R w b c δ tol L clock xs ys hδ ht hL hw hxs => ?_⟩
  obtain ⟨S, w', hgen, hS⟩ := h2 rv u hE G R w hw
  obtain ⟨out, x, y, lg, k, g⟩ := sps1_given la (gen := a.skop R) (strategy := .left) (by simp) hδ ht hL clock hn hdd hd hgen
    hε.le hε1 hS hlo hhi h0 hls hxs
  exact ⟨out, w', x, y, lg, k, g⟩

/-- **C73** (`SPS1` with `SkOpTC`).  The same for an SRCT, except for draws of probability at most
`4 (n² + 2n)/(d ε²)`. -/
theorem C73_sps1_srct (A : Matrix (Fin m) (Fin n) ℝ) (hn : 0 < n) (sf : ℝ)
    (hdd : (d : ℤ) = pyInt (sf * n)) (hd : n ≤ d) (hdm : d ≤ m)
    (ε lo hi : ℝ) (hε : 0 < ε) (hε1 : ε < 1) (hlo : ∀ x, lo * norm2 x ≤ norm2 (A *ᵥ x))
    (hhi : ∀ x, norm2 (A *ᵥ x) ≤ hi * norm2 x) (h0 : 0 ≤ hi) (hls : √((1 + ε) / (1 - ε)) * hi * n * eps < lo) :
    ∃ E : Set (Equiv.Perm (Fin m) × ((Fin d ↪ Fin m) × (Fin m → ℝ))),
      srctDraws d m E ≤ ENNReal.ofReal (4 * (n ^ 2 + 2 * n) / (d * ε ^ 2)) ∧
      ∀ p f u, (p, f, u) ∉ E → ∀ (G : Type) (la : LinAlg) (R : NpRng G) (w : World G) (strategy : NystromStrategy)
        (b : Option (Fin m → ℝ)) (c : Option (Fin n → ℝ)) (δ tol : ℝ) (L : ℤ) (clock : LogTimes) (xs : Fin n → ℝ)
        (ys : Fin m → ℝ), strategy ≠ .other → 0 ≤ δ → 0 ≤ tol → 0 ≤ L → NextSRCT R w d m p f u →
        SolvesSaddle A (b.getD 0) (cVec c) δ xs ys →
        SpsGood A δ tol L ε xs ys (sps1Call la (skOpTCGen la R) sf PcSS1 strategy A b c δ tol L true clock w) := by
  have hr : (A.rank : ℝ) ≤ n := by exact_mod_cast A.rank_le_width
  obtain ⟨E, h1, h2⟩ := C72_srct_embeds A (by omega : 0 < d) hdm ε hε
  refine ⟨E, h1.trans (ENNReal.ofReal_le_ofReal (div_le_div_of_nonneg_right (mul_le_mul_of_nonneg_left (add_le_add
    (pow_le_pow_left₀ (by positivity) hr 2) (mul_le_mul_of_nonneg_left hr (by norm_num))) (by norm_num)) (by positivity))),
    fun p f u hE G la R w strategy b c δ tol L clock xs ys hstr hδ ht hL hw hxs => ?_⟩
  obtain ⟨S, w', hgen, hS⟩ := h2 p f u hE G la R w hw
  obtain ⟨out, x, y, lg, k, g⟩ := sps1_given la (gen := skOpTCGen la R) (strategy := strategy) hstr hδ ht hL clock hn hdd hd
    hgen hε.le hε1 hS hlo hhi h0 hls hxs
  exact ⟨out, w', x, y, lg, k, g⟩

/-- **C73** (`SPS1` with `SkOpGA`).  The same for a normalised Gaussian operator, except for draws of probability at most
`2 · 9^n · exp(-d ε²/32)`. -/
theorem C73_sps1_gaussian (A : Matrix (Fin m) (Fin n) ℝ) (hn : 0 < n) (sf : ℝ)
    (hdd : (d : ℤ) = pyInt (sf * n)) (hd : n ≤ d) (hdm : d ≤ m)
    (ε lo hi : ℝ) (hε : 0 ≤ ε) (hε1 : ε < 1) (hlo : ∀ x, lo * norm2 x ≤ norm2 (A *ᵥ x))
    (hhi : ∀ x, norm2 (A *ᵥ x) ≤ hi * norm2 x) (h0 : 0 ≤ hi) (hls : √((1 + ε) / (1 - ε)) * hi * n * eps < lo) :
    ∃ E : Set (Fin d × Fin m → ℝ),
      normals d m E ≤ ENNReal.ofReal (2 * 9 ^ n * Real.exp (-(d * ε ^ 2 / 32))) ∧
      ∀ Z ∉ E, ∀ (G : Type) (la : LinAlg) (R : NpRng G) (w : World G) (strategy : NystromStrategy)
        (b : Option (Fin m → ℝ)) (c : Option (Fin n → ℝ)) (δ tol : ℝ) (L : ℤ) (clock : LogTimes) (xs : Fin n → ℝ)
        (ys : Fin m → ℝ), strategy ≠ .other → 0 ≤ δ → 0 ≤ tol → 0 ≤ L → NextNormal R w d m Z →
        SolvesSaddle A (b.getD 0) (cVec c) δ xs ys →
        SpsGood A δ tol L ε xs ys (sps1Call la (gaussianOperator R true) sf PcSS1 strategy A b c δ tol L true clock w) := by
  obtain ⟨E, h1, h2⟩ := C68_gaussian_embeds A (by omega : 0 < d) hdm ε hε hε1.le
  refine ⟨E, h1.trans (ENNReal.ofReal_le_ofReal (mul_le_mul_of_nonneg_right (mul_le_mul_of_nonneg_left
    (pow_le_pow_right₀ (by norm_num) A.rank_le_width) (by norm_num)) (Real.exp_pos _).le)),
    fun Z hZ G la R w strategy b c δ tol L clock xs ys hstr hδ ht hL hw hxs => ?_⟩
  obtain ⟨S, hgen, hS⟩ := h2 Z hZ G R w hw
  obtain ⟨out, x, y, lg, k, g⟩ := sps1_given la (gen := gaussianOperator R true) (strategy := strategy) hstr hδ ht hL clock
    hn hdd hd hgen hε hε1 hS hlo hhi h0 hls hxs
  exact ⟨out, _, x, y, lg, k, g⟩

/-- The hypotheses of the theorems of this file are met, with a failure probability below `1/100` for the SJLT: one column
of a thousand ones, `ε = 1/2`, sampling factor 1000, the default `vec_nnz = 8`, and any right-hand sides. -/
example : ∃ A : Matrix (Fin 1000) (Fin 1) ℝ, ((1000 : ℕ) : ℤ) = pyInt (1000 * (1 : ℕ)) ∧
    (∃ lo hi : ℝ, (∀ x, lo * norm2 x ≤ norm2 (A *ᵥ x)) ∧ (∀ x, norm2 (A *ᵥ x) ≤ hi * norm2 x) ∧ 0 ≤ hi ∧
      √((1 + 1 / 2) / (1 - 1 / 2)) * hi * (1 : ℕ) * eps < lo) ∧
    ((1 : ℕ) ^ 2 + (1 : ℕ)) / ((1000 : ℕ) * (1 / 2) ^ 2) ≤ (1 / 100 : ℝ) ∧
    (∀ w, ∃ rv u, NextSJLT demoRng w 1000 1000 8 rv u) ∧
    ∀ b c, ∃ xs ys, SolvesSaddle A b c 0 xs ys := by
  refine ⟨fun _ _ => 1, ?_, ⟨√1000, √1000, ?_⟩, by norm_num, fun w => demo_next w (by norm_num), fun b c => ?_⟩
  · unfold pyInt; rw [if_pos (by norm_num), eq_comm, Int.floor_eq_iff]; norm_num
  · have e : ∀ x : Fin 1 → ℝ, norm2 ((fun _ _ => 1 : Matrix (Fin 1000) (Fin 1) ℝ) *ᵥ x) = √1000 * norm2 x := fun x => by
      have : ∀ N : ℕ, norm2 ((fun _ _ => 1 : Matrix (Fin N) (Fin 1) ℝ) *ᵥ x) = √N * norm2 x := fun N => by
        unfold norm2
        rw [← Real.sqrt_mul (by positivity)]
        congr 1
        simp [sqNorm, mulVec, dotProduct]
      simpa using this 1000
    refine ⟨fun x => (e x).ge, fun x => (e x).le, Real.sqrt_nonneg _, ?_⟩
    have h2 : √((1 + 1 / 2) / (1 - 1 / 2)) ≤ 2 := by
      rw [Real.sqrt_le_left (by norm_num)]; norm_num
    have h3 : 0 < √(1000 : ℝ) := Real.sqrt_pos.2 (by norm_num)
    have h4 : eps ≤ 1 / 4 := by unfold eps; norm_num
    have h5 : 0 < eps := by unfold eps; positivity
    calc √((1 + 1 / 2) / (1 - 1 / 2)) * √1000 * (1 : ℕ) * eps ≤ 2 * √1000 * (1 : ℕ) * (1 / 4) := by gcongr
      _ < √1000 := by push_cast; linarith
  · obtain ⟨x, hx⟩ : ∃ x : Fin 1 → ℝ, x = fun _ => (∑ i, b i - c 0) / 1000 := ⟨_, rfl⟩
    refine ⟨x, b - (fun _ _ => 1 : Matrix (Fin 1000) (Fin 1) ℝ) *ᵥ x, sub_add_cancel _ _, ?_⟩
    funext j
    obtain rfl : j = 0 := Subsingleton.elim _ _
    have : ∀ (N : ℕ) (b : Fin N → ℝ) (t : ℝ), ∑ i, (fun _ _ => 1 : Matrix (Fin N) (Fin 1) ℝ)ᵀ 0 i * (b i - t) =
        ∑ i, b i - N * t := fun N b t => by
      change ∑ i, (1 : ℝ) * (b i - t) = _
      simp [Finset.sum_sub_distrib]
    have h2 := this 1000 b ((∑ i, b i - c 0) / 1000)
    simp only [hx, mulVec, dotProduct, Pi.sub_apply, zero_smul, sub_zero, Pi.zero_apply, Finset.univ_unique,
      Finset.sum_singleton, one_mul]
    rw [h2]
    push_cast
    ring

end Parla.Props
