import Verif.Props.SPSRates
import Verif.Props.SPS2

/-! # Property C74: `SPS2` converges at a known rate from a known start, with high probability -/

namespace Parla.Props

open MeasureTheory ProbabilityTheory Matrix Parla Spec

variable {G : Type} {m n d : ℕ}

/-- the preconditioner of `SPS2` for an embedding -/
theorem sps2_prec (la : LinAlg) {S : Matrix (Fin d) (Fin m) ℝ} {A : Matrix (Fin m) (Fin n) ℝ} {δ : ℝ}
    {o : PrecOut (d + liftRows n (Real.sqrt δ)) n} (ho : svdRightPrecond la (aLift (S * A) (Real.sqrt δ)) = .ok o)
    (hw : WellCond (aLift (S * A) (Real.sqrt δ))) :
    o.r = n ∧ FullColRank o.M ∧ colSpace o.M = ⊤ ∧
      (aLift (S * A) (Real.sqrt δ) * o.M)ᵀ * (aLift (S * A) (Real.sqrt δ) * o.M) = 1 := by
  have hr := WellCond.no_truncation la hw ho
  obtain ⟨g1, g2, -, -, -, -, g3⟩ := C26_svd_right_precond la _ o ho
  obtain ⟨e1, e2⟩ := g3 hr
  have horth : (aLift (S * A) (Real.sqrt δ) * o.M)ᵀ * (aLift (S * A) (Real.sqrt δ) * o.M) = 1 := by
    rw [g1]; exact g2
  refine ⟨hr, ?_, ?_, horth⟩
  · refine fullColRank_of_left_inv
      (L := (aLift (S * A) (Real.sqrt δ) * o.M)ᵀ * aLift (S * A) (Real.sqrt δ)) ?_
    rw [Matrix.mul_assoc, horth]
  · refine eq_top_iff.2 fun v _ => mem_colSpace.2
      ⟨o.Mᵀ *ᵥ (((aLift (S * A) (Real.sqrt δ))ᵀ * aLift (S * A) (Real.sqrt δ)) *ᵥ v), ?_⟩
    rw [mulVec_mulVec, mulVec_mulVec, e1, one_mulVec]

theorem pcss1Start_eq {r : ℕ} (hr : r = n) (R : Matrix (Fin n) (Fin r) ℝ) (z0 : Option (Fin r → ℝ)) :
    pcss1Start R z0 = R *ᵥ z0.getD 0 := by
  unfold pcss1Start
  rw [if_pos hr]
  cases z0 with
  | none => simp
  | some z => rfl

/-- the square of the norm in which the error of the saddle system is measured -/
theorem saddle_err {A : Matrix (Fin m) (Fin n) ℝ} {b : Fin m → ℝ} {c : Fin n → ℝ} {δ : ℝ} {xs : Fin n → ℝ}
    {ys : Fin m → ℝ} (hs : SolvesSaddle A b c δ xs ys) (x : Fin n → ℝ) :
    sqNorm (b - A *ᵥ x - ys) = sqNorm (A *ᵥ (x - xs)) := by
  have : b - A *ᵥ x - ys = -(A *ᵥ (x - xs)) := by
    rw [← hs.1, mulVec_sub]; abel
  rw [this, sqNorm_neg]

/-- what the solver makes of the transformed problem -/
theorem sps2_solver {A : Matrix (Fin m) (Fin n) ℝ} {b : Fin m → ℝ} {c : Fin n → ℝ} {δ ε tol : ℝ} (hδ : 0 ≤ δ)
    (ht : 0 ≤ tol) (hε : 0 ≤ ε) (hε1 : ε < 1) {S : Matrix (Fin d) (Fin m) ℝ} (hS : Embeds S A ε) {r : ℕ}
    {M : Matrix (Fin n) (Fin r) ℝ} (hr : r = n) (hM : FullColRank M) (htop : colSpace M = ⊤)
    (horth : (aLift (S * A) (Real.sqrt δ) * M)ᵀ * (aLift (S * A) (Real.sqrt δ) * M) = 1)
    {ba : Fin (m + liftRows n (Real.sqrt δ)) → ℝ} (hba : (aLift A (Real.sqrt δ))ᵀ *ᵥ ba = Aᵀ *ᵥ b - c)
    {xs : Fin n → ℝ} {ys : Fin m → ℝ} (hxs : SolvesSaddle A b c δ xs ys) {solver : SaddleSolver}
    (hsol : solver = PcSS1 ∨ solver = PcSS2) {L : ℤ} {z0 : Option (Fin r → ℝ)}
    {res : SaddleOut (m + liftRows n (Real.sqrt δ)) n}
    (h : solver _ n (aLift A (Real.sqrt δ)) (.vec ba) none 0 tol L (.gen r M) z0 = .ok res)
    (E : (Fin n → ℝ) → ℝ) (hE : E = fun x => sqNorm (A *ᵥ (x - xs)) + δ * sqNorm (x - xs)) :
    ∃ x, res.x = some x ∧ ((∃ e, res.errs = .scalar e ∧ E x = 0) ∨
      ∃ l, res.errs = .arr l ∧ E x ≤ (2 * ε ^ l.length) ^ 2 * E (M *ᵥ z0.getD 0)) := by
  have hEx : ∀ x, sqNorm (aLift A (Real.sqrt δ) *ᵥ (x - xs)) = E x := fun x => by
    rw [sqNorm_aLift, Real.sq_sqrt hδ, hE]
  have hEn : ∀ x, 0 ≤ E x := fun x => by rw [← hEx]; exact sqNorm_nonneg _
  have hform : ∀ z, 1 / (1 + ε) * sqNorm z ≤
      sqNorm (aLift A (Real.sqrt δ) *ᵥ (M *ᵥ z)) + 0 * sqNorm (M *ᵥ z) ∧
      sqNorm (aLift A (Real.sqrt δ) *ᵥ (M *ᵥ z)) + 0 * sqNorm (M *ᵥ z) ≤ 1 / (1 - ε) * sqNorm z := fun z => by
    have := spo_form hδ hε hε1 hS horth z
    rw [← mulVec_mulVec] at this
    rw [zero_mul, add_zero]
    exact this
  obtain ⟨r0, r1⟩ := rho_le hε hε1
  have hrate : ∀ k : ℕ, (2 * ((√(1 / (1 - ε)) - √(1 / (1 + ε))) / (√(1 / (1 - ε)) + √(1 / (1 + ε)))) ^ k) ^ 2 *
      E (M *ᵥ z0.getD 0) ≤ (2 * ε ^ k) ^ 2 * E (M *ᵥ z0.getD 0) := fun k =>
    mul_le_mul_of_nonneg_right (pow_le_pow_left₀ (by positivity)
      (mul_le_mul_of_nonneg_left (pow_le_pow_left₀ r0 r1 k) zero_le_two) 2) (hEn _)
  have hnorm : (aLift A (Real.sqrt δ))ᵀ *ᵥ (ba - aLift A (Real.sqrt δ) *ᵥ xs) = 0 := by
    have hy : ys = b - A *ᵥ xs := by rw [← hxs.1]; abel
    exact (saddle_of_aug hδ hba).2 (hy ▸ hxs)
  have p1 : (0 : ℝ) < 1 / (1 + ε) := one_div_pos.2 (by linarith)
  have p2 : 1 / (1 + ε) ≤ 1 / (1 - ε) := one_div_le_one_div_of_le (by linarith) (by linarith)
  rcases hsol with rfl | rfl
  · obtain ⟨x, log, g1, g2, g3⟩ := pcss1_rate_sq hr le_rfl ht hM (show pcss1 _ _ _ _ _ _ _ _ = _ from h) p1 p2 hform
      (xs := xs) (by
        show _ = (aLift A (Real.sqrt δ))ᵀ *ᵥ ba - 0
        rw [mulVec_sub, sub_eq_zero] at hnorm
        rw [hnorm, zero_smul, add_zero, sub_zero])
    rw [zero_mul, zero_mul, add_zero, add_zero, hEx, pcss1Start_eq hr, hEx] at g3
    exact ⟨x, g1, Or.inr ⟨log, g2, g3.trans (hrate _)⟩⟩
  · have hmin : IsRidgeMin (aLift A (Real.sqrt δ)) ba 0 xs := ridge_of_normal le_rfl (by
      rw [zero_smul, sub_zero]; exact hnorm)
    obtain ⟨x, g1, g2⟩ := C67_pcss2_rate (aLift A (Real.sqrt δ)) ba none 0 le_rfl tol L (.gen r M) trivial htop z0 rfl res h
      _ _ p1 p2 hform xs hmin
    have hobj : ∀ x, sqNorm (aLift A (Real.sqrt δ) *ᵥ x - ba) + 0 * sqNorm x =
        sqNorm (ba - aLift A (Real.sqrt δ) *ᵥ xs) + E x := fun x => by
      rw [zero_mul, add_zero, ← neg_sub, sqNorm_neg, aug_energy hδ hba hxs x, hE]
    refine ⟨x, g1, g2.imp ?_ ?_⟩
    · rintro ⟨e, h1, h2⟩
      refine ⟨e, h1, le_antisymm ?_ (hEn _)⟩
      have h3 := h2 xs
      rw [hobj, hobj] at h3
      have h4 : E xs = 0 := by rw [← hEx, sub_self, mulVec_zero, sqNorm_eq_zero.2 rfl]
      linarith
    · rintro ⟨l, h1, h2⟩
      refine ⟨l, h1, le_trans ?_ (hrate _)⟩
      have e : (Precond.gen r M).mat = M := rfl
      rw [hobj, hobj, hobj, e] at h2
      have h4 : E xs = 0 := by rw [← hEx, sub_self, mulVec_zero, sqNorm_eq_zero.2 rfl]
      rw [h4] at h2
      simpa using h2

/-- the start of `SPS2` is no worse than zero -/
theorem sps2_start_energy {A : Matrix (Fin m) (Fin n) ℝ} {b : Fin m → ℝ} {c : Fin n → ℝ} {δ : ℝ} (hδ : 0 ≤ δ)
    {S : Matrix (Fin d) (Fin m) ℝ} {o : PrecOut (d + liftRows n (Real.sqrt δ)) n}
    {ba : Fin (m + liftRows n (Real.sqrt δ)) → ℝ} (hba : (aLift A (Real.sqrt δ))ᵀ *ᵥ ba = Aᵀ *ᵥ b - c)
    {xs : Fin n → ℝ} {ys : Fin m → ℝ} (hxs : SolvesSaddle A b c δ xs ys) :
    sqNorm (A *ᵥ (o.M *ᵥ (sps2Start S o (aLift A (Real.sqrt δ)) ba).getD 0 - xs)) +
      δ * sqNorm (o.M *ᵥ (sps2Start S o (aLift A (Real.sqrt δ)) ba).getD 0 - xs) ≤ sqNorm (A *ᵥ xs) + δ * sqNorm xs := by
  have h2 := norm2_le_norm2.1 (sps2Start_le S o (aLift A (Real.sqrt δ)) ba)
  have h4 := aug_energy hδ hba hxs (o.M *ᵥ (sps2Start S o (aLift A (Real.sqrt δ)) ba).getD 0)
  have h5 := aug_energy hδ hba hxs 0
  rw [mulVec_zero, sub_zero, zero_sub, mulVec_neg, sqNorm_neg, sqNorm_neg] at h5
  linarith

/-- **C74** (observed iterations).  `SPS2` with `PcSS1` or `PcSS2`: let the sketch drawn embed the range of `A` up to
`1 ± ε`, `ε < 1`, with a numerically full-rank lifted sketch.  A logged call that made `k` iterations (`k + 1` logged
errors) returns `x`, `y` with `‖y - y*‖² + δ‖x - x*‖² ≤ (2 ε^k)² (‖A x*‖² + δ‖x*‖²)` for every solution `(x*, y*)` of the
block system. -/
theorem C74_sps2_rate (la : LinAlg) (gen : SkOpGen G) (sf : ℝ) (solver : SaddleSolver)
    (hsol : solver = PcSS1 ∨ solver = PcSS2)
    (A : Matrix (Fin m) (Fin n) ℝ) (b : Option (Fin m → ℝ)) (c : Option (Fin n → ℝ)) (δ tol : ℝ)
    (hδ : 0 ≤ δ) (ht : 0 ≤ tol) (L : ℤ) (clock : LogTimes) (w w' : World G) (out : SPSOut m n)
    (h : sps2Call la gen sf solver A b c δ tol L true clock w = .ok (out, w')) (ε : ℝ) (hε : 0 ≤ ε) (hε1 : ε < 1)
    (hS : ∀ d w₁ S, (dimChecks sf m n : Py G ℕ) w = .ok (d, w₁) → gen d m w₁ = .ok (S, w') →
      Embeds S A ε ∧ WellCond (aLift (S * A) (Real.sqrt δ)))
    (lg : SPLog) (hlg : out.log = some lg) (k : ℕ) (hk : lg.errors.length = k + 1)
    (xs : Fin n → ℝ) (ys : Fin m → ℝ) (hxs : SolvesSaddle A (b.getD 0) (cVec c) δ xs ys) :
    ∃ x y, out.x = some x ∧ out.y = some y ∧
      sqNorm (y - ys) + δ * sqNorm (x - xs) ≤ (2 * ε ^ k) ^ 2 * (sqNorm (A *ᵥ xs) + δ * sqNorm xs) := by
  obtain ⟨d, S, w₁, o, res, -, -, hdc, hg, ho, hr, e1, e2, e3⟩ := sps2_ok h
  obtain ⟨hSe, hw⟩ := hS d w₁ S hdc hg
  obtain ⟨hrn, hM, htop, horth⟩ := sps2_prec la ho hw
  have hba := (C40_sps2_rhs la S A δ (b.getD 0) c o ho).2.2 hw
  obtain ⟨x, g1, g2⟩ := sps2_solver hδ ht hε hε1 hSe hrn hM htop horth hba hxs hsol hr _ rfl
  have hst := sps2_start_energy (S := S) (o := o) hδ hba hxs
  refine ⟨x, _, e1.trans g1, by rw [e2, g1]; rfl, ?_⟩
  rw [saddle_err hxs]
  rcases g2 with ⟨e, g2, g3⟩ | ⟨l, g2, g3⟩
  · rw [g2] at e3; cases e3
  · rw [g2] at e3
    have e4 := (Except.ok.inj e3).symm
    rw [hlg] at e4
    obtain rfl := Option.some.inj e4
    have hlen : l.length = k := by
      have : (_ :: l).length = k + 1 := hk
      simpa using this
    rw [hlen] at g3
    exact g3.trans (mul_le_mul_of_nonneg_left hst (sq_nonneg _))

/-- what the solver makes of the transformed problem with tolerance zero -/
theorem sps2_solver_zero {A : Matrix (Fin m) (Fin n) ℝ} {b : Fin m → ℝ} {c : Fin n → ℝ} {δ ε : ℝ} (hδ : 0 ≤ δ)
    (hε : 0 ≤ ε) (hε1 : ε < 1) {S : Matrix (Fin d) (Fin m) ℝ} (hS : Embeds S A ε) {r : ℕ}
    {M : Matrix (Fin n) (Fin r) ℝ} (hr : r = n) (hM : FullColRank M) (htop : colSpace M = ⊤)
    (horth : (aLift (S * A) (Real.sqrt δ) * M)ᵀ * (aLift (S * A) (Real.sqrt δ) * M) = 1)
    (hc : n * √((1 + ε) / (1 - ε)) < 10 ^ 8 - eps)
    {ba : Fin (m + liftRows n (Real.sqrt δ)) → ℝ} (hba : (aLift A (Real.sqrt δ))ᵀ *ᵥ ba = Aᵀ *ᵥ b - c)
    {xs : Fin n → ℝ} {ys : Fin m → ℝ} (hxs : SolvesSaddle A b c δ xs ys) {solver : SaddleSolver}
    (hsol : solver = PcSS1 ∨ solver = PcSS2) {L : ℕ} {z0 : Option (Fin r → ℝ)}
    {res : SaddleOut (m + liftRows n (Real.sqrt δ)) n}
    (h : solver _ n (aLift A (Real.sqrt δ)) (.vec ba) none 0 0 L (.gen r M) z0 = .ok res)
    (E : (Fin n → ℝ) → ℝ) (hE : E = fun x => sqNorm (A *ᵥ (x - xs)) + δ * sqNorm (x - xs))
    (hst : E (M *ᵥ z0.getD 0) ≤ E 0) :
    ∃ x, res.x = some x ∧ E x ≤ (2 * ε ^ L) ^ 2 * E (M *ᵥ z0.getD 0) := by
  have hEx : ∀ x, sqNorm (aLift A (Real.sqrt δ) *ᵥ (x - xs)) = E x := fun x => by
    rw [sqNorm_aLift, Real.sq_sqrt hδ, hE]
  have hEn : ∀ x, 0 ≤ E x := fun x => by rw [← hEx]; exact sqNorm_nonneg _
  have hpos : 0 ≤ (2 * ε ^ L) ^ 2 * E (M *ᵥ z0.getD 0) := mul_nonneg (sq_nonneg _) (hEn _)
  have hnorm : (aLift A (Real.sqrt δ))ᵀ *ᵥ (ba - aLift A (Real.sqrt δ) *ᵥ xs) = 0 := by
    have hy : ys = b - A *ᵥ xs := by rw [← hxs.1]; abel
    exact (saddle_of_aug hδ hba).2 (hy ▸ hxs)
  have hEz : ∀ x, (aLift A (Real.sqrt δ))ᵀ *ᵥ (ba - aLift A (Real.sqrt δ) *ᵥ x) = 0 → E x = 0 := fun x hx => by
    have e : (aLift A (Real.sqrt δ))ᵀ *ᵥ (aLift A (Real.sqrt δ) *ᵥ (x - xs)) = 0 := by
      rw [mulVec_sub] at hnorm hx
      rw [mulVec_sub, mulVec_sub, ← sub_eq_zero.1 hnorm, ← sub_eq_zero.1 hx, sub_self]
    rw [← hEx, sqNorm_eq_dot, dot_mulVec, e]
    simp
  obtain ⟨x, g1, g2⟩ := sps2_solver hδ le_rfl hε hε1 hS hr hM htop horth hba hxs hsol h E hE
  refine ⟨x, g1, ?_⟩
  rcases hsol with rfl | rfl
  · obtain ⟨N, x', log, -, -, hp, k1, k2⟩ := pcss1_pcg le_rfl (Or.inl ⟨hr, hM⟩) (show pcss1 _ _ _ _ _ _ _ _ = _ from h)
    rw [g1] at k1
    cases k1
    rcases g2 with ⟨e, g2, g3⟩ | ⟨l, g2, g3⟩
    · rw [g3]; exact hpos
    · rw [g2] at k2
      obtain rfl : l = log := by cases k2; rfl
      obtain ⟨-, k3, -⟩ := C27_pcg_log _ _ _ _ _ _ _ _ hp
      rcases k3 with k3 | k3
      · rwa [show l.length = L by exact_mod_cast k3] at g3
      · rw [zero_mul] at k3
        have k4 := norm2_eq_zero.1 (le_antisymm k3 (norm2_nonneg _))
        rw [hEz x ?_]
        · exact hpos
        · have k5 : (aLift A (Real.sqrt δ))ᵀ *ᵥ ba - 0 - ((aLift A (Real.sqrt δ))ᵀ * aLift A (Real.sqrt δ) +
              (0 : ℝ) • (1 : Matrix (Fin n) (Fin n) ℝ)) *ᵥ x = 0 := k4
          rw [sub_zero, zero_smul, add_zero, ← mulVec_mulVec] at k5
          rw [mulVec_sub]; exact k5
  · have hw : E xs = 0 := by rw [← hEx, sub_self, mulVec_zero, sqNorm_eq_zero.2 rfl]
    have hobj : ∀ x, sqNorm (aLift A (Real.sqrt δ) *ᵥ x - ba) + 0 * sqNorm x =
        sqNorm (ba - aLift A (Real.sqrt δ) *ᵥ xs) + E x := fun x => by
      rw [zero_mul, add_zero, ← neg_sub, sqNorm_neg, aug_energy hδ hba hxs x, hE]
    by_cases hb0 : ba = 0
    · have h1 := C34_pcss2_never_worse _ _ none 0 le_rfl 0 L (.gen r M) trivial z0 rfl res h x g1
      have e : (Precond.gen r M).mat = M := rfl
      rw [hobj, hobj, e] at h1
      have h0 : E 0 = 0 := hEz 0 (by rw [hb0, mulVec_zero, sub_zero, mulVec_zero])
      linarith
    · obtain ⟨F, hF⟩ : ∃ F, F = aLift (aLift A (Real.sqrt δ)) (Real.sqrt 0) * M := ⟨_, rfl⟩
      have h' : pcss2 (aLift A (Real.sqrt δ)) (.vec ba) none 0 0 L (.gen r M) z0 = .ok res := h
      rw [pcss2_over_eq (aLift A (Real.sqrt δ)) ba none le_rfl 0 L (P := .gen r M) trivial z0 trivial] at h'
      have e : (Precond.gen r M).mat = M := rfl
      rw [e, ← hF] at h'
      obtain ⟨hcst, hlift⟩ := (C25_lift (aLift A (Real.sqrt δ)) 0).1 rfl
      have hFc : F = castRows hcst (aLift A (Real.sqrt δ) * M) := by
        rw [hF, ← castRows_mul, ← hlift, Real.sqrt_zero]
      have hFo : ∀ z, sqNorm (catv ba 0 - F *ᵥ z) = sqNorm (ba - aLift A (Real.sqrt δ) *ᵥ xs) + E (M *ᵥ z) := fun z => by
        rw [hF, ← mulVec_mulVec, lift_obj _ ba le_rfl, hobj]
      obtain ⟨zs, hzs⟩ := mem_colSpace.1 (htop ▸ Submodule.mem_top : xs ∈ colSpace M)
      obtain ⟨out', h1, h2⟩ := C67_lsqr_apriori F (catv ba 0) (fun h => hb0 (by
          funext i
          have := congrFun h (Fin.castAdd _ i)
          simpa [catv] using this)) ⟨0, 0, 10 ^ 8⟩ le_rfl L z0 zs
        (fun z => by rw [hFo, hFo, hzs, hw]; linarith [hEn (M *ᵥ z)])
        (1 / (1 + ε)) (1 / (1 - ε)) (one_div_pos.2 (by linarith))
          (one_div_le_one_div_of_le (by linarith) (by linarith))
          (fun z _ => by
            rw [← norm2_sq (F *ᵥ z), hFc, castRows_mulVec_norm, norm2_sq]
            exact spo_form hδ hε hε1 hS horth z)
        (by
          rw [hFc, castRows_fro, castRows_rank, Real.sqrt_div zero_le_one, Real.sqrt_one]
          exact precond_cond hδ hε hε1 hS horth (by rw [hr]; exact hc))
      rw [h1] at h'
      cases h'
      cases g1
      rw [hFo, hFo, hFo, hzs, hw] at h2
      simp only [zero_mul, add_zero] at h2
      have key : E (M *ᵥ out'.x) ≤ (2 * ε ^ L) ^ 2 * E (M *ᵥ z0.getD 0) := by
        rcases h2 with h2 | h2 | h2
        · obtain ⟨r0, r1⟩ := rho_le hε hε1
          have h3 := mul_le_mul_of_nonneg_right (pow_le_pow_left₀ (by positivity)
            (mul_le_mul_of_nonneg_left (pow_le_pow_left₀ r0 r1 L) zero_le_two) 2) (hEn (M *ᵥ z0.getD 0))
          refine le_trans ?_ h3
          linarith
        · have h3 := norm2_eq_zero.1 (le_antisymm h2 (norm2_nonneg _))
          have h4 := hFo out'.x
          rw [h3, sqNorm_eq_zero.2 rfl] at h4
          linarith [sqNorm_nonneg (ba - aLift A (Real.sqrt δ) *ᵥ xs)]
        · have h3 := norm2_eq_zero.1 (le_antisymm h2 (norm2_nonneg _))
          have h4 := lsq_of_normal h3 zs
          rw [hFo, hFo, hzs, hw] at h4
          linarith [sqNorm_nonneg (F *ᵥ (zs - out'.x)), sqNorm_nonneg (F *ᵥ (out'.x - zs))]
      exact key

/-- What the theorems below promise of a call of `SPS2` with `tol = 0` and limit `L`: without logging it returns, and
whatever it returns (with or without logging) is some `x` and `y = b - A x` with
`‖y - y*‖² + δ‖x - x*‖² ≤ (2 ε^L)² (‖A x*‖² + δ‖x*‖²)`. -/
def Sps2Good (A : Matrix (Fin m) (Fin n) ℝ) (b : Option (Fin m → ℝ)) (δ : ℝ) (L : ℕ) (ε : ℝ) (xs : Fin n → ℝ)
    (ys : Fin m → ℝ) (res : Bool → Except PyErr (SPSOut m n × World G)) : Prop :=
  (∃ out w', res false = .ok (out, w')) ∧
  ∀ logging out w', res logging = .ok (out, w') → ∃ x y, out.x = some x ∧ out.y = some y ∧ y = b.getD 0 - A *ᵥ x ∧
    sqNorm (y - ys) + δ * sqNorm (x - xs) ≤ (2 * ε ^ L) ^ 2 * (sqNorm (A *ᵥ xs) + δ * sqNorm xs)

/-- **C74** (a priori).  `SPS2` with `PcSS1` or `PcSS2`: if the sketch drawn embeds the range of `A` up to `1 ± ε`,
`ε < 1`, with a numerically full-rank lifted sketch, and `n √((1+ε)/(1-ε)) < 10^8 - eps`, then the call with `tol = 0` and
limit `L` keeps the promises of `Sps2Good`. -/
theorem C74_sps2_apriori (la : LinAlg) (gen : SkOpGen G) (sf : ℝ) (solver : SaddleSolver)
    (hsol : solver = PcSS1 ∨ solver = PcSS2) (A : Matrix (Fin m) (Fin n) ℝ) (hn : 0 < n)
    (b : Option (Fin m → ℝ)) (c : Option (Fin n → ℝ)) (δ : ℝ) (hδ : 0 ≤ δ) (L : ℕ) (clock : LogTimes)
    (w w₁ w' : World G) (S : Matrix (Fin d) (Fin m) ℝ) (hdd : (dimChecks sf m n : Py G ℕ) w = .ok (d, w₁))
    (hgen : gen d m w₁ = .ok (S, w')) (ε : ℝ) (hε : 0 ≤ ε) (hε1 : ε < 1) (hS : Embeds S A ε)
    (hw : WellCond (aLift (S * A) (Real.sqrt δ))) (hc : n * √((1 + ε) / (1 - ε)) < 10 ^ 8 - eps)
    (xs : Fin n → ℝ) (ys : Fin m → ℝ) (hxs : SolvesSaddle A (b.getD 0) (cVec c) δ xs ys) :
    Sps2Good A b δ L ε xs ys fun logging => sps2Call la gen sf solver A b c δ 0 L logging clock w := by
  obtain ⟨-, -, hnd, -⟩ := dimChecks_ok hdd
  refine ⟨?_, fun logging out w2 h => ?_⟩
  · obtain ⟨o, ho⟩ := (C26_empty la (aLift (S * A) (Real.sqrt δ))).2 (by omega) (by omega)
    obtain ⟨hrn, hM, htop, horth⟩ := sps2_prec la ho hw
    have hba := (C40_sps2_rhs la S A δ (b.getD 0) c o ho).2.2 hw
    have hnorm : (aLift A (Real.sqrt δ))ᵀ *ᵥ (sps2Rhs S o (b.getD 0) c - aLift A (Real.sqrt δ) *ᵥ xs) = 0 := by
      have hy : ys = b.getD 0 - A *ᵥ xs := by rw [← hxs.1]; abel
      exact (saddle_of_aug hδ hba).2 (hy ▸ hxs)
    have hres : ∃ res, solver _ n (aLift A (Real.sqrt δ)) (.vec (sps2Rhs S o (b.getD 0) c)) none 0 0 L
        (.gen o.r o.M) (sps2Start S o (aLift A (Real.sqrt δ)) (sps2Rhs S o (b.getD 0) c)) = .ok res := by
      rcases hsol with rfl | rfl
      · obtain ⟨res, -, h1, -⟩ := C29_pcss1_converges (aLift A (Real.sqrt δ)) (.vec (sps2Rhs S o (b.getD 0) c))
          (fun _ _ => (nomatch ·)) none 0 le_rfl 0 le_rfl L (by omega) o.M (Or.inl ⟨hrn, hM⟩)
          (sps2Start S o (aLift A (Real.sqrt δ)) (sps2Rhs S o (b.getD 0) c)) ⟨xs, by
            show _ = (aLift A (Real.sqrt δ))ᵀ *ᵥ sps2Rhs S o (b.getD 0) c - 0
            rw [mulVec_sub, sub_eq_zero] at hnorm
            rw [hnorm, zero_smul, add_zero, sub_zero]⟩
        exact ⟨res, h1⟩
      · exact C34_pcss2_total (aLift A (Real.sqrt δ)) (.vec (sps2Rhs S o (b.getD 0) c)) none 0 le_rfl 0 L (by omega)
          (.gen o.r o.M) trivial _ (Or.inl ⟨rfl, _, rfl⟩)
    obtain ⟨res, hres⟩ := hres
    refine ⟨⟨res.x, res.x.map fun x => b.getD 0 - A *ᵥ x, none⟩, w', ?_⟩
    simp only
    rw [sps2_eq la solver A b c δ 0 L false clock hdd hgen]
    unfold sps2Post
    simp only [ho, bind, Except.bind, hres, finishLog, pure, Except.pure]
    rfl
  · obtain ⟨d', S', w₁', o, res, -, -, hdc, hg, ho, hr, e1, e2, -⟩ := sps2_ok h
    rw [hdd] at hdc
    cases hdc
    rw [hgen] at hg
    cases hg
    obtain ⟨hrn, hM, htop, horth⟩ := sps2_prec la ho hw
    have hba := (C40_sps2_rhs la S A δ (b.getD 0) c o ho).2.2 hw
    have hst := sps2_start_energy (S := S) (o := o) hδ hba hxs
    have e0 : sqNorm (A *ᵥ (0 - xs)) + δ * sqNorm (0 - xs) = sqNorm (A *ᵥ xs) + δ * sqNorm xs := by
      rw [zero_sub, mulVec_neg, sqNorm_neg, sqNorm_neg]
    obtain ⟨x, g1, g2⟩ := sps2_solver_zero hδ hε hε1 hS hrn hM htop horth hc hba hxs hsol hr _ rfl (by
      simp only [e0]; exact hst)
    refine ⟨x, _, e1.trans g1, by rw [e2, g1]; rfl, rfl, ?_⟩
    rw [saddle_err hxs]
    exact g2.trans (mul_le_mul_of_nonneg_left hst (sq_nonneg _))

/-- **C74** (`SPS2` with `SkOpSJ`).  Let `lo ‖x‖ ≤ ‖A x‖ ≤ hi ‖x‖` with `√((1+ε)/(1-ε)) hi n eps < lo`, `0 < ε < 1` and
`n √((1+ε)/(1-ε)) < 10^8 - eps`; let `d = min(int(sampling_factor * n), m) ≥ n > 0` and `1 ≤ vec_nnz ≤ d`.  Except for
draws of probability at most `(n² + n)/(d ε²)`: for every `b`, `c`, `δ ≥ 0` and limit `L`, and with either solver, `SPS2`
with `tol = 0` keeps the promises of `Sps2Good`. -/
theorem C74_sps2_sjlt (A : Matrix (Fin m) (Fin n) ℝ) (hn : 0 < n) (sf : ℝ) (s : ℕ)
    (hd : n ≤ sketchRows sf m n) (hs : 0 < s) (hsd : s ≤ sketchRows sf m n)
    (ε lo hi : ℝ) (hε : 0 < ε) (hε1 : ε < 1) (hc : n * √((1 + ε) / (1 - ε)) < 10 ^ 8 - eps)
    (hlo : ∀ x, lo * norm2 x ≤ norm2 (A *ᵥ x))
    (hhi : ∀ x, norm2 (A *ᵥ x) ≤ hi * norm2 x) (h0 : 0 ≤ hi) (hls : √((1 + ε) / (1 - ε)) * hi * n * eps < lo) :
    ∃ E : Set ((Fin m → (Fin s ↪ Fin (sketchRows sf m n))) × (Fin (m * s) → ℝ)),
      sjltDraws _ m _ E ≤ ENNReal.ofReal ((n ^ 2 + n) / (sketchRows sf m n * ε ^ 2)) ∧
      ∀ rv u, (rv, u) ∉ E → ∀ (G : Type) (la : LinAlg) (R : NpRng G) (w : World G) (solver : SaddleSolver)
        (b : Option (Fin m → ℝ)) (c : Option (Fin n → ℝ)) (δ : ℝ) (L : ℕ) (clock : LogTimes) (xs : Fin n → ℝ)
        (ys : Fin m → ℝ), solver = PcSS1 ∨ solver = PcSS2 → 0 ≤ δ → NextSJLT R w _ _ _ rv u →
        SolvesSaddle A (b.getD 0) (cVec c) δ xs ys →
        Sps2Good A b δ L ε xs ys fun logging =>
          sps2Call la (sjltOperator R s) sf solver A b c δ 0 L logging clock w := by
  have hmn : n ≤ m := by unfold sketchRows at hd; omega
  have hsf : (n : ℤ) ≤ pyInt (sf * n) := by unfold sketchRows at hd; omega
  have hdm : sketchRows sf m n ≤ m := by unfold sketchRows; omega
  have hr : (A.rank : ℝ) ≤ n := by exact_mod_cast A.rank_le_width
  obtain ⟨E, h1, h2⟩ := C70_sjlt_embeds A hs hsd hdm ε hε
  refine ⟨E, h1.trans (ENNReal.ofReal_le_ofReal (div_le_div_of_nonneg_right (add_le_add
    (pow_le_pow_left₀ (by positivity) hr 2) hr) (by positivity))),
    fun rv u hE G la R w solver b c δ L clock xs ys hsol hδ hw hxs => ?_⟩
  have hw' : NextSJLT R { w with warns := w.warns + if (m : ℤ) < pyInt (sf * n) then 1 else 0 } _ _ _ rv u := hw
  obtain ⟨S, w', hgen, hS⟩ := h2 rv u hE G R _ hw'
  exact C74_sps2_apriori la (sjltOperator R s) sf solver hsol A hn b c δ hδ L clock w _ w' S (sjlt_driver hmn hsf w) hgen ε
    hε.le hε1 hS (wellCond_lift_of_embeds hn hδ hε.le hε1 hS hlo hhi h0 hls) hc xs ys hxs

/-- **C74** (`SPS2` with `SkOpTC`).  The same for an SRCT, except for draws of probability at most
`4 (n² + 2n)/(d ε²)`. -/
theorem C74_sps2_srct (A : Matrix (Fin m) (Fin n) ℝ) (hn : 0 < n) (sf : ℝ)
    (hd : n ≤ sketchRows sf m n)
    (ε lo hi : ℝ) (hε : 0 < ε) (hε1 : ε < 1) (hc : n * √((1 + ε) / (1 - ε)) < 10 ^ 8 - eps)
    (hlo : ∀ x, lo * norm2 x ≤ norm2 (A *ᵥ x))
    (hhi : ∀ x, norm2 (A *ᵥ x) ≤ hi * norm2 x) (h0 : 0 ≤ hi) (hls : √((1 + ε) / (1 - ε)) * hi * n * eps < lo) :
    ∃ E : Set (Equiv.Perm (Fin m) × ((Fin (sketchRows sf m n) ↪ Fin m) × (Fin m → ℝ))),
      srctDraws _ m E ≤ ENNReal.ofReal (4 * (n ^ 2 + 2 * n) / (sketchRows sf m n * ε ^ 2)) ∧
      ∀ p f u, (p, f, u) ∉ E → ∀ (G : Type) (la : LinAlg) (R : NpRng G) (w : World G) (solver : SaddleSolver)
        (b : Option (Fin m → ℝ)) (c : Option (Fin n → ℝ)) (δ : ℝ) (L : ℕ) (clock : LogTimes) (xs : Fin n → ℝ)
        (ys : Fin m → ℝ), solver = PcSS1 ∨ solver = PcSS2 → 0 ≤ δ → NextSRCT R w _ _ p f u →
        SolvesSaddle A (b.getD 0) (cVec c) δ xs ys →
        Sps2Good A b δ L ε xs ys fun logging =>
          sps2Call la (skOpTCGen la R) sf solver A b c δ 0 L logging clock w := by
  have hmn : n ≤ m := by unfold sketchRows at hd; omega
  have hsf : (n : ℤ) ≤ pyInt (sf * n) := by unfold sketchRows at hd; omega
  have hdm : sketchRows sf m n ≤ m := by unfold sketchRows; omega
  have hr : (A.rank : ℝ) ≤ n := by exact_mod_cast A.rank_le_width
  obtain ⟨E, h1, h2⟩ := C72_srct_embeds A (by omega : 0 < sketchRows sf m n) hdm ε hε
  refine ⟨E, h1.trans (ENNReal.ofReal_le_ofReal (div_le_div_of_nonneg_right (mul_le_mul_of_nonneg_left (add_le_add
    (pow_le_pow_left₀ (by positivity) hr 2) (mul_le_mul_of_nonneg_left hr (by norm_num))) (by norm_num)) (by positivity))),
    fun p f u hE G la R w solver b c δ L clock xs ys hsol hδ hw hxs => ?_⟩
  have hw' : NextSRCT R { w with warns := w.warns + if (m : ℤ) < pyInt (sf * n) then 1 else 0 } _ _ p f u := hw
  obtain ⟨S, w', hgen, hS⟩ := h2 p f u hE G la R _ hw'
  exact C74_sps2_apriori la (skOpTCGen la R) sf solver hsol A hn b c δ hδ L clock w _ w' S (sjlt_driver hmn hsf w) hgen ε
    hε.le hε1 hS (wellCond_lift_of_embeds hn hδ hε.le hε1 hS hlo hhi h0 hls) hc xs ys hxs

/-- **C74** (`SPS2` with `SkOpGA`).  The same for a normalised Gaussian operator, except for draws of probability at most
`2 · 9^n · exp(-d ε²/32)`. -/
theorem C74_sps2_gaussian (A : Matrix (Fin m) (Fin n) ℝ) (hn : 0 < n) (sf : ℝ)
    (hd : n ≤ sketchRows sf m n)
    (ε lo hi : ℝ) (hε : 0 ≤ ε) (hε1 : ε < 1) (hc : n * √((1 + ε) / (1 - ε)) < 10 ^ 8 - eps)
    (hlo : ∀ x, lo * norm2 x ≤ norm2 (A *ᵥ x))
    (hhi : ∀ x, norm2 (A *ᵥ x) ≤ hi * norm2 x) (h0 : 0 ≤ hi) (hls : √((1 + ε) / (1 - ε)) * hi * n * eps < lo) :
    ∃ E : Set (Fin (sketchRows sf m n) × Fin m → ℝ),
      normals _ m E ≤ ENNReal.ofReal (2 * 9 ^ n * Real.exp (-(sketchRows sf m n * ε ^ 2 / 32))) ∧
      ∀ Z ∉ E, ∀ (G : Type) (la : LinAlg) (R : NpRng G) (w : World G) (solver : SaddleSolver)
        (b : Option (Fin m → ℝ)) (c : Option (Fin n → ℝ)) (δ : ℝ) (L : ℕ) (clock : LogTimes) (xs : Fin n → ℝ)
        (ys : Fin m → ℝ), solver = PcSS1 ∨ solver = PcSS2 → 0 ≤ δ → NextNormal R w _ _ Z →
        SolvesSaddle A (b.getD 0) (cVec c) δ xs ys →
        Sps2Good A b δ L ε xs ys fun logging =>
          sps2Call la (gaussianOperator R true) sf solver A b c δ 0 L logging clock w := by
  have hmn : n ≤ m := by unfold sketchRows at hd; omega
  have hsf : (n : ℤ) ≤ pyInt (sf * n) := by unfold sketchRows at hd; omega
  have hdm : sketchRows sf m n ≤ m := by unfold sketchRows; omega
  obtain ⟨E, h1, h2⟩ := C68_gaussian_embeds A (by omega : 0 < sketchRows sf m n) hdm ε hε hε1.le
  refine ⟨E, h1.trans (ENNReal.ofReal_le_ofReal (mul_le_mul_of_nonneg_right (mul_le_mul_of_nonneg_left
    (pow_le_pow_right₀ (by norm_num) A.rank_le_width) (by norm_num)) (Real.exp_pos _).le)),
    fun Z hZ G la R w solver b c δ L clock xs ys hsol hδ hw hxs => ?_⟩
  have hw' : NextNormal R { w with warns := w.warns + if (m : ℤ) < pyInt (sf * n) then 1 else 0 } _ _ Z := hw
  obtain ⟨S, hgen, hS⟩ := h2 Z hZ G R _ hw'
  exact C74_sps2_apriori la (gaussianOperator R true) sf solver hsol A hn b c δ hδ L clock w _ _ S (sjlt_driver hmn hsf w)
    hgen ε hε hε1 hS (wellCond_lift_of_embeds hn hδ hε hε1 hS hlo hhi h0 hls) hc xs ys hxs

/-- The hypotheses of the theorems of this file are met, with a failure probability below `1/100` for the SJLT: one column
of a thousand ones, `ε = 1/2`, sampling factor 1000, `vec_nnz = 8`, and any right-hand sides. -/
example : ∃ A : Matrix (Fin 1000) (Fin 1) ℝ, 1 ≤ sketchRows 1000 1000 1 ∧ 8 ≤ sketchRows 1000 1000 1 ∧
    (1 : ℕ) * √((1 + 1 / 2) / (1 - 1 / 2)) < 10 ^ 8 - eps ∧
    (∃ lo hi : ℝ, (∀ x, lo * norm2 x ≤ norm2 (A *ᵥ x)) ∧ (∀ x, norm2 (A *ᵥ x) ≤ hi * norm2 x) ∧ 0 ≤ hi ∧
      √((1 + 1 / 2) / (1 - 1 / 2)) * hi * (1 : ℕ) * eps < lo) ∧
    ((1 : ℕ) ^ 2 + (1 : ℕ)) / (sketchRows 1000 1000 1 * (1 / 2) ^ 2) ≤ (1 / 100 : ℝ) ∧
    (∀ w, ∃ rv u, NextSJLT demoRng w (sketchRows 1000 1000 1) 1000 8 rv u) ∧
    ∀ b c, ∃ xs ys, SolvesSaddle A b c 0 xs ys := by
  have hp : pyInt (1000 * (1 : ℕ)) = 1000 := by
    unfold pyInt; rw [if_pos (by norm_num), Int.floor_eq_iff]; norm_num
  have hr : sketchRows 1000 1000 1 = 1000 := by unfold sketchRows; rw [hp]; rfl
  have h2 : √((1 + 1 / 2) / (1 - 1 / 2)) ≤ 2 := by
    rw [Real.sqrt_le_left (by norm_num)]; norm_num
  have h4 : eps ≤ 1 / 4 := by unfold eps; norm_num
  refine ⟨fun _ _ => 1, by rw [hr]; norm_num, by rw [hr]; norm_num, ?_, ⟨√1000, √1000, ?_⟩, ?_,
    fun w => demo_next w (by rw [hr]; norm_num), fun b c => ?_⟩
  · rw [Nat.cast_one, one_mul]
    refine lt_of_le_of_lt h2 ?_
    norm_num at h4 ⊢
    linarith
  · have e : ∀ x : Fin 1 → ℝ, norm2 ((fun _ _ => 1 : Matrix (Fin 1000) (Fin 1) ℝ) *ᵥ x) = √1000 * norm2 x := fun x => by
      have : ∀ N : ℕ, norm2 ((fun _ _ => 1 : Matrix (Fin N) (Fin 1) ℝ) *ᵥ x) = √N * norm2 x := fun N => by
        unfold norm2
        rw [← Real.sqrt_mul (by positivity)]
        congr 1
        simp [sqNorm, mulVec, dotProduct]
      simpa using this 1000
    refine ⟨fun x => (e x).ge, fun x => (e x).le, Real.sqrt_nonneg _, ?_⟩
    have h3 : 0 < √(1000 : ℝ) := Real.sqrt_pos.2 (by norm_num)
    have h5 : 0 < eps := by unfold eps; positivity
    calc √((1 + 1 / 2) / (1 - 1 / 2)) * √1000 * (1 : ℕ) * eps ≤ 2 * √1000 * (1 : ℕ) * (1 / 4) := by gcongr
      _ < √1000 := by push_cast; linarith
  · rw [hr]; norm_num
  · obtain ⟨x, hx⟩ : ∃ x : Fin 1 → ℝ, x = fun _ => (∑ i, b i - c 0) / 1000 := ⟨_, rfl⟩
    refine ⟨x, b - (fun _ _ => 1 : Matrix (Fin 1000) (Fin 1) ℝ) *ᵥ x, sub_add_cancel _ _, ?_⟩
    funext j
    obtain rfl : j = 0 := Subsingleton.elim _ _
    have : ∀ (N : ℕ) (b : Fin N → ℝ) (t : ℝ), ∑ i, (fun _ _ => 1 : Matrix (Fin N) (Fin 1) ℝ)ᵀ 0 i * (b i - t) =
        ∑ i, b i - N * t := fun N b t => by
      change ∑ i, (1 : ℝ) * (b i - t) = _
      simp [Finset.sum_sub_distrib]
    have h2 := this 1000 b ((∑ i, b i - c 0) / 1000)
    simp only [hx, mulVec, dotProduct, Pi.sub_apply, zero_smul, sub_zero, Pi.zero_apply, Finset.univ_unique,
      Finset.sum_singleton, one_mul]
    rw [h2]
    push_cast
    ring

end Parla.Props
