import Verif.Props.RoundingLS
import Verif.Props.SPS2Rates
import Verif.Model.RoundingSPS2

/-! # C106: `SPS2` with rounding errors in the sketching and factorisation stages -/

namespace Parla.Props

open Matrix Parla Spec Parla.Proof

variable {G : Type} {m n d p : ℕ}

/-- **C106** (exact arithmetic).  With exact operations this is the code modelled in Model/SaddleSys. -/
theorem C106_exact (la : LinAlg) (gen : SkOpGen G) (sf : ℝ) (solver : SaddleSolver) (A : Matrix (Fin m) (Fin n) ℝ)
    (b : Option (Fin m → ℝ)) (c : Option (Fin n → ℝ)) (δ tol : ℝ) (L : ℤ) (logging : Bool) (clock : LogTimes) :
    sps2CallFl (exactLS la) gen sf solver A b c δ tol L logging clock = sps2Call la gen sf solver A b c δ tol L logging clock := rfl

/-! ### The transformed right-hand side -/

theorem rhs_near {T : Matrix (Fin p) (Fin n) ℝ} {U Uc : Matrix (Fin p) (Fin n) ℝ} {s : Fin n → ℝ} {V Vc : Matrix (Fin n) (Fin n) ℝ}
    (hU : OrthoCols U) (hV : OrthoRows V) {μ γ ε : ℝ} (hε : 0 ≤ ε) (hε1 : 96 * ε ≤ 1) (hμ : 0 < μ) (hγ : μ ≤ γ)
    (hK : fro (U * diagonal s * V - T) ≤ 3 * ε * γ) (hUc : fro (Uc - U) ≤ ε) (hVc : fro (Vc - V) ≤ ε)
    (hlo : ∀ i, μ / 2 ≤ s i) (hhi : ∀ i, s i ≤ 2 * γ) (c : Fin n → ℝ) :
    norm2 (Tᵀ *ᵥ (Uc *ᵥ fun j => 1 / s j * (Vc *ᵥ c) j) - c) ≤ 12 * ε * (γ / μ) * norm2 c := by
  have hspos : ∀ i, 0 < s i := fun i => lt_of_lt_of_le (by linarith) (hlo i)
  have hγ0 : 0 < γ := hμ.trans_le hγ
  have hVV : Vᵀ * V = 1 := mul_eq_one_comm.1 (show V * Vᵀ = 1 from hV)
  have hVt : OrthoCols Vᵀ := by show Vᵀᵀ * Vᵀ = 1; rw [transpose_transpose]; exact hV
  obtain ⟨z, hz⟩ : ∃ z, z = Vc *ᵥ c := ⟨_, rfl⟩
  obtain ⟨q, hq⟩ : ∃ q : Fin n → ℝ, q = fun j => 1 / s j * z j := ⟨_, rfl⟩
  obtain ⟨e, he⟩ : ∃ e, e = (Uc - U) *ᵥ q := ⟨_, rfl⟩
  rw [← hz, ← hq]
  have hc0 := norm2_nonneg c
  have hw : norm2 ((Vc - V) *ᵥ c) ≤ ε * norm2 c := (norm2_mulVec_fro _ _).trans (mul_le_mul_of_nonneg_right hVc hc0)
  have hVc2 : norm2 (V *ᵥ c) = norm2 c := by unfold norm2; rw [sqNorm_orth_mulVec hVV]
  have hzn : norm2 z ≤ (1 + ε) * norm2 c := by
    have e1 : z = V *ᵥ c + (Vc - V) *ᵥ c := by rw [hz, sub_mulVec]; abel
    rw [e1]
    refine (norm2_add_le' _ _).trans ?_
    rw [hVc2]; linarith
  have hqn : norm2 q ≤ 2 / μ * norm2 z := by
    refine Real.sqrt_le_iff.2 ⟨mul_nonneg (by positivity) (norm2_nonneg _), ?_⟩
    rw [mul_pow, norm2_sq]
    unfold sqNorm
    rw [Finset.mul_sum]
    refine Finset.sum_le_sum fun j _ => ?_
    rw [hq]
    change (1 / s j * z j) ^ 2 ≤ _
    rw [mul_pow]
    refine mul_le_mul_of_nonneg_right ?_ (sq_nonneg _)
    refine pow_le_pow_left₀ (one_div_nonneg.2 (hspos j).le) ?_ 2
    rw [div_le_div_iff₀ (hspos j) hμ]
    have := hlo j
    linarith
  have hen : norm2 e ≤ ε * norm2 q := by
    rw [he]; exact (norm2_mulVec_fro _ _).trans (mul_le_mul_of_nonneg_right hUc (norm2_nonneg _))
  have hq0 := norm2_nonneg q
  -- the computed vector
  have hv : Uc *ᵥ q = U *ᵥ q + e := by rw [he, sub_mulVec]; abel
  have hvn : norm2 (Uc *ᵥ q) ≤ (1 + ε) * norm2 q := by
    rw [hv]
    refine (norm2_add_le' _ _).trans ?_
    have : norm2 (U *ᵥ q) = norm2 q := by unfold norm2; rw [sqNorm_orth_mulVec hU]
    linarith
  have hsq : diagonal s *ᵥ q = z := by
    ext j; rw [mulVec_diagonal, hq]; simp only; rw [← mul_assoc, mul_one_div_cancel (hspos j).ne', one_mul]
  have hKt : (U * diagonal s * V)ᵀ = Vᵀ * (diagonal s * Uᵀ) := by rw [transpose_mul, transpose_mul, diagonal_transpose]
  have hKU : (U * diagonal s * V)ᵀ *ᵥ (U *ᵥ q) = c + Vᵀ *ᵥ ((Vc - V) *ᵥ c) := by
    have hU' : Uᵀ * U = 1 := hU
    rw [hKt, ← mulVec_mulVec, ← mulVec_mulVec, mulVec_mulVec _ Uᵀ, hU', one_mulVec, hsq, hz, sub_mulVec, mulVec_sub, mulVec_mulVec _ Vᵀ V,
      hVV, one_mulVec]
    abel
  have hKe : norm2 ((U * diagonal s * V)ᵀ *ᵥ e) ≤ 2 * γ * norm2 e := by
    rw [hKt, ← mulVec_mulVec, ← mulVec_mulVec]
    have h1 : norm2 (Vᵀ *ᵥ (diagonal s *ᵥ (Uᵀ *ᵥ e))) = norm2 (diagonal s *ᵥ (Uᵀ *ᵥ e)) := by
      unfold norm2; rw [sqNorm_orth_mulVec hVt]
    have h2 : norm2 (diagonal s *ᵥ (Uᵀ *ᵥ e)) ≤ 2 * γ * norm2 (Uᵀ *ᵥ e) := by
      refine Real.sqrt_le_iff.2 ⟨mul_nonneg (by positivity) (norm2_nonneg _), ?_⟩
      rw [mul_pow, norm2_sq]
      unfold sqNorm
      rw [Finset.mul_sum]
      refine Finset.sum_le_sum fun j _ => ?_
      rw [mulVec_diagonal, mul_pow]
      exact mul_le_mul_of_nonneg_right (pow_le_pow_left₀ (hspos j).le (hhi j) 2) (sq_nonneg _)
    have h3 : norm2 (Uᵀ *ᵥ e) ≤ norm2 e := by
      have := high_transpose (F := U) zero_le_one (fun z => by rw [one_mul]; unfold norm2; rw [sqNorm_orth_mulVec hU]) e
      rwa [one_mul] at this
    rw [h1]
    exact h2.trans (mul_le_mul_of_nonneg_left h3 (by positivity))
  have hmain : Tᵀ *ᵥ (Uc *ᵥ q) - c =
      -((U * diagonal s * V - T)ᵀ *ᵥ (Uc *ᵥ q)) + ((U * diagonal s * V)ᵀ *ᵥ e + Vᵀ *ᵥ ((Vc - V) *ᵥ c)) := by
    rw [transpose_sub, sub_mulVec]
    have : (U * diagonal s * V)ᵀ *ᵥ (Uc *ᵥ q) = c + Vᵀ *ᵥ ((Vc - V) *ᵥ c) + (U * diagonal s * V)ᵀ *ᵥ e := by
      rw [hv, mulVec_add, hKU]
    rw [this]; abel
  have hT1 : norm2 (-((U * diagonal s * V - T)ᵀ *ᵥ (Uc *ᵥ q))) ≤ 3 * ε * γ * ((1 + ε) * norm2 q) := by
    have e1 : norm2 (-((U * diagonal s * V - T)ᵀ *ᵥ (Uc *ᵥ q))) = norm2 ((U * diagonal s * V - T)ᵀ *ᵥ (Uc *ᵥ q)) := by
      unfold norm2; rw [sqNorm_neg]
    rw [e1]
    refine (norm2_mulVec_fro _ _).trans ?_
    rw [fro_tr]
    exact mul_le_mul hK hvn (norm2_nonneg _) (by positivity)
  have hT3 : norm2 (Vᵀ *ᵥ ((Vc - V) *ᵥ c)) ≤ ε * norm2 c := by
    have : norm2 (Vᵀ *ᵥ ((Vc - V) *ᵥ c)) = norm2 ((Vc - V) *ᵥ c) := by unfold norm2; rw [sqNorm_orth_mulVec hVt]
    rw [this]; exact hw
  have hqc : γ * norm2 q ≤ 2 * (γ / μ) * ((1 + ε) * norm2 c) := by
    have h1 := mul_le_mul_of_nonneg_left (hqn.trans (mul_le_mul_of_nonneg_left hzn (by positivity : 0 ≤ 2 / μ))) hγ0.le
    refine h1.trans_eq ?_
    ring
  have hr1 : 1 ≤ γ / μ := (one_le_div hμ).2 hγ
  have hcr : norm2 c ≤ γ / μ * norm2 c := by nlinarith
  have hx0 : 0 ≤ γ / μ * norm2 c := mul_nonneg (by linarith) hc0
  have hqc' : γ * norm2 q ≤ 2 * (1 + 1 / 96) * (γ / μ * norm2 c) := by nlinarith
  have hγq : 0 ≤ γ * norm2 q := mul_nonneg hγ0.le hq0
  rw [hmain]
  refine (norm2_add_le' _ _).trans ?_
  have h5 := norm2_add_le' ((U * diagonal s * V)ᵀ *ᵥ e) (Vᵀ *ᵥ ((Vc - V) *ᵥ c))
  have h6 : 2 * γ * norm2 e ≤ 2 * ε * (γ * norm2 q) := by
    have := mul_le_mul_of_nonneg_left hen (by positivity : 0 ≤ 2 * γ)
    linarith
  have h7 : 3 * ε * γ * ((1 + ε) * norm2 q) ≤ 3 * (1 + 1 / 96) * ε * (γ * norm2 q) := by
    have h8 : 3 * ε * γ * ((1 + ε) * norm2 q) = 3 * (1 + ε) * (ε * (γ * norm2 q)) := by ring
    have h9 : 3 * (1 + 1 / 96) * ε * (γ * norm2 q) = 3 * (1 + 1 / 96) * (ε * (γ * norm2 q)) := by ring
    rw [h8, h9]
    exact mul_le_mul_of_nonneg_right (by linarith) (mul_nonneg hε hγq)
  have h8 : 12 * ε * (γ / μ) * norm2 c = 12 * (ε * (γ / μ * norm2 c)) := by ring
  have h9 := mul_le_mul_of_nonneg_left hqc' hε
  have h10 := mul_le_mul_of_nonneg_left hcr hε
  have h11 : 0 ≤ ε * (γ / μ * norm2 c) := mul_nonneg hε hx0
  rw [h8]
  nlinarith

theorem rhs_near' {q r : ℕ} (hq : q = n) (hr : r = q) {T : Matrix (Fin p) (Fin n) ℝ} {U Uc : Matrix (Fin p) (Fin q) ℝ} {s : Fin q → ℝ}
    {V Vc : Matrix (Fin q) (Fin n) ℝ} (hU : OrthoCols U) (hV : OrthoRows V) {μ γ ε : ℝ} (hε : 0 ≤ ε) (hε1 : 96 * ε ≤ 1)
    (hμ : 0 < μ) (hγ : μ ≤ γ) (hK : fro (U * diagonal s * V - T) ≤ 3 * ε * γ) (hUc : fro (Uc - U) ≤ ε) (hVc : fro (Vc - V) ≤ ε)
    (hlo : ∀ i, μ / 2 ≤ s i) (hhi : ∀ i, s i ≤ 2 * γ) (c : Fin n → ℝ) :
    norm2 (Tᵀ *ᵥ (takeCols r Uc *ᵥ fun j => 1 / takev r s j * (takeRows r Vc *ᵥ c) j) - c) ≤ 12 * ε * (γ / μ) * norm2 c := by
  subst hr; subst hq
  have e : takeCols r Uc *ᵥ (fun j => 1 / takev r s j * (takeRows r Vc *ᵥ c) j) = Uc *ᵥ fun j => 1 / s j * (Vc *ᵥ c) j := by
    ext i
    simp only [mulVec, dotProduct]
    exact Fintype.sum_equiv (finCongr (min_self r)) _ _ fun j => rfl
  rw [e]
  exact rhs_near hU hV hε hε1 hμ hγ hK hUc hVc hlo hhi c

/-- the preconditioner and the vector that transforms the right-hand side, from a computed sketch -/
theorem svdPrecFl_rhs {fl : FlLS} {N : ℕ} {ε : ℝ} (hfl : fl.Accurate N ε) (hε : 0 ≤ ε) {T That : Matrix (Fin p) (Fin n) ℝ}
    (hn : 0 < n) (hp : n ≤ p) (hN : p ≤ N) {μ γ : ℝ} (hμ : 0 < μ) (hT : ∀ v, μ * norm2 v ≤ norm2 (T *ᵥ v))
    (hfT : fro T ≤ γ) (hclose : fro (That - T) ≤ ε * γ)
    (hθ : 96 * ε * √n * (γ / μ) < 1) (hcut : 16 * n * eps * γ ≤ μ) {o : PrecOut p n} (ho : svdRightPrecondFl fl That = .ok o)
    (c : Fin n → ℝ) :
    norm2 (Tᵀ *ᵥ (o.U *ᵥ fun j => 1 / o.sigma j * (o.Vh *ᵥ c) j) - c) ≤ 12 * ε * (γ / μ) * norm2 c := by
  have hμγ := le_size hn hT hfT
  have hγμ : 1 ≤ γ / μ := (one_le_div hμ).2 hμγ
  have hsn : 1 ≤ √(n : ℝ) := Real.one_le_sqrt.2 (by exact_mod_cast hn)
  have hεg : 96 * ε * (γ / μ) ≤ 1 := by
    have := mul_le_mul_of_nonneg_left hsn (by positivity : 0 ≤ 96 * ε * (γ / μ))
    linarith
  have hε1 : 96 * ε ≤ 1 := by
    have := mul_le_mul_of_nonneg_left hγμ (by positivity : 0 ≤ 96 * ε)
    linarith
  have hη : 3 * ε * γ ≤ μ / 2 := by
    have : 96 * ε * γ ≤ μ := by rwa [← mul_div_assoc, div_le_one hμ] at hεg
    linarith
  have hq : min p n = n := by omega
  have h0 : 0 < min p n := by omega
  obtain ⟨U, V, hU, hV, hUc, hVc, hUV⟩ := hfl.alg.svd That (by omega) (by omega)
  have hK := near_of_close hε (by linarith) hfT hclose hUV
  have hs := hfl.alg.svd_nonneg That
  have hsig := sigma_near' hq hU hV hs hT hfT hK
  have hlo : ∀ i, μ / 2 ≤ (fl.svd That).2.1 i := fun i => by have := (hsig i).1; linarith
  have hhi : ∀ i, (fl.svd That).2.1 i ≤ 2 * γ := fun i => by have := (hsig i).2; linarith
  have hc := cutoff_lt hfl hε hε1 n (hs ⟨0, h0⟩) (hhi ⟨0, h0⟩) hμ hcut
  have hr := rank_full (s := (fl.svd That).2.1) (c := fl.smul (fl.smul ((fl.svd That).2.1 ⟨0, h0⟩) n) eps) fun i =>
    hc.trans_le (hlo i)
  unfold svdRightPrecondFl at ho
  rw [dif_pos h0] at ho
  cases ho
  exact rhs_near' hq hr hU hV hε hε1 hμ hμγ hK hUc hVc hlo hhi c

/-- the value of `A_aug' b_aug` for computed factors -/
theorem sps2_rhsFl {δ : ℝ} (S : Matrix (Fin d) (Fin m) ℝ) (A : Matrix (Fin m) (Fin n) ℝ)
    (o : PrecOut (d + liftRows n (Real.sqrt δ)) n) (b : Fin m → ℝ) (c : Option (Fin n → ℝ)) (t : ℝ)
    (h : ∀ c, norm2 ((aLift (S * A) (Real.sqrt δ))ᵀ *ᵥ (o.U *ᵥ fun j => 1 / o.sigma j * (o.Vh *ᵥ c) j) - c) ≤ t * norm2 c) :
    ∃ ch, (aLift A (Real.sqrt δ))ᵀ *ᵥ sps2Rhs S o b c = Aᵀ *ᵥ b - ch ∧ norm2 (ch - cVec c) ≤ t * norm2 (cVec c) := by
  have h0 : (aLift A (Real.sqrt δ))ᵀ *ᵥ catv b 0 = Aᵀ *ᵥ b := by
    rw [aLift_T_mulVec, topv_catv, botv_catv, padv_zero, smul_zero, add_zero]
  have z0 : norm2 (0 : Fin n → ℝ) = 0 := by rw [norm2, sqNorm_zero', Real.sqrt_zero]
  cases c with
  | none =>
    refine ⟨0, ?_, ?_⟩
    · show (aLift A (Real.sqrt δ))ᵀ *ᵥ catv b 0 = _
      rw [h0, sub_zero]
    · show norm2 (0 - (0 : Fin n → ℝ)) ≤ t * norm2 (0 : Fin n → ℝ)
      rw [sub_zero, z0, mul_zero]
  | some c =>
    by_cases hc : norm2 c > 0
    · refine ⟨_, ?_, h c⟩
      unfold sps2Rhs
      simp only [if_pos hc]
      rw [aLift_T_mulVec, aLift_T_mulVec, topv_catv, botv_catv, padv_sub, padv_zero, mulVec_sub, transpose_mul, ← mulVec_mulVec]
      module
    · have hc0 : c = 0 := by
        by_contra hne
        exact hc (norm2_pos.2 hne)
      refine ⟨0, ?_, ?_⟩
      · unfold sps2Rhs
        simp only [if_neg hc]
        rw [h0, sub_zero]
      · show norm2 (0 - c) ≤ t * norm2 c
        rw [hc0, sub_zero, z0, mul_zero]

/-! ### The iterative stage -/

/-- what the solver makes of the transformed problem with a preconditioner that is nearly an isometry -/
theorem sps2_solver_iso {A : Matrix (Fin m) (Fin n) ℝ} {b : Fin m → ℝ} {c : Fin n → ℝ} {δ ε tol : ℝ} (hδ : 0 ≤ δ)
    (ht : 0 ≤ tol) (hε : 0 ≤ ε) (hε1 : ε < 1) {r : ℕ} {M : Matrix (Fin n) (Fin r) ℝ} (hr : r = n)
    (hiso : NearIso (aLift A (Real.sqrt δ) * M) ε)
    {ba : Fin (m + liftRows n (Real.sqrt δ)) → ℝ} (hba : (aLift A (Real.sqrt δ))ᵀ *ᵥ ba = Aᵀ *ᵥ b - c)
    {xs : Fin n → ℝ} {ys : Fin m → ℝ} (hxs : SolvesSaddle A b c δ xs ys) {solver : SaddleSolver}
    (hsol : solver = PcSS1 ∨ solver = PcSS2) {L : ℤ} {z0 : Option (Fin r → ℝ)}
    {res : SaddleOut (m + liftRows n (Real.sqrt δ)) n}
    (h : solver _ n (aLift A (Real.sqrt δ)) (.vec ba) none 0 tol L (.gen r M) z0 = .ok res)
    (E : (Fin n → ℝ) → ℝ) (hE : E = fun x => sqNorm (A *ᵥ (x - xs)) + δ * sqNorm (x - xs)) :
    ∃ x, res.x = some x ∧ ((∃ e, res.errs = .scalar e ∧ E x = 0) ∨
      ∃ l, res.errs = .arr l ∧ E x ≤ (2 * ε ^ l.length) ^ 2 * E (M *ᵥ z0.getD 0)) := by
  have hEx : ∀ x, sqNorm (aLift A (Real.sqrt δ) *ᵥ (x - xs)) = E x := fun x => by
    rw [sqNorm_aLift, Real.sq_sqrt hδ, hE]
  have hEn : ∀ x, 0 ≤ E x := fun x => by rw [← hEx]; exact sqNorm_nonneg _
  have hform : ∀ z, 1 / (1 + ε) * sqNorm z ≤
      sqNorm (aLift A (Real.sqrt δ) *ᵥ (M *ᵥ z)) + 0 * sqNorm (M *ᵥ z) ∧
      sqNorm (aLift A (Real.sqrt δ) *ᵥ (M *ᵥ z)) + 0 * sqNorm (M *ᵥ z) ≤ 1 / (1 - ε) * sqNorm z := fun z => by
    have := hiso.form hε hε1 z
    rw [← mulVec_mulVec] at this
    rw [zero_mul, add_zero]
    exact this
  have hinj : ∀ z, M *ᵥ z = 0 → z = 0 := fun z hz => by
    have := (hiso z).2
    rw [← mulVec_mulVec, hz, mulVec_zero, sqNorm_zero', mul_zero] at this
    exact sqNorm_eq_zero.1 (le_antisymm this (sqNorm_nonneg z))
  have hM : FullColRank M := fullColRank_iff_inj.2 hinj
  have htop : colSpace M = ⊤ := colSpace_cast hr hinj
  obtain ⟨r0, r1⟩ := rho_le hε hε1
  have hrate : ∀ k : ℕ, (2 * ((√(1 / (1 - ε)) - √(1 / (1 + ε))) / (√(1 / (1 - ε)) + √(1 / (1 + ε)))) ^ k) ^ 2 *
      E (M *ᵥ z0.getD 0) ≤ (2 * ε ^ k) ^ 2 * E (M *ᵥ z0.getD 0) := fun k =>
    mul_le_mul_of_nonneg_right (pow_le_pow_left₀ (by positivity)
      (mul_le_mul_of_nonneg_left (pow_le_pow_left₀ r0 r1 k) zero_le_two) 2) (hEn _)
  have hnorm : (aLift A (Real.sqrt δ))ᵀ *ᵥ (ba - aLift A (Real.sqrt δ) *ᵥ xs) = 0 := by
    have hy : ys = b - A *ᵥ xs := by rw [← hxs.1]; abel
    exact (saddle_of_aug hδ hba).2 (hy ▸ hxs)
  have p1 : (0 : ℝ) < 1 / (1 + ε) := one_div_pos.2 (by linarith)
  have p2 : 1 / (1 + ε) ≤ 1 / (1 - ε) := one_div_le_one_div_of_le (by linarith) (by linarith)
  rcases hsol with rfl | rfl
  · obtain ⟨x, log, g1, g2, g3⟩ := pcss1_rate_sq hr le_rfl ht hM (show pcss1 _ _ _ _ _ _ _ _ = _ from h) p1 p2 hform
      (xs := xs) (by
        show _ = (aLift A (Real.sqrt δ))ᵀ *ᵥ ba - 0
        rw [mulVec_sub, sub_eq_zero] at hnorm
        rw [hnorm, zero_smul, add_zero, sub_zero])
    rw [zero_mul, zero_mul, add_zero, add_zero, hEx, pcss1Start_eq hr, hEx] at g3
    exact ⟨x, g1, Or.inr ⟨log, g2, g3.trans (hrate _)⟩⟩
  · have hmin : IsRidgeMin (aLift A (Real.sqrt δ)) ba 0 xs := ridge_of_normal le_rfl (by
      rw [zero_smul, sub_zero]; exact hnorm)
    obtain ⟨x, g1, g2⟩ := C67_pcss2_rate (aLift A (Real.sqrt δ)) ba none 0 le_rfl tol L (.gen r M) trivial htop z0 rfl res h
      _ _ p1 p2 hform xs hmin
    have hobj : ∀ x, sqNorm (aLift A (Real.sqrt δ) *ᵥ x - ba) + 0 * sqNorm x =
        sqNorm (ba - aLift A (Real.sqrt δ) *ᵥ xs) + E x := fun x => by
      rw [zero_mul, add_zero, ← neg_sub, sqNorm_neg, aug_energy hδ hba hxs x, hE]
    have h4 : E xs = 0 := by rw [← hEx, sub_self, mulVec_zero, sqNorm_eq_zero.2 rfl]
    refine ⟨x, g1, g2.imp ?_ ?_⟩
    · rintro ⟨e, h1, h2⟩
      refine ⟨e, h1, le_antisymm ?_ (hEn _)⟩
      have h3 := h2 xs
      rw [hobj, hobj] at h3
      linarith
    · rintro ⟨l, h1, h2⟩
      refine ⟨l, h1, le_trans ?_ (hrate _)⟩
      have e : (Precond.gen r M).mat = M := rfl
      rw [hobj, hobj, hobj, e] at h2
      rw [h4] at h2
      simpa using h2

/-- how far the solution of the block system moves with `c` -/
theorem saddle_perturb {A : Matrix (Fin m) (Fin n) ℝ} {b : Fin m → ℝ} {c ch : Fin n → ℝ} {δ lo : ℝ} (hδ : 0 ≤ δ) (hlo0 : 0 < lo)
    (hlo : ∀ v, lo ^ 2 * sqNorm v ≤ sqNorm (A *ᵥ v) + δ * sqNorm v) {xs xh : Fin n → ℝ} {ys yh : Fin m → ℝ}
    (h : SolvesSaddle A b c δ xs ys) (h' : SolvesSaddle A b ch δ xh yh) :
    norm2 (aLift A (√δ) *ᵥ (xh - xs)) ≤ norm2 (ch - c) / lo := by
  obtain ⟨u, hu⟩ : ∃ u, u = xh - xs := ⟨_, rfl⟩
  have hy : yh - ys = -(A *ᵥ u) := by
    rw [hu, mulVec_sub, eq_sub_of_add_eq h'.1, eq_sub_of_add_eq h.1]; abel
  have hc : ch - c = -(Aᵀ *ᵥ (A *ᵥ u)) - δ • u := by
    rw [← h'.2, ← h.2]
    have : Aᵀ *ᵥ yh - δ • xh - (Aᵀ *ᵥ ys - δ • xs) = Aᵀ *ᵥ (yh - ys) - δ • (xh - xs) := by
      rw [mulVec_sub, smul_sub]; abel
    rw [this, hy, mulVec_neg, ← hu]
  have hsq : sqNorm (aLift A (√δ) *ᵥ u) = sqNorm (A *ᵥ u) + δ * sqNorm u := by rw [sqNorm_aLift, Real.sq_sqrt hδ]
  have hen : sqNorm (A *ᵥ u) + δ * sqNorm u = u ⬝ᵥ (c - ch) := by
    have : c - ch = Aᵀ *ᵥ (A *ᵥ u) + δ • u := by rw [← neg_sub, hc]; abel
    rw [this, dotProduct_add, dotProduct_smul, sqNorm_eq_dot, sqNorm_eq_dot, dot_mulVec (A *ᵥ u) A u, smul_eq_mul, dotProduct_comm]
  have hu2 : lo * norm2 u ≤ norm2 (aLift A (√δ) *ᵥ u) := by
    refine Real.le_sqrt_of_sq_le ?_
    rw [mul_pow, norm2_sq, hsq]; exact hlo u
  have hcs : u ⬝ᵥ (c - ch) ≤ norm2 u * norm2 (ch - c) := by
    have h1 := dot_sq_le u (c - ch)
    have h2 : norm2 (ch - c) = norm2 (c - ch) := by rw [← neg_sub]; unfold norm2; rw [sqNorm_neg]
    rw [h2]
    refine le_trans (Real.le_sqrt_of_sq_le h1) ?_
    unfold norm2
    rw [Real.sqrt_mul (sqNorm_nonneg _)]
  rw [← hu, le_div_iff₀ hlo0]
  have h3 : norm2 (aLift A (√δ) *ᵥ u) ^ 2 ≤ norm2 u * norm2 (ch - c) := by rw [norm2_sq, hsq, hen]; exact hcs
  have f0 := norm2_nonneg (aLift A (√δ) *ᵥ u)
  have c0 := norm2_nonneg (ch - c)
  rcases f0.eq_or_lt with h4 | h4
  · rw [← h4, zero_mul]; exact c0
  · have h5 : norm2 (aLift A (√δ) *ᵥ u) ^ 2 * lo ≤ norm2 (aLift A (√δ) *ᵥ u) * norm2 (ch - c) := by
      have h6 := mul_le_mul_of_nonneg_right h3 hlo0.le
      have h7 := mul_le_mul_of_nonneg_right hu2 c0
      linarith
    have h8 : norm2 (aLift A (√δ) *ᵥ u) * (norm2 (aLift A (√δ) *ᵥ u) * lo) ≤ norm2 (aLift A (√δ) *ᵥ u) * norm2 (ch - c) := by
      linarith [h5, show norm2 (aLift A (√δ) *ᵥ u) * (norm2 (aLift A (√δ) *ᵥ u) * lo) = norm2 (aLift A (√δ) *ᵥ u) ^ 2 * lo by ring]
    exact le_of_mul_le_mul_left h8 h4

/-! ### The call -/

theorem sps2Fl_open {fl : FlLS} {gen : SkOpGen G} {sf : ℝ} {solver : SaddleSolver}
    {A : Matrix (Fin m) (Fin n) ℝ} {b : Option (Fin m → ℝ)} {c : Option (Fin n → ℝ)} {δ tol : ℝ} {L : ℤ}
    {logging : Bool} {clock : LogTimes} {w w' : World G} {out : SPSOut m n}
    (h : sps2CallFl fl gen sf solver A b c δ tol L logging clock w = .ok (out, w')) :
    ∃ (d : ℕ) (S : Matrix (Fin d) (Fin m) ℝ) (w₁ : World G)
      (o : PrecOut (d + liftRows n (Real.sqrt δ)) n) (res : SaddleOut _ n),
      n ≤ d ∧ d ≤ m ∧ (dimChecks sf m n : Py G ℕ) w = .ok (d, w₁) ∧ gen d m w₁ = .ok (S, w') ∧
      svdRightPrecondFl fl (liftFl fl (fl.mul S A) δ) = .ok o ∧
      solver _ n (aLift A (Real.sqrt δ)) (.vec (sps2Rhs S o (b.getD 0) c)) none 0 tol L
        (.gen o.r o.M) (sps2Start S o (aLift A (Real.sqrt δ)) (sps2Rhs S o (b.getD 0) c)) = .ok res ∧
      out.x = res.x ∧ out.y = res.x.map (fun x => b.getD 0 - A *ᵥ x) ∧
      finishLog logging clock res.errs (norm2 (o.Mᵀ *ᵥ ((aLift A (Real.sqrt δ))ᵀ *ᵥ
        sps2Rhs S o (b.getD 0) c))) = .ok out.log := by
  unfold sps2CallFl at h
  rw [Py.bind_ok_iff] at h
  obtain ⟨d, w₁, h1, h⟩ := h
  rw [Py.bind_ok_iff] at h
  obtain ⟨S, w₂, h2, h⟩ := h
  rw [Py.lift_ok_iff] at h
  obtain ⟨h, rfl⟩ := h
  obtain ⟨-, -, h3, h4, -⟩ := dimChecks_ok h1
  unfold sps2PostFl at h
  cases ho : svdRightPrecondFl fl (liftFl fl (fl.mul S A) δ) with
  | error e => simp only [ho, bind, Except.bind] at h; cases h
  | ok o =>
    simp only [ho, bind, Except.bind] at h
    cases hr : solver _ n (aLift A (Real.sqrt δ)) (.vec (sps2Rhs S o (b.getD 0) c)) none 0 tol L
        (.gen o.r o.M) (sps2Start S o (aLift A (Real.sqrt δ)) (sps2Rhs S o (b.getD 0) c)) with
    | error e => rw [hr] at h; cases h
    | ok res =>
      rw [hr] at h
      simp only at h
      cases hl : finishLog logging clock res.errs (norm2 (o.Mᵀ *ᵥ ((aLift A (Real.sqrt δ))ᵀ *ᵥ
        sps2Rhs S o (b.getD 0) c))) with
      | error e => rw [hl] at h; cases h
      | ok lg =>
        rw [hl] at h
        cases h
        exact ⟨d, S, w₁, o, res, h3, h4, h1, h2, ho, hr, rfl, rfl, hl⟩

/-- **C106** (`SPS2`).  Let the operations of the sketching and factorisation stages be accurate to `ε`, let `lo > 0` be a lower bound
of the singular values of `A` with `√δ I` below, and let the sketch drawn embed the range of `A` up to `1 ± η` with a loss of at most
`θ` (of order `ε √n κ` for the condition number `κ = (‖S‖‖A‖ + √δ√n)/(√(1-η) lo)`), `η' = η + θ + ηθ < 1`.  Then a logging call of
`SPS2` (with `PcSS1` or `PcSS2`) whose log shows `k` iterations returns `x` and `y = b - A x` with
`√(‖y - y*‖² + δ‖x - x*‖²) ≤ 2 η'^k (√(‖A x*‖² + δ‖x*‖²) + D) + D`, `D = θ ‖c‖ / (8 lo)`, where `(x*, y*)` solves the block system.
Rounding while sketching and factoring slows convergence down from `η` to `η'`, and moves the limit by at most `D`, not at all if
`c` is absent: the computed factors are also used to transform the right-hand side, and this the iterations cannot repair. -/
theorem C106_sps2 (fl : FlLS) (N : ℕ) (ε : ℝ) (hε : 0 ≤ ε) (hfl : fl.Accurate N ε) (gen : SkOpGen G) (sf : ℝ) (solver : SaddleSolver)
    (hsol : solver = PcSS1 ∨ solver = PcSS2) (A : Matrix (Fin m) (Fin n) ℝ) (b : Option (Fin m → ℝ)) (c : Option (Fin n → ℝ)) (δ tol : ℝ)
    (hδ : 0 ≤ δ) (ht : 0 ≤ tol) (L : ℤ) (clock : LogTimes) (w w' : World G) (out : SPSOut m n)
    (h : sps2CallFl fl gen sf solver A b c δ tol L true clock w = .ok (out, w')) (hn : 0 < n) (hN : m + n ≤ N)
    (η : ℝ) (hη : 0 ≤ η) (hη1 : η < 1) (lo : ℝ) (hlo0 : 0 < lo) (hlo : ∀ v, lo ^ 2 * sqNorm v ≤ sqNorm (A *ᵥ v) + δ * sqNorm v) (θ : ℝ)
    (hS : ∀ d w₁ S, (dimChecks sf m n : Py G ℕ) w = .ok (d, w₁) → gen d m w₁ = .ok (S, w') →
      Embeds S A η ∧ setupLoss .svd ε (sketchSize S A δ) (√(1 - η) * lo) n ≤ θ ∧ 16 * n * eps * sketchSize S A δ ≤ √(1 - η) * lo)
    (η' : ℝ) (hη' : η' = η + θ + η * θ) (hη'1 : η' < 1)
    (lg : SPLog) (hlg : out.log = some lg) (k : ℕ) (hk : lg.errors.length = k + 1)
    (xs : Fin n → ℝ) (ys : Fin m → ℝ) (hxs : SolvesSaddle A (b.getD 0) (cVec c) δ xs ys) :
    ∃ x y, out.x = some x ∧ out.y = some y ∧ y = b.getD 0 - A *ᵥ x ∧
      √(sqNorm (y - ys) + δ * sqNorm (x - xs)) ≤
        2 * η' ^ k * (√(sqNorm (A *ᵥ xs) + δ * sqNorm xs) + θ * norm2 (cVec c) / (8 * lo)) + θ * norm2 (cVec c) / (8 * lo) := by
  obtain ⟨d, S, w₁, o, res, hd, hdm, hdc, hg, ho, hr, e1, e2, e3⟩ := sps2Fl_open h
  obtain ⟨hSe, hSl, hcut⟩ := hS d w₁ S hdc hg
  have hrows : liftRows n (√δ) ≤ n := by unfold liftRows; split_ifs <;> omega
  have hμ : 0 < √(1 - η) * lo := mul_pos (Real.sqrt_pos.2 (by linarith)) hlo0
  have hθ0 : 0 ≤ θ := (setupLoss_nonneg .svd hε (sketchSize_nonneg S A δ) hμ.le n).trans hSl
  have hθ1 : θ < 1 := by have := mul_nonneg hη hθ0; linarith
  have hη'0 : 0 ≤ η' := by rw [hη']; have := mul_nonneg hη hθ0; linarith
  have hSl' : 96 * ε * √n * (sketchSize S A δ / (√(1 - η) * lo)) ≤ θ := hSl
  obtain ⟨o', ho', hrn, hco⟩ := svdPrecFl_spec hfl hε hn (by omega) (by omega) hμ (lift_low hδ hη hη1 hSe hlo) (fro_lift_le S A δ)
    (lift_close hfl S A hδ (by omega) (by omega) (by omega)) (hSl'.trans_lt hθ1) hcut
  rw [ho] at ho'
  obtain rfl := Except.ok.inj ho'
  have hiso := conds_iso hδ hη hη1 hθ0 hθ1 hSe (conds_mono hco hSl')
  rw [← hη'] at hiso
  -- the right-hand side
  obtain ⟨ch, hba, hch⟩ := sps2_rhsFl S A o (b.getD 0) c _ fun c =>
    svdPrecFl_rhs hfl hε hn (by omega) (by omega) hμ (lift_low hδ hη hη1 hSe hlo) (fro_lift_le S A δ)
      (lift_close hfl S A hδ (by omega) (by omega) (by omega)) (hSl'.trans_lt hθ1) hcut ho c
  have hc0 := norm2_nonneg (cVec c)
  have hch' : norm2 (ch - cVec c) / lo ≤ θ * norm2 (cVec c) / (8 * lo) := by
    rw [← div_div]
    refine div_le_div_of_nonneg_right (hch.trans ?_) hlo0.le
    rw [le_div_iff₀ (by norm_num)]
    have hsn : 1 ≤ √(n : ℝ) := Real.one_le_sqrt.2 (by exact_mod_cast hn)
    have h1 : 0 ≤ ε * (sketchSize S A δ / (√(1 - η) * lo)) := mul_nonneg hε (div_nonneg (sketchSize_nonneg _ _ _) hμ.le)
    have h2 := mul_le_mul_of_nonneg_left hsn h1
    have h3 : 12 * ε * (sketchSize S A δ / (√(1 - η) * lo)) * 8 ≤ θ := by linarith
    have h4 := mul_le_mul_of_nonneg_right h3 hc0
    linarith
  obtain ⟨xh, hxh⟩ : ∃ xh, xh = LinAlg.ref.lstsqv (aLift A (√δ)) (sps2Rhs S o (b.getD 0) c) := ⟨_, rfl⟩
  have hsolh : SolvesSaddle A (b.getD 0) ch δ xh (b.getD 0 - A *ᵥ xh) := by
    refine (saddle_of_aug hδ hba).1 ?_
    rw [mulVec_sub, hxh, lstsqv_normal, sub_self]
  obtain ⟨x, g1, g2⟩ := sps2_solver_iso hδ ht hη'0 hη'1 hrn hiso hba hsolh hsol hr _ rfl
  have hst := sps2_start_energy (S := S) (o := o) hδ hba hsolh
  refine ⟨x, _, e1.trans g1, by rw [e2, g1]; rfl, rfl, ?_⟩
  obtain ⟨F, hF⟩ : ∃ F, F = aLift A (√δ) := ⟨_, rfl⟩
  have hen : ∀ v, √(sqNorm (A *ᵥ v) + δ * sqNorm v) = norm2 (F *ᵥ v) := fun v => by
    unfold norm2; rw [hF, sqNorm_aLift, Real.sq_sqrt hδ]
  have hpert : norm2 (F *ᵥ (xh - xs)) ≤ θ * norm2 (cVec c) / (8 * lo) := by
    rw [hF]; exact (saddle_perturb hδ hlo0 hlo hxs hsolh).trans hch'
  have hsize : norm2 (F *ᵥ xh) ≤ norm2 (F *ᵥ xs) + θ * norm2 (cVec c) / (8 * lo) := by
    have e : F *ᵥ xh = F *ᵥ xs + F *ᵥ (xh - xs) := by rw [← mulVec_add]; congr 1; abel
    rw [e]
    exact (norm2_add_le' _ _).trans (by linarith)
  rw [saddle_err hxs, hen, hen]
  have hconv : norm2 (F *ᵥ (x - xh)) ≤ 2 * η' ^ k * norm2 (F *ᵥ xh) := by
    rw [← hen, ← hen]
    refine Real.sqrt_le_iff.2 ⟨mul_nonneg (by positivity) (Real.sqrt_nonneg _), ?_⟩
    rw [mul_pow, Real.sq_sqrt (add_nonneg (sqNorm_nonneg _) (mul_nonneg hδ (sqNorm_nonneg _)))]
    rcases g2 with ⟨e, g2, g3⟩ | ⟨l, g2, g3⟩
    · rw [g2] at e3; cases e3
    · rw [g2] at e3
      have e4 := (Except.ok.inj e3).symm
      rw [hlg] at e4
      obtain rfl := Option.some.inj e4
      have hlen : l.length = k := by
        have : (_ :: l).length = k + 1 := hk
        simpa using this
      rw [hlen] at g3
      exact g3.trans (mul_le_mul_of_nonneg_left hst (sq_nonneg _))
  have e : F *ᵥ (x - xs) = F *ᵥ (x - xh) + F *ᵥ (xh - xs) := by rw [← mulVec_add]; congr 1; abel
  rw [e]
  refine (norm2_add_le' _ _).trans ?_
  have := mul_le_mul_of_nonneg_left hsize (by positivity : 0 ≤ 2 * η' ^ k)
  linarith

/-- **C106** (`SPS2` returns).  Under the same conditions, when the sketch can be drawn and `iter_lim ≥ 0`, the call returns if it does
not log; with `PcSS1` it returns a log if it does. -/
theorem C106_sps2_total (fl : FlLS) (N : ℕ) (ε : ℝ) (hε : 0 ≤ ε) (hfl : fl.Accurate N ε) (gen : SkOpGen G) (sf : ℝ) (solver : SaddleSolver)
    (hsol : solver = PcSS1 ∨ solver = PcSS2) (A : Matrix (Fin m) (Fin n) ℝ) (b : Option (Fin m → ℝ)) (c : Option (Fin n → ℝ)) (δ tol : ℝ)
    (hδ : 0 ≤ δ) (ht : 0 ≤ tol) (L : ℤ) (hL : 0 ≤ L) (clock : LogTimes) (w : World G) (hn : 0 < n) (hN : m + n ≤ N)
    (hmn : n ≤ m) (hsf : (n : ℤ) ≤ pyInt (sf * n))
    (η : ℝ) (hη : 0 ≤ η) (hη1 : η < 1) (lo : ℝ) (hlo0 : 0 < lo) (hlo : ∀ v, lo ^ 2 * sqNorm v ≤ sqNorm (A *ᵥ v) + δ * sqNorm v) (θ : ℝ)
    (hS : ∀ d w₁, (dimChecks sf m n : Py G ℕ) w = .ok (d, w₁) → ∃ S w', gen d m w₁ = .ok (S, w') ∧
      Embeds S A η ∧ setupLoss .svd ε (sketchSize S A δ) (√(1 - η) * lo) n ≤ θ ∧ 16 * n * eps * sketchSize S A δ ≤ √(1 - η) * lo)
    (hθη : η + θ + η * θ < 1) :
    (∃ out w', sps2CallFl fl gen sf solver A b c δ tol L false clock w = .ok (out, w')) ∧
    ∃ out w' lg k, sps2CallFl fl gen sf PcSS1 A b c δ tol L true clock w = .ok (out, w') ∧ out.log = some lg ∧
      lg.errors.length = k + 1 := by
  obtain ⟨d, hdc, hd', -⟩ := (C35_dim_checks sf m n w).2 hmn hsf
  obtain ⟨S, w', hg, hSe, hSl, hcut⟩ := hS _ _ hdc
  obtain ⟨-, -, hd, hdm, -⟩ := dimChecks_ok hdc
  have hrows : liftRows n (√δ) ≤ n := by unfold liftRows; split_ifs <;> omega
  have hμ : 0 < √(1 - η) * lo := mul_pos (Real.sqrt_pos.2 (by linarith)) hlo0
  have hθ0 : 0 ≤ θ := (setupLoss_nonneg .svd hε (sketchSize_nonneg S A δ) hμ.le n).trans hSl
  have hθ1 : θ < 1 := by have := mul_nonneg hη hθ0; linarith
  have hSl' : 96 * ε * √n * (sketchSize S A δ / (√(1 - η) * lo)) ≤ θ := hSl
  obtain ⟨o, ho, hrn, hco⟩ := svdPrecFl_spec hfl hε hn (by omega) (by omega) hμ (lift_low hδ hη hη1 hSe hlo) (fro_lift_le S A δ)
    (lift_close hfl S A hδ (by omega) (by omega) (by omega)) (hSl'.trans_lt hθ1) hcut
  have hiso := conds_iso hδ hη hη1 hθ0 hθ1 hSe (conds_mono hco hSl')
  have hη'0 : 0 ≤ η + θ + η * θ := by have := mul_nonneg hη hθ0; linarith
  have hinj : ∀ z, o.M *ᵥ z = 0 → z = 0 := fun z hz => by
    have := (hiso z).2
    rw [← mulVec_mulVec, hz, mulVec_zero, sqNorm_zero', mul_zero] at this
    exact sqNorm_eq_zero.1 (le_antisymm this (sqNorm_nonneg z))
  have hM : FullColRank o.M := fullColRank_iff_inj.2 hinj
  obtain ⟨ba, hba⟩ : ∃ ba, ba = sps2Rhs S o (b.getD 0) c := ⟨_, rfl⟩
  obtain ⟨z0, hz0⟩ : ∃ z0, z0 = sps2Start S o (aLift A (√δ)) ba := ⟨_, rfl⟩
  have hxh : (aLift A (√δ))ᵀ *ᵥ (aLift A (√δ) *ᵥ LinAlg.ref.lstsqv (aLift A (√δ)) ba) = (aLift A (√δ))ᵀ *ᵥ ba := by
    have := lstsqv_normal LinAlg.ref (aLift A (√δ)) ba
    exact this
  have hres1 : ∃ res, PcSS1 _ n (aLift A (√δ)) (.vec ba) none 0 tol L (.gen o.r o.M) z0 = .ok res ∧ ∃ l, res.errs = .arr l := by
    obtain ⟨res, x, h1, -, -⟩ := C29_pcss1_converges (aLift A (√δ)) (.vec ba) (fun _ _ => (nomatch ·)) none 0 le_rfl tol ht L hL o.M
      (Or.inl ⟨hrn, hM⟩) z0 ⟨LinAlg.ref.lstsqv (aLift A (√δ)) ba, by
        show _ = (aLift A (√δ))ᵀ *ᵥ ba - 0
        rw [hxh, zero_smul, add_zero, sub_zero]⟩
    have hform : ∀ z, 1 / (1 + (η + θ + η * θ)) * sqNorm z ≤ sqNorm (aLift A (√δ) *ᵥ (o.M *ᵥ z)) + 0 * sqNorm (o.M *ᵥ z) ∧
        sqNorm (aLift A (√δ) *ᵥ (o.M *ᵥ z)) + 0 * sqNorm (o.M *ᵥ z) ≤ 1 / (1 - (η + θ + η * θ)) * sqNorm z := fun z => by
      have := hiso.form hη'0 hθη z
      rw [← mulVec_mulVec] at this
      rw [zero_mul, add_zero]
      exact this
    obtain ⟨-, log, -, g2, -⟩ := pcss1_rate_sq hrn le_rfl ht hM h1 (one_div_pos.2 (by linarith))
      (one_div_le_one_div_of_le (by linarith) (by linarith)) hform
      (xs := LinAlg.ref.lstsqv (aLift A (√δ)) ba) (by
        show _ = (aLift A (√δ))ᵀ *ᵥ ba - 0
        rw [hxh, zero_smul, add_zero, sub_zero])
    exact ⟨res, h1, log, g2⟩
  have hres : ∃ res, solver _ n (aLift A (√δ)) (.vec ba) none 0 tol L (.gen o.r o.M) z0 = .ok res := by
    rcases hsol with rfl | rfl
    · exact ⟨_, hres1.choose_spec.1⟩
    · exact C34_pcss2_total (aLift A (√δ)) (.vec ba) none 0 le_rfl tol L hL (.gen o.r o.M) trivial z0 (.inl ⟨rfl, ba, rfl⟩)
  subst hz0 hba
  constructor
  · obtain ⟨res, h1⟩ := hres
    refine ⟨⟨res.x, res.x.map fun x => b.getD 0 - A *ᵥ x, none⟩, w', ?_⟩
    unfold sps2CallFl
    rw [Py.bind_eq_of_ok hdc, Py.bind_eq_of_ok hg]
    have : sps2PostFl fl solver S A (b.getD 0) c δ tol L false clock = .ok ⟨res.x, res.x.map fun x => b.getD 0 - A *ᵥ x, none⟩ := by
      unfold sps2PostFl
      simp only [ho, bind, Except.bind, h1]
      rfl
    rw [this]; rfl
  · obtain ⟨res, h1, l, hl⟩ := hres1
    obtain ⟨lg, b1, b2, -⟩ := C42_wrap_up clock l (norm2 (o.Mᵀ *ᵥ ((aLift A (√δ))ᵀ *ᵥ sps2Rhs S o (b.getD 0) c)))
    refine ⟨⟨res.x, res.x.map fun x => b.getD 0 - A *ᵥ x, some lg⟩, w', lg, l.length, ?_, rfl, by rw [b2, List.length_cons]⟩
    unfold sps2CallFl
    rw [Py.bind_eq_of_ok hdc, Py.bind_eq_of_ok hg]
    have : sps2PostFl fl PcSS1 S A (b.getD 0) c δ tol L true clock = .ok ⟨res.x, res.x.map fun x => b.getD 0 - A *ᵥ x, some lg⟩ := by
      unfold sps2PostFl
      simp only [ho, bind, Except.bind, h1, hl, finishLog, if_true, b1]
      rfl
    rw [this]; rfl

end Parla.Props
