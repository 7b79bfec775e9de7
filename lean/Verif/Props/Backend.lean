import Verif.Proof.GramPcSS1
import Verif.Props.SPO
import Verif.Props.SSO1
import Verif.Props.LU
import Verif.Props.SPSRates
import Verif.Props.SPS2Rates

/-! # C87: the results do not depend on the linear algebra backend

`la` and `la'` are any two backends that meet the documented contracts of the factorisations (QR,
SVD, Cholesky, least squares): they may choose other signs, other bases of the singular subspaces,
other representatives.  The drivers return the same values, the same logs and the same exceptions. -/

namespace Parla.Props

open Matrix Spec

variable {G : Type} {m n d : ℕ}

/-! ## least squares -/

theorem lstsq_unique (la la' : LinAlg) {k : ℕ} (A : Matrix (Fin m) (Fin n) ℝ) (B : Matrix (Fin m) (Fin k) ℝ) :
    la.lstsq A B = la'.lstsq A B :=
  ls_unique (by rw [la.lstsq_normal, la'.lstsq_normal]) (la.lstsq_row A B) (la'.lstsq_row A B)

theorem lstsqv_unique (la la' : LinAlg) (A : Matrix (Fin m) (Fin n) ℝ) (b : Fin m → ℝ) :
    la.lstsqv A b = la'.lstsqv A b := by
  unfold LinAlg.lstsqv
  rw [lstsq_unique la la']

/-- **C87** (SSO1): the sketch-and-solve driver. -/
theorem C87_sso1 (la la' : LinAlg) (gen : SkOpGen G) (sf : ℝ) (A : Matrix (Fin m) (Fin n) ℝ)
    (b : Fin m → ℝ) (δ : ℝ) (tol : Tol) (L : ℤ) :
    sso1Call la gen sf A b δ tol L = sso1Call la' gen sf A b δ tol L := by
  unfold sso1Call
  simp only [lstsqv_unique la la']

/-! ## SPO -/

/-- the part of SPO after the factorisation -/
theorem spoPost_gram {S : Matrix (Fin d) (Fin m) ℝ} {A : Matrix (Fin m) (Fin n) ℝ} {b : Fin m → ℝ} {δ : ℝ}
    (hδ : 0 ≤ δ) (tol : ℝ) (L : ℤ) (logging : Bool) (clock : LogTimes) {la la' : LinAlg} {mode mode' : SPOMode}
    {f f' : SPOFac n} (hf : spoFactor la mode S A b δ = .ok f) (hf' : spoFactor la' mode' S A b δ = .ok f')
    (hg : SPOGood S A b δ f) (hg' : SPOGood S A b δ f') (hdim : f.P.dim = f'.P.dim)
    (hM : f.P.mat * f.P.matᵀ = f'.P.mat * f'.P.matᵀ) :
    spoPost la mode S A b δ tol L logging clock = spoPost la' mode' S A b δ tol L logging clock := by
  have hx : f.x = f'.x := by
    rw [hg.x, hg'.x, hg.z, hg'.z, mulVec_mulVec _ f.P.mat, mulVec_mulVec _ f'.P.mat, hM]
  have hc : FullColRank f.P.mat := fullColRank_of_left_inv (by
    have := hg.orth
    rwa [← Matrix.mul_assoc] at this)
  have hc' : FullColRank f'.P.mat := fullColRank_of_left_inv (by
    have := hg'.orth
    rwa [← Matrix.mul_assoc] at this)
  have hz : (spoStart A b δ f).map (f.P.mat *ᵥ ·) = (spoStart A b δ f').map (f'.P.mat *ᵥ ·) := by
    unfold spoStart
    simp only [hx, hdim]
    split
    · rfl
    · simp only [Option.map, ← hg.x, ← hg'.x, hx]
  have hr := pcss2_gram A (.vec b) none hδ tol L hg.ok hg'.ok hM hc hc' _ _ hz
  unfold spoPost
  simp only [hf, hf', bind, Except.bind, hr, precAdj_eq hg.ok, precAdj_eq hg'.ok, gram_norm_eq hM]

theorem gram_inv_eq {N X Y : Matrix (Fin n) (Fin n) ℝ} (hX : X * N = 1) (hY : Y * N = 1) : X = Y := by
  have h := mul_eq_one_comm.1 hX
  calc X = Y * N * X := by rw [hY, Matrix.one_mul]
    _ = Y := by rw [Matrix.mul_assoc, h, Matrix.mul_one]

theorem spoPost_backend (la la' : LinAlg) (mode : SPOMode) (S : Matrix (Fin d) (Fin m) ℝ)
    (A : Matrix (Fin m) (Fin n) ℝ) (b : Fin m → ℝ) {δ : ℝ} (hδ : 0 ≤ δ) (hd : n ≤ d) (tol : ℝ) (L : ℤ)
    (logging : Bool) (clock : LogTimes) :
    spoPost la mode S A b δ tol L logging clock = spoPost la' mode S A b δ tol L logging clock := by
  have herr : ∀ e, spoFactor la mode S A b δ = .error e → spoFactor la' mode S A b δ = .error e →
      spoPost la mode S A b δ tol L logging clock = spoPost la' mode S A b δ tol L logging clock := by
    intro e h1 h2
    unfold spoPost
    rw [h1, h2]
  have hfull : (mode = .qr ∨ mode = .chol) → FullColRank (aLift (S * A) (Real.sqrt δ)) →
      spoPost la mode S A b δ tol L logging clock = spoPost la' mode S A b δ tol L logging clock := by
    intro hm hf
    obtain ⟨f, e1, e2, e3, -⟩ := C37_spo_preconditioner la mode S A b δ hδ hd (Or.inr ⟨hm, hf⟩)
    obtain ⟨f', e1', e2', e3', -⟩ := C37_spo_preconditioner la' mode S A b δ hδ hd (Or.inr ⟨hm, hf⟩)
    exact spoPost_gram hδ tol L logging clock e1 e1' (spoFactor_ok la hδ hd e1).1 (spoFactor_ok la' hδ hd e1').1
      (e2.trans e2'.symm) (gram_inv_eq e3 e3')
  cases mode with
  | other => exact herr _ rfl rfl
  | qr =>
    by_cases hf : FullColRank (aLift (S * A) (Real.sqrt δ))
    · exact hfull (Or.inl rfl) hf
    · exact herr _ ((spoQR_spec la S A b hδ hd).2 hf) ((spoQR_spec la' S A b hδ hd).2 hf)
  | chol =>
    by_cases hf : FullColRank (aLift (S * A) (Real.sqrt δ))
    · exact hfull (Or.inr rfl) hf
    · exact herr _ ((spoChol_spec la S A b hδ).2 hf) ((spoChol_spec la' S A b hδ).2 hf)
  | svd =>
    by_cases hn : n = 0
    · exact herr _ ((spoSVD_spec la S A b).2 hn) ((spoSVD_spec la' S A b).2 hn)
    · obtain ⟨o, f, h1, h2, h3, h4⟩ := (spoSVD_spec la S A b (δ := δ)).1 (by omega) hn
      obtain ⟨o', f', h1', h2', h3', h4'⟩ := (spoSVD_spec la' S A b (δ := δ)).1 (by omega) hn
      obtain ⟨e, -⟩ := svdRightPrecond_unique la la' rfl h1 h1'
      refine spoPost_gram hδ tol L logging clock h2 h2' h3 h3' (h4.trans (e.trans h4'.symm)) ?_
      have hMM := svdRightPrecond_MMT la la' rfl h1 h1'
      unfold spoSVD at h2 h2'
      simp only [h1, h1'] at h2 h2'
      cases h2; cases h2'
      exact hMM

/-- **C87** (SPO): the sketch-and-precondition driver, in every mode. -/
theorem C87_spo (la la' : LinAlg) (gen : SkOpGen G) (sf : ℝ) (mode : SPOMode) (A : Matrix (Fin m) (Fin n) ℝ)
    (b : Fin m → ℝ) (δ : ℝ) (hδ : 0 ≤ δ) (tol : ℝ) (L : ℤ) (logging : Bool) (clock : LogTimes) :
    spoCall la gen sf mode A b δ tol L logging clock = spoCall la' gen sf mode A b δ tol L logging clock := by
  funext w
  unfold spoCall
  cases h1 : (dimChecks sf m n : Py G ℕ) w with
  | error e => rw [Py.bind_eq_of_error h1, Py.bind_eq_of_error h1]
  | ok r =>
    obtain ⟨d, w₁⟩ := r
    rw [Py.bind_eq_of_ok h1, Py.bind_eq_of_ok h1]
    obtain ⟨-, -, hd, -⟩ := dimChecks_ok h1
    cases h2 : gen d m w₁ with
    | error e => rw [Py.bind_eq_of_error h2, Py.bind_eq_of_error h2]
    | ok r =>
      obtain ⟨S, w₂⟩ := r
      rw [Py.bind_eq_of_ok h2, Py.bind_eq_of_ok h2]
      rw [spoPost_backend la la' mode S A b hδ hd tol L logging clock]

/-- **C87** (the mode of SPO): for a sketch whose lifted matrix is of full column rank and, when one of
the two modes is `'svd'`, above its rank cutoff, the three modes return the same `x`, the same log, the
same exceptions. -/
theorem C87_spo_mode (la la' : LinAlg) (gen : SkOpGen G) (sf : ℝ) (mode mode' : SPOMode)
    (hm : mode ≠ .other) (hm' : mode' ≠ .other) (A : Matrix (Fin m) (Fin n) ℝ) (hn : n ≠ 0)
    (b : Fin m → ℝ) (δ : ℝ) (hδ : 0 ≤ δ) (tol : ℝ) (L : ℤ) (logging : Bool) (clock : LogTimes) (w : World G)
    (hS : ∀ (d : ℕ) (w₁ w₂ : World G) S, n ≤ d → gen d m w₁ = .ok (S, w₂) → w₁.rng = w.rng →
      FullColRank (aLift (S * A) (Real.sqrt δ)) ∧
      (mode = .svd ∨ mode' = .svd → WellCond (aLift (S * A) (Real.sqrt δ)))) :
    spoCall la gen sf mode A b δ tol L logging clock w = spoCall la' gen sf mode' A b δ tol L logging clock w := by
  unfold spoCall
  cases h1 : (dimChecks sf m n : Py G ℕ) w with
  | error e => rw [Py.bind_eq_of_error h1, Py.bind_eq_of_error h1]
  | ok r =>
    obtain ⟨d, w₁⟩ := r
    rw [Py.bind_eq_of_ok h1, Py.bind_eq_of_ok h1]
    obtain ⟨-, -, hd, -, -, hw⟩ := dimChecks_ok h1
    cases h2 : gen d m w₁ with
    | error e => rw [Py.bind_eq_of_error h2, Py.bind_eq_of_error h2]
    | ok r =>
      obtain ⟨S, w₂⟩ := r
      rw [Py.bind_eq_of_ok h2, Py.bind_eq_of_ok h2]
      obtain ⟨hf, hc⟩ := hS d w₁ w₂ S hd h2 (by rw [hw])
      have key : ∀ mo : SPOMode, mo ≠ .other → (mo = .svd → WellCond (aLift (S * A) (Real.sqrt δ))) →
          mo = .svd ∧ n ≠ 0 ∧ WellCond (aLift (S * A) (Real.sqrt δ)) ∨
            (mo = .qr ∨ mo = .chol) ∧ FullColRank (aLift (S * A) (Real.sqrt δ)) := by
        intro mo h h'
        cases mo with
        | qr => exact Or.inr ⟨Or.inl rfl, hf⟩
        | chol => exact Or.inr ⟨Or.inr rfl, hf⟩
        | svd => exact Or.inl ⟨rfl, hn, h' rfl⟩
        | other => exact absurd rfl h
      obtain ⟨f, e1, e2, e3, -⟩ := C37_spo_preconditioner la mode S A b δ hδ hd (key mode hm fun h => hc (Or.inl h))
      obtain ⟨f', e1', e2', e3', -⟩ := C37_spo_preconditioner la' mode' S A b δ hδ hd (key mode' hm' fun h => hc (Or.inr h))
      rw [spoPost_gram hδ tol L logging clock e1 e1' (spoFactor_ok la hδ hd e1).1 (spoFactor_ok la' hδ hd e1').1
        (e2.trans e2'.symm) (gram_inv_eq e3 e3')]

/-! ## SPU1 -/

theorem svdRightPrecond_error (la la' : LinAlg) (A B : Matrix (Fin m) (Fin n) ℝ) {e : PyErr}
    (h : svdRightPrecond la A = .error e) : svdRightPrecond la' B = .error e := by
  unfold svdRightPrecond at h ⊢
  split at h
  · cases h
  · rename_i h0
    cases h
    rw [dif_neg h0]

/-- **C87** (SPU1): the driver for underdetermined systems. -/
theorem C87_spu1 (la la' : LinAlg) (gen : SkOpGen G) (sf : ℝ) (A : Matrix (Fin m) (Fin n) ℝ)
    (c : Fin n → ℝ) (tol : ℝ) (L : ℤ) (logging : Bool) (clock : LogTimes) :
    spu1Call la gen sf A c tol L logging clock = spu1Call la' gen sf A c tol L logging clock := by
  have key : ∀ {d : ℕ} (S : Matrix (Fin d) (Fin m) ℝ), spuPost la S A c tol L logging clock =
      spuPost la' S A c tol L logging clock := by
    intro d S
    unfold spuPost
    cases ho : svdRightPrecond la (S * A) with
    | error e => rw [svdRightPrecond_error la la' _ (S * A) ho]
    | ok o =>
      cases ho' : svdRightPrecond la' (S * A) with
      | error e => rw [svdRightPrecond_error la' la _ (S * A) ho'] at ho; cases ho
      | ok o' =>
        have h := svdRightPrecond_same la la' rfl ho ho'
        have e := h.solver (Or.inr rfl) A .none (some c) le_rfl tol L (z := none) (z' := none) rfl
        change pcss2 _ _ _ _ _ _ _ _ = pcss2 _ _ _ _ _ _ _ _ at e
        simp only [bind, Except.bind, e, mulVec_mulVec, h.gram]
  unfold spu1Call
  simp only [key]

/-! ## SPS2 -/

theorem sv_coords {r : ℕ} {M : Matrix (Fin n) (Fin r) ℝ} {s : Fin r → ℝ} {W : Matrix (Fin r) (Fin n) ℝ}
    (h : SvdPrec M s W) (c : Fin n → ℝ) (j : Fin r) : 1 / s j * (W *ᵥ c) j = (Mᵀ *ᵥ c) j := by
  simp only [mulVec, dotProduct, transpose_apply, h.eq, Finset.mul_sum]
  exact Finset.sum_congr rfl fun i _ => by ring

/-- **C87** (SPS2): with either saddle solver. -/
theorem C87_sps2 (la la' : LinAlg) (gen : SkOpGen G) (sf : ℝ) (solver : SaddleSolver)
    (hs : solver = PcSS1 ∨ solver = PcSS2) (A : Matrix (Fin m) (Fin n) ℝ)
    (b : Option (Fin m → ℝ)) (c : Option (Fin n → ℝ)) (δ tol : ℝ) (L : ℤ) (logging : Bool) (clock : LogTimes) :
    sps2Call la gen sf solver A b c δ tol L logging clock = sps2Call la' gen sf solver A b c δ tol L logging clock := by
  have key : ∀ {d : ℕ} (S : Matrix (Fin d) (Fin m) ℝ) (b : Fin m → ℝ), sps2Post la solver S A b c δ tol L logging clock =
      sps2Post la' solver S A b c δ tol L logging clock := by
    intro d S b
    unfold sps2Post
    cases ho : svdRightPrecond la (aLift (S * A) (Real.sqrt δ)) with
    | error e => simp only; rw [ho, svdRightPrecond_error la la' _ (aLift (S * A) (Real.sqrt δ)) ho]
    | ok o =>
      cases ho' : svdRightPrecond la' (aLift (S * A) (Real.sqrt δ)) with
      | error e => rw [svdRightPrecond_error la' la _ _ ho'] at ho; cases ho
      | ok o' =>
        have h := svdRightPrecond_same la la' rfl ho ho'
        have hU := (C26_svd_right_precond la _ o ho).1
        have hU' := (C26_svd_right_precond la' _ o' ho').1
        have hb : sps2Rhs S o b c = sps2Rhs S o' b c := by
          have hv : ∀ c : Fin n → ℝ, (o.U *ᵥ fun j => 1 / o.sigma j * (o.Vh *ᵥ c) j) =
              o'.U *ᵥ fun j => 1 / o'.sigma j * (o'.Vh *ᵥ c) j := by
            intro c
            have k1 : (fun j => 1 / o.sigma j * (o.Vh *ᵥ c) j) = o.Mᵀ *ᵥ c := by
              funext j; exact sv_coords h.left c j
            have k2 : (fun j => 1 / o'.sigma j * (o'.Vh *ᵥ c) j) = o'.Mᵀ *ᵥ c := by
              funext j; exact sv_coords h.right c j
            rw [k1, k2, ← hU, ← hU', mulVec_mulVec, mulVec_mulVec, Matrix.mul_assoc, Matrix.mul_assoc, h.gram]
          unfold sps2Rhs
          cases c with
          | none => rfl
          | some c => simp only [hv]
        have hz : (sps2Start S o (aLift A (Real.sqrt δ)) (sps2Rhs S o b c)).map (o.M *ᵥ ·) =
            (sps2Start S o' (aLift A (Real.sqrt δ)) (sps2Rhs S o' b c)).map (o'.M *ᵥ ·) := by
          rw [hb]
          obtain ⟨q, hq⟩ : ∃ q, q = sps2Rhs S o' b c := ⟨_, rfl⟩
          rw [← hq]
          have ht : ∀ {r : ℕ} (M : Matrix (Fin n) (Fin r) ℝ) v, (topRows (aLift (S * A) (Real.sqrt δ) * M))ᵀ *ᵥ v =
              Mᵀ *ᵥ ((topRows (aLift (S * A) (Real.sqrt δ)))ᵀ *ᵥ v) := by
            intro r M v
            rw [show topRows (aLift (S * A) (Real.sqrt δ) * M) = topRows (aLift (S * A) (Real.sqrt δ)) * M from rfl,
              mul_T_mulVec]
          have hbt : ∀ {r : ℕ} (M : Matrix (Fin n) (Fin r) ℝ) v, (botRows (aLift (S * A) (Real.sqrt δ) * M))ᵀ *ᵥ v =
              Mᵀ *ᵥ ((botRows (aLift (S * A) (Real.sqrt δ)))ᵀ *ᵥ v) := by
            intro r M v
            rw [show botRows (aLift (S * A) (Real.sqrt δ) * M) = botRows (aLift (S * A) (Real.sqrt δ)) * M from rfl,
              mul_T_mulVec]
          unfold sps2Start
          simp only [← hU, ← hU', ht, hbt, ← mulVec_add]
          by_cases hd : 0 < δ
          · simp only [if_pos hd, mulVec_mulVec _ o.M, mulVec_mulVec _ o'.M, ← h.gram]
            split
            · rfl
            · simp only [Option.map, mulVec_mulVec _ o.M, mulVec_mulVec _ o'.M, ← h.gram]
          · simp only [if_neg hd, mulVec_mulVec _ o.M, mulVec_mulVec _ o'.M, ← h.gram]
            split
            · rfl
            · simp only [Option.map, mulVec_mulVec _ o.M, mulVec_mulVec _ o'.M, ← h.gram]
        have e := h.solver hs (aLift A (Real.sqrt δ)) (.vec (sps2Rhs S o' b c)) none le_rfl tol L (hb ▸ hz)
        simp only [bind, Except.bind, ho, ho', hb]
        rw [e, gram_norm_eq h.gram]
  unfold sps2Call
  simp only [key]

/-! ## SPS1 -/

theorem sps1Svd_post (la la' : LinAlg) (S : Matrix (Fin d) (Fin m) ℝ) (solver : SaddleSolver)
    (hs : solver = PcSS1 ∨ solver = PcSS2) (A : Matrix (Fin m) (Fin n) ℝ) (rhs : Fin n → ℝ) (b : Fin m → ℝ)
    (c : Option (Fin n → ℝ)) {δ : ℝ} (hδ : 0 ≤ δ) (tol : ℝ) (L : ℤ) (logging : Bool) (clock : LogTimes) :
    (sps1Svd la S A rhs δ >>= fun p => sps1Post solver A b c δ tol L p logging clock) =
      (sps1Svd la' S A rhs δ >>= fun p => sps1Post solver A b c δ tol L p logging clock) := by
  unfold sps1Svd
  simp only
  cases ho : svdRightPrecond la (aLift (S * A) (Real.sqrt δ)) with
  | error e => rw [svdRightPrecond_error la la' _ (aLift (S * A) (Real.sqrt δ)) ho]
  | ok o =>
    cases ho' : svdRightPrecond la' (aLift (S * A) (Real.sqrt δ)) with
    | error e => rw [svdRightPrecond_error la' la _ _ ho'] at ho; cases ho
    | ok o' =>
      have h := svdRightPrecond_same la la' rfl ho ho'
      have k1 : (fun j => (o.Vh *ᵥ rhs) j / o.sigma j) = o.Mᵀ *ᵥ rhs := by
        funext j; rw [← sv_coords h.left rhs j]; ring
      have k2 : (fun j => (o'.Vh *ᵥ rhs) j / o'.sigma j) = o'.Mᵀ *ᵥ rhs := by
        funext j; rw [← sv_coords h.right rhs j]; ring
      simp only [bind, Except.bind, k1, k2, sps1Post, mulVec_mulVec _ o.M, mulVec_mulVec _ o'.M, ← h.gram,
        ← mulVec_sub, ← gram_norm_eq h.gram]
      rw [h.solver hs A (.vec b) c hδ tol L]
      split
      · rfl
      · simp only [Option.map, mulVec_mulVec _ o.M, mulVec_mulVec _ o'.M, h.gram]

theorem sps1Right_same (la la' : LinAlg) (S : Matrix (Fin n) (Fin d) ℝ) (A : Matrix (Fin m) (Fin n) ℝ)
    (hS : FullColRank (A * S)) : ∃ s W s' W',
      SamePrec (sps1Right la S A).M s W (sps1Right la' S A).M s' W' := by
  have hG : ((la.qr (A * S)).1ᵀ * A)ᵀ * ((la.qr (A * S)).1ᵀ * A) =
      ((la'.qr (A * S)).1ᵀ * A)ᵀ * ((la'.qr (A * S)).1ᵀ * A) := by
    have e : ∀ la : LinAlg, ((la.qr (A * S)).1ᵀ * A)ᵀ * ((la.qr (A * S)).1ᵀ * A) =
        Aᵀ * (A * S * ((A * S)ᵀ * (A * S))⁻¹ * (A * S)ᵀ) * A := by
      intro la
      rw [← qr_proj la hS, transpose_mul, transpose_transpose]
      simp only [Matrix.mul_assoc]
    rw [e, e]
  have hne : ∀ (la : LinAlg) i, 0 < (la.svd ((la.qr (A * S)).1ᵀ * A)).2.1 i := by
    intro la i
    refine lt_of_le_of_ne (la.svd_nonneg _ i) (Ne.symm ?_)
    revert i
    refine svd_ne_of_rows la fun u hu => (qr_RT_inj la hS).1 u ?_
    rw [transpose_mul, transpose_transpose, ← mulVec_mulVec] at hu
    have h1 := congrArg (Sᵀ *ᵥ ·) hu
    simp only [mulVec_zero] at h1
    rw [mulVec_mulVec, ← transpose_mul] at h1
    rw [← h1]
    conv_rhs => enter [1]; rw [← la.qr_mul (A * S)]
    rw [transpose_mul, mulVec_mulVec, Matrix.mul_assoc, la.qr_orth, Matrix.mul_one]
  have hsv := svd_sv_eq la la' hG
  refine ⟨_, _, _, _, ⟨la.svd_right _, hne la, fun i j => rfl⟩, ⟨la'.svd_right _, hne la', fun i j => rfl⟩, rfl,
    fun j => congrFun hsv j, fun g => ?_⟩
  have := svd_fun_eq la la' hG (fun x => if 0 < x then g x else 0) (if_neg (lt_irrefl _))
  simp only [hne la, hne la', if_true] at this
  exact this

theorem basis_same (la la' : LinAlg) {k : ℕ} (A : Matrix (Fin m) (Fin n) ℝ) {V V' : Matrix (Fin n) (Fin k) ℝ}
    (hV : Vᵀ * V = 1) (hV' : V'ᵀ * V' = 1) (hP : V * Vᵀ = V' * V'ᵀ)
    (hne : ∀ i, 0 < (la.svd (A * V)).2.1 i) (hne' : ∀ i, 0 < (la'.svd (A * V')).2.1 i) : ∃ s W s' W',
      SamePrec (V * (Matrix.of fun i j => (la.svd (A * V)).2.2ᵀ i j / (la.svd (A * V)).2.1 j :
          Matrix (Fin k) (Fin (min m k)) ℝ)) s W
        (V' * (Matrix.of fun i j => (la'.svd (A * V')).2.2ᵀ i j / (la'.svd (A * V')).2.1 j :
          Matrix (Fin k) (Fin (min m k)) ℝ)) s' W' := by
  have horth : ∀ (la : LinAlg) {V : Matrix (Fin n) (Fin k) ℝ}, Vᵀ * V = 1 →
      ((la.svd (A * V)).2.2 * Vᵀ) * ((la.svd (A * V)).2.2 * Vᵀ)ᵀ = 1 := by
    intro la V hV
    rw [transpose_mul, transpose_transpose, Matrix.mul_assoc, ← Matrix.mul_assoc Vᵀ, hV, Matrix.one_mul, la.svd_right]
  have hgram : ∀ (la : LinAlg) (V : Matrix (Fin n) (Fin k) ℝ), ((la.svd (A * V)).2.2 * Vᵀ)ᵀ *
      diagonal (fun i => (la.svd (A * V)).2.1 i ^ 2) * ((la.svd (A * V)).2.2 * Vᵀ) =
      (V * Vᵀ) * (Aᵀ * A) * (V * Vᵀ) := by
    intro la V
    have e := svd_gram (la.svd_mul (A * V)) (la.svd_left _)
    calc _ = V * ((la.svd (A * V)).2.2ᵀ * diagonal (fun i => (la.svd (A * V)).2.1 i ^ 2) * (la.svd (A * V)).2.2) * Vᵀ := by
          rw [transpose_mul, transpose_transpose]; simp only [Matrix.mul_assoc]
      _ = _ := by rw [← e, transpose_mul]; simp only [Matrix.mul_assoc]
  have hG := (hgram la V).trans ((congrArg (fun P => P * (Aᵀ * A) * P) hP).trans (hgram la' V').symm)
  have hsv := sv_unique (la.svd_nonneg _) (la'.svd_nonneg _) (la.svd_anti _) (la'.svd_anti _) (horth la hV)
    (horth la' hV') hG
  have hM : ∀ (la : LinAlg) (V : Matrix (Fin n) (Fin k) ℝ) (i : Fin n) (j : Fin (min m k)),
      (V * (Matrix.of fun i j => (la.svd (A * V)).2.2ᵀ i j / (la.svd (A * V)).2.1 j :
          Matrix (Fin k) (Fin (min m k)) ℝ)) i j =
        ((la.svd (A * V)).2.2 * Vᵀ) j i / (la.svd (A * V)).2.1 j := by
    intro la V i j
    rw [mul_apply, mul_apply, Finset.sum_div]
    refine Finset.sum_congr rfl fun k _ => ?_
    rw [of_apply, transpose_apply, transpose_apply]
    ring
  refine ⟨_, _, _, _, ⟨horth la hV, hne, hM la V⟩, ⟨horth la' hV', hne', hM la' V'⟩, rfl,
    fun j => congrFun hsv j, fun g => ?_⟩
  have := spectral_unique (la.svd_nonneg _) (la'.svd_nonneg _) (horth la hV) (horth la' hV') hG
    (fun x => if 0 < x then g x else 0) (if_neg (lt_irrefl _))
  simp only [hne, hne', if_true] at this
  exact this

theorem sps1Left_same (la la' : LinAlg) (S : Matrix (Fin d) (Fin m) ℝ) (A : Matrix (Fin m) (Fin n) ℝ)
    (hS : FullColRank (S * A)ᵀ) : ∃ s W s' W',
      SamePrec (sps1Left la S A).M s W (sps1Left la' S A).M s' W' := by
  have hne : ∀ (la : LinAlg) i, 0 < (la.svd (A * (la.qr (S * A)ᵀ).1)).2.1 i := by
    intro la i
    refine lt_of_le_of_ne (la.svd_nonneg _ i) (Ne.symm ?_)
    revert i
    refine svd_ne_of_full la fun u hu => (qr_RT_inj la hS).1 u ?_
    rw [← mulVec_mulVec] at hu
    have h1 := congrArg (S *ᵥ ·) hu
    simp only [mulVec_zero] at h1
    rw [mulVec_mulVec, mulVec_mulVec] at h1
    have e : S * A = (la.qr (S * A)ᵀ).2ᵀ * (la.qr (S * A)ᵀ).1ᵀ := by
      rw [← transpose_mul, la.qr_mul, transpose_transpose]
    have e2 : S * A * (la.qr (S * A)ᵀ).1 = (la.qr (S * A)ᵀ).2ᵀ := by
      conv_lhs => enter [1]; rw [e]
      rw [Matrix.mul_assoc, la.qr_orth, Matrix.mul_one]
    rwa [e2] at h1
  exact basis_same la la' A (la.qr_orth _) (la'.qr_orth _) ((qr_proj la hS).trans (qr_proj la' hS).symm)
    (hne la) (hne la')

theorem sps1Post_same {solver : SaddleSolver} (hs : solver = PcSS1 ∨ solver = PcSS2) {p p' : SPSPrec n}
    {s : Fin p.r → ℝ} {W : Matrix (Fin p.r) (Fin n) ℝ} {s' : Fin p'.r → ℝ} {W' : Matrix (Fin p'.r) (Fin n) ℝ}
    (h : SamePrec p.M s W p'.M s' W') (hz : p.z = none) (hz' : p'.z = none) (A : Matrix (Fin m) (Fin n) ℝ)
    (b : Fin m → ℝ) (c : Option (Fin n → ℝ)) {δ : ℝ} (hδ : 0 ≤ δ) (tol : ℝ) (L : ℤ) (logging : Bool)
    (clock : LogTimes) :
    sps1Post solver A b c δ tol L p logging clock = sps1Post solver A b c δ tol L p' logging clock := by
  unfold sps1Post
  rw [hz, hz', h.solver hs A (.vec b) c hδ tol L (z := none) (z' := none) rfl]

/-- **C87** (SPS1): with either saddle solver, for either strategy.  (In the Nystrom branches, where the
sketch has fewer than `n` columns, the sketched matrix is assumed to be of full rank: otherwise the code
divides by zero singular values.) -/
theorem C87_sps1 (la la' : LinAlg) (gen : SkOpGen G) (sf : ℝ) (solver : SaddleSolver)
    (hs : solver = PcSS1 ∨ solver = PcSS2) (strategy : NystromStrategy) (A : Matrix (Fin m) (Fin n) ℝ)
    (b : Option (Fin m → ℝ)) (c : Option (Fin n → ℝ)) (δ : ℝ) (hδ : 0 ≤ δ) (tol : ℝ) (L : ℤ) (logging : Bool)
    (clock : LogTimes) (w : World G)
    (hr : ∀ (d : ℕ) S w', d < n → strategy = .right → gen n d w = .ok (S, w') → FullColRank (A * S))
    (hl : ∀ (d : ℕ) S w', d < n → strategy = .left → gen d m w = .ok (S, w') → FullColRank (S * A)ᵀ) :
    sps1Call la gen sf solver strategy A b c δ tol L logging clock w =
      sps1Call la' gen sf solver strategy A b c δ tol L logging clock w := by
  unfold sps1Call
  simp only
  by_cases ho : strategy ≠ .other
  · rw [Py.assert_pos_bind ho, Py.assert_pos_bind ho]
    by_cases hd : pyInt (sf * n) < 0
    · rw [if_pos hd, if_pos hd]
    · rw [if_neg hd, if_neg hd]
      by_cases hn : ¬ (pyInt (sf * n)).toNat < n
      · rw [if_pos hn, if_pos hn]
        cases hg : gen (pyInt (sf * n)).toNat m w with
        | error e => rw [Py.bind_eq_of_error hg, Py.bind_eq_of_error hg]
        | ok r =>
          obtain ⟨S, w'⟩ := r
          rw [Py.bind_eq_of_ok hg, Py.bind_eq_of_ok hg]
          have e := sps1Svd_post la la' S solver hs A (normalRhs A (b.getD 0) c) (b.getD 0) c hδ tol L logging clock
          have lift : ∀ (x : Except PyErr (SPSPrec n)) (f : SPSPrec n → Except PyErr (SPSOut m n)),
              ((Py.lift x : Py G _) >>= fun p => Py.lift (f p)) = Py.lift (x >>= f) := by
            intro x f
            cases x <;> rfl
          rw [lift, lift, e]
      · rw [if_neg hn, if_neg hn]
        by_cases hst : strategy = .right
        · rw [if_pos hst, if_pos hst]
          cases hg : gen n (pyInt (sf * n)).toNat w with
          | error e => rw [Py.bind_eq_of_error hg, Py.bind_eq_of_error hg]
          | ok r =>
            obtain ⟨S, w'⟩ := r
            rw [Py.bind_eq_of_ok hg, Py.bind_eq_of_ok hg]
            obtain ⟨s, W, s', W', h⟩ := sps1Right_same la la' S A (hr _ S w' (not_not.1 hn) hst hg)
            rw [sps1Post_same hs h rfl rfl A (b.getD 0) c hδ tol L logging clock]
        · rw [if_neg hst, if_neg hst]
          have hst' : strategy = .left := by
            cases strategy with
            | left => rfl
            | right => exact absurd rfl hst
            | other => exact absurd rfl ho
          cases hg : gen (pyInt (sf * n)).toNat m w with
          | error e => rw [Py.bind_eq_of_error hg, Py.bind_eq_of_error hg]
          | ok r =>
            obtain ⟨S, w'⟩ := r
            rw [Py.bind_eq_of_ok hg, Py.bind_eq_of_ok hg]
            obtain ⟨s, W, s', W', h⟩ := sps1Left_same la la' S A (hl _ S w' (not_not.1 hn) hst' hg)
            rw [sps1Post_same hs h rfl rfl A (b.getD 0) c hδ tol L logging clock]
  · rw [Py.assert_neg_bind ho, Py.assert_neg_bind ho]

/-- **C87** (PcSS2): the solver depends on the preconditioner `M` only through `M M'`: preconditioners of full column rank
with the same `M M'`, started from points that stand for the same `x`, give the same answer, log or exception. -/
theorem C87_pcss2 (A : Matrix (Fin m) (Fin n) ℝ) (b : BArg m) (c : Option (Fin n → ℝ)) (δ : ℝ)
    (hδ : 0 ≤ δ) (tol : ℝ) (L : ℤ) (P₁ P₂ : Precond n) (hP₁ : P₁.Ok) (hP₂ : P₂.Ok)
    (hM : P₁.mat * P₁.matᵀ = P₂.mat * P₂.matᵀ) (hf₁ : FullColRank P₁.mat) (hf₂ : FullColRank P₂.mat)
    (z₁ : Option (Fin P₁.dim → ℝ)) (z₂ : Option (Fin P₂.dim → ℝ))
    (hz : z₁.map (P₁.mat *ᵥ ·) = z₂.map (P₂.mat *ᵥ ·)) :
    pcss2 A b c δ tol L P₁ z₁ = pcss2 A b c δ tol L P₂ z₂ :=
  pcss2_gram A b c hδ tol L hP₁ hP₂ hM hf₁ hf₂ z₁ z₂ hz

/-! ## Non-vacuity -/

/-- another backend: the same, with the opposite signs in QR -/
noncomputable def flipQR (la : LinAlg) : LinAlg :=
  { la with
    qr := fun A => (-(la.qr A).1, -(la.qr A).2)
    qr_mul := fun A => by rw [Matrix.neg_mul, Matrix.mul_neg, neg_neg]; exact la.qr_mul A
    qr_orth := fun A => by rw [Matrix.transpose_neg, Matrix.neg_mul, Matrix.mul_neg, neg_neg]; exact la.qr_orth A
    qr_upper := fun A i j h => by
      change -(la.qr A).2 i j = 0
      rw [la.qr_upper A i j h, neg_zero] }

/-- There are different backends: these two return different factors for the 1 x 1 matrix `1`. -/
example : (LinAlg.ref.qr (1 : Matrix (Fin 1) (Fin 1) ℝ)).1 ≠ ((flipQR LinAlg.ref).qr (1 : Matrix (Fin 1) (Fin 1) ℝ)).1 := by
  intro h
  have h : (LinAlg.ref.qr (1 : Matrix (Fin 1) (Fin 1) ℝ)).1 = -(LinAlg.ref.qr (1 : Matrix (Fin 1) (Fin 1) ℝ)).1 := h
  have h2 := LinAlg.ref.qr_orth (1 : Matrix (Fin 1) (Fin 1) ℝ)
  obtain ⟨X, hX⟩ : ∃ X, X = (LinAlg.ref.qr (1 : Matrix (Fin 1) (Fin 1) ℝ)).1 := ⟨_, rfl⟩
  rw [← hX] at h h2
  have h3 : X = 0 := by
    ext i j
    have := congrFun (congrFun h i) j
    rw [Matrix.neg_apply] at this
    change _ = (0 : ℝ)
    linarith
  rw [h3, Matrix.mul_zero] at h2
  have := congrFun (congrFun h2 ⟨0, by norm_num⟩) ⟨0, by norm_num⟩
  simp at this

theorem wellCond_single {p : ℕ} (B : Matrix (Fin p) (Fin 1) ℝ) (i : Fin p) (h : B i 0 ≠ 0) : WellCond B := by
  have e : ∀ x, norm2 (B *ᵥ x) = norm2 (B.col 0) * norm2 x := by
    intro x
    have h1 : B *ᵥ x = x 0 • B.col 0 := by
      funext j
      simp [mulVec, dotProduct, Matrix.col, mul_comm]
    have h2 : norm2 x = |x 0| := by
      unfold norm2 sqNorm
      rw [Fin.sum_univ_one, Real.sqrt_sq_eq_abs]
    rw [h1, norm2_smul, h2, mul_comm]
  have hpos : 0 < norm2 (B.col 0) := by
    refine lt_of_le_of_ne (norm2_nonneg _) fun h0 => h ?_
    have := congrFun (norm2_eq_zero.1 h0.symm) i
    exact this
  refine ⟨norm2 (B.col 0), norm2 (B.col 0), fun x => (e x).ge, fun x => (e x).le, hpos.le, ?_⟩
  have : (1 : ℝ) * eps < 1 := by unfold eps; norm_num
  push_cast
  nlinarith

theorem single_aLift {p : ℕ} (B : Matrix (Fin p) (Fin 1) ℝ) (i : Fin p) (h : B i 0 ≠ 0) :
    WellCond (aLift B (Real.sqrt 0)) := by
  refine wellCond_single _ (Fin.castAdd _ i) ?_
  simp [aLift, vcat]
  exact h

/-- The hypotheses of `C87_spo_mode` hold on a 3 x 1 problem: QR with one backend and SVD with another agree. -/
example (tol : ℝ) (L : ℤ) : spoCall LinAlg.ref (idGen (G := ℕ)) 3 .qr (!![1; 1; 1] : Matrix (Fin 3) (Fin 1) ℝ) ![1, 2, 6]
      0 tol L true ⟨0, 0, 0, 0, 0⟩ ⟨0, 0, []⟩ =
    spoCall (flipQR LinAlg.ref) (idGen (G := ℕ)) 3 .svd (!![1; 1; 1] : Matrix (Fin 3) (Fin 1) ℝ) ![1, 2, 6]
      0 tol L true ⟨0, 0, 0, 0, 0⟩ ⟨0, 0, []⟩ := by
  refine C87_spo_mode _ _ _ 3 _ _ (by simp) (by simp) _ one_ne_zero _ 0 le_rfl _ _ _ _ _ ?_
  intro d w₁ w₂ S hd h _
  cases h
  have e : ((Matrix.of fun (i : Fin d) (j : Fin 3) => if i.1 = j.1 then (1 : ℝ) else 0) *
      (!![1; 1; 1] : Matrix (Fin 3) (Fin 1) ℝ)) ⟨0, hd⟩ 0 ≠ 0 := by
    rw [mul_apply, Fin.sum_univ_three]
    simp
  exact ⟨demo31_aLift _ ⟨0, hd⟩ e, fun _ => single_aLift _ ⟨0, hd⟩ e⟩

/-- The hypotheses of `C87_sps1` hold in a Nystrom branch: a 2 x 2 system sketched to one column. -/
example (b c : Fin 2 → ℝ) (tol : ℝ) (L : ℤ) : sps1Call LinAlg.ref (idGen (G := ℕ)) (1 / 2) PcSS2 .right
      (1 : Matrix (Fin 2) (Fin 2) ℝ) (some b) (some c) 1 tol L true ⟨0, 0, 0, 0, 0⟩ ⟨0, 0, []⟩ =
    sps1Call (flipQR LinAlg.ref) (idGen (G := ℕ)) (1 / 2) PcSS2 .right
      (1 : Matrix (Fin 2) (Fin 2) ℝ) (some b) (some c) 1 tol L true ⟨0, 0, 0, 0, 0⟩ ⟨0, 0, []⟩ := by
  refine C87_sps1 _ _ _ _ _ (Or.inr rfl) _ _ _ _ 1 zero_le_one _ _ _ _ _ ?_ (fun _ _ _ _ h => by cases h)
  intro d S w' hd _ h
  cases h
  rw [Matrix.one_mul]
  obtain rfl | rfl : d = 0 ∨ d = 1 := by omega
  · rw [fullColRank_iff_inj]
    intro x _
    exact Subsingleton.elim _ _
  · exact demo31_full _ 0 (by simp)

end Parla.Props
