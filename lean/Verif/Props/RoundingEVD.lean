import Verif.Model.RoundingEVD
import Verif.Props.RoundingSVD
import Verif.Props.RoundingOrth
import Verif.Props.EVD1
import Verif.Props.LowRank

/-! # C100: EVD1 with rounding errors -/

namespace Parla.Props

open Matrix Parla Spec Parla.Proof

variable {G : Type} {n : ℕ}

/-! ### Lemmas -/

/-- an eigendecomposition, sorted by magnitude, is a singular value decomposition up to signs -/
theorem isSVD_of_evd {c : ℕ} {W : Matrix (Fin c) (Fin c) ℝ} (hWo : OrthoCols W) (lam : Fin c → ℝ) (σ : Equiv.Perm (Fin c))
    (hmono : Monotone fun i => -|lam (σ i)|) :
    ∃ U V : Matrix (Fin c) (Fin c) ℝ, IsSVD (W * diagonal lam * Wᵀ) U (fun i => |lam (σ i)|) V := by
  obtain ⟨g, hg⟩ : ∃ g : Fin c → ℝ, g = fun i => if lam (σ i) < 0 then -1 else 1 := ⟨_, rfl⟩
  have hg2 : ∀ i, g i * g i = 1 := by intro i; rw [hg]; dsimp only; split <;> norm_num
  have hgl : ∀ i, |lam (σ i)| * g i = lam (σ i) := by
    intro i; rw [hg]; dsimp only
    split
    · rename_i h; rw [abs_of_neg h]; ring
    · rename_i h; rw [abs_of_nonneg (not_lt.1 h)]; ring
  have hWσ : (W.submatrix id σ)ᵀ * W.submatrix id σ = 1 := orth_submatrix hWo σ.injective
  refine ⟨W.submatrix id σ, W.submatrix id σ * diagonal g, hWσ, ?_, fun i => abs_nonneg _, ?_, ?_⟩
  · unfold OrthoCols
    rw [transpose_mul, diagonal_transpose, Matrix.mul_assoc, ← Matrix.mul_assoc _ _ (diagonal g), hWσ,
      Matrix.one_mul, diagonal_mul_diagonal]
    simp only [hg2]
    exact diagonal_one
  · intro i j hij
    have := hmono hij
    simpa using this
  · rw [transpose_mul, diagonal_transpose, ← Matrix.mul_assoc, Matrix.mul_assoc _ (diagonal _) (diagonal g),
      diagonal_mul_diagonal]
    simp only [hgl]
    ext i j
    rw [mul_apply, mul_apply]
    simp only [mul_diagonal, submatrix_apply, id, transpose_apply]
    exact (Equiv.sum_comp σ fun l => W i l * lam l * W j l).symm

/-- a matrix with nearly orthonormal columns is as close to an orthonormal one as its Gram matrix is to the identity -/
theorem near_orth_of_gram {c : ℕ} (hc : c ≤ n) (Q : Matrix (Fin n) (Fin c) ℝ) :
    ∃ Q' : Matrix (Fin n) (Fin c) ℝ, OrthoCols Q' ∧ fro (Q - Q') ≤ fro (Qᵀ * Q - 1) := by
  obtain ⟨U, s, V, h⟩ := exists_isSVD Q
  have hV : V * Vᵀ = 1 := square_orth (by omega) h.right
  have hU : Uᵀ * U = 1 := h.left
  refine ⟨U * Vᵀ, ?_, ?_⟩
  · unfold OrthoCols
    rw [transpose_mul, transpose_transpose, Matrix.mul_assoc, ← Matrix.mul_assoc Uᵀ, hU, Matrix.one_mul, hV]
  · have e1 : Q - U * Vᵀ = U * diagonal (fun i => s i - 1) * Vᵀ := by
      rw [show (diagonal fun i => s i - 1) = diagonal s - 1 by rw [← diagonal_one, diagonal_sub], Matrix.mul_sub,
        Matrix.sub_mul, Matrix.mul_one, ← h.eq]
    have e2 : Qᵀ * Q - 1 = V * diagonal (fun i => s i ^ 2 - 1) * Vᵀ := by
      have : Qᵀ * Q = V * diagonal (fun i => s i ^ 2) * Vᵀ := by
        conv_lhs => rw [h.eq]
        rw [transpose_mul, transpose_mul, transpose_transpose, diagonal_transpose]
        calc V * (diagonal s * Uᵀ) * (U * diagonal s * Vᵀ) = V * diagonal s * (Uᵀ * U) * (diagonal s * Vᵀ) := by
              simp only [Matrix.mul_assoc]
          _ = V * (diagonal s * diagonal s) * Vᵀ := by rw [hU, Matrix.mul_one]; simp only [Matrix.mul_assoc]
          _ = _ := by rw [diagonal_mul_diagonal]; simp only [pow_two]
      rw [this, show (diagonal fun i => s i ^ 2 - 1) = diagonal (fun i => s i ^ 2) - 1 by
        rw [← diagonal_one, diagonal_sub], Matrix.mul_sub, Matrix.sub_mul, Matrix.mul_one, hV]
    rw [e1, e2]
    unfold fro
    refine Real.sqrt_le_sqrt ?_
    rw [froSq_UsV hU (by rw [transpose_transpose]; exact h.right), froSq_UdUt h.right]
    refine Finset.sum_le_sum fun i _ => ?_
    have h0 := h.nonneg i
    have : (s i ^ 2 - 1) ^ 2 = (s i - 1) ^ 2 * (s i + 1) ^ 2 := by ring
    rw [this]
    have h1 : 1 ≤ (s i + 1) ^ 2 := by nlinarith
    nlinarith [sq_nonneg (s i - 1)]

/-- what `la.eigh` sees of a nearly symmetric matrix -/
theorem fro_lowSym_sub {c : ℕ} (C M : Matrix (Fin c) (Fin c) ℝ) (hM : Mᵀ = M) : fro (lowSym C - M) ≤ 2 * fro (C - M) := by
  have h0 := fro_nonneg (C - M)
  rw [fro_le_iff_sq (by linarith), mul_pow, fro_sq]
  have e : ∀ i j, (lowSym C - M) i j ^ 2 ≤ (C - M) i j ^ 2 + (C - M) j i ^ 2 := by
    intro i j
    have hm : M j i = M i j := by conv_lhs => rw [← hM, transpose_apply]
    simp only [Matrix.sub_apply, lowSym]
    split
    · nlinarith [sq_nonneg (C j i - M j i)]
    · rw [hm]; nlinarith [sq_nonneg (C i j - M i j)]
  have h1 : froSq (lowSym C - M) ≤ froSq (C - M) + froSq (C - M)ᵀ := by
    unfold froSq
    rw [← Finset.sum_add_distrib]
    refine Finset.sum_le_sum fun i _ => ?_
    rw [← Finset.sum_add_distrib]
    exact Finset.sum_le_sum fun j _ => e i j
  rw [froSq_transpose] at h1
  have := froSq_nonneg (C - M)
  linarith

theorem lowSym_of_symm {c : ℕ} {C : Matrix (Fin c) (Fin c) ℝ} (h : Cᵀ = C) : lowSym C = C := by
  ext i j
  unfold lowSym
  split
  · rfl
  · conv_rhs => rw [← h, transpose_apply]

theorem lowSym_symm {c : ℕ} (C : Matrix (Fin c) (Fin c) ℝ) : (lowSym C)ᵀ = lowSym C := by
  ext i j
  simp only [transpose_apply, lowSym]
  rcases lt_trichotomy i j with h | h | h
  · rw [if_pos h.le, if_neg (not_le.2 h)]
  · rw [h]
  · rw [if_neg (not_le.2 h), if_pos h.le]

theorem sorted_below {c : ℕ} {f : Fin c → ℝ} {σ : Equiv.Perm (Fin c)} (hσ : Monotone (fun i => -|f (σ i)|))
    (cut : ℝ) (i : Fin c) (hi : countAbove f cut ≤ i.1) : |f (σ i)| ≤ cut := by
  classical
  by_contra hle
  push Not at hle
  have hsub : (Finset.univ.filter (· ≤ i)).image σ ⊆ Finset.univ.filter fun i => |f i| > cut := by
    intro j hj
    obtain ⟨a, ha, rfl⟩ := Finset.mem_image.1 hj
    have := hσ (Finset.mem_filter.1 ha).2
    simp only [neg_le_neg_iff] at this
    exact Finset.mem_filter.2 ⟨Finset.mem_univ _, lt_of_lt_of_le hle this⟩
  have h1 := Finset.card_le_card hsub
  rw [Finset.card_image_of_injective _ σ.injective, prefix_card (r := i.1 + 1) i.2 _ (fun j => by
    rw [Finset.mem_filter, Nat.lt_succ_iff]; exact ⟨fun h => h.2, fun h => ⟨Finset.mem_univ _, h⟩⟩)] at h1
  unfold countAbove at hi
  omega

/-- dropping all but the `min k (number above the cut)` eigenvalues of largest magnitude -/
theorem evd_drop {c : ℕ} {W : Matrix (Fin c) (Fin c) ℝ} (hW : OrthoCols W) (lam : Fin c → ℝ) (σ : Equiv.Perm (Fin c))
    (hmono : Monotone fun i => -|lam (σ i)|) (k r : ℕ) (cut : ℝ) (hcut : 0 ≤ cut) (hr : r = min k (min c (countAbove lam cut)))
    (X : Matrix (Fin c) (Fin c) ℝ) (hX : X.rank ≤ k) :
    fro (W * diagonal lam * Wᵀ - W.submatrix id (σ ∘ takeIdx r c) * diagonal (lam ∘ (σ ∘ takeIdx r c)) *
        (W.submatrix id (σ ∘ takeIdx r c))ᵀ) ≤
      (if c ≤ k then 0 else fro (W * diagonal lam * Wᵀ - X)) + cut * Real.sqrt c := by
  classical
  have hinj : Function.Injective (σ ∘ takeIdx r c) := σ.injective.comp (takeIdx_injective _ _)
  have hW' : Wᵀ * W = 1 := hW
  have hmem : ∀ i : Fin c, σ i ∈ Set.range (σ ∘ takeIdx r c) ↔ i.1 < r := by
    intro i
    constructor
    · rintro ⟨a, ha⟩
      have := σ.injective ha
      have h2 := a.2
      rw [← this]
      change a.1 < r
      omega
    · intro h
      have := i.2
      exact ⟨⟨i.1, by omega⟩, by
        show σ (takeIdx r c _) = σ i
        rw [show takeIdx r c ⟨i.1, by omega⟩ = i from Fin.ext rfl]⟩
  obtain ⟨U, V, hsvd⟩ := isSVD_of_evd hW lam σ hmono
  have g0 : 0 ≤ (if c ≤ k then (0 : ℝ) else fro (W * diagonal lam * Wᵀ - X)) := by
    split_ifs <;> first | exact le_rfl | exact fro_nonneg _
  have s0 : 0 ≤ cut * Real.sqrt c := by positivity
  rw [transpose_submatrix, sub_diag hinj, ← Matrix.sub_mul, ← Matrix.mul_sub, diagonal_sub,
    fro_le_iff_sq (by linarith), froSq_UdUt hW', ← Equiv.sum_comp σ]
  have hsplit : ∀ i : Fin c, (lam (σ i) - if σ i ∈ Set.range (σ ∘ takeIdx r c) then lam (σ i) else 0) ^ 2 ≤
      (if c ≤ k then 0 else tail (fun i => |lam (σ i)|) k i) ^ 2 + cut ^ 2 := by
    intro i
    have hi := i.2
    by_cases h1 : i.1 < r
    · rw [if_pos ((hmem i).2 h1), sub_self, zero_pow two_ne_zero]
      exact add_nonneg (sq_nonneg _) (sq_nonneg _)
    · rw [if_neg (fun h => h1 ((hmem i).1 h)), sub_zero]
      by_cases h2 : countAbove lam cut ≤ i.1
      · have h3 := sorted_below hmono cut i h2
        have h4 : lam (σ i) ^ 2 ≤ cut ^ 2 := by
          rw [← sq_abs (lam (σ i))]
          exact pow_le_pow_left₀ (abs_nonneg _) h3 2
        linarith [sq_nonneg (if c ≤ k then 0 else tail (fun i => |lam (σ i)|) k i)]
      · rw [if_neg (by omega), tail, if_neg (by omega), sq_abs]
        linarith [sq_nonneg cut]
  refine (Finset.sum_le_sum fun i _ => hsplit i).trans ?_
  rw [Finset.sum_add_distrib, Finset.sum_const, Finset.card_univ, Fintype.card_fin, nsmul_eq_mul]
  have e1 : (c : ℝ) * cut ^ 2 = (cut * Real.sqrt c) ^ 2 := by
    rw [mul_pow, Real.sq_sqrt (Nat.cast_nonneg c)]; ring
  rw [e1]
  have e2 : ∑ i : Fin c, (if c ≤ k then 0 else tail (fun i => |lam (σ i)|) k i) ^ 2 ≤
      (if c ≤ k then (0 : ℝ) else fro (W * diagonal lam * Wᵀ - X)) ^ 2 := by
    by_cases h0 : c ≤ k
    · simp [h0]
    · simp only [if_neg h0]
      rw [fro_sq]
      exact ey_rank hsvd X hX
  nlinarith [mul_nonneg g0 s0]

/-! ### The theorems -/

/-- **C100** (exact arithmetic is a special case): with exact operations the routine with rounding is `evd1`. -/
theorem C100_exact (la : LinAlg) (gen : SkOpGen G) (A : Matrix (Fin n) (Fin n) ℝ) (k : ℤ) (tol : Tol) (over : ℕ) (p : ℤ)
    (blk : ℕ) : evd1Fl (exactFl la) (exactEigh la) gen A k tol over p blk = evd1 la gen A k tol over p blk := by
  have : ∀ rf : RangeFinder G, QB2Fl (exactFl la) rf blk false = QB2 la rf blk false := fun rf => by
    funext m n A k tol
    unfold QB2Fl QB2
    rw [qb2CallFl_exact]
  unfold evd1Fl evd1
  rw [RS1Fl_exact, this]
  rfl

set_option maxHeartbeats 1000000 in
/-- **C100** (EVD1 with rounding errors).  Let `A` be symmetric and let the QB step, whatever it is, have returned `Q, B` with
`‖Q'Q - I‖ ≤ δ` and `‖B - Q'A‖ ≤ γ`.  With operations accurate to `ε`, `EVD1` returns `V, lamb` such that

* `lamb` has at most `k` entries, in order of decreasing magnitude, all above `10 eps` in magnitude;
* `V` is orthonormal up to `(2 + ζ) ζ`, where `ζ = (2 + √c) ‖Q‖ ε + δ`;
* `V diag(lamb) V'` is symmetric, and its error is at most
  `2 ‖A - QB‖ + 10 eps √c`, plus the distance `‖A - X‖` to any matrix of rank `k` if `c > k`, plus terms that vanish with
  `ε`, `δ` and `γ`. -/
theorem C100_evd1_class {fl : FlAlg} {eg : FlEigh} {N : ℕ} {ε : ℝ} (hfl : fl.Accurate N ε) (heg : eg.Accurate N ε) (hε : 0 ≤ ε)
    (hε1 : ε ≤ 1) (hn : n ≤ N) (qb : QBDecomposer G) (A : Matrix (Fin n) (Fin n) ℝ) (hA : Aᵀ = A) (k : ℤ) (tol : Tol) (over : ℕ)
    (w w' : World G) (out : EVDOut n) (h : evd1CallFl fl eg qb A k tol over w = .ok (out, w')) :
    ∃ qbo : QBOut n n, qb n n A (k + over) tol.half w = .ok (qbo, w') ∧ (qbo.c ≤ n →
      (out.r : ℤ) ≤ k ∧ out.r ≤ qbo.c ∧ (∀ i j, i ≤ j → |out.lamb j| ≤ |out.lamb i|) ∧ (∀ i, 10 * eps < |out.lamb i|) ∧
      ∀ δ γ ζ κ : ℝ, fro (qbo.Qᵀ * qbo.Q - 1) ≤ δ → fro (qbo.B - qbo.Qᵀ * A) ≤ γ →
        ζ = (2 + Real.sqrt qbo.c) * fro qbo.Q * ε + δ →
        κ = ε * fro qbo.B * fro qbo.Q + δ * (fro qbo.B + fro A) + γ →
        fro (out.Vᵀ * out.V - 1) ≤ (2 + ζ) * ζ ∧
        ∀ X : Matrix (Fin n) (Fin n) ℝ, (X.rank : ℤ) ≤ k →
          fro (A - out.V * diagonal out.lamb * out.Vᵀ) ≤ 2 * fro (A - qbo.Q * qbo.B) + 10 * eps * Real.sqrt qbo.c +
            2 * δ * fro qbo.B + 2 * κ + (ε + 2 * ((2 + ζ) * ζ)) * (fro A + 2 * κ) +
            (if (qbo.c : ℤ) ≤ k then 0 else fro (A - X) + 2 * κ + ε * (fro A + 2 * κ))) := by
  unfold evd1CallFl at h
  rw [Py.bind_ok_iff] at h
  obtain ⟨u1, w1, ha1, h⟩ := h
  rw [Py.bind_ok_iff] at h
  obtain ⟨u2, w2, ha2, h⟩ := h
  rw [Py.bind_ok_iff] at h
  obtain ⟨u3, w3, ha3, h⟩ := h
  rw [Py.bind_ok_iff] at h
  obtain ⟨qbo, w4, hqb, h⟩ := h
  obtain ⟨hk0, e1⟩ := Py.assert_ok_iff.1 ha1
  obtain ⟨-, e2⟩ := Py.assert_ok_iff.1 ha2
  have e3 : w3 = w2 := by
    cases tol with
    | nan => cases ha3; rfl
    | val t => exact (Py.assert_ok_iff.1 ha3).2
  rw [e3, e2, e1] at hqb
  have hw : w4 = w' := by cases h; rfl
  have hout : out = evd1PostFl fl eg k.toNat qbo := by cases h; rfl
  clear h ha1 ha2 ha3 e1 e2 e3
  subst hw
  refine ⟨qbo, hqb, fun hcn => ?_⟩
  clear hqb
  obtain ⟨c, Q, B⟩ := qbo
  change c ≤ n at hcn
  have hc : c ≤ N := hcn.trans hn
  obtain ⟨κ', hκ'⟩ : ∃ κ' : ℕ, κ' = k.toNat := ⟨_, rfl⟩
  have hkk : k = (κ' : ℤ) := by omega
  rw [← hκ'] at hout
  subst hkk
  clear hκ'
  obtain ⟨C, hC⟩ : ∃ C, C = fl.mul B Q := ⟨_, rfl⟩
  obtain ⟨lam, hlam⟩ : ∃ lam, lam = (eg.eigh C).1 := ⟨_, rfl⟩
  obtain ⟨U, hU⟩ : ∃ U, U = (eg.eigh C).2 := ⟨_, rfl⟩
  obtain ⟨σ, hσ⟩ : ∃ σ, σ = eg.argsort fun i => -|lam i| := ⟨_, rfl⟩
  obtain ⟨r, hr⟩ : ∃ r, r = min κ' (min c (countAbove lam (10 * eps))) := ⟨_, rfl⟩
  have hmono : Monotone fun i => -|lam (σ i)| := by rw [hσ]; exact heg.argsort_mono fun i => -|lam i|
  have hout' : out = ⟨min r c, fl.mul Q (U.submatrix id (σ ∘ takeIdx r c)), lam ∘ (σ ∘ takeIdx r c)⟩ := by
    rw [hout, hr, hσ, hU, hlam, hC]; rfl
  subst hout'
  clear hout
  obtain ⟨I, hI⟩ : ∃ I, I = σ ∘ takeIdx r c := ⟨_, rfl⟩
  have hinj : Function.Injective I := hI ▸ σ.injective.comp (takeIdx_injective _ _)
  obtain ⟨W, hW, hUW, hWT⟩ := heg.eigh C hc
  rw [← hlam] at hWT
  rw [← hU] at hUW
  have e0 := eps_pos
  dsimp only
  refine ⟨by omega, by omega, ?_, ?_, fun δ γ ζ κ hδ hγ hζ hκ => ?_⟩
  · intro i j hij
    have := hmono (show takeIdx r c i ≤ takeIdx r c j from hij)
    simpa using this
  · intro i
    refine sorted_above hmono (10 * eps) (takeIdx r c i) ?_
    have h1 : i.1 < min r c := i.2
    have h2 : (takeIdx r c i).1 = i.1 := rfl
    rw [h2]; omega
  rw [← hI]
  have hevd := evd_drop hW lam σ hmono κ' r (10 * eps) (by positivity) hr
  rw [← hI] at hevd
  obtain ⟨Q', hQ', hQQ⟩ := near_orth_of_gram hcn Q
  replace hQQ := hQQ.trans hδ
  have hδ0 : 0 ≤ δ := (fro_nonneg _).trans hδ
  have hγ0 : 0 ≤ γ := (fro_nonneg _).trans hγ
  have b0 : 0 ≤ fro B := fro_nonneg B
  have q0 : 0 ≤ fro Q := fro_nonneg Q
  have a0 : 0 ≤ fro A := fro_nonneg A
  have s0 : 0 ≤ Real.sqrt c := Real.sqrt_nonneg _
  have hκ0 : 0 ≤ κ := by rw [hκ]; positivity
  have hζ0 : 0 ≤ ζ := by rw [hζ]; positivity
  have hQo : Q'ᵀ * Q' = 1 := hQ'
  -- the truncated factors
  obtain ⟨UI, hUI⟩ : ∃ M, M = U.submatrix id I := ⟨_, rfl⟩
  obtain ⟨WI, hWI⟩ : ∃ M, M = W.submatrix id I := ⟨_, rfl⟩
  obtain ⟨D, hD⟩ : ∃ M, M = diagonal (lam ∘ I) := ⟨_, rfl⟩
  rw [← hWI, ← hD] at hevd
  rw [← hUI, ← hD]
  have oW : OrthoCols WI := by rw [hWI]; exact orth_submatrix hW hinj
  have dU : fro (UI - WI) ≤ ε := by
    refine le_trans ?_ hUW
    rw [hUI, hWI, show U.submatrix id I - W.submatrix id I = (U - W).submatrix id I from rfl]
    unfold fro
    refine Real.sqrt_le_sqrt ?_
    unfold froSq
    refine Finset.sum_le_sum fun i _ => ?_
    simp only [submatrix_apply, id]
    rw [← Finset.sum_image (f := fun l => (U - W) i l ^ 2) (g := I) (s := Finset.univ) (fun a _ b _ e => hinj e)]
    exact Finset.sum_le_sum_of_subset_of_nonneg (Finset.subset_univ _) fun _ _ _ => sq_nonneg _
  have hrc : Real.sqrt (min r c : ℕ) ≤ Real.sqrt c := Real.sqrt_le_sqrt (by exact_mod_cast min_le_right r c)
  have hUn : fro UI ≤ Real.sqrt c + 1 := by linarith [fro_near_orth oW dU]
  obtain ⟨V, hV⟩ : ∃ V, V = fl.mul Q UI := ⟨_, rfl⟩
  rw [← hV]
  have hmulQ : fro (V - Q * UI) ≤ ε * fro Q * (Real.sqrt c + 1) := by
    have := hfl.mul Q UI hn hc (by omega)
    rw [hV]
    exact this.trans (mul_le_mul_of_nonneg_left hUn (mul_nonneg hε q0))
  have oV : OrthoCols (Q' * WI) := by
    unfold OrthoCols
    rw [transpose_mul, Matrix.mul_assoc, ← Matrix.mul_assoc Q'ᵀ, hQo, Matrix.one_mul]
    exact oW
  have dV : fro (V - Q' * WI) ≤ ζ := by
    have e1 : V - Q' * WI = ((V - Q * UI) + Q * (UI - WI)) + (Q - Q') * WI := by
      simp only [Matrix.sub_mul, Matrix.mul_sub]; abel
    rw [e1]
    refine (fro_triangle _ _).trans ?_
    have k1 := fro_triangle (V - Q * UI) (Q * (UI - WI))
    have k2 : fro (Q * (UI - WI)) ≤ fro Q * ε := (fro_mul_le _ _).trans (mul_le_mul_of_nonneg_left dU q0)
    have k3 : fro ((Q - Q') * WI) ≤ δ := by
      have := fro_orth_transpose_mul_le oW (Q - Q')ᵀ
      rw [← transpose_mul, fro_tr, fro_tr] at this
      exact this.trans hQQ
    rw [hζ]
    linarith
  refine ⟨gram_near_orth oV dV, fun X hX => ?_⟩
  have hX' : X.rank ≤ κ' := by exact_mod_cast hX
  -- the small matrix
  obtain ⟨M, hM⟩ : ∃ M, M = Q'ᵀ * A * Q' := ⟨_, rfl⟩
  have hMs : Mᵀ = M := by rw [hM]; simp only [transpose_mul, transpose_transpose, hA, Matrix.mul_assoc]
  have hright : ∀ {a b : ℕ} (Z : Matrix (Fin a) (Fin b) ℝ) (P : Matrix (Fin b) (Fin c) ℝ), OrthoCols P → fro (Z * P) ≤ fro Z := by
    intro a b Z P hP
    have := fro_orth_transpose_mul_le hP Zᵀ
    rwa [← transpose_mul, fro_tr, fro_tr] at this
  have hMA : ∀ Z : Matrix (Fin n) (Fin n) ℝ, fro (Q'ᵀ * Z * Q') ≤ fro Z := fun Z =>
    (hright _ _ hQ').trans (fro_orth_transpose_mul_le hQ' Z)
  have hCM : fro (C - M) ≤ κ := by
    have e1 : C - M = ((C - B * Q) + B * (Q - Q')) + ((B - Qᵀ * A) + (Q - Q')ᵀ * A) * Q' := by
      rw [hM, transpose_sub]
      simp only [Matrix.sub_mul, Matrix.mul_sub, Matrix.add_mul]; abel
    rw [e1]
    refine (fro_triangle _ _).trans ?_
    have k1 := fro_triangle (C - B * Q) (B * (Q - Q'))
    have k2 : fro (C - B * Q) ≤ ε * fro B * fro Q := by rw [hC]; exact hfl.mul B Q hc hn hc
    have k3 : fro (B * (Q - Q')) ≤ fro B * δ := (fro_mul_le _ _).trans (mul_le_mul_of_nonneg_left hQQ b0)
    have k4 := hright ((B - Qᵀ * A) + (Q - Q')ᵀ * A) Q' hQ'
    have k5 := fro_triangle (B - Qᵀ * A) ((Q - Q')ᵀ * A)
    have k6 : fro ((Q - Q')ᵀ * A) ≤ δ * fro A := by
      refine (fro_mul_le _ _).trans ?_
      rw [fro_tr]
      exact mul_le_mul_of_nonneg_right hQQ a0
    rw [hκ]
    linarith
  obtain ⟨L, hL⟩ : ∃ L, L = lowSym C := ⟨_, rfl⟩
  rw [← hL] at hWT
  have hLM : fro (L - M) ≤ 2 * κ := by
    have := fro_lowSym_sub C M hMs
    rw [hL]; linarith
  obtain ⟨l, hl⟩ : ∃ l, l = fro A + 2 * κ := ⟨_, rfl⟩
  have hLl : fro L ≤ l := by
    have h1 := fro_le_add L M
    have h2 : fro M ≤ fro A := by rw [hM]; exact hMA A
    linarith
  have hl0 : 0 ≤ l := (fro_nonneg _).trans hLl
  rw [← hl]
  obtain ⟨T, hT⟩ : ∃ T, T = W * diagonal lam * Wᵀ := ⟨_, rfl⟩
  rw [← hT] at hWT hevd
  have hTL : fro (T - L) ≤ ε * l := hWT.trans (mul_le_mul_of_nonneg_left hLl hε)
  have hTn : fro T ≤ 2 * l := by
    have := fro_le_add T L
    nlinarith
  have hDn : fro D ≤ 2 * l := by
    refine le_trans ?_ hTn
    have e1 : fro T = Real.sqrt (∑ i, lam i ^ 2) := by
      rw [hT]; unfold fro; rw [froSq_UdUt hW]
    rw [e1, hD]
    unfold fro
    refine Real.sqrt_le_sqrt ?_
    rw [froSq_diagonal]
    simp only [Function.comp]
    rw [← Finset.sum_image (f := fun l => lam l ^ 2) (g := I) (s := Finset.univ) (fun a _ b _ e => hinj e)]
    exact Finset.sum_le_sum_of_subset_of_nonneg (Finset.subset_univ _) fun _ _ _ => sq_nonneg _
  -- the discarded part
  have hdrop : fro (T - WI * D * WIᵀ) ≤ (if (c : ℤ) ≤ (κ' : ℤ) then 0 else fro (A - X) + 2 * κ + ε * l) + 10 * eps * Real.sqrt c := by
    have k1 := hevd (Q'ᵀ * X * Q') ((Matrix.rank_mul_le_left _ _).trans ((Matrix.rank_mul_le_right _ _).trans hX'))
    refine k1.trans (add_le_add_left ?_ _)
    by_cases h0 : c ≤ κ'
    · rw [if_pos h0, if_pos (by exact_mod_cast h0)]
    · rw [if_neg h0, if_neg (by exact_mod_cast h0)]
      have k2 := fro_sub_le T L (Q'ᵀ * X * Q')
      have k3 := fro_sub_le L M (Q'ᵀ * X * Q')
      have k4 : fro (M - Q'ᵀ * X * Q') ≤ fro (A - X) := by
        rw [hM, ← Matrix.sub_mul, ← Matrix.mul_sub]; exact hMA _
      linarith
  -- the projection
  have hproj : fro (A - Q' * M * Q'ᵀ) ≤ 2 * (fro (A - Q * B) + δ * fro B) := by
    have h1 := two_sided_le hQo hA
    have e1 : Q' * Q'ᵀ * A * (Q' * Q'ᵀ) = Q' * M * Q'ᵀ := by rw [hM]; simp only [Matrix.mul_assoc]
    rw [e1] at h1
    have h2 : fro (A - Q' * (Q'ᵀ * A)) ≤ fro (A - Q * B) + δ * fro B := by
      have k1 : fro (A - Q' * (Q'ᵀ * A)) ≤ fro (A - Q' * B) := by
        have := fro_proj_le hQ' (A - Q' * B)
        have e2 : A - Q' * B - Q' * (Q'ᵀ * (A - Q' * B)) = A - Q' * (Q'ᵀ * A) := by
          have : Q'ᵀ * (Q' * B) = B := by rw [← Matrix.mul_assoc, hQo, Matrix.one_mul]
          rw [Matrix.mul_sub, this, Matrix.mul_sub]; abel
        rwa [e2] at this
      have k2 := fro_sub_le A (Q * B) (Q' * B)
      have k3 : fro (Q * B - Q' * B) ≤ δ * fro B := by
        rw [← Matrix.sub_mul]
        exact (fro_mul_le _ _).trans (mul_le_mul_of_nonneg_right hQQ b0)
      linarith
    have h3 : 0 ≤ fro (A - Q' * (Q'ᵀ * A)) := fro_nonneg _
    rw [fro_le_iff_sq (by linarith)]
    rw [← fro_sq (A - Q' * (Q'ᵀ * A))] at h1
    nlinarith
  -- the eigenvectors
  have hVD : fro ((Q' * WI) * D * (Q' * WI)ᵀ - V * D * Vᵀ) ≤ 2 * ((2 + ζ) * ζ) * l := by
    obtain ⟨P, hP⟩ : ∃ P, P = Q' * WI := ⟨_, rfl⟩
    rw [← hP] at oV dV ⊢
    have e1 : P * D * Pᵀ - V * D * Vᵀ = -((V - P) * (D * (V - P)ᵀ)) + (-((V - P) * D * Pᵀ) + -(P * (D * (V - P)ᵀ))) := by
      simp only [transpose_sub, Matrix.sub_mul, Matrix.mul_sub, Matrix.mul_assoc]; abel
    have n1 : ∀ {a b : ℕ} (M : Matrix (Fin a) (Fin b) ℝ), fro (-M) = fro M := fun M => by unfold fro; rw [froSq_neg]
    rw [e1]
    refine (fro_triangle _ _).trans ?_
    have k1 := fro_triangle (-((V - P) * D * Pᵀ)) (-(P * (D * (V - P)ᵀ)))
    rw [n1, n1, fro_orth_mul oV] at k1
    rw [n1]
    have k2 : fro (D * (V - P)ᵀ) ≤ 2 * l * ζ := by
      refine (fro_mul_le _ _).trans ?_
      rw [fro_tr]
      exact mul_le_mul hDn dV (fro_nonneg _) (by linarith)
    have k3 : fro ((V - P) * (D * (V - P)ᵀ)) ≤ ζ * (2 * l * ζ) :=
      (fro_mul_le _ _).trans (mul_le_mul dV k2 (fro_nonneg _) hζ0)
    have k4 : fro ((V - P) * D * Pᵀ) ≤ ζ * (2 * l) := by
      have : fro ((V - P) * D * Pᵀ) = fro ((V - P) * D) := by
        unfold fro; rw [froSq_mul_orth (by rw [transpose_transpose]; exact oV)]
      rw [this]
      exact (fro_mul_le _ _).trans (mul_le_mul dV hDn (fro_nonneg _) hζ0)
    have e2 : 2 * ((2 + ζ) * ζ) * l = ζ * (2 * l * ζ) + (ζ * (2 * l) + 2 * l * ζ) := by ring
    rw [e2]
    linarith
  have k1 := fro_sub_le A (Q' * M * Q'ᵀ) (V * D * Vᵀ)
  have k2 := fro_sub_le (Q' * M * Q'ᵀ) ((Q' * WI) * D * (Q' * WI)ᵀ) (V * D * Vᵀ)
  have k3 : fro (Q' * M * Q'ᵀ - (Q' * WI) * D * (Q' * WI)ᵀ) = fro (M - WI * D * WIᵀ) := by
    have e1 : Q' * M * Q'ᵀ - (Q' * WI) * D * (Q' * WI)ᵀ = Q' * ((M - WI * D * WIᵀ) * Q'ᵀ) := by
      rw [transpose_mul]
      simp only [Matrix.mul_sub, Matrix.sub_mul, Matrix.mul_assoc]
    rw [e1, fro_orth_mul hQ']
    unfold fro
    rw [froSq_mul_orth (by rw [transpose_transpose]; exact hQ')]
  have k4 := fro_sub_le M L (WI * D * WIᵀ)
  have k5 := fro_sub_le L T (WI * D * WIᵀ)
  rw [fro_sub_comm M L] at k4
  rw [fro_sub_comm L T] at k5
  have e9 : (ε + 2 * ((2 + ζ) * ζ)) * l = ε * l + 2 * ((2 + ζ) * ζ) * l := by ring
  rw [e9]
  linarith

theorem qbBFl_width {m n : ℕ} {fl : FlAlg} {gen : SkOpGen G} {p : ℤ} {blk : ℕ} {o : Bool} {A A' : Matrix (Fin m) (Fin n) ℝ} {k : ℤ}
    {tol : Tol} {w w' : World G} {out : QBOut m n} (h : qbBFl fl gen p blk o A k tol w = .ok ((out, A'), w')) :
    (out.c : ℤ) ≤ min k (min m n : ℕ) := by
  unfold qbBFl qb2CallFl at h
  rw [Py.bind_ok_iff] at h
  obtain ⟨st, v0, h1, h⟩ := h
  have hout : out.c = st.c := by cases h; rfl
  rw [hout]
  unfold qb2RunFl at h1
  rw [Py.bind_ok_iff] at h1
  obtain ⟨u, v1, h0, h1⟩ := h1
  obtain ⟨hk0, -⟩ := Py.assert_ok_iff.1 h0
  rw [Py.bind_ok_iff] at h1
  obtain ⟨k', v2, hk', h1⟩ := h1
  rw [Py.bind_ok_iff] at h1
  obtain ⟨-, v3, -, h1⟩ := h1
  have hkk : k' = min k (min m n : ℕ) := by
    split_ifs at hk' with hc
    · cases hk'; omega
    · rw [Py.bind_ok_iff] at hk'
      obtain ⟨-, v4, -, hk'⟩ := hk'
      cases hk'; omega
  have := qb2LoopFl_le (fun A k tol w Q w' hQ => by
    obtain ⟨h1, h2, S, v, v', -, -, hS, rfl⟩ := RF1Fl_open hQ
    have := RS1Fl_width (by omega) (by omega) (by omega) hS
    change ((min m S.c : ℕ) : ℤ) ≤ k
    omega) _ _ _ _ _ (Nat.zero_le _) h1
  omega

set_option maxHeartbeats 1000000 in
/-- **C100** (`evd1` with rounding errors).  The driver `evd1` on symmetric `A` runs `qb_b` with a quarter of the tolerance; let
`Q`, of `c` columns, be the orthonormal factor found there and `‖Q'Q - I‖ ≤ δ` (C81_orth bounds `δ`).  Then `lamb` and `V` are
as in `C100_evd1_class`, and when the tolerance stopped the search with `c ≤ k` columns the error is at most
`(4 + 2 δ) roundBound θ c (tol/4) ‖A‖ + 10 eps √c` — that is, `tol ‖A‖` but for rounding — plus a multiple of `ε` and `δ`. -/
theorem C100_evd1 {fl : FlAlg} {eg : FlEigh} {N : ℕ} {ε : ℝ} (hfl : fl.Accurate N ε) (heg : eg.Accurate N ε) (hε : 0 ≤ ε)
    (hn : n ≤ N) (gen : SkOpGen G) (A : Matrix (Fin n) (Fin n) ℝ) (hA : Aᵀ = A) (k : ℤ) (tol : Tol) (over : ℕ) (p : ℤ) (blk : ℕ)
    (w w' : World G) (out : EVDOut n) (h : evd1Fl fl eg gen A k tol over p blk w = .ok (out, w')) :
    ∃ qbo : QBOut n n, (∃ A', qbBFl fl gen p blk false A (k + over) tol.half.half w = .ok ((qbo, A'), w')) ∧
      (qbo.c : ℤ) ≤ k + over ∧ qbo.c ≤ n ∧ ∀ θ, θ = 7 * (2 + Real.sqrt qbo.c) * ε → θ ≤ 1 →
      (out.r : ℤ) ≤ k ∧ out.r ≤ qbo.c ∧ (∀ i j, i ≤ j → |out.lamb j| ≤ |out.lamb i|) ∧ (∀ i, 10 * eps < |out.lamb i|) ∧
      ∀ δ g ζ : ℝ, fro (qbo.Qᵀ * qbo.Q - 1) ≤ δ → g = (1 + ε) * Real.sqrt qbo.c → ζ = (2 + Real.sqrt qbo.c) * g * ε + δ →
        fro (out.Vᵀ * out.V - 1) ≤ (2 + ζ) * ζ ∧
        ∀ t ρ b κ : ℝ, tol = .val t → 0 < t → (qbo.c : ℤ) ≤ k → (qbo.c : ℤ) < min (k + over) n →
          ρ = roundBound θ qbo.c (t / 4) → b = Real.sqrt ((1 + 8 * θ) ^ (qbo.c + 1)) →
          κ = ε * b * g + δ * (2 * b + 1) →
          fro (A - out.V * diagonal out.lamb * out.Vᵀ) ≤ (4 + 2 * δ) * ρ * fro A + 10 * eps * Real.sqrt qbo.c +
            (2 * δ * b + 2 * κ + (ε + 2 * ((2 + ζ) * ζ)) * (1 + 2 * (κ + (1 + δ) * ρ))) * fro A := by
  unfold evd1Fl at h
  rw [Py.bind_ok_iff] at h
  obtain ⟨u0, w0, h0, h⟩ := h
  obtain ⟨-, e0⟩ := Py.assert_ok_iff.1 h0
  subst e0
  have key := fun hε1 => C100_evd1_class hfl heg hε hε1 hn _ A hA k tol.half over w0 w' out h
  have hq : ∃ qbo : QBOut n n, QB2Fl fl (RF1Fl fl (RS1Fl fl gen (p - 2) (orthFl fl) 1)) blk false n n A (k + over)
      tol.half.half w0 = .ok (qbo, w') := by
    unfold evd1CallFl at h
    rw [Py.bind_ok_iff] at h
    obtain ⟨u1, w1, ha1, h⟩ := h
    rw [Py.bind_ok_iff] at h
    obtain ⟨u2, w2, ha2, h⟩ := h
    rw [Py.bind_ok_iff] at h
    obtain ⟨u3, w3, ha3, h⟩ := h
    rw [Py.bind_ok_iff] at h
    obtain ⟨qbo, w4, hqb, h⟩ := h
    obtain ⟨-, e1⟩ := Py.assert_ok_iff.1 ha1
    obtain ⟨-, e2⟩ := Py.assert_ok_iff.1 ha2
    have e3 : w3 = w2 := by
      cases tol with
      | nan => cases ha3; rfl
      | val t => exact (Py.assert_ok_iff.1 ha3).2
    rw [e3, e2, e1] at hqb
    cases h
    exact ⟨qbo, hqb⟩
  obtain ⟨qbo, hq⟩ := hq
  have hq' : ∃ A', qbBFl fl gen p blk false A (k + over) tol.half.half w0 = .ok ((qbo, A'), w') := by
    unfold QB2Fl at hq
    rw [Py.bind_ok_iff] at hq
    obtain ⟨⟨q, A'⟩, v', h1, h2⟩ := hq
    cases h2
    exact ⟨A', h1⟩
  obtain ⟨A', hq'⟩ := hq'
  have hc := qbBFl_width hq'
  refine ⟨qbo, ⟨A', hq'⟩, by omega, by omega, fun θ hθ hθ1 => ?_⟩
  have s0 : 0 ≤ Real.sqrt qbo.c := Real.sqrt_nonneg _
  have hε1 : ε ≤ 1 := by nlinarith
  obtain ⟨b1, -, -, b2, b3⟩ := C81_qb_b hfl hε hn hn gen p blk false A _ _ w0 w' qbo A' hq' θ hθ hθ1
  obtain ⟨qbo', hqbo', cl⟩ := key hε1
  have : qbo' = qbo := by
    rw [hq] at hqbo'
    cases hqbo'; rfl
  subst this
  obtain ⟨c1, c2, c3, c4, c5⟩ := cl (by omega)
  refine ⟨c1, c2, c3, c4, fun δ g ζ hδ hg hζ => ?_⟩
  have hδ0 : 0 ≤ δ := (fro_nonneg _).trans hδ
  have hθ0 : 0 ≤ θ := by rw [hθ]; exact mul_nonneg (mul_nonneg (by norm_num) (by linarith)) hε
  have hg0 : 0 ≤ g := by rw [hg]; positivity
  have hQg : fro qbo'.Q ≤ g := by rw [hg]; exact fro_of_cols hε b1
  have q0 : 0 ≤ fro qbo'.Q := fro_nonneg _
  obtain ⟨ζ', hζ'⟩ : ∃ z, z = (2 + Real.sqrt qbo'.c) * fro qbo'.Q * ε + δ := ⟨_, rfl⟩
  have hζ'0 : 0 ≤ ζ' := by rw [hζ']; positivity
  have hζζ : ζ' ≤ ζ := by
    rw [hζ, hζ']
    have : (2 + Real.sqrt qbo'.c) * fro qbo'.Q * ε ≤ (2 + Real.sqrt qbo'.c) * g * ε :=
      mul_le_mul_of_nonneg_right (mul_le_mul_of_nonneg_left hQg (by linarith)) hε
    linarith
  have hz2 : (2 + ζ') * ζ' ≤ (2 + ζ) * ζ := mul_le_mul (by linarith) hζζ hζ'0 (by linarith)
  refine ⟨((c5 δ _ ζ' _ hδ le_rfl hζ' rfl).1).trans hz2, fun t ρ b κ ht ht0 hck hstop hρ hb hκ => ?_⟩
  obtain ⟨a, ha⟩ : ∃ a, a = fro A := ⟨_, rfl⟩
  have a0 : 0 ≤ a := ha ▸ fro_nonneg A
  have bb0 : 0 ≤ b := by rw [hb]; exact Real.sqrt_nonneg _
  have hB : fro qbo'.B ≤ b * a := by
    rw [hb, ha, ← Real.sqrt_sq (fro_nonneg A), ← Real.sqrt_mul (pow_nonneg (by linarith) _)]
    exact Real.le_sqrt_of_sq_le b2
  have B0 : 0 ≤ fro qbo'.B := fro_nonneg _
  have hE : fro (A - qbo'.Q * qbo'.B) ≤ ρ * a := by
    rw [hρ, ha]
    refine b3 (t / 4) ?_ (by linarith) (by rw [Nat.min_self]; exact hstop)
    rw [ht]
    show Tol.val (t / 2 / 2) = _
    congr 1; ring
  have E0 : 0 ≤ fro (A - qbo'.Q * qbo'.B) := fro_nonneg _
  have hρa : 0 ≤ ρ * a := E0.trans hE
  have hγ : fro (qbo'.B - qbo'.Qᵀ * A) ≤ (1 + δ) * (ρ * a) + δ * (b * a) := by
    obtain ⟨Q', hQ', hQQ⟩ := near_orth_of_gram (by omega : qbo'.c ≤ n) qbo'.Q
    replace hQQ := hQQ.trans hδ
    have e1 : qbo'.B - qbo'.Qᵀ * A = -(Q'ᵀ * (A - qbo'.Q * qbo'.B)) + (-((qbo'.Q - Q')ᵀ * (A - qbo'.Q * qbo'.B)) +
        -((qbo'.Qᵀ * qbo'.Q - 1) * qbo'.B)) := by
      simp only [transpose_sub, Matrix.sub_mul, Matrix.mul_sub, Matrix.one_mul, Matrix.mul_assoc]; abel
    have n1 : ∀ {a b : ℕ} (M : Matrix (Fin a) (Fin b) ℝ), fro (-M) = fro M := fun M => by unfold fro; rw [froSq_neg]
    rw [e1]
    have k1 := fro_triangle (-(Q'ᵀ * (A - qbo'.Q * qbo'.B))) (-((qbo'.Q - Q')ᵀ * (A - qbo'.Q * qbo'.B)) +
        -((qbo'.Qᵀ * qbo'.Q - 1) * qbo'.B))
    have k2 := fro_triangle (-((qbo'.Q - Q')ᵀ * (A - qbo'.Q * qbo'.B))) (-((qbo'.Qᵀ * qbo'.Q - 1) * qbo'.B))
    rw [n1] at k1
    rw [n1, n1] at k2
    have k3 := fro_orth_transpose_mul_le hQ' (A - qbo'.Q * qbo'.B)
    have k4 : fro ((qbo'.Q - Q')ᵀ * (A - qbo'.Q * qbo'.B)) ≤ δ * (ρ * a) := by
      refine (fro_mul_le _ _).trans ?_
      rw [fro_tr]
      exact mul_le_mul hQQ hE E0 hδ0
    have k5 : fro ((qbo'.Qᵀ * qbo'.Q - 1) * qbo'.B) ≤ δ * (b * a) :=
      (fro_mul_le _ _).trans (mul_le_mul hδ hB B0 hδ0)
    linarith
  obtain ⟨κ', hκ'⟩ : ∃ x, x = ε * fro qbo'.B * fro qbo'.Q + δ * (fro qbo'.B + fro A) + ((1 + δ) * (ρ * a) + δ * (b * a)) :=
    ⟨_, rfl⟩
  have hκ'0 : 0 ≤ κ' := by
    rw [hκ', ← ha]
    have : 0 ≤ (1 + δ) * (ρ * a) := mul_nonneg (by linarith) hρa
    positivity
  have hκκ : κ' ≤ (κ + (1 + δ) * ρ) * a := by
    have k1 : ε * fro qbo'.B * fro qbo'.Q ≤ ε * (b * a) * g :=
      mul_le_mul (mul_le_mul_of_nonneg_left hB hε) hQg q0 (by positivity)
    have k2 : δ * (fro qbo'.B + fro A) ≤ δ * (b * a + a) := mul_le_mul_of_nonneg_left (by rw [ha] at hB ⊢; linarith) hδ0
    have e1 : (κ + (1 + δ) * ρ) * a = ε * (b * a) * g + δ * (b * a + a) + ((1 + δ) * (ρ * a) + δ * (b * a)) := by
      rw [hκ]; ring
    rw [e1, hκ']; linarith
  have fin := (c5 δ _ ζ' κ' hδ hγ hζ' hκ').2 0 (by rw [rank_zero]; exact_mod_cast (by omega : (0 : ℤ) ≤ k))
  rw [if_pos hck, add_zero, ← ha] at fin
  have m1 : (ε + 2 * ((2 + ζ') * ζ')) * (a + 2 * κ') ≤ (ε + 2 * ((2 + ζ) * ζ)) * ((1 + 2 * (κ + (1 + δ) * ρ)) * a) := by
    have hz0 : 0 ≤ (2 + ζ') * ζ' := mul_nonneg (by linarith) hζ'0
    refine mul_le_mul (by linarith) ?_ (by linarith) (by linarith)
    have e1 : (1 + 2 * (κ + (1 + δ) * ρ)) * a = a + 2 * ((κ + (1 + δ) * ρ) * a) := by ring
    rw [e1]; linarith
  have m2 : 2 * δ * fro qbo'.B ≤ 2 * δ * (b * a) := mul_le_mul_of_nonneg_left hB (by linarith)
  have e1 : (4 + 2 * δ) * ρ * a + 10 * eps * Real.sqrt qbo'.c +
      (2 * δ * b + 2 * κ + (ε + 2 * ((2 + ζ) * ζ)) * (1 + 2 * (κ + (1 + δ) * ρ))) * a =
      2 * (ρ * a) + 10 * eps * Real.sqrt qbo'.c + 2 * δ * (b * a) + 2 * ((κ + (1 + δ) * ρ) * a) +
      (ε + 2 * ((2 + ζ) * ζ)) * ((1 + 2 * (κ + (1 + δ) * ρ)) * a) := by ring
  rw [← ha, e1]
  linarith

end Parla.Props
