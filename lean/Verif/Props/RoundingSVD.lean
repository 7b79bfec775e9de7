import Verif.Props.Rounding
import Verif.Proof.SVD
import Verif.Props.SVD

/-! # C81: SVD1 with rounding errors -/

namespace Parla.Props

open Matrix Parla Spec Parla.Proof

variable {G : Type} {m n : ℕ}

theorem svd1Fl_open (fl : FlAlg) (hanti0 : ∀ {m n : ℕ} (A : Matrix (Fin m) (Fin n) ℝ), Antitone (fl.svd A).2.1)
    (qb : QBDecomposer G) (A : Matrix (Fin m) (Fin n) ℝ) (k : ℕ)
    (tol : Tol) (over : ℕ) (w w' : World G) (qbo : QBOut m n)
    (hqb : qb m n A ((k + over : ℕ) : ℤ) tol w = .ok (qbo, w')) :
    ∃ (r : ℕ) (hr : r ≤ min qbo.c n), svd1CallFl fl qb A k tol over w =
        .ok (⟨r, fl.mul qbo.Q ((fl.svd qbo.B).1.submatrix id (Fin.castLE hr)),
          (fl.svd qbo.B).2.1 ∘ Fin.castLE hr, (fl.svd qbo.B).2.2.submatrix (Fin.castLE hr) id⟩, w') ∧
      ∀ i : Fin (min qbo.c n), i.1 < r ↔
        (0 < over → i.1 < k) ∧ 10 * eps ≤ (fl.svd qbo.B).2.1 i := by
  set t : SVDOut qbo.c n := ⟨_, (fl.svd qbo.B).1, (fl.svd qbo.B).2.1, (fl.svd qbo.B).2.2⟩
  have hanti : Antitone t.s := hanti0 _
  have hcall : svd1CallFl fl qb A k tol over w =
      .ok ((fun t' : SVDOut qbo.c n => (⟨t'.r, fl.mul qbo.Q t'.U, t'.s, t'.Vh⟩ : SVDOut m n))
        ((if over > 0 then t.take k else t).dropBelow (10 * eps)), w') := by
    unfold svd1CallFl
    rw [Py.bind_eq_of_ok hqb]; rfl
  by_cases ho : over > 0
  · rw [if_pos ho, SVDOut.take_eq] at hcall
    have hanti' : Antitone (t.pre (min k t.r) (min_le_right _ _)).s := fun a b h =>
      hanti (show Fin.castLE _ a ≤ Fin.castLE _ b from h)
    obtain ⟨r, hr, he, hi⟩ := SVDOut.dropBelow_eq _ hanti' (10 * eps)
    have hr' : r ≤ min k (min qbo.c n) := hr
    refine ⟨r, hr'.trans (min_le_right _ _), ?_, ?_⟩
    · rw [hcall, he]; rfl
    · intro i
      constructor
      · intro hlt
        have := (hi ⟨i.1, lt_of_lt_of_le hlt hr⟩).2 hlt
        exact ⟨fun _ => by omega, not_lt.1 this⟩
      · rintro ⟨h1, h2⟩
        have h1 := h1 ho
        exact (hi ⟨i.1, lt_min h1 i.2⟩).1 (not_lt.2 h2)
  · rw [if_neg ho] at hcall
    obtain ⟨r, hr, he, hi⟩ := SVDOut.dropBelow_eq t hanti (10 * eps)
    refine ⟨r, hr, ?_, ?_⟩
    · rw [hcall, he]; rfl
    · intro i
      rw [← hi i, not_lt]
      exact ⟨fun h => ⟨fun h' => absurd h' ho, h⟩, fun h => h.2⟩

theorem fro_sub_cols_le {c r : ℕ} (h : r ≤ c) (M : Matrix (Fin m) (Fin c) ℝ) : fro (M.submatrix id (Fin.castLE h)) ≤ fro M := by
  unfold fro
  refine Real.sqrt_le_sqrt ?_
  unfold froSq
  refine Finset.sum_le_sum fun i _ => ?_
  simp only [submatrix_apply, id]
  rw [← Finset.sum_image (f := fun l => M i l ^ 2) (g := Fin.castLE h) (s := Finset.univ)
    (fun a _ b _ e => Fin.castLE_injective h e)]
  exact Finset.sum_le_sum_of_subset_of_nonneg (Finset.subset_univ _) fun _ _ _ => sq_nonneg _

theorem fro_sub_rows_le {c r : ℕ} (h : r ≤ c) (M : Matrix (Fin c) (Fin n) ℝ) : fro (M.submatrix (Fin.castLE h) id) ≤ fro M := by
  have := fro_sub_cols_le h Mᵀ
  rwa [fro_tr, show (Mᵀ.submatrix id (Fin.castLE h)) = (M.submatrix (Fin.castLE h) id)ᵀ from rfl, fro_tr] at this

/-- **C81** (SVD1 with rounding errors).  Whatever QB step is used, returning `Q, B`: `SVD1` with operations accurate to `ε`
returns `U, s, Vh` with `s` nonincreasing and `≥ 10 eps`, `Vh` orthonormal up to `3 ε`, and error at most

`‖A - Q B‖ + ‖Q‖ (‖B - X‖ [if over > 0] + 10 eps √c + (12 + 4 √c) ε ‖B‖)`

for every `X` of rank at most `k`.  If `Q` is within `δ` of an orthonormal matrix, then `U` is within
`ζ = (2 + √c) ‖Q‖ ε + δ` of one, so `‖U'U - I‖ ≤ (2 + ζ) ζ`. -/
theorem C81_svd1 {fl : FlAlg} {N : ℕ} {ε : ℝ} (hfl : fl.Accurate N ε) (hε : 0 ≤ ε) (hε1 : ε ≤ 1) (hm : m ≤ N) (hn : n ≤ N)
    (qb : QBDecomposer G) (A : Matrix (Fin m) (Fin n) ℝ) (k over : ℕ) (tol : Tol) (w w' : World G) (out : SVDOut m n)
    (h : svd1CallFl fl qb A k tol over w = .ok (out, w')) :
    ∃ qbo : QBOut m n, qb m n A ((k + over : ℕ) : ℤ) tol w = .ok (qbo, w') ∧ (qbo.c ≤ N →
      Antitone out.s ∧ (∀ i, 10 * eps ≤ out.s i) ∧ fro (out.Vh * out.Vhᵀ - 1) ≤ 3 * ε ∧
      (∀ X : Matrix (Fin qbo.c) (Fin n) ℝ, X.rank ≤ k →
        fro (A - out.U * diagonal out.s * out.Vh) ≤ fro (A - qbo.Q * qbo.B) + fro qbo.Q *
          ((if over = 0 then 0 else fro (qbo.B - X)) + 10 * eps * Real.sqrt qbo.c +
            (12 + 4 * Real.sqrt qbo.c) * ε * fro qbo.B)) ∧
      ∀ (Q' : Matrix (Fin m) (Fin qbo.c) ℝ) (δ ζ : ℝ), OrthoCols Q' → fro (qbo.Q - Q') ≤ δ →
        ζ = (2 + Real.sqrt qbo.c) * fro qbo.Q * ε + δ → fro (out.Uᵀ * out.U - 1) ≤ (2 + ζ) * ζ) := by
  cases hqb : qb m n A ((k + over : ℕ) : ℤ) tol w with
  | error e =>
    unfold svd1CallFl at h
    rw [Py.bind_eq_of_error hqb] at h
    cases h
  | ok p =>
  obtain ⟨qbo, v⟩ := p
  obtain ⟨r, hr, hcall, hi⟩ := svd1Fl_open fl hfl.svd_anti qb A k tol over w v qbo hqb
  rw [hcall] at h
  have hv : v = w' := by cases h; rfl
  have hout : out = ⟨r, fl.mul qbo.Q ((fl.svd qbo.B).1.submatrix id (Fin.castLE hr)),
          (fl.svd qbo.B).2.1 ∘ Fin.castLE hr, (fl.svd qbo.B).2.2.submatrix (Fin.castLE hr) id⟩ := by cases h; rfl
  clear h hcall
  refine ⟨qbo, by rw [hv], fun hc => ?_⟩
  subst hout
  obtain ⟨c, Q, B⟩ := qbo
  change c ≤ N at hc
  change r ≤ min c n at hr
  change ∀ i : Fin (min c n), i.1 < r ↔ (0 < over → i.1 < k) ∧ 10 * eps ≤ (fl.svd B).2.1 i at hi
  obtain ⟨U', V', hU', hV', hU, hV, hB⟩ := hfl.svd B hc hn
  obtain ⟨U, hUd⟩ : ∃ U, U = (fl.svd B).1 := ⟨_, rfl⟩
  obtain ⟨V, hVd⟩ : ∃ V, V = (fl.svd B).2.2 := ⟨_, rfl⟩
  obtain ⟨σ, hσd⟩ : ∃ σ, σ = (fl.svd B).2.1 := ⟨_, rfl⟩
  have hσ0 : ∀ i, 0 ≤ σ i := hσd ▸ hfl.svd_nonneg B
  have hσa : Antitone σ := hσd ▸ hfl.svd_anti B
  rw [← hUd] at hU
  rw [← hVd] at hV
  rw [← hσd] at hB hi
  dsimp only
  rw [← hUd, ← hVd, ← hσd]
  obtain ⟨J, hJ⟩ : ∃ J : Fin r → Fin (min c n), J = Fin.castLE hr := ⟨_, rfl⟩
  have hJi : Function.Injective J := hJ ▸ Fin.castLE_injective hr
  -- truncated factors
  obtain ⟨UJ, hUJ⟩ : ∃ M, M = U.submatrix id (Fin.castLE hr) := ⟨_, rfl⟩
  obtain ⟨VJ, hVJ⟩ : ∃ M, M = V.submatrix (Fin.castLE hr) id := ⟨_, rfl⟩
  obtain ⟨UJ', hUJ'⟩ : ∃ M, M = U'.submatrix id (Fin.castLE hr) := ⟨_, rfl⟩
  obtain ⟨VJ', hVJ'⟩ : ∃ M, M = V'.submatrix (Fin.castLE hr) id := ⟨_, rfl⟩
  obtain ⟨D, hD⟩ : ∃ M, M = diagonal (σ ∘ Fin.castLE hr) := ⟨_, rfl⟩
  have oU : OrthoCols UJ' := by rw [hUJ']; exact orth_submatrix hU' (Fin.castLE_injective hr)
  have oV : OrthoRows VJ' := by
    have := orth_submatrix (Q := V'ᵀ) (by rw [transpose_transpose]; exact hV') (Fin.castLE_injective hr)
    rw [hVJ']
    exact this
  have dU : fro (UJ - UJ') ≤ ε := by
    have := fro_sub_cols_le hr (U - U')
    rw [hUJ, hUJ']
    exact this.trans hU
  have dV : fro (VJ - VJ') ≤ ε := by
    have := fro_sub_rows_le hr (V - V')
    rw [hVJ, hVJ']
    exact this.trans hV
  have b0 : 0 ≤ fro B := fro_nonneg B
  have hT0 : fro (U' * diagonal σ * V') ≤ 2 * fro B := by
    have := fro_le_add (U' * diagonal σ * V') B
    nlinarith
  have hDn : fro D ≤ 2 * fro B := by
    refine le_trans ?_ hT0
    have e1 : fro (U' * diagonal σ * V') = fro (diagonal σ) := by
      unfold fro
      rw [froSq_UsV hU' hV', froSq_diagonal]
    rw [e1]
    have e2 : D = (diagonal σ).submatrix (Fin.castLE hr) (Fin.castLE hr) := by
      rw [hD, submatrix_diagonal _ _ (Fin.castLE_injective hr)]
    rw [e2]
    have k1 := fro_sub_rows_le hr (diagonal σ)
    have k2 := fro_sub_cols_le hr ((diagonal σ).submatrix (Fin.castLE hr) id)
    exact k2.trans k1
  have hrc : Real.sqrt r ≤ Real.sqrt c := Real.sqrt_le_sqrt (by exact_mod_cast (hr.trans (min_le_left _ _)))
  have hUn : fro UJ ≤ Real.sqrt c + 1 := by linarith [fro_near_orth oU dU]
  have hDV' : fro (D * VJ') = fro D := by unfold fro; rw [froSq_mul_orth oV]
  have hDd : fro (D * (VJ - VJ')) ≤ 2 * fro B * ε :=
    (fro_mul_le _ _).trans (mul_le_mul hDn dV (fro_nonneg _) (by linarith))
  have hDV : fro (D * VJ) ≤ 4 * fro B := by
    have h1 := fro_le_add (D * VJ) (D * VJ')
    rw [← Matrix.mul_sub, hDV'] at h1
    nlinarith
  have hQ0 : 0 ≤ fro Q := fro_nonneg Q
  have hrN : r ≤ N := (hr.trans (min_le_left _ _)).trans hc
  obtain ⟨Ub, hUb⟩ : ∃ M, M = fl.mul Q UJ := ⟨_, rfl⟩
  have hmulQ : fro (Ub - Q * UJ) ≤ ε * fro Q * (Real.sqrt c + 1) := by
    have := hfl.mul Q UJ hm hc hrN
    rw [hUb]
    exact this.trans (mul_le_mul_of_nonneg_left hUn (mul_nonneg hε hQ0))
  rw [← hUJ, ← hVJ, ← hD, ← hUb]
  refine ⟨fun a b hab => hσa (show Fin.castLE hr a ≤ Fin.castLE hr b from hab), fun i => ?_, ?_, fun X hX => ?_,
    fun Q' δ ζ hQ' hδ hζ => ?_⟩
  · exact ((hi (Fin.castLE hr i)).1 i.2).2
  · have := gram_near_orth (Q := VJᵀ) (Q' := VJ'ᵀ) (by unfold OrthoCols; rw [transpose_transpose]; exact oV)
      (ε := ε) (by rw [← transpose_sub, fro_tr]; exact dV)
    rw [transpose_transpose] at this
    refine this.trans ?_
    nlinarith
  · -- the discarded part
    have hdrop : fro (U' * diagonal σ * V' - UJ' * D * VJ') ≤
        (if over = 0 then 0 else fro (B - X)) + 10 * eps * Real.sqrt c + ε * fro B := by
      rw [hUJ', hVJ', hD, pre_tail hr]
      have hsplit : ∀ i : Fin (min c n), (if i.1 < r then 0 else σ i) ^ 2 ≤
          (if over = 0 then 0 else tail σ k i) ^ 2 + (10 * eps) ^ 2 := by
        intro i
        by_cases h1 : i.1 < r
        · rw [if_pos h1, zero_pow two_ne_zero]; exact add_nonneg (sq_nonneg _) (sq_nonneg _)
        · rw [if_neg h1]
          by_cases h2 : 10 * eps ≤ σ i
          · have h3 : ¬ (0 < over → i.1 < k) := fun h3 => h1 ((hi i).2 ⟨h3, h2⟩)
            push Not at h3
            rw [if_neg (by omega), tail, if_neg (by omega)]
            linarith [sq_nonneg (10 * eps)]
          · have := pow_le_pow_left₀ (hσ0 i) (not_le.1 h2).le 2
            linarith [sq_nonneg (if over = 0 then 0 else tail σ k i)]
      have hsum : froSq (U' * diagonal (fun i : Fin (min c n) => if i.1 < r then 0 else σ i) * V') ≤
          (if over = 0 then 0 else tailSq σ k) + c * (10 * eps) ^ 2 := by
        rw [froSq_UsV hU' hV']
        refine (Finset.sum_le_sum fun i _ => hsplit i).trans ?_
        rw [Finset.sum_add_distrib, Finset.sum_const, Finset.card_univ, Fintype.card_fin, nsmul_eq_mul]
        refine add_le_add ?_ ?_
        · by_cases h0 : over = 0
          · simp [h0]
          · simp only [if_neg h0, tailSq]; exact le_rfl
        · refine mul_le_mul_of_nonneg_right ?_ (sq_nonneg _)
          exact_mod_cast min_le_left _ _
      have hgap : (if over = 0 then 0 else tailSq σ k) ≤ ((if over = 0 then 0 else fro (B - X)) + ε * fro B) ^ 2 := by
        by_cases h0 : over = 0
        · simp only [if_pos h0]; positivity
        · simp only [if_neg h0]
          have hs : IsSVD (U' * diagonal σ * V') U' σ V'ᵀ :=
            ⟨hU', by unfold OrthoCols; rw [transpose_transpose]; exact hV', hσ0, hσa, by rw [transpose_transpose]⟩
          have k1 := ey_rank hs X hX
          have k2 := fro_sub_le (U' * diagonal σ * V') B X
          have k3 : fro (U' * diagonal σ * V' - X) ^ 2 ≤ (fro (B - X) + ε * fro B) ^ 2 :=
            pow_le_pow_left₀ (fro_nonneg _) (by linarith) 2
          rw [fro_sq] at k3
          exact k1.trans k3
      have e0 := eps_pos
      have g0 : 0 ≤ (if over = 0 then (0 : ℝ) else fro (B - X)) + ε * fro B :=
        add_nonneg (by split_ifs <;> first | exact le_rfl | exact fro_nonneg _) (mul_nonneg hε b0)
      have s0 : 0 ≤ 10 * eps * Real.sqrt c := by positivity
      have : fro (U' * diagonal (fun i : Fin (min c n) => if i.1 < r then 0 else σ i) * V') ≤
          ((if over = 0 then 0 else fro (B - X)) + ε * fro B) + 10 * eps * Real.sqrt c := by
        rw [fro_le_iff_sq (by linarith)]
        refine hsum.trans ?_
        have e1 : (c : ℝ) * (10 * eps) ^ 2 = (10 * eps * Real.sqrt c) ^ 2 := by
          rw [mul_pow (10 * eps) (Real.sqrt c), Real.sq_sqrt (Nat.cast_nonneg c)]; ring
        rw [e1]
        nlinarith [mul_nonneg g0 s0]
      linarith
    -- perturbation of the factors
    have hT : fro (UJ' * D * VJ' - UJ * D * VJ) ≤ 6 * ε * fro B := by
      have e1 : UJ' * D * VJ' - UJ * D * VJ = -((UJ - UJ') * (D * VJ)) + -(UJ' * (D * (VJ - VJ'))) := by
        simp only [Matrix.sub_mul, Matrix.mul_sub, Matrix.mul_assoc]
        abel
      rw [e1]
      refine (fro_triangle _ _).trans ?_
      have n1 : ∀ {a b : ℕ} (M : Matrix (Fin a) (Fin b) ℝ), fro (-M) = fro M := fun M => by unfold fro; rw [froSq_neg]
      rw [n1, n1, fro_orth_mul oU]
      have k1 : fro ((UJ - UJ') * (D * VJ)) ≤ ε * (4 * fro B) :=
        (fro_mul_le _ _).trans (mul_le_mul dU hDV (fro_nonneg _) hε)
      linarith
    have hUbD : fro (Q * (UJ * D * VJ) - Ub * D * VJ) ≤ ε * fro Q * (Real.sqrt c + 1) * (4 * fro B) := by
      have e1 : Q * (UJ * D * VJ) - Ub * D * VJ = (Q * UJ - Ub) * (D * VJ) := by
        simp only [Matrix.sub_mul, Matrix.mul_assoc]
      rw [e1]
      refine (fro_mul_le _ _).trans ?_
      rw [fro_sub_comm]
      exact mul_le_mul hmulQ hDV (fro_nonneg _)
        (mul_nonneg (mul_nonneg hε hQ0) (by linarith [Real.sqrt_nonneg (c : ℝ)]))
    have hBT : fro (B - UJ * D * VJ) ≤ (if over = 0 then 0 else fro (B - X)) + 10 * eps * Real.sqrt c + 8 * ε * fro B := by
      have k1 := fro_sub_le B (U' * diagonal σ * V') (UJ * D * VJ)
      have k2 := fro_sub_le (U' * diagonal σ * V') (UJ' * D * VJ') (UJ * D * VJ)
      rw [fro_sub_comm B (U' * diagonal σ * V')] at k1
      linarith
    have k1 := fro_sub_le A (Q * B) (Ub * D * VJ)
    have k2 := fro_sub_le (Q * B) (Q * (UJ * D * VJ)) (Ub * D * VJ)
    have k3 : fro (Q * B - Q * (UJ * D * VJ)) ≤ fro Q * ((if over = 0 then 0 else fro (B - X)) + 10 * eps * Real.sqrt c +
        8 * ε * fro B) := by
      rw [← Matrix.mul_sub]
      exact (fro_mul_le _ _).trans (mul_le_mul_of_nonneg_left hBT hQ0)
    have k4 : ε * fro Q * (Real.sqrt c + 1) * (4 * fro B) = fro Q * ((4 + 4 * Real.sqrt c) * ε * fro B) := by ring
    have : fro Q * ((if over = 0 then 0 else fro (B - X)) + 10 * eps * Real.sqrt c + (12 + 4 * Real.sqrt c) * ε * fro B) =
        fro Q * ((if over = 0 then 0 else fro (B - X)) + 10 * eps * Real.sqrt c + 8 * ε * fro B) +
        fro Q * ((4 + 4 * Real.sqrt c) * ε * fro B) := by ring
    rw [this]
    linarith
  · have hod : OrthoCols (Q' * UJ') := by
      unfold OrthoCols
      rw [transpose_mul, Matrix.mul_assoc, ← Matrix.mul_assoc Q'ᵀ, show Q'ᵀ * Q' = 1 from hQ', Matrix.one_mul]
      exact oU
    refine gram_near_orth hod ?_
    have e1 : Ub - Q' * UJ' = ((Ub - Q * UJ) + Q * (UJ - UJ')) + (Q - Q') * UJ' := by
      simp only [Matrix.sub_mul, Matrix.mul_sub]; abel
    rw [e1]
    refine (fro_triangle _ _).trans ?_
    have k1 := fro_triangle (Ub - Q * UJ) (Q * (UJ - UJ'))
    have k2 : fro (Q * (UJ - UJ')) ≤ fro Q * ε := (fro_mul_le _ _).trans (mul_le_mul_of_nonneg_left dU hQ0)
    have k3 : fro ((Q - Q') * UJ') ≤ δ := by
      have := fro_orth_transpose_mul_le oU (Q - Q')ᵀ
      rw [← transpose_mul, fro_tr, fro_tr] at this
      exact this.trans hδ
    rw [hζ]
    linarith

theorem qb2LoopFl_le {fl : FlAlg} {rf : RangeFinder G}
    (hrf : ∀ A k tol w out w', rf m n A k tol w = .ok (out, w') → (out.c : ℤ) ≤ k) {k : ℕ} {useTol : Prop} {ast : ℝ}
    (fuel : ℕ) : ∀ (st st' : QB2St m n) (w w' : World G), st.c ≤ k →
      qb2LoopFl fl rf k useTol ast fuel st w = .ok (st', w') → st'.c ≤ k := by
  induction fuel with
  | zero => intro st st' w w' _ h; cases h
  | succ fuel ih =>
    intro st st' w w' hk h
    unfold qb2LoopFl at h
    rw [Py.bind_ok_iff] at h
    obtain ⟨out, wd, hd, h⟩ := h
    obtain ⟨v, h1, rfl⟩ := qb2Draw_ok_iff.1 hd
    have hb : (qb2UpdateFl fl (qb2Blk k st.c st.blk) st out).c ≤ k := by
      change st.c + min m out.c ≤ k
      have := hrf _ _ _ _ _ _ h1
      have h2 : st.c + qb2Blk k st.c st.blk ≤ k := by unfold qb2Blk; split_ifs <;> omega
      have h3 : min m out.c ≤ out.c := min_le_right _ _
      omega
    split_ifs at h with h2 h3
    · cases h; exact hb
    · cases h; exact hb
    · exact ih _ _ _ _ hb h

theorem fro_of_cols {c : ℕ} {Q : Matrix (Fin m) (Fin c) ℝ} {ε : ℝ} (hε : 0 ≤ ε)
    (h : ∀ j, |norm2 (fun i => Q i j) - 1| ≤ ε) : fro Q ≤ (1 + ε) * Real.sqrt c := by
  rw [fro_le_iff_sq (mul_nonneg (by linarith) (Real.sqrt_nonneg _)), mul_pow, Real.sq_sqrt (Nat.cast_nonneg c)]
  have e : froSq Q = ∑ j, norm2 (fun i => Q i j) ^ 2 := by
    unfold froSq
    rw [Finset.sum_comm]
    refine Finset.sum_congr rfl fun j _ => ?_
    have h0 : 0 ≤ sqNorm (fun i => Q i j) := Finset.sum_nonneg fun _ _ => sq_nonneg _
    rw [norm2, Real.sq_sqrt h0]
    rfl
  rw [e]
  calc ∑ j, norm2 (fun i => Q i j) ^ 2 ≤ ∑ _j : Fin c, (1 + ε) ^ 2 :=
        Finset.sum_le_sum fun j _ => by
          have h1 := (abs_le.1 (h j)).2
          have h2 : norm2 (fun i => Q i j) ≤ 1 + ε := by linarith
          exact pow_le_pow_left₀ (Real.sqrt_nonneg _) h2 2
    _ = (1 + ε) ^ 2 * c := by rw [Finset.sum_const, Finset.card_univ, Fintype.card_fin, nsmul_eq_mul, mul_comm]

/-- **C81** (`svd1` with rounding errors): the driver returns singular values in order and at least `10 eps`, nearly
orthonormal right vectors, and, when the `c` columns it used internally are at most `k` and fewer than it could have used
(that is, the tolerance stopped it), an error of at most `roundBound θ c t ‖A‖` for the QB step, `10 eps c` for the dropped
singular values and a multiple of `ε ‖A‖` for the rest. -/
theorem C81_svd1_driver {fl : FlAlg} {N : ℕ} {ε : ℝ} (hfl : fl.Accurate N ε) (hε : 0 ≤ ε) (hm : m ≤ N) (hn : n ≤ N)
    (gen : SkOpGen G) (A : Matrix (Fin m) (Fin n) ℝ) (k over : ℕ) (tol : Tol) (p : ℤ) (blk : ℕ) (w w' : World G)
    (out : SVDOut m n) (h : svd1Fl fl gen A k over tol p blk w = .ok (out, w')) :
    ∃ c : ℕ, c ≤ k + over ∧ c ≤ min m n ∧ ∀ θ, θ = 7 * (2 + Real.sqrt c) * ε → θ ≤ 1 →
      Antitone out.s ∧ (∀ i, 10 * eps ≤ out.s i) ∧ fro (out.Vh * out.Vhᵀ - 1) ≤ 3 * ε ∧
      ∀ t, tol = .val t → 0 < t → c ≤ k → c < min (k + over) (min m n) →
        fro (A - out.U * diagonal out.s * out.Vh) ≤ roundBound θ c t * fro A + (1 + ε) * c * (10 * eps) +
          (1 + ε) * Real.sqrt c * ((12 + 4 * Real.sqrt c) * ε * Real.sqrt ((1 + 8 * θ) ^ (c + 1))) * fro A := by
  have hq : ∃ (qbo : QBOut m n) (v : World G), QB2Fl fl (RF1Fl fl (RS1Fl fl gen (p - 2) (orthFl fl) 1)) blk false m n A
      ((k + over : ℕ) : ℤ) tol w = .ok (qbo, v) := by
    unfold svd1Fl svd1CallFl at h
    rw [Py.bind_ok_iff] at h
    obtain ⟨qbo, v, h1, -⟩ := h
    exact ⟨qbo, v, h1⟩
  obtain ⟨qbo, v, hq⟩ := hq
  have hq' : ∃ A', qbBFl fl gen p blk false A ((k + over : ℕ) : ℤ) tol w = .ok ((qbo, A'), v) := by
    unfold QB2Fl at hq
    rw [Py.bind_ok_iff] at hq
    obtain ⟨⟨q, A'⟩, v', h1, h2⟩ := hq
    cases h2
    exact ⟨A', h1⟩
  obtain ⟨A', hq'⟩ := hq'
  have hc : qbo.c ≤ min (k + over) (min m n) := by
    have h0 := hq'
    unfold qbBFl qb2CallFl at h0
    rw [Py.bind_ok_iff] at h0
    obtain ⟨st, v0, h1, h⟩ := h0
    have hout : qbo.c = st.c := by cases h; rfl
    rw [hout]
    unfold qb2RunFl at h1
    rw [Py.bind_ok_iff] at h1
    obtain ⟨-, v1, -, h1⟩ := h1
    rw [Py.bind_ok_iff] at h1
    obtain ⟨k', v2, hk', h1⟩ := h1
    rw [Py.bind_ok_iff] at h1
    obtain ⟨-, v3, -, h1⟩ := h1
    have hkk : k' = min ((k + over : ℕ) : ℤ) (min m n : ℕ) := by
      split_ifs at hk' with hc
      · cases hk'; omega
      · rw [Py.bind_ok_iff] at hk'
        obtain ⟨-, v4, -, hk'⟩ := hk'
        cases hk'; omega
    have := qb2LoopFl_le (fun A k tol w Q w' hQ => by
      obtain ⟨h1, h2, S, v, v', -, -, hS, rfl⟩ := RF1Fl_open hQ
      have := RS1Fl_width (by omega) (by omega) (by omega) hS
      change ((min m S.c : ℕ) : ℤ) ≤ k
      omega) _ _ _ _ _ (Nat.zero_le _) h1
    omega
  refine ⟨qbo.c, by omega, by omega, fun θ hθ hθ1 => ?_⟩
  have hs0 : 0 ≤ Real.sqrt qbo.c := Real.sqrt_nonneg _
  have hε1 : ε ≤ 1 := by nlinarith
  obtain ⟨b1, -, -, b2, b3⟩ := C81_qb_b hfl hε hm hn gen p blk false A _ tol w v qbo A' hq' θ hθ hθ1
  obtain ⟨qbo', hqbo', g⟩ := C81_svd1 hfl hε hε1 hm hn _ A k over tol w w' out h
  have : qbo' = qbo := by
    rw [hq] at hqbo'
    cases hqbo'; rfl
  subst this
  obtain ⟨g1, g2, g3, g4, -⟩ := g (by omega)
  refine ⟨g1, g2, g3, fun t ht ht0 hck hstop => ?_⟩
  have k1 := b3 t ht ht0 (by omega)
  have k2 := g4 qbo'.B ((rank_le_height _).trans hck)
  have z0 : fro (0 : Matrix (Fin qbo'.c) (Fin n) ℝ) = 0 := by rw [fro, froSq_zero, Real.sqrt_zero]
  rw [sub_self, z0, ite_self, zero_add] at k2
  have k3 := fro_of_cols hε b1
  have hθ0 : 0 ≤ θ := by rw [hθ]; exact mul_nonneg (mul_nonneg (by norm_num) (by linarith)) hε
  have k4 : fro qbo'.B ≤ Real.sqrt ((1 + 8 * θ) ^ (qbo'.c + 1)) * fro A := by
    rw [← Real.sqrt_sq (fro_nonneg A), ← Real.sqrt_mul (pow_nonneg (by linarith) _)]
    exact Real.le_sqrt_of_sq_le b2
  have e0 := eps_pos
  have k5 : fro qbo'.Q * (10 * eps * Real.sqrt qbo'.c + (12 + 4 * Real.sqrt qbo'.c) * ε * fro qbo'.B) ≤
      (1 + ε) * Real.sqrt qbo'.c * (10 * eps * Real.sqrt qbo'.c +
        (12 + 4 * Real.sqrt qbo'.c) * ε * (Real.sqrt ((1 + 8 * θ) ^ (qbo'.c + 1)) * fro A)) := by
    have h1 : 0 ≤ (12 + 4 * Real.sqrt qbo'.c) * ε := by positivity
    refine mul_le_mul k3 ?_ (add_nonneg (by positivity) (mul_nonneg h1 (fro_nonneg _))) (by positivity)
    linarith [mul_le_mul_of_nonneg_left k4 h1]
  have e1 : (1 + ε) * Real.sqrt qbo'.c * (10 * eps * Real.sqrt qbo'.c +
        (12 + 4 * Real.sqrt qbo'.c) * ε * (Real.sqrt ((1 + 8 * θ) ^ (qbo'.c + 1)) * fro A)) =
      (1 + ε) * (Real.sqrt qbo'.c * Real.sqrt qbo'.c) * (10 * eps) + (1 + ε) * Real.sqrt qbo'.c *
        ((12 + 4 * Real.sqrt qbo'.c) * ε * Real.sqrt ((1 + 8 * θ) ^ (qbo'.c + 1))) * fro A := by ring
  rw [Real.mul_self_sqrt (Nat.cast_nonneg _)] at e1
  linarith

end Parla.Props
