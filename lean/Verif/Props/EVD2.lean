import Verif.Proof.EVD2
import Verif.Props.EVD1

/-! # Properties C16 – C17: `EVD2` and `evd2` -/

namespace Parla.Props

open Matrix Parla Spec

variable {G : Type} {n : ℕ}

theorem evd2Nu_nonneg {c : ℕ} (A : Matrix (Fin n) (Fin n) ℝ) (S : Matrix (Fin n) (Fin c) ℝ) :
    0 ≤ evd2Nu A S := by
  unfold evd2Nu eps
  exact mul_nonneg (mul_nonneg (Real.sqrt_nonneg _) (by positivity)) (fro_nonneg _)

theorem nystrom_gram_symm {c : ℕ} {A : Matrix (Fin n) (Fin n) ℝ} (hA : Aᵀ = A) (nu : ℝ)
    (S : Matrix (Fin n) (Fin c) ℝ) :
    (Sᵀ * (A * S + nu • S))ᵀ = Sᵀ * (A * S + nu • S) := by
  simp only [transpose_mul, transpose_add, transpose_smul, transpose_transpose, hA, Matrix.mul_add,
    Matrix.mul_assoc, Matrix.mul_smul]

/-- What a returned `evd2Post` computed. -/
theorem evd2Post_open (la : LinAlg) {A : Matrix (Fin n) (Fin n) ℝ} (hA : Aᵀ = A) {k : ℕ} {S : Cols n}
    {out : EVDOut n} (h : evd2Post la A k S = .ok out) :
    ∃ R B, Nystrom A (evd2Nu A S.mat) S.mat R B ∧ (∀ i ∈ List.range (k - 1), i + 1 < min n S.c) ∧
      ∃ r, r ≤ k ∧
        (∀ x < k - 1, ∀ h : x + 1 < min n S.c,
          (la.svdFull B).2.1 ⟨x + 1, h⟩ ^ 2 ≤ evd2Nu A S.mat → r ≤ x) ∧
        (r = k ∨ (r < k - 1 ∧ ∃ h : r + 1 < min n S.c,
          (la.svdFull B).2.1 ⟨r + 1, h⟩ ^ 2 ≤ evd2Nu A S.mat)) ∧
        out = ⟨min r (min n S.c), (la.svdFull B).1.submatrix id (minL ∘ takeIdx r (min n S.c)),
          fun i => takev r (la.svdFull B).2.1 i ^ 2 - evd2Nu A S.mat⟩ := by
  unfold evd2Post at h
  simp only [bind, Except.bind] at h
  set nu := evd2Nu A S.mat with hnu
  cases hch : la.cholesky (S.matᵀ * (A * S.mat + nu • S.mat)) with
  | error e => rw [hch] at h; cases h
  | ok R =>
    rw [hch] at h
    simp only at h
    obtain ⟨hpd, hRR, hup, hpos⟩ := chol_ok la (nystrom_gram_symm hA nu S.mat) hch
    have hd : ¬ ∃ i, R i i = 0 := by rintro ⟨i, hi⟩; exact (hpos i).ne' hi
    rw [solveUpperT, if_neg hd, triu_eq_self hup] at h
    simp only at h
    set B := ((Rᵀ)⁻¹ * (A * S.mat + nu • S.mat)ᵀ)ᵀ with hB
    have hu := upper_isUnit hup hpos
    have hny : Nystrom A nu S.mat R B := by
      refine ⟨hu, hRR, ?_⟩
      rw [hB, transpose_mul, transpose_transpose, transpose_nonsing_inv, transpose_transpose,
        Matrix.mul_assoc, nonsing_inv_mul _ hu, Matrix.mul_one]
    cases hcp : evd2Comps (la.svdFull B).2.1 nu [k] (List.range (k - 1)) with
    | error e => rw [hcp] at h; cases h
    | ok comps =>
      rw [hcp] at h
      simp only at h
      obtain ⟨h1, h2⟩ := evd2Comps_ok _ _ _ hcp
      obtain ⟨m1, m2, m3⟩ := foldl_min_spec comps k
      refine ⟨R, B, hny, h1, comps.foldl min k, m1, ?_, ?_, ?_⟩
      · intro x hx hxp hs
        refine m2 x ((h2 x).2 (Or.inr ⟨List.mem_range.2 hx, hxp, hs⟩))
      · rcases m3 with m3 | m3
        · exact Or.inl m3
        · rcases (h2 _).1 m3 with m3 | ⟨m3, m4⟩
          · left; simpa using m3
          · exact Or.inr ⟨List.mem_range.1 m3, m4⟩
      · cases h; rfl

theorem evd2_open (la : LinAlg) (skOp : RowSketcher G) (A : Matrix (Fin n) (Fin n) ℝ) (k : ℤ)
    (tol : Tol) (over : ℕ) (w w' : World G) (out : EVDOut n)
    (h : evd2Call la skOp A k tol over w = .ok (out, w')) :
    0 < k ∧ k < n ∧ ∃ S w1, skOp n n A (k + over).toNat (afterTolWarning tol w) = .ok (S, w1) ∧
      evd2Post la A k.toNat S = .ok out := by
  unfold evd2Call at h
  rw [Py.bind_ok_iff] at h; obtain ⟨_, w0, ha, h⟩ := h
  rw [Py.assert_ok_iff] at ha; obtain ⟨hk, rfl⟩ := ha
  rw [Py.bind_ok_iff] at h; obtain ⟨_, w0, ha, h⟩ := h
  rw [Py.assert_ok_iff] at ha; obtain ⟨hk', rfl⟩ := ha
  have h : (skOp n n A (k + over).toNat >>= fun S => (Py.emit .mulA : Py G Unit) >>= fun _ =>
      Py.lift (evd2Post la A k.toNat S)) (afterTolWarning tol w0) = .ok (out, w') := by
    cases tol with
    | nan => exact h
    | val t => exact h
  rw [Py.bind_ok_iff] at h; obtain ⟨S, w3, hS, h⟩ := h
  rw [Py.bind_ok_iff] at h; obtain ⟨_, w4, -, h⟩ := h
  rw [Py.lift_ok_iff] at h
  exact ⟨hk, hk', S, w3, hS, h.1⟩

/-- **C16**.  Whenever EVD2 returns on a symmetric positive semidefinite `A`: the sketcher was
asked for `k + over` columns and returned some `S`; at most `k` components come back, `V` has
orthonormal columns, `lamb` is non-increasing and non-negative, and
`0 ≤ V diag(lamb) V' ≤ A + nu I` with `nu = sqrt(n) * eps * ‖A S‖_F`. -/
theorem C16_evd2_psd (la : LinAlg) (skOp : RowSketcher G) (A : Matrix (Fin n) (Fin n) ℝ)
    (hA : IsPSD A) (k : ℤ) (tol : Tol) (over : ℕ) (w w' : World G) (out : EVDOut n)
    (h : evd2Call la skOp A k tol over w = .ok (out, w')) :
    0 < k ∧ k < n ∧ ∃ S w1, skOp n n A (k + over).toNat (afterTolWarning tol w) = .ok (S, w1) ∧
      (out.r : ℤ) ≤ k ∧ OrthoCols out.V ∧ Antitone out.lamb ∧ (∀ i, 0 ≤ out.lamb i) ∧
      IsPSD (out.V * diagonal out.lamb * out.Vᵀ) ∧
      LoewnerLE (out.V * diagonal out.lamb * out.Vᵀ)
        (A + (Real.sqrt n * eps * fro (A * S.mat)) • 1) := by
  obtain ⟨hk, hk', S, w1, hS, hp⟩ := evd2_open la skOp A k tol over w w' out h
  refine ⟨hk, hk', S, w1, hS, ?_⟩
  obtain ⟨R, B, hny, -, r, hr, -, -, rfl⟩ := evd2Post_open la hA.1 hp
  have hnu := evd2Nu_nonneg A S.mat
  have hge := hny.sigma_ge la hA hnu
  set nu := evd2Nu A S.mat with hnudef
  set W : Matrix (Fin n) (Fin (min r (min n S.c))) ℝ :=
    (la.svdFull B).1.submatrix id (minL ∘ takeIdx r (min n S.c)) with hW
  set d : Fin (min r (min n S.c)) → ℝ := fun i => takev r (la.svdFull B).2.1 i ^ 2 - nu with hd
  have hinj : Function.Injective ((minL : Fin (min n S.c) → Fin n) ∘ takeIdx r (min n S.c)) :=
    minL_injective.comp (takeIdx_injective _ _)
  have hWo : Wᵀ * W = 1 := orth_submatrix (la.svdFull_left B) hinj
  have hd0 : ∀ i, 0 ≤ d i := fun i => by
    have := hge (takeIdx r (min n S.c) i)
    show 0 ≤ (la.svdFull B).2.1 (takeIdx r _ i) ^ 2 - nu
    linarith
  refine ⟨?_, hWo, ?_, hd0, ⟨?_, ?_⟩, ?_⟩
  · show ((min r (min n S.c) : ℕ) : ℤ) ≤ k
    omega
  · intro i j hij
    have h1 := la.svdFull_anti B (show takeIdx r (min n S.c) i ≤ takeIdx r (min n S.c) j from hij)
    have h2 := la.svdFull_nonneg B (takeIdx r (min n S.c) j)
    have := pow_le_pow_left₀ h2 h1 2
    show (la.svdFull B).2.1 (takeIdx r _ j) ^ 2 - nu ≤ (la.svdFull B).2.1 (takeIdx r _ i) ^ 2 - nu
    linarith
  · show (W * diagonal d * Wᵀ)ᵀ = W * diagonal d * Wᵀ
    simp only [transpose_mul, transpose_transpose, diagonal_transpose, Matrix.mul_assoc]
  · intro x
    show 0 ≤ x ⬝ᵥ ((W * diagonal d * Wᵀ) *ᵥ x)
    rw [quad_diag]
    exact Finset.sum_nonneg fun i _ => mul_nonneg (hd0 i) (sq_nonneg _)
  · intro x
    show x ⬝ᵥ ((W * diagonal d * Wᵀ) *ᵥ x) ≤ x ⬝ᵥ ((A + nu • 1) *ᵥ x)
    rw [quad_diag, add_mulVec, smul_mulVec, one_mulVec, dotProduct_add, dotProduct_smul, smul_eq_mul,
      ← sqNorm_eq_dot]
    refine le_trans ?_ (hny.le hA hnu x)
    -- `Bᵀ x` in the right singular basis
    obtain ⟨hU, hV⟩ := svdFull_econ la B
    set U := (la.svdFull B).1.submatrix id (minL : Fin (min n S.c) → Fin n)
    set V := (la.svdFull B).2.2.submatrix (minR : Fin (min n S.c) → Fin S.c) id
    have hBt : sqNorm (Bᵀ *ᵥ x) = ∑ i, (la.svdFull B).2.1 i ^ 2 * (Uᵀ *ᵥ x) i ^ 2 := by
      have e : Bᵀ *ᵥ x = Vᵀ *ᵥ (diagonal (la.svdFull B).2.1 *ᵥ (Uᵀ *ᵥ x)) := by
        conv_lhs => rw [← la.svdFull_mul B]
        simp only [transpose_mul, diagonal_transpose, mulVec_mulVec]
        rfl
      rw [e, ← sqNorm_diag, sqNorm_eq_dot, dot_mulVec, transpose_transpose, mulVec_mulVec, hV,
        one_mulVec, ← sqNorm_eq_dot]
    rw [hBt]
    have hle : ∀ i : Fin (min r (min n S.c)), d i * (Wᵀ *ᵥ x) i ^ 2 ≤
        (fun j => (la.svdFull B).2.1 j ^ 2 * (Uᵀ *ᵥ x) j ^ 2) (takeIdx r (min n S.c) i) := by
      intro i
      have : (Wᵀ *ᵥ x) i = (Uᵀ *ᵥ x) (takeIdx r (min n S.c) i) := rfl
      rw [this]
      refine mul_le_mul_of_nonneg_right ?_ (sq_nonneg _)
      show (la.svdFull B).2.1 (takeIdx r _ i) ^ 2 - nu ≤ _
      linarith
    refine (Finset.sum_le_sum fun i _ => hle i).trans ?_
    rw [← Finset.sum_image (f := fun j => (la.svdFull B).2.1 j ^ 2 * (Uᵀ *ᵥ x) j ^ 2)
      (g := takeIdx r (min n S.c)) (s := Finset.univ) (fun a _ b _ e => takeIdx_injective _ _ e)]
    exact Finset.sum_le_sum_of_subset_of_nonneg (Finset.subset_univ _) fun i _ _ =>
      mul_nonneg (sq_nonneg _) (sq_nonneg _)

/-- **C16** (EVD2 does return): on a positive semidefinite `A`, `0 < k < n`, if the sketcher
returns an `S` with at least `k` independent columns and `A S ≠ 0`. -/
theorem C16_evd2_returns (la : LinAlg) (skOp : RowSketcher G) (A : Matrix (Fin n) (Fin n) ℝ)
    (hA : IsPSD A) (k : ℤ) (hk : 0 < k) (hk' : k < n) (tol : Tol) (over : ℕ) (w w1 : World G)
    (S : Cols n) (hS : skOp n n A (k + over).toNat (afterTolWarning tol w) = .ok (S, w1))
    (hfull : FullColRank S.mat) (hc : k ≤ S.c) (h0 : A * S.mat ≠ 0) :
    ∃ out w', evd2Call la skOp A k tol over w = .ok (out, w') := by
  have hnpos : (0 : ℝ) < n := by exact_mod_cast (by omega : 0 < n)
  have hnu : 0 < evd2Nu A S.mat := by
    unfold evd2Nu eps
    exact mul_pos (mul_pos (Real.sqrt_pos.2 hnpos) (by positivity))
      (lt_of_le_of_ne (fro_nonneg _) (fun h => h0 (fro_eq_zero.1 h.symm)))
  have hcn : S.c ≤ n := by
    have := Matrix.rank_le_height S.mat
    have hf : S.mat.rank = S.c := hfull
    omega
  set nu := evd2Nu A S.mat with hnud
  have hpd : (S.matᵀ * (A * S.mat + nu • S.mat)).PosDef := by
    refine posDef_of_quad (nystrom_gram_symm hA.1 nu S.mat) fun x hx => ?_
    have e : x ⬝ᵥ ((S.matᵀ * (A * S.mat + nu • S.mat)) *ᵥ x) =
        (S.mat *ᵥ x) ⬝ᵥ (A *ᵥ (S.mat *ᵥ x)) + nu * sqNorm (S.mat *ᵥ x) := by
      rw [← mulVec_mulVec, dot_mulVec, transpose_transpose, add_mulVec, smul_mulVec, dotProduct_add,
        dotProduct_smul, smul_eq_mul, ← sqNorm_eq_dot, ← mulVec_mulVec]
    rw [e]
    have h1 := hA.2 (S.mat *ᵥ x)
    have h2 : 0 < sqNorm (S.mat *ᵥ x) := by
      refine lt_of_le_of_ne (sqNorm_nonneg _) fun h => hx ?_
      exact fullColRank_iff_inj.1 hfull x (sqNorm_eq_zero.1 h.symm)
    nlinarith [mul_pos hnu h2]
  obtain ⟨R, hR, -, hup, hpos⟩ := la.chol_posDef _ hpd
  have hd : ¬ ∃ i, R i i = 0 := by rintro ⟨i, hi⟩; exact (hpos i).ne' hi
  have hpost : ∃ out, evd2Post la A k.toNat S = .ok out := by
    unfold evd2Post
    simp only [bind, Except.bind]
    rw [hR]
    simp only
    rw [solveUpperT, if_neg hd]
    simp only
    obtain ⟨comps, hcomps⟩ := evd2Comps_total
      (la.svdFull (((triu R)ᵀ)⁻¹ * (A * S.mat + nu • S.mat)ᵀ)ᵀ).2.1 nu (List.range (k.toNat - 1))
      [k.toNat] (by intro i hi; have := List.mem_range.1 hi; omega)
    rw [hcomps]
    exact ⟨_, rfl⟩
  obtain ⟨out, hout⟩ := hpost
  refine ⟨out, { w1 with trace := w1.trace ++ [Ev.mulA] }, ?_⟩
  unfold evd2Call
  rw [Py.assert_pos_bind hk, Py.assert_pos_bind hk']
  have h2 : (skOp n n A (k + over).toNat >>= fun S => (Py.emit .mulA : Py G Unit) >>= fun _ =>
      Py.lift (evd2Post la A k.toNat S)) (afterTolWarning tol w) =
      .ok (out, { w1 with trace := w1.trace ++ [Ev.mulA] }) := by
    rw [Py.bind_eq_of_ok hS, Py.bind_eq_of_ok (Py.emit_apply _ _), hout]
    rfl
  cases tol with
  | nan => exact h2
  | val t => exact h2

/-- **C17** (what the code returns, exactly).  On a positive semidefinite `A`, when EVD2 returns
with a sketch `S` of at least `k` columns, the number of components is `k` if
`k ≤ rank(A S)`, and `rank(A S) - 1` otherwise. -/
theorem C17_evd2_rank (la : LinAlg) (skOp : RowSketcher G) (A : Matrix (Fin n) (Fin n) ℝ)
    (hA : IsPSD A) (k : ℤ) (tol : Tol) (over : ℕ) (w w1 w' : World G) (out : EVDOut n) (S : Cols n)
    (hS : skOp n n A (k + over).toNat (afterTolWarning tol w) = .ok (S, w1)) (hc : k ≤ S.c)
    (h : evd2Call la skOp A k tol over w = .ok (out, w')) :
    1 ≤ (A * S.mat).rank ∧
    ((k ≤ (A * S.mat).rank → (out.r : ℤ) = k) ∧
     ((A * S.mat).rank < k → out.r + 1 = (A * S.mat).rank)) := by
  obtain ⟨hk, hk', S', w2, hS', hp⟩ := evd2_open la skOp A k tol over w w' out h
  rw [hS] at hS'; cases hS'
  obtain ⟨R, B, hny, -, r, hr, hr2, hr3, rfl⟩ := evd2Post_open la hA.1 hp
  have hnu := evd2Nu_nonneg A S.mat
  have hrank := hny.rank la hA hnu
  have hcn := hny.width
  have hp0 : 0 < S.c := by omega
  have h1 : 1 ≤ (A * S.mat).rank := by
    by_contra hlt
    have h0 : (A * S.mat).rank = 0 := by omega
    have h0 : A * S.mat = 0 := by
      have h2 : LinearMap.range (A * S.mat).mulVecLin = ⊥ := by
        rw [← Submodule.finrank_eq_zero]; exact h0
      rw [LinearMap.range_eq_bot] at h2
      ext i j
      have := congrFun (congrArg (fun f => f (Pi.single j 1)) h2) i
      simp only [mulVecLin_apply, mulVec_single_one] at this
      exact this
    -- then `Y = 0` and the Gram matrix is zero, hence not invertible
    have hnu0 : evd2Nu A S.mat = 0 := by unfold evd2Nu; rw [h0, fro_zero, mul_zero]
    have hg := hny.gram
    rw [h0, hnu0, zero_smul, add_zero, Matrix.mul_zero] at hg
    have hR := hny.unit
    have hz : R = 0 := by
      have : froSq R = 0 := by rw [froSq_eq_trace, hg]; simp
      exact froSq_eq_zero.1 this
    have : Nonempty (Fin S.c) := ⟨⟨0, hp0⟩⟩
    rw [hz, Matrix.det_zero] at hR
    exact hR.ne_zero rfl
  refine ⟨h1, ?_, ?_⟩
  · intro hkr
    show ((min r (min n S.c) : ℕ) : ℤ) = k
    have : r = k.toNat := by
      rcases hr3 with h3 | ⟨h3, h4, h5⟩
      · exact h3
      · exfalso
        have := (hrank ⟨r + 1, h4⟩).2 (by show r + 1 < _; omega)
        linarith
    omega
  · intro hkr
    show min r (min n S.c) + 1 = _
    set ρ := (A * S.mat).rank with hρ
    have hup : r ≤ ρ - 1 := by
      refine hr2 (ρ - 1) (by omega) (by omega) ?_
      by_contra hgt
      have := (hrank ⟨ρ - 1 + 1, by omega⟩).1 (by linarith [not_le.1 hgt])
      have h2 : ρ - 1 + 1 < ρ := this
      omega
    have hlo : ρ ≤ r + 1 := by
      rcases hr3 with h3 | ⟨h3, h4, h5⟩
      · omega
      · by_contra hlt
        have := (hrank ⟨r + 1, h4⟩).2 (by show r + 1 < ρ; omega)
        linarith
    omega

/-- **C17** (refutation).  The documented count `min(k, rank A)` is wrong for *every* positive
semidefinite `A` with `1 ≤ rank A < k`, whatever the sketch: at most `rank(A) - 1` components
come back. -/
theorem C17_evd2_rank_false (la : LinAlg) (skOp : RowSketcher G) (A : Matrix (Fin n) (Fin n) ℝ)
    (hA : IsPSD A) (k : ℤ) (hrk : (A.rank : ℤ) < k) (tol : Tol) (over : ℕ)
    (w w1 w' : World G) (out : EVDOut n) (S : Cols n)
    (hS : skOp n n A (k + over).toNat (afterTolWarning tol w) = .ok (S, w1)) (hc : k ≤ S.c)
    (h : evd2Call la skOp A k tol over w = .ok (out, w')) :
    (out.r : ℤ) < min k A.rank := by
  obtain ⟨h1, -, h3⟩ := C17_evd2_rank la skOp A hA k tol over w w1 w' out S hS hc h
  have hle : (A * S.mat).rank ≤ A.rank := Matrix.rank_mul_le_left _ _
  have := h3 (by omega)
  omega

-- the hypotheses of C16_evd2_returns and C17_evd2_rank_false are met: A = diag(1,0,0), k = 2
example (w : World G) : ∃ (A : Matrix (Fin 3) (Fin 3) ℝ) (S : Cols 3) (w1 : World G),
    IsPSD A ∧ (coordSketcher (G := G)) 3 3 A ((2 : ℤ) + ((0 : ℕ) : ℤ)).toNat
      (afterTolWarning .nan w) = .ok (S, w1) ∧ FullColRank S.mat ∧ (2 : ℤ) ≤ S.c ∧
      A * S.mat ≠ 0 ∧ (A.rank : ℤ) < 2 := by
  refine ⟨diagonal ![1, 0, 0], _, _, ⟨by simp, fun x => ?_⟩, rfl, ?_, by simp, ?_, ?_⟩
  · simp only [dotProduct, Fin.sum_univ_three, mulVec_diagonal]
    simp
    nlinarith [sq_nonneg (x 0)]
  · rw [fullColRank_iff_inj]
    intro x hx
    funext j
    have hj : j.1 < 2 := j.2
    have := congrFun hx ⟨j.1, by omega⟩
    simp only [mulVec, dotProduct, of_apply, Pi.zero_apply] at this
    rw [Finset.sum_eq_single j] at this
    · simpa using this
    · intro b _ hb
      rw [if_neg (fun e => hb (Fin.ext e.symm)), zero_mul]
    · simp
  · intro h
    have := congrFun (congrFun h 0) ⟨0, by simp⟩
    simp [Matrix.mul_apply] at this
  · rw [rank_diagonal]
    have : Fintype.card {i : Fin 3 // (![1, 0, 0] : Fin 3 → ℝ) i ≠ 0} ≤ 1 := by
      rw [Fintype.card_le_one_iff_subsingleton]
      refine ⟨?_⟩
      rintro ⟨a, ha⟩ ⟨b, hb⟩
      fin_cases a <;> fin_cases b <;>
        first | rfl | exact absurd rfl ha | exact absurd rfl hb
    omega

end Parla.Props
