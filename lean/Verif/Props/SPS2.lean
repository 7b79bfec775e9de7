import Verif.Props.SPU1
import Verif.Model.SaddleSys

/-! # Property C40: `SPS2`

`sps2Call la gen sf solver A b c δ tol L logging clock w` is a call of an `SPS2` object with the
iterative solver `solver`; `PcSS2` is the default one.  `b.getD 0` and `cVec c` are the right-hand
sides with `None` read as zero. -/

namespace Parla.Props

open Matrix Parla Spec

variable {G : Type} {m n d : ℕ}

/-! ### The transformed right-hand side -/

theorem precOut_adj {la : LinAlg} {p : ℕ} {B : Matrix (Fin p) (Fin n) ℝ} {o : PrecOut p n}
    (h : svdRightPrecond la B = .ok o) : Bᵀ * o.U = o.Vhᵀ * diagonal o.sigma := by
  obtain ⟨h0, hr, hU, hs, hV, -, -⟩ := svdRightPrecond_open la B o h
  have h1 : Bᵀ * (la.svd B).1 = (la.svd B).2.2ᵀ * diagonal (la.svd B).2.1 := by
    have e : Bᵀ = (la.svd B).2.2ᵀ * (diagonal (la.svd B).2.1 * (la.svd B).1ᵀ) := by
      conv_lhs => rw [← la.svd_mul B]
      rw [transpose_mul, transpose_mul, diagonal_transpose]
    rw [e, Matrix.mul_assoc, Matrix.mul_assoc, la.svd_left, Matrix.mul_one]
  have h2 : Bᵀ * o.U = (Bᵀ * (la.svd B).1).submatrix id (Fin.castLE hr) := by
    rw [hU]; rfl
  rw [h2, h1, hs, hV]
  ext i j
  simp [mul_diagonal]

theorem precOut_MT {la : LinAlg} {p : ℕ} {B : Matrix (Fin p) (Fin n) ℝ} {o : PrecOut p n}
    (h : svdRightPrecond la B = .ok o) (c : Fin n → ℝ) :
    (fun j => 1 / o.sigma j * (o.Vh *ᵥ c) j) = o.Mᵀ *ᵥ c := by
  obtain ⟨-, -, -, h4, -, h6, -⟩ := C26_svd_right_precond la B o h
  funext j
  have hj := (h4 j).ne'
  rw [one_div, inv_mul_eq_iff_eq_mul₀ hj]
  simp only [mulVec, dotProduct, Finset.mul_sum, transpose_apply]
  refine Finset.sum_congr rfl fun i _ => ?_
  rw [← h6 i j]; ring

theorem precOut_VM {la : LinAlg} {p : ℕ} {B : Matrix (Fin p) (Fin n) ℝ} {o : PrecOut p n}
    (h : svdRightPrecond la B = .ok o) (c : Fin n → ℝ) :
    Bᵀ *ᵥ (o.U *ᵥ fun j => 1 / o.sigma j * (o.Vh *ᵥ c) j) = o.Vhᵀ *ᵥ (o.Vh *ᵥ c) := by
  obtain ⟨-, -, -, h4, -, h6, -⟩ := C26_svd_right_precond la B o h
  rw [mulVec_mulVec, precOut_adj h, ← mulVec_mulVec]
  congr 1
  funext j
  rw [mulVec_diagonal, ← mul_assoc, mul_one_div_cancel (h4 j).ne', one_mul]

/-- the value of `A_aug' b_aug` -/
theorem sps2_rhs {la : LinAlg} {δ : ℝ} (S : Matrix (Fin d) (Fin m) ℝ)
    (A : Matrix (Fin m) (Fin n) ℝ) {o : PrecOut (d + liftRows n (Real.sqrt δ)) n}
    (ho : svdRightPrecond la (aLift (S * A) (Real.sqrt δ)) = .ok o) (b : Fin m → ℝ)
    (c : Option (Fin n → ℝ)) :
    (aLift A (Real.sqrt δ))ᵀ *ᵥ sps2Rhs S o b c = Aᵀ *ᵥ b - o.Vhᵀ *ᵥ (o.Vh *ᵥ cVec c) := by
  have h0 : (aLift A (Real.sqrt δ))ᵀ *ᵥ catv b 0 = Aᵀ *ᵥ b := by
    rw [aLift_T_mulVec, topv_catv, botv_catv, padv_zero, smul_zero, add_zero]
  cases c with
  | none =>
    show (aLift A (Real.sqrt δ))ᵀ *ᵥ catv b 0 = Aᵀ *ᵥ b - o.Vhᵀ *ᵥ (o.Vh *ᵥ 0)
    rw [h0, mulVec_zero, mulVec_zero, sub_zero]
  | some c =>
    by_cases hc : norm2 c > 0
    · unfold sps2Rhs
      simp only [if_pos hc]
      have h1 := precOut_VM ho c
      rw [aLift_T_mulVec] at h1
      show _ = Aᵀ *ᵥ b - o.Vhᵀ *ᵥ (o.Vh *ᵥ c)
      rw [aLift_T_mulVec, topv_catv, botv_catv, padv_sub, padv_zero, ← h1, mulVec_sub, transpose_mul,
        ← mulVec_mulVec]
      module
    · have hc0 : c = 0 := by
        by_contra hne
        exact hc (norm2_pos.2 hne)
      unfold sps2Rhs
      simp only [if_neg hc]
      show _ = Aᵀ *ᵥ b - o.Vhᵀ *ᵥ (o.Vh *ᵥ c)
      rw [h0, hc0, mulVec_zero, mulVec_zero, sub_zero]

/-- a square matrix with orthonormal rows has orthonormal columns -/
theorem square_orthRows {k : ℕ} (hk : k = n) {V : Matrix (Fin k) (Fin n) ℝ} (h : V * Vᵀ = 1) :
    Vᵀ * V = 1 := by
  subst hk; exact mul_eq_one_comm.1 h

/-- **C40** (reduction).  `b_aug` satisfies `A_aug' b_aug = A'b - V V' c`, where the columns of `V`
are the right singular vectors kept by the preconditioner; if the lifted sketch has numerically
full column rank this is `A'b - c`. -/
theorem C40_sps2_rhs (la : LinAlg) (S : Matrix (Fin d) (Fin m) ℝ) (A : Matrix (Fin m) (Fin n) ℝ)
    (δ : ℝ) (b : Fin m → ℝ) (c : Option (Fin n → ℝ))
    (o : PrecOut (d + liftRows n (Real.sqrt δ)) n)
    (ho : svdRightPrecond la (aLift (S * A) (Real.sqrt δ)) = .ok o) :
    (aLift A (Real.sqrt δ))ᵀ *ᵥ sps2Rhs S o b c = Aᵀ *ᵥ b - o.Vhᵀ *ᵥ (o.Vh *ᵥ cVec c) ∧
    (o.r = n → (aLift A (Real.sqrt δ))ᵀ *ᵥ sps2Rhs S o b c = Aᵀ *ᵥ b - cVec c) ∧
    (WellCond (aLift (S * A) (Real.sqrt δ)) →
      (aLift A (Real.sqrt δ))ᵀ *ᵥ sps2Rhs S o b c = Aᵀ *ᵥ b - cVec c) := by
  have h1 := sps2_rhs S A ho b c
  obtain ⟨-, -, h3, -⟩ := C26_svd_right_precond la _ o ho
  have h2 : o.r = n → (aLift A (Real.sqrt δ))ᵀ *ᵥ sps2Rhs S o b c = Aᵀ *ᵥ b - cVec c := by
    intro hr
    rw [h1, mulVec_mulVec, square_orthRows hr h3, one_mulVec]
  exact ⟨h1, h2, fun hw => h2 (WellCond.no_truncation la hw ho)⟩

/-! ### The call -/

/-- opening a successful call of `SPS2` -/
theorem sps2_ok {la : LinAlg} {gen : SkOpGen G} {sf : ℝ} {solver : SaddleSolver}
    {A : Matrix (Fin m) (Fin n) ℝ} {b : Option (Fin m → ℝ)} {c : Option (Fin n → ℝ)} {δ tol : ℝ} {L : ℤ}
    {logging : Bool} {clock : LogTimes} {w w' : World G} {out : SPSOut m n}
    (h : sps2Call la gen sf solver A b c δ tol L logging clock w = .ok (out, w')) :
    ∃ (d : ℕ) (S : Matrix (Fin d) (Fin m) ℝ) (w₁ : World G)
      (o : PrecOut (d + liftRows n (Real.sqrt δ)) n) (res : SaddleOut _ n),
      n ≤ d ∧ d ≤ m ∧ (dimChecks sf m n : Py G ℕ) w = .ok (d, w₁) ∧ gen d m w₁ = .ok (S, w') ∧
      svdRightPrecond la (aLift (S * A) (Real.sqrt δ)) = .ok o ∧
      solver _ n (aLift A (Real.sqrt δ)) (.vec (sps2Rhs S o (b.getD 0) c)) none 0 tol L
        (.gen o.r o.M) (sps2Start S o (aLift A (Real.sqrt δ)) (sps2Rhs S o (b.getD 0) c)) = .ok res ∧
      out.x = res.x ∧ out.y = res.x.map (fun x => b.getD 0 - A *ᵥ x) ∧
      finishLog logging clock res.errs (norm2 (o.Mᵀ *ᵥ ((aLift A (Real.sqrt δ))ᵀ *ᵥ
        sps2Rhs S o (b.getD 0) c))) = .ok out.log := by
  unfold sps2Call at h
  rw [Py.bind_ok_iff] at h
  obtain ⟨d, w₁, h1, h⟩ := h
  rw [Py.bind_ok_iff] at h
  obtain ⟨S, w₂, h2, h⟩ := h
  rw [Py.lift_ok_iff] at h
  obtain ⟨h, rfl⟩ := h
  obtain ⟨-, -, h3, h4, -⟩ := dimChecks_ok h1
  unfold sps2Post at h
  cases ho : svdRightPrecond la (aLift (S * A) (Real.sqrt δ)) with
  | error e => simp only [ho, bind, Except.bind] at h; cases h
  | ok o =>
    simp only [ho, bind, Except.bind] at h
    cases hr : solver _ n (aLift A (Real.sqrt δ)) (.vec (sps2Rhs S o (b.getD 0) c)) none 0 tol L
        (.gen o.r o.M) (sps2Start S o (aLift A (Real.sqrt δ)) (sps2Rhs S o (b.getD 0) c)) with
    | error e => rw [hr] at h; cases h
    | ok res =>
      rw [hr] at h
      simp only at h
      cases hl : finishLog logging clock res.errs (norm2 (o.Mᵀ *ᵥ ((aLift A (Real.sqrt δ))ᵀ *ᵥ
        sps2Rhs S o (b.getD 0) c))) with
      | error e => rw [hl] at h; cases h
      | ok lg =>
        rw [hl] at h
        cases h
        exact ⟨d, S, w₁, o, res, h3, h4, h1, h2, ho, hr, rfl, rfl, hl⟩

/-- **C40** (the second component).  Whatever the solver, the returned `y` is `b - A x` for the
returned `x` (with `b = 0` if absent). -/
theorem C40_sps2_y (la : LinAlg) (gen : SkOpGen G) (sf : ℝ) (solver : SaddleSolver)
    (A : Matrix (Fin m) (Fin n) ℝ) (b : Option (Fin m → ℝ)) (c : Option (Fin n → ℝ)) (δ tol : ℝ) (L : ℤ)
    (logging : Bool) (clock : LogTimes) (w w' : World G) (out : SPSOut m n)
    (h : sps2Call la gen sf solver A b c δ tol L logging clock w = .ok (out, w'))
    (x : Fin n → ℝ) (hx : out.x = some x) :
    ∃ y, out.y = some y ∧ y + A *ᵥ x = b.getD 0 := by
  obtain ⟨d, S, w₁, o, res, -, -, -, -, -, -, e1, e2, -⟩ := sps2_ok h
  refine ⟨b.getD 0 - A *ᵥ x, ?_, by abel⟩
  rw [e2, ← e1, hx]; rfl

/-- the block system from the normal equations of the transformed problem -/
theorem saddle_of_aug {A : Matrix (Fin m) (Fin n) ℝ} {b : Fin m → ℝ} {c : Fin n → ℝ} {δ : ℝ} (hδ : 0 ≤ δ)
    {ba : Fin (m + liftRows n (Real.sqrt δ)) → ℝ} {x : Fin n → ℝ}
    (h1 : (aLift A (Real.sqrt δ))ᵀ *ᵥ ba = Aᵀ *ᵥ b - c) :
    (aLift A (Real.sqrt δ))ᵀ *ᵥ (ba - aLift A (Real.sqrt δ) *ᵥ x) = 0 ↔
      SolvesSaddle A b c δ x (b - A *ᵥ x) := by
  rw [mulVec_sub, h1, mulVec_mulVec, aLift_gram_sqrt A hδ, add_mulVec, smul_mulVec, one_mulVec,
    ← mulVec_mulVec]
  unfold SolvesSaddle
  rw [mulVec_sub]
  constructor
  · intro h
    refine ⟨by abel, ?_⟩
    rw [← sub_eq_zero, ← h]; abel
  · rintro ⟨-, h⟩
    rw [← h]; abel

/-- **C40** (solution).  Suppose the iterative solver computes least-squares minimisers: whenever it
is called on `(B, g)` without `c` and with `δ = 0` and returns `x`, that `x` minimises `‖B x - g‖`.
Then SPS2 — if its lifted sketch has numerically full column rank — returns a solution of the block
system. -/
theorem C40_sps2_solves (la : LinAlg) (gen : SkOpGen G) (sf : ℝ) (solver : SaddleSolver)
    (A : Matrix (Fin m) (Fin n) ℝ) (b : Option (Fin m → ℝ)) (c : Option (Fin n → ℝ)) (δ tol : ℝ)
    (hδ : 0 ≤ δ) (L : ℤ) (logging : Bool) (clock : LogTimes) (w w' : World G) (out : SPSOut m n)
    (h : sps2Call la gen sf solver A b c δ tol L logging clock w = .ok (out, w'))
    (x : Fin n → ℝ) (hx : out.x = some x)
    (hsolver : ∀ p (B : Matrix (Fin p) (Fin n) ℝ) g P z0 res x, solver p n B (.vec g) none 0 tol L P z0 =
      .ok res → res.x = some x → ∀ z, norm2 (B *ᵥ x - g) ≤ norm2 (B *ᵥ z - g))
    (hS : ∀ d : ℕ, (d : ℤ) = min (pyInt (sf * n)) m → ∀ v S w', v.rng = w.rng → gen d m v = .ok (S, w') →
      WellCond (aLift (S * A) (Real.sqrt δ))) :
    ∃ y, out.y = some y ∧ SolvesSaddle A (b.getD 0) (cVec c) δ x y := by
  obtain ⟨d, S, w₁, o, res, -, -, hdc, hg, ho, hr, e1, e2, -⟩ := sps2_ok h
  obtain ⟨-, -, -, -, hdim, hw1⟩ := dimChecks_ok hdc
  have hw := hS d hdim _ _ _ (by rw [hw1]) hg
  refine ⟨b.getD 0 - A *ᵥ x, by rw [e2, ← e1, hx]; rfl, ?_⟩
  refine (saddle_of_aug hδ ((C40_sps2_rhs la S A δ (b.getD 0) c o ho).2.2 hw)).1 ?_
  have hmin : IsRidgeMin (aLift A (Real.sqrt δ)) (sps2Rhs S o (b.getD 0) c) 0 x := by
    intro z
    have := norm2_le_norm2.1 (hsolver _ _ _ _ _ _ x hr (by rw [← e1, hx]) z)
    linarith
  have := normal_of_ridge la le_rfl hmin
  rwa [zero_smul, sub_zero] at this

/-! ### With `PcSS2` -/

theorem castRows_mulVec_norm {a b k : ℕ} (h : a = b) (B : Matrix (Fin a) (Fin k) ℝ) (z : Fin k → ℝ) :
    norm2 (castRows h B *ᵥ z) = norm2 (B *ᵥ z) := by
  subst h; rfl

theorem castRows_fro {a b k : ℕ} (h : a = b) (B : Matrix (Fin a) (Fin k) ℝ) :
    fro (castRows h B) = fro B := by
  subst h; rfl

theorem castRows_rank {a b k : ℕ} (h : a = b) (B : Matrix (Fin a) (Fin k) ℝ) :
    (castRows h B).rank = B.rank := by
  subst h; rfl

theorem castRows_mul {a b k l : ℕ} (h : a = b) (B : Matrix (Fin a) (Fin k) ℝ)
    (M : Matrix (Fin k) (Fin l) ℝ) : castRows h B * M = castRows h (B * M) := by
  subst h; rfl

/-- the energy of the error in terms of the transformed problem -/
theorem aug_energy {A : Matrix (Fin m) (Fin n) ℝ} {b : Fin m → ℝ} {c : Fin n → ℝ} {δ : ℝ} (hδ : 0 ≤ δ)
    {ba : Fin (m + liftRows n (Real.sqrt δ)) → ℝ} {xs : Fin n → ℝ} {ys : Fin m → ℝ}
    (h1 : (aLift A (Real.sqrt δ))ᵀ *ᵥ ba = Aᵀ *ᵥ b - c) (hs : SolvesSaddle A b c δ xs ys) (x : Fin n → ℝ) :
    sqNorm (ba - aLift A (Real.sqrt δ) *ᵥ x) = sqNorm (ba - aLift A (Real.sqrt δ) *ᵥ xs) +
      (sqNorm (A *ᵥ (x - xs)) + δ * sqNorm (x - xs)) := by
  have hy : ys = b - A *ᵥ xs := by rw [← hs.1]; abel
  have h0 := (saddle_of_aug hδ h1).2 (hy ▸ hs)
  have := lsq_of_normal h0 x
  rw [this, sqNorm_aLift, Real.sq_sqrt hδ, ← neg_sub x xs, mulVec_neg, sqNorm_neg, sqNorm_neg]

/-- the start is never worse than zero -/
theorem sps2Start_le {δ : ℝ} (S : Matrix (Fin d) (Fin m) ℝ)
    (o : PrecOut (d + liftRows n (Real.sqrt δ)) n)
    (Aa : Matrix (Fin (m + liftRows n (Real.sqrt δ))) (Fin n) ℝ)
    (ba : Fin (m + liftRows n (Real.sqrt δ)) → ℝ) :
    norm2 (ba - Aa *ᵥ (o.M *ᵥ (sps2Start S o Aa ba).getD 0)) ≤ norm2 ba := by
  unfold sps2Start
  simp only
  generalize (if δ > 0 then (topRows o.U)ᵀ *ᵥ (S *ᵥ topv ba) + (botRows o.U)ᵀ *ᵥ botv ba
    else (topRows o.U)ᵀ *ᵥ (S *ᵥ topv ba)) = z
  by_cases h : norm2 (ba - Aa *ᵥ (o.M *ᵥ z)) ≥ norm2 ba
  · rw [if_pos h, Option.getD_none, mulVec_zero, mulVec_zero, sub_zero]
  · rw [if_neg h, Option.getD_some]
    exact (not_le.1 h).le

/-- **C40** (never worse than zero).  With `PcSS2`, any tolerance and any iteration limit: if the
lifted sketch has numerically full column rank and `(x*, y*)` solves the block system, the returned
`x` is at least as close to `x*` as `0` is, in the norm of `A'A + δ I`. -/
theorem C40_sps2_never_worse (la : LinAlg) (gen : SkOpGen G) (sf : ℝ)
    (A : Matrix (Fin m) (Fin n) ℝ) (b : Option (Fin m → ℝ)) (c : Option (Fin n → ℝ)) (δ tol : ℝ)
    (hδ : 0 ≤ δ) (L : ℤ) (logging : Bool) (clock : LogTimes) (w w' : World G) (out : SPSOut m n)
    (h : sps2Call la gen sf PcSS2 A b c δ tol L logging clock w = .ok (out, w'))
    (hS : ∀ d : ℕ, (d : ℤ) = min (pyInt (sf * n)) m → ∀ v S w', v.rng = w.rng → gen d m v = .ok (S, w') →
      WellCond (aLift (S * A) (Real.sqrt δ)))
    (xs : Fin n → ℝ) (ys : Fin m → ℝ) (hs : SolvesSaddle A (b.getD 0) (cVec c) δ xs ys) :
    ∃ x, out.x = some x ∧
      sqNorm (A *ᵥ (x - xs)) + δ * sqNorm (x - xs) ≤ sqNorm (A *ᵥ xs) + δ * sqNorm xs := by
  obtain ⟨d, S, w₁, o, res, -, -, hdc, hg, ho, hr, e1, -⟩ := sps2_ok h
  obtain ⟨-, -, -, -, hdim, hw1⟩ := dimChecks_ok hdc
  have hw := hS d hdim _ _ _ (by rw [hw1]) hg
  have hrhs := (C40_sps2_rhs la S A δ (b.getD 0) c o ho).2.2 hw
  set ba := sps2Rhs S o (b.getD 0) c
  change pcss2 (aLift A (Real.sqrt δ)) (.vec ba) none 0 tol L (.gen o.r o.M) _ = .ok res at hr
  obtain ⟨x, hx, -⟩ := C34_pcss2_over _ _ none 0 le_rfl tol L (.gen o.r o.M) trivial _ rfl res hr
  refine ⟨x, e1.trans hx, ?_⟩
  have h1 := C34_pcss2_never_worse _ _ none 0 le_rfl tol L (.gen o.r o.M) trivial _ rfl res hr x hx
  have h2 := norm2_le_norm2.1 (sps2Start_le S o (aLift A (Real.sqrt δ)) ba)
  rw [zero_mul, zero_mul, add_zero, add_zero, ← neg_sub, sqNorm_neg,
    ← neg_sub ba (aLift A (Real.sqrt δ) *ᵥ ((Precond.gen o.r o.M).mat *ᵥ _)), sqNorm_neg] at h1
  have h3 := h1.trans h2
  have h4 := aug_energy hδ hrhs hs x
  have h5 := aug_energy hδ hrhs hs 0
  rw [mulVec_zero, sub_zero, zero_sub, mulVec_neg, sqNorm_neg, sqNorm_neg] at h5
  linarith

theorem sps2_eq (la : LinAlg) {gen : SkOpGen G} {sf : ℝ} (solver : SaddleSolver)
    (A : Matrix (Fin m) (Fin n) ℝ) (b : Option (Fin m → ℝ)) (c : Option (Fin n → ℝ)) (δ tol : ℝ) (L : ℤ)
    (logging : Bool) (clock : LogTimes) {w w₁ w' : World G} {S : Matrix (Fin d) (Fin m) ℝ}
    (h1 : (dimChecks sf m n : Py G ℕ) w = .ok (d, w₁)) (h2 : gen d m w₁ = .ok (S, w')) :
    sps2Call la gen sf solver A b c δ tol L logging clock w =
      match sps2Post la solver S A (b.getD 0) c δ tol L logging clock with
      | .ok out => .ok (out, w')
      | .error e => .error e := by
  unfold sps2Call
  rw [Py.bind_eq_of_ok h1, Py.bind_eq_of_ok h2]
  generalize sps2Post la solver S A (b.getD 0) c δ tol L logging clock = e
  cases e <;> rfl

/-- **C40** (end to end).  If the sketch drawn (that is, any the generator returns in the state of the call) embeds the range of `A` up to
`1 ± ε` with `n √((1+ε)/(1-ε)) < 10^8 - eps` and the lifted sketch has numerically full column rank,
then `SPS2` with its default solver, `tol = 0` and `iter_lim ≥ n`, returns the exact solution of the
block system, for every `b`, `c` and `δ ≥ 0`. -/
theorem C40_sps2_exact (la : LinAlg) (gen : SkOpGen G) (sf : ℝ)
    (A : Matrix (Fin m) (Fin n) ℝ) (b : Option (Fin m → ℝ)) (c : Option (Fin n → ℝ)) (δ : ℝ)
    (hδ : 0 ≤ δ) (L : ℤ) (hL : (n : ℤ) ≤ L) (clock : LogTimes) (w : World G) (hn : n ≠ 0)
    (hmn : n ≤ m) (hsf : (n : ℤ) ≤ pyInt (sf * n))
    (hgen : ∀ d w, n ≤ d → d ≤ m → ∃ S w', gen d m w = .ok (S, w'))
    (ε : ℝ) (hε : 0 ≤ ε) (hε1 : ε < 1)
    (hS : ∀ d : ℕ, (d : ℤ) = min (pyInt (sf * n)) m → ∀ v S w', v.rng = w.rng → gen d m v = .ok (S, w') →
      Embeds S A ε ∧ WellCond (aLift (S * A) (Real.sqrt δ)))
    (hcond : n * Real.sqrt ((1 + ε) / (1 - ε)) < 10 ^ 8 - eps) :
    ∃ out w' x y, sps2Call la gen sf PcSS2 A b c δ 0 L false clock w = .ok (out, w') ∧
      out.x = some x ∧ out.y = some y ∧ SolvesSaddle A (b.getD 0) (cVec c) δ x y := by
  obtain ⟨d, h1, hd, hdm, hdim0⟩ := (C35_dim_checks (G := G) sf m n w).2 hmn hsf
  obtain ⟨S, w', h2⟩ := hgen d
    { w with warns := w.warns + if (m : ℤ) < pyInt (sf * n) then 1 else 0 } hd hdm
  obtain ⟨hSe, hSw⟩ := hS _ hdim0 _ _ _ (by rfl) h2
  obtain ⟨o, ho⟩ := (C26_empty la (aLift (S * A) (Real.sqrt δ))).2 (by omega) hn
  obtain ⟨g1, g2, -, -, -, -, g3⟩ := C26_svd_right_precond la _ o ho
  have hr := WellCond.no_truncation la hSw ho
  obtain ⟨e1, e2⟩ := g3 hr
  have horth : (aLift (S * A) (Real.sqrt δ) * o.M)ᵀ * (aLift (S * A) (Real.sqrt δ) * o.M) = 1 := by
    rw [g1]; exact g2
  have htop : colSpace (Precond.gen o.r o.M).mat = ⊤ := by
    refine eq_top_iff.2 fun v _ => mem_colSpace.2
      ⟨o.Mᵀ *ᵥ (((aLift (S * A) (Real.sqrt δ))ᵀ * aLift (S * A) (Real.sqrt δ)) *ᵥ v), ?_⟩
    show o.M *ᵥ _ = v
    rw [mulVec_mulVec, mulVec_mulVec, e1, one_mulVec]
  obtain ⟨q1, -, -⟩ := precond_bounds hδ hε hε1 hSe horth
  have q2 := precond_cond hδ hε hε1 hSe horth (by rw [hr]; exact hcond)
  have p1 : 0 < Real.sqrt (1 + ε) := Real.sqrt_pos.2 (by linarith)
  obtain ⟨hc, hlift⟩ := (C25_lift (aLift A (Real.sqrt δ)) 0).1 rfl
  have hF : aLift (aLift A (Real.sqrt δ)) (Real.sqrt 0) * (Precond.gen o.r o.M).mat =
      castRows hc (aLift A (Real.sqrt δ) * o.M) := by
    rw [hlift]; exact castRows_mul _ _ _
  obtain ⟨res, x, r1, r2, r3, -⟩ := C34_pcss2_over_exact (aLift A (Real.sqrt δ))
    (sps2Rhs S o (b.getD 0) c) none 0 le_rfl L (.gen o.r o.M) trivial htop
    (sps2Start S o (aLift A (Real.sqrt δ)) (sps2Rhs S o (b.getD 0) c)) rfl (by
      have := (aLift (aLift A (Real.sqrt δ)) (Real.sqrt 0) * (Precond.gen o.r o.M).mat).rank_le_width
      have : (Precond.gen o.r o.M).dim = o.r := rfl
      omega) (1 / Real.sqrt (1 + ε)) (by positivity)
    (fun z _ => by rw [hF, castRows_mulVec_norm]; exact q1 z)
    (by rw [hF, castRows_fro, castRows_rank]; exact q2)
  refine ⟨⟨some x, some (b.getD 0 - A *ᵥ x), none⟩, w', x, _, ?_, rfl, rfl, ?_⟩
  · rw [sps2_eq la PcSS2 A b c δ 0 L false clock h1 h2]
    unfold sps2Post
    simp only [ho, bind, Except.bind]
    have r1' : PcSS2 _ _ (aLift A (Real.sqrt δ)) (.vec (sps2Rhs S o (b.getD 0) c)) none 0 0 L
      (.gen o.r o.M) (sps2Start S o (aLift A (Real.sqrt δ)) (sps2Rhs S o (b.getD 0) c)) = .ok res := r1
    rw [r1']
    simp only [finishLog, pure, Except.pure, r2]
    rfl
  · refine (saddle_of_aug hδ ((C40_sps2_rhs la S A δ (b.getD 0) c o ho).2.2 hSw)).1 ?_
    have := r3.2
    rw [zero_smul, sub_zero] at this
    rw [← r3.1, add_sub_cancel_right, this]
    rfl

theorem split_T_mulVec {a b k : ℕ} (U : Matrix (Fin (a + b)) (Fin k) ℝ) (u : Fin a → ℝ) (v : Fin b → ℝ) :
    (topRows U)ᵀ *ᵥ u + (botRows U)ᵀ *ᵥ v = Uᵀ *ᵥ catv u v := by
  funext j
  simp [mulVec, dotProduct, topRows, botRows, catv, Fin.sum_univ_add]

/-- the presolve: the sketched solution if it has the smaller residual -/
theorem sps2Start_eq {δ : ℝ} (hδ : 0 ≤ δ) (S : Matrix (Fin d) (Fin m) ℝ)
    (o : PrecOut (d + liftRows n (Real.sqrt δ)) n)
    (Aa : Matrix (Fin (m + liftRows n (Real.sqrt δ))) (Fin n) ℝ)
    (ba : Fin (m + liftRows n (Real.sqrt δ)) → ℝ) :
    let z := o.Uᵀ *ᵥ catv (S *ᵥ topv ba) (botv ba)
    (norm2 (ba - Aa *ᵥ (o.M *ᵥ z)) < norm2 ba → sps2Start S o Aa ba = some z) ∧
    (norm2 ba ≤ norm2 (ba - Aa *ᵥ (o.M *ᵥ z)) → sps2Start S o Aa ba = none) := by
  intro z
  have hz : (if δ > 0 then (topRows o.U)ᵀ *ᵥ (S *ᵥ topv ba) + (botRows o.U)ᵀ *ᵥ botv ba
    else (topRows o.U)ᵀ *ᵥ (S *ᵥ topv ba)) = z := by
    by_cases h : δ > 0
    · rw [if_pos h, split_T_mulVec]
    · have h0 : δ = 0 := le_antisymm (not_lt.1 h) hδ
      subst h0
      rw [if_neg h]
      have : IsEmpty (Fin (liftRows n (Real.sqrt 0))) := by
        rw [Real.sqrt_zero]
        unfold liftRows
        rw [if_pos rfl]
        infer_instance
      have e : botv ba = 0 := Subsingleton.elim _ _
      show _ = o.Uᵀ *ᵥ catv (S *ᵥ topv ba) (botv ba)
      rw [← split_T_mulVec, e, mulVec_zero, add_zero]
  clear_value z
  unfold sps2Start
  simp only [hz]
  exact ⟨fun h => if_neg (not_le.2 h), fun h => if_pos h⟩

/-- **C40** (start).  The point from which LSQR starts, which is what SPS2 with `PcSS2` returns under
`iter_lim = 0`: if the lifted sketch has numerically full column rank, it is the minimiser `x_ske` of
the sketched transformed problem `‖[SA; √δ I] x - [S b₁; b₂]‖`, where `(b₁, b₂)` is the transformed
right-hand side, if that is strictly closer to the solution `x*` than `0` is in the norm of
`A'A + δ I`, and `0` otherwise. -/
theorem C40_sps2_start (la : LinAlg) (gen : SkOpGen G) (sf : ℝ)
    (A : Matrix (Fin m) (Fin n) ℝ) (b : Option (Fin m → ℝ)) (c : Option (Fin n → ℝ)) (δ tol : ℝ)
    (hδ : 0 ≤ δ) (logging : Bool) (clock : LogTimes) (w w' : World G) (out : SPSOut m n)
    (h : sps2Call la gen sf PcSS2 A b c δ tol 0 logging clock w = .ok (out, w'))
    (hS : ∀ d : ℕ, (d : ℤ) = min (pyInt (sf * n)) m → ∀ v S w', v.rng = w.rng → gen d m v = .ok (S, w') →
      WellCond (aLift (S * A) (Real.sqrt δ)))
    (xs : Fin n → ℝ) (ys : Fin m → ℝ) (hs : SolvesSaddle A (b.getD 0) (cVec c) δ xs ys) :
    ∃ (d : ℕ) (S : Matrix (Fin d) (Fin m) ℝ) (w₁ : World G)
      (b' : Fin (m + liftRows n (Real.sqrt δ)) → ℝ) (x x_ske : Fin n → ℝ),
      (dimChecks sf m n : Py G ℕ) w = .ok (d, w₁) ∧ gen d m w₁ = .ok (S, w') ∧
      (aLift A (Real.sqrt δ))ᵀ *ᵥ b' = Aᵀ *ᵥ b.getD 0 - cVec c ∧
      IsRidgeMin (aLift (S * A) (Real.sqrt δ)) (catv (S *ᵥ topv b') (botv b')) 0 x_ske ∧
      out.x = some x ∧
      (sqNorm (A *ᵥ (x_ske - xs)) + δ * sqNorm (x_ske - xs) < sqNorm (A *ᵥ xs) + δ * sqNorm xs →
        x = x_ske) ∧
      (sqNorm (A *ᵥ xs) + δ * sqNorm xs ≤ sqNorm (A *ᵥ (x_ske - xs)) + δ * sqNorm (x_ske - xs) →
        x = 0) := by
  obtain ⟨d, S, w₁, o, res, -, -, hdc, hg, ho, hr, e1, -⟩ := sps2_ok h
  obtain ⟨-, -, -, -, hdim, hw1⟩ := dimChecks_ok hdc
  have hw := hS d hdim _ _ _ (by rw [hw1]) hg
  have hrhs := (C40_sps2_rhs la S A δ (b.getD 0) c o ho).2.2 hw
  set ba := sps2Rhs S o (b.getD 0) c
  obtain ⟨g1, g2, -, -, -, -, g3⟩ := C26_svd_right_precond la _ o ho
  obtain ⟨f1, f2⟩ := g3 (WellCond.no_truncation la hw ho)
  obtain ⟨s1, s2⟩ := sps2Start_eq hδ S o (aLift A (Real.sqrt δ)) ba
  set z := o.Uᵀ *ᵥ catv (S *ᵥ topv ba) (botv ba) with hz
  change pcss2 (aLift A (Real.sqrt δ)) (.vec ba) none 0 tol 0 (.gen o.r o.M) _ = .ok res at hr
  rw [pcss2_over_eq _ _ none le_rfl tol 0 (P := .gen o.r o.M) trivial _ trivial] at hr
  obtain ⟨q, hq, hq', -⟩ := C30_lsqr_start (aLift (aLift A (Real.sqrt δ)) (Real.sqrt 0) *
    (Precond.gen o.r o.M).mat) (catv ba 0) 0 ⟨tol, tol, 10 ^ 8⟩
    (sps2Start S o (aLift A (Real.sqrt δ)) ba)
  rw [hq] at hr
  cases hr
  have key : ∀ x, (sqNorm (A *ᵥ (x - xs)) + δ * sqNorm (x - xs) < sqNorm (A *ᵥ xs) + δ * sqNorm xs ↔
      norm2 (ba - aLift A (Real.sqrt δ) *ᵥ x) < norm2 ba) := by
    intro x
    have h4 := aug_energy hδ hrhs hs x
    have h5 := aug_energy hδ hrhs hs 0
    rw [mulVec_zero, sub_zero, zero_sub, mulVec_neg, sqNorm_neg, sqNorm_neg] at h5
    rw [← not_le, ← not_le, norm2_le_norm2, h4, h5]
    simp only [add_le_add_iff_left]
  refine ⟨d, S, w₁, ba, o.M *ᵥ q.x, o.M *ᵥ z, hdc, hg, hrhs, ?_, e1, fun h => ?_, fun h => ?_⟩
  · refine ridge_of_normal le_rfl ?_
    have hU : o.Uᵀ = o.Mᵀ * (aLift (S * A) (Real.sqrt δ))ᵀ := by rw [← g1, transpose_mul]
    rw [zero_smul, sub_zero, mulVec_sub, sub_eq_zero, hz, hU, ← mulVec_mulVec, mulVec_mulVec _ _ o.M,
      mulVec_mulVec, mulVec_mulVec, ← Matrix.mul_assoc _ _ o.M, Matrix.mul_assoc _ o.M, f2, one_mulVec]
  · rw [hq', s1 ((key _).1 h)]; rfl
  · rw [hq', s2 (not_lt.1 fun h' => absurd ((key _).2 h') (not_lt.2 h)), Option.getD_none, mulVec_zero]

/-- **C43** for `SPS2` (the claim is false here too).  A logged call with `b` and `c` absent or zero,
whose solution is `x = 0`, raises `ValueError`; without logging it returns `x = 0`, `y = 0`. -/
theorem C43_sps2_zero (la : LinAlg) (gen : SkOpGen G) (sf : ℝ) (A : Matrix (Fin m) (Fin n) ℝ)
    (b : Option (Fin m → ℝ)) (c : Option (Fin n → ℝ)) (hb : b.getD 0 = 0) (hc : cVec c = 0) (δ tol : ℝ)
    (hδ : 0 ≤ δ) (hn : n ≠ 0) (L : ℤ) (clock : LogTimes) (w w₁ w' : World G)
    (S : Matrix (Fin d) (Fin m) ℝ)
    (h1 : (dimChecks sf m n : Py G ℕ) w = .ok (d, w₁)) (h2 : gen d m w₁ = .ok (S, w')) :
    sps2Call la gen sf PcSS2 A b c δ tol L true clock w = .error .value ∧
    ∃ out, sps2Call la gen sf PcSS2 A b c δ tol L false clock w = .ok (out, w') ∧ out.x = some 0 ∧
      out.y = some 0 := by
  obtain ⟨-, -, hd, -⟩ := dimChecks_ok h1
  obtain ⟨o, ho⟩ := (C26_empty la (aLift (S * A) (Real.sqrt δ))).2 (by omega) hn
  have hba : sps2Rhs S o (b.getD 0) c = (0 : Fin (m + liftRows n (Real.sqrt δ)) → ℝ) := by
    have e0 : (catv 0 0 : Fin (m + liftRows n (Real.sqrt δ)) → ℝ) = 0 := by
      funext i; refine Fin.addCases (fun i => ?_) (fun i => ?_) i <;> simp [catv]
    rw [hb]
    cases c with
    | none => exact e0
    | some c =>
      unfold sps2Rhs
      simp only
      rw [if_neg (by
        have hc' : c = 0 := hc
        rw [hc', norm2_eq_zero.2 rfl]; exact lt_irrefl _)]
      exact e0
  have hst : sps2Start S o (aLift A (Real.sqrt δ)) (0 : Fin (m + liftRows n (Real.sqrt δ)) → ℝ) = none :=
    (sps2Start_eq hδ S o (aLift A (Real.sqrt δ)) 0).2
      (by rw [norm2_eq_zero.2 (rfl : (0 : Fin (m + liftRows n (Real.sqrt δ)) → ℝ) = 0)]; exact norm2_nonneg _)
  have hzero : (aLift (aLift A (Real.sqrt δ)) (Real.sqrt 0) * (Precond.gen o.r o.M).mat)ᵀ *ᵥ
      (catv (0 : Fin (m + liftRows n (Real.sqrt δ)) → ℝ) 0 - (aLift (aLift A (Real.sqrt δ)) (Real.sqrt 0) *
        (Precond.gen o.r o.M).mat) *ᵥ (none : Option (Fin (Precond.gen o.r o.M).dim → ℝ)).getD 0) = 0 := by
    have e0 : (catv 0 0 : Fin (m + liftRows n (Real.sqrt δ) + liftRows n (Real.sqrt 0)) → ℝ) = 0 := by
      funext i; refine Fin.addCases (fun i => ?_) (fun i => ?_) i <;> simp [catv]
    rw [Option.getD_none, mulVec_zero, sub_zero, e0, mulVec_zero]
  have hr : PcSS2 _ n (aLift A (Real.sqrt δ)) (.vec 0) none 0 tol L (.gen o.r o.M) none =
      .ok ⟨some 0, 0, .scalar 0⟩ := by
    have e := pcss2_over_eq (aLift A (Real.sqrt δ)) 0 none le_rfl tol L (P := .gen o.r o.M) trivial none
      trivial
    rw [lsqr_early _ _ _ _ _ _ hzero] at e
    refine e.trans ?_
    have ex : (lsqrOut0 (aLift (aLift A (Real.sqrt δ)) (Real.sqrt 0) * (Precond.gen o.r o.M).mat)
      (catv 0 0) ((none : Option (Fin (Precond.gen o.r o.M).dim → ℝ)).getD 0)).x = 0 := rfl
    simp only [ex, mulVec_zero, sub_zero]
    rfl
  rw [sps2_eq la PcSS2 A b c δ tol L true clock h1 h2, sps2_eq la PcSS2 A b c δ tol L false clock h1 h2]
  unfold sps2Post
  simp only [ho, bind, Except.bind, hba, hst, hr, finishLog, pure, Except.pure]
  refine ⟨rfl, _, rfl, rfl, ?_⟩
  show some (b.getD 0 - A *ᵥ 0) = some 0
  rw [hb, mulVec_zero, sub_zero]

/-- The hypotheses of `C40_sps2_exact` are met: `A = (1,1,1)'`, `b = (1,2,6)`, `c = 3`, `δ = 0`, with
solution `x = 2`, `y = (-1,0,4)`. -/
example : ∃ out w', sps2Call LinAlg.ref (idGen (G := ℕ)) 3 PcSS2
      (!![1; 1; 1] : Matrix (Fin 3) (Fin 1) ℝ) (some ![1, 2, 6]) (some ![3]) 0 0 1 false
        ⟨0, 0, 0, 0, 0⟩ ⟨0, 0, []⟩ = .ok (out, w') ∧ out.x = some ![2] ∧ out.y = some ![-1, 0, 4] := by
  have hw : WellCond (aLift (!![1; 1; 1] : Matrix (Fin 3) (Fin 1) ℝ) (Real.sqrt 0)) := by
    have e : ∀ x : Fin 1 → ℝ, norm2 (aLift (!![1; 1; 1] : Matrix (Fin 3) (Fin 1) ℝ) (Real.sqrt 0) *ᵥ x) =
        Real.sqrt 3 * norm2 x := by
      intro x
      unfold norm2
      rw [← Real.sqrt_mul (by norm_num), sqNorm_aLift]
      congr 1
      simp [sqNorm, Fin.sum_univ_three, mulVec, dotProduct]
      ring
    refine ⟨Real.sqrt 3, Real.sqrt 3, fun x => (e x).ge, fun x => (e x).le, Real.sqrt_nonneg _, ?_⟩
    have h3 : (0 : ℝ) < Real.sqrt 3 := Real.sqrt_pos.2 (by norm_num)
    have : eps < 1 := by unfold eps; norm_num
    push_cast
    nlinarith
  obtain ⟨out, w', x, y, h1, h2, h3, h4, h5⟩ := C40_sps2_exact LinAlg.ref (idGen (G := ℕ)) 3
    (!![1; 1; 1] : Matrix (Fin 3) (Fin 1) ℝ) (some ![1, 2, 6]) (some ![3]) 0 le_rfl 1 le_rfl
    ⟨0, 0, 0, 0, 0⟩ ⟨0, 0, []⟩ one_ne_zero (by norm_num) (by rw [demo31_pyInt]; norm_num)
    (fun d w _ _ => ⟨_, _, rfl⟩) 0 le_rfl (by norm_num) (by
      intro d hd v S w' _ h
      rw [demo31_pyInt] at hd
      have : d = 3 := by norm_num at hd; omega
      subst this
      rw [idGen_ok] at h
      cases h
      refine ⟨fun z => ?_, ?_⟩
      · simp
      · rw [Matrix.one_mul]; exact hw) (by
      have : eps ≤ 1 := by unfold eps; norm_num
      norm_num; linarith)
  refine ⟨out, w', h1, h2.trans (congrArg some ?_), h3.trans (congrArg some ?_)⟩
  all_goals
    have a0 := congrFun h4 0
    have a1 := congrFun h4 1
    have a2 := congrFun h4 2
    have a3 := congrFun h5 0
    simp [mulVec, dotProduct, Fin.sum_univ_three, cVec] at a0 a1 a2 a3
    funext i
    fin_cases i <;> simp <;> linarith

end Parla.Props
