import Verif.Proof.Precond
import Verif.Base.LinAlgExists

/-! # Properties C25 – C26: `a_lift_precond` and `svd_right_precond` -/

namespace Parla.Props

open Matrix Parla Spec

variable {m n r : ℕ}

/-! ## C25 -/

/-- **C25** (the lift): `a_lift(A, sqrt(delta))` is `A` for `delta = 0` and `[A; sqrt(delta) I]` for
`delta > 0`.  (`castRows` only renames the row axis.) -/
theorem C25_lift (A : Matrix (Fin m) (Fin n) ℝ) (δ : ℝ) :
    (δ = 0 → ∃ h : m = m + liftRows n (Real.sqrt δ), aLift A (Real.sqrt δ) = castRows h A) ∧
    (0 < δ → ∃ h : m + n = m + liftRows n (Real.sqrt δ),
      aLift A (Real.sqrt δ) = castRows h (vcat A (Real.sqrt δ • (1 : Matrix (Fin n) (Fin n) ℝ)))) := by
  constructor
  · rintro rfl
    rw [Real.sqrt_zero]
    exact ⟨_, aLift_zero A⟩
  · intro h
    exact ⟨_, aLift_ne A (Real.sqrt_pos.2 h).ne'⟩

/-- **C25** (general `R`): the operator applies `[A; sqrt(delta) I] R`, its `rmatvec` the transpose
of that matrix, and the returned maps apply `R` and `R'`, whatever the workspace contains. -/
theorem C25_precond_general (A : Matrix (Fin m) (Fin n) ℝ) (δ : ℝ) (hδ : 0 ≤ δ)
    (R : Matrix (Fin n) (Fin r) ℝ) : ∃ o, aLiftPrecond A δ (.gen r R) 1 = .ok o ∧
      (∀ z work, ∃ work', o.fwd z work = .ok ((aLift A (Real.sqrt δ) * R) *ᵥ z, work')) ∧
      (∀ y work, ∃ work', o.adj y work = .ok ((aLift A (Real.sqrt δ) * R)ᵀ *ᵥ y, work')) ∧
      (∀ z, o.mFwd z = .ok (R *ᵥ z)) ∧ ∀ w, o.mAdj w = .ok (Rᵀ *ᵥ w) := by
  obtain ⟨o, h, h1, h2, h3, h4⟩ := aLiftPrecond_spec A hδ (P := .gen r R) trivial
  refine ⟨o, h, fun (z : Fin r → ℝ) work => ⟨R *ᵥ z, (h1 z work).trans ?_⟩,
    fun y work => ⟨(aLift A (Real.sqrt δ))ᵀ *ᵥ y, (h2 y work).trans ?_⟩, h3, h4⟩
  · exact congrArg (fun t => Except.ok (t, R *ᵥ z)) (mulVec_mulVec z (aLift A (Real.sqrt δ)) R)
  · exact congrArg (fun t => Except.ok (t, (aLift A (Real.sqrt δ))ᵀ *ᵥ y))
      (mul_T_mulVec (aLift A (Real.sqrt δ)) R y).symm

/-- **C25** (triangular `R`): the same with `M = R^{-1}`, for an upper triangular `R` with nonzero
diagonal. -/
theorem C25_precond_upper_tri (A : Matrix (Fin m) (Fin n) ℝ) (δ : ℝ) (hδ : 0 ≤ δ)
    (R : Matrix (Fin n) (Fin n) ℝ) (hR : ∀ i j, j < i → R i j = 0) (hd : ∀ i, R i i ≠ 0) :
    ∃ M : Matrix (Fin n) (Fin n) ℝ, R * M = 1 ∧ M * R = 1 ∧
      ∃ o, aLiftPrecond A δ (.tri R) 1 = .ok o ∧
      (∀ z work, ∃ work', o.fwd z work = .ok ((aLift A (Real.sqrt δ) * M) *ᵥ z, work')) ∧
      (∀ y work, ∃ work', o.adj y work = .ok ((aLift A (Real.sqrt δ) * M)ᵀ *ᵥ y, work')) ∧
      (∀ z, o.mFwd z = .ok (M *ᵥ z)) ∧ ∀ w, o.mAdj w = .ok (Mᵀ *ᵥ w) := by
  have hu : IsUnit R.det := by
    rw [← triu_eq_self hR]; exact isUnit_det_triu (by push Not; exact hd)
  refine ⟨R⁻¹, mul_nonsing_inv _ hu, nonsing_inv_mul _ hu, ?_⟩
  obtain ⟨o, h, h1, h2, h3, h4⟩ := aLiftPrecond_spec A hδ (P := .tri R) hd
  have e : (Precond.tri R).mat = R⁻¹ := by
    show (triu R)⁻¹ = R⁻¹
    rw [triu_eq_self hR]
  rw [e] at h1 h2 h3 h4
  refine ⟨o, h, fun (z : Fin n → ℝ) work => ⟨R⁻¹ *ᵥ z, (h1 z work).trans ?_⟩,
    fun y work => ⟨(aLift A (Real.sqrt δ))ᵀ *ᵥ y, (h2 y work).trans ?_⟩, h3, h4⟩
  · exact congrArg (fun t => Except.ok (t, R⁻¹ *ᵥ z)) (mulVec_mulVec z (aLift A (Real.sqrt δ)) R⁻¹)
  · exact congrArg (fun t => Except.ok (t, (aLift A (Real.sqrt δ))ᵀ *ᵥ y))
      (mul_T_mulVec (aLift A (Real.sqrt δ)) R⁻¹ y).symm

/-- **C25** (adjointness, as inner products): `<F z, y> = <z, F* y>` for the returned operator. -/
theorem C25_adjoint (A : Matrix (Fin m) (Fin n) ℝ) (δ : ℝ) (hδ : 0 ≤ δ) (P : Precond n)
    (o : LiftPrecond m n P.dim δ) (h : aLiftPrecond A δ P 1 = .ok o)
    (z : Fin P.dim → ℝ) (y : Fin (m + liftRows n (Real.sqrt δ)) → ℝ)
    (Fz : Fin (m + liftRows n (Real.sqrt δ)) → ℝ) (Fy : Fin P.dim → ℝ)
    (hz : o.op.mv z = .ok Fz) (hy : o.op.rmv y = .ok Fy) : Fz ⬝ᵥ y = z ⬝ᵥ Fy := by
  have hP : P.Ok := by
    cases P with
    | gen r R => trivial
    | tri R =>
      intro i hi
      cases h
      have : (forwardTri A δ R z 0).map Prod.fst = .ok Fz := hz
      unfold forwardTri at this
      simp only at this
      rw [solveUpperv_err ⟨i, hi⟩] at this
      cases this
  rw [aLiftPrecond_op A hδ hP h] at hz hy
  cases hz
  cases hy
  rw [dotProduct_comm, dotProduct_comm z, dot_mulVec, dotProduct_comm]

/-- a call of the returned operator: `A_precond.matvec(z)` or `A_precond.rmatvec(y)` -/
inductive OpCall (p r : ℕ) where
  | mv (z : Fin r → ℝ)
  | rmv (y : Fin p → ℝ)

/-- the result of such a call -/
inductive OpRes (p r : ℕ) where
  | mv (x : Fin p → ℝ)
  | rmv (x : Fin r → ℝ)

/-- A history of calls sharing one workspace. -/
def runHistory {δ : ℝ} (o : LiftPrecond m n r δ) :
    List (OpCall (m + liftRows n (Real.sqrt δ)) r) → (Fin n → ℝ) →
      Except PyErr (List (OpRes (m + liftRows n (Real.sqrt δ)) r))
  | [], _ => .ok []
  | .mv z :: l, work => do
    let x ← o.fwd z work
    let rest ← runHistory o l x.2
    pure (.mv x.1 :: rest)
  | .rmv y :: l, work => do
    let x ← o.adj y work
    let rest ← runHistory o l x.2
    pure (.rmv x.1 :: rest)

/-- **C25** (histories): every call in every sequence of interleaved `matvec`/`rmatvec` calls,
which share one workspace, returns what the matrix `F = [A; sqrt(delta) I] M` prescribes for its own
argument. -/
theorem C25_history (A : Matrix (Fin m) (Fin n) ℝ) (δ : ℝ) (hδ : 0 ≤ δ)
    (R : Matrix (Fin n) (Fin r) ℝ) (o : LiftPrecond m n r δ)
    (h : aLiftPrecond A δ (.gen r R) 1 = .ok o)
    (calls : List (OpCall (m + liftRows n (Real.sqrt δ)) r)) (work : Fin n → ℝ) :
    runHistory o calls work = .ok (calls.map fun
      | .mv z => .mv ((aLift A (Real.sqrt δ) * R) *ᵥ z)
      | .rmv y => .rmv ((aLift A (Real.sqrt δ) * R)ᵀ *ᵥ y)) := by
  obtain ⟨o', h', h1, h2, -⟩ := C25_precond_general A δ hδ R
  rw [h] at h'; cases h'
  induction calls generalizing work with
  | nil => rfl
  | cons c l ih =>
    cases c with
    | mv z =>
      obtain ⟨w', hw⟩ := h1 z work
      unfold runHistory
      rw [hw]
      show (do let rest ← runHistory o l w'; pure (_ :: rest)) = _
      rw [ih]; rfl
    | rmv y =>
      obtain ⟨w', hw⟩ := h2 y work
      unfold runHistory
      rw [hw]
      show (do let rest ← runHistory o l w'; pure (_ :: rest)) = _
      rw [ih]; rfl

/-- **C25** (histories, triangular `R`). -/
theorem C25_history_upper_tri (A : Matrix (Fin m) (Fin n) ℝ) (δ : ℝ) (hδ : 0 ≤ δ)
    (R M : Matrix (Fin n) (Fin n) ℝ) (hR : ∀ i j, j < i → R i j = 0) (hd : ∀ i, R i i ≠ 0)
    (hM : R * M = 1) (o : LiftPrecond m n n δ) (h : aLiftPrecond A δ (.tri R) 1 = .ok o)
    (calls : List (OpCall (m + liftRows n (Real.sqrt δ)) n)) (work : Fin n → ℝ) :
    runHistory o calls work = .ok (calls.map fun
      | .mv z => .mv ((aLift A (Real.sqrt δ) * M) *ᵥ z)
      | .rmv y => .rmv ((aLift A (Real.sqrt δ) * M)ᵀ *ᵥ y)) := by
  obtain ⟨M', hM', -, o', h', h1, h2, -⟩ := C25_precond_upper_tri A δ hδ R hR hd
  rw [h] at h'; cases h'
  have : M' = M := by
    have e1 := Matrix.inv_eq_right_inv hM
    have e2 := Matrix.inv_eq_right_inv hM'
    rw [← e1, ← e2]
  subst this
  induction calls generalizing work with
  | nil => rfl
  | cons c l ih =>
    cases c with
    | mv z =>
      obtain ⟨w', hw⟩ := h1 z work
      unfold runHistory
      rw [hw]
      show (do let rest ← runHistory o l w'; pure (_ :: rest)) = _
      rw [ih]; rfl
    | rmv y =>
      obtain ⟨w', hw⟩ := h2 y work
      unfold runHistory
      rw [hw]
      show (do let rest ← runHistory o l w'; pure (_ :: rest)) = _
      rw [ih]; rfl

/-- **C25** (several right-hand sides): `k != 1` raises `NotImplementedError`. -/
theorem C25_multiple_rhs (A : Matrix (Fin m) (Fin n) ℝ) (δ : ℝ) (P : Precond n) (k : ℕ) (hk : k ≠ 1) :
    aLiftPrecond A δ P k = .error .notImplemented := if_pos hk

/-! ## C26 -/

/-- Result of `svd_right_precond` in terms of the SVD of the sketch: it keeps the first `r`
singular triplets, which are exactly those above the cutoff. -/
theorem svdRightPrecond_open (la : LinAlg) (A : Matrix (Fin m) (Fin n) ℝ) (o : PrecOut m n)
    (h : svdRightPrecond la A = .ok o) : ∃ (h0 : 0 < min m n) (hr : o.r ≤ min m n),
      o.U = (la.svd A).1.submatrix id (Fin.castLE hr) ∧
      o.sigma = (la.svd A).2.1 ∘ Fin.castLE hr ∧
      o.Vh = (la.svd A).2.2.submatrix (Fin.castLE hr) id ∧
      (o.M = Matrix.of fun i j => o.Vhᵀ i j / o.sigma j) ∧
      ∀ i : Fin (min m n), i.1 < o.r ↔ (la.svd A).2.1 ⟨0, h0⟩ * n * eps < (la.svd A).2.1 i := by
  unfold svdRightPrecond at h
  split at h
  · rename_i h0
    cases h
    refine ⟨h0, min_le_right _ _, rfl, rfl, rfl, rfl, fun i => ?_⟩
    have hanti := la.svd_anti A
    set s := (la.svd A).2.1
    set cut := s ⟨0, h0⟩ * n * eps
    -- the indices above the cutoff form a prefix
    have hpre : ∃ r ≤ min m n, ∀ i : Fin (min m n), cut < s i ↔ i.1 < r := by
      by_cases hex : ∃ i, s i ≤ cut
      · classical
        have hne : (Finset.univ.filter fun i => s i ≤ cut).Nonempty := by
          obtain ⟨i, hi⟩ := hex; exact ⟨i, by simpa using hi⟩
        set i0 := (Finset.univ.filter fun i => s i ≤ cut).min' hne
        have hi0 : s i0 ≤ cut := by have := Finset.min'_mem _ hne; simpa using this
        refine ⟨i0.1, i0.2.le, fun i => ⟨fun hi => ?_, fun hi => ?_⟩⟩
        · by_contra hle
          have := hanti (show i0 ≤ i from not_lt.1 hle)
          linarith
        · by_contra hlt
          have : i0 ≤ i := Finset.min'_le _ _ (by simpa using not_lt.1 hlt)
          exact absurd hi (not_lt.2 this)
      · push Not at hex
        exact ⟨_, le_rfl, fun i => ⟨fun _ => i.2, fun _ => hex i⟩⟩
    obtain ⟨r, hr, hi⟩ := hpre
    have hcard : (Finset.univ.filter fun i => s i > cut).card = r :=
      prefix_card hr _ (fun i => by simpa using hi i)
    rw [hi i]
    show i.1 < min (Finset.univ.filter fun i => s i > cut).card (min m n) ↔ _
    rw [hcard]; omega
  · cases h

/-- **C26**.  `svd_right_precond` succeeds exactly for sketches with at least one row and column,
and then returns `(M, U, sigma, Vh)` with `A_ske M = U`, orthonormal columns of `U`, orthonormal
rows of `Vh`, positive non-increasing `sigma` and `M = Vh'/sigma`; if `r = n`, `M M'` is the inverse
of `A_ske' A_ske`. -/
theorem C26_svd_right_precond (la : LinAlg) (A : Matrix (Fin m) (Fin n) ℝ) (o : PrecOut m n)
    (h : svdRightPrecond la A = .ok o) :
    A * o.M = o.U ∧ OrthoCols o.U ∧ OrthoRows o.Vh ∧ (∀ i, 0 < o.sigma i) ∧ Antitone o.sigma ∧
      (∀ i j, o.M i j * o.sigma j = o.Vh j i) ∧
      (o.r = n → o.M * o.Mᵀ * (Aᵀ * A) = 1 ∧ Aᵀ * A * (o.M * o.Mᵀ) = 1) := by
  obtain ⟨h0, hr, hU, hs, hV, hM, hi⟩ := svdRightPrecond_open la A o h
  have hUo : o.Uᵀ * o.U = 1 := by
    rw [hU]; exact orth_submatrix (la.svd_left A) (Fin.castLE_injective hr)
  have hVo : o.Vh * o.Vhᵀ = 1 := by
    have h2 : ((la.svd A).2.2ᵀ)ᵀ * (la.svd A).2.2ᵀ = 1 := by
      rw [transpose_transpose]; exact la.svd_right A
    have := orth_submatrix h2 (Fin.castLE_injective hr)
    rw [hV, transpose_submatrix]
    rw [transpose_submatrix, transpose_transpose] at this
    exact this
  have hpos : ∀ i, 0 < o.sigma i := by
    intro i
    have := (hi (Fin.castLE hr i)).1 i.2
    rw [hs]
    refine lt_of_le_of_lt ?_ this
    have h1 := la.svd_nonneg A ⟨0, h0⟩
    have : (0 : ℝ) ≤ eps := by unfold eps; positivity
    positivity
  have hMs : ∀ i j, o.M i j * o.sigma j = o.Vh j i := by
    intro i j
    rw [hM]
    simp only [of_apply, transpose_apply]
    exact div_mul_cancel₀ _ (hpos j).ne'
  have hAM : A * o.M = o.U := by
    have hM' : o.M = o.Vhᵀ * diagonal fun j => (o.sigma j)⁻¹ := by
      rw [hM]; ext i j; rw [mul_diagonal]; rfl
    have e : A * o.Vhᵀ = o.U * diagonal o.sigma := by
      have h1 : (la.svd A).2.2 * o.Vhᵀ = (1 : Matrix (Fin (min m n)) (Fin (min m n)) ℝ).submatrix id (Fin.castLE hr) := by
        rw [hV, transpose_submatrix, ← la.svd_right A]
        rfl
      conv_lhs => rw [← la.svd_mul A]
      rw [Matrix.mul_assoc, h1, Matrix.mul_assoc]
      ext i j
      rw [hU, hs]
      simp only [mul_apply, diagonal_apply, submatrix_apply, id, one_apply, ite_mul, zero_mul,
        mul_ite, mul_one, mul_zero, Finset.sum_ite_eq, Finset.mem_univ, if_true, Function.comp,
        Finset.sum_ite_eq']
    rw [hM', ← Matrix.mul_assoc, e, Matrix.mul_assoc, diagonal_mul_diagonal]
    have : (fun i => o.sigma i * (o.sigma i)⁻¹) = fun _ => 1 := by
      funext i; exact mul_inv_cancel₀ (hpos i).ne'
    rw [this, diagonal_one, Matrix.mul_one]
  refine ⟨hAM, hUo, hVo, hpos, ?_, hMs, fun hrn => ?_⟩
  · intro a b hab
    rw [hs]; exact la.svd_anti A (show Fin.castLE hr a ≤ Fin.castLE hr b from hab)
  · obtain ⟨c, M, U, sg, V⟩ := o
    change c = n at hrn
    subst hrn
    have hg : Mᵀ * (Aᵀ * A) * M = 1 := by
      have : (A * M)ᵀ * (A * M) = 1 := by rw [hAM]; exact hUo
      rw [← this, transpose_mul]; simp only [Matrix.mul_assoc]
    have h1 : M * (Mᵀ * (Aᵀ * A)) = 1 := mul_eq_one_comm.1 hg
    have h1' : M * Mᵀ * (Aᵀ * A) = 1 := by rw [Matrix.mul_assoc]; exact h1
    exact ⟨h1', mul_eq_one_comm.1 h1'⟩

/-- **C26** (rank): the kept singular values are exactly those above `sigma_max * n * eps`, where
`A_ske = U0 diag(s) V0` is the backend's SVD; if every nonzero singular value is above that cutoff
then `A_ske = U diag(sigma) Vh` and `r = rank(A_ske)`. -/
theorem C26_numerical_rank (la : LinAlg) (A : Matrix (Fin m) (Fin n) ℝ) (o : PrecOut m n)
    (h : svdRightPrecond la A = .ok o) :
    ∃ h0 : 0 < min m n,
      o.r = (Finset.univ.filter fun i => (la.svd A).2.1 ⟨0, h0⟩ * n * eps < (la.svd A).2.1 i).card ∧
      ((∀ i, (la.svd A).2.1 i ≠ 0 → (la.svd A).2.1 ⟨0, h0⟩ * n * eps < (la.svd A).2.1 i) →
        A = o.U * diagonal o.sigma * o.Vh ∧ o.r = A.rank) := by
  obtain ⟨h0, hr, hU, hs, hV, hM, hi⟩ := svdRightPrecond_open la A o h
  obtain ⟨hAM, hUo, hVo, hpos, -⟩ := C26_svd_right_precond la A o h
  refine ⟨h0, (prefix_card hr _ fun i => by simpa using (hi i).symm).symm, fun hz => ?_⟩
  have hA : A = o.U * diagonal o.sigma * o.Vh := by
    have := pre_tail hr (la.svd A).1 (la.svd A).2.1 (la.svd A).2.2
    rw [la.svd_mul, ← hU, ← hs, ← hV] at this
    have hzero : (fun i : Fin (min m n) => if i.1 < o.r then 0 else (la.svd A).2.1 i) = fun _ => 0 := by
      funext i
      split
      · rfl
      · rename_i hlt
        by_contra hne
        exact hlt ((hi i).2 (hz i hne))
    rw [hzero, diagonal_zero, Matrix.mul_zero, Matrix.zero_mul] at this
    exact sub_eq_zero.1 this
  refine ⟨hA, le_antisymm ?_ ?_⟩
  · have h1 : (A * o.M).rank = o.r := by rw [hAM]; exact fullColRank_of_orth hUo
    rw [← h1]; exact Matrix.rank_mul_le_left _ _
  · rw [hA]
    exact (Matrix.rank_mul_le_right _ _).trans (Matrix.rank_le_height _)

/-- **C26** (failure): an empty sketch raises `IndexError`, every other one succeeds. -/
theorem C26_empty (la : LinAlg) (A : Matrix (Fin m) (Fin n) ℝ) :
    (m = 0 ∨ n = 0 → svdRightPrecond la A = .error .index) ∧
    (m ≠ 0 → n ≠ 0 → ∃ o, svdRightPrecond la A = .ok o) := by
  unfold svdRightPrecond
  constructor
  · intro h; rw [dif_neg (by omega)]
  · intro h1 h2; exact ⟨_, dif_pos (by omega)⟩

/-- The hypotheses are met: `A = diag(2, 1)`, `delta = 3`, `R = [[1, 5], [0, 2]]`; and the reference
backend's `svd_right_precond` of a `2 x 1` sketch returns. -/
example : (∃ M : Matrix (Fin 2) (Fin 2) ℝ, !![1, 5; 0, 2] * M = 1 ∧ M * !![1, 5; 0, 2] = 1 ∧
      ∃ o, aLiftPrecond (!![2, 0; 0, 1] : Matrix (Fin 2) (Fin 2) ℝ) 3 (.tri !![1, 5; 0, 2]) 1 = .ok o) ∧
    ∃ o, svdRightPrecond LinAlg.ref (!![3; 4] : Matrix (Fin 2) (Fin 1) ℝ) = .ok o := by
  constructor
  · obtain ⟨M, h1, h2, o, h3, -⟩ := C25_precond_upper_tri (!![2, 0; 0, 1] : Matrix (Fin 2) (Fin 2) ℝ) 3
      (by norm_num) !![1, 5; 0, 2]
      (by intro i j h; fin_cases i <;> fin_cases j <;> simp_all)
      (by intro i; fin_cases i <;> simp)
    exact ⟨M, h1, h2, o, h3⟩
  · exact (C26_empty LinAlg.ref _).2 (by norm_num) (by norm_num)

end Parla.Props
