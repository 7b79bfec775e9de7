import Verif.Proof.PCG
import Mathlib.LinearAlgebra.Matrix.Notation

/-! # Properties C27 – C28: `pcg` -/

namespace Parla.Props

open Matrix Parla Spec

variable {n : ℕ}

theorem pcg_ok_iff {mvMat mvPre : (Fin n → ℝ) → Fin n → ℝ} {rhs x0 x : Fin n → ℝ} {L : ℤ} {tol : ℝ}
    {log : List ℝ} : pcg mvMat rhs mvPre L tol x0 = .ok (x, log) ↔ 0 ≤ L ∧ ∃ t,
      pcgLoop mvMat mvPre rhs (tol * norm2 (rhs - mvMat x0)) L.toNat (pcgInit mvMat mvPre rhs x0) =
        .ok t ∧ t.x = x ∧ t.log = log := by
  unfold pcg
  by_cases h : L < 0
  · rw [if_pos h]
    constructor
    · intro h'; cases h'
    · rintro ⟨h', -⟩; omega
  · rw [if_neg h]
    simp only
    rw [show (pcgInit mvMat mvPre rhs x0).curErr = norm2 (rhs - mvMat x0) from rfl]
    constructor
    · intro h'
      cases ht : pcgLoop mvMat mvPre rhs (tol * norm2 (rhs - mvMat x0)) L.toNat
          (pcgInit mvMat mvPre rhs x0) with
      | error e => rw [ht] at h'; cases h'
      | ok t =>
        rw [ht] at h'
        cases h'
        exact ⟨by omega, t, rfl, rfl, rfl⟩
    · rintro ⟨-, t, ht, rfl, rfl⟩
      rw [ht]

/-! ## C27 -/

/-- **C27**.  For every linear `mat` (no definiteness) and every preconditioner function: if `pcg`
returns `(x, residuals)` then at most `iter_lim` residuals were logged; the `i`-th logged value is
the true residual norm of the `i`-th iterate (the point `pcg` returns under `iter_lim = i`, which
is `x0` for `i = 0`), is above `tol * ||rhs - mat x0||`, and `pcg` stopped because the limit was
reached or because the true residual norm of the returned point is at most that. -/
theorem C27_pcg_log (K : Matrix (Fin n) (Fin n) ℝ) (mvPre : (Fin n → ℝ) → Fin n → ℝ)
    (rhs x0 x : Fin n → ℝ) (L : ℤ) (tol : ℝ) (log : List ℝ)
    (h : pcg (K *ᵥ ·) rhs mvPre L tol x0 = .ok (x, log)) :
    (log.length : ℤ) ≤ L ∧
    ((log.length : ℤ) = L ∨ norm2 (rhs - K *ᵥ x) ≤ tol * norm2 (rhs - K *ᵥ x0)) ∧
    ∀ i (hi : i < log.length), ∃ xi, pcg (K *ᵥ ·) rhs mvPre i tol x0 = .ok (xi, log.take i) ∧
      log[i] = norm2 (rhs - K *ᵥ xi) ∧ tol * norm2 (rhs - K *ᵥ x0) < log[i] := by
  obtain ⟨hL, t, ht, rfl, rfl⟩ := pcg_ok_iff.1 h
  have htrue := pcgLoop_true _ (pcgInit_true K mvPre rhs x0) ht
  obtain ⟨new, h1, h2, h3, -, h5⟩ := pcgLoop_spec _ _ _ ht
  have hlog : t.log = new := by rw [h1]; rfl
  rw [hlog]
  refine ⟨by omega, ?_, ?_⟩
  · rcases h3 with h3 | h3
    · left; omega
    · right
      rw [htrue.2, htrue.1] at h3
      exact not_lt.1 h3
  · intro i hi
    obtain ⟨ti, g1, g2, g3, g4⟩ := h5 i hi
    have hti := pcgLoop_true _ (pcgInit_true K mvPre rhs x0) g1
    refine ⟨ti.x, pcg_ok_iff.2 ⟨by omega, ti, by simpa using g1, rfl, by rw [g2]; rfl⟩, ?_, ?_⟩
    · rw [g3, hti.2, hti.1]
    · rw [g3]; exact g4

/-- **C27** (the 0-th iterate is the starting point). -/
theorem C27_pcg_start (mvMat mvPre : (Fin n → ℝ) → Fin n → ℝ) (rhs x0 : Fin n → ℝ) (tol : ℝ) :
    pcg mvMat rhs mvPre 0 tol x0 = .ok (x0, []) := rfl

/-- **C27** (stopping): a limit beyond the number of logged residuals makes no difference once the
tolerance was met. -/
theorem C27_pcg_limit_irrelevant (K : Matrix (Fin n) (Fin n) ℝ) (mvPre : (Fin n → ℝ) → Fin n → ℝ)
    (rhs x0 x : Fin n → ℝ) (L : ℤ) (tol : ℝ) (log : List ℝ)
    (h : pcg (K *ᵥ ·) rhs mvPre L tol x0 = .ok (x, log)) (L' : ℤ) (h1 : (log.length : ℤ) ≤ L')
    (h2 : L' ≤ L) : pcg (K *ᵥ ·) rhs mvPre L' tol x0 = .ok (x, log) := by
  obtain ⟨hL, t, ht, rfl, rfl⟩ := pcg_ok_iff.1 h
  obtain ⟨new, g1, -, -, g4, -⟩ := pcgLoop_spec _ _ _ ht
  have hlog : t.log = new := by rw [g1]; rfl
  rw [hlog] at h1
  exact pcg_ok_iff.2 ⟨by omega, t, g4 _ (by omega) (by omega), rfl, rfl⟩

/-- **C27** (`iter_lim < 0`): raises `ValueError`. -/
theorem C27_pcg_negative (mvMat mvPre : (Fin n → ℝ) → Fin n → ℝ) (rhs x0 : Fin n → ℝ) (L : ℤ)
    (tol : ℝ) (hL : L < 0) : pcg mvMat rhs mvPre L tol x0 = .error .value := if_pos hL

/-- **C27** (failure): whatever the operators, `pcg` either returns or raises `ValueError`; a first search direction
`d = mv_pre(rhs - mat x0)` with `d' mat d = 0` makes it raise, unless the start already meets the tolerance. -/
theorem C27_pcg_errors (mvMat mvPre : (Fin n → ℝ) → Fin n → ℝ) (rhs x0 : Fin n → ℝ) (L : ℤ) (tol : ℝ) :
    (∀ e, pcg mvMat rhs mvPre L tol x0 = .error e → e = .value) ∧
    (1 ≤ L → tol * norm2 (rhs - mvMat x0) < norm2 (rhs - mvMat x0) →
      mvPre (rhs - mvMat x0) ⬝ᵥ mvMat (mvPre (rhs - mvMat x0)) = 0 →
      pcg mvMat rhs mvPre L tol x0 = .error .value) := by
  constructor
  · have loop : ∀ (k : ℕ) (s : PCGState n) (t : ℝ) (e : PyErr), pcgLoop mvMat mvPre rhs t k s = .error e → e = .value := by
      intro k
      induction k with
      | zero => intro s t e h; cases h
      | succ k ih =>
        intro s t e h
        unfold pcgLoop at h
        split_ifs at h with hc
        · cases hs : pcgStep mvMat mvPre rhs s with
          | ok s' => rw [hs] at h; exact ih _ _ _ h
          | error e' =>
            rw [hs] at h
            cases h
            unfold pcgStep at hs
            cases hd : s.d with
            | none => rw [hd] at hs; cases hs; rfl
            | some d =>
              rw [hd] at hs
              dsimp only at hs
              split_ifs at hs <;> cases hs <;> rfl
    intro e h
    unfold pcg at h
    split_ifs at h with hL
    · cases h; rfl
    · dsimp only at h
      split at h
      · cases h
      · rename_i e' h'
        cases h
        exact loop _ _ _ _ h'
  · intro hL ht hd
    unfold pcg
    rw [if_neg (by omega)]
    obtain ⟨k, hk⟩ : ∃ k, L.toNat = k + 1 := ⟨L.toNat - 1, by omega⟩
    rw [hk]
    have : pcgLoop mvMat mvPre rhs (tol * (pcgInit mvMat mvPre rhs x0).curErr) (k + 1) (pcgInit mvMat mvPre rhs x0) =
        .error .value := by
      unfold pcgLoop
      rw [if_pos (show (pcgInit mvMat mvPre rhs x0).curErr > tol * (pcgInit mvMat mvPre rhs x0).curErr from ht)]
      have : pcgStep mvMat mvPre rhs (pcgInit mvMat mvPre rhs x0) = .error .value := by
        unfold pcgStep pcgInit
        dsimp only
        rw [if_pos hd]
      rw [this]
    dsimp only
    rw [this]

/-- C27_pcg_errors: `mat = 0`, so the first direction has no curvature -/
example : pcg (fun _ => (0 : Fin 1 → ℝ)) ![1] id 5 0 0 = .error .value := by
  refine (C27_pcg_errors _ _ _ _ 5 0).2 (by norm_num) ?_ (by simp)
  have h0 : (![1] : Fin 1 → ℝ) - 0 ≠ 0 := fun h => by simpa using congrFun h 0
  rw [zero_mul]
  exact norm2_pos.2 h0

/-! ## C28 -/

/-- **C28** (termination): for symmetric positive semidefinite `mat`, a consistent system and a
positive definite preconditioner, `pcg` never breaks down, and with `iter_lim >= rank(mat)` (in
particular `iter_lim >= n`) it returns a point whose residual is at most `tol` times the initial
one. -/
theorem C28_pcg_converges (K N : Matrix (Fin n) (Fin n) ℝ) (hK : IsPSD K) (hN : IsPD N)
    (rhs x0 : Fin n → ℝ) (hx : ∃ xs, K *ᵥ xs = rhs) (L : ℤ) (hL : 0 ≤ L) (tol : ℝ) (ht : 0 ≤ tol) :
    ∃ x log, pcg (K *ᵥ ·) rhs (N *ᵥ ·) L tol x0 = .ok (x, log) ∧ log.length ≤ K.rank ∧
      ((K.rank : ℤ) ≤ L → norm2 (rhs - K *ᵥ x) ≤ tol * norm2 (rhs - K *ᵥ x0)) := by
  obtain ⟨xs, hx⟩ := hx
  have h0 : 0 ≤ tol * norm2 (rhs - K *ᵥ x0) := mul_nonneg ht (norm2_nonneg _)
  obtain ⟨k, hk, hj, hst, hrun⟩ := pcgLoop_run (x0 := x0) hK hN hx h0 L.toNat
  obtain ⟨hg, hne⟩ := pcgSeq_good' hK hN hx h0 k hj
  have hok : pcg (K *ᵥ ·) rhs (N *ᵥ ·) L tol x0 = .ok (_, _) := pcg_ok_iff.2 ⟨hL, _, hrun, rfl, rfl⟩
  have hlen : (pcgSeq K N rhs x0 k).1.log.length = k := by
    clear hrun hst hg hok
    induction k with
    | zero => rfl
    | succ k ih =>
      have := ih (by omega) (fun j h => hj j (by omega)) (fun j h => hne j (by omega))
      show (_ ++ [_]).length = _
      rw [List.length_append, this]; rfl
  refine ⟨_, _, hok, ?_, fun hr => ?_⟩
  · rw [hlen]; exact pcgSeq_rank hK hN hx k hne
  · rw [← hg.res, ← hg.err]
    rcases hst with h | h
    · by_contra hc
      have hne' : ∀ j < k + 1, (pcgSeq K N rhs x0 j).1.r ≠ 0 := by
        intro j hj'
        rcases Nat.lt_or_eq_of_le (Nat.le_of_lt_succ hj') with h' | rfl
        · exact hne j h'
        · exact Good_r_ne hg h0 (not_le.1 hc)
      have := pcgSeq_rank hK hN hx (k + 1) hne'
      omega
    · exact h

/-- **C28** (`tol = 0`): with `iter_lim >= n` and `tol = 0` the linear system is solved exactly. -/
theorem C28_pcg_exact (K N : Matrix (Fin n) (Fin n) ℝ) (hK : IsPSD K) (hN : IsPD N)
    (rhs x0 : Fin n → ℝ) (hx : ∃ xs, K *ᵥ xs = rhs) (L : ℤ) (hL : (n : ℤ) ≤ L) :
    ∃ x log, pcg (K *ᵥ ·) rhs (N *ᵥ ·) L 0 x0 = .ok (x, log) ∧ K *ᵥ x = rhs := by
  obtain ⟨x, log, h1, -, h2⟩ := C28_pcg_converges K N hK hN rhs x0 hx L (by omega) 0 le_rfl
  refine ⟨x, log, h1, ?_⟩
  have := h2 (by have := Matrix.rank_le_width K; omega)
  rw [zero_mul] at this
  have := norm2_eq_zero.1 (le_antisymm this (norm2_nonneg _))
  exact (sub_eq_zero.1 this).symm

/-- **C28** (monotonicity and orthogonality): along a run, the energy norm of the error (w.r.t. any
solution `xs`) decreases strictly from each iterate to the next, and the residuals of different
iterates are orthogonal in the preconditioner's inner product.  `x_i` is the point returned under
`iter_lim = i`. -/
theorem C28_pcg_monotone (K N : Matrix (Fin n) (Fin n) ℝ) (hK : IsPSD K) (hN : IsPD N)
    (rhs x0 xs x : Fin n → ℝ) (hx : K *ᵥ xs = rhs) (L : ℤ) (tol : ℝ) (ht : 0 ≤ tol) (log : List ℝ)
    (h : pcg (K *ᵥ ·) rhs (N *ᵥ ·) L tol x0 = .ok (x, log)) :
    ∃ X : ℕ → Fin n → ℝ,
      (∀ i ≤ log.length, pcg (K *ᵥ ·) rhs (N *ᵥ ·) i tol x0 = .ok (X i, log.take i)) ∧
      X 0 = x0 ∧ X log.length = x ∧
      (∀ i < log.length, (X (i + 1) - xs) ⬝ᵥ (K *ᵥ (X (i + 1) - xs)) <
        (X i - xs) ⬝ᵥ (K *ᵥ (X i - xs))) ∧
      ∀ i j, i < j → j ≤ log.length →
        (rhs - K *ᵥ X j) ⬝ᵥ (N *ᵥ (rhs - K *ᵥ X i)) = 0 := by
  have h0 : 0 ≤ tol * norm2 (rhs - K *ᵥ x0) := mul_nonneg ht (norm2_nonneg _)
  obtain ⟨hL, t, hrun, rfl, rfl⟩ := pcg_ok_iff.1 h
  obtain ⟨k, hk, hj, hst, hrun'⟩ := pcgLoop_run (x0 := x0) hK hN hx h0 L.toNat
  rw [show pcgInit (K *ᵥ ·) (N *ᵥ ·) rhs x0 = (pcgSeq K N rhs x0 0).1 from rfl, hrun'] at hrun
  cases hrun
  have hlog : ∀ i, (pcgSeq K N rhs x0 i).1.log.length = i ∧
      ∀ j ≤ i, (pcgSeq K N rhs x0 j).1.log = (pcgSeq K N rhs x0 i).1.log.take j := by
    intro i
    induction i with
    | zero => exact ⟨rfl, fun j hj => by obtain rfl : j = 0 := by omega
                                         rfl⟩
    | succ i ih =>
      have e : (pcgSeq K N rhs x0 (i + 1)).1.log =
        (pcgSeq K N rhs x0 i).1.log ++ [(pcgSeq K N rhs x0 i).1.curErr] := rfl
      refine ⟨by rw [e, List.length_append, ih.1]; rfl, fun j hj => ?_⟩
      rcases Nat.lt_or_eq_of_le hj with h' | rfl
      · rw [ih.2 j (by omega), e, List.take_append_of_le_length (by rw [ih.1]; omega)]
      · rw [List.take_of_length_le (by rw [e, List.length_append, ih.1]; rfl)]
  rw [(hlog k).1]
  obtain ⟨hg, hne⟩ := pcgSeq_good' hK hN hx h0 k hj
  have hgood : ∀ i ≤ k, (pcgSeq K N rhs x0 i).1.Good K N rhs (pcgSeq K N rhs x0 i).2 :=
    fun i hi => pcgSeq_good hK hN hx i fun j hj => hne j (by omega)
  refine ⟨fun i => (pcgSeq K N rhs x0 i).1.x, fun i hi => ?_, rfl, rfl, fun i hi => ?_,
    fun i j hij hjk => ?_⟩
  · refine pcg_ok_iff.2 ⟨by omega, (pcgSeq K N rhs x0 i).1, ?_, rfl, (hlog k).2 i hi⟩
    have := pcgLoop_seq (x0 := x0) hK hN hx h0 i 0 fun j hj' => hj j (by omega)
    rw [Int.toNat_natCast]
    exact this
  · exact pcgSeq_energy hK hN hx (hgood i hi.le) (hne i hi)
  · rw [← (hgood i (by omega)).res, ← (hgood j hjk).res]
    exact pcgSeq_orth hK hN hx j (fun l hl => hne l (by omega)) i hij

/-- The hypotheses are met by `mat = [[2, 1], [1, 2]]`, preconditioner `diag(1, 3)`, a right-hand
side and a start that is not the solution. -/
example : ∃ x log, pcg (n := 2) ((!![2, 1; 1, 2] : Matrix (Fin 2) (Fin 2) ℝ) *ᵥ ·) ![1, -1]
    ((!![1, 0; 0, 3] : Matrix (Fin 2) (Fin 2) ℝ) *ᵥ ·) 2 0 ![5, 7] = .ok (x, log) ∧
    (!![2, 1; 1, 2] : Matrix (Fin 2) (Fin 2) ℝ) *ᵥ x = ![1, -1] := by
  refine C28_pcg_exact _ _ ⟨?_, ?_⟩ ⟨?_, ?_⟩ _ _ ⟨![1, -1], ?_⟩ 2 (by norm_num)
  · ext i j; fin_cases i <;> fin_cases j <;> rfl
  · intro x
    simp [Matrix.mulVec, dotProduct, Fin.sum_univ_two]
    nlinarith [sq_nonneg (x 0 + x 1), sq_nonneg (x 0), sq_nonneg (x 1)]
  · ext i j; fin_cases i <;> fin_cases j <;> rfl
  · intro x hx
    simp [Matrix.mulVec, dotProduct, Fin.sum_univ_two]
    have : x 0 ≠ 0 ∨ x 1 ≠ 0 := by
      by_contra hc
      push Not at hc
      exact hx (funext fun i => by fin_cases i <;> simp [hc.1, hc.2])
    rcases this with h | h
    · have := mul_self_pos.2 h; nlinarith [mul_self_nonneg (x 1)]
    · have := mul_self_pos.2 h; nlinarith [mul_self_nonneg (x 0)]
  · ext i; fin_cases i <;> simp [Matrix.mulVec, dotProduct, Fin.sum_univ_two] <;> norm_num

end Parla.Props
