import Verif.Model.PCG
import Verif.Proof.Rank

/-! Preconditioned conjugate gradients (helper lemmas). -/

namespace Parla

open Matrix Spec

variable {n : ℕ}

/-! ### the loop -/

section loop

variable {mvMat mvPre : (Fin n → ℝ) → Fin n → ℝ} {rhs : Fin n → ℝ} {relTol : ℝ}

theorem pcgLoop_zero (s : PCGState n) : pcgLoop mvMat mvPre rhs relTol 0 s = .ok s := rfl

theorem pcgLoop_stop {s : PCGState n} (h : ¬ s.curErr > relTol) (k : ℕ) :
    pcgLoop mvMat mvPre rhs relTol k s = .ok s := by
  cases k with
  | zero => rfl
  | succ k => unfold pcgLoop; rw [if_neg h]

theorem pcgLoop_step {s s' : PCGState n} (h : s.curErr > relTol)
    (hs : pcgStep mvMat mvPre rhs s = .ok s') (k : ℕ) :
    pcgLoop mvMat mvPre rhs relTol (k + 1) s = pcgLoop mvMat mvPre rhs relTol k s' := by
  conv_lhs => unfold pcgLoop
  rw [if_pos h, hs]

/-- the state after a step that does not raise -/
noncomputable def pcgNext (mvMat mvPre : (Fin n → ℝ) → Fin n → ℝ) (rhs : Fin n → ℝ)
    (s : PCGState n) (d : Fin n → ℝ) : PCGState n :=
  let alpha := s.delta1 / (d ⬝ᵥ mvMat d)
  let x := s.x + alpha • d
  let r := if s.i % 10 = 0 then rhs - mvMat x else s.r - alpha • mvMat d
  ⟨x, r, if s.delta1 = 0 then none else some (mvPre r + ((r ⬝ᵥ mvPre r) / s.delta1) • d),
    r ⬝ᵥ mvPre r, norm2 r, s.log ++ [s.curErr], s.i + 1⟩

theorem pcgStep_eq {s : PCGState n} {d : Fin n → ℝ} (hd : s.d = some d) (h : d ⬝ᵥ mvMat d ≠ 0) :
    pcgStep mvMat mvPre rhs s = .ok (pcgNext mvMat mvPre rhs s d) := by
  unfold pcgStep
  rw [hd]
  simp only
  rw [if_neg h]
  unfold pcgNext
  congr

theorem pcgStep_ok {s s' : PCGState n} (h : pcgStep mvMat mvPre rhs s = .ok s') :
    ∃ d, s.d = some d ∧ d ⬝ᵥ mvMat d ≠ 0 ∧ s' = pcgNext mvMat mvPre rhs s d := by
  cases hd : s.d with
  | none => unfold pcgStep at h; rw [hd] at h; cases h
  | some d =>
    by_cases h0 : d ⬝ᵥ mvMat d = 0
    · unfold pcgStep at h; rw [hd] at h; simp only at h; rw [if_pos h0] at h; cases h
    · rw [pcgStep_eq hd h0] at h
      cases h
      exact ⟨d, rfl, h0, rfl⟩

theorem pcgStep_log {s s' : PCGState n} (h : pcgStep mvMat mvPre rhs s = .ok s') :
    s'.log = s.log ++ [s.curErr] ∧ s'.i = s.i + 1 := by
  obtain ⟨d, -, -, rfl⟩ := pcgStep_ok h
  exact ⟨rfl, rfl⟩

/-- The states a run goes through are those runs with smaller limits end in. -/
theorem pcgLoop_spec (k : ℕ) : ∀ (s t : PCGState n), pcgLoop mvMat mvPre rhs relTol k s = .ok t →
    ∃ new : List ℝ, t.log = s.log ++ new ∧ new.length ≤ k ∧
      (new.length = k ∨ ¬ t.curErr > relTol) ∧
      (∀ j, new.length ≤ j → j ≤ k → pcgLoop mvMat mvPre rhs relTol j s = .ok t) ∧
      ∀ j (hj : j < new.length), ∃ tj, pcgLoop mvMat mvPre rhs relTol j s = .ok tj ∧
        tj.log = s.log ++ new.take j ∧ new[j] = tj.curErr ∧ tj.curErr > relTol := by
  induction k with
  | zero =>
    intro s t h
    cases h
    exact ⟨[], by simp, by simp, Or.inl rfl, fun j h1 h2 => by
      obtain rfl : j = 0 := by omega
      rfl, fun j hj => absurd hj (by simp)⟩
  | succ k ih =>
    intro s t h
    by_cases hc : s.curErr > relTol
    · cases hs : pcgStep mvMat mvPre rhs s with
      | error e => unfold pcgLoop at h; rw [if_pos hc, hs] at h; cases h
      | ok s' =>
        rw [pcgLoop_step hc hs] at h
        obtain ⟨new, h1, h2, h3, h4, h5⟩ := ih s' t h
        obtain ⟨hl, -⟩ := pcgStep_log hs
        refine ⟨s.curErr :: new, ?_, ?_, ?_, ?_, ?_⟩
        · rw [h1, hl, List.append_assoc]; rfl
        · simp; omega
        · simpa using h3
        · intro j hj1 hj2
          cases j with
          | zero => simp at hj1
          | succ j =>
            rw [pcgLoop_step hc hs]
            exact h4 j (by simpa using hj1) (by omega)
        · intro j hj
          cases j with
          | zero => exact ⟨s, rfl, by simp, rfl, hc⟩
          | succ j =>
            obtain ⟨tj, g1, g2, g3, g4⟩ := h5 j (by simpa using hj)
            refine ⟨tj, ?_, ?_, g3, g4⟩
            · rw [pcgLoop_step hc hs]; exact g1
            · rw [g2, hl, List.append_assoc]; rfl
    · rw [pcgLoop_stop hc] at h
      cases h
      exact ⟨[], by simp, by simp, Or.inr hc, fun j _ _ => pcgLoop_stop hc j,
        fun j hj => absurd hj (by simp)⟩

end loop

/-! ### invariants for a linear `mat` -/

/-- the residual variable is the residual, the error variable its norm -/
def PCGState.True (K : Matrix (Fin n) (Fin n) ℝ) (rhs : Fin n → ℝ) (s : PCGState n) : Prop :=
  s.r = rhs - K *ᵥ s.x ∧ s.curErr = norm2 s.r

theorem pcgStep_true {K : Matrix (Fin n) (Fin n) ℝ} {mvPre : (Fin n → ℝ) → Fin n → ℝ}
    {rhs : Fin n → ℝ} {s s' : PCGState n} (hs : s.True K rhs)
    (h : pcgStep (K *ᵥ ·) mvPre rhs s = .ok s') : s'.True K rhs := by
  obtain ⟨d, hd, -, rfl⟩ := pcgStep_ok h
  refine ⟨?_, rfl⟩
  show (if s.i % 10 = 0 then _ else _) = _
  split
  · rfl
  · show s.r - _ = rhs - K *ᵥ (s.x + _ • d)
    rw [hs.1, mulVec_add, mulVec_smul]; abel

theorem pcgLoop_true {K : Matrix (Fin n) (Fin n) ℝ} {mvPre : (Fin n → ℝ) → Fin n → ℝ}
    {rhs : Fin n → ℝ} {relTol : ℝ} (k : ℕ) : ∀ {s t : PCGState n}, s.True K rhs →
    pcgLoop (K *ᵥ ·) mvPre rhs relTol k s = .ok t → t.True K rhs := by
  induction k with
  | zero => intro s t hs h; cases h; exact hs
  | succ k ih =>
    intro s t hs h
    by_cases hc : s.curErr > relTol
    · cases hst : pcgStep (K *ᵥ ·) mvPre rhs s with
      | error e => unfold pcgLoop at h; rw [if_pos hc, hst] at h; cases h
      | ok s' =>
        rw [pcgLoop_step hc hst] at h
        exact ih (pcgStep_true hs hst) h
    · rw [pcgLoop_stop hc] at h; cases h; exact hs

theorem pcgInit_true (K : Matrix (Fin n) (Fin n) ℝ) (mvPre : (Fin n → ℝ) → Fin n → ℝ)
    (rhs x0 : Fin n → ℝ) : (pcgInit (K *ᵥ ·) mvPre rhs x0).True K rhs := ⟨rfl, rfl⟩

/-! ### the definite case -/

theorem dot_symm {K : Matrix (Fin n) (Fin n) ℝ} (hK : Kᵀ = K) (u v : Fin n → ℝ) :
    u ⬝ᵥ (K *ᵥ v) = v ⬝ᵥ (K *ᵥ u) := by
  rw [dot_mulVec, hK, dotProduct_comm]

/-- a positive semidefinite form vanishes at `d` only if `K d = 0` -/
theorem psd_zero {K : Matrix (Fin n) (Fin n) ℝ} (hK : IsPSD K) {d : Fin n → ℝ}
    (h : d ⬝ᵥ (K *ᵥ d) = 0) : K *ᵥ d = 0 := by
  -- expand the form at `d + t K d`
  set e := K *ᵥ d
  have key : ∀ t : ℝ, 0 ≤ 2 * t * (e ⬝ᵥ e) + t ^ 2 * (e ⬝ᵥ (K *ᵥ e)) := by
    intro t
    have := hK.2 (d + t • e)
    rw [mulVec_add, mulVec_smul, add_dotProduct, dotProduct_add, dotProduct_add, smul_dotProduct,
      smul_dotProduct, dotProduct_smul, dotProduct_smul, h, dot_symm hK.1 d e] at this
    simp only [smul_eq_mul] at this
    show 0 ≤ 2 * t * (e ⬝ᵥ (K *ᵥ d)) + t ^ 2 * (e ⬝ᵥ (K *ᵥ e))
    linarith
  have he : 0 ≤ e ⬝ᵥ e := by rw [← sqNorm_eq_dot]; exact sqNorm_nonneg e
  have hq : 0 ≤ e ⬝ᵥ (K *ᵥ e) := hK.2 e
  have h0 : e ⬝ᵥ e = 0 := by
    by_contra hne
    have hpos : 0 < e ⬝ᵥ e := lt_of_le_of_ne he (Ne.symm hne)
    by_cases hq0 : e ⬝ᵥ (K *ᵥ e) = 0
    · have := key (-1); rw [hq0] at this; linarith
    · have hqp : 0 < e ⬝ᵥ (K *ᵥ e) := lt_of_le_of_ne hq (Ne.symm hq0)
      have := key (-(e ⬝ᵥ e) / (e ⬝ᵥ (K *ᵥ e)))
      have e1 : 2 * (-(e ⬝ᵥ e) / (e ⬝ᵥ (K *ᵥ e))) * (e ⬝ᵥ e) +
          (-(e ⬝ᵥ e) / (e ⬝ᵥ (K *ᵥ e))) ^ 2 * (e ⬝ᵥ (K *ᵥ e)) =
          -((e ⬝ᵥ e) ^ 2 / (e ⬝ᵥ (K *ᵥ e))) := by field_simp; ring
      rw [e1] at this
      have : 0 < (e ⬝ᵥ e) ^ 2 / (e ⬝ᵥ (K *ᵥ e)) := by positivity
      linarith
  rw [← sqNorm_eq_dot, sqNorm_eq_zero] at h0
  exact h0

/-- Invariant of a run in the definite case: the direction is finite, `d'r = r'Nr`. -/
structure PCGState.Good (K N : Matrix (Fin n) (Fin n) ℝ) (rhs : Fin n → ℝ) (s : PCGState n)
    (d : Fin n → ℝ) : Prop where
  res : s.r = rhs - K *ᵥ s.x
  err : s.curErr = norm2 s.r
  dir : s.d = some d
  dlt : s.delta1 = s.r ⬝ᵥ (N *ᵥ s.r)
  dr : d ⬝ᵥ s.r = s.r ⬝ᵥ (N *ᵥ s.r)

theorem PCGState.Good.den_pos {K N : Matrix (Fin n) (Fin n) ℝ} (hK : IsPSD K) (hN : IsPD N)
    {rhs xs : Fin n → ℝ} (hx : K *ᵥ xs = rhs) {s : PCGState n} {d : Fin n → ℝ}
    (hs : s.Good K N rhs d) (hr : s.r ≠ 0) : 0 < d ⬝ᵥ (K *ᵥ d) := by
  refine lt_of_le_of_ne (hK.2 d) fun h0 => ?_
  have hKd := psd_zero hK h0.symm
  have hpos := hN.2 s.r hr
  rw [← hs.dr] at hpos
  have : s.r = K *ᵥ (xs - s.x) := by rw [hs.res, mulVec_sub, hx]
  rw [this, dot_symm hK.1, hKd, dotProduct_zero] at hpos
  exact lt_irrefl _ hpos

/-- One step from a good state with nonzero residual: it succeeds, and everything it computes. -/
theorem PCGState.Good.step {K N : Matrix (Fin n) (Fin n) ℝ} (hK : IsPSD K) (hN : IsPD N)
    {rhs xs : Fin n → ℝ} (hx : K *ᵥ xs = rhs) {s : PCGState n} {d : Fin n → ℝ}
    (hs : s.Good K N rhs d) (hr : s.r ≠ 0) : ∃ s', pcgStep (K *ᵥ ·) (N *ᵥ ·) rhs s = .ok s' ∧
      s'.x = s.x + (s.r ⬝ᵥ (N *ᵥ s.r) / (d ⬝ᵥ (K *ᵥ d))) • d ∧
      s'.r = s.r - (s.r ⬝ᵥ (N *ᵥ s.r) / (d ⬝ᵥ (K *ᵥ d))) • (K *ᵥ d) ∧
      s'.Good K N rhs (N *ᵥ s'.r + (s'.r ⬝ᵥ (N *ᵥ s'.r) / (s.r ⬝ᵥ (N *ᵥ s.r))) • d) := by
  have hden := hs.den_pos hK hN hx hr
  have hpos := hN.2 s.r hr
  obtain ⟨x, r, dd, dl, ce, lg, i⟩ := s
  obtain ⟨h1, h2, h3, h4, h5⟩ := hs
  simp only at h1 h2 h3 h4 h5 hr hpos
  subst h3 h4
  set α := r ⬝ᵥ (N *ᵥ r) / (d ⬝ᵥ (K *ᵥ d)) with hα
  have hr' : (if i % 10 = 0 then rhs - K *ᵥ (x + α • d) else r - α • (K *ᵥ d)) =
      r - α • (K *ᵥ d) := by
    split
    · rw [h1, mulVec_add, mulVec_smul]; abel
    · rfl
  have hdr : d ⬝ᵥ (r - α • (K *ᵥ d)) = 0 := by
    rw [dotProduct_sub, dotProduct_smul, h5, smul_eq_mul, hα, div_mul_cancel₀ _ hden.ne', sub_self]
  have e : (pcgNext (K *ᵥ ·) (N *ᵥ ·) rhs ⟨x, r, some d, r ⬝ᵥ (N *ᵥ r), ce, lg, i⟩ d).r =
      r - α • (K *ᵥ d) := hr'
  refine ⟨_, pcgStep_eq (mvMat := (K *ᵥ ·)) (mvPre := (N *ᵥ ·)) rfl hden.ne', rfl, hr',
    ⟨?_, rfl, if_neg hpos.ne', rfl, ?_⟩⟩
  · rw [e]
    show _ = rhs - K *ᵥ (x + α • d)
    rw [h1, mulVec_add, mulVec_smul]; abel
  · rw [e, add_dotProduct, smul_dotProduct, hdr, smul_zero, add_zero, dotProduct_comm]

theorem pcgInit_good (K N : Matrix (Fin n) (Fin n) ℝ) (rhs x0 : Fin n → ℝ) :
    (pcgInit (K *ᵥ ·) (N *ᵥ ·) rhs x0).Good K N rhs (N *ᵥ (rhs - K *ᵥ x0)) :=
  ⟨rfl, rfl, rfl, rfl, dotProduct_comm _ _⟩

end Parla

namespace Parla

open Matrix Spec

variable {n : ℕ}

/-- Global orthogonality and conjugacy of the conjugate gradient recurrences. -/
theorem cg_orth {K N : Matrix (Fin n) (Fin n) ℝ} (hK : Kᵀ = K) (hN : Nᵀ = N)
    (R D : ℕ → Fin n → ℝ) (m : ℕ) (h0 : D 0 = N *ᵥ R 0)
    (hR : ∀ k < m, R (k + 1) = R k - (R k ⬝ᵥ (N *ᵥ R k) / (D k ⬝ᵥ (K *ᵥ D k))) • (K *ᵥ D k))
    (hD : ∀ k < m, D (k + 1) = N *ᵥ R (k + 1) +
      (R (k + 1) ⬝ᵥ (N *ᵥ R (k + 1)) / (R k ⬝ᵥ (N *ᵥ R k))) • D k)
    (hden : ∀ k < m, D k ⬝ᵥ (K *ᵥ D k) ≠ 0) (hnz : ∀ k < m, R k ⬝ᵥ (N *ᵥ R k) ≠ 0) :
    ∀ k ≤ m, (∀ j < k, R k ⬝ᵥ D j = 0 ∧ R k ⬝ᵥ (N *ᵥ R j) = 0 ∧ D k ⬝ᵥ (K *ᵥ D j) = 0) ∧
      D k ⬝ᵥ R k = R k ⬝ᵥ (N *ᵥ R k) := by
  intro k
  induction k with
  | zero =>
    intro _
    exact ⟨fun j hj => absurd hj (by omega), by rw [h0, dotProduct_comm]⟩
  | succ k ih =>
    intro hk
    have hkm : k < m := hk
    obtain ⟨ih1, ih2⟩ := ih hkm.le
    set α := R k ⬝ᵥ (N *ᵥ R k) / (D k ⬝ᵥ (K *ᵥ D k)) with hα
    -- (a) the new residual is orthogonal to all directions
    have ha : ∀ j ≤ k, R (k + 1) ⬝ᵥ D j = 0 := by
      intro j hj
      rw [hR k hkm, sub_dotProduct, smul_dotProduct, ← hα]
      rcases Nat.lt_or_eq_of_le hj with hj | rfl
      · rw [(ih1 j hj).1, dotProduct_comm, dot_symm hK, (ih1 j hj).2.2]; simp
      · rw [dotProduct_comm (R j) (D j), ih2, dotProduct_comm (K *ᵥ D j), smul_eq_mul, hα,
          div_mul_cancel₀ _ (hden j hkm), sub_self]
    -- (b) and `N`-orthogonal to all residuals
    have hb : ∀ j ≤ k, R (k + 1) ⬝ᵥ (N *ᵥ R j) = 0 := by
      intro j hj
      cases j with
      | zero => rw [← h0]; exact ha 0 (by omega)
      | succ j =>
        have := hD j (by omega)
        rw [show N *ᵥ R (j + 1) = D (j + 1) -
          (R (j + 1) ⬝ᵥ (N *ᵥ R (j + 1)) / (R j ⬝ᵥ (N *ᵥ R j))) • D j by rw [this]; abel,
          dotProduct_sub, dotProduct_smul, ha _ hj, ha j (by omega)]
        simp
    -- (c) the new direction is conjugate to all old ones
    have hc : ∀ j ≤ k, D (k + 1) ⬝ᵥ (K *ᵥ D j) = 0 := by
      intro j hj
      have hjm : j < m := by omega
      have hαj : R j ⬝ᵥ (N *ᵥ R j) / (D j ⬝ᵥ (K *ᵥ D j)) ≠ 0 := div_ne_zero (hnz j hjm) (hden j hjm)
      have hKD : (R j ⬝ᵥ (N *ᵥ R j) / (D j ⬝ᵥ (K *ᵥ D j))) • (K *ᵥ D j) = R j - R (j + 1) := by
        rw [hR j hjm]; abel
      have hNKD : R (k + 1) ⬝ᵥ (N *ᵥ (K *ᵥ D j)) * (R j ⬝ᵥ (N *ᵥ R j) / (D j ⬝ᵥ (K *ᵥ D j))) =
          R (k + 1) ⬝ᵥ (N *ᵥ R j) - R (k + 1) ⬝ᵥ (N *ᵥ R (j + 1)) := by
        rw [← dotProduct_sub, ← mulVec_sub, ← hKD, mulVec_smul, dotProduct_smul, smul_eq_mul, mul_comm]
      have e1 : D (k + 1) ⬝ᵥ (K *ᵥ D j) = R (k + 1) ⬝ᵥ (N *ᵥ (K *ᵥ D j)) +
          (R (k + 1) ⬝ᵥ (N *ᵥ R (k + 1)) / (R k ⬝ᵥ (N *ᵥ R k))) * (D k ⬝ᵥ (K *ᵥ D j)) := by
        rw [hD k hkm, add_dotProduct, smul_dotProduct, smul_eq_mul]
        congr 1
        rw [dotProduct_comm, dot_symm hN]
      rw [e1]
      rw [hb j hj] at hNKD
      rcases Nat.lt_or_eq_of_le hj with hj | rfl
      · rw [hb (j + 1) (by omega), sub_zero] at hNKD
        rw [(ih1 j hj).2.2, mul_zero, add_zero]
        exact (mul_eq_zero.1 hNKD).resolve_right hαj
      · have h1 := hnz j hjm
        have h2 := hden j hjm
        field_simp at hNKD ⊢
        linarith
    refine ⟨fun j hj => ⟨ha j (by omega), hb j (by omega), hc j (by omega)⟩, ?_⟩
    rw [hD k hkm, add_dotProduct, smul_dotProduct, dotProduct_comm (D k), ha k le_rfl, smul_zero,
      add_zero, dotProduct_comm]

/-- the states of an unlimited run, with their directions -/
noncomputable def pcgSeq (K N : Matrix (Fin n) (Fin n) ℝ) (rhs x0 : Fin n → ℝ) :
    ℕ → PCGState n × (Fin n → ℝ)
  | 0 => (pcgInit (K *ᵥ ·) (N *ᵥ ·) rhs x0, N *ᵥ (rhs - K *ᵥ x0))
  | k + 1 =>
    let s := (pcgSeq K N rhs x0 k).1
    let d := (pcgSeq K N rhs x0 k).2
    let s' := pcgNext (K *ᵥ ·) (N *ᵥ ·) rhs s d
    (s', N *ᵥ s'.r + (s'.r ⬝ᵥ (N *ᵥ s'.r) / (s.r ⬝ᵥ (N *ᵥ s.r))) • d)

section definite

variable {K N : Matrix (Fin n) (Fin n) ℝ} {rhs x0 xs : Fin n → ℝ}

theorem pcgSeq_step (hK : IsPSD K) (hN : IsPD N) (hx : K *ᵥ xs = rhs) {k : ℕ}
    (hg : (pcgSeq K N rhs x0 k).1.Good K N rhs (pcgSeq K N rhs x0 k).2)
    (hr : (pcgSeq K N rhs x0 k).1.r ≠ 0) :
    pcgStep (K *ᵥ ·) (N *ᵥ ·) rhs (pcgSeq K N rhs x0 k).1 = .ok (pcgSeq K N rhs x0 (k + 1)).1 ∧
    (pcgSeq K N rhs x0 (k + 1)).1.x = (pcgSeq K N rhs x0 k).1.x +
      ((pcgSeq K N rhs x0 k).1.r ⬝ᵥ (N *ᵥ (pcgSeq K N rhs x0 k).1.r) /
        ((pcgSeq K N rhs x0 k).2 ⬝ᵥ (K *ᵥ (pcgSeq K N rhs x0 k).2))) • (pcgSeq K N rhs x0 k).2 ∧
    (pcgSeq K N rhs x0 (k + 1)).1.r = (pcgSeq K N rhs x0 k).1.r -
      ((pcgSeq K N rhs x0 k).1.r ⬝ᵥ (N *ᵥ (pcgSeq K N rhs x0 k).1.r) /
        ((pcgSeq K N rhs x0 k).2 ⬝ᵥ (K *ᵥ (pcgSeq K N rhs x0 k).2))) •
          (K *ᵥ (pcgSeq K N rhs x0 k).2) ∧
    (pcgSeq K N rhs x0 (k + 1)).1.Good K N rhs (pcgSeq K N rhs x0 (k + 1)).2 := by
  obtain ⟨s', h1, h2, h3, h4⟩ := hg.step hK hN hx hr
  have e := h1
  rw [pcgStep_eq (mvMat := (K *ᵥ ·)) (mvPre := (N *ᵥ ·)) hg.dir (hg.den_pos hK hN hx hr).ne'] at e
  cases e
  exact ⟨h1, h2, h3, h4⟩

theorem pcgSeq_good (hK : IsPSD K) (hN : IsPD N) (hx : K *ᵥ xs = rhs) (k : ℕ)
    (hr : ∀ j < k, (pcgSeq K N rhs x0 j).1.r ≠ 0) :
    (pcgSeq K N rhs x0 k).1.Good K N rhs (pcgSeq K N rhs x0 k).2 := by
  induction k with
  | zero => exact pcgInit_good K N rhs x0
  | succ k ih =>
    exact (pcgSeq_step hK hN hx (ih fun j hj => hr j (by omega)) (hr k (by omega))).2.2.2

theorem Good_r_ne {s : PCGState n} {d : Fin n → ℝ} (hg : s.Good K N rhs d) {relTol : ℝ}
    (h0 : 0 ≤ relTol) (h : s.curErr > relTol) : s.r ≠ 0 := by
  rw [hg.err] at h
  exact norm2_pos.1 (lt_of_le_of_lt h0 h)

theorem pcgSeq_good' (hK : IsPSD K) (hN : IsPD N) (hx : K *ᵥ xs = rhs) {relTol : ℝ}
    (h0 : 0 ≤ relTol) (k : ℕ) (hr : ∀ j < k, (pcgSeq K N rhs x0 j).1.curErr > relTol) :
    (pcgSeq K N rhs x0 k).1.Good K N rhs (pcgSeq K N rhs x0 k).2 ∧
      ∀ j < k, (pcgSeq K N rhs x0 j).1.r ≠ 0 := by
  induction k with
  | zero => exact ⟨pcgInit_good K N rhs x0, fun j hj => absurd hj (by omega)⟩
  | succ k ih =>
    obtain ⟨ih1, ih2⟩ := ih fun j hj => hr j (by omega)
    have hk := Good_r_ne ih1 h0 (hr k (by omega))
    refine ⟨(pcgSeq_step hK hN hx ih1 hk).2.2.2, fun j hj => ?_⟩
    rcases Nat.lt_or_eq_of_le (Nat.le_of_lt_succ hj) with h | rfl
    · exact ih2 j h
    · exact hk

theorem pcgLoop_seq (hK : IsPSD K) (hN : IsPD N) (hx : K *ᵥ xs = rhs) {relTol : ℝ}
    (h0 : 0 ≤ relTol) (k l : ℕ) (hr : ∀ j < k, (pcgSeq K N rhs x0 j).1.curErr > relTol) :
    pcgLoop (K *ᵥ ·) (N *ᵥ ·) rhs relTol (k + l) (pcgSeq K N rhs x0 0).1 =
      pcgLoop (K *ᵥ ·) (N *ᵥ ·) rhs relTol l (pcgSeq K N rhs x0 k).1 := by
  induction k generalizing l with
  | zero => rw [Nat.zero_add]
  | succ k ih =>
    rw [show k + 1 + l = k + (l + 1) by omega, ih (l + 1) fun j hj => hr j (by omega)]
    have hg := (pcgSeq_good' hK hN hx h0 k fun j hj => hr j (by omega)).1
    exact pcgLoop_step (hr k (by omega))
      (pcgSeq_step hK hN hx hg (Good_r_ne hg h0 (hr k (by omega)))).1 l

/-- a run in the definite case never raises, and stops at the first small residual -/
theorem pcgLoop_run (hK : IsPSD K) (hN : IsPD N) (hx : K *ᵥ xs = rhs) {relTol : ℝ}
    (h0 : 0 ≤ relTol) (L : ℕ) : ∃ k ≤ L, (∀ j < k, (pcgSeq K N rhs x0 j).1.curErr > relTol) ∧
      (k = L ∨ (pcgSeq K N rhs x0 k).1.curErr ≤ relTol) ∧
      pcgLoop (K *ᵥ ·) (N *ᵥ ·) rhs relTol L (pcgSeq K N rhs x0 0).1 =
        .ok (pcgSeq K N rhs x0 k).1 := by
  classical
  by_cases h : ∃ k, k ≤ L ∧ (pcgSeq K N rhs x0 k).1.curErr ≤ relTol
  · set k := Nat.find h
    obtain ⟨h1, h2⟩ := Nat.find_spec h
    have h3 : ∀ j < k, (pcgSeq K N rhs x0 j).1.curErr > relTol := by
      intro j hj
      by_contra hc
      exact Nat.find_min h hj ⟨by omega, not_lt.1 hc⟩
    refine ⟨k, h1, h3, Or.inr h2, ?_⟩
    have := pcgLoop_seq hK hN hx h0 k (L - k) h3
    rw [Nat.add_sub_cancel' h1] at this
    rw [this, pcgLoop_stop (not_lt.2 h2)]
  · push Not at h
    refine ⟨L, le_rfl, fun j hj => h j hj.le, Or.inl rfl, ?_⟩
    exact pcgLoop_seq hK hN hx h0 L 0 fun j hj => h j hj.le

/-- the residuals of a run are mutually `N`-orthogonal -/
theorem pcgSeq_orth (hK : IsPSD K) (hN : IsPD N) (hx : K *ᵥ xs = rhs) (k : ℕ)
    (hr : ∀ j < k, (pcgSeq K N rhs x0 j).1.r ≠ 0) (j : ℕ) (hj : j < k) :
    (pcgSeq K N rhs x0 k).1.r ⬝ᵥ (N *ᵥ (pcgSeq K N rhs x0 j).1.r) = 0 := by
  have hgood : ∀ i ≤ k, (pcgSeq K N rhs x0 i).1.Good K N rhs (pcgSeq K N rhs x0 i).2 :=
    fun i hi => pcgSeq_good hK hN hx i fun j hj => hr j (by omega)
  exact ((cg_orth hK.1 hN.1 (fun i => (pcgSeq K N rhs x0 i).1.r) (fun i => (pcgSeq K N rhs x0 i).2) k
    rfl (fun i hi => (pcgSeq_step hK hN hx (hgood i hi.le) (hr i hi)).2.2.1)
    (fun i hi => rfl) (fun i hi => ((hgood i hi.le).den_pos hK hN hx (hr i hi)).ne')
    (fun i hi => (hN.2 _ (hr i hi)).ne') k le_rfl).1 j hj).2.1

/-- at most `rank(K)` residuals are nonzero -/
theorem pcgSeq_rank (hK : IsPSD K) (hN : IsPD N) (hx : K *ᵥ xs = rhs) (k : ℕ)
    (hr : ∀ j < k, (pcgSeq K N rhs x0 j).1.r ≠ 0) : k ≤ K.rank := by
  have hgood : ∀ i ≤ k, (pcgSeq K N rhs x0 i).1.Good K N rhs (pcgSeq K N rhs x0 i).2 :=
    fun i hi => pcgSeq_good hK hN hx i fun j hj => hr j (by omega)
  -- the residuals are `K Z`
  set Z : Matrix (Fin n) (Fin k) ℝ := Matrix.of fun a j => (xs - (pcgSeq K N rhs x0 j).1.x) a
  have hcol : ∀ j : Fin k, (fun a => (K * Z) a j) = (pcgSeq K N rhs x0 j).1.r := by
    intro j
    have e : (pcgSeq K N rhs x0 j).1.r = K *ᵥ (xs - (pcgSeq K N rhs x0 j).1.x) := by
      rw [(hgood j j.2.le).res, mulVec_sub, hx]
    rw [e]
    rfl
  have hg : (K * Z)ᵀ * (N * (K * Z)) = diagonal fun j : Fin k =>
      (pcgSeq K N rhs x0 j).1.r ⬝ᵥ (N *ᵥ (pcgSeq K N rhs x0 j).1.r) := by
    ext i j
    have e : ((K * Z)ᵀ * (N * (K * Z))) i j =
        (pcgSeq K N rhs x0 i).1.r ⬝ᵥ (N *ᵥ (pcgSeq K N rhs x0 j).1.r) := by
      rw [← hcol i, ← hcol j]; rfl
    rw [e]
    rcases lt_trichotomy i j with h | h | h
    · rw [diagonal_apply_ne _ h.ne, dot_symm hN.1]
      exact pcgSeq_orth hK hN hx j (fun l hl => hr l (by omega)) i h
    · subst h; rw [diagonal_apply_eq]
    · rw [diagonal_apply_ne _ h.ne']
      exact pcgSeq_orth hK hN hx i (fun l hl => hr l (by omega)) j h
  have hu : (diagonal fun j : Fin k =>
      (pcgSeq K N rhs x0 j).1.r ⬝ᵥ (N *ᵥ (pcgSeq K N rhs x0 j).1.r)).rank = k := by
    rw [Matrix.rank_of_isUnit, Fintype.card_fin]
    rw [Matrix.isUnit_iff_isUnit_det, det_diagonal, isUnit_iff_ne_zero, Finset.prod_ne_zero_iff]
    intro j _
    exact (hN.2 _ (hr j j.2)).ne'
  calc k = ((K * Z)ᵀ * (N * (K * Z))).rank := by rw [hg, hu]
    _ ≤ (N * (K * Z)).rank := Matrix.rank_mul_le_right _ _
    _ ≤ (K * Z).rank := Matrix.rank_mul_le_right _ _
    _ ≤ K.rank := Matrix.rank_mul_le_left _ _

/-- one step decreases the energy norm of the error -/
theorem pcgSeq_energy (hK : IsPSD K) (hN : IsPD N) (hx : K *ᵥ xs = rhs) {k : ℕ}
    (hg : (pcgSeq K N rhs x0 k).1.Good K N rhs (pcgSeq K N rhs x0 k).2)
    (hr : (pcgSeq K N rhs x0 k).1.r ≠ 0) :
    ((pcgSeq K N rhs x0 (k + 1)).1.x - xs) ⬝ᵥ (K *ᵥ ((pcgSeq K N rhs x0 (k + 1)).1.x - xs)) <
      ((pcgSeq K N rhs x0 k).1.x - xs) ⬝ᵥ (K *ᵥ ((pcgSeq K N rhs x0 k).1.x - xs)) := by
  obtain ⟨-, hx', -, -⟩ := pcgSeq_step hK hN hx hg hr
  have hden := hg.den_pos hK hN hx hr
  have hpos := hN.2 _ hr
  set x := (pcgSeq K N rhs x0 k).1.x
  set r := (pcgSeq K N rhs x0 k).1.r
  set d := (pcgSeq K N rhs x0 k).2
  rw [hx']
  set α := r ⬝ᵥ (N *ᵥ r) / (d ⬝ᵥ (K *ᵥ d)) with hα
  have e : x + α • d - xs = (x - xs) + α • d := by abel
  have hrr : K *ᵥ (x - xs) = -r := by
    show K *ᵥ (x - xs) = -(pcgSeq K N rhs x0 k).1.r
    rw [hg.res, mulVec_sub, hx]; abel
  rw [e, mulVec_add, add_dotProduct, dotProduct_add, dotProduct_add, mulVec_smul, dotProduct_smul,
    smul_dotProduct, smul_dotProduct, dotProduct_smul, dot_symm hK.1 (x - xs) d, hrr,
    dotProduct_neg d, hg.dr]
  simp only [smul_eq_mul]
  have : α * (α * (d ⬝ᵥ (K *ᵥ d))) = α * (r ⬝ᵥ (N *ᵥ r)) := by
    rw [hα, div_mul_cancel₀ _ hden.ne']
  have hα0 : 0 < α := div_pos hpos hden
  have : 0 < α * (r ⬝ᵥ (N *ᵥ r)) := mul_pos hα0 hpos
  show _ + α * -(r ⬝ᵥ (N *ᵥ r)) + (α * -(r ⬝ᵥ (N *ᵥ r)) + _) < _
  linarith

end definite

end Parla
