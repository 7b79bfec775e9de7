import Verif.Model.RoundingPCG
import Verif.Proof.RoundingLS
import Verif.Props.RatesLS

/-! # Residuals of `pcg` with rounding errors -/

namespace Parla.Proof

open Matrix Parla Spec Parla.Props

variable {m n : ℕ}

theorem norm2_add_le (u v : Fin n → ℝ) : norm2 (u + v) ≤ norm2 u + norm2 v := by
  have := norm2_sub_le u (-v)
  rwa [sub_neg_eq_add, show norm2 (-v) = norm2 v by unfold norm2; rw [sqNorm_neg]] at this

/-- The update of `x`. -/
theorem round_axpy {fl : FlVec} {N : ℕ} {ε X α : ℝ} (hfl : fl.Accurate N ε) (hε : 0 ≤ ε) (hε1 : ε ≤ 1 / 100) {x d : Fin n → ℝ}
    (hx : norm2 x ≤ X) (hx' : norm2 (fl.add x (fl.smul α d)) ≤ X) :
    norm2 (α • d) ≤ 2.04 * X ∧ norm2 (fl.add x (fl.smul α d) - (x + α • d)) ≤ 3.1 * (ε * X) := by
  have h1 := hfl.smul α d
  have h2 := hfl.add x (fl.smul α d)
  obtain ⟨h, hh⟩ : ∃ h, h = fl.smul α d := ⟨_, rfl⟩
  obtain ⟨x', hx1⟩ : ∃ x', x' = fl.add x h := ⟨_, rfl⟩
  rw [← hh] at h1 h2 hx' ⊢
  rw [← hx1] at h2 hx' ⊢
  have h3 := (norm2_abs_le h1).2
  have h4 := (norm2_abs_le h2).2
  have h5 : norm2 h ≤ norm2 (x + h) + norm2 x := by
    have := norm2_sub_le (x + h) x
    rwa [add_sub_cancel_left] at this
  have h6 : ε * norm2 (x + h) ≤ 1 / 100 * norm2 (x + h) := mul_le_mul_of_nonneg_right hε1 (norm2_nonneg _)
  have h7 : ε * norm2 (α • d) ≤ 1 / 100 * norm2 (α • d) := mul_le_mul_of_nonneg_right hε1 (norm2_nonneg _)
  have hX : 0 ≤ X := (norm2_nonneg _).trans hx
  have h8 : norm2 (x + h) ≤ 1.02 * X := by linarith
  have h9 : norm2 (α • d) ≤ 2.04 * X := by linarith
  refine ⟨h9, ?_⟩
  have e : x' - (x + α • d) = (x' - (x + h)) + (h - α • d) := by abel
  rw [e]
  refine (norm2_add_le _ _).trans ?_
  have h10 := mul_le_mul_of_nonneg_left h8 hε
  have h11 := mul_le_mul_of_nonneg_left h9 hε
  have h12 : 0 ≤ ε * X := mul_nonneg hε hX
  linarith

/-- What the matrix, the handle that computes products with it, and the right hand side are assumed to satisfy. -/
structure RoundHyp (K : Matrix (Fin n) (Fin n) ℝ) (mv : (Fin n → ℝ) → Fin n → ℝ) (rhs : Fin n → ℝ) (κ η X ρ : ℝ) : Prop where
  hκ : 0 ≤ κ
  hη : 0 ≤ η
  hX : 0 ≤ X
  op : ∀ v, norm2 (K *ᵥ v) ≤ κ * norm2 v
  mv : ∀ v, norm2 (mv v - K *ᵥ v) ≤ η * norm2 v
  hρ : norm2 rhs + κ * X ≤ ρ

/-- The recurrence for the residual. -/
theorem round_recur {fl : FlVec} {N : ℕ} {ε κ η X ρ α : ℝ} (hfl : fl.Accurate N ε) (hε : 0 ≤ ε) (hε1 : ε ≤ 1 / 100)
    {K : Matrix (Fin n) (Fin n) ℝ} {mv : (Fin n → ℝ) → Fin n → ℝ} {rhs x d r : Fin n → ℝ} (H : RoundHyp K mv rhs κ η X ρ)
    (hx : norm2 x ≤ X) (hx' : norm2 (fl.add x (fl.smul α d)) ≤ X) :
    norm2 (fl.sub r (fl.smul α (mv d)) - (rhs - K *ᵥ fl.add x (fl.smul α d))) ≤
      (1 + ε) * norm2 (r - (rhs - K *ᵥ x)) + (3 * (η * X) + 7 * (ε * ρ)) := by
  obtain ⟨h1, h2⟩ := round_axpy hfl hε hε1 hx hx'
  obtain ⟨x', ex⟩ : ∃ x', x' = fl.add x (fl.smul α d) := ⟨_, rfl⟩
  rw [← ex] at h2 hx' ⊢
  have h3 := hfl.smul α (mv d)
  obtain ⟨q, eq⟩ : ∃ q, q = mv d := ⟨_, rfl⟩
  have h4 := H.mv d
  rw [← eq] at h3 h4 ⊢
  obtain ⟨t, et⟩ : ∃ t, t = fl.smul α q := ⟨_, rfl⟩
  rw [← et] at h3 ⊢
  have h5 := hfl.sub r t
  obtain ⟨r', er⟩ : ∃ r', r' = fl.sub r t := ⟨_, rfl⟩
  rw [← er] at h5 ⊢
  have hηX : 0 ≤ η * X := mul_nonneg H.hη H.hX
  have hκX : 0 ≤ κ * X := mul_nonneg H.hκ H.hX
  have hρ0 : κ * X ≤ ρ := (le_add_of_nonneg_left (norm2_nonneg rhs)).trans H.hρ
  -- products with the direction
  have a1 : norm2 (α • (q - K *ᵥ d)) ≤ 2.04 * (η * X) := by
    rw [norm2_smul]
    have : |α| * norm2 (q - K *ᵥ d) ≤ η * norm2 (α • d) := by
      rw [norm2_smul]
      calc _ ≤ |α| * (η * norm2 d) := mul_le_mul_of_nonneg_left h4 (abs_nonneg _)
        _ = _ := by ring
    have h := mul_le_mul_of_nonneg_left h1 H.hη
    linarith
  have a2 : norm2 (α • q) ≤ 2.04 * (κ * X) + 2.04 * (η * X) := by
    have e : α • q = α • (q - K *ᵥ d) + K *ᵥ (α • d) := by rw [mulVec_smul, smul_sub]; abel
    rw [e]
    have g1 := H.op (α • d)
    have g2 := mul_le_mul_of_nonneg_left h1 H.hκ
    have := norm2_add_le (α • (q - K *ᵥ d)) (K *ᵥ (α • d))
    linarith
  have a3 : norm2 (t - α • q) ≤ 2.04 * (ε * ρ) + 0.03 * (η * X) := by
    have g1 := mul_le_mul_of_nonneg_left a2 hε
    have g2 := mul_le_mul_of_nonneg_left hρ0 hε
    have g3 := mul_le_mul_of_nonneg_right hε1 hηX
    linarith
  have a4 : norm2 (K *ᵥ (x' - (x + α • d))) ≤ 3.1 * (ε * ρ) := by
    have g1 := H.op (x' - (x + α • d))
    have g2 := mul_le_mul_of_nonneg_left h2 H.hκ
    have g3 := mul_le_mul_of_nonneg_left hρ0 hε
    linarith
  have a5 : norm2 (rhs - K *ᵥ x') ≤ ρ := by
    have g1 := norm2_sub_le rhs (K *ᵥ x')
    have g2 := H.op x'
    have g3 := mul_le_mul_of_nonneg_left hx' H.hκ
    have := H.hρ
    linarith
  obtain ⟨g, eg⟩ : ∃ g, g = r - (rhs - K *ᵥ x) := ⟨_, rfl⟩
  rw [← eg]
  obtain ⟨y, ey⟩ : ∃ y, y = g - (t - α • q) - α • (q - K *ᵥ d) + K *ᵥ (x' - (x + α • d)) := ⟨_, rfl⟩
  have e1 : r - t = (rhs - K *ᵥ x') + y := by
    rw [ey, eg, mulVec_sub, mulVec_add, mulVec_smul, smul_sub]; abel
  have hy : norm2 y ≤ norm2 g + 5.14 * (ε * ρ) + 2.07 * (η * X) := by
    rw [ey]
    have g1 := norm2_add_le (g - (t - α • q) - α • (q - K *ᵥ d)) (K *ᵥ (x' - (x + α • d)))
    have g2 := norm2_sub_le (g - (t - α • q)) (α • (q - K *ᵥ d))
    have g3 := norm2_sub_le g (t - α • q)
    linarith
  have e2 : r' - (rhs - K *ᵥ x') = (r' - (r - t)) + y := by rw [e1]; abel
  rw [e2]
  have g1 := norm2_add_le (r' - (r - t)) y
  have g2 : norm2 (r - t) ≤ ρ + norm2 y := by rw [e1]; exact (norm2_add_le _ _).trans (by linarith)
  have g3 := mul_le_mul_of_nonneg_left g2 hε
  have g4 := mul_le_mul_of_nonneg_left hy (by linarith : 0 ≤ 1 + ε)
  have hρε : 0 ≤ ε * ρ := mul_nonneg hε (hκX.trans hρ0)
  have g5 := mul_le_mul_of_nonneg_right hε1 hρε
  have g6 := mul_le_mul_of_nonneg_right hε1 hηX
  linarith

/-- The residual computed afresh. -/
theorem round_fresh {fl : FlVec} {N : ℕ} {ε κ η X ρ : ℝ} (hfl : fl.Accurate N ε) (hε : 0 ≤ ε) (hε1 : ε ≤ 1 / 100)
    {K : Matrix (Fin n) (Fin n) ℝ} {mv : (Fin n → ℝ) → Fin n → ℝ} {rhs x : Fin n → ℝ} (H : RoundHyp K mv rhs κ η X ρ)
    (hx : norm2 x ≤ X) :
    norm2 (fl.sub rhs (mv x) - (rhs - K *ᵥ x)) ≤ 3 * (η * X) + 7 * (ε * ρ) := by
  have h1 := hfl.sub rhs (mv x)
  have h2 := H.mv x
  have h3 := mul_le_mul_of_nonneg_left hx H.hη
  have hηX : 0 ≤ η * X := mul_nonneg H.hη H.hX
  have hκX : 0 ≤ κ * X := mul_nonneg H.hκ H.hX
  have hρ0 : κ * X ≤ ρ := (le_add_of_nonneg_left (norm2_nonneg rhs)).trans H.hρ
  have a5 : norm2 (rhs - K *ᵥ x) ≤ ρ := by
    have g1 := norm2_sub_le rhs (K *ᵥ x)
    have g2 := H.op x
    have g3 := mul_le_mul_of_nonneg_left hx H.hκ
    have := H.hρ
    linarith
  have e1 : rhs - mv x = (rhs - K *ᵥ x) - (mv x - K *ᵥ x) := by abel
  have a6 : norm2 (rhs - mv x) ≤ ρ + η * X := by
    rw [e1]; exact (norm2_sub_le _ _).trans (by linarith)
  have e2 : fl.sub rhs (mv x) - (rhs - K *ᵥ x) = (fl.sub rhs (mv x) - (rhs - mv x)) - (mv x - K *ᵥ x) := by abel
  rw [e2]
  have g1 := norm2_sub_le (fl.sub rhs (mv x) - (rhs - mv x)) (mv x - K *ᵥ x)
  have g2 := mul_le_mul_of_nonneg_left a6 hε
  have g3 := mul_le_mul_of_nonneg_right hε1 hηX
  have hρε : 0 ≤ ε * ρ := mul_nonneg hε (hκX.trans hρ0)
  linarith

/-- How far the residual variable may be from the residual after `i` iterations: `τ` after it was computed afresh, and
growing with each of the at most nine updates since then. -/
noncomputable def gapBound (ε τ : ℝ) (i : ℕ) : ℝ := ((i + 9) % 10 + 1 : ℕ) * (1 + ε) ^ ((i + 9) % 10) * τ

theorem gapBound_le {ε τ : ℝ} (hε : 0 ≤ ε) (hε1 : ε ≤ 1 / 100) (hτ : 0 ≤ τ) (i : ℕ) : gapBound ε τ i ≤ 11 * τ := by
  unfold gapBound
  refine mul_le_mul_of_nonneg_right ?_ hτ
  have h1 : (((i + 9) % 10 + 1 : ℕ) : ℝ) ≤ 10 := by exact_mod_cast (by omega : (i + 9) % 10 + 1 ≤ 10)
  have h2 : (1 + ε) ^ ((i + 9) % 10) ≤ 1.1 := by
    calc (1 + ε) ^ ((i + 9) % 10) ≤ (1 + ε) ^ 9 := pow_le_pow_right₀ (by linarith) (by omega)
      _ ≤ (1 + 1 / 100) ^ 9 := pow_le_pow_left₀ (by linarith) (by linarith) _
      _ ≤ 1.1 := by norm_num
  calc _ ≤ (10 : ℝ) * 1.1 := mul_le_mul h1 h2 (by positivity) (by norm_num)
    _ = 11 := by norm_num

theorem gapBound_fresh {ε τ : ℝ} {i : ℕ} (hi : i % 10 = 0) : gapBound ε τ (i + 1) = τ := by
  unfold gapBound
  rw [show (i + 1 + 9) % 10 = 0 by omega]; simp

theorem gapBound_zero {ε τ : ℝ} (hε : 0 ≤ ε) (hτ : 0 ≤ τ) : τ ≤ gapBound ε τ 0 := by
  unfold gapBound
  refine le_mul_of_one_le_left hτ ?_
  have : 1 ≤ (1 + ε) ^ 9 := one_le_pow₀ (by linarith)
  norm_num
  linarith

theorem gapBound_step {ε τ : ℝ} (hε : 0 ≤ ε) (hτ : 0 ≤ τ) {i : ℕ} (hi : i % 10 ≠ 0) :
    (1 + ε) * gapBound ε τ i + τ ≤ gapBound ε τ (i + 1) := by
  unfold gapBound
  obtain ⟨j, hj⟩ : ∃ j, j = (i + 9) % 10 := ⟨_, rfl⟩
  rw [← hj, show (i + 1 + 9) % 10 = j + 1 by omega]
  have h1 : 1 ≤ (1 + ε) ^ (j + 1) := one_le_pow₀ (by linarith)
  have h2 : 1 * τ ≤ (1 + ε) ^ (j + 1) * τ := mul_le_mul_of_nonneg_right h1 hτ
  push_cast
  rw [pow_succ] at h2 ⊢
  linarith

/-! ### The loop -/

section loop

variable {fl : FlVec} {mvMat mvPre : (Fin n → ℝ) → Fin n → ℝ} {rhs : Fin n → ℝ} {relTol : ℝ}

theorem pcgLoopFl_stop {s : PCGState n} (h : ¬ s.curErr > relTol) (k : ℕ) :
    pcgLoopFl fl mvMat mvPre rhs relTol k s = .ok s := by
  cases k with
  | zero => rfl
  | succ k => unfold pcgLoopFl; rw [if_neg h]

theorem pcgLoopFl_step {s s' : PCGState n} (h : s.curErr > relTol) (hs : pcgStepFl fl mvMat mvPre rhs s = .ok s') (k : ℕ) :
    pcgLoopFl fl mvMat mvPre rhs relTol (k + 1) s = pcgLoopFl fl mvMat mvPre rhs relTol k s' := by
  rw [pcgLoopFl, if_pos h, hs]

theorem pcgStepFl_ok {s s' : PCGState n} (h : pcgStepFl fl mvMat mvPre rhs s = .ok s') :
    ∃ d α, s'.x = fl.add s.x (fl.smul α d) ∧
      s'.r = (if s.i % 10 = 0 then fl.sub rhs (mvMat s'.x) else fl.sub s.r (fl.smul α (mvMat d))) ∧
      s'.curErr = fl.norm s'.r ∧ s'.log = s.log ++ [s.curErr] ∧ s'.i = s.i + 1 := by
  unfold pcgStepFl at h
  cases hd : s.d with
  | none => rw [hd] at h; cases h
  | some d =>
    rw [hd] at h
    simp only at h
    cases ha : fl.div s.delta1 (fl.dot d (mvMat d)) with
    | none => rw [ha] at h; cases h
    | some α =>
      rw [ha] at h
      cases h
      exact ⟨d, α, rfl, rfl, rfl, rfl, rfl⟩

/-- The states a run goes through are those runs with smaller limits end in. -/
theorem pcgLoopFl_spec (k : ℕ) : ∀ (s t : PCGState n), pcgLoopFl fl mvMat mvPre rhs relTol k s = .ok t →
    ∃ new : List ℝ, t.log = s.log ++ new ∧ new.length ≤ k ∧
      (new.length = k ∨ ¬ t.curErr > relTol) ∧
      (∀ j, j ≤ k → ∃ tj, pcgLoopFl fl mvMat mvPre rhs relTol j s = .ok tj) ∧
      ∀ j (hj : j < new.length), ∃ tj, pcgLoopFl fl mvMat mvPre rhs relTol j s = .ok tj ∧
        tj.log = s.log ++ new.take j ∧ new[j] = tj.curErr ∧ tj.curErr > relTol := by
  induction k with
  | zero =>
    intro s t h
    cases h
    exact ⟨[], by simp, by simp, Or.inl rfl, fun j h1 => by
      obtain rfl : j = 0 := by omega
      exact ⟨_, rfl⟩, fun j hj => absurd hj (by simp)⟩
  | succ k ih =>
    intro s t h
    by_cases hc : s.curErr > relTol
    · cases hs : pcgStepFl fl mvMat mvPre rhs s with
      | error e => unfold pcgLoopFl at h; rw [if_pos hc, hs] at h; cases h
      | ok s' =>
        rw [pcgLoopFl_step hc hs] at h
        obtain ⟨new, h1, h2, h3, h4, h5⟩ := ih s' t h
        obtain ⟨_, _, -, -, -, hl, -⟩ := pcgStepFl_ok hs
        refine ⟨s.curErr :: new, ?_, ?_, ?_, ?_, ?_⟩
        · rw [h1, hl, List.append_assoc]; rfl
        · simp; omega
        · simpa using h3
        · intro j hj
          cases j with
          | zero => exact ⟨_, rfl⟩
          | succ j =>
            rw [pcgLoopFl_step hc hs]
            exact h4 j (by omega)
        · intro j hj
          cases j with
          | zero => exact ⟨s, rfl, by simp, rfl, hc⟩
          | succ j =>
            obtain ⟨tj, g1, g2, g3, g4⟩ := h5 j (by simpa using hj)
            refine ⟨tj, ?_, ?_, g3, g4⟩
            · rw [pcgLoopFl_step hc hs]; exact g1
            · rw [g2, hl, List.append_assoc]; rfl
    · rw [pcgLoopFl_stop hc] at h
      cases h
      exact ⟨[], by simp, by simp, Or.inr hc, fun j _ => ⟨_, pcgLoopFl_stop hc j⟩,
        fun j hj => absurd hj (by simp)⟩

/-- The residual variable stays close to the residual. -/
theorem pcgLoopFl_gap {N : ℕ} {ε κ η X ρ : ℝ} (hfl : fl.Accurate N ε) (hε : 0 ≤ ε) (hε1 : ε ≤ 1 / 100)
    {K : Matrix (Fin n) (Fin n) ℝ} (H : RoundHyp K mvMat rhs κ η X ρ) (k : ℕ) :
    ∀ (s : PCGState n), s.curErr = fl.norm s.r → norm2 s.x ≤ X →
      norm2 (s.r - (rhs - K *ᵥ s.x)) ≤ gapBound ε (3 * (η * X) + 7 * (ε * ρ)) s.i →
      (∀ j, j ≤ k → ∀ tj, pcgLoopFl fl mvMat mvPre rhs relTol j s = .ok tj → norm2 tj.x ≤ X) →
      ∀ t, pcgLoopFl fl mvMat mvPre rhs relTol k s = .ok t →
        t.curErr = fl.norm t.r ∧ norm2 (t.r - (rhs - K *ᵥ t.x)) ≤ gapBound ε (3 * (η * X) + 7 * (ε * ρ)) t.i := by
  have hηX : 0 ≤ η * X := mul_nonneg H.hη H.hX
  have hρ0 : 0 ≤ ρ := (add_nonneg (norm2_nonneg rhs) (mul_nonneg H.hκ H.hX)).trans H.hρ
  have hτ : 0 ≤ 3 * (η * X) + 7 * (ε * ρ) := by have := mul_nonneg hε hρ0; linarith
  induction k with
  | zero => intro s h1 _ h2 _ t ht; cases ht; exact ⟨h1, h2⟩
  | succ k ih =>
    intro s h1 hxs h2 hall t ht
    by_cases hc : s.curErr > relTol
    · cases hs : pcgStepFl fl mvMat mvPre rhs s with
      | error e => unfold pcgLoopFl at ht; rw [if_pos hc, hs] at ht; cases ht
      | ok s' =>
        rw [pcgLoopFl_step hc hs] at ht
        have hx' : norm2 s'.x ≤ X := hall 1 (by omega) s' (by rw [pcgLoopFl_step hc hs]; rfl)
        obtain ⟨d, α, ex, er, ec, -, ei⟩ := pcgStepFl_ok hs
        refine ih s' ec hx' ?_ (fun j hj tj htj => hall (j + 1) (by omega) tj (by rw [pcgLoopFl_step hc hs]; exact htj)) t ht
        rw [ei]
        by_cases hi : s.i % 10 = 0
        · rw [gapBound_fresh hi, er, if_pos hi]
          exact round_fresh hfl hε hε1 H hx'
        · refine le_trans ?_ (gapBound_step hε hτ hi)
          rw [er, if_neg hi, ex]
          have := round_recur (α := α) (d := d) (r := s.r) hfl hε hε1 H hxs (by rw [← ex]; exact hx')
          have g := mul_le_mul_of_nonneg_left h2 (by linarith : 0 ≤ 1 + ε)
          linarith
    · rw [pcgLoopFl_stop hc] at ht
      cases ht
      exact ⟨h1, h2⟩

end loop

end Parla.Proof
