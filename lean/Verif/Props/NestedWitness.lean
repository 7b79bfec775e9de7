import Verif.Props.Nested
import Verif.Props.Contracts

/-! # C105 for the functions, and cases that meet the hypotheses -/

namespace Parla.Props

open Matrix Parla Spec

variable {G : Type} {m n : ℕ}

/-- **C105** (`svd1`, `evd1` and `evd2`, the functions). -/
theorem C105_functions (la : LinAlg) (gauss : SkOpGen G) (w w' : World G) :
    (∀ (A : Matrix (Fin m) (Fin n) ℝ) (k k' over over' : ℕ) (tol : Tol) (p : ℤ) (blk : ℕ) (o' : SVDOut m n), k < k' →
      k' + over' = k + over → svd1 la gauss A k' over' tol p blk w = .ok (o', w') →
      ∃ o, svd1 la gauss A k over tol p blk w = .ok (o, w') ∧ o.r = min k o'.r ∧ ∀ (i : Fin o.r) (j : Fin o'.r), i.1 = j.1 →
        o.s i = o'.s j ∧ (∀ a, o.U a i = o'.U a j) ∧ ∀ b, o.Vh i b = o'.Vh j b) ∧
    (∀ (A : Matrix (Fin n) (Fin n) ℝ) (k k' : ℤ) (over over' : ℕ) (tol : Tol) (p : ℤ) (blk : ℕ) (o' : EVDOut n), 0 < k → k < k' →
      k' + over' = k + over → evd1 la gauss A k' tol over' p blk w = .ok (o', w') →
      ∃ o, evd1 la gauss A k tol over p blk w = .ok (o, w') ∧ (o.r : ℤ) = min k o'.r ∧
        ∀ (i : Fin o.r) (j : Fin o'.r), i.1 = j.1 → o.lamb i = o'.lamb j ∧ ∀ a, o.V a i = o'.V a j) ∧
    (∀ (A : Matrix (Fin n) (Fin n) ℝ) (k k' : ℤ) (over over' : ℕ) (p : ℤ) (o' : EVDOut n), 0 < k → k < k' →
      k' + over' = k + over → evd2 la gauss A k' over' p w = .ok (o', w') →
      ∃ o, evd2 la gauss A k over p w = .ok (o, w') ∧ ((o.r : ℤ) = min k o'.r ∨ ((o.r : ℤ) = k ∧ (o'.r : ℤ) = k - 1)) ∧
        ∀ (i : Fin o.r) (j : Fin o'.r), i.1 = j.1 → o.lamb i = o'.lamb j ∧ ∀ a, o.V a i = o'.V a j) := by
  refine ⟨?_, ?_, ?_⟩
  · intro A k k' over over' tol p blk o' hk hs h
    exact C105_svd1 la _ A k k' over over' tol hk hs w w' o' h
  · intro A k k' over over' tol p blk o' hk0 hk hs h
    unfold evd1 at h ⊢
    by_cases hp : p ≥ 2
    · rw [Py.assert_pos_bind hp] at h ⊢
      exact C105_evd1 la _ A k k' over over' tol.half hk0 hk hs w w' o' h
    · rw [Py.assert_neg_bind hp] at h; cases h
  · intro A k k' over over' p o' hk0 hk hs h
    unfold evd2 at h ⊢
    by_cases hp : p ≥ 1
    · rw [Py.assert_pos_bind hp] at h ⊢
      exact C105_evd2 la _ A k k' over over' .nan hk0 hk hs w w' o' h
    · rw [Py.assert_neg_bind hp] at h; cases h

/-- A sketcher that returns the identity. -/
def idSketcher : RowSketcher G := fun _ n _ _ => pure ⟨n, 1⟩

/-- the hypotheses of `C105_osid1_column`: two columns of the identity, then one -/
example (la : LinAlg) (w : World G) :
    ∃ o', (OSID1 la (idSketcher (G := G))).col 2 2 1 2 0 w = .ok (o', { w with trace := w.trace ++ [.mulA] }) := by
  obtain ⟨o', h⟩ := (qrcpCol_cases la ((1 : Matrix (Fin 2) (Fin 2) ℝ)ᵀ * 1)ᵀ 2).1 (by simp)
  refine ⟨o', Py.bind_ok_iff.2 ⟨⟨2, (1 : Matrix (Fin 2) (Fin 2) ℝ)ᵀ * 1⟩, _, rfl, Py.lift_ok_iff.2 ⟨h, rfl⟩⟩⟩

/-- the hypotheses of `C105_osid2_column`, with two columns against one -/
example (la : LinAlg) (w : World G) :
    ∃ o', (OSID2 la (idSketcher (G := G))).col 2 2 1 2 0 w = .ok (o', { w with trace := w.trace ++ [.mulA] }) ∧ o'.c = 2 :=
  ⟨_, rfl, rfl⟩

/-- the hypotheses of `C105_functions` -/
example (R : NpRng G) (la : LinAlg) (A : Matrix (Fin 4) (Fin 4) ℝ) (w : World G) :
    (∃ o' w', svd1 la (gaussianOperator R true) A 2 1 .nan 2 1 w = .ok (o', w')) ∧
    ∃ o' w', evd1 la (gaussianOperator R true) A 2 .nan 1 2 1 w = .ok (o', w') := by
  obtain ⟨o, w1, h, -⟩ := (C86_svd1 la _ (dependable_gaussian R true) A 2 1 .nan 2 1 w).1 (by norm_num)
  obtain ⟨o', w1', h', -⟩ := (C86_evd1 la _ (dependable_gaussian R true) A 2 .nan 1 2 1 w).1 ⟨by norm_num, by norm_num, by norm_num,
    by norm_num, .inl rfl⟩
  exact ⟨⟨o, w1, h⟩, o', w1', h'⟩

/-- the hypotheses of `C105_evd2` and, with the call for `k = 1` that it provides, of `C105_evd2_error`: the identity of order 3
and `k' = 2` -/
example (la : LinAlg) (w : World G) : ∃ o' w', evd2Call la (idSketcher (G := G)) (1 : Matrix (Fin 3) (Fin 3) ℝ) 2 .nan 1 w = .ok (o', w') := by
  have hpost : ∃ o', evd2Post la (1 : Matrix (Fin 3) (Fin 3) ℝ) 2 ⟨3, 1⟩ = .ok o' := by
    obtain ⟨nu, hnu⟩ : ∃ nu, nu = evd2Nu (1 : Matrix (Fin 3) (Fin 3) ℝ) (1 : Matrix (Fin 3) (Fin 3) ℝ) := ⟨_, rfl⟩
    have h0 : 0 ≤ nu := by rw [hnu]; exact evd2Nu_nonneg _ _
    have hpd : ((1 : Matrix (Fin 3) (Fin 3) ℝ)ᵀ * ((1 : Matrix (Fin 3) (Fin 3) ℝ) * 1 + nu • 1)).PosDef := by
      have : (1 : Matrix (Fin 3) (Fin 3) ℝ)ᵀ * ((1 : Matrix (Fin 3) (Fin 3) ℝ) * 1 + nu • 1) = (1 + nu) • 1 := by
        rw [transpose_one, Matrix.one_mul, Matrix.one_mul, add_smul, one_smul]
      rw [this]
      exact Matrix.PosDef.one.smul (by linarith)
    obtain ⟨R, hR, -, hup, hpos⟩ := la.chol_posDef _ hpd
    have hd : ¬ ∃ i, R i i = 0 := by rintro ⟨i, hi⟩; exact (hpos i).ne' hi
    unfold evd2Post
    simp only [bind, Except.bind]
    rw [← hnu, hR]
    simp only
    rw [solveUpperT, if_neg hd]
    simp only
    obtain ⟨comps, hcomps⟩ := evd2Comps_total
      (la.svdFull (((triu R)ᵀ)⁻¹ * ((1 : Matrix (Fin 3) (Fin 3) ℝ) * 1 + nu • 1)ᵀ)ᵀ).2.1 nu (List.range (2 - 1))
      [2] (by intro i hi; have := List.mem_range.1 hi; simp; omega)
    rw [hcomps]
    exact ⟨_, rfl⟩
  obtain ⟨o', ho⟩ := hpost
  refine ⟨o', { w with trace := w.trace ++ [.mulA] }, ?_⟩
  unfold evd2Call
  rw [Py.assert_pos_bind (by norm_num), Py.assert_pos_bind (by norm_num)]
  exact Py.bind_ok_iff.2 ⟨⟨3, 1⟩, w, rfl, Py.bind_ok_iff.2 ⟨(), _, rfl, Py.lift_ok_iff.2 ⟨ho, rfl⟩⟩⟩

/-- A QB algorithm that returns `Q = 1` and `B = A`. -/
def idQB : QBDecomposer G := fun m _ A _ _ => pure ⟨m, 1, A⟩

/-- the hypotheses of `C105_svd1_error`: any matrix, `k = 1` against `k' = 2` -/
example (la : LinAlg) (A : Matrix (Fin 3) (Fin 2) ℝ) (w : World G) :
    (∀ q w1, idQB (G := G) 3 2 A ((1 + 1 : ℕ) : ℤ) .nan w = .ok (q, w1) → OrthoCols q.Q ∧ q.B = q.Qᵀ * A) ∧
    (∃ o w1, svd1Call la (idQB (G := G)) A 1 .nan 1 w = .ok (o, w1)) ∧ ∃ o' w', svd1Call la (idQB (G := G)) A 2 .nan 0 w = .ok (o', w') := by
  refine ⟨?_, ⟨_, _, rfl⟩, ⟨_, _, rfl⟩⟩
  intro q w1 h
  cases h
  exact ⟨by unfold OrthoCols; simp, by simp⟩

end Parla.Props
