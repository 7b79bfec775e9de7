import Verif.Proof.QB3
import Verif.Proof.Rank
import Verif.Props.QB2

/-! # Properties C10, C11: QB3 -/

namespace Parla.Props

open Matrix Parla Spec

variable {G : Type} {m n : ℕ}

/-- **C10** (soundness of every return).  Whenever QB3 returns, for a sketcher that delivered an
`n × k` matrix `S`: `Q` is orthonormal, `B = Q'A`, and with `q` the number of columns returned,
`range(Q)` is the range of the first `q` columns of `A S`, which are linearly independent. -/
theorem C10_qb3_correct (la : LinAlg) (skOp : RowSketcher G) (blk : ℕ)
    (A : Matrix (Fin m) (Fin n) ℝ) (k : ℤ) (tol : Tol) (w w₁ w' : World G) (S : Cols n)
    (hS : skOp m n A k.toNat w = .ok (S, w₁)) (hc : (S.c : ℤ) = k) (out : QBOut m n)
    (h : qb3Call la skOp blk A k tol w = .ok (out, w')) :
    OrthoCols out.Q ∧ out.B = out.Qᵀ * A ∧
      colSpace out.Q = colSpace (A * takeCols out.c S.mat) ∧
      FullColRank (A * takeCols out.c S.mat) := by
  by_cases hk : 0 < k
  swap
  · unfold qb3Call at h; rw [Py.assert_neg_bind hk] at h; cases h
  by_cases hk' : k < (min m n : ℕ)
  swap
  · unfold qb3Call at h; rw [Py.assert_pos_bind hk, Py.assert_neg_bind hk'] at h; cases h
  by_cases hb : blk = 0
  · unfold qb3Call at h
    rw [Py.assert_pos_bind hk, Py.assert_pos_bind hk', Py.bind_eq_of_ok hS,
      Py.bind_eq_of_ok (Py.emit_apply _ _), Py.bind_eq_of_ok (Py.emit_apply _ _), if_pos hb] at h
    cases h
  rcases qb3Call_spec la skOp blk A k tol w w₁ S hk hk' (by omega) hS (by omega) with
    ⟨st, w2, j, h1, hI, -, -⟩ | ⟨h1, -⟩
  · rw [h1] at h
    cases h
    obtain ⟨hQ, hB, hcc, hcs, -⟩ := hI
    have e : min (j * blk) k.toNat = st.c := hcc.symm
    rw [e] at hcs
    refine ⟨hQ, hB, hcs, ?_⟩
    unfold FullColRank
    rw [← finrank_colSpace, ← hcs, finrank_colSpace]
    change st.Q.rank = min st.c S.c
    rw [orthoCols_rank hQ]
    omega
  · rw [h1] at h; cases h

/-- **C10** (success).  If `A S` has full column rank, QB3 returns. -/
theorem C10_qb3_returns (la : LinAlg) (skOp : RowSketcher G) (blk : ℕ) (hblk : 0 < blk)
    (A : Matrix (Fin m) (Fin n) ℝ) (k : ℤ) (tol : Tol) (w w₁ : World G) (S : Cols n)
    (hk : 0 < k) (hk' : k < (min m n : ℕ))
    (hS : skOp m n A k.toNat w = .ok (S, w₁)) (hc : (S.c : ℤ) = k)
    (hfull : FullColRank (A * S.mat)) :
    ∃ out w', qb3Call la skOp blk A k tol w = .ok (out, w') := by
  rcases qb3Call_spec la skOp blk A k tol w w₁ S hk hk' hblk hS (by omega) with
    ⟨st, w2, j, h1, -, -, -⟩ | ⟨-, j, -, hbad⟩
  · exact ⟨_, _, h1⟩
  · exfalso
    apply hbad
    -- a prefix of linearly independent columns is linearly independent
    rw [← mul_takeCols]
    exact hfull.submatrix (takeIdx_injective _ _)

/-- **C10** (dichotomy).  With legal arguments and an `n × k` sketch, QB3 either returns or raises
LinAlgError, and it raises only when some block prefix of `A S` is linearly dependent. -/
theorem C10_qb3_raises_only_if_dependent (la : LinAlg) (skOp : RowSketcher G) (blk : ℕ)
    (hblk : 0 < blk) (A : Matrix (Fin m) (Fin n) ℝ) (k : ℤ) (tol : Tol) (w w₁ : World G)
    (S : Cols n) (hk : 0 < k) (hk' : k < (min m n : ℕ))
    (hS : skOp m n A k.toNat w = .ok (S, w₁)) (hc : (S.c : ℤ) = k) :
    (∃ out w', qb3Call la skOp blk A k tol w = .ok (out, w')) ∨
    (qb3Call la skOp blk A k tol w = .error .linAlg ∧
      ∃ j : ℕ, 1 ≤ j ∧ ¬ FullColRank (A * takeCols (min (j * blk) k.toNat) S.mat)) := by
  rcases qb3Call_spec la skOp blk A k tol w w₁ S hk hk' hblk hS (by omega) with
    ⟨st, w2, j, h1, -, -, -⟩ | h
  · exact Or.inl ⟨_, _, h1⟩
  · exact Or.inr h

/-- **C10** (detection).  Without early stopping a rank-deficient `A S` is always reported. -/
theorem C10_qb3_raises (la : LinAlg) (skOp : RowSketcher G) (blk : ℕ) (hblk : 0 < blk)
    (A : Matrix (Fin m) (Fin n) ℝ) (k : ℤ) (tol : Tol)
    (htol : tol = .nan ∨ ∃ t, tol = .val t ∧ t ≤ 0) (w w₁ : World G) (S : Cols n)
    (hk : 0 < k) (hk' : k < (min m n : ℕ))
    (hS : skOp m n A k.toNat w = .ok (S, w₁)) (hc : (S.c : ℤ) = k)
    (hdef : ¬ FullColRank (A * S.mat)) :
    qb3Call la skOp blk A k tol w = .error .linAlg := by
  rcases qb3Call_spec la skOp blk A k tol w w₁ S hk hk' hblk hS (by omega) with
    ⟨st, w2, j, h1, hI, -, hex⟩ | ⟨h, -⟩
  · exfalso
    rcases hex with hex | ⟨hu, -⟩
    · have hfr := (C10_qb3_correct la skOp blk A k tol w w₁ w2 S hS hc _ h1).2.2.2
      have hst : st.c = S.c := by have := hI.2.2.1; omega
      apply hdef
      have hcol : colSpace (A * takeCols st.c S.mat) ≤ colSpace (A * S.mat) := by
        rw [← mul_takeCols]
        apply colSpace_le_of_cols
        intro j
        exact col_mem_colSpace (A * S.mat) (takeIdx _ _ j)
      have h2 := Submodule.finrank_mono hcol
      have h3 : (A * takeCols st.c S.mat).rank = min st.c S.c := hfr
      rw [finrank_colSpace, finrank_colSpace, h3] at h2
      have h4 := rank_le_width' (A * S.mat)
      unfold FullColRank
      omega
    · rcases htol with rfl | ⟨t, rfl, ht⟩
      · exact Tol.not_use_nan hu
      · exact absurd ((Tol.use_val t).1 hu) (by linarith)
  · exact h

/-- **C11** (argument check). -/
theorem C11_qb3_rejects (la : LinAlg) (skOp : RowSketcher G) (blk : ℕ)
    (A : Matrix (Fin m) (Fin n) ℝ) (k : ℤ) (tol : Tol) (w : World G)
    (hk : k ≤ 0 ∨ (min m n : ℕ) ≤ k) : qb3Call la skOp blk A k tol w = .error .assertion := by
  unfold qb3Call
  by_cases h1 : k > 0
  · rw [Py.assert_pos_bind h1, Py.assert_neg_bind (by omega)]; rfl
  · rw [Py.assert_neg_bind h1]; rfl

/-- **C11** (column count and early stopping).  QB3 returns `min(i*blk, k)` columns for some
`i ≥ 1`; fewer than `k` only if `‖A - QB‖ ≤ tol ‖A‖` for a positive number `tol`. -/
theorem C11_qb3_columns (la : LinAlg) (skOp : RowSketcher G) (blk : ℕ)
    (A : Matrix (Fin m) (Fin n) ℝ) (k : ℤ) (tol : Tol) (w w₁ w' : World G) (S : Cols n)
    (hS : skOp m n A k.toNat w = .ok (S, w₁)) (hc : (S.c : ℤ) = k) (out : QBOut m n)
    (h : qb3Call la skOp blk A k tol w = .ok (out, w')) :
    (∃ i : ℕ, 1 ≤ i ∧ (out.c : ℤ) = min ((i : ℤ) * blk) k) ∧
    ((out.c : ℤ) = k ∨ ∃ t, tol = .val t ∧ 0 < t ∧ fro (A - out.Q * out.B) ≤ t * fro A) := by
  by_cases hk : 0 < k
  swap
  · unfold qb3Call at h; rw [Py.assert_neg_bind hk] at h; cases h
  by_cases hk' : k < (min m n : ℕ)
  swap
  · unfold qb3Call at h; rw [Py.assert_pos_bind hk, Py.assert_neg_bind hk'] at h; cases h
  by_cases hb : blk = 0
  · unfold qb3Call at h
    rw [Py.assert_pos_bind hk, Py.assert_pos_bind hk', Py.bind_eq_of_ok hS,
      Py.bind_eq_of_ok (Py.emit_apply _ _), Py.bind_eq_of_ok (Py.emit_apply _ _), if_pos hb] at h
    cases h
  rcases qb3Call_spec la skOp blk A k tol w w₁ S hk hk' (by omega) hS (by omega) with
    ⟨st, w2, j, h1, hI, hj, hex⟩ | ⟨h1, -⟩
  · rw [h1] at h
    cases h
    obtain ⟨-, -, hcc, -, hsq⟩ := hI
    have hcz : (st.c : ℤ) = min ((j : ℤ) * blk) k := by
      rw [hcc]; push_cast; omega
    refine ⟨⟨j, hj, hcz⟩, ?_⟩
    rcases hex with hex | hex
    · left
      change (st.c : ℤ) = k
      omega
    · right
      apply tol_exit (fro_nonneg _)
      change tol.use ∧ fro (A - st.Q * st.B) ^ 2 ≤ _
      rw [fro_sq, ← hsq]; exact hex
  · rw [h1] at h; cases h

/-- **C11** (no tolerance).  With `tol = 0`, negative or NaN exactly `k` columns. -/
theorem C11_qb3_no_tol (la : LinAlg) (skOp : RowSketcher G) (blk : ℕ)
    (A : Matrix (Fin m) (Fin n) ℝ) (k : ℤ) (tol : Tol)
    (htol : tol = .nan ∨ ∃ t, tol = .val t ∧ t ≤ 0) (w w₁ w' : World G) (S : Cols n)
    (hS : skOp m n A k.toNat w = .ok (S, w₁)) (hc : (S.c : ℤ) = k) (out : QBOut m n)
    (h : qb3Call la skOp blk A k tol w = .ok (out, w')) : (out.c : ℤ) = k := by
  rcases (C11_qb3_columns la skOp blk A k tol w w₁ w' S hS hc out h).2 with h | ⟨t, ht, h0, -⟩
  · exact h
  · rcases htol with h' | ⟨t', h', h0'⟩
    · rw [h'] at ht; cases ht
    · rw [h'] at ht; cases ht; linarith

-- non-vacuity: a 3×3 matrix and the coordinate sketcher with k = 2, blk = 1
example (la : LinAlg) (w : World G) : ∃ out w',
    qb3Call la (coordSketcher (G := G)) 1 (1 : Matrix (Fin 3) (Fin 3) ℝ) 2 .nan w = .ok (out, w') := by
  refine C10_qb3_returns la _ 1 (by norm_num) _ 2 .nan w w _ (by norm_num) (by simp) rfl rfl ?_
  apply fullColRank_of_left_inv
    (L := Matrix.of fun (i : Fin 2) (j : Fin 3) => if i.1 = j.1 then 1 else 0)
  ext i j
  fin_cases i <;> fin_cases j <;> simp [Matrix.mul_apply, Fin.sum_univ_three]

-- and a rank-deficient one that is rejected
example (la : LinAlg) (w : World G) :
    qb3Call la (coordSketcher (G := G)) 1 (0 : Matrix (Fin 3) (Fin 3) ℝ) 2 .nan w = .error .linAlg := by
  refine C10_qb3_raises la _ 1 (by norm_num) _ 2 .nan (Or.inl rfl) w w _ (by norm_num) (by simp)
    rfl rfl ?_
  simp [FullColRank]

end Parla.Props
