import Verif.Props.Denoise

/-! # C98 for `svd1` and `evd1`, outside an exceptional set of small probability -/

namespace Parla.Props

open Matrix Spec MeasureTheory Parla.Proof

variable {m n r : ℕ}

private theorem gap_one' {A : Matrix (Fin m) (Fin n) ℝ} {U : Matrix (Fin m) (Fin r) ℝ} {s : Fin r → ℝ} {V : Matrix (Fin n) (Fin r) ℝ}
    (h : IsSVD A U s V) {t : ℕ} (ht : t ≤ r) (i : Fin r) (j : Fin t) (hi : t ≤ i.1) : s i ≤ 1 * s (Fin.castLE ht j) := by
  rw [one_mul]
  exact h.anti (Fin.le_def.2 (by simp only [Fin.val_castLE]; omega))

private theorem tail_le' {A : Matrix (Fin m) (Fin n) ℝ} {U : Matrix (Fin m) (Fin r) ℝ} {s : Fin r → ℝ} {V : Matrix (Fin n) (Fin r) ℝ}
    (h : IsSVD A U s V) (L : Matrix (Fin m) (Fin n) ℝ) {t : ℕ} (hL : L.rank ≤ t) : tailSq s t ≤ fro (A - L) ^ 2 := by
  have := ey_rank h L hL
  rwa [← fro_sq] at this

private theorem near' {P A L : Matrix (Fin m) (Fin n) ℝ} {x : ℝ} (h : fro (A - P) ≤ x) : fro (P - L) ≤ x + fro (A - L) := by
  rw [show P - L = -(A - P) + (A - L) by abel]
  refine (fro_triangle _ _).trans (add_le_add ?_ le_rfl)
  rwa [show fro (-(A - P)) = fro (A - P) by unfold fro froSq; simp only [Matrix.neg_apply, neg_sq]]

/-- **C98** (failure probability) for `svd1(A, k, over, nan, p, blk, rng)`, `L` any matrix of rank at most `t ≤ k`. -/
theorem C98_svd1_tail (A L : Matrix (Fin m) (Fin n) ℝ) (t : ℕ) (hL : L.rank ≤ t)
    (k over K : ℕ) (htk' : t ≤ k) (hK : K = min (k + over) (min m n)) (hK0 : 0 < K) (p : ℤ) (hp : 2 ≤ p) (blk : ℕ)
    (hblk : 0 < blk) (W : ℕ) (hW : W = if p = 2 then K else min blk K) (htk : t ≤ W)
    (hone : K ≤ blk ∨ k + over ≤ A.rank) (ε : ℝ) (h0 : 0 ≤ ε) (h1 : ε < 1) (g : ℝ)
    (hg : g = √((2 + (1 + ε / 2) / (1 - ε)) * fro (A - L) ^ 2 + (10 * eps) ^ 2 * (min K n : ℕ))) :
    ∃ E : Set (Proof.Draws (startRows (p - 2) m n) (blockWidths K blk)),
      normalSeq _ _ E ≤ ENNReal.ofReal (3 * 9 ^ t * Real.exp (-(W * ε ^ 2 / 32))) ∧
      ∀ Zs ∉ E, ∀ (G : Type) (la : LinAlg) (R : NpRng G) (w : World G), NextDraws R _ w.rng Zs →
        ∃ (out : SVDOut m n) (w' : World G),
          svd1 la (gaussianOperator R true) A k over .nan p blk w = .ok (out, w') ∧ out.r ≤ k ∧
          OrthoCols out.U ∧ OrthoRows out.Vh ∧
          fro (A - out.U * diagonal out.s * out.Vh) ≤ g ∧
          fro (out.U * diagonal out.s * out.Vh - L) ≤ g + fro (A - L) := by
  have hWK : W ≤ K := by rw [hW]; split <;> omega
  obtain ⟨U, s, V, h⟩ := exists_isSVD A
  obtain ⟨E, hE, h3⟩ := C78_svd1 A h k over K hK hK0 p hp blk hblk W hW t (by omega) htk 1 (gap_one' h _) hone ε h0 h1
  refine ⟨E, hE, fun Zs hZs G la R w hw => ?_⟩
  obtain ⟨out, w', e1, e2, e3, e4, e5⟩ := h3 Zs hZs G la R w hw
  have hc : 0 ≤ 1 + (1 + ε / 2) / (1 - ε) := add_nonneg zero_le_one (div_nonneg (by linarith) (by linarith))
  have a1 := tail_le' h L (hL.trans htk')
  have a2 := mul_le_mul_of_nonneg_right (tail_le' h L hL) hc
  rw [one_pow, one_mul] at e5
  have e6 : fro (A - out.U * diagonal out.s * out.Vh) ≤ g := by
    rw [hg]
    refine Real.le_sqrt_of_sq_le (e5.trans ?_)
    have : (2 + (1 + ε / 2) / (1 - ε)) * fro (A - L) ^ 2 =
      fro (A - L) ^ 2 + fro (A - L) ^ 2 * (1 + (1 + ε / 2) / (1 - ε)) := by ring
    linarith
  exact ⟨out, w', e1, e2, e3, e4, e6, near' e6⟩

/-- **C98** (failure probability) for `evd1(A, k, nan, over, p, blk, rng)` on a symmetric `A`, `L` any matrix of rank at most
`t ≤ k`. -/
theorem C98_evd1_tail (A L : Matrix (Fin n) (Fin n) ℝ) (hsym : Aᵀ = A) (t : ℕ) (hL : L.rank ≤ t)
    (k over K : ℕ) (hk : 0 < k) (hk' : k ≤ n) (htk' : t ≤ k) (hK : K = min (k + over) n) (p : ℤ) (hp : 2 ≤ p) (blk : ℕ)
    (hblk : 0 < blk) (W : ℕ) (hW : W = if p = 2 then K else min blk K) (htk : t ≤ W)
    (hone : K ≤ blk ∨ k + over ≤ A.rank) (ε : ℝ) (h0 : 0 ≤ ε) (h1 : ε < 1) (g : ℝ)
    (hg : g = √2 * √(1 + (1 + ε / 2) / (1 - ε)) * fro (A - L) + √(fro (A - L) ^ 2 + (10 * eps) ^ 2 * K)) :
    ∃ E : Set (Proof.Draws (startRows (p - 2) n n) (blockWidths K blk)),
      normalSeq _ _ E ≤ ENNReal.ofReal (3 * 9 ^ t * Real.exp (-(W * ε ^ 2 / 32))) ∧
      ∀ Zs ∉ E, ∀ (G : Type) (la : LinAlg) (R : NpRng G) (w : World G), NextDraws R _ w.rng Zs →
        ∃ (out : EVDOut n) (w' : World G),
          evd1 la (gaussianOperator R true) A k .nan over p blk w = .ok (out, w') ∧ out.r ≤ k ∧
          OrthoCols out.V ∧
          fro (A - out.V * diagonal out.lamb * out.Vᵀ) ≤ g ∧
          fro (out.V * diagonal out.lamb * out.Vᵀ - L) ≤ g + fro (A - L) := by
  have hWK : W ≤ K := by rw [hW]; split <;> omega
  obtain ⟨U, s, V, h⟩ := exists_isSVD A
  obtain ⟨E, hE, h3⟩ := C78_evd1 A hsym h k over K hk hk' hK p hp blk hblk W hW t (by omega) htk 1 (gap_one' h _) hone
    ε h0 h1
  refine ⟨E, hE, fun Zs hZs G la R w hw => ?_⟩
  obtain ⟨out, w', e1, e2, e3, e5⟩ := h3 Zs hZs G la R w hw
  have hc : 0 ≤ 1 + (1 + ε / 2) / (1 - ε) := add_nonneg zero_le_one (div_nonneg (by linarith) (by linarith))
  have a1 := tail_le' h L (hL.trans htk')
  have a2 := mul_le_mul_of_nonneg_right (tail_le' h L hL) hc
  rw [one_pow, one_mul] at e5
  have e6 : fro (A - out.V * diagonal out.lamb * out.Vᵀ) ≤ g := by
    rw [hg]
    refine e5.trans (add_le_add ?_ (Real.sqrt_le_sqrt (by linarith)))
    rw [mul_assoc]
    refine mul_le_mul_of_nonneg_left ?_ (Real.sqrt_nonneg 2)
    refine (Real.sqrt_le_sqrt a2).trans (le_of_eq ?_)
    rw [Real.sqrt_mul (sq_nonneg _), Real.sqrt_sq (fro_nonneg _), mul_comm]
  exact ⟨out, w', e1, e2, e3, e6, near' e6⟩

/-- The hypotheses are met: a symmetric 400 x 400 matrix and its leading rank-one part. -/
example : (diagonal demoTailS)ᵀ = diagonal demoTailS ∧ ∃ L : Matrix (Fin 400) (Fin 400) ℝ, L.rank ≤ 1 ∧
    L ≠ diagonal demoTailS ∧ ∃ E : Set (Proof.Draws (startRows (3 - 2) 400 400) (blockWidths 300 300)),
    normalSeq _ _ E ≤ ENNReal.ofReal (3 * 9 ^ 1 * Real.exp (-(((300 : ℕ) : ℝ) * (3 / 4) ^ 2 / 32))) ∧
    ∀ Zs ∉ E, ∀ (G : Type) (la : LinAlg) (R : NpRng G) (w : World G), NextDraws R _ w.rng Zs →
      ∃ (out : EVDOut 400) (w' : World G),
        evd1 la (gaussianOperator R true) (diagonal demoTailS) 250 .nan 50 3 300 w = .ok (out, w') := by
  have hr : (diagonal (fun i : Fin 400 => if i.1 = 0 then (100 : ℝ) else 0)).rank ≤ 1 := by
    rw [rank_diagonal, Fintype.card_subtype]
    refine (Finset.card_le_card (t := {0}) fun i hi => ?_).trans (by simp)
    rw [Finset.mem_filter] at hi
    rw [Finset.mem_singleton]
    by_contra hne
    exact hi.2 (if_neg fun h => hne (Fin.ext h))
  refine ⟨diagonal_transpose _, _, hr, fun h => ?_, ?_⟩
  · have h1 := congrFun (congrFun h 1) 1
    rw [diagonal_apply_eq, diagonal_apply_eq] at h1
    simp [demoTailS] at h1
  · obtain ⟨E, hE, h3⟩ := C98_evd1_tail (diagonal demoTailS) _ (diagonal_transpose _) 1 hr 250 50 300 (by norm_num) (by norm_num)
      (by norm_num) (by norm_num) 3 (by norm_num) 300 (by norm_num) 300 (by norm_num) (by norm_num) (Or.inl le_rfl)
      (3 / 4) (by norm_num) (by norm_num) _ rfl
    refine ⟨E, hE, fun Zs hZs G la R w hw => ?_⟩
    obtain ⟨out, w', e1, -⟩ := h3 Zs hZs G la R w hw
    exact ⟨out, w', e1⟩

end Parla.Props
