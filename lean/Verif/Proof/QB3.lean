import Verif.Proof.QB

/-! Block invariant of `QB3` (helper lemmas). -/

namespace Parla

open Matrix Spec

variable {G : Type} {m n c : ℕ}

theorem colSpace_le_of_cols {k : ℕ} {M : Matrix (Fin m) (Fin k) ℝ} {W : Submodule ℝ (Fin m → ℝ)}
    (h : ∀ j, M.col j ∈ W) : colSpace M ≤ W := by
  unfold colSpace
  rw [Matrix.range_mulVecLin, Submodule.span_le]
  rintro _ ⟨j, rfl⟩
  exact h j

theorem col_mem_colSpace {k : ℕ} (M : Matrix (Fin m) (Fin k) ℝ) (j : Fin k) :
    M.col j ∈ colSpace M := mem_colSpace.2 ⟨Pi.single j 1, by simp⟩

theorem colSpace_hcat {a b : ℕ} (A : Matrix (Fin m) (Fin a) ℝ) (B : Matrix (Fin m) (Fin b) ℝ) :
    colSpace (hcat A B) = colSpace A ⊔ colSpace B := by
  apply le_antisymm
  · apply colSpace_le_of_cols
    intro j
    refine Fin.addCases (fun j => ?_) (fun j => ?_) j
    · apply Submodule.mem_sup_left
      convert col_mem_colSpace A j using 1
      ext i; simp
    · apply Submodule.mem_sup_right
      convert col_mem_colSpace B j using 1
      ext i; simp
  · apply sup_le
    · apply colSpace_le_of_cols
      intro j
      convert col_mem_colSpace (hcat A B) (Fin.castAdd b j) using 1
      ext i; simp
    · apply colSpace_le_of_cols
      intro j
      convert col_mem_colSpace (hcat A B) (Fin.natAdd a j) using 1
      ext i; simp

/-- the first `b` columns are the first `a` columns and the slice `a:b` -/
theorem colSpace_take_slice {a b k : ℕ} (h : a ≤ b) (M : Matrix (Fin m) (Fin k) ℝ) :
    colSpace (takeCols b M) = colSpace (takeCols a M) ⊔ colSpace (colSlice a b M) := by
  apply le_antisymm
  · apply colSpace_le_of_cols
    intro j
    by_cases hj : j.1 < a
    · apply Submodule.mem_sup_left
      have := j.2
      exact col_mem_colSpace (takeCols a M) ⟨j.1, by omega⟩
    · apply Submodule.mem_sup_right
      have := j.2
      convert col_mem_colSpace (colSlice a b M) ⟨j.1 - a, by omega⟩ using 1
      ext i
      simp only [takeCols, colSlice, Matrix.col_apply, Matrix.submatrix_apply, takeIdx, sliceIdx]
      congr 2; omega
  · apply sup_le
    · apply colSpace_le_of_cols
      intro j
      have := j.2
      exact col_mem_colSpace (takeCols b M) ⟨j.1, by omega⟩
    · apply colSpace_le_of_cols
      intro j
      have := j.2
      exact col_mem_colSpace (takeCols b M) ⟨a + j.1, by omega⟩

theorem mul_takeCols {k p : ℕ} (A : Matrix (Fin m) (Fin n) ℝ) (S : Matrix (Fin n) (Fin k) ℝ) :
    takeCols p (A * S) = A * takeCols p S := by
  ext i j; simp [takeCols, Matrix.mul_apply]

theorem mul_colSlice {k a b : ℕ} (A : Matrix (Fin m) (Fin n) ℝ) (S : Matrix (Fin n) (Fin k) ℝ) :
    colSlice a b (A * S) = A * colSlice a b S := by
  ext i j; simp [colSlice, Matrix.mul_apply]

theorem upper_mul {w : ℕ} {R T : Matrix (Fin w) (Fin w) ℝ} (hR : ∀ i j, j < i → R i j = 0)
    (hT : ∀ i j, j < i → T i j = 0) :
    (∀ i j, j < i → (R * T) i j = 0) ∧ ∀ i, (R * T) i i = R i i * T i i := by
  constructor
  · intro i j hij
    rw [Matrix.mul_apply]
    apply Finset.sum_eq_zero
    intro l _
    by_cases h : l < i
    · rw [hR i l h, zero_mul]
    · rw [hT l j (lt_of_lt_of_le hij (not_lt.1 h)), mul_zero]
  · intro i
    rw [Matrix.mul_apply, Finset.sum_eq_single i]
    · intro l _ hl
      rcases lt_or_gt_of_ne hl with h | h
      · rw [hR i l h, zero_mul]
      · rw [hT l i h, mul_zero]
    · simp

theorem upper_inv {w : ℕ} {R : Matrix (Fin w) (Fin w) ℝ} (hR : ∀ i j, j < i → R i j = 0)
    (hd : ¬ ∃ i, R i i = 0) : R * R⁻¹ = 1 ∧ R⁻¹ * R = 1 := by
  have := isUnit_det_triu hd
  rw [triu_eq_self hR] at this
  exact ⟨Matrix.mul_nonsing_inv _ this, Matrix.nonsing_inv_mul _ this⟩

/-- a zero on the diagonal of a square factor kills full rank -/
theorem upper_rank_lt {w : ℕ} {R : Matrix (Fin w) (Fin w) ℝ} (hR : ∀ i j, j < i → R i j = 0)
    (hd : ∃ i, R i i = 0) : R.rank ≠ w := by
  intro h
  have hdet : R.det = 0 := by
    rw [← triu_eq_self hR, det_triu]
    obtain ⟨i, hi⟩ := hd
    exact Finset.prod_eq_zero (Finset.mem_univ i) hi
  obtain ⟨v, hv, hv0⟩ := Matrix.exists_mulVec_eq_zero_iff.2 hdet
  have hinj : Function.Injective R.mulVecLin := by
    rw [← LinearMap.ker_eq_bot]
    have := LinearMap.finrank_range_add_finrank_ker R.mulVecLin
    rw [show Module.finrank ℝ (LinearMap.range R.mulVecLin) = w from h] at this
    simp at this
    exact this
  exact hv (hinj (by simpa using hv0))

theorem rank_mul_le_right' {k p : ℕ} (A : Matrix (Fin m) (Fin k) ℝ) (B : Matrix (Fin k) (Fin p) ℝ) :
    (A * B).rank ≤ B.rank := Matrix.rank_mul_le_right A B

/-- the linear algebra of one QB3 block -/
theorem qb3_core {w p1 p2 : ℕ} (h1 : p1 = w) (h2 : p2 = w) {Y : Matrix (Fin m) (Fin w) ℝ}
    {Q1 : Matrix (Fin m) (Fin p1) ℝ} {R1 : Matrix (Fin p1) (Fin w) ℝ}
    {Q2 : Matrix (Fin m) (Fin p2) ℝ} {Rh : Matrix (Fin p2) (Fin p1) ℝ}
    {Q : Matrix (Fin m) (Fin c) ℝ} (hY : Q1 * R1 = Y) (o1 : Q1ᵀ * Q1 = 1)
    (u1 : ∀ (i : Fin p1) (j : Fin w), j.1 < i.1 → R1 i j = 0) (hQY : Qᵀ * Y = 0)
    (e2 : Q2 * Rh = projectOut Q1 Q) (o2 : Q2ᵀ * Q2 = 1)
    (u2 : ∀ (i : Fin p2) (j : Fin p1), j.1 < i.1 → Rh i j = 0) :
    ((¬ ∃ i, castRows h2 (Rh * R1) i i = 0) →
      triu (castRows h2 (Rh * R1)) = castRows h2 (Rh * R1) ∧
      castCols h2 Q2 * castRows h2 (Rh * R1) = Y ∧ (castCols h2 Q2)ᵀ * castCols h2 Q2 = 1 ∧
      Qᵀ * castCols h2 Q2 = 0) ∧
    ((∃ i, castRows h2 (Rh * R1) i i = 0) → Y.rank ≠ w) := by
  subst h1; subst h2
  have hc1 : castRows rfl (Rh * R1) = Rh * R1 := rfl
  have hc2 : castCols rfl Q2 = Q2 := rfl
  rw [hc1, hc2]
  have u1' : ∀ i j, j < i → R1 i j = 0 := fun i j h => u1 i j h
  have u2' : ∀ i j, j < i → Rh i j = 0 := fun i j h => u2 i j h
  obtain ⟨uT, dT⟩ := upper_mul u2' u1'
  have key : (¬ ∃ i, R1 i i = 0) → projectOut Q1 Q = Q1 ∧ Qᵀ * Q1 = 0 := by
    intro hd
    obtain ⟨hi, -⟩ := upper_inv u1' hd
    have hQ1 : Q1 = Y * R1⁻¹ := by rw [← hY, Matrix.mul_assoc, hi, Matrix.mul_one]
    have : Qᵀ * Q1 = 0 := by rw [hQ1, ← Matrix.mul_assoc, hQY, Matrix.zero_mul]
    refine ⟨?_, this⟩
    unfold projectOut; rw [this]; simp
  constructor
  · intro hd
    have hd1 : ¬ ∃ i, R1 i i = 0 := by
      rintro ⟨i, hi⟩; exact hd ⟨i, by rw [dT, hi, mul_zero]⟩
    have hd2 : ¬ ∃ i, Rh i i = 0 := by
      rintro ⟨i, hi⟩; exact hd ⟨i, by rw [dT, hi, zero_mul]⟩
    obtain ⟨hp, hQQ1⟩ := key hd1
    rw [hp] at e2
    obtain ⟨hi, -⟩ := upper_inv u2' hd2
    have hQ2 : Q2 = Q1 * Rh⁻¹ := by rw [← e2, Matrix.mul_assoc, hi, Matrix.mul_one]
    refine ⟨triu_eq_self uT, ?_, o2, ?_⟩
    · rw [← Matrix.mul_assoc, e2, hY]
    · rw [hQ2, ← Matrix.mul_assoc, hQQ1, Matrix.zero_mul]
  · rintro ⟨i, hi⟩ hr
    rw [dT] at hi
    by_cases hd1 : ∃ i, R1 i i = 0
    · apply upper_rank_lt u1' hd1
      apply le_antisymm (rank_le_width' _)
      calc _ = Y.rank := hr.symm
        _ ≤ R1.rank := by rw [← hY]; exact rank_mul_le_right' _ _
    · obtain ⟨hp, -⟩ := key hd1
      have hd2 : ∃ i, Rh i i = 0 := by
        refine ⟨i, ?_⟩
        rcases mul_eq_zero.1 hi with h | h
        · exact h
        · exact absurd ⟨i, h⟩ hd1
      apply upper_rank_lt u2' hd2
      apply le_antisymm (rank_le_width' _)
      rw [hp] at e2
      calc _ = Q1.rank := (orthoCols_rank o1).symm
        _ ≤ Rh.rank := by rw [← e2]; exact rank_mul_le_right' _ _

/-- state of QB3 after `i` blocks -/
def QB3Inv (A : Matrix (Fin m) (Fin n) ℝ) (S : Cols n) (q : ℕ) (st : QB3St m n) : Prop :=
  st.Qᵀ * st.Q = 1 ∧ st.B = st.Qᵀ * A ∧ st.c = q ∧
    colSpace st.Q = colSpace (A * takeCols q S.mat) ∧ st.sqn = froSq (A - st.Q * st.B)

theorem qb3Step_spec (la : LinAlg) (A : Matrix (Fin m) (Fin n) ℝ) (S : Cols n) (a b : ℕ)
    (hab : a ≤ b) (hb : b ≤ S.c) (hm : b ≤ m) (st : QB3St m n) (hI : QB3Inv A S a st) :
    (∃ st', qb3Step la S (A * S.mat) (Aᵀ * (A * S.mat)) a b st = .ok st' ∧ QB3Inv A S b st') ∨
    (qb3Step la S (A * S.mat) (Aᵀ * (A * S.mat)) a b st = .error .linAlg ∧
      ¬ FullColRank (A * takeCols b S.mat)) := by
  obtain ⟨hQ, hB, hca, hcs, hsq⟩ := hI
  have hw : min m (min m (min b S.c - a)) = min b S.c - a := by omega
  have hw1 : min m (min b S.c - a) = min b S.c - a := by omega
  set Y := colSlice a b (A * S.mat) - st.Q * (st.B * colSlice a b S.mat) with hYdef
  have hYA : Y = A * colSlice a b S.mat - st.Q * (st.Qᵀ * (A * colSlice a b S.mat)) := by
    rw [hYdef, mul_colSlice, hB, Matrix.mul_assoc]
  have hQY : st.Qᵀ * Y = 0 := by
    rw [hYA, Matrix.mul_sub, ← Matrix.mul_assoc st.Qᵀ st.Q, hQ, Matrix.one_mul, sub_self]
  have core := qb3_core (Q := st.Q) hw1 hw (la.qr_mul Y) (la.qr_orth Y) (la.qr_upper Y) hQY
    (la.qr_mul (projectOut (la.qr Y).1 st.Q)) (la.qr_orth (projectOut (la.qr Y).1 st.Q))
    (la.qr_upper (projectOut (la.qr Y).1 st.Q))
  set Q2 := castCols hw (la.qr (projectOut (la.qr Y).1 st.Q)).1 with hQ2
  set Ri := castRows hw ((la.qr (projectOut (la.qr Y).1 st.Q)).2 * (la.qr Y).2) with hRi
  have hsup : colSpace (A * takeCols b S.mat) = colSpace st.Q ⊔ colSpace Y := by
    rw [← mul_takeCols, colSpace_take_slice hab, mul_takeCols, ← hcs, mul_colSlice]
    apply le_antisymm
    · apply sup_le le_sup_left
      have : A * colSlice a b S.mat = Y + st.Q * (st.Qᵀ * (A * colSlice a b S.mat)) := by
        rw [hYA]; abel
      intro v hv
      obtain ⟨x, rfl⟩ := mem_colSpace.1 hv
      rw [this, Matrix.add_mulVec]
      apply Submodule.add_mem
      · exact Submodule.mem_sup_right (mem_colSpace.2 ⟨_, rfl⟩)
      · apply Submodule.mem_sup_left
        rw [← Matrix.mulVec_mulVec]; exact mem_colSpace.2 ⟨_, rfl⟩
    · apply sup_le le_sup_left
      intro v hv
      obtain ⟨x, rfl⟩ := mem_colSpace.1 hv
      rw [hYA, Matrix.sub_mulVec]
      apply Submodule.sub_mem
      · exact Submodule.mem_sup_right (mem_colSpace.2 ⟨_, rfl⟩)
      · apply Submodule.mem_sup_left
        rw [← Matrix.mulVec_mulVec]; exact mem_colSpace.2 ⟨_, rfl⟩
  have hstep : qb3Step la S (A * S.mat) (Aᵀ * (A * S.mat)) a b st =
      (do
        let Bi ← solveUpperT Ri ((colSlice a b (Aᵀ * (A * S.mat)))ᵀ - (Yᵀ * st.Q) * st.B -
          (st.B * colSlice a b S.mat)ᵀ * st.B)
        Except.ok { c := st.c + (min b S.c - a), Q := hcat st.Q Q2, B := vcat st.B Bi,
                    sqn := st.sqn - fro Bi ^ 2 }) := by
    unfold qb3Step
    simp only [dif_pos hw]
    rfl
  by_cases hd : ∃ i, Ri i i = 0
  · right
    constructor
    · rw [hstep]
      unfold solveUpperT
      rw [if_pos hd]; rfl
    · intro hf
      apply core.2 hd
      apply le_antisymm (rank_le_width' _)
      have h1 : (A * takeCols b S.mat).rank ≤ st.Q.rank + Y.rank := by
        rw [← finrank_colSpace, hsup, ← finrank_colSpace, ← finrank_colSpace]
        exact Submodule.finrank_add_le_finrank_add_finrank _ _
      have h2 : (A * takeCols b S.mat).rank = min b S.c := hf
      have h3 := rank_le_width' st.Q
      omega
  · left
    obtain ⟨htri, hQR, hQ2o, hQQ2⟩ := core.1 hd
    set Bi := ((triu Ri)ᵀ)⁻¹ * ((colSlice a b (Aᵀ * (A * S.mat)))ᵀ - (Yᵀ * st.Q) * st.B -
          (st.B * colSlice a b S.mat)ᵀ * st.B) with hBi
    refine ⟨{ c := st.c + (min b S.c - a), Q := hcat st.Q Q2, B := vcat st.B Bi,
              sqn := st.sqn - fro Bi ^ 2 }, ?_, ?_⟩
    · rw [hstep]
      unfold solveUpperT
      rw [if_neg hd]; rfl
    · have hYQ : Yᵀ * st.Q = 0 := by
        have := congrArg Matrix.transpose hQY
        simpa [Matrix.transpose_mul] using this
      have hQ2Q : Q2ᵀ * st.Q = 0 := by
        have := congrArg Matrix.transpose hQQ2
        simpa [Matrix.transpose_mul] using this
      have hunit : IsUnit (triu Ri)ᵀ.det := by
        rw [Matrix.det_transpose]; exact isUnit_det_triu hd
      have hRHS : (colSlice a b (Aᵀ * (A * S.mat)))ᵀ - (Yᵀ * st.Q) * st.B -
          (st.B * colSlice a b S.mat)ᵀ * st.B = (triu Ri)ᵀ * (Q2ᵀ * A) := by
        have e1 : (triu Ri)ᵀ * (Q2ᵀ * A) = Yᵀ * A := by
          rw [← Matrix.mul_assoc, ← Matrix.transpose_mul, htri, hQR]
        rw [e1, hYQ, Matrix.zero_mul, sub_zero, mul_colSlice, hYdef, mul_colSlice]
        simp only [Matrix.transpose_mul, Matrix.transpose_sub, Matrix.transpose_transpose,
          Matrix.sub_mul, Matrix.mul_assoc]
        rw [← hB]
      have hBi' : Bi = Q2ᵀ * A := by
        rw [hBi, hRHS, ← Matrix.mul_assoc, Matrix.nonsing_inv_mul _ hunit, Matrix.one_mul]
      have hres : A - hcat st.Q Q2 * vcat st.B Bi =
          (A - st.Q * st.B) - Q2 * (Q2ᵀ * (A - st.Q * st.B)) := by
        rw [hcat_mul_vcat, hBi', Matrix.mul_sub Q2ᵀ, ← Matrix.mul_assoc Q2ᵀ st.Q, hQ2Q,
          Matrix.zero_mul, sub_zero, sub_sub]
      refine ⟨hcat_orth hQ hQ2o hQQ2, ?_, ?_, ?_, ?_⟩
      · change vcat st.B Bi = (hcat st.Q Q2)ᵀ * A
        rw [hcat_transpose, vcat_mul, hBi', ← hB]
      · change st.c + (min b S.c - a) = b
        omega
      · change colSpace (hcat st.Q Q2) = _
        rw [colSpace_hcat, hsup]
        congr 1
        obtain ⟨hi, -⟩ : triu Ri * (triu Ri)⁻¹ = 1 ∧ True :=
          ⟨Matrix.mul_nonsing_inv _ (isUnit_det_triu hd), trivial⟩
        rw [htri] at hi
        refine (colSpace_eq_of_factor (C := Ri) (D := Ri⁻¹) hQR.symm ?_).symm
        rw [← hQR, Matrix.mul_assoc, hi, Matrix.mul_one]
      · change st.sqn - fro Bi ^ 2 = froSq (A - hcat st.Q Q2 * vcat st.B Bi)
        rw [hres, froSq_sub_proj hQ2o, ← hsq, fro_sq, hBi']
        congr 2
        rw [Matrix.mul_sub, ← Matrix.mul_assoc Q2ᵀ, hQ2Q, Matrix.zero_mul, sub_zero]

open Classical in
theorem qb3Loop_succ_ok {la : LinAlg} {S : Cols n} {Gm : Matrix (Fin m) (Fin S.c) ℝ}
    {H : Matrix (Fin n) (Fin S.c) ℝ} {k blk : ℕ} {useTol : Prop} {tl : ℝ} {rem i : ℕ}
    {st st1 : QB3St m n}
    (h : qb3Step la S Gm H (i * blk) (min ((i + 1) * blk) k) st = .ok st1) :
    qb3Loop la S Gm H k blk useTol tl (rem + 1) i st =
      if useTol ∧ st1.sqn ≤ tl then .ok st1
      else qb3Loop la S Gm H k blk useTol tl rem (i + 1) st1 := by
  rw [qb3Loop, h]; rfl

theorem qb3Loop_succ_error {la : LinAlg} {S : Cols n} {Gm : Matrix (Fin m) (Fin S.c) ℝ}
    {H : Matrix (Fin n) (Fin S.c) ℝ} {k blk : ℕ} {useTol : Prop} {tl : ℝ} {rem i : ℕ}
    {st : QB3St m n} {e : PyErr}
    (h : qb3Step la S Gm H (i * blk) (min ((i + 1) * blk) k) st = .error e) :
    qb3Loop la S Gm H k blk useTol tl (rem + 1) i st = .error e := by
  rw [qb3Loop, h]; rfl

theorem qb3Loop_spec (la : LinAlg) (A : Matrix (Fin m) (Fin n) ℝ) (S : Cols n) (k blk : ℕ)
    (hS : S.c = k) (hm : k ≤ m) (useTol : Prop) (tl : ℝ) (rem i : ℕ) (st : QB3St m n)
    (hN : ∀ j < i + rem, j * blk ≤ k)
    (hI : QB3Inv A S (min (i * blk) k) st) :
    (∃ st' j, qb3Loop la S (A * S.mat) (Aᵀ * (A * S.mat)) k blk useTol tl rem i st = .ok st' ∧
      QB3Inv A S (min (j * blk) k) st' ∧ i ≤ j ∧ j ≤ i + rem ∧
      (j = i + rem ∨ (i < j ∧ useTol ∧ st'.sqn ≤ tl))) ∨
    (qb3Loop la S (A * S.mat) (Aᵀ * (A * S.mat)) k blk useTol tl rem i st = .error .linAlg ∧
      ∃ j, i < j ∧ j ≤ i + rem ∧ ¬ FullColRank (A * takeCols (min (j * blk) k) S.mat)) := by
  induction rem generalizing i st with
  | zero => exact Or.inl ⟨st, i, rfl, hI, le_rfl, le_rfl, Or.inl rfl⟩
  | succ rem ih =>
    have hrange : i * blk ≤ (i + 1) * blk := Nat.mul_le_mul_right _ (by omega)
    have hik : i * blk ≤ k := hN i (by omega)
    have hmin : min (i * blk) k = i * blk := by omega
    rw [hmin] at hI
    rcases qb3Step_spec la A S (i * blk) (min ((i + 1) * blk) k) (by omega) (by omega) (by omega)
      st hI with ⟨st1, h1, hI1⟩ | ⟨h1, hbad⟩
    · rw [qb3Loop_succ_ok h1]
      by_cases hex : useTol ∧ st1.sqn ≤ tl
      · left
        rw [if_pos hex]
        exact ⟨st1, i + 1, rfl, hI1, by omega, by omega, Or.inr ⟨by omega, hex⟩⟩
      · rw [if_neg hex]
        rcases ih (i + 1) st1 (fun j hj => hN j (by omega)) hI1 with
          ⟨st', j, a1, a2, a3, a4, a5⟩ | ⟨a1, j, a2, a3, a4⟩
        · refine Or.inl ⟨st', j, a1, a2, by omega, by omega, ?_⟩
          rcases a5 with h | ⟨h, h'⟩
          · exact Or.inl (by omega)
          · exact Or.inr ⟨by omega, h'⟩
        · exact Or.inr ⟨a1, j, by omega, by omega, a4⟩
    · right
      exact ⟨qb3Loop_succ_error h1, i + 1, by omega, by omega, hbad⟩

/-- QB3 with a sketch of the right width returns a correct factorisation of one of the block
prefixes, or raises LinAlgError because a prefix is rank deficient. -/
theorem qb3Call_spec (la : LinAlg) (skOp : RowSketcher G) (blk : ℕ) (A : Matrix (Fin m) (Fin n) ℝ)
    (k : ℤ) (tol : Tol) (w w₁ : World G) (S : Cols n) (hk : 0 < k) (hk' : k < (min m n : ℕ))
    (hblk : 0 < blk) (hS : skOp m n A k.toNat w = .ok (S, w₁)) (hc : S.c = k.toNat) :
    (∃ st w' j, qb3Call la skOp blk A k tol w = .ok (⟨st.c, st.Q, st.B⟩, w') ∧
      QB3Inv A S (min (j * blk) k.toNat) st ∧ 1 ≤ j ∧
      (k.toNat ≤ j * blk ∨ (tol.use ∧ st.sqn ≤ absSqTol tol A))) ∨
    (qb3Call la skOp blk A k tol w = .error .linAlg ∧
      ∃ j, 1 ≤ j ∧ ¬ FullColRank (A * takeCols (min (j * blk) k.toNat) S.mat)) := by
  have hinit : QB3Inv A S (min (0 * blk) k.toNat)
      { c := 0, Q := 0, B := 0, sqn := fro A ^ 2 } := by
    refine ⟨orth_empty _, ?_, by simp, ?_, ?_⟩
    · ext i; exact i.elim0
    · apply le_antisymm
      · apply colSpace_le_of_cols; intro j; exact j.elim0
      · apply colSpace_le_of_cols; intro j; exact absurd j.2 (by simp)
    · change fro A ^ 2 = froSq (A - (0 : Matrix (Fin m) (Fin 0) ℝ) * (0 : Matrix (Fin 0) (Fin n) ℝ))
      simp [fro_sq]
  have hN : ∀ j < 0 + ceilDiv' k.toNat blk, j * blk ≤ k.toNat := by
    intro j hj
    unfold ceilDiv' at hj
    rw [Nat.zero_add, Nat.lt_iff_add_one_le, Nat.le_div_iff_mul_le hblk] at hj
    rw [Nat.add_mul] at hj; omega
  have hcd1 : 1 ≤ ceilDiv' k.toNat blk := by
    unfold ceilDiv'
    rw [Nat.le_div_iff_mul_le hblk]; omega
  have hcd : k.toNat ≤ ceilDiv' k.toNat blk * blk := by
    unfold ceilDiv'
    have := Nat.div_add_mod (k.toNat + blk - 1) blk
    have h2 := Nat.mod_lt (k.toNat + blk - 1) hblk
    rw [Nat.mul_comm] at this
    omega
  have hrun : qb3Call la skOp blk A k tol w =
      (do
        let st ← Py.lift (qb3Loop la S (A * S.mat) (Aᵀ * (A * S.mat)) k.toNat blk tol.use
          (absSqTol tol A) (ceilDiv' k.toNat blk) 0
          { c := 0, Q := 0, B := 0, sqn := fro A ^ 2 })
        pure ⟨st.c, st.Q, st.B⟩ : Py G (QBOut m n))
        { w₁ with trace := (w₁.trace ++ [.mulA]) ++ [.mulAT] } := by
    unfold qb3Call
    rw [Py.assert_pos_bind hk, Py.assert_pos_bind hk', Py.bind_eq_of_ok hS,
      Py.bind_eq_of_ok (Py.emit_apply _ _), Py.bind_eq_of_ok (Py.emit_apply _ _),
      if_neg (by omega)]
  rcases qb3Loop_spec la A S k.toNat blk hc (by omega) tol.use (absSqTol tol A)
    (ceilDiv' k.toNat blk) 0 _ hN hinit with ⟨st', j, a1, a2, a3, a4, a5⟩ | ⟨a1, j, a2, a3, a4⟩
  · left
    rw [a1] at hrun
    refine ⟨st', _, j, hrun, a2, ?_, ?_⟩
    · rcases a5 with h | ⟨h, -⟩ <;> omega
    · rcases a5 with h | ⟨-, h⟩
      · left
        rw [Nat.zero_add] at h
        rw [h]; exact hcd
      · exact Or.inr h
  · right
    rw [a1] at hrun
    exact ⟨hrun, j, by omega, a4⟩

end Parla
