import Verif.Proof.Stab
import Verif.Model.QB

/-! Loop invariants of `QB2` and `QB3` (helper lemmas). -/

namespace Parla

open Matrix Spec

variable {G : Type} {m n : ℕ}

/-! ### QB2 -/

/-- a rangefinder call in the loop, with the pass that follows recorded -/
theorem qb2Draw_ok_iff {rf : RangeFinder G} {A : Matrix (Fin m) (Fin n) ℝ} {blk : ℕ} {out : Cols m} {w w' : World G} :
    qb2Draw rf A blk w = .ok (out, w') ↔
      ∃ w1, rf m n A blk .nan w = .ok (out, w1) ∧ w' = { w1 with trace := w1.trace ++ [.mulAT] } := by
  unfold qb2Draw
  rw [Py.bind_ok_iff]
  constructor
  · rintro ⟨o, w1, h1, h⟩
    rw [Py.bind_eq_of_ok (Py.emit_apply _ _)] at h
    cases h
    exact ⟨w1, h1, rfl⟩
  · rintro ⟨w1, h1, rfl⟩
    exact ⟨out, w1, h1, rfl⟩

theorem qb2Draw_of_ok {rf : RangeFinder G} {A : Matrix (Fin m) (Fin n) ℝ} {blk : ℕ} {out : Cols m} {w w1 : World G}
    (h : rf m n A blk .nan w = .ok (out, w1)) :
    qb2Draw rf A blk w = .ok (out, { w1 with trace := w1.trace ++ [.mulAT] }) :=
  qb2Draw_ok_iff.2 ⟨w1, h, rfl⟩

theorem qb2Draw_of_error {rf : RangeFinder G} {A : Matrix (Fin m) (Fin n) ℝ} {blk : ℕ} {e : PyErr} {w : World G}
    (h : rf m n A blk .nan w = .error e) : qb2Draw rf A blk w = .error e := by
  unfold qb2Draw
  rw [Py.bind_eq_of_error h]

/-- induction principle for the `while True` loop -/
theorem qb2Loop_ind {la : LinAlg} {rf : RangeFinder G} {k : ℕ} {useTol : Prop} {tl : ℝ}
    {P : QB2St m n → Prop}
    (hstep : ∀ st out w w', P st → st.c < k →
      rf m n st.A (qb2Blk k st.c st.blk : ℕ) .nan w = .ok (out, w') →
      P (qb2Update la (qb2Blk k st.c st.blk) st out))
    (fuel : ℕ) (st st' : QB2St m n) (w w' : World G)
    (h : qb2Loop la rf k useTol tl fuel st w = .ok (st', w')) (hc : st.c < k) (hP : P st) :
    P st' ∧ ((useTol ∧ st'.sqn ≤ tl) ∨ k ≤ st'.c) := by
  induction fuel generalizing st w with
  | zero => simp [qb2Loop] at h
  | succ fuel ih =>
    unfold qb2Loop at h
    rw [Py.bind_ok_iff] at h
    obtain ⟨out, wd, hd, h⟩ := h
    obtain ⟨w1, h1, rfl⟩ := qb2Draw_ok_iff.1 hd
    have hP' := hstep st out w w1 hP hc h1
    by_cases c1 : useTol ∧ (qb2Update la (qb2Blk k st.c st.blk) st out).sqn ≤ tl
    · rw [if_pos c1] at h
      cases h
      exact ⟨hP', Or.inl c1⟩
    · rw [if_neg c1] at h
      by_cases c2 : (qb2Update la (qb2Blk k st.c st.blk) st out).c ≥ k
      · rw [if_pos c2] at h
        cases h
        exact ⟨hP', Or.inr c2⟩
      · rw [if_neg c2] at h
        exact ih _ _ h (by omega) hP'

/-- the clamped target rank -/
def clampK (k : ℤ) (m n : ℕ) : ℕ := min k.toNat (min m n)

/-- opening `qb2Run` -/
theorem qb2Run_open {la : LinAlg} {rf : RangeFinder G} {blk : ℕ} {A : Matrix (Fin m) (Fin n) ℝ}
    {k : ℤ} {tol : Tol} (w : World G) (hk : 0 < k) :
    qb2Run la rf blk A k tol w =
      qb2Loop la rf (clampK k m n) tol.use (absSqTol tol A) (clampK k m n + 1) (qb2Init A blk)
        (if k ≤ (min m n : ℕ) then w else { w with warns := w.warns + 1 }) := by
  unfold qb2Run
  rw [Py.assert_pos_bind hk]
  by_cases h : k ≤ (min m n : ℕ)
  · have e : k.toNat = clampK k m n := by unfold clampK; omega
    simp only [h, not_true_eq_false, if_false, if_true]
    rw [Py.pure_bind', Py.assert_pos_bind h, e]
  · have e : ((min m n : ℕ) : ℤ).toNat = clampK k m n := by unfold clampK; omega
    simp only [h, not_false_eq_true, if_true, if_false]
    change ((Py.assert (((min m n : ℕ) : ℤ) ≤ (min m n : ℕ)) >>= fun _ =>
      qb2Loop la rf ((min m n : ℕ) : ℤ).toNat tol.use (absSqTol tol A)
        (((min m n : ℕ) : ℤ).toNat + 1) (qb2Init A blk)) { w with warns := w.warns + 1 }) = _
    rw [Py.assert_pos_bind le_rfl, e]

/-- `A_work = A - Q B` and the running norm is exact, whatever the rangefinder does -/
def QB2Inv (A : Matrix (Fin m) (Fin n) ℝ) (st : QB2St m n) : Prop :=
  st.A = A - st.Q * st.B ∧ st.sqn = froSq st.A

theorem qb2Inv_init (A : Matrix (Fin m) (Fin n) ℝ) (blk : ℕ) : QB2Inv A (qb2Init A blk) := by
  refine ⟨?_, ?_⟩
  · change A = A - (0 : Matrix (Fin m) (Fin 0) ℝ) * (0 : Matrix (Fin 0) (Fin n) ℝ)
    simp
  · simp [qb2Init, fro_sq]

theorem qb2Inv_update (la : LinAlg) {A : Matrix (Fin m) (Fin n) ℝ} {st : QB2St m n}
    (h : QB2Inv A st) (blk : ℕ) (out : Cols m) : QB2Inv A (qb2Update la blk st out) := by
  obtain ⟨h1, h2⟩ := h
  set Qi := (la.qr (projectOut out.mat st.Q)).1 with hQi
  refine ⟨?_, ?_⟩
  · change st.A - Qi * (Qiᵀ * st.A) = A - hcat st.Q Qi * vcat st.B (Qiᵀ * st.A)
    rw [hcat_mul_vcat, ← sub_sub, ← h1]
  · change st.sqn - fro (Qiᵀ * st.A) ^ 2 = froSq (st.A - Qi * (Qiᵀ * st.A))
    rw [froSq_sub_proj (la.qr_orth _), h2, fro_sq]

theorem orth_empty (Q : Matrix (Fin m) (Fin 0) ℝ) : Qᵀ * Q = 1 := by
  ext i; exact i.elim0

/-- `rank((I - QQ')A) = rank A - (columns of Q)` when `range Q ⊆ range A` -/
theorem rank_sub_proj {c : ℕ} {Q : Matrix (Fin m) (Fin c) ℝ} (hQ : Qᵀ * Q = 1)
    {A : Matrix (Fin m) (Fin n) ℝ} (h : colSpace Q ≤ colSpace A) :
    (A - Q * (Qᵀ * A)).rank + c = A.rank := by
  have hsup : colSpace A = colSpace Q ⊔ colSpace (A - Q * (Qᵀ * A)) := by
    apply le_antisymm
    · intro v hv
      obtain ⟨y, rfl⟩ := mem_colSpace.1 hv
      rw [Submodule.mem_sup]
      refine ⟨Q *ᵥ ((Qᵀ * A) *ᵥ y), mem_colSpace.2 ⟨_, rfl⟩, (A - Q * (Qᵀ * A)) *ᵥ y,
        mem_colSpace.2 ⟨_, rfl⟩, ?_⟩
      rw [Matrix.sub_mulVec, Matrix.mulVec_mulVec]; abel
    · apply sup_le h
      intro v hv
      obtain ⟨y, rfl⟩ := mem_colSpace.1 hv
      rw [Matrix.sub_mulVec]
      apply Submodule.sub_mem _ (mem_colSpace.2 ⟨_, rfl⟩)
      apply h
      rw [← Matrix.mulVec_mulVec]
      exact mem_colSpace.2 ⟨_, rfl⟩
  have hinf : colSpace Q ⊓ colSpace (A - Q * (Qᵀ * A)) = ⊥ := by
    rw [eq_bot_iff]
    rintro v ⟨hv1, hv2⟩
    obtain ⟨x, rfl⟩ := mem_colSpace.1 hv1
    obtain ⟨y, hy⟩ := mem_colSpace.1 hv2
    have : Qᵀ *ᵥ ((A - Q * (Qᵀ * A)) *ᵥ y) = Qᵀ *ᵥ (Q *ᵥ x) := by rw [hy]
    rw [Matrix.mulVec_mulVec, Matrix.mul_sub, ← Matrix.mul_assoc Qᵀ Q, hQ, Matrix.one_mul, sub_self,
      Matrix.zero_mulVec, Matrix.mulVec_mulVec, hQ, Matrix.one_mulVec] at this
    rw [← this]; simp
  have := Submodule.finrank_sup_add_finrank_inf_eq (colSpace Q) (colSpace (A - Q * (Qᵀ * A)))
  rw [← hsup, hinf, finrank_bot, finrank_colSpace, finrank_colSpace, finrank_colSpace,
    orthoCols_rank hQ] at this
  omega

/-- facts valid while all blocks so far had full rank inside the residual -/
def QB2Full (A : Matrix (Fin m) (Fin n) ℝ) (st : QB2St m n) : Prop :=
  st.Qᵀ * st.Q = 1 ∧ st.B = st.Qᵀ * A ∧ st.A.rank + st.c = A.rank

theorem qb2_resid_orth {A : Matrix (Fin m) (Fin n) ℝ} {st : QB2St m n} (hI : QB2Inv A st)
    (hQ : st.Qᵀ * st.Q = 1) (hB : st.B = st.Qᵀ * A) : st.Qᵀ * st.A = 0 := by
  rw [hI.1, hB, Matrix.mul_sub, ← Matrix.mul_assoc, hQ, Matrix.one_mul, sub_self]

theorem qb2Full_update (la : LinAlg) {A : Matrix (Fin m) (Fin n) ℝ} {st : QB2St m n}
    (hI : QB2Inv A st) (hF : QB2Full A st) (blk : ℕ) (out : Cols m)
    (h1 : out.mat.rank = out.c) (h2 : colSpace out.mat ≤ colSpace st.A) :
    QB2Full A (qb2Update la blk st out) := by
  obtain ⟨hQ, hB, hr⟩ := hF
  have hQA := qb2_resid_orth hI hQ hB
  have hproj : projectOut out.mat st.Q = out.mat := by
    obtain ⟨C, hC⟩ := colSpace_le_iff.1 h2
    unfold projectOut
    rw [hC, ← Matrix.mul_assoc st.Qᵀ, hQA]; simp
  have horth := la.qr_orth out.mat
  have hcs : colSpace out.mat = colSpace (la.qr out.mat).1 := by
    apply colSpace_eq_of_le_rank (qr_range la _)
    rw [h1]; omega
  have hQiA : colSpace (la.qr out.mat).1 ≤ colSpace st.A := hcs ▸ h2
  have hQQi : st.Qᵀ * (la.qr out.mat).1 = 0 := by
    obtain ⟨C, hC⟩ := colSpace_le_iff.1 hQiA
    rw [hC, ← Matrix.mul_assoc, hQA]; simp
  rw [← hproj] at horth hQiA hQQi
  set Qi := (la.qr (projectOut out.mat st.Q)).1
  have hQiQ : Qiᵀ * st.Q = 0 := by
    have := congrArg Matrix.transpose hQQi
    simpa [Matrix.transpose_mul] using this
  refine ⟨?_, ?_, ?_⟩
  · change (hcat st.Q Qi)ᵀ * hcat st.Q Qi = 1
    exact hcat_orth hQ horth hQQi
  · change vcat st.B (Qiᵀ * st.A) = (hcat st.Q Qi)ᵀ * A
    rw [hcat_transpose, vcat_mul, hB]
    congr 1
    rw [hI.1, Matrix.mul_sub, ← Matrix.mul_assoc, hQiQ]; simp
  · change (st.A - Qi * (Qiᵀ * st.A)).rank + (st.c + min m out.c) = A.rank
    have := rank_sub_proj horth hQiA
    omega

/-- once the residual's range is covered the residual is zero -/
theorem qb2Zero_update (la : LinAlg) {A : Matrix (Fin m) (Fin n) ℝ} {st : QB2St m n}
    (hI : QB2Inv A st) (hQ : st.Qᵀ * st.Q = 1) (hB : st.B = st.Qᵀ * A) (blk : ℕ) (out : Cols m)
    (h : colSpace st.A ≤ colSpace out.mat) : (qb2Update la blk st out).A = 0 := by
  have hQA := qb2_resid_orth hI hQ hB
  obtain ⟨C, hC⟩ := colSpace_le_iff.1 h
  have e : st.A = projectOut out.mat st.Q * C := by
    unfold projectOut
    rw [Matrix.sub_mul, ← hC, Matrix.mul_assoc, Matrix.mul_assoc, ← hC, hQA]; simp
  have hle : colSpace st.A ≤ colSpace (la.qr (projectOut out.mat st.Q)).1 :=
    le_trans (colSpace_le_iff.2 ⟨C, e⟩) (qr_range la _)
  change st.A - _ * (_ᵀ * st.A) = 0
  rw [proj_fix (la.qr_orth _) hle, sub_self]

theorem qb2Zero_stays (la : LinAlg) {st : QB2St m n} (h : st.A = 0) (blk : ℕ) (out : Cols m) :
    (qb2Update la blk st out).A = 0 := by
  simp [qb2Update, h]

theorem rank_eq_zero_iff' {M : Matrix (Fin m) (Fin n) ℝ} : M.rank = 0 ↔ M = 0 := by
  constructor
  · intro h
    have : colSpace M = ⊥ := by
      rw [← finrank_colSpace] at h
      exact Submodule.finrank_eq_zero.1 h
    ext i j
    have hmem : M *ᵥ Pi.single j 1 ∈ colSpace M := mem_colSpace.2 ⟨_, rfl⟩
    rw [this, Submodule.mem_bot] at hmem
    have := congrFun hmem i
    simpa using this
  · rintro rfl; exact Matrix.rank_zero

end Parla
