import Verif.Props.QB2
import Verif.Base.LinAlgExists
import Verif.Proof.QB3

/-! # C06 / C07: when RF1 captures what it can, and the refutation of unconditional orthonormality -/

namespace Parla.Props

open Matrix Parla Spec

variable {G : Type} {m n : ℕ}

/-! ### Power iteration loses no rank -/

theorem gram_mulVec_eq_zero (A : Matrix (Fin m) (Fin n) ℝ) (v : Fin n → ℝ)
    (h : (Aᵀ * A) *ᵥ v = 0) : A *ᵥ v = 0 := by
  have h1 : v ⬝ᵥ ((Aᵀ * A) *ᵥ v) = 0 := by rw [h]; simp
  rw [← Matrix.mulVec_mulVec, Matrix.dotProduct_mulVec, Matrix.vecMul_transpose] at h1
  exact dotProduct_self_eq_zero.1 h1

theorem power_mulVec_eq_zero (A : Matrix (Fin m) (Fin n) ℝ) (q : ℕ) (v : Fin n → ℝ) :
    A *ᵥ ((Aᵀ * A) ^ q *ᵥ v) = 0 ↔ A *ᵥ v = 0 := by
  induction q with
  | zero => simp
  | succ q ih =>
    rw [← ih]
    constructor
    · intro h
      rw [pow_succ', ← Matrix.mulVec_mulVec, ← Matrix.mulVec_mulVec, Matrix.mulVec_mulVec] at h
      -- `A A' u = 0` with `u = A (A'A)^q v`
      have h2 : (Aᵀᵀ * Aᵀ) *ᵥ (A *ᵥ ((Aᵀ * A) ^ q *ᵥ v)) = 0 := by
        rw [transpose_transpose]; exact h
      have h3 := gram_mulVec_eq_zero Aᵀ _ h2
      rw [Matrix.mulVec_mulVec] at h3
      exact gram_mulVec_eq_zero A _ h3
    · intro h
      rw [pow_succ', ← Matrix.mulVec_mulVec, ← Matrix.mulVec_mulVec, h]; simp

theorem rank_eq_of_ker {a b c : ℕ} {M : Matrix (Fin a) (Fin c) ℝ} {N : Matrix (Fin b) (Fin c) ℝ}
    (h : ∀ x, M *ᵥ x = 0 ↔ N *ᵥ x = 0) : M.rank = N.rank := by
  have hk : LinearMap.ker M.mulVecLin = LinearMap.ker N.mulVecLin := by
    ext x; simp [LinearMap.mem_ker, h x]
  have h1 := LinearMap.finrank_range_add_finrank_ker M.mulVecLin
  have h2 := LinearMap.finrank_range_add_finrank_ker N.mulVecLin
  rw [hk] at h1
  have e1 : M.rank = Module.finrank ℝ (LinearMap.range M.mulVecLin) := rfl
  have e2 : N.rank = Module.finrank ℝ (LinearMap.range N.mulVecLin) := rfl
  omega

/-- `rank(A (A'A)^q S) = rank(A S)` -/
theorem rank_power_even (A : Matrix (Fin m) (Fin n) ℝ) (q : ℕ) {c : ℕ}
    (S : Matrix (Fin n) (Fin c) ℝ) : (A * ((Aᵀ * A) ^ q * S)).rank = (A * S).rank := by
  apply rank_eq_of_ker
  intro x
  rw [← Matrix.mulVec_mulVec, ← Matrix.mulVec_mulVec, ← Matrix.mulVec_mulVec,
    power_mulVec_eq_zero]

/-- `rank(A (A'A)^q A'S) = rank(A'S)` -/
theorem rank_power_odd (A : Matrix (Fin m) (Fin n) ℝ) (q : ℕ) {c : ℕ}
    (S : Matrix (Fin m) (Fin c) ℝ) : (A * ((Aᵀ * A) ^ q * (Aᵀ * S))).rank = (Aᵀ * S).rank := by
  rw [rank_power_even]
  apply rank_eq_of_ker
  intro x
  rw [← Matrix.mulVec_mulVec, ← Matrix.mulVec_mulVec]
  constructor
  · intro h
    exact gram_mulVec_eq_zero Aᵀ _ (by rw [transpose_transpose, ← Matrix.mulVec_mulVec]; exact h)
  · intro h; rw [h]; simp

/-- The start drawn by the power iteration is *generic* for `A`: its product with `A` (even pass
count) or with `A'` (odd pass count) has the largest rank its width allows. -/
def GenericDraw (gen : SkOpGen G) (p : ℤ) (A : Matrix (Fin m) (Fin n) ℝ) (b : ℕ) (w : World G) :
    Prop :=
  (p % 2 = 0 → ∀ S0 w₁, gen n b w = .ok (S0, w₁) → (A * S0).rank = min b A.rank) ∧
  (p % 2 = 1 → ∀ S0 w₁, gen m b w = .ok (S0, w₁) → (Aᵀ * S0).rank = min b A.rank)

/-- **C07** (when the hypothesis holds).  RF1 over a power-iteration sketcher with any number of
passes captures as much of the range as its block size allows, whenever the drawn start is
generic for the matrix it was called with. -/
theorem C07_rf1_captures (la : LinAlg) (gen : SkOpGen G) (p : ℤ) (stab : Stab)
    (hs : stab = orth la ∨ stab = luStabilize la) (pps : ℕ) (A : Matrix (Fin m) (Fin n) ℝ) (b : ℕ)
    (w w' : World G) (Q : Cols m) (h : rf1Call la (RS1 gen p stab pps) A b .nan w = .ok (Q, w'))
    (hg : GenericDraw gen p A b w) : Captures ⟨A, b, Q⟩ := by
  have hk : 0 < b := by
    by_contra hk
    unfold rf1Call at h
    rw [Py.assert_neg_bind (by omega)] at h; cases h
  unfold rf1Call at h
  rw [Py.assert_pos_bind (show (b : ℤ) > 0 by omega)] at h
  have hb : b ≤ min m n := by
    by_contra hb
    rw [Py.assert_neg_bind (by omega)] at h; cases h
  rw [Py.assert_pos_bind (show (b : ℤ) ≤ (min m n : ℕ) by omega)] at h
  simp only [Tol.isNaN_nan, not_true_eq_false, if_false] at h
  rw [Py.bind_ok_iff] at h
  obtain ⟨S, w1, hS1, h⟩ := h
  simp [passA, Py.bind_apply] at h
  obtain ⟨rfl, rfl⟩ := h
  have hS1' : rs1Call gen p stab pps A b w = .ok (S, w1) := by simpa [RS1] using hS1
  have hSb : S.c = b := rs1Call_width_eq
    (by rcases hs with rfl | rfl <;> exact fun _ _ => rfl) hb hS1'
  have hrank : min b A.rank ≤ (A * S.mat).rank := by
    obtain ⟨he, ho⟩ := C02_rs1_range_parla la gen p stab hs pps A b w w1 S hS1'
    rcases Int.emod_two_eq_zero_or_one p with hp | hp
    · obtain ⟨S0, ⟨w2, hd⟩, hle, -⟩ := he hp
      rw [← hg.1 hp S0 w2 hd, ← rank_power_even A (p / 2).toNat S0]
      exact Submodule.finrank_mono (colSpace_mul_mono A hle)
    · obtain ⟨S0, ⟨w2, hd⟩, hle, -⟩ := ho hp
      rw [← hg.2 hp S0 w2 hd, ← rank_power_odd A ((p - 1) / 2).toNat S0]
      exact Submodule.finrank_mono (colSpace_mul_mono A hle)
  rcases le_total b A.rank with hbr | hbr
  · left
    refine ⟨orthoCols_rank (la.qr_orth _), ?_⟩
    have hcs : colSpace (A * S.mat) = colSpace (la.qr (A * S.mat)).1 := by
      apply colSpace_eq_of_le_rank (qr_range la _)
      omega
    change colSpace (la.qr (A * S.mat)).1 ≤ colSpace A
    rw [← hcs]; exact colSpace_mul_le _ _
  · right
    have hcs : colSpace (A * S.mat) = colSpace A := by
      apply Submodule.eq_of_le_of_finrank_le (colSpace_mul_le _ _)
      rw [finrank_colSpace, finrank_colSpace]; omega
    change colSpace A ≤ colSpace (la.qr (A * S.mat)).1
    rw [← hcs]; exact qr_range la _

/-! ### Refutation of unconditional orthonormality -/

theorem qr_colSpace_of_orth (la : LinAlg) {c : ℕ} {X : Matrix (Fin m) (Fin c) ℝ}
    (hX : Xᵀ * X = 1) : colSpace (la.qr X).1 = colSpace X := by
  symm
  apply colSpace_eq_of_le_rank (qr_range la _)
  rw [orthoCols_rank hX]; omega

theorem qr_zero_colSpace (la : LinAlg) {c : ℕ} (hc : c = 1) :
    colSpace (la.qr (0 : Matrix (Fin m) (Fin c) ℝ)).1 =
      colSpace (la.qr (0 : Matrix (Fin m) (Fin 1) ℝ)).1 := by
  subst hc; rfl

theorem rf1_zero_pass (la : LinAlg) (gen : SkOpGen G) (stab : Stab) (pps : ℕ)
    (A : Matrix (Fin m) (Fin n) ℝ) (hmn : 0 < min m n) (w w₁ : World G)
    (S : Matrix (Fin n) (Fin 1) ℝ) (h : gen n 1 w = .ok (S, w₁)) :
    RF1 la (RS1 gen 0 stab pps) m n A ((1 : ℕ) : ℤ) .nan w =
      .ok (⟨_, (la.qr (A * S)).1⟩, { w₁ with trace := w₁.trace ++ [.mulA] }) := by
  unfold RF1 rf1Call
  rw [Py.assert_pos_bind (by norm_num), Py.assert_pos_bind (by omega)]
  simp only [Tol.isNaN_nan, not_true_eq_false, if_false]
  have : RS1 gen 0 stab pps m n A ((1 : ℕ) : ℤ).toNat w = .ok (⟨1, S⟩, w₁) := by
    unfold RS1 rs1Call
    rw [Py.assert_pos_bind (by norm_num)]
    simp only [Int.zero_emod, if_true]
    have h' : gen n ((1 : ℕ) : ℤ).toNat w = .ok (S, w₁) := h
    rw [Py.bind_eq_of_ok h']
    simp [rs1Loop]
  rw [Py.bind_eq_of_ok this]
  rfl

/-- **C06** (refutation).  The documented orthonormality fails for every backend and every size
`n ≥ 2`: let `v` be the unit vector the backend's QR returns for a zero column.  For the rank-one
matrix `A = v v'`, RF1 with Gaussian-like starts (all that is used: each draw `S` has `v'S ≠ 0`),
`k = 2`, `blk = 1` and no tolerance, every rangefinder call captures all it can and QB2 returns two
parallel columns. -/
theorem C06_qb2_not_orthonormal (la : LinAlg) (gen : SkOpGen G) (stab : Stab) (pps : ℕ) (n : ℕ)
    (hn : 2 ≤ n) (w : World G)
    (hgen : ∀ w : World G, ∃ S w', gen n 1 w = .ok (S, w') ∧
      (la.qr (0 : Matrix (Fin n) (Fin 1) ℝ)).1ᵀ * S ≠ 0) :
    ∃ (A : Matrix (Fin n) (Fin n) ℝ) (st : QB2St n n) (w' : World G),
      qb2Run la (RF1 la (RS1 gen 0 stab pps)) 1 A 2 .nan w = .ok (st, w') ∧
      (∀ x ∈ st.calls, Captures x) ∧ st.c = 2 ∧ st.Q.rank = 1 ∧ ¬ OrthoCols st.Q ∧
      st.Q * st.B = A := by
  set v := (la.qr (0 : Matrix (Fin n) (Fin 1) ℝ)).1 with hv
  have hvo : vᵀ * v = 1 := la.qr_orth _
  have hmin : min n 1 = 1 := by omega
  have hvr : v.rank = 1 := by rw [orthoCols_rank hvo]; exact hmin
  obtain ⟨S1, w1, hg1, hS1⟩ := hgen w
  obtain ⟨S2, w2, hg2, -⟩ := hgen { w1 with trace := w1.trace ++ [.mulA] ++ [.mulAT] }
  set A := v * vᵀ with hA
  have hAle : colSpace A ≤ colSpace v := colSpace_mul_le _ _
  have hAS : A * S1 ≠ 0 := by
    intro h
    apply hS1
    have : vᵀ * (A * S1) = vᵀ * S1 := by
      rw [hA, Matrix.mul_assoc, ← Matrix.mul_assoc vᵀ, hvo, Matrix.one_mul]
    rw [← this, h, Matrix.mul_zero]
  have hASr : 1 ≤ (A * S1).rank := by
    rw [Nat.one_le_iff_ne_zero]; exact fun h => hAS (rank_eq_zero_iff'.1 h)
  have hASv : colSpace (A * S1) = colSpace v :=
    Submodule.eq_of_le_of_finrank_le ((colSpace_mul_le _ _).trans hAle) (by
      rw [finrank_colSpace, finrank_colSpace, hvr]; exact hASr)
  -- first block
  set O1 := (la.qr (A * S1)).1 with hO1
  have hO1o : O1ᵀ * O1 = 1 := la.qr_orth _
  have hO1v : colSpace O1 = colSpace v := by
    rw [← hASv]; symm
    apply colSpace_eq_of_le_rank (qr_range la _)
    omega
  set st1 := qb2Update la 1 (qb2Init A 1) ⟨_, O1⟩ with hst1
  have hp1 : projectOut O1 (0 : Matrix (Fin n) (Fin 0) ℝ) = O1 := by
    unfold projectOut; simp
  have hcsQ1 : colSpace st1.Q = colSpace v := by
    change colSpace (hcat (0 : Matrix (Fin n) (Fin 0) ℝ)
      (la.qr (projectOut O1 (0 : Matrix (Fin n) (Fin 0) ℝ))).1) = colSpace v
    rw [colSpace_hcat, hp1, qr_colSpace_of_orth la hO1o, hO1v]
    apply sup_eq_right.2
    intro x hx
    obtain ⟨y, rfl⟩ := mem_colSpace.1 hx
    simp
  have hQ1o : st1.Qᵀ * st1.Q = 1 :=
    hcat_orth (A := (0 : Matrix (Fin n) (Fin 0) ℝ))
      (B := (la.qr (projectOut O1 (0 : Matrix (Fin n) (Fin 0) ℝ))).1)
      (orth_empty _) (la.qr_orth _) (by simp)
  have hA1 : st1.A = 0 := by
    change A - (la.qr (projectOut O1 (0 : Matrix (Fin n) (Fin 0) ℝ))).1 *
      ((la.qr (projectOut O1 (0 : Matrix (Fin n) (Fin 0) ℝ))).1ᵀ * A) = 0
    rw [proj_fix (la.qr_orth _), sub_self]
    rw [hp1, qr_colSpace_of_orth la hO1o, hO1v]
    exact hAle
  have hc1 : st1.c = 1 := by
    change 0 + min n (min n 1) = 1; omega
  -- second block
  have hO2 : (la.qr (st1.A * S2)).1 = v := by rw [hA1, Matrix.zero_mul]
  set st2 := qb2Update la 1 st1 ⟨_, (la.qr (st1.A * S2)).1⟩ with hst2
  have hp2 : projectOut (la.qr (st1.A * S2)).1 st1.Q = 0 := by
    rw [hO2]
    unfold projectOut
    rw [proj_fix hQ1o hcsQ1.ge, sub_self]
  have hQ2 : colSpace st2.Q = colSpace v := by
    change colSpace (hcat st1.Q (la.qr (projectOut (la.qr (st1.A * S2)).1 st1.Q)).1) = _
    rw [colSpace_hcat, hcsQ1, hp2, qr_zero_colSpace la hmin, sup_idem]
  have hr2 : st2.Q.rank = 1 := by
    rw [← finrank_colSpace, hQ2, finrank_colSpace, hvr]
  have hc2 : st2.c = 2 := by
    change st1.c + min n (min n 1) = 2; omega
  have hrun : qb2Run la (RF1 la (RS1 gen 0 stab pps)) 1 A 2 .nan w =
      .ok (st2, { w2 with trace := w2.trace ++ [.mulA] ++ [.mulAT] }) := by
    rw [qb2Run_open w (by norm_num), if_pos (by omega)]
    have hck : clampK 2 n n = 2 := by unfold clampK; omega
    rw [hck]
    have hb1 : qb2Blk 2 (qb2Init A 1).c (qb2Init A 1).blk = 1 := by
      change qb2Blk 2 0 1 = 1; rfl
    have hb2 : qb2Blk 2 st1.c st1.blk = 1 := by
      rw [hc1]; change qb2Blk 2 1 1 = 1; rfl
    unfold qb2Loop
    simp only [hb1]
    rw [Py.bind_eq_of_ok (qb2Draw_of_ok (rf1_zero_pass la gen stab pps _ (by omega) _ _ S1 hg1))]
    rw [if_neg (fun h => Tol.not_use_nan h.1), if_neg (by
      change ¬ st1.c ≥ 2; omega)]
    change qb2Loop la _ 2 _ _ 2 st1 _ = _
    unfold qb2Loop
    simp only [hb2]
    rw [Py.bind_eq_of_ok (qb2Draw_of_ok (rf1_zero_pass la gen stab pps _ (by omega) _ _ S2 hg2))]
    rw [if_neg (fun h => Tol.not_use_nan h.1), if_pos (by
      change st2.c ≥ 2; omega)]
    rfl
  refine ⟨A, st2, _, hrun, ?_, hc2, hr2, ?_, ?_⟩
  · intro x hx
    change x ∈ ([] ++ [_]) ++ [_] at hx
    simp only [List.nil_append, List.mem_append, List.mem_singleton] at hx
    rcases hx with rfl | rfl
    · exact Or.inr (by change colSpace A ≤ colSpace O1; rw [hO1v]; exact hAle)
    · refine Or.inr ?_
      change colSpace st1.A ≤ _
      rw [hA1]
      intro x hx
      obtain ⟨y, rfl⟩ := mem_colSpace.1 hx
      simp
  · intro ho
    have := orthoCols_rank ho
    omega
  · have hI := qb2Inv_update la (qb2Inv_update la (qb2Inv_init A 1) 1 ⟨_, O1⟩) 1
      ⟨_, (la.qr (st1.A * S2)).1⟩
    have h1 : st2.A = A - st2.Q * st2.B := hI.1
    have h2 : st2.A = 0 := qb2Zero_stays la hA1 _ _
    rw [h2] at h1
    exact (sub_eq_zero.1 h1.symm).symm

-- the hypotheses of C06_qb2_not_orthonormal are met for every backend
example (la : LinAlg) (n : ℕ) (hn : 2 ≤ n) : ∃ gen : SkOpGen ℕ, ∀ w : World ℕ, ∃ S w',
    gen n 1 w = .ok (S, w') ∧ (la.qr (0 : Matrix (Fin n) (Fin 1) ℝ)).1ᵀ * S ≠ 0 := by
  set v := (la.qr (0 : Matrix (Fin n) (Fin 1) ℝ)).1 with hv
  have hvo : vᵀ * v = 1 := la.qr_orth _
  have hpos : 0 < min n 1 := by omega
  refine ⟨fun r c => pure (Matrix.of fun i _ =>
    if h : i.1 < n then v ⟨i.1, h⟩ ⟨0, hpos⟩ else 0), fun w => ⟨_, w, rfl, fun h => ?_⟩⟩
  have h1 := congrFun (congrFun hvo ⟨0, hpos⟩) ⟨0, hpos⟩
  have h2 := congrFun (congrFun h ⟨0, hpos⟩) 0
  simp [Matrix.mul_apply] at h1 h2
  rw [h1] at h2
  norm_num at h2

end Parla.Props
