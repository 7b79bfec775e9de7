import Verif.Proof.SvdUnique
import Verif.Props.AlmostSureBlocks
import Verif.Base.LinAlgExists

/-! # C87, low rank part: the approximations returned do not depend on the linear algebra backend

An orthonormal basis is not determined by its range, so `Q`, `B`, `U`, `Vh` may differ from one backend to another
(another sign convention in QR, for one).  What they are used for does not: the projector `QQ'`, the product `QB`, the
singular values, the truncated product `U diag(s) Vh`, the number of columns, the passes over `A`, the warnings and the
state of the generator afterwards. -/

namespace Parla.Props

open Matrix Parla Spec MeasureTheory Proof

variable {G : Type} {m n : ℕ}

/-! ## the world after a sketch does not depend on the stabiliser -/

theorem maybeStab_world (stab stab' : Stab) (pps done : ℕ) {r : ℕ} (S S' : Cols r) (w w' : World G) (T : Cols r)
    (h : maybeStab stab pps done S w = .ok (T, w')) : ∃ T', maybeStab stab' pps done S' w = .ok (T', w') := by
  unfold maybeStab at h ⊢
  split at h
  · cases h
  · rename_i h0
    rw [if_neg h0]
    split at h
    · rename_i h1
      rw [if_pos h1]
      cases h
      exact ⟨_, rfl⟩
    · rename_i h1
      rw [if_neg h1]
      cases h
      exact ⟨_, rfl⟩

theorem rs1Loop_world (stab stab' : Stab) (pps : ℕ) (A : Matrix (Fin m) (Fin n) ℝ) (q done : ℕ) (S S' T : Cols n)
    (w w' : World G) (h : rs1Loop stab pps A q done S w = .ok (T, w')) :
    ∃ T', rs1Loop stab' pps A q done S' w = .ok (T', w') := by
  induction q generalizing done S S' w with
  | zero => cases h; exact ⟨_, rfl⟩
  | succ q ih =>
    unfold rs1Loop at h ⊢
    simp only [passA, passAT, Py.bind_apply, Py.emit_apply, Py.pure_apply] at h ⊢
    split at h
    · rename_i T1 w1 h1
      obtain ⟨T1', h1'⟩ := maybeStab_world stab stab' pps _ _ ⟨S'.c, A * S'.mat⟩ _ _ _ h1
      rw [h1']
      simp only at h ⊢
      split at h
      · rename_i T2 w2 h2
        obtain ⟨T2', h2'⟩ := maybeStab_world stab stab' pps _ _ ⟨T1'.c, Aᵀ * T1'.mat⟩ _ _ _ h2
        rw [h2']
        exact ih _ _ _ _ h
      · cases h
    · cases h

theorem rs1Call_world (gen : SkOpGen G) (p : ℤ) (stab stab' : Stab) (pps : ℕ) (A : Matrix (Fin m) (Fin n) ℝ) (k : ℕ)
    (w w' : World G) (S : Cols n) (h : rs1Call gen p stab pps A k w = .ok (S, w')) :
    ∃ S', rs1Call gen p stab' pps A k w = .ok (S', w') := by
  obtain ⟨hp, ⟨hev, S0, w1, h1, h2⟩ | ⟨hev, S0, w1, S1, w2, h1, h2, h3⟩⟩ := rs1Call_open h
  all_goals unfold rs1Call; rw [Py.assert_pos_bind hp]
  · rw [if_pos hev, Py.bind_eq_of_ok h1, sub_zero]
    exact rs1Loop_world stab stab' pps A _ _ _ _ _ _ _ h2
  · rw [if_neg hev, Py.bind_eq_of_ok h1]
    obtain ⟨T, hT⟩ : ∃ T, (if pps = 1 then callStab stab' (⟨k, Aᵀ * S0⟩ : Cols n) else pure ⟨k, Aᵀ * S0⟩)
        { w1 with trace := w1.trace ++ [.mulAT] } = .ok (T, w2) := by
      split at h2
      · rename_i hp1; rw [if_pos hp1]; cases h2; exact ⟨_, rfl⟩
      · rename_i hp1; rw [if_neg hp1]; cases h2; exact ⟨_, rfl⟩
    have hp : passAT A ⟨k, S0⟩ w1 = .ok (⟨k, Aᵀ * S0⟩, { w1 with trace := w1.trace ++ [.mulAT] }) := rfl
    rw [Py.bind_eq_of_ok hp, Py.bind_eq_of_ok hT]
    exact rs1Loop_world stab stab' pps A _ _ _ _ _ _ _ h3

/-- opening a rangefinder call -/
theorem rf1Call_ok_iff (la : LinAlg) (rso : RowSketcher G) (A : Matrix (Fin m) (Fin n) ℝ) (k : ℤ) (tol : Tol)
    (w w' : World G) (Q : Cols m) : rf1Call la rso A k tol w = .ok (Q, w') ↔
      0 < k ∧ k ≤ (min m n : ℕ) ∧ ∃ S w1, rso m n A k.toNat (afterTolWarning tol w) = .ok (S, w1) ∧
        Q = ⟨_, (la.qr (A * S.mat)).1⟩ ∧ w' = { w1 with trace := w1.trace ++ [.mulA] } := by
  by_cases hk : 0 < k
  swap
  · constructor
    · intro h; unfold rf1Call at h; rw [Py.assert_neg_bind (by omega)] at h; cases h
    · rintro ⟨h, -⟩; exact absurd h hk
  by_cases hk' : k ≤ (min m n : ℕ)
  swap
  · constructor
    · intro h; unfold rf1Call at h; rw [Py.assert_pos_bind hk, Py.assert_neg_bind hk'] at h; cases h
    · rintro ⟨-, h, -⟩; exact absurd h hk'
  have key : rf1Call la rso A k tol w = (rso m n A k.toNat >>= fun S => do
      let Y ← passA A S
      pure (⟨_, (la.qr Y.mat).1⟩ : Cols m)) (afterTolWarning tol w) := by
    unfold rf1Call afterTolWarning
    rw [Py.assert_pos_bind hk, Py.assert_pos_bind hk']
    by_cases ht : tol.isNaN
    · rw [if_neg (not_not.2 ht), if_pos ht]
    · rw [if_pos ht, if_neg ht]; rfl
  rw [key, Py.bind_ok_iff]
  constructor
  · rintro ⟨S, w1, h1, h2⟩
    cases h2
    exact ⟨hk, hk', S, w1, h1, rfl, rfl⟩
  · rintro ⟨-, -, S, w1, h1, rfl, rfl⟩
    exact ⟨S, w1, h1, rfl⟩

theorem rf1Call_world (la la' : LinAlg) (gen : SkOpGen G) (p : ℤ) (stab stab' : Stab) (pps : ℕ)
    (A : Matrix (Fin m) (Fin n) ℝ) (k : ℤ) (tol : Tol) (w w' : World G) (Q : Cols m)
    (h : rf1Call la (RS1 gen p stab pps) A k tol w = .ok (Q, w')) :
    ∃ Q', rf1Call la' (RS1 gen p stab' pps) A k tol w = .ok (Q', w') := by
  rw [rf1Call_ok_iff] at h
  obtain ⟨hk, hk', S, w1, h1, -, hw⟩ := h
  obtain ⟨S', h1'⟩ := rs1Call_world gen p stab stab' pps A _ _ _ _ h1
  exact ⟨_, (rf1Call_ok_iff la' _ A k tol w w' _).2 ⟨hk, hk', S', w1, h1', rfl, hw⟩⟩

/-! ## one block -/

/-- Two orthonormal bases that capture the same sketch of `A`, with as many columns as the sketch has. -/
theorem same_block {r b : ℕ} {A : Matrix (Fin m) (Fin n) ℝ} {L : Matrix (Fin m) (Fin r) ℝ} {Z : Matrix (Fin r) (Fin b) ℝ}
    (hle : colSpace L ≤ colSpace A) (hg : (L * Z).rank = min b A.rank) {Q Q' : Cols m} (hc : Q.c = b) (hc' : Q'.c = b)
    (ho : OrthoCols Q.mat) (ho' : OrthoCols Q'.mat) (h : colSpace (L * Z) ≤ colSpace Q.mat)
    (h' : colSpace (L * Z) ≤ colSpace Q'.mat) :
    Q.mat * Q.matᵀ * A = Q'.mat * Q'.matᵀ * A ∧ (b ≤ A.rank → Q.mat * Q.matᵀ = Q'.mat * Q'.matᵀ) := by
  rcases le_or_gt b A.rank with hb | hb
  · rw [min_eq_left hb] at hg
    have hu : IsUnit ((L * Z)ᵀ * (L * Z)).det := FullColRank.gram_unit hg
    have e1 := proj_unique ho hu (colSpace_eq_of_le_rank h (by omega)).symm
    have e2 := proj_unique ho' hu (colSpace_eq_of_le_rank h' (by omega)).symm
    exact ⟨by rw [e1, e2], fun _ => by rw [e1, e2]⟩
  · rw [min_eq_right hb.le] at hg
    have hcs : colSpace (L * Z) = colSpace A :=
      Submodule.eq_of_le_of_finrank_le ((colSpace_mul_le _ _).trans hle)
        (by rw [finrank_colSpace, finrank_colSpace]; omega)
    rw [hcs] at h h'
    refine ⟨?_, fun hb' => by omega⟩
    rw [Matrix.mul_assoc, Matrix.mul_assoc, proj_fix ho h, proj_fix ho' h']

/-- one rangefinder call, two backends -/
theorem rf_two {p : ℤ} (hp : 0 ≤ p) {r : ℕ} {L : Matrix (Fin m) (Fin n) ℝ → Matrix (Fin m) (Fin r) ℝ}
    (hL : PowMap p L) (la la' : LinAlg) (R : NpRng G) (A : Matrix (Fin m) (Fin n) ℝ) {b : ℕ} (hb : 0 < b)
    (hb' : b ≤ min m n) (w : World G) {Z : Fin r × Fin b → ℝ}
    (hZ : (R.standardNormal r b w.rng).1 = drawMat Z) :
    ∃ Q Q' w', RF1 la (RS1 (gaussianOperator R true) p (orth la) 1) m n A (b : ℤ) .nan w = .ok (Q, w') ∧
      RF1 la' (RS1 (gaussianOperator R true) p (orth la') 1) m n A (b : ℤ) .nan w = .ok (Q', w') ∧
      w'.rng = (R.standardNormal r b w.rng).2 ∧ Q.c = b ∧ Q'.c = b ∧ OrthoCols Q.mat ∧ OrthoCols Q'.mat ∧
      colSpace (L A * drawMat Z) ≤ colSpace Q.mat ∧ colSpace (L A * drawMat Z) ≤ colSpace Q'.mat := by
  obtain ⟨Q, w1, h1, h2, h3, h4, h5⟩ := rf_step hp hL la R A hb hb' w hZ
  obtain ⟨Q', w1', h1', h2', h3', h4', h5'⟩ := rf_step hp hL la' R A hb hb' w hZ
  obtain ⟨Q'', h6⟩ := rf1Call_world la la' _ p (orth la) (orth la') 1 A b .nan w w1 Q h1
  have h7 : rf1Call la' (RS1 (gaussianOperator R true) p (orth la') 1) A (b : ℤ) .nan w = .ok (Q', w1') := h1'
  rw [h6] at h7
  cases h7
  exact ⟨Q, Q', w1, h1, h1', h2, h3, h3', h4, h4', h5, h5'⟩

/-- **C87** (`rf1`).  For almost every Gaussian draw, any two backends leave the same state, and their bases have the
same number of columns and the same projection `QQ'A` of the data - the same range if `k ≤ rank(A)`. -/
theorem C87_rf1 (A : Matrix (Fin m) (Fin n) ℝ) (k : ℕ) (hk : 0 < k) (hk' : k ≤ min m n) (p : ℤ) (hp : 1 ≤ p) :
    ∀ᵐ Z ∂(normals (startRows (p - 1) m n) k), ∀ (G : Type) (la la' : LinAlg) (R : NpRng G) (w : World G),
      NextNormal R w _ _ Z →
      ∃ Q Q' w', rf1 la (gaussianOperator R true) A k p w = .ok (Q, w') ∧
        rf1 la' (gaussianOperator R true) A k p w = .ok (Q', w') ∧ Q.c = k ∧ Q'.c = k ∧
        Q.mat * Q.matᵀ * A = Q'.mat * Q'.matᵀ * A ∧
        (k ≤ A.rank → Q.mat * Q.matᵀ = Q'.mat * Q'.matᵀ) := by
  obtain ⟨L, hL⟩ := exists_powMap (m := m) (n := n) (p - 1)
  filter_upwards [Proof.ae_rank_mul (μ := stdNormal) (L A) k] with Z hZ G la la' R w hw
  rw [hL.rank] at hZ
  obtain ⟨Q, Q', w', h1, h2, -, h3, h4, h5, h6, h7, h8⟩ := rf_two (by omega) hL la la' R A hk hk'
    (afterTolWarning (.val 0) w) hw
  have tr : ∀ (la : LinAlg) (Q : Cols m), RF1 la (RS1 (gaussianOperator R true) (p - 1) (orth la) 1) m n A (k : ℤ) .nan
      (afterTolWarning (.val 0) w) = .ok (Q, w') → rf1 la (gaussianOperator R true) A k p w = .ok (Q, w') := by
    intro la Q h
    have h' := (rf1Call_ok_iff la _ A k _ _ _ _).1 h
    exact (rf1Call_ok_iff la _ A k _ _ _ _).2 h'
  obtain ⟨e1, e2⟩ := same_block (hL.le A) hZ h3 h4 h5 h6 h7 h8
  exact ⟨Q, Q', w', tr la Q h1, tr la' Q' h2, h3, h4, e1, e2⟩

/-- **C87** (`qb`).  For almost every Gaussian draw, any two backends leave the same state and return the same
product `QB`, with the same number of columns. -/
theorem C87_qb (A : Matrix (Fin m) (Fin n) ℝ) (k : ℕ) (hk : 0 < k) (hk' : k ≤ min m n) (p : ℤ) (hp : 2 ≤ p) :
    ∀ᵐ Z ∂(normals (startRows (p - 2) m n) k), ∀ (G : Type) (la la' : LinAlg) (R : NpRng G) (w : World G),
      NextNormal R w _ _ Z →
      ∃ out out' w', qb la (gaussianOperator R true) p A k w = .ok (out, w') ∧
        qb la' (gaussianOperator R true) p A k w = .ok (out', w') ∧ out.c = k ∧ out'.c = k ∧
        out.Q * out.B = out'.Q * out'.B ∧ (k ≤ A.rank → out.Q * out.Qᵀ = out'.Q * out'.Qᵀ) := by
  obtain ⟨L, hL⟩ := exists_powMap (m := m) (n := n) (p - 2)
  filter_upwards [Proof.ae_rank_mul (μ := stdNormal) (L A) k] with Z hZ G la la' R w hw
  rw [hL.rank] at hZ
  obtain ⟨Q, Q', w', h1, h2, -, h3, h4, h5, h6, h7, h8⟩ := rf_two (by omega) hL la la' R A hk hk' w hw
  obtain ⟨e1, e2⟩ := same_block (hL.le A) hZ h3 h4 h5 h6 h7 h8
  have tr : ∀ (la : LinAlg) (Q : Cols m), RF1 la (RS1 (gaussianOperator R true) (p - 2) (orth la) 1) m n A (k : ℤ) .nan
      w = .ok (Q, w') → qb la (gaussianOperator R true) p A k w =
        .ok (⟨Q.c, Q.mat, Q.matᵀ * A⟩, { w' with trace := w'.trace ++ [.mulAT] }) := by
    intro la Q h
    obtain ⟨out, g1, rfl, -⟩ := C04_qb1 _ A k .nan w _ _ (by exact_mod_cast hk) (by exact_mod_cast hk') trivial h
    exact g1
  refine ⟨_, _, _, tr la Q h1, tr la' Q' h2, h3, h4, ?_, e2⟩
  change Q.mat * (Q.matᵀ * A) = Q'.mat * (Q'.matᵀ * A)
  rw [← Matrix.mul_assoc, ← Matrix.mul_assoc, e1]

/-! ## QB2 -/

theorem qb2Loop_step (la : LinAlg) (rf : RangeFinder G) (K : ℕ) (useTol : Prop) (tl : ℝ) (fuel : ℕ) (st : QB2St m n)
    (w : World G) {b : ℕ} (hb : qb2Blk K st.c st.blk = b) {out : Cols m} {w1 : World G}
    (h : rf m n st.A b .nan w = .ok (out, w1)) :
    ((useTol ∧ (qb2Update la b st out).sqn ≤ tl) ∨ (qb2Update la b st out).c ≥ K →
      qb2Loop la rf K useTol tl (fuel + 1) st w =
        .ok (qb2Update la b st out, { w1 with trace := w1.trace ++ [.mulAT] })) ∧
    (¬ ((useTol ∧ (qb2Update la b st out).sqn ≤ tl) ∨ (qb2Update la b st out).c ≥ K) →
      qb2Loop la rf K useTol tl (fuel + 1) st w =
        qb2Loop la rf K useTol tl fuel (qb2Update la b st out) { w1 with trace := w1.trace ++ [.mulAT] }) := by
  subst hb
  conv => enter [1, 2, 1]; unfold qb2Loop
  conv => enter [2, 2, 1]; unfold qb2Loop
  simp only []
  rw [Py.bind_eq_of_ok (qb2Draw_of_ok h)]
  constructor
  · intro hc
    by_cases c1 : useTol ∧ (qb2Update la (qb2Blk K st.c st.blk) st out).sqn ≤ tl
    · rw [if_pos c1]; rfl
    · rw [if_neg c1, if_pos (hc.resolve_left c1)]; rfl
  · intro hc
    obtain ⟨c1, c2⟩ := not_or.1 hc
    rw [if_neg c1, if_neg c2]

/-- the loop of QB2 with two backends and good draws -/
theorem loop_two {p : ℤ} (hp : 0 ≤ p) {r : ℕ} {L : Matrix (Fin m) (Fin n) ℝ → Matrix (Fin m) (Fin r) ℝ}
    (hL : PowMap p L) (la la' : LinAlg) (R : NpRng G) (A0 : Matrix (Fin m) (Fin n) ℝ) {K blk : ℕ} (hblk : 0 < blk)
    (hK : K ≤ min m n) (useTol : Prop) (tl : ℝ) (fuel : ℕ) (st st' : QB2St m n) (w : World G) (hc : st.c < K)
    (hf : K - st.c < fuel) (hst : st.blk = blk) (hst' : st'.blk = blk) (hcc : st.c = st'.c) (hA : st.A = st'.A)
    (bs : List ℕ) (hbs : bs = blockWidths (K - st.c) blk)
    (Zs : Draws r bs) (hI : QB2Inv A0 st) (hI' : QB2Inv A0 st') (hF : QB2Full A0 st ∨ st.A = 0)
    (hF' : QB2Full A0 st' ∨ st'.A = 0)
    (hg : AllGood L bs st.A Zs) (hR : NextDraws R bs w.rng Zs) :
    ∃ out out' w', qb2Loop la (RF1 la (RS1 (gaussianOperator R true) p (orth la) 1)) K useTol tl fuel st w =
      .ok (out, w') ∧ qb2Loop la' (RF1 la' (RS1 (gaussianOperator R true) p (orth la') 1)) K useTol tl fuel st' w =
      .ok (out', w') ∧ out.c = out'.c ∧ out.A = out'.A ∧ QB2Inv A0 out ∧ QB2Inv A0 out' := by
  induction fuel generalizing st st' w bs with
  | zero => omega
  | succ fuel ih =>
    rw [blockWidths_pos (by omega) hblk] at hbs
    subst hbs
    obtain ⟨Z, Zs⟩ := Zs
    obtain ⟨hg1, hg2⟩ := hg
    obtain ⟨hR1, hR2⟩ := hR
    have hblkeq : qb2Blk K st.c st.blk = min blk (K - st.c) := by
      unfold qb2Blk; rw [hst]; split <;> omega
    have hblkeq' : qb2Blk K st'.c st'.blk = min blk (K - st.c) := by
      unfold qb2Blk; rw [hst', hcc]; split <;> omega
    obtain ⟨Q, Q', w1, h1, h1', h2, h3, h3', h4, h4', h5, h5'⟩ := rf_two hp hL la la' R st.A (b := min blk (K - st.c))
      (by omega) (by omega) w hR1
    obtain ⟨g1, g2, g3⟩ := block_step hL.le la hI hF (by omega) Q h3 h4 hg1 h5
    obtain ⟨g1', g2', g3'⟩ := block_step hL.le la' hI' hF' (by omega) Q' h3' h4' (by rw [← hA]; exact hg1)
      (by rw [← hA]; exact h5')
    rw [← hA] at g2'
    have hIn := qb2Inv_update la hI (min blk (K - st.c)) Q
    have hIn' := qb2Inv_update la' hI' (min blk (K - st.c)) Q'
    have hAn := g2.trans g2'.symm
    have hsq : (qb2Update la (min blk (K - st.c)) st Q).sqn = (qb2Update la' (min blk (K - st.c)) st' Q').sqn := by
      rw [hIn.2, hIn'.2, hAn]
    have hcn : (qb2Update la (min blk (K - st.c)) st Q).c = st.c + min blk (K - st.c) := by
      change st.c + min m Q.c = _
      omega
    have hcn' : (qb2Update la' (min blk (K - st.c)) st' Q').c = st.c + min blk (K - st.c) := by
      change st'.c + min m Q'.c = _
      omega
    rw [hA] at h1'
    obtain ⟨a1, a2⟩ := qb2Loop_step la _ K useTol tl fuel st w hblkeq h1
    obtain ⟨a1', a2'⟩ := qb2Loop_step la' _ K useTol tl fuel st' w hblkeq' h1'
    rw [← hsq, hcn'] at a1' a2'
    rw [hcn] at a1 a2
    by_cases c1 : (useTol ∧ (qb2Update la (min blk (K - st.c)) st Q).sqn ≤ tl) ∨ st.c + min blk (K - st.c) ≥ K
    · rw [a1 c1, a1' c1]
      exact ⟨_, _, _, rfl, rfl, hcn.trans hcn'.symm, hAn, hIn, hIn'⟩
    · rw [a2 c1, a2' c1]
      · obtain ⟨-, hge⟩ := not_or.1 c1
        refine ih _ _ { w1 with trace := w1.trace ++ [.mulAT] } (by omega) (by omega) ?_ ?_ (hcn.trans hcn'.symm) hAn _ ?_
          Zs hIn hIn' g3 g3' ?_ ?_
        · change min blk (K - st.c) = blk
          omega
        · change min blk (K - st.c) = blk
          omega
        · rw [hcn, Nat.sub_sub]
        · rw [g2]; exact hg2
        · rw [h2]; exact hR2

theorem qb2Run_two (A : Matrix (Fin m) (Fin n) ℝ) (hmn : 0 < min m n) (k : ℤ) (hk : 0 < k) (p : ℤ) (hp : 0 ≤ p)
    (blk : ℕ) (hblk : 0 < blk) :
    ∀ᵐ Zs ∂(normalSeq (startRows p m n) (blockWidths (min k.toNat (min m n)) blk)),
      ∀ (G : Type) (la la' : LinAlg) (R : NpRng G) (tol : Tol) (w : World G), NextDraws R _ w.rng Zs →
      ∃ st st' w', qb2Run la (RF1 la (RS1 (gaussianOperator R true) p (orth la) 1)) blk A k tol w = .ok (st, w') ∧
        qb2Run la' (RF1 la' (RS1 (gaussianOperator R true) p (orth la') 1)) blk A k tol w = .ok (st', w') ∧
        st.c = st'.c ∧ st.A = st'.A ∧ st.Q * st.B = st'.Q * st'.B := by
  obtain ⟨L, hL⟩ := exists_powMap (m := m) (n := n) p
  have : IsProbabilityMeasure stdNormal := by unfold stdNormal; infer_instance
  filter_upwards [allGood_ae (μ := stdNormal) L hL.meas hL.rank (blockWidths (min k.toNat (min m n)) blk) A]
    with Zs hZs G la la' R tol w hw
  rw [qb2Run_open w hk, qb2Run_open w hk]
  have hcl : clampK k m n = min k.toNat (min m n) := rfl
  have hF : QB2Full A (qb2Init A blk) ∨ (qb2Init A blk).A = 0 := Or.inl ⟨orth_empty _, by ext i; exact i.elim0, rfl⟩
  obtain ⟨st, st', w', h1, h2, h3, h4, h5, h6⟩ := loop_two hp hL la la' R A (K := clampK k m n) hblk
    (by rw [hcl]; omega) tol.use (absSqTol tol A) (clampK k m n + 1) (qb2Init A blk) (qb2Init A blk)
    (if k ≤ (min m n : ℕ) then w else { w with warns := w.warns + 1 })
    (by change 0 < _; rw [hcl]; omega) (by change _ - 0 < _; omega) rfl rfl rfl rfl _ rfl Zs (qb2Inv_init A blk)
    (qb2Inv_init A blk) hF hF hZs (by split <;> exact hw)
  refine ⟨st, st', w', h1, h2, h3, h4, ?_⟩
  have := h5.1.symm.trans (h4.trans h6.1)
  exact sub_right_injective this

theorem rank_add_le' (X Y : Matrix (Fin m) (Fin n) ℝ) : (X + Y).rank ≤ X.rank + Y.rank := by
  rw [← finrank_colSpace, ← finrank_colSpace X, ← finrank_colSpace Y]
  refine le_trans (Submodule.finrank_mono ?_) (Submodule.finrank_add_le_finrank_add_finrank (colSpace X) (colSpace Y))
  unfold colSpace
  rintro _ ⟨v, rfl⟩
  rw [Matrix.mulVecLin_apply, Matrix.add_mulVec]
  exact Submodule.add_mem_sup ⟨v, rfl⟩ ⟨v, rfl⟩

/-- **C87** (`qb_b`).  For almost every sequence of Gaussian draws, any two backends leave the same state and the same
contents in the caller's array, build the same number of columns and return the same product `QB`; if
`k ≤ rank(A)` their `Q`s span the same space. -/
theorem C87_qb_b (A : Matrix (Fin m) (Fin n) ℝ) (hmn : 0 < min m n) (k : ℤ) (hk : 0 < k) (p : ℤ) (hp : 2 ≤ p)
    (blk : ℕ) (hblk : 0 < blk) :
    ∀ᵐ Zs ∂(normalSeq (startRows (p - 2) m n) (blockWidths (min k.toNat (min m n)) blk)),
      ∀ (G : Type) (la la' : LinAlg) (R : NpRng G) (ow : Bool) (tol : Tol) (w : World G), NextDraws R _ w.rng Zs →
      ∃ (out out' : QBOut m n) (A' : Matrix (Fin m) (Fin n) ℝ) (w' : World G),
        qbB la (gaussianOperator R true) p blk ow A k tol w = .ok ((out, A'), w') ∧
        qbB la' (gaussianOperator R true) p blk ow A k tol w = .ok ((out', A'), w') ∧
        out.c = out'.c ∧ out.Q * out.B = out'.Q * out'.B ∧
        (k ≤ A.rank → out.Q * out.Qᵀ = out'.Q * out'.Qᵀ) := by
  filter_upwards [qb2Run_two A hmn k hk (p - 2) (by omega) blk hblk, C63_qb_b A hmn k hk p hp blk hblk]
    with Zs hZs hC G la la' R ow tol w hw
  obtain ⟨st, st', w', h1, h2, h3, h4, h5⟩ := hZs G la la' R tol w hw
  have tr : ∀ (la : LinAlg) (st : QB2St m n),
      qb2Run la (RF1 la (RS1 (gaussianOperator R true) (p - 2) (orth la) 1)) blk A k tol w = .ok (st, w') →
      qbB la (gaussianOperator R true) p blk ow A k tol w =
        .ok ((⟨st.c, st.Q, st.B⟩, if ow then st.A else A), w') := by
    intro la st h
    unfold qbB qb2Call
    rw [Py.bind_eq_of_ok h]
    rfl
  have c1 := tr la st h1
  have c2 := tr la' st' h2
  have e : (if ow then st.A else A) = if ow then st'.A else A := by rw [h4]
  refine ⟨_, _, _, _, c1, by rw [e]; exact c2, h3, h5, fun hr => ?_⟩
  have key : ∀ (la : LinAlg) (st : QB2St m n),
      qbB la (gaussianOperator R true) p blk ow A k tol w =
        .ok ((⟨st.c, st.Q, st.B⟩, if ow then st.A else A), w') →
      OrthoCols st.Q ∧ colSpace st.Q = colSpace (st.Q * st.B) := by
    intro la st h
    obtain ⟨out, A', w'', g1, g2, -, g4, g5, -⟩ := hC G la R ow tol w hw
    rw [h] at g1
    cases g1
    refine ⟨(g5 (Or.inl hr)).1, (Submodule.eq_of_le_of_finrank_le (colSpace_mul_le _ _) ?_).symm⟩
    rw [finrank_colSpace, finrank_colSpace]
    have hq : st.Q.rank = st.c := orthoCols_rank (g5 (Or.inl hr)).1
    have g2' : (st.c : ℤ) ≤ min k (min m n : ℕ) := g2
    have g4' : (A - st.Q * st.B).rank = A.rank - st.c := g4
    have hsub := rank_add_le' (A - st.Q * st.B) (st.Q * st.B)
    rw [sub_add_cancel] at hsub
    omega
  obtain ⟨o1, s1⟩ := key la st c1
  obtain ⟨o2, s2⟩ := key la' st' c2
  have hs : colSpace st.Q = colSpace st'.Q := by rw [s1, s2, h5]
  have hu : IsUnit (st'.Qᵀ * st'.Q).det := by rw [o2]; simp
  have e1 := proj_unique o1 hu hs
  have e2 := proj_unique o2 hu rfl
  change st.Q * st.Qᵀ = st'.Q * st'.Qᵀ
  rw [e1, e2]

/-! ## SVD1 -/

theorem prefix_pred {r c : ℕ} (hr : r ≤ c) (W : Matrix (Fin c) (Fin n) ℝ) (d : Fin c → ℝ) (P : ℝ → Prop)
    [DecidablePred P] (s : Fin c → ℝ) (hi : ∀ i : Fin c, i.1 < r ↔ P (s i)) :
    (W.submatrix (Fin.castLE hr) id)ᵀ * diagonal (d ∘ Fin.castLE hr) * W.submatrix (Fin.castLE hr) id =
      Wᵀ * diagonal (fun i => if P (s i) then d i else 0) * W := by
  rw [prefix_fun hr W d (1 / 2) (fun i => if P (s i) then 1 else 0) (fun i => by
    rw [hi]; split
    · exact ⟨fun _ => by norm_num, fun _ => by assumption⟩
    · exact ⟨fun h => absurd h (by assumption), fun h => absurd h (by norm_num)⟩)]
  congr 3
  funext i
  by_cases h : P (s i)
  · rw [if_pos h, if_pos h, if_pos (by norm_num)]
  · rw [if_neg h, if_neg h, if_neg (by norm_num)]

/-- The `k` largest of the values `s` that are at least `cut` are determined without breaking a tie. -/
def Untied {r : ℕ} (s : Fin r → ℝ) (k : ℕ) (cut : ℝ) : Prop :=
  ∃ t, 0 ≤ t ∧ ((Finset.univ.filter fun i => t < s i).card = k ∨
    ((Finset.univ.filter fun i => t < s i).card ≤ k ∧ t < cut))

theorem antitone_lt_card {c : ℕ} {s : Fin c → ℝ} (hs : Antitone s) (t : ℝ) (i : Fin c) :
    i.1 < (Finset.univ.filter fun j => t < s j).card ↔ t < s i := by
  constructor
  · intro h
    by_contra hlt
    have hsub : (Finset.univ.filter fun j => t < s j) ⊆ Finset.Iio i := by
      intro j hj
      rw [Finset.mem_filter] at hj
      rw [Finset.mem_Iio]
      by_contra hij
      exact hlt (lt_of_lt_of_le hj.2 (hs (not_lt.1 hij)))
    have := Finset.card_le_card hsub
    rw [Fin.card_Iio] at this
    omega
  · intro h
    have hsub : Finset.Iic i ⊆ (Finset.univ.filter fun j => t < s j) := by
      intro j hj
      rw [Finset.mem_filter]
      exact ⟨Finset.mem_univ _, lt_of_lt_of_le h (hs (Finset.mem_Iic.1 hj))⟩
    have := Finset.card_le_card hsub
    rw [Fin.card_Iic] at this
    omega

/-- **C87** (`SVD1`).  Two backends, and two QB decomposers that return orthonormal `Q`s of the same width and the same
product `QB`: SVD1 keeps the same number of components, with the same singular values.  Unless oversampling makes it
cut through a tie between the singular values of the product, the approximation `U diag(s) Vh` and the spaces spanned
by the singular vectors are the same too. -/
theorem C87_svd1_class (la la' : LinAlg) (qb qb' : QBDecomposer G) (A : Matrix (Fin m) (Fin n) ℝ) (k : ℕ) (tol tol' : Tol)
    (over : ℕ) (w w' v v' : World G) (qbo qbo' : QBOut m n)
    (hqb : qb m n A ((k + over : ℕ) : ℤ) tol w = .ok (qbo, w'))
    (hqb' : qb' m n A ((k + over : ℕ) : ℤ) tol' v = .ok (qbo', v'))
    (hQ : OrthoCols qbo.Q) (hQ' : OrthoCols qbo'.Q) (hc : qbo.c = qbo'.c) (hp : qbo.Q * qbo.B = qbo'.Q * qbo'.B) :
    ∃ (out out' : SVDOut m n) (e : out.r = out'.r),
      svd1Call la qb A k tol over w = .ok (out, w') ∧ svd1Call la' qb' A k tol' over v = .ok (out', v') ∧
      (∀ i, out.s i = out'.s (Fin.cast e i)) ∧
      (∀ {q : ℕ} {U0 : Matrix (Fin m) (Fin q) ℝ} {s0 : Fin q → ℝ} {V0 : Matrix (Fin n) (Fin q) ℝ},
        IsSVD (qbo.Q * qbo.B) U0 s0 V0 → over = 0 ∨ Untied s0 k (10 * eps) →
        out.U * diagonal out.s * out.Vh = out'.U * diagonal out'.s * out'.Vh ∧
        out.U * out.Uᵀ = out'.U * out'.Uᵀ ∧ out.Vhᵀ * out.Vh = out'.Vhᵀ * out'.Vh) := by
  obtain ⟨r, hr, h1, hi⟩ := svd1_open la qb A k tol over w w' qbo hqb
  obtain ⟨r', hr', h1', hi'⟩ := svd1_open la' qb' A k tol' over v v' qbo' hqb'
  obtain ⟨c, Q, B⟩ := qbo
  obtain ⟨c', Q', B'⟩ := qbo'
  simp only at hQ hQ' hc hp hr hr' hi hi' h1 h1'
  subst hc
  have gram : ∀ {Q : Matrix (Fin m) (Fin c) ℝ} {B : Matrix (Fin c) (Fin n) ℝ}, OrthoCols Q →
      Bᵀ * B = (Q * B)ᵀ * (Q * B) := by
    intro Q B hQ
    have hQ : Qᵀ * Q = 1 := hQ
    rw [transpose_mul, Matrix.mul_assoc, ← Matrix.mul_assoc Qᵀ, hQ, Matrix.one_mul]
  have hg : Bᵀ * B = B'ᵀ * B' := by rw [gram hQ, gram hQ', hp]
  have hsv := svd_sv_eq la la' hg
  have hrr : r = r' := by
    have key : ∀ i : Fin (min c n), i.1 < r ↔ i.1 < r' := fun i => by rw [hi, hi', hsv]
    by_contra hne
    rcases Nat.lt_or_gt_of_ne hne with h | h
    · exact lt_irrefl _ ((key ⟨r, by omega⟩).2 h)
    · exact lt_irrefl _ ((key ⟨r', by omega⟩).1 h)
  subst hrr
  refine ⟨⟨r, Q * (la.svd B).1.submatrix id (Fin.castLE hr), (la.svd B).2.1 ∘ Fin.castLE hr,
    (la.svd B).2.2.submatrix (Fin.castLE hr) id⟩, ⟨r, Q' * (la'.svd B').1.submatrix id (Fin.castLE hr), (la'.svd B').2.1 ∘ Fin.castLE hr,
    (la'.svd B').2.2.submatrix (Fin.castLE hr) id⟩, rfl, h1, h1', fun i => ?_, ?_⟩
  · change (la.svd B).2.1 _ = (la'.svd B').2.1 _
    rw [hsv]; rfl
  intro q U0 s0 V0 h0 hgap
  obtain ⟨P, hP0, hPd⟩ : ∃ P : ℝ → Prop, ¬ P 0 ∧ ∀ i, i.1 < r ↔ P ((la.svd B).2.1 i) := by
    rcases hgap with ho | ⟨t, ht, hcard⟩
    · refine ⟨fun x => 10 * eps ≤ x, by have := eps_pos; linarith, fun i => ?_⟩
      rw [hi]
      exact ⟨fun h => h.2, fun h => ⟨fun h' => by omega, h⟩⟩
    · have hcd : (Finset.univ.filter fun i => t < s0 i).card =
          (Finset.univ.filter fun i => t < (la.svd B).2.1 i).card := by
        refine card_above_eq h0.nonneg (la.svd_nonneg B) (W := V0ᵀ) (W' := (la.svd B).2.2) ?_ (la.svd_right B) ?_ ht
        · rw [transpose_transpose]; exact h0.right
        · rw [← svd_gram (la.svd_mul B) (la.svd_left B), gram hQ, svd_gram h0.eq.symm h0.left]
      rw [hcd] at hcard
      rcases hcard with hk | ⟨hk, hcut⟩
      · by_cases ho : 0 < over
        · refine ⟨fun x => t < x ∧ 10 * eps ≤ x, fun h => by linarith [h.1], fun i => ?_⟩
          rw [hi]
          change _ ↔ t < _ ∧ _
          rw [← antitone_lt_card (la.svd_anti B), hk]
          exact ⟨fun h => ⟨h.1 ho, h.2⟩, fun h => ⟨fun _ => h.1, h.2⟩⟩
        · refine ⟨fun x => 10 * eps ≤ x, by have := eps_pos; linarith, fun i => ?_⟩
          rw [hi]
          exact ⟨fun h => h.2, fun h => ⟨fun h' => by omega, h⟩⟩
      · refine ⟨fun x => 10 * eps ≤ x, by have := eps_pos; linarith, fun i => ?_⟩
        rw [hi]
        refine ⟨fun h => h.2, fun h => ⟨fun _ => ?_, h⟩⟩
        exact lt_of_lt_of_le ((antitone_lt_card (la.svd_anti B) t i).2 (lt_of_lt_of_le hcut h)) hk
  classical
  have hPd' : ∀ i, i.1 < r ↔ P ((la'.svd B').2.1 i) := by rw [← hsv]; exact hPd
  have hf : ∀ g : ℝ → ℝ,
      ((la.svd B).2.2.submatrix (Fin.castLE hr) id)ᵀ * diagonal ((fun i => g ((la.svd B).2.1 i)) ∘ Fin.castLE hr) *
        (la.svd B).2.2.submatrix (Fin.castLE hr) id =
      ((la'.svd B').2.2.submatrix (Fin.castLE hr) id)ᵀ * diagonal ((fun i => g ((la'.svd B').2.1 i)) ∘ Fin.castLE hr) *
        (la'.svd B').2.2.submatrix (Fin.castLE hr) id := by
    intro g
    rw [prefix_pred hr _ _ P _ hPd, prefix_pred hr _ _ P _ hPd']
    exact svd_fun_eq la la' hg (fun x => if P x then g x else 0) (if_neg hP0)
  obtain ⟨V, hV⟩ : ∃ V, V = (la.svd B).2.2.submatrix (Fin.castLE hr) id := ⟨_, rfl⟩
  obtain ⟨V', hV'⟩ : ∃ V', V' = (la'.svd B').2.2.submatrix (Fin.castLE hr) id := ⟨_, rfl⟩
  obtain ⟨X, hX⟩ : ∃ X, X = (la.svd B).1.submatrix id (Fin.castLE hr) := ⟨_, rfl⟩
  obtain ⟨X', hX'⟩ : ∃ X', X' = (la'.svd B').1.submatrix id (Fin.castLE hr) := ⟨_, rfl⟩
  obtain ⟨s, hs⟩ : ∃ s, s = (la.svd B).2.1 ∘ Fin.castLE hr := ⟨_, rfl⟩
  have hs' : s = (la'.svd B').2.1 ∘ Fin.castLE hr := by rw [hs, hsv]
  have hpos : ∀ i, s i ≠ 0 := by
    intro i
    have := ((hi (Fin.castLE hr i)).1 i.2).2
    have he := eps_pos
    rw [hs]
    exact ne_of_gt (lt_of_lt_of_le (by linarith) this)
  have bv : ∀ (la : LinAlg) (B : Matrix (Fin c) (Fin n) ℝ),
      B * ((la.svd B).2.2.submatrix (Fin.castLE hr) id)ᵀ =
        (la.svd B).1.submatrix id (Fin.castLE hr) * diagonal ((la.svd B).2.1 ∘ Fin.castLE hr) := by
    intro la B
    have e : B * (la.svd B).2.2ᵀ = (la.svd B).1 * diagonal (la.svd B).2.1 := by
      conv_lhs => enter [1]; rw [← la.svd_mul B]
      rw [Matrix.mul_assoc, la.svd_right, Matrix.mul_one]
    ext i j
    have := congrFun (congrFun e i) (Fin.castLE hr j)
    rw [mul_diagonal] at this ⊢
    exact this
  have b1 := bv la B
  have b2 := bv la' B'
  rw [← hV, ← hX, ← hs] at b1
  rw [← hV', ← hX', ← hs'] at b2
  have f1 : ∀ g : ℝ → ℝ, Vᵀ * diagonal (fun i => g (s i)) * V = V'ᵀ * diagonal (fun i => g (s i)) * V' := by
    intro g
    have := hf g
    rw [← hV, ← hV'] at this
    rw [show (fun i => g (s i)) = (fun i => g ((la.svd B).2.1 i)) ∘ Fin.castLE hr by rw [hs]; rfl]
    rw [this, hsv]
  have f2 : Vᵀ * V = V'ᵀ * V' := by
    have := f1 fun _ => 1
    simpa using this
  have hU : ∀ {Q : Matrix (Fin m) (Fin c) ℝ} {B : Matrix (Fin c) (Fin n) ℝ} {X : Matrix (Fin c) (Fin r) ℝ}
      {V : Matrix (Fin r) (Fin n) ℝ}, B * Vᵀ = X * diagonal s →
      Q * X * (Q * X)ᵀ = Q * B * (Vᵀ * diagonal (fun i => ((s i)⁻¹) ^ 2) * V) * (Q * B)ᵀ := by
    intro Q B X V h
    have e1 : X = B * Vᵀ * diagonal (fun i => (s i)⁻¹) := by
      rw [h, Matrix.mul_assoc, diagonal_mul_diagonal]
      have : (fun i => s i * (s i)⁻¹) = fun _ => 1 := by
        funext i; exact mul_inv_cancel₀ (hpos i)
      rw [this, diagonal_one, Matrix.mul_one]
    have e2 : diagonal (fun i => ((s i)⁻¹) ^ 2) = diagonal (fun i => (s i)⁻¹) * diagonal (fun i => (s i)⁻¹) := by
      rw [diagonal_mul_diagonal]; congr 1; funext i; ring
    rw [e2]
    have e3 : (Q * X)ᵀ = diagonal (fun i => (s i)⁻¹) * V * (Q * B)ᵀ := by
      rw [e1]
      simp only [transpose_mul, diagonal_transpose, transpose_transpose, Matrix.mul_assoc]
    rw [e3]
    conv_lhs => enter [1, 2]; rw [e1]
    simp only [Matrix.mul_assoc]
  refine ⟨?_, ?_, ?_⟩
  · change Q * (la.svd B).1.submatrix id (Fin.castLE hr) * diagonal ((la.svd B).2.1 ∘ Fin.castLE hr) *
        (la.svd B).2.2.submatrix (Fin.castLE hr) id =
      Q' * (la'.svd B').1.submatrix id (Fin.castLE hr) * diagonal ((la'.svd B').2.1 ∘ Fin.castLE hr) *
        (la'.svd B').2.2.submatrix (Fin.castLE hr) id
    rw [← hX, ← hX', ← hV, ← hV', ← hs, ← hs', Matrix.mul_assoc Q, Matrix.mul_assoc Q', ← b1, ← b2,
      ← Matrix.mul_assoc Q, ← Matrix.mul_assoc Q', Matrix.mul_assoc _ Vᵀ, Matrix.mul_assoc _ V'ᵀ, hp, f2]
  · change Q * (la.svd B).1.submatrix id (Fin.castLE hr) * (Q * (la.svd B).1.submatrix id (Fin.castLE hr))ᵀ =
      Q' * (la'.svd B').1.submatrix id (Fin.castLE hr) * (Q' * (la'.svd B').1.submatrix id (Fin.castLE hr))ᵀ
    rw [← hX, ← hX', hU b1, hU b2, hp, f1 fun x => x⁻¹ ^ 2]
  · change ((la.svd B).2.2.submatrix (Fin.castLE hr) id)ᵀ * (la.svd B).2.2.submatrix (Fin.castLE hr) id =
      ((la'.svd B').2.2.submatrix (Fin.castLE hr) id)ᵀ * (la'.svd B').2.2.submatrix (Fin.castLE hr) id
    rw [← hV, ← hV', f2]

/-- **C87** (`svd1`).  For almost every sequence of Gaussian draws, if `k + over ≤ rank(A)` or everything fits in one
block, any two backends leave the same state and return the same singular values; without oversampling also the same
approximation `U diag(s) Vh` and the same left and right singular spaces. -/
theorem C87_svd1 (A : Matrix (Fin m) (Fin n) ℝ) (hmn : 0 < min m n) (k over : ℕ) (hk : 0 < k + over) (p : ℤ)
    (hp : 2 ≤ p) (blk : ℕ) (hblk : 0 < blk) (hr : k + over ≤ A.rank ∨ min (k + over) (min m n) ≤ blk) :
    ∀ᵐ Zs ∂(normalSeq (startRows (p - 2) m n) (blockWidths (min (k + over) (min m n)) blk)),
      ∀ (G : Type) (la la' : LinAlg) (R : NpRng G) (tol : Tol) (w : World G), NextDraws R _ w.rng Zs →
      ∃ (out out' : SVDOut m n) (e : out.r = out'.r) (w' : World G),
        svd1 la (gaussianOperator R true) A k over tol p blk w = .ok (out, w') ∧
        svd1 la' (gaussianOperator R true) A k over tol p blk w = .ok (out', w') ∧
        (∀ i, out.s i = out'.s (Fin.cast e i)) ∧
        (over = 0 →
          out.U * diagonal out.s * out.Vh = out'.U * diagonal out'.s * out'.Vh ∧
          out.U * out.Uᵀ = out'.U * out'.Uᵀ ∧ out.Vhᵀ * out.Vh = out'.Vhᵀ * out'.Vh) := by
  have hae := qb2Run_two A hmn ((k + over : ℕ) : ℤ) (by exact_mod_cast hk) (p - 2) (by omega) blk hblk
  have hC := C63_qb_b A hmn ((k + over : ℕ) : ℤ) (by exact_mod_cast hk) p hp blk hblk
  rw [Int.toNat_natCast] at hae hC
  filter_upwards [hae, hC] with Zs hZs hC G la la' R tol w hw
  obtain ⟨st, st', w', h1, h2, h3, h4, h5⟩ := hZs G la la' R tol w hw
  have key : ∀ (la : LinAlg) (st : QB2St m n),
      qb2Run la (RF1 la (RS1 (gaussianOperator R true) (p - 2) (orth la) 1)) blk A ((k + over : ℕ) : ℤ) tol w =
        .ok (st, w') →
      OrthoCols st.Q ∧ QB2 la (RF1 la (RS1 (gaussianOperator R true) (p - 2) (orth la) 1)) blk false m n A
      ((k + over : ℕ) : ℤ) tol w = .ok (⟨st.c, st.Q, st.B⟩, w') := by
    intro la st h
    refine ⟨?_, ?_⟩
    · obtain ⟨out, A', w'', g1, -, -, -, g5, -⟩ := hC G la R false tol w hw
      unfold qbB qb2Call at g1
      rw [Py.bind_eq_of_ok h] at g1
      cases g1
      exact (g5 (by
        rcases hr with h | h
        · left; exact_mod_cast h
        · right; exact_mod_cast h)).1
    · unfold QB2 qb2Call
      rw [Py.bind_eq_of_ok (Py.bind_eq_of_ok h)]; rfl
  obtain ⟨o1, q1⟩ := key la st h1
  obtain ⟨o2, q2⟩ := key la' st' h2
  obtain ⟨out, out', e, c1, c2, hs, hrest⟩ := C87_svd1_class la la' _ _ A k tol tol over w w' w w' _ _ q1 q2 o1 o2 h3 h5
  refine ⟨out, out', e, w', c1, c2, hs, fun ho => ?_⟩
  refine hrest (U0 := (LinAlg.ref.svd (st.Q * st.B)).1) (s0 := (LinAlg.ref.svd (st.Q * st.B)).2.1)
    (V0 := (LinAlg.ref.svd (st.Q * st.B)).2.2ᵀ) ⟨LinAlg.ref.svd_left _, ?_, LinAlg.ref.svd_nonneg _,
      LinAlg.ref.svd_anti _, ?_⟩ (Or.inl ho)
  · change _ᵀᵀ * _ᵀ = 1
    rw [transpose_transpose]; exact LinAlg.ref.svd_right _
  · rw [transpose_transpose, LinAlg.ref.svd_mul]

/-! ## EVD2 -/

/-- `B B'` for the Nystrom factor depends only on the range of the sketch -/
theorem nystrom_same {c : ℕ} {A : Matrix (Fin n) (Fin n) ℝ} {nu : ℝ} {S S' : Matrix (Fin n) (Fin c) ℝ}
    {R R' : Matrix (Fin c) (Fin c) ℝ} {B B' : Matrix (Fin n) (Fin c) ℝ} (h : Nystrom A nu S R B)
    (h' : Nystrom A nu S' R' B') (hS : colSpace S' ≤ colSpace S) : B * Bᵀ = B' * B'ᵀ := by
  obtain ⟨C, hC⟩ := colSpace_le_iff.1 hS
  have g1 : R'ᵀ * R' = Cᵀ * (Rᵀ * R) * C := by
    rw [h'.gram, h.gram, hC, transpose_mul, ← Matrix.mul_assoc A, ← Matrix.smul_mul, ← Matrix.add_mul]
    simp only [Matrix.mul_assoc]
  have hdet : IsUnit C.det := by
    have := congrArg det g1
    rw [det_mul, det_mul, det_mul, det_transpose, det_transpose] at this
    have hu : R'.det * R'.det ≠ 0 := mul_ne_zero h'.unit.ne_zero h'.unit.ne_zero
    rw [this] at hu
    exact isUnit_iff_ne_zero.2 (right_ne_zero_of_mul hu)
  have f1 : B = (A * S + nu • S) * R⁻¹ := by
    rw [← h.fac, Matrix.mul_assoc, mul_nonsing_inv _ h.unit, Matrix.mul_one]
  have f2 : B' = (A * S + nu • S) * (C * R'⁻¹) := by
    rw [← Matrix.mul_assoc, Matrix.add_mul, Matrix.smul_mul, Matrix.mul_assoc A, ← hC, ← h'.fac, Matrix.mul_assoc,
      mul_nonsing_inv _ h'.unit, Matrix.mul_one]
  have key : R⁻¹ * (R⁻¹)ᵀ = C * R'⁻¹ * (C * R'⁻¹)ᵀ := by
    have e1 : R⁻¹ * (R⁻¹)ᵀ = (Rᵀ * R)⁻¹ := by rw [Matrix.mul_inv_rev, transpose_nonsing_inv]
    have e2 : C * R'⁻¹ * (C * R'⁻¹)ᵀ = C * (R'ᵀ * R')⁻¹ * Cᵀ := by
      rw [Matrix.mul_inv_rev, transpose_mul, transpose_nonsing_inv]; simp only [Matrix.mul_assoc]
    have hCt : IsUnit Cᵀ.det := by rwa [det_transpose]
    rw [e1, e2, g1]
    obtain ⟨X, hX⟩ : ∃ X, X = Rᵀ * R := ⟨_, rfl⟩
    rw [← hX, Matrix.mul_inv_rev, Matrix.mul_inv_rev, ← Matrix.mul_assoc, mul_nonsing_inv _ hdet, Matrix.one_mul,
      Matrix.mul_assoc, nonsing_inv_mul _ hCt, Matrix.mul_one]
  rw [f1, f2, transpose_mul, transpose_mul, Matrix.mul_assoc, Matrix.mul_assoc, ← Matrix.mul_assoc R⁻¹, key]
  simp only [transpose_mul, Matrix.mul_assoc]

theorem svdFull_sv_eq (la la' : LinAlg) {c : ℕ} {B B' : Matrix (Fin n) (Fin c) ℝ} (h : B * Bᵀ = B' * B'ᵀ) :
    (la.svdFull B).2.1 = (la'.svdFull B').2.1 := by
  have key : ∀ (la : LinAlg) (B : Matrix (Fin n) (Fin c) ℝ), B * Bᵀ =
      ((la.svdFull B).1.submatrix id (minL : Fin (min n c) → Fin n)) *
        diagonal (fun i => (la.svdFull B).2.1 i ^ 2) *
        ((la.svdFull B).1.submatrix id (minL : Fin (min n c) → Fin n))ᵀ := by
    intro la B
    obtain ⟨-, h2⟩ := svdFull_econ la B
    have e := svd_gram (A := Bᵀ) (U := ((la.svdFull B).2.2.submatrix (minR : Fin (min n c) → Fin c) id)ᵀ)
      (s := (la.svdFull B).2.1) (W := ((la.svdFull B).1.submatrix id (minL : Fin (min n c) → Fin n))ᵀ) (by
        conv_rhs => rw [← la.svdFull_mul B]
        simp only [transpose_mul, diagonal_transpose, Matrix.mul_assoc]) (by rwa [transpose_transpose])
    rwa [transpose_transpose, transpose_transpose] at e
  refine sv_unique (W := ((la.svdFull B).1.submatrix id (minL : Fin (min n c) → Fin n))ᵀ)
    (W' := ((la'.svdFull B').1.submatrix id (minL : Fin (min n c) → Fin n))ᵀ) (la.svdFull_nonneg B)
    (la'.svdFull_nonneg B') (la.svdFull_anti B) (la'.svdFull_anti B') ?_ ?_ ?_
  · rw [transpose_transpose]; exact (svdFull_econ la B).1
  · rw [transpose_transpose]; exact (svdFull_econ la' B').1
  · rw [transpose_transpose, transpose_transpose, ← key la B, ← key la' B', h]

/-- **C87** (`EVD2`).  Two backends, and two sketches of the same width, the same range and with `A S` of the same norm
(two orthonormal bases of one space, say): EVD2 keeps the same number of components with the same eigenvalues. -/
theorem C87_evd2_class (la la' : LinAlg) (sk sk' : RowSketcher G) (A : Matrix (Fin n) (Fin n) ℝ) (hA : Aᵀ = A) (k : ℤ)
    (tol : Tol) (over : ℕ) (w v w1 w' v1 v' : World G) (S S' : Cols n) (out out' : EVDOut n)
    (hS : sk n n A (k + over).toNat (afterTolWarning tol w) = .ok (S, w1))
    (hS' : sk' n n A (k + over).toNat (afterTolWarning tol v) = .ok (S', v1)) (hc : S.c = S'.c)
    (hcs : colSpace S.mat = colSpace S'.mat) (hf : fro (A * S.mat) = fro (A * S'.mat))
    (h : evd2Call la sk A k tol over w = .ok (out, w')) (h' : evd2Call la' sk' A k tol over v = .ok (out', v')) :
    ∃ e : out.r = out'.r, ∀ i, out.lamb i = out'.lamb (Fin.cast e i) := by
  obtain ⟨-, -, T, x, e1, p1⟩ := evd2_open la sk A k tol over w w' out h
  obtain ⟨-, -, T', x', e1', p1'⟩ := evd2_open la' sk' A k tol over v v' out' h'
  rw [hS] at e1; cases e1
  rw [hS'] at e1'; cases e1'
  obtain ⟨R, B, hB, -, r, hrk, hr1, hr2, ho⟩ := evd2Post_open la hA p1
  obtain ⟨R', B', hB', -, r', hrk', hr1', hr2', ho'⟩ := evd2Post_open la' hA p1'
  obtain ⟨c, S⟩ := S
  obtain ⟨c', S'⟩ := S'
  simp only at hc hcs hf R B R' B' hB hB' hr1 hr1' hr2 hr2' ho ho'
  subst hc
  have hnu : evd2Nu A S = evd2Nu A S' := by unfold evd2Nu; rw [hf]
  rw [← hnu] at hB' hr1' hr2' ho'
  have hsv := svdFull_sv_eq la la' (nystrom_same hB hB' hcs.ge)
  rw [← hsv] at hr1' hr2' ho'
  have hrr : r = r' := by
    rcases hr2 with a | ⟨a, b1, b2⟩ <;> rcases hr2' with a' | ⟨a', b1', b2'⟩
    · omega
    · have := hr1 _ a' b1' b2'; omega
    · have := hr1' _ a b1 b2; omega
    · have := hr1 _ a' b1' b2'
      have := hr1' _ a b1 b2
      omega
  subst hrr
  subst ho ho'
  exact ⟨rfl, fun i => rfl⟩

theorem rs1Loop_ortho (la : LinAlg) (A : Matrix (Fin m) (Fin n) ℝ) (q done : ℕ) (S T : Cols n) (w w' : World G)
    (h : rs1Loop (orth la) 1 A q done S w = .ok (T, w')) (hS : 0 < q ∨ OrthoCols S.mat) : OrthoCols T.mat := by
  induction q generalizing done S w with
  | zero => cases h; exact hS.resolve_left (lt_irrefl _)
  | succ q ih =>
    unfold rs1Loop at h
    simp only [passA, passAT, Py.bind_apply, maybeStab_one, Py.emit_apply, Py.pure_apply] at h
    exact ih _ _ _ h (Or.inr (la.qr_orth _))

theorem rs1Call_ortho (la : LinAlg) (gen : SkOpGen G) (p : ℤ) (hp : 1 ≤ p) (A : Matrix (Fin m) (Fin n) ℝ) (k : ℕ)
    (w w' : World G) (S : Cols n) (h : rs1Call gen p (orth la) 1 A k w = .ok (S, w')) : OrthoCols S.mat := by
  obtain ⟨hp0, ⟨hev, S0, w1, h1, h2⟩ | ⟨hev, S0, w1, S1, w2, h1, h2, h3⟩⟩ := rs1Call_open h
  · exact rs1Loop_ortho la A _ _ _ _ _ _ h2 (Or.inl (by omega))
  · rw [if_pos rfl] at h2
    cases h2
    exact rs1Loop_ortho la A _ _ _ _ _ _ h3 (Or.inr (la.qr_orth _))

/-- the range of the sketch itself -/
theorem exists_sketchMap (p : ℤ) (A : Matrix (Fin m) (Fin n) ℝ) :
    ∃ M : Matrix (Fin n) (Fin (startRows p m n)) ℝ, A.rank ≤ M.rank ∧
      ∀ (G : Type) (la : LinAlg) (gen : SkOpGen G) (k : ℕ) (w w' : World G) (S : Cols n),
        rs1Call gen p (orth la) 1 A k w = .ok (S, w') →
        ∃ S0 w1, gen _ k w = .ok (S0, w1) ∧ (FullColRank (M * S0) → colSpace (M * S0) = colSpace S.mat) := by
  obtain ⟨r, hr⟩ : ∃ r, r = startRows p m n := ⟨_, rfl⟩
  rw [← hr]
  rcases Int.emod_two_eq_zero_or_one p with hp | hp
  · obtain rfl : r = n := by rw [hr]; exact if_pos hp
    refine ⟨(Aᵀ * A) ^ (p / 2).toNat, ?_, ?_⟩
    · rw [← rank_power_even' A (p / 2).toNat]; exact rank_mul_le_right _ _
    intro G la gen k w w' S h
    obtain ⟨S0, ⟨w2, hd⟩, -, hle⟩ := (C02_rs1_range_parla la gen p (orth la) (Or.inl rfl) 1 A k w w' S h).1 hp
    exact ⟨S0, w2, hd, hle⟩
  · obtain rfl : r = m := by rw [hr]; exact if_neg (by omega)
    refine ⟨(Aᵀ * A) ^ ((p - 1) / 2).toNat * Aᵀ, ?_, ?_⟩
    · rw [← rank_power_odd' A ((p - 1) / 2).toNat]; exact rank_mul_le_right _ _
    intro G la gen k w w' S h
    obtain ⟨S0, ⟨w2, hd⟩, -, hle⟩ := (C02_rs1_range_parla la gen p (orth la) (Or.inl rfl) 1 A k w w' S h).2 hp
    refine ⟨S0, w2, hd, ?_⟩
    rw [Matrix.mul_assoc]
    exact hle

/-- **C87** (`evd2`).  For almost every Gaussian draw, if `k + over ≤ rank(A)`, any two backends leave the same state
and return the same eigenvalues. -/
theorem C87_evd2 (A : Matrix (Fin n) (Fin n) ℝ) (hA : IsPSD A) (k : ℕ) (hk : 0 < k) (hk' : k < n) (over : ℕ)
    (hr : k + over ≤ A.rank) (p : ℤ) (hp : 1 ≤ p) :
    ∀ᵐ Z ∂(normals (startRows (p - 1) n n) (k + over)), ∀ (G : Type) (la la' : LinAlg) (R : NpRng G) (w : World G),
      NextNormal R w _ _ Z →
      ∃ (out out' : EVDOut n) (e : out.r = out'.r) (w' : World G),
        evd2 la (gaussianOperator R true) A k over p w = .ok (out, w') ∧
        evd2 la' (gaussianOperator R true) A k over p w = .ok (out', w') ∧
        ∀ i, out.lamb i = out'.lamb (Fin.cast e i) := by
  obtain ⟨M, hM, hcall⟩ := exists_sketchMap (p - 1) A
  have hA0 : A ≠ 0 := by rintro rfl; rw [Matrix.rank_zero] at hr; omega
  have hrn := rank_le_width' A
  filter_upwards [C59_evd2 A hA hA0 k hk hk' over (by omega) p hp, Proof.ae_rank_mul (μ := stdNormal) M (k + over)]
    with Z hZ hfull G la la' R w hw
  obtain ⟨out, w', h1, -⟩ := hZ G la R w hw
  obtain ⟨out', w'', h2, -⟩ := hZ G la' R w hw
  rw [min_eq_left (hr.trans hM)] at hfull
  have open' : ∀ (la : LinAlg) (out : EVDOut n) (w' : World G),
      evd2 la (gaussianOperator R true) A k over p w = .ok (out, w') →
      evd2Call la (RS1 (gaussianOperator R true) (p - 1) (orth la) 1) A k .nan over w = .ok (out, w') ∧
      ∃ S w1, rs1Call (gaussianOperator R true) (p - 1) (orth la) 1 A (k + over) w = .ok (S, w1) ∧
        w' = { w1 with trace := w1.trace ++ [.mulA] } ∧ S.c = k + over ∧ colSpace (M * drawMat Z) = colSpace S.mat := by
    intro la out w' h
    unfold evd2 at h
    rw [Py.assert_pos_bind hp] at h
    refine ⟨h, ?_⟩
    obtain ⟨-, -, S, w1, e1, e2⟩ := evd2_open la _ A k .nan over w w' out h
    rw [show ((k : ℤ) + over).toNat = k + over by omega] at e1
    refine ⟨S, w1, e1, ?_, rs1Call_width_eq (fun _ _ => rfl) (by omega) e1, ?_⟩
    · unfold evd2Call at h
      rw [Py.assert_pos_bind (by exact_mod_cast hk), Py.assert_pos_bind (by exact_mod_cast hk')] at h
      simp only [Tol.isNaN_nan, not_true_eq_false, if_false] at h
      have e1' : RS1 (gaussianOperator R true) (p - 1) (orth la) 1 n n A ((k : ℤ) + over).toNat w = .ok (S, w1) := by
        rw [show ((k : ℤ) + over).toNat = k + over by omega]; exact e1
      rw [Py.bind_eq_of_ok e1', Py.bind_ok_iff] at h
      obtain ⟨_, w2, g1, g2⟩ := h
      cases g1
      rw [Int.toNat_natCast] at e2 g2
      unfold Py.lift at g2
      rw [e2] at g2
      cases g2
      rfl
    · obtain ⟨S0, w2, e3, e4⟩ := hcall G la _ _ _ _ _ e1
      have hne : min (startRows (p - 1) n n) (k + over) ≠ 0 := by
        unfold startRows; split <;> omega
      obtain ⟨t, ht, hgen⟩ := gaussian_next R hne hw
      have e3' := hgen.symm.trans e3
      cases e3'
      have hsm : colSpace (M * (t • drawMat Z)) = colSpace (M * drawMat Z) := by
        rw [Matrix.mul_smul]
        apply le_antisymm
        · exact colSpace_le_iff.2 ⟨t • 1, by rw [Matrix.mul_smul, Matrix.mul_one]⟩
        · exact colSpace_le_iff.2 ⟨t⁻¹ • 1, by
            rw [Matrix.mul_smul, Matrix.mul_one, smul_smul, inv_mul_cancel₀ ht, one_smul]⟩
      rw [← e4 ?_, hsm]
      have : (M * (t • drawMat Z)).rank = k + over := by
        rw [← finrank_colSpace, hsm, finrank_colSpace, hfull]
      exact this
  obtain ⟨c1, S, w1, s1, rfl, s3, s4⟩ := open' la out w' h1
  obtain ⟨c2, S', w1', s1', rfl, s3', s4'⟩ := open' la' out' w'' h2
  obtain ⟨S'', s5⟩ := rs1Call_world _ (p - 1) (orth la) (orth la') 1 A _ _ _ _ s1
  rw [s1'] at s5
  cases s5
  have hf : fro (A * S.mat) = fro (A * S'.mat) := by
    rcases Int.lt_or_le 1 p with hp1 | hp1
    · have o1 := rs1Call_ortho la _ (p - 1) (by omega) A _ _ _ _ s1
      have o2 := rs1Call_ortho la' _ (p - 1) (by omega) A _ _ _ _ s1'
      have hu : IsUnit (S'.matᵀ * S'.mat).det := by
        rw [show S'.matᵀ * S'.mat = 1 from o2]; simp
      have e := (proj_unique o1 hu (s4.symm.trans s4')).trans (proj_unique o2 hu rfl).symm
      have : ∀ X : Cols n, fro (A * X.mat) ^ 2 = (A * (X.mat * X.matᵀ) * Aᵀ).trace := by
        intro X
        rw [fro_sq, froSq_eq_trace, trace_mul_comm, transpose_mul]
        simp only [Matrix.mul_assoc]
      have h2 : fro (A * S.mat) ^ 2 = fro (A * S'.mat) ^ 2 := by rw [this, this, e]
      exact (sq_eq_sq₀ (fro_nonneg _) (fro_nonneg _)).1 h2
    · obtain rfl : p = 1 := by omega
      have same : ∀ (la : LinAlg) (S : Cols n),
          rs1Call (gaussianOperator R true) (1 - 1) (orth la) 1 A (k + over) w = .ok (S, w1) →
          ∃ S0, gaussianOperator R true n (k + over) w = .ok (S0, w1) ∧ S = ⟨_, S0⟩ := by
        intro la S h
        unfold rs1Call at h
        rw [Py.assert_pos_bind (by omega), if_pos (by norm_num), Py.bind_ok_iff] at h
        obtain ⟨S0, w2, g1, g2⟩ := h
        cases g2
        exact ⟨S0, g1, rfl⟩
      obtain ⟨S0, g1, rfl⟩ := same la S s1
      obtain ⟨S0', g1', rfl⟩ := same la' S' s1'
      rw [g1] at g1'
      cases g1'
      rfl
  have tr : ∀ (la : LinAlg) (S : Cols n), rs1Call (gaussianOperator R true) (p - 1) (orth la) 1 A (k + over) w = .ok (S, w1) →
      RS1 (gaussianOperator R true) (p - 1) (orth la) 1 n n A ((k : ℤ) + over).toNat (afterTolWarning .nan w) =
        .ok (S, w1) := by
    intro la S h
    rw [show ((k : ℤ) + over).toNat = k + over by omega]; exact h
  obtain ⟨e, hl⟩ := C87_evd2_class la la' _ _ A hA.1 k .nan over w w w1 _ w1 _ S S' out out' (tr la S s1)
    (tr la' S' s1') (s3.trans s3'.symm) (s4.symm.trans s4') hf c1 c2
  exact ⟨out, out', e, _, h1, h2, hl⟩

/-! ## EVD1 -/

open Polynomial in
/-- eigenvalues with the same product `QB` -/
theorem eigh_same (la la' : LinAlg) {c : ℕ} {Q Q' : Matrix (Fin n) (Fin c) ℝ} {B B' : Matrix (Fin c) (Fin n) ℝ}
    (h : Q * B = Q' * B') (hs : (B * Q)ᵀ = B * Q) (hs' : (B' * Q')ᵀ = B' * Q') :
    (la.eigh (B * Q)).1 = (la'.eigh (B' * Q')).1 := by
  have cp : ∀ (la : LinAlg) (C : Matrix (Fin c) (Fin c) ℝ), Cᵀ = C →
      C.charpoly.roots = Multiset.map (la.eigh C).1 Finset.univ.val := by
    intro la C hC
    have e : C.charpoly = (diagonal (la.eigh C).1).charpoly := by
      conv_lhs => rw [← la.eigh_mul C hC]
      rw [Matrix.charpoly_mul_comm, ← Matrix.mul_assoc, la.eigh_orth C hC, Matrix.one_mul]
    rw [e, charpoly_diagonal]
    change (Multiset.map ((fun a => X - Polynomial.C a) ∘ (la.eigh C).1) Finset.univ.val).prod.roots = _
    rw [← Multiset.map_map (fun a => X - Polynomial.C a) (la.eigh C).1, roots_multiset_prod_X_sub_C]
  have e : (B * Q).charpoly = (B' * Q').charpoly := by
    have e1 := Matrix.charpoly_mul_comm' Q B
    have e2 := Matrix.charpoly_mul_comm' Q' B'
    rw [h] at e1
    exact (isRegular_X_pow _).left.eq_iff.1 (e1.symm.trans e2)
  have hm : Multiset.map (la.eigh (B * Q)).1 Finset.univ.val = Multiset.map (la'.eigh (B' * Q')).1 Finset.univ.val := by
    rw [← cp la _ hs, ← cp la' _ hs', e]
  have hl : ∀ f : Fin c → ℝ, Multiset.map f Finset.univ.val = (List.ofFn f : Multiset ℝ) := by
    intro f
    rw [List.ofFn_eq_map, ← Multiset.map_coe]; rfl
  rw [hl, hl, Multiset.coe_eq_coe] at hm
  exact List.ofFn_injective (hm.eq_of_sortedLE (la.eigh_mono _ hs).sortedLE_ofFn (la'.eigh_mono _ hs').sortedLE_ofFn)

/-- two argsorts of the same vector read the same values -/
theorem argsort_same (la la' : LinAlg) {c : ℕ} (v : Fin c → ℝ) (i : Fin c) :
    v (la.argsort v i) = v (la'.argsort v i) := by
  have h1 := (la.argsort_mono v).sortedLE_ofFn
  have h2 := (la'.argsort_mono v).sortedLE_ofFn
  have hp : ∀ σ : Equiv.Perm (Fin c), (List.ofFn (v ∘ σ)).Perm (List.ofFn v) := fun σ => σ.ofFn_comp_perm v
  have := ((hp (la.argsort v)).trans (hp (la'.argsort v)).symm).eq_of_sortedLE h1 h2
  exact congrFun (List.ofFn_injective this) i

/-- **C87** (`EVD1`).  Two backends, and two QB decomposers that return the same number of columns and the same product
`QB`, with `Q` orthonormal and `B = Q'A` for a symmetric `A`: EVD1 keeps the same number of components, with eigenvalues
of the same magnitudes in the same order - the same eigenvalues if `A` is positive semidefinite. -/
theorem C87_evd1_class (la la' : LinAlg) (qb qb' : QBDecomposer G) (A : Matrix (Fin n) (Fin n) ℝ) (hA : Aᵀ = A) (k : ℤ)
    (hk : 0 < k) (hk' : k ≤ n) (tol : Tol) (htol : tol = .nan ∨ ∃ t, tol = .val t ∧ 0 ≤ t) (over : ℕ)
    (w w' v v' : World G) (qbo qbo' : QBOut n n) (hqb : qb n n A (k + over) tol.half w = .ok (qbo, w'))
    (hqb' : qb' n n A (k + over) tol.half v = .ok (qbo', v')) (hc : qbo.c = qbo'.c)
    (hp : qbo.Q * qbo.B = qbo'.Q * qbo'.B) (hB : qbo.B = qbo.Qᵀ * A) (hB' : qbo'.B = qbo'.Qᵀ * A) :
    ∃ (out out' : EVDOut n) (e : out.r = out'.r), evd1Call la qb A k tol over w = .ok (out, w') ∧
      evd1Call la' qb' A k tol over v = .ok (out', v') ∧
      (∀ i, |out.lamb i| = |out'.lamb (Fin.cast e i)|) ∧
      (IsPSD A → ∀ i, out.lamb i = out'.lamb (Fin.cast e i)) := by
  obtain ⟨c, Q, B⟩ := qbo
  obtain ⟨c', Q', B'⟩ := qbo'
  simp only at hc hp hB hB'
  subst hc
  have hsy : ∀ {Q : Matrix (Fin n) (Fin c) ℝ} {B : Matrix (Fin c) (Fin n) ℝ}, B = Qᵀ * A → (B * Q)ᵀ = B * Q := by
    rintro Q B rfl
    rw [transpose_mul, transpose_mul, transpose_transpose, hA, Matrix.mul_assoc]
  have hl := eigh_same la la' hp (hsy hB) (hsy hB')
  have hab : ∀ i, |(la.eigh (B * Q)).1 ((la.argsort fun i => -|(la.eigh (B * Q)).1 i|) i)| =
      |(la'.eigh (B' * Q')).1 ((la'.argsort fun i => -|(la'.eigh (B' * Q')).1 i|) i)| := by
    intro i
    rw [← hl]
    exact neg_injective (argsort_same la la' (fun i => -|(la.eigh (B * Q)).1 i|) i)
  have hr : min (min k.toNat (min c (countAbove (la.eigh (B * Q)).1 (10 * eps)))) c =
      min (min k.toNat (min c (countAbove (la'.eigh (B' * Q')).1 (10 * eps)))) c := by rw [hl]
  refine ⟨_, _, hr, evd1_open la qb A k hk hk' tol htol over w w' _ hqb,
    evd1_open la' qb' A k hk hk' tol htol over v v' _ hqb', fun i => hab _, fun hpsd i => ?_⟩
  have nn : ∀ (la : LinAlg) {Q : Matrix (Fin n) (Fin c) ℝ} {B : Matrix (Fin c) (Fin n) ℝ}, B = Qᵀ * A →
      ∀ i, 0 ≤ (la.eigh (B * Q)).1 i := by
    intro la Q B hB i
    have hs := hsy hB
    have e : diagonal (la.eigh (B * Q)).1 = (la.eigh (B * Q)).2ᵀ * (B * Q) * (la.eigh (B * Q)).2 := by
      conv_rhs => enter [1, 2]; rw [← la.eigh_mul _ hs]
      have ho := la.eigh_orth _ hs
      simp only [Matrix.mul_assoc]
      rw [ho, Matrix.mul_one, ← Matrix.mul_assoc, ho, Matrix.one_mul]
    have e2 := congrFun (congrFun e i) i
    rw [diagonal_apply_eq] at e2
    rw [e2]
    have e3 : (la.eigh (B * Q)).2ᵀ * (B * Q) * (la.eigh (B * Q)).2 =
        (Q * (la.eigh (B * Q)).2)ᵀ * (A * (Q * (la.eigh (B * Q)).2)) := by
      obtain ⟨U, hU⟩ : ∃ U, U = (la.eigh (B * Q)).2 := ⟨_, rfl⟩
      rw [← hU, hB, transpose_mul]
      simp only [Matrix.mul_assoc]
    rw [e3]
    have := hpsd.2 fun j => (Q * (la.eigh (B * Q)).2) j i
    exact this
  have h1 := hab (takeIdx _ _ i)
  rw [abs_of_nonneg (nn la hB _), abs_of_nonneg (nn la' hB' _)] at h1
  exact h1

/-- **C87** (`evd1`).  For almost every sequence of Gaussian draws and symmetric `A`, if `k + over ≤ rank(A)` or everything
fits in one block, any two backends leave the same state and return the same number of eigenvalues, of the same
magnitudes; the same eigenvalues if `A` is positive semidefinite. -/
theorem C87_evd1 (A : Matrix (Fin n) (Fin n) ℝ) (hA : Aᵀ = A) (k over : ℕ) (hk : 0 < k) (hk' : k ≤ n) (p : ℤ)
    (hp : 2 ≤ p) (blk : ℕ) (hblk : 0 < blk) (hr : k + over ≤ A.rank ∨ min (k + over) n ≤ blk) :
    ∀ᵐ Zs ∂(normalSeq (startRows (p - 2) n n) (blockWidths (min (k + over) n) blk)),
      ∀ (G : Type) (la la' : LinAlg) (R : NpRng G) (tol : Tol) (w : World G),
      (tol = .nan ∨ ∃ t, tol = .val t ∧ 0 ≤ t) → NextDraws R _ w.rng Zs →
      ∃ (out out' : EVDOut n) (e : out.r = out'.r) (w' : World G),
        evd1 la (gaussianOperator R true) A k tol over p blk w = .ok (out, w') ∧
        evd1 la' (gaussianOperator R true) A k tol over p blk w = .ok (out', w') ∧
        (∀ i, |out.lamb i| = |out'.lamb (Fin.cast e i)|) ∧
        (IsPSD A → ∀ i, out.lamb i = out'.lamb (Fin.cast e i)) := by
  have hn : 0 < min n n := by omega
  have hko : 0 < k + over := by omega
  have hae := qb2Run_two A hn ((k + over : ℕ) : ℤ) (by exact_mod_cast hko) (p - 2) (by omega) blk hblk
  have hC := C63_qb_b A hn ((k + over : ℕ) : ℤ) (by exact_mod_cast hko) p hp blk hblk
  rw [Int.toNat_natCast, min_self] at hae hC
  filter_upwards [hae, hC] with Zs hZs hC G la la' R tol w htol hw
  obtain ⟨st, st', w', h1, h2, h3, -, h5⟩ := hZs G la la' R tol.half.half w hw
  have key : ∀ (la : LinAlg) (st : QB2St n n),
      qb2Run la (RF1 la (RS1 (gaussianOperator R true) (p - 2) (orth la) 1)) blk A ((k + over : ℕ) : ℤ) tol.half.half w =
        .ok (st, w') →
      st.B = st.Qᵀ * A ∧ QB2 la (RF1 la (RS1 (gaussianOperator R true) (p - 2) (orth la) 1)) blk false n n A
      ((k : ℤ) + over) tol.half.half w = .ok (⟨st.c, st.Q, st.B⟩, w') := by
    intro la st h
    refine ⟨?_, ?_⟩
    · obtain ⟨out, A', w'', g1, -, -, -, g5, -⟩ := hC G la R false tol.half.half w hw
      unfold qbB qb2Call at g1
      rw [Py.bind_eq_of_ok h] at g1
      cases g1
      exact (g5 (by
        rcases hr with h | h
        · left; exact_mod_cast h
        · right; exact_mod_cast h)).2
    · unfold QB2 qb2Call
      rw [← Nat.cast_add, Py.bind_eq_of_ok (Py.bind_eq_of_ok h)]; rfl
  obtain ⟨b1, q1⟩ := key la st h1
  obtain ⟨b2, q2⟩ := key la' st' h2
  have htol' : tol.half = .nan ∨ ∃ t, tol.half = .val t ∧ 0 ≤ t := by
    rcases htol with rfl | ⟨t, rfl, ht⟩
    · exact Or.inl rfl
    · exact Or.inr ⟨t / 2, rfl, by positivity⟩
  obtain ⟨out, out', e, c1, c2, hl, hl'⟩ := C87_evd1_class la la' _ _ A hA k (by exact_mod_cast hk)
    (by exact_mod_cast hk') tol.half htol' over w w' w w' _ _ q1 q2 h3 h5 b1 b2
  refine ⟨out, out', e, w', ?_, ?_, hl, hl'⟩
  · unfold evd1; rw [Py.assert_pos_bind hp]; exact c1
  · unfold evd1; rw [Py.assert_pos_bind hp]; exact c2

end Parla.Props
