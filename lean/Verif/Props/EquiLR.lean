import Verif.Proof.RotDraws
import Verif.Props.EVD2Error

/-! # C89: the low-rank functions in rotated coordinates and other units

Replace `A` by `a P A W` with `P`, `W` orthogonal and `a ≠ 0`.  Rotating the normals the functions draw does not
change their law; with the draws rotated accordingly, the results are those for `A`, rotated and scaled. -/

namespace Parla.Props

open Matrix Parla Spec MeasureTheory Proof

variable {G : Type} {m n : ℕ}

theorem colSpace_smul_ne {k : ℕ} {t : ℝ} (ht : t ≠ 0) (X : Matrix (Fin m) (Fin k) ℝ) : colSpace (t • X) = colSpace X := by
  apply le_antisymm
  · rw [show t • X = X * (t • (1 : Matrix (Fin k) (Fin k) ℝ)) by rw [Matrix.mul_smul, Matrix.mul_one]]
    exact colSpace_mul_le _ _
  · have : X = (t • X) * (t⁻¹ • (1 : Matrix (Fin k) (Fin k) ℝ)) := by
      rw [Matrix.mul_smul, Matrix.mul_one, smul_smul, inv_mul_cancel₀ ht, one_smul]
    conv_lhs => rw [this]
    exact colSpace_mul_le _ _

theorem rank_orth_mul {k : ℕ} {P : Matrix (Fin m) (Fin m) ℝ} (hP : Pᵀ * P = 1) (X : Matrix (Fin m) (Fin k) ℝ) :
    (P * X).rank = X.rank := by
  apply le_antisymm (rank_mul_le_right _ _)
  conv_lhs => rw [← Matrix.one_mul X, ← hP, Matrix.mul_assoc]
  exact rank_mul_le_right _ _

theorem rank_equi {a : ℝ} (ha : a ≠ 0) {P : Matrix (Fin m) (Fin m) ℝ} (hP : Pᵀ * P = 1) {W : Matrix (Fin n) (Fin n) ℝ}
    (hW : W * Wᵀ = 1) (A : Matrix (Fin m) (Fin n) ℝ) : (a • (P * A * W)).rank = A.rank := by
  rw [rank_smul_ne ha, Matrix.mul_assoc, rank_orth_mul hP]
  apply le_antisymm (rank_mul_le_left _ _)
  conv_lhs => rw [← Matrix.mul_one A, ← hW, ← Matrix.mul_assoc]
  exact rank_mul_le_left _ _

/-- the part of the matrix that remains, in new coordinates -/
theorem residual_equi {a t : ℝ} (ht : t ≠ 0) {P : Matrix (Fin m) (Fin m) ℝ} (hP : Pᵀ * P = 1)
    (W : Matrix (Fin n) (Fin n) ℝ) (A : Matrix (Fin m) (Fin n) ℝ) {b : ℕ} (Y : Matrix (Fin m) (Fin b) ℝ) :
    Proof.residual (a • (P * A * W)) (t • (P * Y)) = a • (P * Proof.residual A Y * W) := by
  have e : (t • (P * Y))ᵀ * (t • (P * Y)) = t ^ 2 • (Yᵀ * Y) := by
    rw [transpose_smul, Matrix.smul_mul, Matrix.mul_smul, smul_smul, ← sq, transpose_mul, Matrix.mul_assoc,
      ← Matrix.mul_assoc Pᵀ, hP, Matrix.one_mul]
  have ht2 : t ^ 2 ≠ 0 := pow_ne_zero 2 ht
  unfold Proof.residual
  rw [e, det_smul]
  by_cases hd : (Yᵀ * Y).det = 0
  · rw [if_pos hd, if_pos (by rw [hd, mul_zero]), Matrix.mul_zero, Matrix.zero_mul, smul_zero]
  · rw [if_neg hd, if_neg (mul_ne_zero (pow_ne_zero _ ht2) hd)]
    have hi : (t ^ 2 • (Yᵀ * Y))⁻¹ = (t ^ 2)⁻¹ • (Yᵀ * Y)⁻¹ := by
      apply inv_eq_right_inv
      rw [Matrix.smul_mul, Matrix.mul_smul, smul_smul, mul_inv_cancel₀ ht2, one_smul,
        mul_nonsing_inv _ (isUnit_iff_ne_zero.2 hd)]
    have hY : (t • (P * Y))ᵀ * (a • (P * A * W)) = (t * a) • (Yᵀ * A * W) := by
      rw [transpose_smul, Matrix.smul_mul, Matrix.mul_smul, smul_smul, transpose_mul]
      congr 1
      calc Yᵀ * Pᵀ * (P * A * W) = Yᵀ * (Pᵀ * P) * A * W := by simp only [Matrix.mul_assoc]
        _ = _ := by rw [hP, Matrix.mul_one]
    rw [hi, hY, Matrix.mul_sub, Matrix.sub_mul, smul_sub]
    congr 1
    simp only [Matrix.smul_mul, Matrix.mul_smul, smul_smul]
    congr 1
    · field_simp
    · simp only [Matrix.mul_assoc]

theorem orthoCols_rot {k : ℕ} {P : Matrix (Fin m) (Fin m) ℝ} (hP : Pᵀ * P = 1) {Q : Matrix (Fin m) (Fin k) ℝ}
    (hQ : OrthoCols Q) : OrthoCols (Pᵀ * Q) := by
  unfold OrthoCols at hQ ⊢
  rw [transpose_mul, transpose_transpose, Matrix.mul_assoc, ← Matrix.mul_assoc P, mul_eq_one_comm.1 hP, Matrix.one_mul, hQ]

/-- one rangefinder call in two coordinate systems: what is common to `rf1` and `qb` -/
theorem block_equi {r b : ℕ} {A : Matrix (Fin m) (Fin n) ℝ} {L : Matrix (Fin m) (Fin n) ℝ → Matrix (Fin m) (Fin r) ℝ}
    (hle : ∀ A, colSpace (L A) ≤ colSpace A) {a t : ℝ} (ht : t ≠ 0)
    {P : Matrix (Fin m) (Fin m) ℝ} (hP : Pᵀ * P = 1) {W : Matrix (Fin n) (Fin n) ℝ}
    {V : Matrix (Fin r) (Fin r) ℝ} (hV : ∀ A, L (a • (P * A * W)) * V = t • (P * L A)) {Z : Fin r × Fin b → ℝ}
    (hg : (L A * drawMat Z).rank = min b A.rank) {Q Q' : Cols m} (hc : Q.c = b) (hc' : Q'.c = b)
    (ho : OrthoCols Q.mat) (ho' : OrthoCols Q'.mat) (h : colSpace (L A * drawMat Z) ≤ colSpace Q.mat)
    (h' : colSpace (L (a • (P * A * W)) * drawMat (rotDraw V Z)) ≤ colSpace Q'.mat) :
    Q'.mat * Q'.matᵀ * (a • (P * A * W)) = a • (P * (Q.mat * Q.matᵀ * A) * W) ∧
      (b ≤ A.rank → Q'.mat * Q'.matᵀ = P * (Q.mat * Q.matᵀ) * Pᵀ) := by
  have hPP : P * Pᵀ = 1 := mul_eq_one_comm.1 hP
  rw [drawMat_rot, ← Matrix.mul_assoc, hV, Matrix.smul_mul, colSpace_smul_ne ht, Matrix.mul_assoc] at h'
  have h'' : colSpace (L A * drawMat Z) ≤ colSpace (Pᵀ * Q'.mat) := by
    have := colSpace_mul_mono Pᵀ h'
    rwa [← Matrix.mul_assoc, hP, Matrix.one_mul] at this
  obtain ⟨e1, e2⟩ := same_block (Q := Q) (Q' := ⟨Q'.c, Pᵀ * Q'.mat⟩) (hle A) hg hc hc' ho (orthoCols_rot hP ho') h h''
  simp only [transpose_mul, transpose_transpose] at e1 e2
  constructor
  · rw [e1, Matrix.mul_smul]
    congr 1
    have : P * (Pᵀ * Q'.mat * (Q'.matᵀ * P) * A) * W = (P * Pᵀ) * Q'.mat * Q'.matᵀ * P * A * W := by
      simp only [Matrix.mul_assoc]
    rw [this, hPP, Matrix.one_mul]
    simp only [Matrix.mul_assoc]
  · intro hb
    rw [e2 hb]
    have : P * (Pᵀ * Q'.mat * (Q'.matᵀ * P)) * Pᵀ = (P * Pᵀ) * Q'.mat * Q'.matᵀ * (P * Pᵀ) := by
      simp only [Matrix.mul_assoc]
    rw [this, hPP, Matrix.one_mul, Matrix.mul_one]

/-- **C89** (`rf1`).  There is a map of the draws that does not change their law (the identity if `P` and `W` are) such
that for almost every Gaussian draw `Z`: in any two runs, on `A` with draw `Z` and on `a P A W` with the mapped draw,
the two bases have `k` columns and the second captures of its matrix exactly what the first captures, in new
coordinates; if `k ≤ rank(A)` the second spans the first one's range, rotated. -/
theorem C89_rf1 (A : Matrix (Fin m) (Fin n) ℝ) (k : ℕ) (hk : 0 < k) (hk' : k ≤ min m n) (p : ℤ) (hp : 1 ≤ p)
    {a : ℝ} (ha : a ≠ 0) (P : Matrix (Fin m) (Fin m) ℝ) (hP : Pᵀ * P = 1) (W : Matrix (Fin n) (Fin n) ℝ) (hW : W * Wᵀ = 1) :
    ∃ φ : (Fin (startRows (p - 1) m n) × Fin k → ℝ) → Fin (startRows (p - 1) m n) × Fin k → ℝ,
      MeasurePreserving φ (normals _ k) (normals _ k) ∧ (P = 1 → W = 1 → φ = id) ∧
      ∀ᵐ Z ∂(normals (startRows (p - 1) m n) k), ∀ (G : Type) (la la' : LinAlg) (R R' : NpRng G) (w v : World G),
      NextNormal R w _ _ Z → NextNormal R' v _ _ (φ Z) →
      ∃ Q Q' w' v', rf1 la (gaussianOperator R true) A k p w = .ok (Q, w') ∧
        rf1 la' (gaussianOperator R' true) (a • (P * A * W)) k p v = .ok (Q', v') ∧ Q.c = k ∧ Q'.c = k ∧
        Q'.mat * Q'.matᵀ * (a • (P * A * W)) = a • (P * (Q.mat * Q.matᵀ * A) * W) ∧
        (k ≤ A.rank → Q'.mat * Q'.matᵀ = P * (Q.mat * Q.matᵀ) * Pᵀ) := by
  obtain ⟨L, hL, hE⟩ := exists_powMap_equi (m := m) (n := n) (p - 1)
  obtain ⟨V, hV, hV1, hE⟩ := hE P hP W hW
  obtain ⟨t, ht, hE⟩ := hE a ha
  refine ⟨rotDraw V, rotDraw_mp hV, fun h1 h2 => by rw [hV1 h1 h2]; funext Z; exact rotDraw_one Z, ?_⟩
  filter_upwards [Proof.ae_rank_mul (μ := stdNormal) (L A) k] with Z hZ G la la' R R' w v hw hv
  rw [hL.rank] at hZ
  obtain ⟨Q, w', h1, -, h3, h4, h5⟩ := rf_step (by omega) hL la R A hk hk' (afterTolWarning (.val 0) w) hw
  obtain ⟨Q', v', h1', -, h3', h4', h5'⟩ := rf_step (by omega) hL la' R' (a • (P * A * W)) hk hk'
    (afterTolWarning (.val 0) v) hv
  have tr : ∀ (la : LinAlg) (R : NpRng G) (A : Matrix (Fin m) (Fin n) ℝ) (Q : Cols m) (w w' : World G),
      RF1 la (RS1 (gaussianOperator R true) (p - 1) (orth la) 1) m n A (k : ℤ) .nan
      (afterTolWarning (.val 0) w) = .ok (Q, w') → rf1 la (gaussianOperator R true) A k p w = .ok (Q, w') := by
    intro la R A Q w w' h
    have h' := (rf1Call_ok_iff la _ A k _ _ _ _).1 h
    exact (rf1Call_ok_iff la _ A k _ _ _ _).2 h'
  obtain ⟨e1, e2⟩ := block_equi hL.le ht hP hE hZ h3 h3' h4 h4' h5 h5'
  exact ⟨Q, Q', w', v', tr la R A Q w w' h1, tr la' R' _ Q' v v' h1', h3, h3', e1, e2⟩

/-- **C89** (`qb`).  As for `rf1`: the product on `a P A W` is `a P (QB) W`. -/
theorem C89_qb (A : Matrix (Fin m) (Fin n) ℝ) (k : ℕ) (hk : 0 < k) (hk' : k ≤ min m n) (p : ℤ) (hp : 2 ≤ p)
    {a : ℝ} (ha : a ≠ 0) (P : Matrix (Fin m) (Fin m) ℝ) (hP : Pᵀ * P = 1) (W : Matrix (Fin n) (Fin n) ℝ) (hW : W * Wᵀ = 1) :
    ∃ φ : (Fin (startRows (p - 2) m n) × Fin k → ℝ) → Fin (startRows (p - 2) m n) × Fin k → ℝ,
      MeasurePreserving φ (normals _ k) (normals _ k) ∧ (P = 1 → W = 1 → φ = id) ∧
      ∀ᵐ Z ∂(normals (startRows (p - 2) m n) k), ∀ (G : Type) (la la' : LinAlg) (R R' : NpRng G) (w v : World G),
      NextNormal R w _ _ Z → NextNormal R' v _ _ (φ Z) →
      ∃ out out' w' v', qb la (gaussianOperator R true) p A k w = .ok (out, w') ∧
        qb la' (gaussianOperator R' true) p (a • (P * A * W)) k v = .ok (out', v') ∧ out.c = k ∧ out'.c = k ∧
        out'.Q * out'.B = a • (P * (out.Q * out.B) * W) ∧
        (k ≤ A.rank → out'.Q * out'.Qᵀ = P * (out.Q * out.Qᵀ) * Pᵀ) := by
  obtain ⟨L, hL, hE⟩ := exists_powMap_equi (m := m) (n := n) (p - 2)
  obtain ⟨V, hV, hV1, hE⟩ := hE P hP W hW
  obtain ⟨t, ht, hE⟩ := hE a ha
  refine ⟨rotDraw V, rotDraw_mp hV, fun h1 h2 => by rw [hV1 h1 h2]; funext Z; exact rotDraw_one Z, ?_⟩
  filter_upwards [Proof.ae_rank_mul (μ := stdNormal) (L A) k] with Z hZ G la la' R R' w v hw hv
  rw [hL.rank] at hZ
  obtain ⟨Q, w', h1, -, h3, h4, h5⟩ := rf_step (by omega) hL la R A hk hk' w hw
  obtain ⟨Q', v', h1', -, h3', h4', h5'⟩ := rf_step (by omega) hL la' R' (a • (P * A * W)) hk hk' v hv
  have tr : ∀ (la : LinAlg) (R : NpRng G) (A : Matrix (Fin m) (Fin n) ℝ) (Q : Cols m) (w w' : World G),
      RF1 la (RS1 (gaussianOperator R true) (p - 2) (orth la) 1) m n A (k : ℤ) .nan
      w = .ok (Q, w') → qb la (gaussianOperator R true) p A k w =
        .ok (⟨Q.c, Q.mat, Q.matᵀ * A⟩, { w' with trace := w'.trace ++ [.mulAT] }) := by
    intro la R A Q w w' h
    obtain ⟨out, g1, rfl, -⟩ := C04_qb1 _ A k .nan w _ _ (by exact_mod_cast hk) (by exact_mod_cast hk') trivial h
    exact g1
  obtain ⟨e1, e2⟩ := block_equi hL.le ht hP hE hZ h3 h3' h4 h4' h5 h5'
  refine ⟨_, _, _, _, tr la R A Q w w' h1, tr la' R' _ Q' v v' h1', h3, h3', ?_, e2⟩
  change Q'.mat * (Q'.matᵀ * _) = a • (P * (Q.mat * (Q.matᵀ * A)) * W)
  rw [← Matrix.mul_assoc, ← Matrix.mul_assoc Q.mat, e1]

/-! ## blocks -/

/-- the second run's generator returns the rotated arrays -/
theorem nextDraws_rot {r : ℕ} {V : Matrix (Fin r) (Fin r) ℝ} {R : NpRng G} {b : ℕ} {bs : List ℕ} {g : G}
    {Z : Draws r (b :: bs)} (h : NextDraws R (b :: bs) g (rotDraws V (b :: bs) Z)) :
    (R.standardNormal r b g).1 = drawMat (b := b) (rotDraw V Z.1) ∧
      NextDraws R bs (R.standardNormal r b g).2 (rotDraws V bs Z.2) := h

/-- the loop of QB2 in two coordinate systems -/
theorem loop_equi {p : ℤ} (hp : 0 ≤ p) {r : ℕ} {L : Matrix (Fin m) (Fin n) ℝ → Matrix (Fin m) (Fin r) ℝ}
    (hL : PowMap p L) {a t : ℝ} (ha : a ≠ 0) (ht : t ≠ 0) {P : Matrix (Fin m) (Fin m) ℝ} (hP : Pᵀ * P = 1)
    {W : Matrix (Fin n) (Fin n) ℝ} (hW : W * Wᵀ = 1) {V : Matrix (Fin r) (Fin r) ℝ}
    (hV : ∀ A, L (a • (P * A * W)) * V = t • (P * L A))
    (la la' : LinAlg) (R R' : NpRng G) (A0 A0' : Matrix (Fin m) (Fin n) ℝ) {K blk : ℕ} (hblk : 0 < blk)
    (hK : K ≤ min m n) (useTol : Prop) (tl : ℝ) (fuel : ℕ) (st st' : QB2St m n) (w v : World G) (hc : st.c < K)
    (hf : K - st.c < fuel) (hst : st.blk = blk) (hst' : st'.blk = blk) (hcc : st.c = st'.c)
    (hA : st'.A = a • (P * st.A * W))
    (bs : List ℕ) (hbs : bs = blockWidths (K - st.c) blk)
    (Zs : Draws r bs) (hI : QB2Inv A0 st) (hI' : QB2Inv A0' st') (hF : QB2Full A0 st ∨ st.A = 0)
    (hF' : QB2Full A0' st' ∨ st'.A = 0)
    (hg : AllGood L bs st.A Zs) (hR : NextDraws R bs w.rng Zs) (hR' : NextDraws R' bs v.rng (rotDraws V bs Zs)) :
    ∃ out out' w' v', qb2Loop la (RF1 la (RS1 (gaussianOperator R true) p (orth la) 1)) K useTol tl fuel st w =
      .ok (out, w') ∧ qb2Loop la' (RF1 la' (RS1 (gaussianOperator R' true) p (orth la') 1)) K useTol (a ^ 2 * tl) fuel st' v =
      .ok (out', v') ∧ out.c = out'.c ∧ out'.A = a • (P * out.A * W) ∧ QB2Inv A0 out ∧ QB2Inv A0' out' := by
  have hfr : ∀ X : Matrix (Fin m) (Fin n) ℝ, froSq (a • (P * X * W)) = a ^ 2 * froSq X := by
    intro X
    rw [← fro_sq, fro_smul_le, mul_pow, sq_abs, fro_sq, froSq_mul_orth hW, froSq_orth_mul hP]
  induction fuel generalizing st st' w v bs with
  | zero => omega
  | succ fuel ih =>
    rw [blockWidths_pos (by omega) hblk] at hbs
    subst hbs
    obtain ⟨hR1', hR2'⟩ := nextDraws_rot hR'
    obtain ⟨Z, Zs⟩ := Zs
    obtain ⟨hg1, hg2⟩ := hg
    obtain ⟨hR1, hR2⟩ := hR
    simp only at hR1' hR2'
    have hblkeq : qb2Blk K st.c st.blk = min blk (K - st.c) := by
      unfold qb2Blk; rw [hst]; split <;> omega
    have hblkeq' : qb2Blk K st'.c st'.blk = min blk (K - st.c) := by
      unfold qb2Blk; rw [hst', hcc]; split <;> omega
    obtain ⟨Q, w1, h1, h2, h3, h4, h5⟩ := rf_step hp hL la R st.A (b := min blk (K - st.c)) (by omega) (by omega) w hR1
    obtain ⟨Q', v1, h1', h2', h3', h4', h5'⟩ := rf_step hp hL la' R' st'.A (b := min blk (K - st.c)) (by omega)
      (by omega) v hR1'
    have hY : L st'.A * drawMat (rotDraw V Z) = t • (P * (L st.A * drawMat Z)) := by
      rw [drawMat_rot, ← Matrix.mul_assoc, hA, hV, Matrix.smul_mul, Matrix.mul_assoc]
    obtain ⟨g1, g2, g3⟩ := block_step hL.le la hI hF (by omega) Q h3 h4 hg1 h5
    obtain ⟨g1', g2', g3'⟩ := block_step hL.le la' hI' hF' (by omega) Q' h3' h4'
      (by rw [hY, rank_smul_ne ht, rank_orth_mul hP, hA, rank_equi ha hP hW]; exact hg1) h5'
    rw [hY, hA, residual_equi ht hP, ← g2] at g2'
    have hIn := qb2Inv_update la hI (min blk (K - st.c)) Q
    have hIn' := qb2Inv_update la' hI' (min blk (K - st.c)) Q'
    have hsq : (qb2Update la' (min blk (K - st.c)) st' Q').sqn = a ^ 2 * (qb2Update la (min blk (K - st.c)) st Q).sqn := by
      rw [hIn.2, hIn'.2, g2', hfr]
    have hcn : (qb2Update la (min blk (K - st.c)) st Q).c = st.c + min blk (K - st.c) := by
      change st.c + min m Q.c = _
      omega
    have hcn' : (qb2Update la' (min blk (K - st.c)) st' Q').c = st.c + min blk (K - st.c) := by
      change st'.c + min m Q'.c = _
      omega
    obtain ⟨a1, a2⟩ := qb2Loop_step la _ K useTol tl fuel st w hblkeq h1
    obtain ⟨a1', a2'⟩ := qb2Loop_step la' _ K useTol (a ^ 2 * tl) fuel st' v hblkeq' h1'
    rw [hsq, hcn', mul_le_mul_iff_right₀ (by positivity : 0 < a ^ 2)] at a1' a2'
    rw [hcn] at a1 a2
    by_cases c1 : (useTol ∧ (qb2Update la (min blk (K - st.c)) st Q).sqn ≤ tl) ∨ st.c + min blk (K - st.c) ≥ K
    · rw [a1 c1, a1' c1]
      exact ⟨_, _, _, _, rfl, rfl, hcn.trans hcn'.symm, g2', hIn, hIn'⟩
    · rw [a2 c1, a2' c1]
      · obtain ⟨-, hge⟩ := not_or.1 c1
        refine ih _ _ { w1 with trace := w1.trace ++ [.mulAT] } { v1 with trace := v1.trace ++ [.mulAT] } (by omega) (by omega)
          ?_ ?_ (hcn.trans hcn'.symm) g2' _ ?_ Zs hIn hIn' g3 g3' ?_ ?_ ?_
        · change min blk (K - st.c) = blk
          omega
        · change min blk (K - st.c) = blk
          omega
        · rw [hcn, Nat.sub_sub]
        · rw [g2]; exact hg2
        · rw [h2]; exact hR2
        · rw [h2']; exact hR2'

theorem qb2Run_equi (A : Matrix (Fin m) (Fin n) ℝ) (hmn : 0 < min m n) (k : ℤ) (hk : 0 < k) (p : ℤ) (hp : 0 ≤ p)
    (blk : ℕ) (hblk : 0 < blk)
    {a : ℝ} (ha : a ≠ 0) (P : Matrix (Fin m) (Fin m) ℝ) (hP : Pᵀ * P = 1) (W : Matrix (Fin n) (Fin n) ℝ) (hW : W * Wᵀ = 1) :
    ∃ φ : Draws (startRows p m n) (blockWidths (min k.toNat (min m n)) blk) → Draws _ _,
      MeasurePreserving φ (normalSeq _ _) (normalSeq _ _) ∧ (P = 1 → W = 1 → φ = id) ∧
    ∀ᵐ Zs ∂(normalSeq (startRows p m n) (blockWidths (min k.toNat (min m n)) blk)),
      ∀ (G : Type) (la la' : LinAlg) (R R' : NpRng G) (tol : Tol) (w v : World G), NextDraws R _ w.rng Zs →
      NextDraws R' _ v.rng (φ Zs) →
      ∃ st st' w' v', qb2Run la (RF1 la (RS1 (gaussianOperator R true) p (orth la) 1)) blk A k tol w = .ok (st, w') ∧
        qb2Run la' (RF1 la' (RS1 (gaussianOperator R' true) p (orth la') 1)) blk (a • (P * A * W)) k tol v = .ok (st', v') ∧
        st.c = st'.c ∧ st'.A = a • (P * st.A * W) ∧ st'.Q * st'.B = a • (P * (st.Q * st.B) * W) := by
  obtain ⟨L, hL, hE⟩ := exists_powMap_equi (m := m) (n := n) p
  obtain ⟨V, hV, hV1, hE⟩ := hE P hP W hW
  obtain ⟨t, ht, hE⟩ := hE a ha
  refine ⟨rotDraws V _, rotDraws_mp hV _, fun h1 h2 => by rw [hV1 h1 h2]; funext Z; exact rotDraws_one _ Z, ?_⟩
  have : IsProbabilityMeasure stdNormal := by unfold stdNormal; infer_instance
  filter_upwards [allGood_ae (μ := stdNormal) L hL.meas hL.rank (blockWidths (min k.toNat (min m n)) blk) A]
    with Zs hZs G la la' R R' tol w v hw hv
  rw [qb2Run_open w hk, qb2Run_open v hk]
  have hcl : clampK k m n = min k.toNat (min m n) := rfl
  have hF : ∀ A : Matrix (Fin m) (Fin n) ℝ, QB2Full A (qb2Init A blk) ∨ (qb2Init A blk).A = 0 :=
    fun A => Or.inl ⟨orth_empty _, by ext i; exact i.elim0, rfl⟩
  have htl : absSqTol tol (a • (P * A * W)) = a ^ 2 * absSqTol tol A := by
    unfold absSqTol
    cases tol with
    | nan => rw [mul_zero]
    | val t =>
      simp only
      rw [fro_smul_le, mul_pow, sq_abs, fro_sq, froSq_mul_orth hW, froSq_orth_mul hP, fro_sq, mul_assoc]
  rw [htl]
  obtain ⟨st, st', w', v', h1, h2, h3, h4, h5, h6⟩ := loop_equi hp hL ha ht hP hW hE la la' R R' A (a • (P * A * W))
    (K := clampK k m n) hblk
    (by rw [hcl]; omega) tol.use (absSqTol tol A) (clampK k m n + 1) (qb2Init A blk) (qb2Init (a • (P * A * W)) blk)
    (if k ≤ (min m n : ℕ) then w else { w with warns := w.warns + 1 })
    (if k ≤ (min m n : ℕ) then v else { v with warns := v.warns + 1 })
    (by change 0 < _; rw [hcl]; omega) (by change _ - 0 < _; omega) rfl rfl rfl rfl _ rfl Zs (qb2Inv_init A blk)
    (qb2Inv_init _ blk) (hF _) (hF _) hZs (by split <;> exact hw) (by split <;> exact hv)
  refine ⟨st, st', w', v', h1, h2, h3, h4, ?_⟩
  have e : st'.Q * st'.B = a • (P * A * W) - st'.A := by rw [h6.1, sub_sub_cancel]
  have e' : st.Q * st.B = A - st.A := by rw [h5.1, sub_sub_cancel]
  rw [e, e', h4, Matrix.mul_sub, Matrix.sub_mul, smul_sub]

/-- the a.e. set of draws on which a property of runs on `A'` holds, transported by a map that keeps the law -/
theorem ae_comp {α : Type} [MeasurableSpace α] {μ : Measure α} {φ : α → α} (hφ : MeasurePreserving φ μ μ) {p : α → Prop}
    (h : ∀ᵐ x ∂μ, p x) : ∀ᵐ x ∂μ, p (φ x) := hφ.quasiMeasurePreserving.ae h

/-- **C89** (`qb_b`).  With the same (relative) tolerance: the same number of columns, the product `a P (QB) W`, and what is
left in the caller's array transformed in the same way; if `k ≤ rank(A)`, `Q` spans the rotated range. -/
theorem C89_qb_b (A : Matrix (Fin m) (Fin n) ℝ) (hmn : 0 < min m n) (k : ℤ) (hk : 0 < k) (p : ℤ) (hp : 2 ≤ p)
    (blk : ℕ) (hblk : 0 < blk)
    {a : ℝ} (ha : a ≠ 0) (P : Matrix (Fin m) (Fin m) ℝ) (hP : Pᵀ * P = 1) (W : Matrix (Fin n) (Fin n) ℝ) (hW : W * Wᵀ = 1) :
    ∃ φ : Draws (startRows (p - 2) m n) (blockWidths (min k.toNat (min m n)) blk) → Draws _ _,
      MeasurePreserving φ (normalSeq _ _) (normalSeq _ _) ∧ (P = 1 → W = 1 → φ = id) ∧
    ∀ᵐ Zs ∂(normalSeq (startRows (p - 2) m n) (blockWidths (min k.toNat (min m n)) blk)),
      ∀ (G : Type) (la la' : LinAlg) (R R' : NpRng G) (ow : Bool) (tol : Tol) (w v : World G), NextDraws R _ w.rng Zs →
      NextDraws R' _ v.rng (φ Zs) →
      ∃ (out out' : QBOut m n) (A₁ A₁' : Matrix (Fin m) (Fin n) ℝ) (w' v' : World G),
        qbB la (gaussianOperator R true) p blk ow A k tol w = .ok ((out, A₁), w') ∧
        qbB la' (gaussianOperator R' true) p blk ow (a • (P * A * W)) k tol v = .ok ((out', A₁'), v') ∧
        out.c = out'.c ∧ out'.Q * out'.B = a • (P * (out.Q * out.B) * W) ∧ A₁' = a • (P * A₁ * W) ∧
        (k ≤ A.rank → out'.Q * out'.Qᵀ = P * (out.Q * out.Qᵀ) * Pᵀ) := by
  obtain ⟨φ, hφ, hφ1, hae⟩ := qb2Run_equi A hmn k hk (p - 2) (by omega) blk hblk ha P hP W hW
  refine ⟨φ, hφ, hφ1, ?_⟩
  filter_upwards [hae, C63_qb_b A hmn k hk p hp blk hblk, ae_comp hφ (C63_qb_b (a • (P * A * W)) hmn k hk p hp blk hblk)]
    with Zs hZs hC hC' G la la' R R' ow tol w v hw hv
  obtain ⟨st, st', w', v', h1, h2, h3, h4, h5⟩ := hZs G la la' R R' tol w v hw hv
  have tr : ∀ (la : LinAlg) (R : NpRng G) (A : Matrix (Fin m) (Fin n) ℝ) (st : QB2St m n) (w w' : World G),
      qb2Run la (RF1 la (RS1 (gaussianOperator R true) (p - 2) (orth la) 1)) blk A k tol w = .ok (st, w') →
      qbB la (gaussianOperator R true) p blk ow A k tol w =
        .ok ((⟨st.c, st.Q, st.B⟩, if ow then st.A else A), w') := by
    intro la R A st w w' h
    unfold qbB qb2Call
    rw [Py.bind_eq_of_ok h]
    rfl
  have c1 := tr la R A st w w' h1
  have c2 := tr la' R' _ st' v v' h2
  have hov : (if ow then st'.A else a • (P * A * W)) = a • (P * (if ow then st.A else A) * W) := by
    cases ow with
    | false => rfl
    | true => exact h4
  refine ⟨_, _, _, _, _, _, c1, c2, h3, h5, hov, fun hr => ?_⟩
  have key : ∀ {A : Matrix (Fin m) (Fin n) ℝ} {out : QBOut m n}, k ≤ A.rank → (out.c : ℤ) ≤ min k (min m n : ℕ) →
      (A - out.Q * out.B).rank = A.rank - out.c → OrthoCols out.Q → colSpace out.Q = colSpace (out.Q * out.B) := by
    intro A out hr g2 g4 g5
    refine (Submodule.eq_of_le_of_finrank_le (colSpace_mul_le _ _) ?_).symm
    rw [finrank_colSpace, finrank_colSpace]
    have hq : out.Q.rank = out.c := orthoCols_rank g5
    have hsub := rank_add_le' (A - out.Q * out.B) (out.Q * out.B)
    rw [sub_add_cancel] at hsub
    omega
  obtain ⟨out, A', w'', g1, g2, -, g4, g5, -⟩ := hC G la R ow tol w hw
  rw [c1] at g1
  cases g1
  obtain ⟨out', A'', v'', g1', g2', -, g4', g5', -⟩ := hC' G la' R' ow tol v hv
  rw [c2] at g1'
  cases g1'
  have hr' : k ≤ (a • (P * A * W)).rank := by rw [rank_equi ha hP hW]; exact hr
  have o1 : OrthoCols st.Q := (g5 (Or.inl hr)).1
  have o2 : OrthoCols st'.Q := (g5' (Or.inl hr')).1
  have s1 : colSpace st.Q = colSpace (st.Q * st.B) := key (out := ⟨st.c, st.Q, st.B⟩) hr g2 g4 o1
  have s2 : colSpace st'.Q = colSpace (st'.Q * st'.B) := key (out := ⟨st'.c, st'.Q, st'.B⟩) hr' g2' g4' o2
  have s3 : colSpace (P * st.Q) = colSpace st'.Q := by
    rw [s2, h5, colSpace_smul_ne ha]
    have hWs : colSpace (P * (st.Q * st.B) * W) = colSpace (P * (st.Q * st.B)) := by
      refine le_antisymm (colSpace_mul_le _ _) ?_
      have : P * (st.Q * st.B) = P * (st.Q * st.B) * W * Wᵀ := by rw [Matrix.mul_assoc _ W, hW, Matrix.mul_one]
      conv_lhs => rw [this]
      exact colSpace_mul_le _ _
    rw [hWs]
    exact le_antisymm (colSpace_mul_mono P s1.le) (colSpace_mul_mono P s1.ge)
  have o3 : OrthoCols (P * st.Q) := by
    have := orthoCols_rot (P := Pᵀ) (by rw [transpose_transpose]; exact mul_eq_one_comm.1 hP) o1
    rwa [transpose_transpose] at this
  have hu : IsUnit (st'.Qᵀ * st'.Q).det := by rw [o2]; simp
  have e1 := proj_unique o3 hu s3
  have e2 := proj_unique o2 hu rfl
  change st'.Q * st'.Qᵀ = P * (st.Q * st.Qᵀ) * Pᵀ
  rw [e2, ← e1, transpose_mul]
  simp only [Matrix.mul_assoc]

/-! ## SVD1 -/

/-- with `over = 0`, SVD1's product is `QB` times the projection on the right singular vectors that are kept -/
theorem svd1_pre (la : LinAlg) {c r : ℕ} (Q : Matrix (Fin m) (Fin c) ℝ) (B : Matrix (Fin c) (Fin n) ℝ) (hr : r ≤ min c n)
    (hi : ∀ i : Fin (min c n), i.1 < r ↔ 10 * eps ≤ (la.svd B).2.1 i) :
    Q * (la.svd B).1.submatrix id (Fin.castLE hr) * diagonal ((la.svd B).2.1 ∘ Fin.castLE hr) *
        (la.svd B).2.2.submatrix (Fin.castLE hr) id =
      Q * B * ((la.svd B).2.2ᵀ * diagonal (fun i => if 10 * eps ≤ (la.svd B).2.1 i then (1 : ℝ) else 0) * (la.svd B).2.2) ∧
    ((la.svd B).2.2.submatrix (Fin.castLE hr) id)ᵀ * (la.svd B).2.2.submatrix (Fin.castLE hr) id =
      (la.svd B).2.2ᵀ * diagonal (fun i => if 10 * eps ≤ (la.svd B).2.1 i then (1 : ℝ) else 0) * (la.svd B).2.2 := by
  have hV := prefix_pred hr (la.svd B).2.2 (fun _ => 1) (fun x => 10 * eps ≤ x) (la.svd B).2.1 hi
  have hd : diagonal ((fun _ => (1 : ℝ)) ∘ Fin.castLE hr) = (1 : Matrix (Fin r) (Fin r) ℝ) := by
    rw [show ((fun _ => (1 : ℝ)) ∘ Fin.castLE hr) = fun _ => (1 : ℝ) from rfl, diagonal_one]
  rw [hd, Matrix.mul_one] at hV
  refine ⟨?_, hV⟩
  have e : B * (la.svd B).2.2ᵀ = (la.svd B).1 * diagonal (la.svd B).2.1 := by
    conv_lhs => enter [1]; rw [← la.svd_mul B]
    rw [Matrix.mul_assoc, la.svd_right, Matrix.mul_one]
  have b1 : B * ((la.svd B).2.2.submatrix (Fin.castLE hr) id)ᵀ =
      (la.svd B).1.submatrix id (Fin.castLE hr) * diagonal ((la.svd B).2.1 ∘ Fin.castLE hr) := by
    ext i j
    have := congrFun (congrFun e i) (Fin.castLE hr j)
    rw [mul_diagonal] at this ⊢
    exact this
  rw [← hV, Matrix.mul_assoc Q, ← b1]
  simp only [Matrix.mul_assoc]

/-- **C89** (`SVD1`).  Two QB decompositions with orthonormal `Q`s and products `QB` and `a P (QB) W`: the singular values of
the second are `|a|` times those of the first.  For `|a| = 1` the same number is kept, for `|a| ≥ 1` at least as many
(the cutoff is absolute); for `|a| = 1` and without oversampling the approximation and the right singular space
are the rotated ones. -/
theorem C89_svd1_class (la la' : LinAlg) (qb qb' : QBDecomposer G) (A A' : Matrix (Fin m) (Fin n) ℝ) (k : ℕ) (tol tol' : Tol)
    (over : ℕ) (w w' v v' : World G) (qbo qbo' : QBOut m n)
    (hqb : qb m n A ((k + over : ℕ) : ℤ) tol w = .ok (qbo, w'))
    (hqb' : qb' m n A' ((k + over : ℕ) : ℤ) tol' v = .ok (qbo', v'))
    (hQ : OrthoCols qbo.Q) (hQ' : OrthoCols qbo'.Q) (hc : qbo.c = qbo'.c)
    {a : ℝ} (P : Matrix (Fin m) (Fin m) ℝ) (hP : Pᵀ * P = 1) (W : Matrix (Fin n) (Fin n) ℝ) (hW : W * Wᵀ = 1)
    (hp : qbo'.Q * qbo'.B = a • (P * (qbo.Q * qbo.B) * W)) :
    ∃ out out' : SVDOut m n,
      svd1Call la qb A k tol over w = .ok (out, w') ∧ svd1Call la' qb' A' k tol' over v = .ok (out', v') ∧
      (∀ i j, i.1 = j.1 → out'.s j = |a| * out.s i) ∧ (|a| = 1 → out'.r = out.r) ∧ (1 ≤ |a| → out.r ≤ out'.r) ∧
      (|a| = 1 → over = 0 → out'.U * diagonal out'.s * out'.Vh = a • (P * (out.U * diagonal out.s * out.Vh) * W) ∧
        out'.Vhᵀ * out'.Vh = Wᵀ * (out.Vhᵀ * out.Vh) * W) := by
  obtain ⟨r, hr, h1, hi⟩ := svd1_open la qb A k tol over w w' qbo hqb
  obtain ⟨r', hr', h1', hi'⟩ := svd1_open la' qb' A' k tol' over v v' qbo' hqb'
  obtain ⟨c, Q, B⟩ := qbo
  obtain ⟨c', Q', B'⟩ := qbo'
  simp only at hQ hQ' hc hp hr hr' hi hi' h1 h1'
  subst hc
  have gram : ∀ {Q : Matrix (Fin m) (Fin c) ℝ} {B : Matrix (Fin c) (Fin n) ℝ}, OrthoCols Q →
      Bᵀ * B = (Q * B)ᵀ * (Q * B) := by
    intro Q B hQ
    have hQ : Qᵀ * Q = 1 := hQ
    rw [transpose_mul, Matrix.mul_assoc, ← Matrix.mul_assoc Qᵀ, hQ, Matrix.one_mul]
  have hg : B'ᵀ * B' = a ^ 2 • (Wᵀ * (Bᵀ * B) * W) := by
    have := gram_equi (A := Q * B) hP hW a 1
    rw [pow_one, pow_one, mul_one] at this
    rw [gram hQ', gram hQ, hp, ← Matrix.mul_one ((a • (P * (Q * B) * W))ᵀ * _), ← mul_eq_one_comm.1 hW, ← Matrix.mul_assoc, this,
      Matrix.smul_mul]
  have hVW : (la.svd B).2.2 * W * ((la.svd B).2.2 * W)ᵀ = 1 := by
    rw [transpose_mul, Matrix.mul_assoc, ← Matrix.mul_assoc W, hW, Matrix.one_mul, la.svd_right]
  have hsp : ((la.svd B).2.2 * W)ᵀ * diagonal (fun i => (|a| * (la.svd B).2.1 i) ^ 2) * ((la.svd B).2.2 * W) =
      (la'.svd B').2.2ᵀ * diagonal (fun i => (la'.svd B').2.1 i ^ 2) * (la'.svd B').2.2 := by
    rw [← svd_gram (la'.svd_mul B') (la'.svd_left B'), hg, svd_gram (la.svd_mul B) (la.svd_left B)]
    have : diagonal (fun i => (|a| * (la.svd B).2.1 i) ^ 2) = a ^ 2 • diagonal (fun i => (la.svd B).2.1 i ^ 2) := by
      rw [← diagonal_smul]
      congr 1
      funext i
      simp only [Pi.smul_apply, smul_eq_mul, mul_pow, sq_abs]
    rw [this, Matrix.mul_smul, Matrix.smul_mul, transpose_mul]
    congr 1
    simp only [Matrix.mul_assoc]
  have hsv : (fun i => |a| * (la.svd B).2.1 i) = (la'.svd B').2.1 :=
    sv_unique (fun i => mul_nonneg (abs_nonneg a) (la.svd_nonneg B i)) (la'.svd_nonneg B')
      (fun i j h => mul_le_mul_of_nonneg_left (la.svd_anti B h) (abs_nonneg a)) (la'.svd_anti B') hVW (la'.svd_right B') hsp
  have hle : 1 ≤ |a| → r ≤ r' := by
    intro h
    by_contra hne
    have hlt : r' < r := not_le.1 hne
    have h2 := (hi ⟨r', by omega⟩).1 hlt
    have := (hi' ⟨r', by omega⟩).2 ⟨h2.1, by
      rw [← hsv]
      exact h2.2.trans (le_mul_of_one_le_left (la.svd_nonneg B _) h)⟩
    exact lt_irrefl _ this
  have hrr : |a| = 1 → r' = r := by
    intro h
    refine le_antisymm ?_ (hle h.ge)
    by_contra hne
    have hlt : r < r' := not_le.1 hne
    have h2 := (hi' ⟨r, by omega⟩).1 hlt
    rw [← hsv, h] at h2
    simp only [one_mul] at h2
    exact lt_irrefl _ ((hi ⟨r, by omega⟩).2 h2)
  refine ⟨_, _, h1, h1', fun i j hij => ?_, hrr, hle, fun h ho => ?_⟩
  · change (la'.svd B').2.1 (Fin.castLE hr' j) = |a| * (la.svd B).2.1 (Fin.castLE hr i)
    rw [← hsv, show Fin.castLE hr' j = Fin.castLE hr i from Fin.ext hij.symm]
  · subst ho
    have hi0 : ∀ i : Fin (min c n), i.1 < r ↔ 10 * eps ≤ (la.svd B).2.1 i := fun i => by rw [hi]; simp
    have hi0' : ∀ i : Fin (min c n), i.1 < r' ↔ 10 * eps ≤ (la'.svd B').2.1 i := fun i => by rw [hi']; simp
    obtain ⟨e1, e2⟩ := svd1_pre la Q B hr hi0
    obtain ⟨e1', e2'⟩ := svd1_pre la' Q' B' hr' hi0'
    have hs1 : (la.svd B).2.1 = (la'.svd B').2.1 := by rw [← hsv, h]; simp
    have hsp' := spectral_unique (la.svd_nonneg B) (la'.svd_nonneg B') hVW (la'.svd_right B')
      (by rw [h] at hsp; simpa only [one_mul] using hsp) (fun x => if 10 * eps ≤ x then 1 else 0)
      (if_neg (by have := eps_pos; linarith))
    obtain ⟨N, hN⟩ : ∃ N, N = (la.svd B).2.2ᵀ * diagonal (fun i => if 10 * eps ≤ (la.svd B).2.1 i then (1 : ℝ) else 0) *
      (la.svd B).2.2 := ⟨_, rfl⟩
    obtain ⟨N', hN'⟩ : ∃ N', N' = (la'.svd B').2.2ᵀ * diagonal (fun i => if 10 * eps ≤ (la'.svd B').2.1 i then (1 : ℝ) else 0) *
      (la'.svd B').2.2 := ⟨_, rfl⟩
    have hNN : N' = Wᵀ * N * W := by
      rw [hN', ← hsp', hN, transpose_mul]
      simp only [Matrix.mul_assoc]
    rw [← hN] at e1 e2
    rw [← hN', hNN] at e1' e2'
    refine ⟨?_, e2'.trans (by rw [← e2])⟩
    refine e1'.trans ?_
    rw [hp]
    have : a • (P * (Q * (la.svd B).1.submatrix id (Fin.castLE hr) * diagonal ((la.svd B).2.1 ∘ Fin.castLE hr) *
        (la.svd B).2.2.submatrix (Fin.castLE hr) id) * W) = a • (P * (Q * B * N) * W) := by rw [e1]
    refine Eq.trans ?_ this.symm
    rw [Matrix.smul_mul]
    congr 1
    calc P * (Q * B) * W * (Wᵀ * N * W) = P * (Q * B) * (W * Wᵀ) * N * W := by simp only [Matrix.mul_assoc]
      _ = _ := by rw [hW, Matrix.mul_one]; simp only [Matrix.mul_assoc]

/-- **C89** (`svd1`).  If `k + over ≤ rank(A)` or everything fits in one block: the singular values returned on `a P A W`
are `|a|` times those returned on `A`, and at least as many of them for `|a| ≥ 1`, as many for `|a| = 1`; for `|a| = 1`
and without oversampling the approximation is the rotated one. -/
theorem C89_svd1 (A : Matrix (Fin m) (Fin n) ℝ) (hmn : 0 < min m n) (k over : ℕ) (hk : 0 < k + over) (p : ℤ)
    (hp : 2 ≤ p) (blk : ℕ) (hblk : 0 < blk) (hr : k + over ≤ A.rank ∨ min (k + over) (min m n) ≤ blk)
    {a : ℝ} (ha : a ≠ 0) (P : Matrix (Fin m) (Fin m) ℝ) (hP : Pᵀ * P = 1) (W : Matrix (Fin n) (Fin n) ℝ) (hW : W * Wᵀ = 1) :
    ∃ φ : Draws (startRows (p - 2) m n) (blockWidths (min (k + over) (min m n)) blk) → Draws _ _,
      MeasurePreserving φ (normalSeq _ _) (normalSeq _ _) ∧ (P = 1 → W = 1 → φ = id) ∧
    ∀ᵐ Zs ∂(normalSeq (startRows (p - 2) m n) (blockWidths (min (k + over) (min m n)) blk)),
      ∀ (G : Type) (la la' : LinAlg) (R R' : NpRng G) (tol : Tol) (w v : World G), NextDraws R _ w.rng Zs →
      NextDraws R' _ v.rng (φ Zs) →
      ∃ (out out' : SVDOut m n) (w' v' : World G),
        svd1 la (gaussianOperator R true) A k over tol p blk w = .ok (out, w') ∧
        svd1 la' (gaussianOperator R' true) (a • (P * A * W)) k over tol p blk v = .ok (out', v') ∧
        (∀ i j, i.1 = j.1 → out'.s j = |a| * out.s i) ∧ (|a| = 1 → out'.r = out.r) ∧ (1 ≤ |a| → out.r ≤ out'.r) ∧
        (|a| = 1 → over = 0 → out'.U * diagonal out'.s * out'.Vh = a • (P * (out.U * diagonal out.s * out.Vh) * W) ∧
          out'.Vhᵀ * out'.Vh = Wᵀ * (out.Vhᵀ * out.Vh) * W) := by
  have hx := qb2Run_equi A hmn ((k + over : ℕ) : ℤ) (by exact_mod_cast hk) (p - 2) (by omega) blk hblk ha P hP W hW
  have hC := C63_qb_b A hmn ((k + over : ℕ) : ℤ) (by exact_mod_cast hk) p hp blk hblk
  have hC' := C63_qb_b (a • (P * A * W)) hmn ((k + over : ℕ) : ℤ) (by exact_mod_cast hk) p hp blk hblk
  rw [Int.toNat_natCast] at hx hC hC'
  obtain ⟨φ, hφ, hφ1, hae⟩ := hx
  refine ⟨φ, hφ, hφ1, ?_⟩
  filter_upwards [hae, hC, ae_comp hφ hC'] with Zs hZs hC hC' G la la' R R' tol w v hw hv
  obtain ⟨st, st', w', v', h1, h2, h3, h4, h5⟩ := hZs G la la' R R' tol w v hw hv
  have key : ∀ (la : LinAlg) (R : NpRng G) (A : Matrix (Fin m) (Fin n) ℝ) (st : QB2St m n) (w w' : World G),
      qb2Run la (RF1 la (RS1 (gaussianOperator R true) (p - 2) (orth la) 1)) blk A ((k + over : ℕ) : ℤ) tol w =
        .ok (st, w') →
      qbB la (gaussianOperator R true) p blk false A ((k + over : ℕ) : ℤ) tol w = .ok ((⟨st.c, st.Q, st.B⟩, A), w') ∧
      QB2 la (RF1 la (RS1 (gaussianOperator R true) (p - 2) (orth la) 1)) blk false m n A
      ((k + over : ℕ) : ℤ) tol w = .ok (⟨st.c, st.Q, st.B⟩, w') := by
    intro la R A st w w' h
    refine ⟨?_, ?_⟩
    · unfold qbB qb2Call
      rw [Py.bind_eq_of_ok h]; rfl
    · unfold QB2 qb2Call
      rw [Py.bind_eq_of_ok (Py.bind_eq_of_ok h)]; rfl
  obtain ⟨c1, q1⟩ := key la R A st w w' h1
  obtain ⟨c2, q2⟩ := key la' R' _ st' v v' h2
  obtain ⟨out, A', w'', g1, -, -, -, g5, -⟩ := hC G la R false tol w hw
  rw [c1] at g1
  cases g1
  obtain ⟨out', A'', v'', g1', -, -, -, g5', -⟩ := hC' G la' R' false tol v hv
  rw [c2] at g1'
  cases g1'
  have o1 : OrthoCols st.Q := (g5 (by
    rcases hr with h | h
    · left; exact_mod_cast h
    · right; exact_mod_cast h)).1
  have o2 : OrthoCols st'.Q := (g5' (by
    rw [rank_equi ha hP hW]
    rcases hr with h | h
    · left; exact_mod_cast h
    · right; exact_mod_cast h)).1
  obtain ⟨out, out', h⟩ := C89_svd1_class la la' _ _ A (a • (P * A * W)) k tol tol over w w' v v' _ _ q1 q2 o1 o2 h3
    P hP W hW h5
  exact ⟨out, out', w', v', h⟩

end Parla.Props
