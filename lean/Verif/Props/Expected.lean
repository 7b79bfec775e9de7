import Verif.Proof.PinvMean
import Verif.Props.LowRank
import Verif.Props.AlmostSureBlocks

/-! # C65: expected error of low-rank approximation with Gaussian sketches

`g` below is a function of the draw only; for almost every draw `Z`, the squared error of *every* run
(backend, generator, state) in which `rng.standard_normal` returns `Z` is at most `g Z`.  The mean of `g`
is the bound of Halko, Martinsson and Tropp (their Theorem 10.5, with the gap factor of the power
iteration). -/

namespace Parla.Props

open Matrix Parla Spec MeasureTheory

variable {G : Type} {m n r : ℕ}

/-- an upper bound of the squared error, as a function of the draw -/
noncomputable def sketchBound {a : ℕ} (s : Fin r → ℝ) (t k : ℕ) (ht : t ≤ r) (X : Matrix (Fin a) (Fin r) ℝ)
    (Z : Fin a × Fin k → ℝ) : ℝ :=
  froSq (diagonal (tail s t) * (Xᵀ * Proof.drawMat Z * Proof.rpinv (firstRows ht (Xᵀ * Proof.drawMat Z))))

theorem froSq_tail_rows {t a k : ℕ} (s : Fin (t + a) → ℝ) (M : Matrix (Fin (t + a)) (Fin k) ℝ) :
    froSq (diagonal (tail s t) * M) =
      froSq (diagonal (fun i => s (Fin.natAdd t i)) * M.submatrix (Fin.natAdd t) id) := by
  unfold froSq
  rw [Fin.sum_univ_add]
  have h1 : ∀ i : Fin t, ∑ j, (diagonal (tail s t) * M) (Fin.castAdd a i) j ^ 2 = 0 := by
    intro i
    refine Finset.sum_eq_zero fun j _ => ?_
    rw [diagonal_mul, tail, if_pos (by simp)]
    ring
  rw [Finset.sum_eq_zero fun i _ => h1 i, zero_add]
  refine Finset.sum_congr rfl fun i _ => Finset.sum_congr rfl fun j _ => ?_
  rw [diagonal_mul, diagonal_mul, tail, if_neg (by simp)]
  rfl

theorem tailSq_rows {t a : ℕ} (s : Fin (t + a) → ℝ) :
    froSq (diagonal (fun i : Fin a => s (Fin.natAdd t i))) = tailSq s t := by
  unfold froSq tailSq
  rw [Fin.sum_univ_add]
  have h1 : ∀ i : Fin t, tail s t (Fin.castAdd a i) ^ 2 = 0 := by
    intro i
    rw [tail, if_pos (by simp)]; ring
  rw [Finset.sum_eq_zero fun i _ => h1 i, zero_add]
  refine Finset.sum_congr rfl fun i _ => ?_
  rw [Finset.sum_eq_single i]
  · rw [diagonal_apply_eq, tail, if_neg (by simp)]
  · intro j _ hj
    rw [diagonal_apply_ne _ (Ne.symm hj)]; ring
  · intro h; exact absurd (Finset.mem_univ _) h

theorem sketchBound_mean {a : ℕ} (s : Fin r → ℝ) (t k : ℕ) (ht : t ≤ r) (hk : t + 2 ≤ k)
    {X : Matrix (Fin a) (Fin r) ℝ} (hX : OrthoCols X) :
    (Integrable (sketchBound s t k ht X) (normals a k) ∧
      ∫ Z, sketchBound s t k ht X Z ∂(normals a k) = tailSq s t * (t / ((k : ℝ) - t - 1))) ∧
    ∀ᵐ Z ∂(normals a k), firstRows ht (Xᵀ * Proof.drawMat Z) *
      Proof.rpinv (firstRows ht (Xᵀ * Proof.drawMat Z)) = 1 := by
  obtain ⟨b, rfl⟩ : ∃ b, r = t + b := ⟨r - t, by omega⟩
  have hmp := Proof.gauss_map_rows (k := k) hX
  obtain ⟨⟨h1, h2⟩, -⟩ := Proof.mean_pinv_rows (t := t) (k := k) hk (diagonal fun i : Fin b => s (Fin.natAdd t i))
  have hg : ∀ Z : Fin a × Fin k → ℝ, sketchBound s t k ht X Z =
      froSq (diagonal (fun i : Fin b => s (Fin.natAdd t i)) *
        (Proof.drawMat (Proof.entries (Xᵀ * Proof.drawMat Z))).submatrix (Fin.natAdd t) id *
        Proof.rpinv ((Proof.drawMat (Proof.entries (Xᵀ * Proof.drawMat Z))).submatrix (Fin.castAdd b) id)) := by
    intro Z
    unfold sketchBound
    rw [froSq_tail_rows]
    conv_rhs => rw [Matrix.mul_assoc]
    rfl
  refine ⟨⟨?_, ?_⟩, ?_⟩
  · have := hmp.integrable_comp_of_integrable h1
    rw [show sketchBound s t k ht X = _ from funext hg]
    exact this
  · rw [integral_congr_ae (Filter.Eventually.of_forall hg)]
    have := integral_map (μ := normals a k) hmp.measurable.aemeasurable
      (f := fun Z => froSq (diagonal (fun i : Fin b => s (Fin.natAdd t i)) *
        (Proof.drawMat Z).submatrix (Fin.natAdd t) id *
        Proof.rpinv ((Proof.drawMat Z).submatrix (Fin.castAdd b) id)))
      (by rw [show (normals a k).map _ = _ from hmp.map_eq]; exact h1.aestronglyMeasurable)
    rw [← this, show (normals a k).map _ = _ from hmp.map_eq, h2, tailSq_rows]
  · have hY : OrthoCols (X.submatrix id (Fin.castLE ht)) := orth_submatrix hX (Fin.castLE_injective ht)
    have hY' := (Proof.gauss_map_rows (k := k) hY).quasiMeasurePreserving.ae
      (Proof.gram_det_ae t k (by omega))
    filter_upwards [hY'] with Z hZ
    refine Proof.mul_rpinv ?_
    rw [Proof.drawMat_entries, ← firstRows_transpose] at hZ
    exact hZ

/-- the bound for a power iteration with `p` passes, `p` even: from the right singular vectors; `p` odd: from
the left ones -/
theorem rs1_expected (A : Matrix (Fin m) (Fin n) ℝ)
    {U : Matrix (Fin m) (Fin r) ℝ} {s : Fin r → ℝ} {V : Matrix (Fin n) (Fin r) ℝ} (hA : IsSVD A U s V)
    (k : ℕ) (hk' : k ≤ min m n) (t : ℕ) (ht : t ≤ r) (htk : t + 2 ≤ k) (τ : ℝ)
    (hτ : ∀ (i : Fin r) (j : Fin t), t ≤ i.1 → s i ≤ τ * s (Fin.castLE ht j)) (p : ℤ) (hp : 0 ≤ p) :
    ∃ g : (Fin (startRows p m n) × Fin k → ℝ) → ℝ, (∀ Z, 0 ≤ g Z) ∧ Integrable g (normals _ k) ∧
      ∫ Z, g Z ∂(normals _ k) = tailSq s t * (1 + τ ^ (2 * p.toNat) * (t / ((k : ℝ) - t - 1))) ∧
      ∀ᵐ Z ∂(normals _ k), ∀ (G : Type) (la : LinAlg) (R : NpRng G) (w w' : World G) (S : Cols n),
        NextNormal R w _ _ Z → rs1Call (gaussianOperator R true) p (orth la) 1 A k w = .ok (S, w') →
        ∀ (c : ℕ) (Q : Matrix (Fin m) (Fin c) ℝ), OrthoCols Q → colSpace (A * S.mat) ≤ colSpace Q →
        fro (A - Q * (Qᵀ * A)) ^ 2 ≤ g Z := by
  have hkt : (0 : ℝ) ≤ t / ((k : ℝ) - t - 1) := by
    have : ((t : ℝ) + 2) ≤ k := by exact_mod_cast htk
    exact div_nonneg (Nat.cast_nonneg _) (by linarith)
  have hτn : 0 ≤ τ ^ (2 * p.toNat) := by rw [pow_mul]; positivity
  have htail : 0 ≤ tailSq s t := Finset.sum_nonneg fun i _ => sq_nonneg _
  have hnn : ∀ {a : ℕ} (X : Matrix (Fin a) (Fin r) ℝ) (Z : Fin a × Fin k → ℝ),
      0 ≤ tailSq s t + τ ^ (2 * p.toNat) * sketchBound s t k ht X Z := fun X Z =>
    add_nonneg htail (mul_nonneg hτn (froSq_nonneg _))
  by_cases hpos : ∀ j : Fin t, 0 < s (Fin.castLE ht j)
  · -- positive leading singular values
    have core : ∀ {a : ℕ} {X : Matrix (Fin a) (Fin r) ℝ}, OrthoCols X →
        Integrable (fun Z => tailSq s t + τ ^ (2 * p.toNat) * sketchBound s t k ht X Z) (normals a k) ∧
        ∫ Z, (tailSq s t + τ ^ (2 * p.toNat) * sketchBound s t k ht X Z) ∂(normals a k) =
          tailSq s t * (1 + τ ^ (2 * p.toNat) * (t / ((k : ℝ) - t - 1))) := by
      intro a X hX
      obtain ⟨⟨h1, h2⟩, -⟩ := sketchBound_mean s t k ht htk hX
      have : IsProbabilityMeasure (normals a k) := by
        change IsProbabilityMeasure (Proof.gauss _); infer_instance
      refine ⟨(integrable_const _).add (h1.const_mul _), ?_⟩
      rw [integral_add (integrable_const _) (h1.const_mul _), integral_const_mul, h2]
      simp
      ring
    have scale : ∀ {a : ℕ} {X : Matrix (Fin a) (Fin r) ℝ} {M : Matrix (Fin a) (Fin k) ℝ}
        {W : Matrix (Fin k) (Fin t) ℝ} {u : ℝ}, u ≠ 0 → firstRows ht (Xᵀ * M) * W = 1 →
        firstRows ht (Xᵀ * (u • M)) * (u⁻¹ • W) = 1 ∧ Xᵀ * (u • M) * (u⁻¹ • W) = Xᵀ * M * W := by
      intro a X M W u hu h
      rw [Matrix.mul_smul Xᵀ]
      have : firstRows ht (u • (Xᵀ * M)) = u • firstRows ht (Xᵀ * M) := rfl
      rw [this]
      simp only [Matrix.smul_mul, Matrix.mul_smul, smul_smul, inv_mul_cancel₀ hu, one_smul]
      exact ⟨h, trivial⟩
    by_cases hp2 : p % 2 = 0
    · rw [show startRows p m n = n from if_pos hp2]
      refine ⟨_, hnn V, (core hA.right).1, (core hA.right).2, ?_⟩
      filter_upwards [(sketchBound_mean s t k ht htk hA.right).2] with Z hZ G la R w w' S hw h c Q hQ hAS
      obtain ⟨S0, w₁, g1, g2⟩ := (rs1_bound la _ A hA t ht hpos τ hτ p k w w' S h hQ hAS).1 hp2
      obtain ⟨u, hu, hgen⟩ := gaussian_next R (r := n) (c := k) (by omega) hw
      rw [hgen] at g1
      cases g1
      obtain ⟨e1, e2⟩ := scale hu hZ
      have := g2 _ e1
      rw [e2] at this
      rw [fro_sq]
      exact this
    · rw [show startRows p m n = m from if_neg hp2]
      refine ⟨_, hnn U, (core hA.left).1, (core hA.left).2, ?_⟩
      filter_upwards [(sketchBound_mean s t k ht htk hA.left).2] with Z hZ G la R w w' S hw h c Q hQ hAS
      obtain ⟨S0, w₁, g1, g2⟩ := (rs1_bound la _ A hA t ht hpos τ hτ p k w w' S h hQ hAS).2 (by omega)
      obtain ⟨u, hu, hgen⟩ := gaussian_next R (r := m) (c := k) (by omega) hw
      rw [hgen] at g1
      cases g1
      obtain ⟨e1, e2⟩ := scale hu hZ
      have := g2 _ e1
      rw [e2] at this
      rw [fro_sq]
      exact this
  · -- the rank of `A` is less than `t`
    push Not at hpos
    obtain ⟨j, hj⟩ := hpos
    have hrk : A.rank ≤ k := by
      obtain ⟨B, hB, hAB⟩ := exists_best hA j.1
      have h0 : tailSq s j.1 = 0 := by
        refine Finset.sum_eq_zero fun i _ => ?_
        unfold tail
        split
        · ring
        · rename_i hij
          have h1 : s i ≤ s (Fin.castLE ht j) := hA.anti (by
            rw [Fin.le_def]; simpa using hij)
          have : s i = 0 := le_antisymm (h1.trans hj) (hA.nonneg i)
          rw [this]; ring
      rw [h0] at hAB
      have hAB' : A - B = 0 := fro_eq_zero.1 (by
        have := fro_sq (A - B)
        rw [hAB] at this
        exact pow_eq_zero_iff (two_ne_zero) |>.1 this)
      rw [sub_eq_zero.1 hAB']
      have := j.2
      omega
    have : IsProbabilityMeasure (normals (startRows p m n) k) := by
      change IsProbabilityMeasure (Proof.gauss _); infer_instance
    refine ⟨fun _ => tailSq s t * (1 + τ ^ (2 * p.toNat) * (t / ((k : ℝ) - t - 1))), fun _ => by positivity,
      integrable_const _, by simp, ?_⟩
    filter_upwards [goodStart_ae p A k] with Z hZ G la R w w' S hw h c Q hQ hAS
    obtain ⟨S', w1, h1, -, h3, -⟩ := rs1_of_goodStart hp (by omega) (by omega) (by omega) hZ la R w hw
    rw [h] at h1
    cases h1
    rw [keeps_range hrk h3] at hAS
    rw [proj_of_colSpace hQ hAS, sub_self, fro_eq_zero.2 rfl]
    have : 0 ≤ tailSq s t * (1 + τ ^ (2 * p.toNat) * (t / ((k : ℝ) - t - 1))) := by positivity
    simpa using this

/-! ### Blocks -/

/-- the error of QB2 is at most what its first block leaves -/
theorem first_block (la : LinAlg) (rf : RangeFinder G) (blk : ℕ)
    (A : Matrix (Fin m) (Fin n) ℝ) (hmn : 0 < min m n) (k : ℤ) (hk : 0 < k)
    (tol : Tol) (w w' : World G) (st : QB2St m n) (h : qb2Run la rf blk A k tol w = .ok (st, w')) :
    ∃ out w0 w1 c, ∃ Q : Matrix (Fin m) (Fin c) ℝ, w0.rng = w.rng ∧
      rf m n A (min blk (min k.toNat (min m n)) : ℕ) .nan w0 = .ok (out, w1) ∧
      colSpace out.mat ≤ colSpace Q ∧ OrthoCols Q ∧ fro (A - st.Q * st.B) ^ 2 ≤ fro (A - Q * (Qᵀ * A)) ^ 2 := by
  rw [qb2Run_open w hk] at h
  have hK0 : 0 < clampK k m n := by unfold clampK; omega
  unfold qb2Loop at h
  rw [Py.bind_ok_iff] at h
  obtain ⟨out, wd, hd, h⟩ := h
  obtain ⟨w1, h1, rfl⟩ := qb2Draw_ok_iff.1 hd
  have hbl : qb2Blk (clampK k m n) (qb2Init A blk).c (qb2Init A blk).blk = min blk (clampK k m n) := by
    change qb2Blk (clampK k m n) 0 blk = _
    unfold qb2Blk; split <;> omega
  rw [hbl] at h h1
  obtain ⟨s1, hs1⟩ : ∃ s1, s1 = qb2Update la (min blk (clampK k m n)) (qb2Init A blk) out := ⟨_, rfl⟩
  rw [← hs1] at h
  have hI1 : QB2Inv A s1 := by rw [hs1]; exact qb2Inv_update la (qb2Inv_init A blk) _ _
  have hmono : QB2Inv A st ∧ froSq st.A ≤ froSq s1.A := by
    by_cases c1 : tol.use ∧ s1.sqn ≤ absSqTol tol A
    · rw [if_pos c1] at h; cases h; exact ⟨hI1, le_rfl⟩
    · rw [if_neg c1] at h
      by_cases c2 : s1.c ≥ clampK k m n
      · rw [if_pos c2] at h; cases h; exact ⟨hI1, le_rfl⟩
      · rw [if_neg c2] at h
        refine (qb2Loop_ind (P := fun x => QB2Inv A x ∧ froSq x.A ≤ froSq s1.A) ?_ _ _ _ _ _ h (by omega)
          ⟨hI1, le_rfl⟩).1
        rintro x o u u' ⟨hx, hx'⟩ - -
        have hu := qb2Inv_update la hx (qb2Blk (clampK k m n) x.c x.blk) o
        refine ⟨hu, le_trans ?_ hx'⟩
        rw [← hu.2, ← hx.2]
        change x.sqn - fro _ ^ 2 ≤ x.sqn
        linarith [sq_nonneg (fro ((la.qr (projectOut o.mat x.Q)).1ᵀ * x.A))]
  obtain ⟨hIs, hle⟩ := hmono
  have hp0 : projectOut out.mat (0 : Matrix (Fin m) (Fin 0) ℝ) = out.mat := by unfold projectOut; simp
  have hA1 : s1.A = A - (la.qr out.mat).1 * ((la.qr out.mat).1ᵀ * A) := by
    rw [hs1]
    change A - (la.qr (projectOut out.mat (0 : Matrix (Fin m) (Fin 0) ℝ))).1 *
      ((la.qr (projectOut out.mat (0 : Matrix (Fin m) (Fin 0) ℝ))).1ᵀ * A) = _
    rw [hp0]
  refine ⟨out, _, w1, _, (la.qr out.mat).1, ?_, h1, qr_range la _, la.qr_orth _, ?_⟩
  · split <;> rfl
  · rw [fro_sq, fro_sq, ← hA1, ← hIs.1]
    exact hle

/-- all the columns of a sequence of arrays -/
def allCols {a : ℕ} : (bs : List ℕ) → Proof.Draws a bs → Matrix (Fin a) (Fin bs.sum) ℝ
  | [], _ => 0
  | b :: bs, Z => hcat (Proof.drawMat (b := b) Z.1) (allCols bs Z.2)

theorem colSpace_allCols (A0 : Matrix (Fin m) (Fin n) ℝ) (b : ℕ) (bs : List ℕ) (Z : Fin n × Fin b → ℝ)
    (Zs : Proof.Draws n bs) : colSpace (A0 * allCols (b :: bs) (Z, Zs)) =
      colSpace (A0 * Proof.drawMat Z) ⊔ colSpace (A0 * allCols bs Zs) := by
  have e : allCols (b :: bs) (Z, Zs) = hcat (Proof.drawMat Z) (allCols bs Zs) := rfl
  rw [e]
  exact (congrArg colSpace (mul_hcat A0 (Proof.drawMat Z) (allCols bs Zs))).trans (colSpace_hcat _ _)

theorem powMap_zero : PowMap (m := m) (n := n) 0 fun A => A where
  rows := rfl
  rank _ := rfl
  le _ := le_rfl
  meas _ _ _ h := h
  call := by
    intro G la gen A k w w' S h
    obtain ⟨S0, ⟨w2, hd⟩, hle, -⟩ := (C02_rs1_range_parla la gen 0 (orth la) (Or.inl rfl) 1 A k w w' S h).1 rfl
    refine ⟨S0, w2, hd, ?_⟩
    have := colSpace_mul_mono A hle
    simpa using this

/-- a blocked run without power iterations spans the range of `A` times all its draws -/
theorem loop_range (la : LinAlg) (R : NpRng G) (A0 : Matrix (Fin m) (Fin n) ℝ) {K blk : ℕ} (hblk : 0 < blk)
    (hK : K ≤ min m n) (useTol : Prop) (tl : ℝ) (fuel : ℕ) (st : QB2St m n) (w : World G) (hc : st.c < K)
    (hst : st.blk = blk) (bs : List ℕ) (hbs : bs = blockWidths (K - st.c) blk)
    (Zs : Proof.Draws n bs) (hI : QB2Inv A0 st) (hR : NextDraws R bs w.rng Zs) (st' : QB2St m n) (w' : World G)
    (h : qb2Loop la (RF1 la (RS1 (gaussianOperator R true) 0 (orth la) 1)) K useTol tl fuel st w = .ok (st', w'))
    (hc' : st'.c = K) :
    colSpace st.Q ≤ colSpace st'.Q ∧ colSpace (A0 * allCols bs Zs) ≤ colSpace st'.Q := by
  induction fuel generalizing st w bs with
  | zero => cases h
  | succ fuel ih =>
    rw [blockWidths_pos (by omega) hblk] at hbs
    subst hbs
    obtain ⟨Z, Zs⟩ := Zs
    obtain ⟨hR1, hR2⟩ := hR
    have hblkeq : qb2Blk K st.c st.blk = min blk (K - st.c) := by
      unfold qb2Blk; rw [hst]; split <;> omega
    obtain ⟨out, w1, h1, h2, h3, h4, h5⟩ := rf_step (le_refl 0) powMap_zero la R st.A
      (b := min blk (K - st.c)) (by omega) (by omega) w hR1
    unfold qb2Loop at h
    simp only [hblkeq] at h
    rw [Py.bind_eq_of_ok (qb2Draw_of_ok h1)] at h
    obtain ⟨st1, hst1⟩ : ∃ st1, st1 = qb2Update la (min blk (K - st.c)) st out := ⟨_, rfl⟩
    rw [← hst1] at h
    have hQ1 : colSpace st.Q ≤ colSpace st1.Q := by
      rw [hst1]
      change _ ≤ colSpace (hcat st.Q _)
      rw [colSpace_hcat]; exact le_sup_left
    have hout : colSpace out.mat ≤ colSpace st1.Q := by
      rw [hst1]
      change _ ≤ colSpace (hcat st.Q (la.qr (projectOut out.mat st.Q)).1)
      rw [colSpace_hcat]
      have e : out.mat = st.Q * (st.Qᵀ * out.mat) + projectOut out.mat st.Q := by
        unfold projectOut; abel
      intro x hx
      obtain ⟨y, rfl⟩ := mem_colSpace.1 hx
      have e' : out.mat *ᵥ y = (st.Q * (st.Qᵀ * out.mat)) *ᵥ y + projectOut out.mat st.Q *ᵥ y := by
        rw [← add_mulVec, ← e]
      rw [e']
      refine Submodule.add_mem_sup ?_ ?_
      · exact colSpace_mul_le _ _ (mem_colSpace.2 ⟨y, rfl⟩)
      · exact qr_range la _ (mem_colSpace.2 ⟨y, rfl⟩)
    have hZ1 : colSpace (A0 * Proof.drawMat Z) ≤ colSpace st1.Q := by
      have e : A0 * Proof.drawMat Z = st.A * Proof.drawMat Z + st.Q * (st.B * Proof.drawMat Z) := by
        rw [hI.1, Matrix.sub_mul, Matrix.mul_assoc]; abel
      intro x hx
      obtain ⟨y, rfl⟩ := mem_colSpace.1 hx
      rw [e, add_mulVec]
      refine Submodule.add_mem _ ?_ ?_
      · exact h5.trans hout (mem_colSpace.2 ⟨y, rfl⟩)
      · exact (colSpace_mul_le _ _).trans hQ1 (mem_colSpace.2 ⟨y, rfl⟩)
    have hc1 : st1.c = st.c + min blk (K - st.c) := by
      rw [hst1]
      change st.c + min m out.c = _
      omega
    have hI1 : QB2Inv A0 st1 := hst1 ▸ qb2Inv_update la hI _ _
    have done : st' = st1 → colSpace st.Q ≤ colSpace st'.Q ∧ colSpace (A0 * allCols
        (min blk (K - st.c) :: blockWidths (K - st.c - min blk (K - st.c)) blk) (Z, Zs)) ≤ colSpace st'.Q := by
      intro e
      rw [e] at hc' ⊢
      refine ⟨hQ1, ?_⟩
      rw [colSpace_allCols]
      refine sup_le hZ1 ?_
      have h0 : blockWidths (K - st.c - min blk (K - st.c)) blk = [] := by
        rw [show K - st.c - min blk (K - st.c) = 0 by omega, blockWidths_zero]
      have : ∀ bs : List ℕ, bs = [] → ∀ Zs : Proof.Draws n bs, colSpace (A0 * allCols bs Zs) ≤ colSpace st1.Q := by
        rintro _ rfl Zs
        rw [show allCols [] Zs = 0 from rfl, Matrix.mul_zero]
        intro x hx
        obtain ⟨y, rfl⟩ := mem_colSpace.1 hx
        rw [zero_mulVec]
        exact Submodule.zero_mem _
      exact this _ h0 Zs
    split at h
    · cases h; exact done rfl
    · split at h
      · cases h; exact done rfl
      · rename_i hge
        have hlt : st1.c < K := by omega
        obtain ⟨k1, k2⟩ := ih st1 { w1 with trace := w1.trace ++ [.mulAT] } hlt (by rw [hst1]; change min blk (K - st.c) = blk; omega) _
          (by rw [hc1, Nat.sub_sub]) Zs hI1 (by change NextDraws R _ w1.rng Zs; rw [h2]; exact hR2) h
        refine ⟨hQ1.trans k1, ?_⟩
        rw [colSpace_allCols]
        exact sup_le (hZ1.trans k1) k2

theorem blockWidths_sum (K blk : ℕ) : (blockWidths K blk).sum = K := by
  unfold blockWidths
  rw [List.sum_append, List.sum_replicate, smul_eq_mul]
  split
  · rename_i h
    have := Nat.div_add_mod K blk
    rw [h, mul_comm] at this
    simpa using this
  · have := Nat.div_add_mod K blk
    rw [mul_comm] at this
    simpa using this

/-- the columns of the first array and the others -/
def colsSplit (r b c : ℕ) : Fin r × Fin (b + c) ≃ (Fin r × Fin b) ⊕ (Fin r × Fin c) :=
  (Equiv.prodCongr (Equiv.refl _) finSumFinEquiv.symm).trans (Equiv.prodSumDistrib _ _ _)

theorem join_cols_first {r b c : ℕ} (z : (Fin r × Fin b → ℝ) × (Fin r × Fin c → ℝ)) (i : Fin r) (j : Fin b) :
    Proof.join (colsSplit r b c) z (i, Fin.castAdd c j) = z.1 (i, j) := by
  simp [Proof.join, colsSplit]

theorem join_cols_second {r b c : ℕ} (z : (Fin r × Fin b → ℝ) × (Fin r × Fin c → ℝ)) (i : Fin r) (j : Fin c) :
    Proof.join (colsSplit r b c) z (i, Fin.natAdd b j) = z.2 (i, j) := by
  simp [Proof.join, colsSplit]

theorem entries_hcat {r b c : ℕ} (Z : Fin r × Fin b → ℝ) (M : Matrix (Fin r) (Fin c) ℝ) :
    Proof.entries (hcat (Proof.drawMat Z) M) = Proof.join (colsSplit r b c) (Z, Proof.entries M) := by
  funext p
  obtain ⟨i, j⟩ := p
  refine Fin.addCases (fun j => ?_) (fun j => ?_) j
  · rw [join_cols_first]
    exact hcat_castAdd _ _ i j
  · rw [join_cols_second]
    exact hcat_natAdd _ _ i j

theorem mp_integral {X Y : Type} [MeasurableSpace X] [MeasurableSpace Y] {μ : Measure X} {ν : Measure Y} {f : X → Y}
    (hf : MeasurePreserving f μ ν) {g : Y → ℝ} (hg : Integrable g ν) : ∫ x, g (f x) ∂μ = ∫ y, g y ∂ν := by
  rw [← hf.map_eq, integral_map hf.measurable.aemeasurable (by rw [hf.map_eq]; exact hg.aestronglyMeasurable)]

theorem mean_const_add {X : Type} [MeasurableSpace X] {μ : Measure X} [IsProbabilityMeasure μ] {f : X → ℝ}
    (hf : Integrable f μ) (c : ℝ) {v : ℝ} (hv : ∫ x, f x ∂μ = v) : ∫ x, (c + f x) ∂μ = c + v := by
  rw [integral_add (integrable_const _) hf, hv]
  simp

instance instProbNormals (r c : ℕ) : IsProbabilityMeasure (normals r c) := by
  change IsProbabilityMeasure (Proof.gauss _); infer_instance

theorem measurePreserving_allCols (a : ℕ) (bs : List ℕ) :
    MeasurePreserving (fun Zs => Proof.entries (allCols bs Zs)) (normalSeq a bs)
      (Proof.gauss (Fin a × Fin bs.sum)) := by
  have hprob : IsProbabilityMeasure stdNormal := by unfold stdNormal; infer_instance
  induction bs with
  | nil =>
    have hm : Measurable fun Zs : Proof.Draws a [] => Proof.entries (allCols [] Zs) := by
      have e : (fun Zs : Proof.Draws a [] => Proof.entries (allCols [] Zs)) = fun _ => Proof.entries 0 := rfl
      rw [e]; exact measurable_const
    refine ⟨hm, ?_⟩
    have : IsProbabilityMeasure ((normalSeq a []).map fun Zs => Proof.entries (allCols [] Zs)) :=
      Measure.isProbabilityMeasure_map hm.aemeasurable
    have hsub : Subsingleton (Fin a × Fin ([] : List ℕ).sum → ℝ) :=
      ⟨fun x y => funext fun p => (p.2 : Fin 0).elim0⟩
    ext S _
    rcases Subsingleton.eq_univ_of_nonempty (s := S) |> fun f => S.eq_empty_or_nonempty.imp_right f with h | h
    · rw [h]; exact (measure_empty).trans (measure_empty).symm
    · rw [h]; exact (measure_univ).trans (measure_univ).symm
  | cons b bs ih =>
    have h1 : MeasurePreserving (Prod.map id fun Zs => Proof.entries (allCols bs Zs))
        ((normals a b).prod (normalSeq a bs)) ((Proof.gauss (Fin a × Fin b)).prod (Proof.gauss (Fin a × Fin bs.sum))) := by
      exact (MeasurePreserving.id _).prod ih
    have h2 := (Proof.measurePreserving_join (colsSplit a b bs.sum)).comp h1
    have e : (fun Zs : Proof.Draws a (b :: bs) => Proof.entries (allCols (b :: bs) Zs)) =
        Proof.join (colsSplit a b bs.sum) ∘ Prod.map id fun Zs => Proof.entries (allCols bs Zs) := by
      funext Z
      exact entries_hcat Z.1 (allCols bs Z.2)
    rw [e]
    exact h2

theorem rank_le_of_svd {A : Matrix (Fin m) (Fin n) ℝ}
    {U : Matrix (Fin m) (Fin r) ℝ} {s : Fin r → ℝ} {V : Matrix (Fin n) (Fin r) ℝ} (hA : IsSVD A U s V) {t : ℕ}
    (ht : t ≤ r) (hpos : ¬ ∀ j : Fin t, 0 < s (Fin.castLE ht j)) : A.rank < t := by
  push Not at hpos
  obtain ⟨j, hj⟩ := hpos
  obtain ⟨B, hB, hAB⟩ := exists_best hA j.1
  have h0 : tailSq s j.1 = 0 := by
    refine Finset.sum_eq_zero fun i _ => ?_
    unfold tail
    split
    · ring
    · rename_i hij
      have h1 : s i ≤ s (Fin.castLE ht j) := hA.anti (by
        rw [Fin.le_def]; simpa using hij)
      have : s i = 0 := le_antisymm (h1.trans hj) (hA.nonneg i)
      rw [this]; ring
  rw [h0] at hAB
  have hAB' : A - B = 0 := fro_eq_zero.1 (by
    have := fro_sq (A - B)
    rw [hAB] at this
    exact pow_eq_zero_iff (two_ne_zero) |>.1 this)
  rw [sub_eq_zero.1 hAB']
  have := j.2
  omega

theorem rf1_open {la : LinAlg} {gen : SkOpGen G} {p : ℤ} {A : Matrix (Fin m) (Fin n) ℝ} {k : ℕ} {w w' : World G}
    {out : Cols m} (h : RF1 la (RS1 gen p (orth la) 1) m n A (k : ℤ) .nan w = .ok (out, w')) :
    ∃ S w1, rs1Call gen p (orth la) 1 A k w = .ok (S, w1) ∧ colSpace (A * S.mat) ≤ colSpace out.mat := by
  unfold RF1 rf1Call at h
  rw [Py.bind_ok_iff] at h; obtain ⟨_, w0, ha, h⟩ := h
  rw [Py.assert_ok_iff] at ha; obtain ⟨hk, rfl⟩ := ha
  rw [Py.bind_ok_iff] at h; obtain ⟨_, w0, ha, h⟩ := h
  rw [Py.assert_ok_iff] at ha; obtain ⟨hk', rfl⟩ := ha
  have h1 : (RS1 gen p (orth la) 1 m n A (k : ℤ).toNat >>= fun S => passA A S >>= fun Y =>
      pure ⟨_, (la.qr Y.mat).1⟩) w0 = .ok (out, w') := h
  rw [Int.toNat_natCast] at h1
  rw [Py.bind_ok_iff] at h1; obtain ⟨S, w2, h2, h1⟩ := h1
  rw [Py.bind_ok_iff] at h1; obtain ⟨Y, w3, h3, h1⟩ := h1
  unfold passA at h3
  rw [Py.bind_eq_of_ok (Py.emit_apply _ _)] at h3
  cases h3
  cases h1
  exact ⟨S, w2, h2, qr_range la _⟩

/-- the mean of what the first block leaves, whatever the tolerance and the number of blocks -/
theorem qb2_expected_first (A : Matrix (Fin m) (Fin n) ℝ)
    {U : Matrix (Fin m) (Fin r) ℝ} {s : Fin r → ℝ} {V : Matrix (Fin n) (Fin r) ℝ} (hA : IsSVD A U s V)
    (k : ℤ) (K : ℕ) (hK : K = min k.toNat (min m n)) (blk : ℕ) (t : ℕ) (ht : t ≤ r) (htk : t + 2 ≤ min blk K)
    (τ : ℝ) (hτ : ∀ (i : Fin r) (j : Fin t), t ≤ i.1 → s i ≤ τ * s (Fin.castLE ht j)) (p : ℤ) (hp : 0 ≤ p) :
    ∃ g : Proof.Draws (startRows p m n) (blockWidths K blk) → ℝ,
      (∀ Z, 0 ≤ g Z) ∧ Integrable g (normalSeq _ _) ∧
      ∫ Z, g Z ∂(normalSeq _ _) = tailSq s t * (1 + τ ^ (2 * p.toNat) * (t / (((min blk K : ℕ) : ℝ) - t - 1))) ∧
      ∀ᵐ Zs ∂(normalSeq _ _), ∀ (G : Type) (la : LinAlg) (R : NpRng G) (tol : Tol) (w w' : World G)
        (st : QB2St m n), NextDraws R _ w.rng Zs →
        qb2Run la (RF1 la (RS1 (gaussianOperator R true) p (orth la) 1)) blk A k tol w = .ok (st, w') →
        fro (A - st.Q * st.B) ^ 2 ≤ g Zs := by
  have hprob : IsProbabilityMeasure stdNormal := by unfold stdNormal; infer_instance
  have hk : 0 < k := by omega
  have hmn : 0 < min m n := by omega
  obtain ⟨g, h0, h1, h2, h3⟩ := rs1_expected A hA (min blk K) (by omega) t ht htk τ hτ p hp
  rw [blockWidths_pos (by omega) (by omega)]
  have hfst : MeasurePreserving
      (Prod.fst : Proof.Draws (startRows p m n) (min blk K :: blockWidths (K - min blk K) blk) → _)
      (normalSeq _ (min blk K :: blockWidths (K - min blk K) blk)) (normals _ (min blk K)) :=
    measurePreserving_fst (μ := normals (startRows p m n) (min blk K)) (ν := normalSeq _ _)
  refine ⟨fun Zs => g Zs.1, fun Zs => h0 _, hfst.integrable_comp_of_integrable h1, ?_, ?_⟩
  · exact (mp_integral hfst h1).trans h2
  · filter_upwards [hfst.quasiMeasurePreserving.ae h3] with Zs hZs G la R tol w w' st hw h
    obtain ⟨out, w0, w1, c, Q, e1, e2, e3, e4, e6⟩ := first_block la _ blk A hmn k hk tol w w' st h
    rw [← hK] at e2
    obtain ⟨S, w2, e4', e5⟩ := rf1_open e2
    have hw0 : NextNormal R w0 _ _ Zs.1 := by
      unfold NextNormal
      rw [e1]; exact hw.1
    exact e6.trans (hZs G la R w0 w2 S hw0 e4' _ Q e4 (e5.trans e3))

/-- QB2 over Gaussian power sketches: the error of the run, if it builds all its columns.  One block, or no
power iterations. -/
theorem qb2_expected (A : Matrix (Fin m) (Fin n) ℝ)
    {U : Matrix (Fin m) (Fin r) ℝ} {s : Fin r → ℝ} {V : Matrix (Fin n) (Fin r) ℝ} (hA : IsSVD A U s V)
    (k : ℤ) (K : ℕ) (hK : K = min k.toNat (min m n)) (p : ℤ) (hp : 0 ≤ p) (blk : ℕ) (hblk : 0 < blk)
    (W : ℕ) (hW : W = if p = 0 then K else min blk K) (t : ℕ) (ht : t ≤ r) (htk : t + 2 ≤ W) (τ : ℝ)
    (hτ : ∀ (i : Fin r) (j : Fin t), t ≤ i.1 → s i ≤ τ * s (Fin.castLE ht j)) :
    ∃ g : Proof.Draws (startRows p m n) (blockWidths K blk) → ℝ,
      (∀ Z, 0 ≤ g Z) ∧ Integrable g (normalSeq _ _) ∧
      ∫ Z, g Z ∂(normalSeq _ _) = tailSq s t * (1 + τ ^ (2 * p.toNat) * (t / ((W : ℝ) - t - 1))) ∧
      ∀ᵐ Zs ∂(normalSeq _ _), ∀ (G : Type) (la : LinAlg) (R : NpRng G) (tol : Tol) (w w' : World G)
        (st : QB2St m n), NextDraws R _ w.rng Zs →
        qb2Run la (RF1 la (RS1 (gaussianOperator R true) p (orth la) 1)) blk A k tol w = .ok (st, w') →
        st.c = K → fro (A - st.Q * st.B) ^ 2 ≤ g Zs := by
  have hprob : IsProbabilityMeasure stdNormal := by unfold stdNormal; infer_instance
  have hWK : W ≤ K := by rw [hW]; split <;> omega
  have hk : 0 < k := by omega
  have hmn : 0 < min m n := by omega
  have hae := qb2Run_ae A hmn k hk p hp blk hblk
  rw [← hK] at hae
  by_cases hb : W = min blk K
  · -- the first block
    rw [hb] at htk ⊢
    obtain ⟨g, h0, h1, h2, h3⟩ := qb2_expected_first A hA k K hK blk t ht htk τ hτ p hp
    refine ⟨g, h0, h1, h2, ?_⟩
    filter_upwards [h3] with Zs hZs G la R tol w w' st hw h _
    exact hZs G la R tol w w' st hw h
  · -- several blocks, no power iterations
    obtain rfl : p = 0 := by
      by_contra hne
      rw [if_neg hne] at hW
      exact hb hW
    obtain rfl : K = W := by rw [hW, if_pos rfl]
    by_cases hpos : ∀ j : Fin t, 0 < s (Fin.castLE ht j)
    · have hmp := measurePreserving_allCols n (blockWidths K blk)
      have hsum := blockWidths_sum K blk
      obtain ⟨⟨h1, h2⟩, h3⟩ := sketchBound_mean s t (blockWidths K blk).sum ht (by omega) hA.right
      have hτ0 : τ ^ (2 * (0 : ℤ).toNat) = 1 := by simp
      rw [hτ0, one_mul]
      have h4 := hmp.integrable_comp_of_integrable h1
      have htail : 0 ≤ tailSq s t := Finset.sum_nonneg fun i _ => sq_nonneg _
      refine ⟨fun Zs => tailSq s t + sketchBound s t _ ht V (Proof.entries (allCols (blockWidths K blk) Zs)),
        fun Zs => add_nonneg htail (froSq_nonneg _), (integrable_const _).add h4, ?_, ?_⟩
      · have e := (mp_integral hmp h1).trans h2
        rw [show (((blockWidths K blk).sum : ℕ) : ℝ) = (K : ℝ) by rw [hsum]] at e
        refine (mean_const_add h4 (tailSq s t) e).trans ?_
        ring
      · filter_upwards [hmp.quasiMeasurePreserving.ae h3, hae] with Zs hZs hZ' G la R tol w w' st hw h hc
        obtain ⟨st', w'', f1, f2⟩ := hZ' G la R tol w hw
        rw [h] at f1
        cases f1
        have hcon := run_conclusions la _ 0 blk hblk A hmn k hk tol w w' st h f2
        by_cases hkr : k ≤ A.rank
        · obtain ⟨hQ, hB⟩ := hcon.2.2.2.1 (Or.inl hkr)
          rw [qb2Run_open w hk] at h
          have hcl : clampK k m n = K := hK.symm
          rw [hcl] at h
          have hrng : (if k ≤ (min m n : ℕ) then w else { w with warns := w.warns + 1 }).rng = w.rng := by
            split <;> rfl
          have hr := (loop_range la R A hblk (by omega) _ _ _ (qb2Init A blk) _ (by change 0 < K; omega) rfl
            (blockWidths K blk) rfl Zs (qb2Inv_init A blk) (by rw [hrng]; exact hw) st w' h hc).2
          rw [hB, fro_sq]
          have := Proof.range_bound hA ht hpos 1 (fun i j hij => by
            rw [one_mul]; exact hA.anti (by rw [Fin.le_def]; have := j.2; simp; omega)) 0
            (Vᵀ * allCols (a := n) (blockWidths K blk) Zs) _ hZs hQ (le_trans (le_of_eq ?_) hr)
          · rw [one_pow, one_mul] at this
            exact this
          · rw [zero_add, ← Matrix.mul_assoc]
            simp only [pow_one]
            rw [← hA.eq]
        · have hres : (A - st.Q * st.B).rank = 0 := by
            have hA1 := rank_le_width' A
            have hA2 : A.rank ≤ m := by simpa using A.rank_le_height
            rw [hcon.2.2.1]
            omega
          rw [eq_zero_of_rank hres, fro_zero]
          simp only [ne_eq, OfNat.ofNat_ne_zero, not_false_eq_true, zero_pow]
          exact add_nonneg htail (froSq_nonneg _)
    · have hrk := rank_le_of_svd hA ht hpos
      have htail : 0 ≤ tailSq s t := Finset.sum_nonneg fun i _ => sq_nonneg _
      have hkt : (0 : ℝ) ≤ t / ((K : ℝ) - t - 1) := by
        have : ((t : ℝ) + 2) ≤ K := by exact_mod_cast htk
        exact div_nonneg (Nat.cast_nonneg _) (by linarith)
      have hτn : 0 ≤ τ ^ (2 * (0 : ℤ).toNat) := by simp
      refine ⟨fun _ => tailSq s t * (1 + τ ^ (2 * (0 : ℤ).toNat) * (t / ((K : ℝ) - t - 1))), fun _ => by positivity,
        integrable_const _, by simp, ?_⟩
      filter_upwards [hae] with Zs hZ' G la R tol w w' st hw h hc
      obtain ⟨st', w'', f1, f2⟩ := hZ' G la R tol w hw
      rw [h] at f1
      cases f1
      have hcon := run_conclusions la _ 0 blk hblk A hmn k hk tol w w' st h f2
      have hres : (A - st.Q * st.B).rank = 0 := by
        rw [hcon.2.2.1]
        omega
      rw [eq_zero_of_rank hres, fro_zero]
      have : 0 ≤ tailSq s t * (1 + τ ^ (2 * (0 : ℤ).toNat) * (t / ((K : ℝ) - t - 1))) := by positivity
      simpa using this

/-- **C65** (expected error of the rangefinder).  Let `s` be the singular values of `A`, `s_i ≤ τ s_j` for
`i ≥ t > j`, and `t + 2 ≤ k ≤ min(m, n)`.  For almost every draw `rf1(A, k, p, rng)` with a Gaussian sketch and
`p ≥ 1` passes returns a `Q`, and the mean of `‖A - QQ'A‖²` is at most

  `(∑_{i≥t} s_i²) (1 + τ^(2(p-1)) t/(k-t-1))`. -/
theorem C65_rf1 (A : Matrix (Fin m) (Fin n) ℝ)
    {U : Matrix (Fin m) (Fin r) ℝ} {s : Fin r → ℝ} {V : Matrix (Fin n) (Fin r) ℝ} (hA : IsSVD A U s V)
    (k : ℕ) (hk' : k ≤ min m n) (t : ℕ) (ht : t ≤ r) (htk : t + 2 ≤ k) (τ : ℝ)
    (hτ : ∀ (i : Fin r) (j : Fin t), t ≤ i.1 → s i ≤ τ * s (Fin.castLE ht j)) (p : ℤ) (hp : 1 ≤ p) :
    ∃ g : (Fin (startRows (p - 1) m n) × Fin k → ℝ) → ℝ, (∀ Z, 0 ≤ g Z) ∧ Integrable g (normals _ k) ∧
      ∫ Z, g Z ∂(normals _ k) = tailSq s t * (1 + τ ^ (2 * (p - 1).toNat) * (t / ((k : ℝ) - t - 1))) ∧
      ∀ᵐ Z ∂(normals _ k), ∀ (G : Type) (la : LinAlg) (R : NpRng G) (w : World G), NextNormal R w _ _ Z →
        ∃ Q w', rf1 la (gaussianOperator R true) A k p w = .ok (Q, w') ∧ Q.c = k ∧ OrthoCols Q.mat ∧
          fro (A - Q.mat * (Q.matᵀ * A)) ^ 2 ≤ g Z := by
  obtain ⟨g, h0, h1, h2, h3⟩ := rs1_expected A hA k hk' t ht htk τ hτ (p - 1) (by omega)
  refine ⟨g, h0, h1, h2, ?_⟩
  filter_upwards [h3, C59_rf1 A k (by omega) hk' p hp] with Z hZ hZ' G la R w hw
  obtain ⟨Q, w', e1, e2, e3, -⟩ := hZ' G la R w hw
  refine ⟨Q, w', e1, e2, e3, ?_⟩
  obtain ⟨-, -, -, -, S, w1, h5, h6⟩ := C01_rf1_procedural la _ A k p w w' Q e1
  exact hZ G la R { w with warns := w.warns + 1 } w1 S hw h5 _ _ e3 h6

/-- **C65** for `qb(num_passes, A, k, rng)`, `p ≥ 2` passes. -/
theorem C65_qb (A : Matrix (Fin m) (Fin n) ℝ)
    {U : Matrix (Fin m) (Fin r) ℝ} {s : Fin r → ℝ} {V : Matrix (Fin n) (Fin r) ℝ} (hA : IsSVD A U s V)
    (k : ℕ) (hk' : k ≤ min m n) (t : ℕ) (ht : t ≤ r) (htk : t + 2 ≤ k) (τ : ℝ)
    (hτ : ∀ (i : Fin r) (j : Fin t), t ≤ i.1 → s i ≤ τ * s (Fin.castLE ht j)) (p : ℤ) (hp : 2 ≤ p) :
    ∃ g : (Fin (startRows (p - 2) m n) × Fin k → ℝ) → ℝ, (∀ Z, 0 ≤ g Z) ∧ Integrable g (normals _ k) ∧
      ∫ Z, g Z ∂(normals _ k) = tailSq s t * (1 + τ ^ (2 * (p - 2).toNat) * (t / ((k : ℝ) - t - 1))) ∧
      ∀ᵐ Z ∂(normals _ k), ∀ (G : Type) (la : LinAlg) (R : NpRng G) (w : World G), NextNormal R w _ _ Z →
        ∃ out w', qb la (gaussianOperator R true) p A k w = .ok (out, w') ∧ out.c = k ∧ OrthoCols out.Q ∧
          fro (A - out.Q * out.B) ^ 2 ≤ g Z := by
  obtain ⟨g, h0, h1, h2, h3⟩ := rs1_expected A hA k hk' t ht htk τ hτ (p - 2) (by omega)
  refine ⟨g, h0, h1, h2, ?_⟩
  filter_upwards [h3, C59_qb A k (by omega) hk' p hp] with Z hZ hZ' G la R w hw
  obtain ⟨out, w', e1, e2, e3, e4, -⟩ := hZ' G la R w hw
  refine ⟨out, w', e1, e2, e3, ?_⟩
  rw [e4]
  have h := e1
  unfold qb qb1Call at h
  rw [Py.bind_ok_iff] at h; obtain ⟨_, w0, ha, h⟩ := h
  rw [Py.assert_ok_iff] at ha; obtain ⟨hk, rfl⟩ := ha
  rw [Py.bind_ok_iff] at h; obtain ⟨_, w0, ha, h⟩ := h
  rw [Py.assert_ok_iff] at ha; obtain ⟨hk', rfl⟩ := ha
  rw [Py.bind_ok_iff] at h; obtain ⟨_, w0, ha, h⟩ := h
  cases ha
  rw [Py.bind_ok_iff] at h; obtain ⟨Q, w1, h1, h⟩ := h
  rw [Py.bind_eq_of_ok (Py.emit_apply _ _)] at h
  cases h
  obtain ⟨S, w2, h5, h6⟩ := rf1_open h1
  exact hZ G la R w0 w2 S hw h5 _ _ e3 h6

/-- **C65** for `qb_b(p, blk, overwrite, A, k, tol, rng)`, any block size: the mean squared error over the
runs is at most the bound for `W` columns, where `W` is the number `K = min(k, m, n)` of all columns when there are no
power iterations (`p = 2`) and otherwise the width `min(blk, K)` of the first block; runs that stop early do so because
the tolerance is met. -/
theorem C65_qb_b (A : Matrix (Fin m) (Fin n) ℝ)
    {U : Matrix (Fin m) (Fin r) ℝ} {s : Fin r → ℝ} {V : Matrix (Fin n) (Fin r) ℝ} (hA : IsSVD A U s V)
    (k : ℤ) (K : ℕ) (hK : K = min k.toNat (min m n)) (p : ℤ) (hp : 2 ≤ p) (blk : ℕ) (hblk : 0 < blk)
    (W : ℕ) (hW : W = if p = 2 then K else min blk K) (t : ℕ) (ht : t ≤ r) (htk : t + 2 ≤ W) (τ : ℝ)
    (hτ : ∀ (i : Fin r) (j : Fin t), t ≤ i.1 → s i ≤ τ * s (Fin.castLE ht j)) :
    ∃ g : Proof.Draws (startRows (p - 2) m n) (blockWidths K blk) → ℝ,
      (∀ Z, 0 ≤ g Z) ∧ Integrable g (normalSeq _ _) ∧
      ∫ Z, g Z ∂(normalSeq _ _) = tailSq s t * (1 + τ ^ (2 * (p - 2).toNat) * (t / ((W : ℝ) - t - 1))) ∧
      ∀ᵐ Zs ∂(normalSeq _ _), ∀ (G : Type) (la : LinAlg) (R : NpRng G) (ow : Bool) (tol : Tol) (w : World G),
        NextDraws R _ w.rng Zs →
        ∃ (out : QBOut m n) (A' : Matrix (Fin m) (Fin n) ℝ) (w' : World G),
          qbB la (gaussianOperator R true) p blk ow A k tol w = .ok ((out, A'), w') ∧
          (out.c = K ∨ ∃ u, tol = .val u ∧ 0 < u ∧ fro (A - out.Q * out.B) ≤ u * fro A) ∧
          (out.c = K → fro (A - out.Q * out.B) ^ 2 ≤ g Zs) := by
  have hWK : W ≤ K := by rw [hW]; split <;> omega
  obtain ⟨g, h0, h1, h2, h3⟩ := qb2_expected A hA k K hK (p - 2) (by omega) blk hblk W
    (hW.trans (if_congr (by omega) rfl rfl)) t ht htk τ hτ
  refine ⟨g, h0, h1, h2, ?_⟩
  have hae := qb2Run_ae A (by omega) k (by omega) (p - 2) (by omega) blk hblk
  rw [← hK] at hae
  filter_upwards [h3, hae] with Zs hZ hZs G la R ow tol w hw
  obtain ⟨st, w', e1, e2⟩ := hZs G la R tol w hw
  have hcon := run_conclusions la _ (p - 2) blk hblk A (by omega) k (by omega) tol w w' st e1 e2
  refine ⟨⟨st.c, st.Q, st.B⟩, if ow then st.A else A, w', ?_, ?_, fun hc => hZ G la R tol w w' st hw e1 hc⟩
  · unfold qbB qb2Call
    rw [Py.bind_eq_of_ok e1]
    rfl
  · refine hcon.2.1.imp_left fun h => ?_
    change st.c = K
    omega

/-- **C65** for `qb_b` with a tolerance, including the runs that stop early: with `b = min(blk, k, m, n)` the width of
the first block, the mean squared error over all runs is at most the bound for `b` columns. -/
theorem C65_qb_b_early (A : Matrix (Fin m) (Fin n) ℝ)
    {U : Matrix (Fin m) (Fin r) ℝ} {s : Fin r → ℝ} {V : Matrix (Fin n) (Fin r) ℝ} (hA : IsSVD A U s V)
    (k : ℤ) (K : ℕ) (hK : K = min k.toNat (min m n)) (p : ℤ) (hp : 2 ≤ p) (blk b : ℕ) (hb : b = min blk K)
    (t : ℕ) (ht : t ≤ r) (htk : t + 2 ≤ b) (τ : ℝ)
    (hτ : ∀ (i : Fin r) (j : Fin t), t ≤ i.1 → s i ≤ τ * s (Fin.castLE ht j)) :
    ∃ g : Proof.Draws (startRows (p - 2) m n) (blockWidths K blk) → ℝ,
      (∀ Z, 0 ≤ g Z) ∧ Integrable g (normalSeq _ _) ∧
      ∫ Z, g Z ∂(normalSeq _ _) = tailSq s t * (1 + τ ^ (2 * (p - 2).toNat) * (t / ((b : ℝ) - t - 1))) ∧
      ∀ᵐ Zs ∂(normalSeq _ _), ∀ (G : Type) (la : LinAlg) (R : NpRng G) (ow : Bool) (tol : Tol) (w : World G),
        NextDraws R _ w.rng Zs →
        ∃ (out : QBOut m n) (A' : Matrix (Fin m) (Fin n) ℝ) (w' : World G),
          qbB la (gaussianOperator R true) p blk ow A k tol w = .ok ((out, A'), w') ∧
          fro (A - out.Q * out.B) ^ 2 ≤ g Zs := by
  subst hb
  obtain ⟨g, h0, h1, h2, h3⟩ := qb2_expected_first A hA k K hK blk t ht htk τ hτ (p - 2) (by omega)
  refine ⟨g, h0, h1, h2, ?_⟩
  have hae := qb2Run_ae A (by omega) k (by omega) (p - 2) (by omega) blk (by omega)
  rw [← hK] at hae
  filter_upwards [h3, hae] with Zs hZ hZs G la R ow tol w hw
  obtain ⟨st, w', e1, -⟩ := hZs G la R tol w hw
  refine ⟨⟨st.c, st.Q, st.B⟩, if ow then st.A else A, w', ?_, hZ G la R tol w w' st hw e1⟩
  unfold qbB qb2Call
  rw [Py.bind_eq_of_ok e1]
  rfl

/-- taking all columns -/
theorem colSpace_takeCols_all (M : Matrix (Fin m) (Fin n) ℝ) {c a : ℕ} (S : Matrix (Fin n) (Fin a) ℝ) (h : a = c) :
    colSpace (M * S) ≤ colSpace (M * takeCols c S) := by
  subst h
  apply colSpace_le_of_cols
  intro j
  have hj : j.1 < min a a := by have := j.2; omega
  have : (M * S).col j = (M * takeCols a S).col ⟨j.1, hj⟩ := by
    ext i
    rfl
  rw [this]
  exact col_mem_colSpace _ _

/-- a run of `qb_b_pe` that built all its columns has projected onto the whole sketch -/
theorem qbBPe_range {la : LinAlg} {gen : SkOpGen G} {p : ℤ} {blk : ℕ} {A : Matrix (Fin m) (Fin n) ℝ} {k : ℕ}
    (hk' : k < min m n) {tol : Tol} {w w' : World G} {out : QBOut m n}
    (h : qbBPe la gen p blk A k tol w = .ok (out, w')) (hc : out.c = k) :
    OrthoCols out.Q ∧ out.B = out.Qᵀ * A ∧
      ∃ S w1, rs1Call gen (p - 1) (orth la) 1 A k w = .ok (S, w1) ∧ colSpace (A * S.mat) ≤ colSpace out.Q := by
  have h' := h
  unfold qbBPe qb3Call at h
  rw [Py.bind_ok_iff] at h; obtain ⟨_, w0, ha, h⟩ := h
  rw [Py.assert_ok_iff] at ha; obtain ⟨-, rfl⟩ := ha
  rw [Py.bind_ok_iff] at h; obtain ⟨_, w0, ha, h⟩ := h
  rw [Py.assert_ok_iff] at ha; obtain ⟨-, rfl⟩ := ha
  rw [Py.bind_ok_iff] at h; obtain ⟨S, w1, h1, -⟩ := h
  have h2 : rs1Call gen (p - 1) (orth la) 1 A k w0 = .ok (S, w1) := by
    have := h1
    rw [Int.toNat_natCast] at this
    exact this
  have hSc : S.c = k := rs1Call_width_eq (fun _ _ => rfl) (by omega) h2
  obtain ⟨g1, g2, g3, -⟩ := C10_qb3_correct la _ blk A k tol w0 w1 w' S h1 (by exact_mod_cast hSc) out h'
  refine ⟨g1, g2, S, w1, h2, ?_⟩
  rw [g3]
  exact colSpace_takeCols_all A S.mat (by omega)

/-- **C65** for `qb_b_pe(p, blk, A, k, tol, rng)`, `p ≥ 1`, `0 < k < min(m, n)`, `k ≤ rank(A)`, any block size: the
bound of `rf1` with as many passes, over the runs that build all `k` columns; the others stop because the tolerance is
met. -/
theorem C65_qb_b_pe (A : Matrix (Fin m) (Fin n) ℝ)
    {U : Matrix (Fin m) (Fin r) ℝ} {s : Fin r → ℝ} {V : Matrix (Fin n) (Fin r) ℝ} (hA : IsSVD A U s V)
    (k : ℕ) (hk' : k < min m n) (hr : k ≤ A.rank) (t : ℕ) (ht : t ≤ r) (htk : t + 2 ≤ k) (τ : ℝ)
    (hτ : ∀ (i : Fin r) (j : Fin t), t ≤ i.1 → s i ≤ τ * s (Fin.castLE ht j)) (p : ℤ) (hp : 1 ≤ p)
    (blk : ℕ) (hblk : 0 < blk) :
    ∃ g : (Fin (startRows (p - 1) m n) × Fin k → ℝ) → ℝ, (∀ Z, 0 ≤ g Z) ∧ Integrable g (normals _ k) ∧
      ∫ Z, g Z ∂(normals _ k) = tailSq s t * (1 + τ ^ (2 * (p - 1).toNat) * (t / ((k : ℝ) - t - 1))) ∧
      ∀ tol : Tol, ∀ᵐ Z ∂(normals _ k), ∀ (G : Type) (la : LinAlg) (R : NpRng G) (w : World G), NextNormal R w _ _ Z →
        ∃ out w', qbBPe la (gaussianOperator R true) p blk A k tol w = .ok (out, w') ∧ OrthoCols out.Q ∧
          (out.c = k ∨ ∃ u, tol = .val u ∧ 0 < u ∧ fro (A - out.Q * out.B) ≤ u * fro A) ∧
          (out.c = k → fro (A - out.Q * out.B) ^ 2 ≤ g Z) := by
  obtain ⟨g, h0, h1, h2, h3⟩ := rs1_expected A hA k (by omega) t ht htk τ hτ (p - 1) (by omega)
  refine ⟨g, h0, h1, h2, fun tol => ?_⟩
  filter_upwards [h3, C59_qb_b_pe A k (by omega) hk' hr p hp blk hblk tol] with Z hZ hZ' G la R w hw
  obtain ⟨out, w', e1, e2, -, -, e3, -⟩ := hZ' G la R w hw
  refine ⟨out, w', e1, e2, e3, fun hc => ?_⟩
  obtain ⟨g1, g2, S, w1, g3, g4⟩ := qbBPe_range hk' e1 hc
  rw [g2]
  exact hZ G la R w w1 S hw g3 _ _ g1 g4

/-- **C65** for `svd1(A, k, over, nan, p, blk, rng)`, if everything fits in one block or `k + over ≤ rank(A)`:
with `K = min(k + over, m, n)` columns in the sketch, and `W = K` if there are no power iterations and otherwise the
width `min(blk, K)` of the first block, the mean squared error is at most

  `∑_{i≥k} s_i² + (∑_{i≥t} s_i²) (1 + τ^(2(p-2)) t/(W-t-1))`

for every `t ≤ W - 2`, up to the singular values below `10 eps` that are dropped; and never less than
`∑_{i≥k} s_i²`. -/
theorem C65_svd1 (A : Matrix (Fin m) (Fin n) ℝ)
    {U : Matrix (Fin m) (Fin r) ℝ} {s : Fin r → ℝ} {V : Matrix (Fin n) (Fin r) ℝ} (hA : IsSVD A U s V)
    (k over K : ℕ) (hK : K = min (k + over) (min m n)) (p : ℤ) (hp : 2 ≤ p) (blk : ℕ) (hblk : 0 < blk)
    (W : ℕ) (hW : W = if p = 2 then K else min blk K) (t : ℕ) (ht : t ≤ r) (htk : t + 2 ≤ W) (τ : ℝ)
    (hτ : ∀ (i : Fin r) (j : Fin t), t ≤ i.1 → s i ≤ τ * s (Fin.castLE ht j))
    (hone : K ≤ blk ∨ k + over ≤ A.rank) :
    ∃ g : Proof.Draws (startRows (p - 2) m n) (blockWidths K blk) → ℝ,
      (∀ Z, 0 ≤ g Z) ∧ Integrable g (normalSeq _ _) ∧
      ∫ Z, g Z ∂(normalSeq _ _) = tailSq s k +
        tailSq s t * (1 + τ ^ (2 * (p - 2).toNat) * (t / ((W : ℝ) - t - 1))) + (10 * eps) ^ 2 * (min K n : ℕ) ∧
      ∀ᵐ Zs ∂(normalSeq _ _), ∀ (G : Type) (la : LinAlg) (R : NpRng G) (w : World G),
        NextDraws R _ w.rng Zs →
        ∃ (out : SVDOut m n) (w' : World G),
          svd1 la (gaussianOperator R true) A k over .nan p blk w = .ok (out, w') ∧ out.r ≤ k ∧
          OrthoCols out.U ∧ OrthoRows out.Vh ∧
          tailSq s k ≤ fro (A - out.U * diagonal out.s * out.Vh) ^ 2 ∧
          fro (A - out.U * diagonal out.s * out.Vh) ^ 2 ≤ g Zs := by
  have hWK : W ≤ K := by rw [hW]; split <;> omega
  have hprob : IsProbabilityMeasure stdNormal := by unfold stdNormal; infer_instance
  have hKi : K = min ((k + over : ℕ) : ℤ).toNat (min m n) := by rw [Int.toNat_natCast, hK]
  obtain ⟨g, h0, h1, h2, h3⟩ := qb2_expected A hA ((k + over : ℕ) : ℤ) K hKi (p - 2) (by omega) blk hblk W
    (hW.trans (if_congr (by omega) rfl rfl)) t ht htk τ hτ
  have htl : 0 ≤ tailSq s k := Finset.sum_nonneg fun i _ => sq_nonneg _
  refine ⟨fun Zs => tailSq s k + (10 * eps) ^ 2 * (min K n : ℕ) + g Zs,
    fun Zs => add_nonneg (by positivity) (h0 Zs), (integrable_const _).add h1, ?_, ?_⟩
  · rw [mean_const_add h1 _ h2]; ring
  have hae := qb2Run_ae A (by omega) ((k + over : ℕ) : ℤ) (by omega) (p - 2) (by omega) blk hblk
  rw [← hKi] at hae
  filter_upwards [h3, hae] with Zs hZ hZs G la R w hw
  obtain ⟨st, w', e1, e2⟩ := hZs G la R .nan w hw
  have hcon := run_conclusions la _ (p - 2) blk hblk A (by omega) _ (by omega) .nan w w' st e1 e2
  have hcK : st.c = K := by
    rcases hcon.2.1 with h | ⟨u, hu, -⟩
    · omega
    · cases hu
  have hqb : QB2 la (RF1 la (RS1 (gaussianOperator R true) (p - 2) (orth la) 1)) blk false m n A
      ((k + over : ℕ) : ℤ) .nan w = .ok (⟨st.c, st.Q, st.B⟩, w') := by
    unfold QB2 qb2Call
    rw [Py.bind_eq_of_ok (Py.bind_eq_of_ok e1)]; rfl
  obtain ⟨hQ, hB⟩ := hcon.2.2.2.1 (by
    rcases hone with h | h
    · right; omega
    · left; exact_mod_cast h)
  have hcc : st.c ≤ k + over := by omega
  obtain ⟨out, g1, g2, g3, g4, -⟩ := C12_svd1_valid la _ A k .nan over w w' _ hqb hQ hcc
  obtain ⟨out', g1', l1, l2⟩ := C62_svd1_near_optimal la _ A hA k .nan over w w' _ hqb hQ hB hcc
  rw [g1] at g1'
  cases g1'
  refine ⟨out, w', g1, g2, g3, g4, l1, l2.trans ?_⟩
  have := hZ G la R .nan w w' st hw e1 hcK
  change tailSq s k + fro (A - st.Q * st.B) ^ 2 + (10 * eps) ^ 2 * ((min st.c n : ℕ) : ℝ) ≤ _
  rw [show ((min st.c n : ℕ) : ℝ) = ((min K n : ℕ) : ℝ) by rw [hcK]]
  linarith

/-- Markov's inequality -/
theorem markov {X : Type} [MeasurableSpace X] {μ : Measure X} [IsProbabilityMeasure μ] {g : X → ℝ}
    (h0 : ∀ x, 0 ≤ g x) (hg : Integrable g μ) {b : ℝ} (hb : ∫ x, g x ∂μ = b) {δ : ℝ} (hδ : 0 < δ) :
    μ {x | b / δ < g x} ≤ ENNReal.ofReal δ := by
  have hb0 : 0 ≤ b := hb ▸ integral_nonneg h0
  rcases hb0.eq_or_lt with h | h
  · rw [← h] at hb ⊢
    have := (integral_eq_zero_iff_of_nonneg h0 hg).1 hb
    refine le_trans (le_of_eq ?_) zero_le
    rw [zero_div]
    refine measure_mono_null ?_ (ae_iff.1 this)
    intro x hx
    have hx : 0 < g x := hx
    exact ne_of_gt hx
  · have h1 := mul_meas_ge_le_integral_of_nonneg (Filter.Eventually.of_forall h0) hg (b / δ)
    rw [hb] at h1
    have h2 : μ.real {x | b / δ ≤ g x} ≤ δ := by
      have : b / δ * μ.real {x | b / δ ≤ g x} ≤ b / δ * δ := by
        rw [div_mul_cancel₀ b hδ.ne']; exact h1
      exact le_of_mul_le_mul_left this (by positivity)
    have hsub : {x | b / δ < g x} ⊆ {x | b / δ ≤ g x} := fun x hx => le_of_lt (show b / δ < g x from hx)
    refine (measure_mono hsub).trans ?_
    exact ENNReal.le_ofReal_iff_toReal_le (measure_ne_top _ _) hδ.le |>.2 h2

/-- **C65** (with high probability).  Except for draws of probability at most `δ`, the squared error of
`rf1(A, k, p, rng)` is at most the bound on its mean over `δ`. -/
theorem C65_rf1_probability (A : Matrix (Fin m) (Fin n) ℝ)
    {U : Matrix (Fin m) (Fin r) ℝ} {s : Fin r → ℝ} {V : Matrix (Fin n) (Fin r) ℝ} (hA : IsSVD A U s V)
    (k : ℕ) (hk' : k ≤ min m n) (t : ℕ) (ht : t ≤ r) (htk : t + 2 ≤ k) (τ : ℝ)
    (hτ : ∀ (i : Fin r) (j : Fin t), t ≤ i.1 → s i ≤ τ * s (Fin.castLE ht j)) (p : ℤ) (hp : 1 ≤ p)
    (δ : ℝ) (hδ : 0 < δ) :
    ∃ E : Set (Fin (startRows (p - 1) m n) × Fin k → ℝ), normals _ k E ≤ ENNReal.ofReal δ ∧
      ∀ Z ∉ E, ∀ (G : Type) (la : LinAlg) (R : NpRng G) (w : World G), NextNormal R w _ _ Z →
        ∃ Q w', rf1 la (gaussianOperator R true) A k p w = .ok (Q, w') ∧
          fro (A - Q.mat * (Q.matᵀ * A)) ^ 2 ≤
            tailSq s t * (1 + τ ^ (2 * (p - 1).toNat) * (t / ((k : ℝ) - t - 1))) / δ := by
  obtain ⟨g, h0, h1, h2, h3⟩ := C65_rf1 A hA k hk' t ht htk τ hτ p hp
  have hm := markov h0 h1 h2 hδ
  obtain ⟨b, hb⟩ : ∃ b, b = tailSq s t * (1 + τ ^ (2 * (p - 1).toNat) * (t / ((k : ℝ) - t - 1))) := ⟨_, rfl⟩
  rw [← hb] at hm ⊢
  refine ⟨{Z | b / δ < g Z} ∪ {Z | ¬ ∀ (G : Type) (la : LinAlg) (R : NpRng G) (w : World G), NextNormal R w _ _ Z →
      ∃ Q w', rf1 la (gaussianOperator R true) A k p w = .ok (Q, w') ∧ Q.c = k ∧ OrthoCols Q.mat ∧
        fro (A - Q.mat * (Q.matᵀ * A)) ^ 2 ≤ g Z}, (measure_union_le _ _).trans ?_, fun Z hZ G la R w hw => ?_⟩
  · rw [ae_iff.1 h3, add_zero]; exact hm
  · rw [Set.mem_union, not_or] at hZ
    obtain ⟨hZ1, hZ2⟩ := hZ
    obtain ⟨Q, w', e1, -, -, e4⟩ := (not_not.1 hZ2) G la R w hw
    exact ⟨Q, w', e1, e4.trans (not_lt.1 hZ1)⟩

/-- **C65** (oversampling).  With `k` target columns, `over ≥ 2` extra ones and one pass, no assumption on the
singular values: the mean squared error of `rf1(A, k + over, 1, rng)` is at most `1 + k/(over-1)` times the best
possible one for rank `k`. -/
theorem C65_rf1_oversampling (A : Matrix (Fin m) (Fin n) ℝ)
    {U : Matrix (Fin m) (Fin r) ℝ} {s : Fin r → ℝ} {V : Matrix (Fin n) (Fin r) ℝ} (hA : IsSVD A U s V)
    (k over : ℕ) (hk : k ≤ r) (hk' : k + over ≤ min m n) (ho : 2 ≤ over) :
    ∃ g : (Fin n × Fin (k + over) → ℝ) → ℝ, Integrable g (normals n (k + over)) ∧
      (∀ X : Matrix (Fin m) (Fin n) ℝ, X.rank ≤ k →
        ∫ Z, g Z ∂(normals n (k + over)) ≤ (1 + k / ((over : ℝ) - 1)) * fro (A - X) ^ 2) ∧
      ∀ᵐ Z ∂(normals n (k + over)), ∀ (G : Type) (la : LinAlg) (R : NpRng G) (w : World G),
        NextNormal R w n (k + over) Z →
        ∃ Q w', rf1 la (gaussianOperator R true) A ((k + over : ℕ) : ℤ) 1 w = .ok (Q, w') ∧ OrthoCols Q.mat ∧
          fro (A - Q.mat * (Q.matᵀ * A)) ^ 2 ≤ g Z := by
  obtain ⟨g, -, h1, h2, h3⟩ := C65_rf1 A hA (k + over) hk' k hk (by omega) 1 (fun i j hij => by
    rw [one_mul]; exact hA.anti (by rw [Fin.le_def]; have := j.2; simp; omega)) 1 le_rfl
  refine ⟨g, h1, fun X hX => ?_, ?_⟩
  · refine (le_of_eq h2).trans ?_
    have e := Proof.ey_rank hA X hX
    have ho' : (2 : ℝ) ≤ over := by exact_mod_cast ho
    have hc : (0 : ℝ) ≤ 1 + k / ((over : ℝ) - 1) :=
      add_nonneg zero_le_one (div_nonneg (Nat.cast_nonneg _) (by linarith))
    rw [fro_sq, one_pow, one_mul, Nat.cast_add, show (k : ℝ) + over - k - 1 = over - 1 by ring, mul_comm]
    exact mul_le_mul_of_nonneg_left e hc
  · filter_upwards [h3] with Z hZ G la R w hw
    obtain ⟨Q, w', e1, -, e3, e4⟩ := hZ G la R w hw
    exact ⟨Q, w', e1, e3, e4⟩

/-- the mean of a square root is at most the square root of the mean -/
theorem mean_sqrt {X : Type} [MeasurableSpace X] {μ : Measure X} [IsProbabilityMeasure μ] {g : X → ℝ}
    (h0 : ∀ x, 0 ≤ g x) (hg : Integrable g μ) :
    Integrable (fun x => √(g x)) μ ∧ ∫ x, √(g x) ∂μ ≤ √(∫ x, g x ∂μ) := by
  have hi : Integrable (fun x => √(g x)) μ := by
    refine Integrable.mono' ((integrable_const (1 : ℝ)).add hg)
      (Real.continuous_sqrt.comp_aestronglyMeasurable hg.aestronglyMeasurable) (Filter.Eventually.of_forall fun x => ?_)
    rw [Real.norm_eq_abs, abs_of_nonneg (Real.sqrt_nonneg _)]
    have := Real.sq_sqrt (h0 x)
    change √(g x) ≤ 1 + g x
    nlinarith [sq_nonneg (√(g x) - 1), Real.sqrt_nonneg (g x)]
  refine ⟨hi, Real.le_sqrt_of_sq_le ?_⟩
  obtain ⟨c, hc⟩ : ∃ c, c = ∫ x, √(g x) ∂μ := ⟨_, rfl⟩
  have h1 : ∫ x, (2 * c * √(g x) - c ^ 2) ∂μ ≤ ∫ x, g x ∂μ := by
    refine integral_mono ((hi.const_mul _).sub (integrable_const _)) hg fun x => ?_
    have := Real.sq_sqrt (h0 x)
    change 2 * c * √(g x) - c ^ 2 ≤ g x
    nlinarith [sq_nonneg (√(g x) - c)]
  rw [integral_sub (hi.const_mul _) (integrable_const _), integral_const_mul, ← hc] at h1
  simp at h1
  rw [← hc]
  nlinarith

/-- **C65** for `evd1(A, k, nan, over, p, blk, rng)` on a symmetric `A`, under the same conditions: the mean error
is at most `√2` times the root of the bound for the sketch, plus the best error `√(∑_{i≥k} s_i²)` (up to the
eigenvalues below `10 eps` that are dropped). -/
theorem C65_evd1 (A : Matrix (Fin n) (Fin n) ℝ) (hsym : Aᵀ = A)
    {U : Matrix (Fin n) (Fin r) ℝ} {s : Fin r → ℝ} {V : Matrix (Fin n) (Fin r) ℝ} (hA : IsSVD A U s V)
    (k over K : ℕ) (hk : 0 < k) (hk' : k ≤ n) (hK : K = min (k + over) n) (p : ℤ) (hp : 2 ≤ p) (blk : ℕ) (hblk : 0 < blk)
    (W : ℕ) (hW : W = if p = 2 then K else min blk K) (t : ℕ) (ht : t ≤ r) (htk : t + 2 ≤ W) (τ : ℝ)
    (hτ : ∀ (i : Fin r) (j : Fin t), t ≤ i.1 → s i ≤ τ * s (Fin.castLE ht j))
    (hone : K ≤ blk ∨ k + over ≤ A.rank) :
    ∃ g : Proof.Draws (startRows (p - 2) n n) (blockWidths K blk) → ℝ,
      (∀ Z, 0 ≤ g Z) ∧ Integrable g (normalSeq _ _) ∧
      ∫ Z, g Z ∂(normalSeq _ _) ≤
        √2 * √(tailSq s t * (1 + τ ^ (2 * (p - 2).toNat) * (t / ((W : ℝ) - t - 1)))) +
        √(tailSq s k + (10 * eps) ^ 2 * K) ∧
      ∀ᵐ Zs ∂(normalSeq _ _), ∀ (G : Type) (la : LinAlg) (R : NpRng G) (w : World G),
        NextDraws R _ w.rng Zs →
        ∃ (out : EVDOut n) (w' : World G),
          evd1 la (gaussianOperator R true) A k .nan over p blk w = .ok (out, w') ∧ out.r ≤ k ∧
          OrthoCols out.V ∧
          √(tailSq s k) ≤ fro (A - out.V * diagonal out.lamb * out.Vᵀ) ∧
          fro (A - out.V * diagonal out.lamb * out.Vᵀ) ≤ g Zs := by
  have hWK : W ≤ K := by rw [hW]; split <;> omega
  have hprob : IsProbabilityMeasure stdNormal := by unfold stdNormal; infer_instance
  have hn : 0 < min n n := by omega
  have hKi : K = min ((k + over : ℕ) : ℤ).toNat (min n n) := by rw [Int.toNat_natCast, hK, min_self]
  obtain ⟨g, h0, h1, h2, h3⟩ := qb2_expected A hA ((k + over : ℕ) : ℤ) K hKi (p - 2) (by omega) blk hblk W
    (hW.trans (if_congr (by omega) rfl rfl)) t ht htk τ hτ
  obtain ⟨q1, q2⟩ := mean_sqrt h0 h1
  refine ⟨fun Zs => √(tailSq s k + (10 * eps) ^ 2 * K) + √2 * √(g Zs), fun Zs => by positivity,
    (integrable_const _).add (q1.const_mul _), ?_, ?_⟩
  · rw [mean_const_add (q1.const_mul _) _ rfl, integral_const_mul, ← h2, add_comm]
    have := mul_le_mul_of_nonneg_left q2 (Real.sqrt_nonneg 2)
    linarith
  have hae := qb2Run_ae A hn ((k + over : ℕ) : ℤ) (by omega) (p - 2) (by omega) blk hblk
  rw [← hKi] at hae
  filter_upwards [h3, hae] with Zs hZ hZs G la R w hw
  obtain ⟨st, w', e1, e2⟩ := hZs G la R .nan w hw
  have hcon := run_conclusions la _ (p - 2) blk hblk A hn _ (by omega) .nan w w' st e1 e2
  have hcK : st.c = K := by
    rcases hcon.2.1 with h | ⟨u, hu, -⟩
    · omega
    · cases hu
  have hqb : QB2 la (RF1 la (RS1 (gaussianOperator R true) (p - 2) (orth la) 1)) blk false n n A
      ((k : ℤ) + over) (Tol.half .nan) w = .ok (⟨st.c, st.Q, st.B⟩, w') := by
    unfold QB2 qb2Call
    rw [← Nat.cast_add, show Tol.half .nan = .nan from rfl, Py.bind_eq_of_ok (Py.bind_eq_of_ok e1)]; rfl
  obtain ⟨hQ, hB⟩ := hcon.2.2.2.1 (by
    rcases hone with h | h
    · right; omega
    · left; exact_mod_cast h)
  obtain ⟨out, g1, g2, g3, g4, g5, -⟩ := C14_evd1_valid la _ A hsym k (by omega) (by omega) .nan (Or.inl rfl) over w w'
    _ hqb hQ hB
  obtain ⟨out', g1', l1, l2⟩ := C62_evd1_near_optimal la _ A hsym hA k (by omega) (by omega) .nan (Or.inl rfl) over w w'
    _ hqb hQ hB
  rw [g1] at g1'
  cases g1'
  rw [Int.toNat_natCast] at g5 l1 l2
  refine ⟨out, w', ?_, by rw [g5]; exact min_le_left _ _, g2, l1, l2.trans ?_⟩
  · unfold evd1
    rw [Py.assert_pos_bind hp]; exact g1
  · have := hZ G la R .nan w w' st hw e1 hcK
    have h5 : fro (A - st.Q * st.B) ≤ √(g Zs) := Real.le_sqrt_of_sq_le this
    have h6 := mul_le_mul_of_nonneg_left h5 (Real.sqrt_nonneg 2)
    change √2 * fro (A - st.Q * st.B) + √(tailSq s k + (10 * eps) ^ 2 * (st.c : ℝ)) ≤ _
    rw [show (st.c : ℝ) = (K : ℝ) by rw [hcK]]
    linarith

/-- the hypotheses hold for `A = diag(4, 3, 2, 1)`, one leading direction, three columns and `τ = 3/4` -/
example : IsSVD (diagonal ![4, 3, 2, 1] : Matrix (Fin 4) (Fin 4) ℝ) 1 ![4, 3, 2, 1] 1 ∧ 1 + 2 ≤ 3 ∧ 3 ≤ min 4 4 ∧
    (∀ (i : Fin 4) (j : Fin 1), 1 ≤ i.1 →
      (![4, 3, 2, 1] : Fin 4 → ℝ) i ≤ 3 / 4 * (![4, 3, 2, 1] : Fin 4 → ℝ) (Fin.castLE (by omega) j)) ∧
    tailSq (![4, 3, 2, 1] : Fin 4 → ℝ) 1 = 14 := by
  refine ⟨⟨?_, ?_, ?_, ?_, ?_⟩, by omega, by omega, ?_, ?_⟩
  · show (1 : Matrix (Fin 4) (Fin 4) ℝ)ᵀ * 1 = 1
    simp
  · show (1 : Matrix (Fin 4) (Fin 4) ℝ)ᵀ * 1 = 1
    simp
  · intro i; fin_cases i <;> simp
  · intro i j h
    fin_cases i <;> fin_cases j <;> first | (exfalso; revert h; decide) | (simp; try norm_num)
  · simp
  · intro i j h
    have hj : j = 0 := Subsingleton.elim _ _
    subst hj
    fin_cases i <;> first | (exfalso; revert h; decide) | (simp [Fin.castLE]; try norm_num)
  · simp [tailSq, tail, Fin.sum_univ_succ]; norm_num

end Parla.Props
