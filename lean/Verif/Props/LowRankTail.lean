import Verif.Proof.LowRankTail
import Verif.Props.IDExpected

/-! # Property C78: exponentially small failure probability of Gaussian low-rank approximation

`E` below is a set of arrays of normals, given in advance: for every array outside it, every run (backend,
generator, state) in which `rng.standard_normal` returns that array returns, and meets the error bound. -/

namespace Parla.Props

open Matrix Parla Spec MeasureTheory

variable {G : Type} {m n r : ℕ}

/-! ### The exceptional set -/

/-- the draw is within `ε` of its expected behaviour -/
def Tame {a : ℕ} (s : Fin r → ℝ) (t k : ℕ) (ht : t ≤ r) (X : Matrix (Fin a) (Fin r) ℝ) (ε : ℝ)
    (Z : Fin a × Fin k → ℝ) : Prop :=
  (∀ x : Fin t → ℝ, (1 - ε) * k * sqNorm x ≤ sqNorm ((firstRows ht (Xᵀ * Proof.drawMat Z))ᵀ *ᵥ x)) ∧
  froSq (diagonal (tail s t) * (Xᵀ * Proof.drawMat Z)) ≤ (1 + ε / 2) * k * tailSq s t

theorem tame_probability {a : ℕ} (s : Fin r → ℝ) (t k : ℕ) (ht : t ≤ r) (hk : 0 < k)
    {X : Matrix (Fin a) (Fin r) ℝ} (hX : OrthoCols X) {ε : ℝ} (h0 : 0 ≤ ε) (h1 : ε ≤ 1) :
    normals a k {Z | ¬ Tame s t k ht X ε Z} ≤ ENNReal.ofReal (sketchRisk t k ε) := by
  have hY : OrthoCols (X.submatrix id (Fin.castLE ht)) := orth_submatrix hX (Fin.castLE_injective ht)
  have e1 := (Proof.real_preimage_le (Proof.gauss_map_rows (k := k) hY) _).trans (Proof.gauss_lower (t := t) hk h0 h1)
  have e2 := (Proof.real_preimage_le (Proof.gauss_map_rows (k := k) hX) _).trans
    (Proof.chiSq_mix (k := k) (tail s t) (η := ε / 2) (by linarith) (by linarith))
  have hsub : {Z : Fin a × Fin k → ℝ | ¬ Tame s t k ht X ε Z} ⊆
      ((fun Z => Proof.entries ((X.submatrix id (Fin.castLE ht))ᵀ * Proof.drawMat Z)) ⁻¹'
        {Z | ¬ ∀ x : Fin t → ℝ, (1 - ε) * k * sqNorm x ≤ sqNorm ((Proof.drawMat Z)ᵀ *ᵥ x)}) ∪
      ((fun Z => Proof.entries (Xᵀ * Proof.drawMat Z)) ⁻¹'
        {H | ¬ froSq (diagonal (tail s t) * Proof.drawMat H) ≤ (1 + ε / 2) * k * ∑ i, tail s t i ^ 2}) := by
    intro Z hZ
    by_contra hc
    rw [Set.mem_union, not_or] at hc
    obtain ⟨c1, c2⟩ := hc
    refine hZ ⟨fun x => ?_, not_not.1 c2⟩
    have := not_not.1 c1 x
    rw [Proof.drawMat_entries, ← firstRows_transpose] at this
    exact this
  have hr : (normals a k).real {Z | ¬ Tame s t k ht X ε Z} ≤ sketchRisk t k ε := by
    refine (measureReal_mono hsub (measure_ne_top _ _)).trans ((measureReal_union_le _ _).trans ?_)
    refine (add_le_add e1 e2).trans ?_
    unfold sketchRisk
    rw [show (k : ℝ) * (ε / 2) ^ 2 / 8 = k * ε ^ 2 / 32 by ring]
    have h9 : (1 : ℝ) ≤ 9 ^ t := one_le_pow₀ (by norm_num)
    nlinarith [Real.exp_pos (-((k : ℝ) * ε ^ 2 / 32))]
  have hp : 0 ≤ sketchRisk t k ε := by unfold sketchRisk; positivity
  exact ENNReal.le_ofReal_iff_toReal_le (measure_ne_top _ _) hp |>.2 hr

theorem sketchCost_nonneg {ε : ℝ} (h0 : 0 ≤ ε) (h1 : ε < 1) : 0 ≤ sketchCost ε :=
  div_nonneg (by linarith) (by linarith)

theorem tame_bound {a : ℕ} {s : Fin r → ℝ} {t k : ℕ} {ht : t ≤ r} (hk : 0 < k) {X : Matrix (Fin a) (Fin r) ℝ}
    {ε : ℝ} (h1 : ε < 1) {Z : Fin a × Fin k → ℝ} (h : Tame s t k ht X ε Z) :
    firstRows ht (Xᵀ * Proof.drawMat Z) * Proof.rpinv (firstRows ht (Xᵀ * Proof.drawMat Z)) = 1 ∧
    sketchBound s t k ht X Z ≤ tailSq s t * sketchCost ε ∧
    froSq (Proof.rpinv (firstRows ht (Xᵀ * Proof.drawMat Z))) *
      froSq (diagonal (tail s t) * (Xᵀ * Proof.drawMat Z)) ≤ tailSq s t * (t * sketchCost ε) := by
  have hk' : (0 : ℝ) < k := Nat.cast_pos.2 hk
  have hc : 0 < (1 - ε) * k := mul_pos (by linarith) hk'
  obtain ⟨g1, g2, g3⟩ := Proof.rpinv_bound hc h.1
  have htail : 0 ≤ tailSq s t := Finset.sum_nonneg fun i _ => sq_nonneg _
  have hne : (1 - ε) ≠ 0 := by linarith
  refine ⟨g1, ?_, ?_⟩
  · unfold sketchBound
    rw [← Matrix.mul_assoc]
    refine (g2 _ _).trans ((div_le_div_of_nonneg_right h.2 hc.le).trans (le_of_eq ?_))
    unfold sketchCost
    field_simp
  · refine (mul_le_mul g3 h.2 (froSq_nonneg _) (by positivity)).trans (le_of_eq ?_)
    unfold sketchCost
    field_simp

/-- an exceptional set together with an almost sure statement -/
theorem except_ae {X : Type} [MeasurableSpace X] {μ : Measure X} {E : Set X} {c : ENNReal} (hE : μ E ≤ c)
    {P : X → Prop} (h : ∀ᵐ x ∂μ, P x) : ∃ E', μ E' ≤ c ∧ ∀ x ∉ E', x ∉ E ∧ P x := by
  refine ⟨E ∪ {x | ¬ P x}, (measure_union_le _ _).trans ?_, fun x hx => ?_⟩
  · rw [ae_iff.1 h, add_zero]; exact hE
  · rw [Set.mem_union, not_or] at hx
    exact ⟨hx.1, not_not.1 hx.2⟩

theorem except_preimage {X Y : Type} [MeasurableSpace X] [MeasurableSpace Y] {μ : Measure X} {ν : Measure Y}
    {f : X → Y} (hf : MeasurePreserving f μ ν) {E : Set Y} {c : ENNReal} (hE : ν E ≤ c) : μ (f ⁻¹' E) ≤ c := by
  have := Measure.le_map_apply (μ := μ) hf.measurable.aemeasurable E
  rw [hf.map_eq] at this
  exact this.trans hE

theorem rs1_tail (A : Matrix (Fin m) (Fin n) ℝ)
    {U : Matrix (Fin m) (Fin r) ℝ} {s : Fin r → ℝ} {V : Matrix (Fin n) (Fin r) ℝ} (hA : IsSVD A U s V)
    (k : ℕ) (hk : 0 < k) (hk' : k ≤ min m n) (t : ℕ) (ht : t ≤ r) (htk : t ≤ k) (τ : ℝ)
    (hτ : ∀ (i : Fin r) (j : Fin t), t ≤ i.1 → s i ≤ τ * s (Fin.castLE ht j)) (p : ℤ) (hp : 0 ≤ p)
    (ε : ℝ) (h0 : 0 ≤ ε) (h1 : ε < 1) :
    ∃ E : Set (Fin (startRows p m n) × Fin k → ℝ), normals _ k E ≤ ENNReal.ofReal (sketchRisk t k ε) ∧
      ∀ Z ∉ E, ∀ (G : Type) (la : LinAlg) (R : NpRng G) (w w' : World G) (S : Cols n),
        NextNormal R w _ _ Z → rs1Call (gaussianOperator R true) p (orth la) 1 A k w = .ok (S, w') →
        ∀ (c : ℕ) (Q : Matrix (Fin m) (Fin c) ℝ), OrthoCols Q → colSpace (A * S.mat) ≤ colSpace Q →
        fro (A - Q * (Qᵀ * A)) ^ 2 ≤ tailSq s t * (1 + τ ^ (2 * p.toNat) * sketchCost ε) := by
  have hτn : 0 ≤ τ ^ (2 * p.toNat) := by rw [pow_mul]; positivity
  have htail : 0 ≤ tailSq s t := Finset.sum_nonneg fun i _ => sq_nonneg _
  have hc0 := sketchCost_nonneg h0 h1
  by_cases hpos : ∀ j : Fin t, 0 < s (Fin.castLE ht j)
  · by_cases hp2 : p % 2 = 0
    · rw [show startRows p m n = n from if_pos hp2]
      refine ⟨_, tame_probability s t k ht hk hA.right h0 h1.le, fun Z hZ G la R w w' S hw h c Q hQ hAS => ?_⟩
      obtain ⟨t1, t2, -⟩ := tame_bound hk h1 (not_not.1 hZ)
      obtain ⟨S0, w₁, g1, g2⟩ := (rs1_bound la _ A hA t ht hpos τ hτ p k w w' S h hQ hAS).1 hp2
      obtain ⟨u, hu, hgen⟩ := gaussian_next R (r := n) (c := k) (by omega) hw
      rw [hgen] at g1
      cases g1
      obtain ⟨e1, e2⟩ := scale_rows hu t1
      have := g2 _ e1
      rw [e2] at this
      rw [fro_sq]
      have t3 := mul_le_mul_of_nonneg_left t2 hτn
      unfold sketchBound at t3
      linarith
    · rw [show startRows p m n = m from if_neg hp2]
      refine ⟨_, tame_probability s t k ht hk hA.left h0 h1.le, fun Z hZ G la R w w' S hw h c Q hQ hAS => ?_⟩
      obtain ⟨t1, t2, -⟩ := tame_bound hk h1 (not_not.1 hZ)
      obtain ⟨S0, w₁, g1, g2⟩ := (rs1_bound la _ A hA t ht hpos τ hτ p k w w' S h hQ hAS).2 (by omega)
      obtain ⟨u, hu, hgen⟩ := gaussian_next R (r := m) (c := k) (by omega) hw
      rw [hgen] at g1
      cases g1
      obtain ⟨e1, e2⟩ := scale_rows hu t1
      have := g2 _ e1
      rw [e2] at this
      rw [fro_sq]
      have t3 := mul_le_mul_of_nonneg_left t2 hτn
      unfold sketchBound at t3
      linarith
  · have hrk := rank_le_of_svd hA ht hpos
    obtain ⟨E, hE, hE2⟩ := except_ae (E := ∅) (by simp) (goodStart_ae p A k) (c := ENNReal.ofReal (sketchRisk t k ε))
    refine ⟨E, hE, fun Z hZ' G la R w w' S hw h c Q hQ hAS => ?_⟩
    have hZ := (hE2 Z hZ').2
    obtain ⟨S', w1, h1, -, h3, -⟩ := rs1_of_goodStart hp (by omega) (by omega) (by omega) hZ la R w hw
    rw [h] at h1
    cases h1
    rw [keeps_range (by omega) h3] at hAS
    rw [proj_of_colSpace hQ hAS, sub_self, fro_eq_zero.2 rfl]
    have : 0 ≤ tailSq s t * (1 + τ ^ (2 * p.toNat) * sketchCost ε) := by positivity
    simpa using this

/-- the first block leaves little, except with small probability -/
theorem qb2_tail_first (A : Matrix (Fin m) (Fin n) ℝ)
    {U : Matrix (Fin m) (Fin r) ℝ} {s : Fin r → ℝ} {V : Matrix (Fin n) (Fin r) ℝ} (hA : IsSVD A U s V)
    (k : ℤ) (K : ℕ) (hK : K = min k.toNat (min m n)) (blk : ℕ) (hb0 : 0 < min blk K) (t : ℕ) (ht : t ≤ r)
    (htk : t ≤ min blk K) (τ : ℝ)
    (hτ : ∀ (i : Fin r) (j : Fin t), t ≤ i.1 → s i ≤ τ * s (Fin.castLE ht j)) (p : ℤ) (hp : 0 ≤ p)
    (ε : ℝ) (h0 : 0 ≤ ε) (h1 : ε < 1) :
    ∃ E : Set (Proof.Draws (startRows p m n) (blockWidths K blk)),
      normalSeq _ _ E ≤ ENNReal.ofReal (sketchRisk t (min blk K) ε) ∧
      ∀ Zs ∉ E, ∀ (G : Type) (la : LinAlg) (R : NpRng G) (tol : Tol) (w w' : World G) (st : QB2St m n),
        NextDraws R _ w.rng Zs →
        qb2Run la (RF1 la (RS1 (gaussianOperator R true) p (orth la) 1)) blk A k tol w = .ok (st, w') →
        fro (A - st.Q * st.B) ^ 2 ≤ tailSq s t * (1 + τ ^ (2 * p.toNat) * sketchCost ε) := by
  have hk : 0 < k := by omega
  have hmn : 0 < min m n := by omega
  obtain ⟨E, hE, h3⟩ := rs1_tail A hA (min blk K) hb0 (by omega) t ht htk τ hτ p hp ε h0 h1
  have hprob : IsProbabilityMeasure stdNormal := by unfold stdNormal; infer_instance
  rw [blockWidths_pos (by omega) (by omega)]
  have hfst : MeasurePreserving
      (Prod.fst : Proof.Draws (startRows p m n) (min blk K :: blockWidths (K - min blk K) blk) → _)
      (normalSeq _ (min blk K :: blockWidths (K - min blk K) blk)) (normals _ (min blk K)) :=
    measurePreserving_fst (μ := normals (startRows p m n) (min blk K)) (ν := normalSeq _ _)
  refine ⟨Prod.fst ⁻¹' E, except_preimage hfst hE, fun Zs hZs G la R tol w w' st hw h => ?_⟩
  obtain ⟨out, w0, w1, c, Q, e1, e2, e3, e4, e6⟩ := first_block la _ blk A hmn k hk tol w w' st h
  rw [← hK] at e2
  obtain ⟨S, w2, e4', e5⟩ := rf1_open e2
  have hw0 : NextNormal R w0 _ _ Zs.1 := by
    unfold NextNormal
    rw [e1]; exact hw.1
  exact e6.trans (h3 Zs.1 hZs G la R w0 w2 S hw0 e4' _ Q e4 (e5.trans e3))

theorem qb2_tail (A : Matrix (Fin m) (Fin n) ℝ)
    {U : Matrix (Fin m) (Fin r) ℝ} {s : Fin r → ℝ} {V : Matrix (Fin n) (Fin r) ℝ} (hA : IsSVD A U s V)
    (k : ℤ) (K : ℕ) (hK : K = min k.toNat (min m n)) (hK0 : 0 < K) (p : ℤ) (hp : 0 ≤ p)
    (blk : ℕ) (hblk : 0 < blk) (W : ℕ) (hW : W = if p = 0 then K else min blk K) (t : ℕ) (ht : t ≤ r) (htk : t ≤ W) (τ : ℝ)
    (hτ : ∀ (i : Fin r) (j : Fin t), t ≤ i.1 → s i ≤ τ * s (Fin.castLE ht j))
    (ε : ℝ) (h0 : 0 ≤ ε) (h1 : ε < 1) :
    ∃ E : Set (Proof.Draws (startRows p m n) (blockWidths K blk)),
      normalSeq _ _ E ≤ ENNReal.ofReal (sketchRisk t W ε) ∧
      ∀ Zs ∉ E, ∀ (G : Type) (la : LinAlg) (R : NpRng G) (tol : Tol) (w : World G), NextDraws R _ w.rng Zs →
        ∃ (st : QB2St m n) (w' : World G),
        qb2Run la (RF1 la (RS1 (gaussianOperator R true) p (orth la) 1)) blk A k tol w = .ok (st, w') ∧
        (A - st.Q * st.B).rank = A.rank - st.c ∧
        (st.c = K ∨ ∃ u, tol = .val u ∧ 0 < u ∧ fro (A - st.Q * st.B) ≤ u * fro A) ∧
        (k ≤ A.rank ∨ K ≤ blk → OrthoCols st.Q ∧ st.B = st.Qᵀ * A) ∧
        (st.c = K → fro (A - st.Q * st.B) ^ 2 ≤ tailSq s t * (1 + τ ^ (2 * p.toNat) * sketchCost ε)) := by
  have hWK : W ≤ K := by rw [hW]; split <;> omega
  have hk : 0 < k := by omega
  have hmn : 0 < min m n := by omega
  have hτn : 0 ≤ τ ^ (2 * p.toNat) := by rw [pow_mul]; positivity
  have htail : 0 ≤ tailSq s t := Finset.sum_nonneg fun i _ => sq_nonneg _
  have hc0 := sketchCost_nonneg h0 h1
  have hae := qb2Run_ae A hmn k hk p hp blk hblk
  rw [← hK] at hae
  -- it is enough to bound the error of runs that build all their columns
  suffices hkey : ∃ E : Set (Proof.Draws (startRows p m n) (blockWidths K blk)),
      normalSeq _ _ E ≤ ENNReal.ofReal (sketchRisk t W ε) ∧
      ∀ Zs ∉ E, ∀ (G : Type) (la : LinAlg) (R : NpRng G) (tol : Tol) (w w' : World G) (st : QB2St m n),
        NextDraws R _ w.rng Zs →
        qb2Run la (RF1 la (RS1 (gaussianOperator R true) p (orth la) 1)) blk A k tol w = .ok (st, w') →
        (A - st.Q * st.B).rank = A.rank - st.c →
        (k ≤ A.rank → OrthoCols st.Q ∧ st.B = st.Qᵀ * A) →
        st.c = K → fro (A - st.Q * st.B) ^ 2 ≤ tailSq s t * (1 + τ ^ (2 * p.toNat) * sketchCost ε) by
    obtain ⟨E, hE, hb⟩ := hkey
    obtain ⟨E', hE', hb'⟩ := except_ae hE hae
    refine ⟨E', hE', fun Zs hZs G la R tol w hw => ?_⟩
    obtain ⟨z1, z2⟩ := hb' Zs hZs
    obtain ⟨st, w', e1, e2⟩ := z2 G la R tol w hw
    have hcon := run_conclusions la _ p blk hblk A hmn k hk tol w w' st e1 e2
    refine ⟨st, w', e1, hcon.2.2.1, hcon.2.1.imp_left fun h => by omega, fun h => hcon.2.2.2.1 (h.imp_right fun h => by omega),
      hb Zs z1 G la R tol w w' st hw e1 hcon.2.2.1 fun h => hcon.2.2.2.1 (Or.inl h)⟩
  by_cases hb : W = min blk K
  · -- the first block
    rw [hb] at htk ⊢
    obtain ⟨E, hE, h3⟩ := qb2_tail_first A hA k K hK blk (by omega) t ht htk τ hτ p hp ε h0 h1
    exact ⟨E, hE, fun Zs hZs G la R tol w w' st hw h _ _ _ => h3 Zs hZs G la R tol w w' st hw h⟩
  · -- several blocks, no power iterations
    obtain rfl : p = 0 := by
      by_contra hne
      rw [if_neg hne] at hW
      exact hb hW
    obtain rfl : K = W := by rw [hW, if_pos rfl]
    by_cases hpos : ∀ j : Fin t, 0 < s (Fin.castLE ht j)
    · have hmp := measurePreserving_allCols n (blockWidths K blk)
      have hsum := blockWidths_sum K blk
      have hpr := tame_probability s t (blockWidths K blk).sum ht (by omega) hA.right h0 h1.le
      rw [show sketchRisk t (blockWidths K blk).sum ε = sketchRisk t K ε by rw [hsum]] at hpr
      refine ⟨_, except_preimage hmp hpr, fun Zs hZs G la R tol w w' st hw h hrk hQB hc => ?_⟩
      obtain ⟨t1, t2, -⟩ := tame_bound (by omega) h1 (not_not.1 hZs)
      have hτ0 : τ ^ (2 * (0 : ℤ).toNat) = 1 := by simp
      rw [hτ0, one_mul]
      by_cases hkr : k ≤ A.rank
      · obtain ⟨hQ, hB⟩ := hQB hkr
        rw [qb2Run_open w hk] at h
        have hcl : clampK k m n = K := hK.symm
        rw [hcl] at h
        have hrng : (if k ≤ (min m n : ℕ) then w else { w with warns := w.warns + 1 }).rng = w.rng := by
          split <;> rfl
        have hr := (loop_range la R A hblk (by omega) _ _ _ (qb2Init A blk) _ (by change 0 < K; omega) rfl
          (blockWidths K blk) rfl Zs (qb2Inv_init A blk) (by rw [hrng]; exact hw) st w' h hc).2
        rw [hB, fro_sq]
        have := Proof.range_bound hA ht hpos 1 (fun i j hij => by
          rw [one_mul]; exact hA.anti (by rw [Fin.le_def]; have := j.2; simp; omega)) 0
          (Vᵀ * allCols (a := n) (blockWidths K blk) Zs) _ t1 hQ (le_trans (le_of_eq ?_) hr)
        · rw [one_pow, one_mul] at this
          refine this.trans ?_
          rw [mul_add, mul_one]
          exact add_le_add le_rfl t2
        · rw [zero_add, ← Matrix.mul_assoc]
          simp only [pow_one]
          rw [← hA.eq]
      · have hres : (A - st.Q * st.B).rank = 0 := by
          have hA1 := rank_le_width' A
          have hA2 : A.rank ≤ m := by simpa using A.rank_le_height
          rw [hrk]
          omega
        rw [eq_zero_of_rank hres, fro_zero]
        simp only [ne_eq, OfNat.ofNat_ne_zero, not_false_eq_true, zero_pow]
        positivity
    · have hrk := rank_le_of_svd hA ht hpos
      refine ⟨∅, by simp, fun Zs _ G la R tol w w' st hw h hrk' hQB hc => ?_⟩
      have hres : (A - st.Q * st.B).rank = 0 := by
        rw [hrk']
        omega
      rw [eq_zero_of_rank hres, fro_zero]
      have : 0 ≤ tailSq s t * (1 + τ ^ (2 * (0 : ℤ).toNat) * sketchCost ε) := by positivity
      simpa using this

/-! ### The drivers -/

/-- **C78** (`rf1`).  `rf1(A, k, p, rng)` with a Gaussian sketch and `p ≥ 1` passes, `0 < k ≤ min(m, n)`, singular
values with ratio at most `τ` across the gap at `t ≤ k`, and `0 ≤ ε < 1`: outside a set of draws of probability at
most `3 · 9^t · exp(-k ε²/32)` the call returns an orthonormal `Q` with `k` columns and

  `‖A - QQ'A‖² ≤ (∑_{i≥t} s_i²) (1 + τ^(2(p-1)) (1 + ε/2)/(1 - ε))`. -/
theorem C78_rf1 (A : Matrix (Fin m) (Fin n) ℝ)
    {U : Matrix (Fin m) (Fin r) ℝ} {s : Fin r → ℝ} {V : Matrix (Fin n) (Fin r) ℝ} (hA : IsSVD A U s V)
    (k : ℕ) (hk : 0 < k) (hk' : k ≤ min m n) (t : ℕ) (ht : t ≤ r) (htk : t ≤ k) (τ : ℝ)
    (hτ : ∀ (i : Fin r) (j : Fin t), t ≤ i.1 → s i ≤ τ * s (Fin.castLE ht j)) (p : ℤ) (hp : 1 ≤ p)
    (ε : ℝ) (h0 : 0 ≤ ε) (h1 : ε < 1) :
    ∃ E : Set (Fin (startRows (p - 1) m n) × Fin k → ℝ),
      normals _ k E ≤ ENNReal.ofReal (3 * 9 ^ t * Real.exp (-(k * ε ^ 2 / 32))) ∧
      ∀ Z ∉ E, ∀ (G : Type) (la : LinAlg) (R : NpRng G) (w : World G), NextNormal R w _ _ Z →
        ∃ Q w', rf1 la (gaussianOperator R true) A k p w = .ok (Q, w') ∧ Q.c = k ∧ OrthoCols Q.mat ∧
          fro (A - Q.mat * (Q.matᵀ * A)) ^ 2 ≤
            tailSq s t * (1 + τ ^ (2 * (p - 1).toNat) * ((1 + ε / 2) / (1 - ε))) := by
  obtain ⟨E, hE, h3⟩ := rs1_tail A hA k hk hk' t ht htk τ hτ (p - 1) (by omega) ε h0 h1
  obtain ⟨E', hE', h4⟩ := except_ae hE (C59_rf1 A k hk hk' p hp)
  refine ⟨E', hE', fun Z hZ G la R w hw => ?_⟩
  obtain ⟨z1, z2⟩ := h4 Z hZ
  obtain ⟨Q, w', e1, e2, e3, -⟩ := z2 G la R w hw
  refine ⟨Q, w', e1, e2, e3, ?_⟩
  obtain ⟨-, -, -, -, S, w1, h5, h6⟩ := C01_rf1_procedural la _ A k p w w' Q e1
  exact h3 Z z1 G la R { w with warns := w.warns + 1 } w1 S hw h5 _ _ e3 h6

/-- **C78** for `qb(num_passes, A, k, rng)`, `p ≥ 2` passes. -/
theorem C78_qb (A : Matrix (Fin m) (Fin n) ℝ)
    {U : Matrix (Fin m) (Fin r) ℝ} {s : Fin r → ℝ} {V : Matrix (Fin n) (Fin r) ℝ} (hA : IsSVD A U s V)
    (k : ℕ) (hk : 0 < k) (hk' : k ≤ min m n) (t : ℕ) (ht : t ≤ r) (htk : t ≤ k) (τ : ℝ)
    (hτ : ∀ (i : Fin r) (j : Fin t), t ≤ i.1 → s i ≤ τ * s (Fin.castLE ht j)) (p : ℤ) (hp : 2 ≤ p)
    (ε : ℝ) (h0 : 0 ≤ ε) (h1 : ε < 1) :
    ∃ E : Set (Fin (startRows (p - 2) m n) × Fin k → ℝ),
      normals _ k E ≤ ENNReal.ofReal (3 * 9 ^ t * Real.exp (-(k * ε ^ 2 / 32))) ∧
      ∀ Z ∉ E, ∀ (G : Type) (la : LinAlg) (R : NpRng G) (w : World G), NextNormal R w _ _ Z →
        ∃ out w', qb la (gaussianOperator R true) p A k w = .ok (out, w') ∧ out.c = k ∧ OrthoCols out.Q ∧
          fro (A - out.Q * out.B) ^ 2 ≤
            tailSq s t * (1 + τ ^ (2 * (p - 2).toNat) * ((1 + ε / 2) / (1 - ε))) := by
  obtain ⟨E, hE, h3⟩ := rs1_tail A hA k hk hk' t ht htk τ hτ (p - 2) (by omega) ε h0 h1
  obtain ⟨E', hE', h4⟩ := except_ae hE (C59_qb A k hk hk' p hp)
  refine ⟨E', hE', fun Z hZ G la R w hw => ?_⟩
  obtain ⟨z1, z2⟩ := h4 Z hZ
  obtain ⟨out, w', e1, e2, e3, e4, -⟩ := z2 G la R w hw
  refine ⟨out, w', e1, e2, e3, ?_⟩
  rw [e4]
  have h := e1
  unfold qb qb1Call at h
  rw [Py.bind_ok_iff] at h; obtain ⟨_, w0, ha, h⟩ := h
  rw [Py.assert_ok_iff] at ha; obtain ⟨hk, rfl⟩ := ha
  rw [Py.bind_ok_iff] at h; obtain ⟨_, w0, ha, h⟩ := h
  rw [Py.assert_ok_iff] at ha; obtain ⟨hk', rfl⟩ := ha
  rw [Py.bind_ok_iff] at h; obtain ⟨_, w0, ha, h⟩ := h
  cases ha
  rw [Py.bind_ok_iff] at h; obtain ⟨Q, w1, h1, h⟩ := h
  rw [Py.bind_eq_of_ok (Py.emit_apply _ _)] at h
  cases h
  obtain ⟨S, w2, h5, h6⟩ := rf1_open h1
  exact h3 Z z1 G la R w0 w2 S hw h5 _ _ e3 h6

/-- **C78** for `qb_b(p, blk, overwrite, A, k, tol, rng)`, any block size: `W` is the number
`K = min(k, m, n)` of all columns when there are no power iterations (`p = 2`), and otherwise the width of the first
block. -/
theorem C78_qb_b (A : Matrix (Fin m) (Fin n) ℝ)
    {U : Matrix (Fin m) (Fin r) ℝ} {s : Fin r → ℝ} {V : Matrix (Fin n) (Fin r) ℝ} (hA : IsSVD A U s V)
    (k : ℤ) (K : ℕ) (hK : K = min k.toNat (min m n)) (hK0 : 0 < K) (p : ℤ) (hp : 2 ≤ p) (blk : ℕ) (hblk : 0 < blk)
    (W : ℕ) (hW : W = if p = 2 then K else min blk K) (t : ℕ) (ht : t ≤ r) (htk : t ≤ W) (τ : ℝ)
    (hτ : ∀ (i : Fin r) (j : Fin t), t ≤ i.1 → s i ≤ τ * s (Fin.castLE ht j))
    (ε : ℝ) (h0 : 0 ≤ ε) (h1 : ε < 1) :
    ∃ E : Set (Proof.Draws (startRows (p - 2) m n) (blockWidths K blk)),
      normalSeq _ _ E ≤ ENNReal.ofReal (3 * 9 ^ t * Real.exp (-(W * ε ^ 2 / 32))) ∧
      ∀ Zs ∉ E, ∀ (G : Type) (la : LinAlg) (R : NpRng G) (ow : Bool) (tol : Tol) (w : World G),
        NextDraws R _ w.rng Zs →
        ∃ (out : QBOut m n) (A' : Matrix (Fin m) (Fin n) ℝ) (w' : World G),
          qbB la (gaussianOperator R true) p blk ow A k tol w = .ok ((out, A'), w') ∧
          (out.c = K ∨ ∃ u, tol = .val u ∧ 0 < u ∧ fro (A - out.Q * out.B) ≤ u * fro A) ∧
          (out.c = K → fro (A - out.Q * out.B) ^ 2 ≤
            tailSq s t * (1 + τ ^ (2 * (p - 2).toNat) * ((1 + ε / 2) / (1 - ε)))) := by
  obtain ⟨E, hE, h3⟩ := qb2_tail A hA k K hK hK0 (p - 2) (by omega) blk hblk W
    (hW.trans (if_congr (by omega) rfl rfl)) t ht htk τ hτ ε h0 h1
  refine ⟨E, hE, fun Zs hZs G la R ow tol w hw => ?_⟩
  obtain ⟨st, w', e1, -, e3, -, e5⟩ := h3 Zs hZs G la R tol w hw
  refine ⟨⟨st.c, st.Q, st.B⟩, if ow then st.A else A, w', ?_, e3, e5⟩
  unfold qbB qb2Call
  rw [Py.bind_eq_of_ok e1]
  rfl

/-- **C78** for `qb_b` with a tolerance, including the runs that stop early: the bound with `b = min(blk, k, m, n)`, the
width of the first block. -/
theorem C78_qb_b_early (A : Matrix (Fin m) (Fin n) ℝ)
    {U : Matrix (Fin m) (Fin r) ℝ} {s : Fin r → ℝ} {V : Matrix (Fin n) (Fin r) ℝ} (hA : IsSVD A U s V)
    (k : ℤ) (K : ℕ) (hK : K = min k.toNat (min m n)) (p : ℤ) (hp : 2 ≤ p) (blk b : ℕ) (hb : b = min blk K) (hb0 : 0 < b)
    (t : ℕ) (ht : t ≤ r) (htk : t ≤ b) (τ : ℝ)
    (hτ : ∀ (i : Fin r) (j : Fin t), t ≤ i.1 → s i ≤ τ * s (Fin.castLE ht j)) (ε : ℝ) (h0 : 0 ≤ ε) (h1 : ε < 1) :
    ∃ E : Set (Proof.Draws (startRows (p - 2) m n) (blockWidths K blk)),
      normalSeq _ _ E ≤ ENNReal.ofReal (3 * 9 ^ t * Real.exp (-(b * ε ^ 2 / 32))) ∧
      ∀ Zs ∉ E, ∀ (G : Type) (la : LinAlg) (R : NpRng G) (ow : Bool) (tol : Tol) (w : World G),
        NextDraws R _ w.rng Zs →
        ∃ (out : QBOut m n) (A' : Matrix (Fin m) (Fin n) ℝ) (w' : World G),
          qbB la (gaussianOperator R true) p blk ow A k tol w = .ok ((out, A'), w') ∧
          fro (A - out.Q * out.B) ^ 2 ≤
            tailSq s t * (1 + τ ^ (2 * (p - 2).toNat) * ((1 + ε / 2) / (1 - ε))) := by
  subst hb
  obtain ⟨E, hE, h3⟩ := qb2_tail_first A hA k K hK blk hb0 t ht htk τ hτ (p - 2) (by omega) ε h0 h1
  have hae := qb2Run_ae A (by omega) k (by omega) (p - 2) (by omega) blk (by omega)
  rw [← hK] at hae
  obtain ⟨E', hE', hb'⟩ := except_ae hE hae
  refine ⟨E', hE', fun Zs hZs G la R ow tol w hw => ?_⟩
  obtain ⟨z1, z2⟩ := hb' Zs hZs
  obtain ⟨st, w', e1, -⟩ := z2 G la R tol w hw
  refine ⟨⟨st.c, st.Q, st.B⟩, if ow then st.A else A, w', ?_, h3 Zs z1 G la R tol w w' st hw e1⟩
  unfold qbB qb2Call
  rw [Py.bind_eq_of_ok e1]
  rfl

/-- **C78** for `qb_b_pe(p, blk, A, k, tol, rng)`, `0 < k < min(m, n)`, `k ≤ rank(A)`, any block size. -/
theorem C78_qb_b_pe (A : Matrix (Fin m) (Fin n) ℝ)
    {U : Matrix (Fin m) (Fin r) ℝ} {s : Fin r → ℝ} {V : Matrix (Fin n) (Fin r) ℝ} (hA : IsSVD A U s V)
    (k : ℕ) (hk : 0 < k) (hk' : k < min m n) (hr : k ≤ A.rank) (t : ℕ) (ht : t ≤ r) (htk : t ≤ k) (τ : ℝ)
    (hτ : ∀ (i : Fin r) (j : Fin t), t ≤ i.1 → s i ≤ τ * s (Fin.castLE ht j)) (p : ℤ) (hp : 1 ≤ p)
    (blk : ℕ) (hblk : 0 < blk) (tol : Tol) (ε : ℝ) (h0 : 0 ≤ ε) (h1 : ε < 1) :
    ∃ E : Set (Fin (startRows (p - 1) m n) × Fin k → ℝ),
      normals _ k E ≤ ENNReal.ofReal (3 * 9 ^ t * Real.exp (-(k * ε ^ 2 / 32))) ∧
      ∀ Z ∉ E, ∀ (G : Type) (la : LinAlg) (R : NpRng G) (w : World G), NextNormal R w _ _ Z →
        ∃ out w', qbBPe la (gaussianOperator R true) p blk A k tol w = .ok (out, w') ∧ OrthoCols out.Q ∧
          (out.c = k ∨ ∃ u, tol = .val u ∧ 0 < u ∧ fro (A - out.Q * out.B) ≤ u * fro A) ∧
          (out.c = k → fro (A - out.Q * out.B) ^ 2 ≤
            tailSq s t * (1 + τ ^ (2 * (p - 1).toNat) * ((1 + ε / 2) / (1 - ε)))) := by
  obtain ⟨E, hE, h3⟩ := rs1_tail A hA k hk (by omega) t ht htk τ hτ (p - 1) (by omega) ε h0 h1
  obtain ⟨E', hE', h4⟩ := except_ae hE (C59_qb_b_pe A k hk hk' hr p hp blk hblk tol)
  refine ⟨E', hE', fun Z hZ G la R w hw => ?_⟩
  obtain ⟨z1, z2⟩ := h4 Z hZ
  obtain ⟨out, w', e1, e2, -, -, e3, -⟩ := z2 G la R w hw
  refine ⟨out, w', e1, e2, e3, fun hc => ?_⟩
  obtain ⟨g1, g2, S, w1, g3, g4⟩ := qbBPe_range hk' e1 hc
  rw [g2]
  exact h3 Z z1 G la R w w1 S hw g3 _ _ g1 g4

/-- **C78** for `svd1(A, k, over, nan, p, blk, rng)`, if everything fits in one block or `k + over ≤ rank(A)`;
`K = min(k + over, m, n)` columns in the sketch, `W` as for `qb_b`. -/
theorem C78_svd1 (A : Matrix (Fin m) (Fin n) ℝ)
    {U : Matrix (Fin m) (Fin r) ℝ} {s : Fin r → ℝ} {V : Matrix (Fin n) (Fin r) ℝ} (hA : IsSVD A U s V)
    (k over K : ℕ) (hK : K = min (k + over) (min m n)) (hK0 : 0 < K) (p : ℤ) (hp : 2 ≤ p) (blk : ℕ) (hblk : 0 < blk)
    (W : ℕ) (hW : W = if p = 2 then K else min blk K) (t : ℕ) (ht : t ≤ r) (htk : t ≤ W) (τ : ℝ)
    (hτ : ∀ (i : Fin r) (j : Fin t), t ≤ i.1 → s i ≤ τ * s (Fin.castLE ht j))
    (hone : K ≤ blk ∨ k + over ≤ A.rank) (ε : ℝ) (h0 : 0 ≤ ε) (h1 : ε < 1) :
    ∃ E : Set (Proof.Draws (startRows (p - 2) m n) (blockWidths K blk)),
      normalSeq _ _ E ≤ ENNReal.ofReal (3 * 9 ^ t * Real.exp (-(W * ε ^ 2 / 32))) ∧
      ∀ Zs ∉ E, ∀ (G : Type) (la : LinAlg) (R : NpRng G) (w : World G), NextDraws R _ w.rng Zs →
        ∃ (out : SVDOut m n) (w' : World G),
          svd1 la (gaussianOperator R true) A k over .nan p blk w = .ok (out, w') ∧ out.r ≤ k ∧
          OrthoCols out.U ∧ OrthoRows out.Vh ∧
          fro (A - out.U * diagonal out.s * out.Vh) ^ 2 ≤ tailSq s k +
            tailSq s t * (1 + τ ^ (2 * (p - 2).toNat) * ((1 + ε / 2) / (1 - ε))) + (10 * eps) ^ 2 * (min K n : ℕ) := by
  have hKi : K = min ((k + over : ℕ) : ℤ).toNat (min m n) := by rw [Int.toNat_natCast, hK]
  obtain ⟨E, hE, h3⟩ := qb2_tail A hA ((k + over : ℕ) : ℤ) K hKi hK0 (p - 2) (by omega) blk hblk W
    (hW.trans (if_congr (by omega) rfl rfl)) t ht htk τ hτ ε h0 h1
  refine ⟨E, hE, fun Zs hZs G la R w hw => ?_⟩
  obtain ⟨st, w', e1, -, e3, e4, e5⟩ := h3 Zs hZs G la R .nan w hw
  have hcK : st.c = K := by
    rcases e3 with h | ⟨u, hu, -⟩
    · omega
    · cases hu
  have hqb : QB2 la (RF1 la (RS1 (gaussianOperator R true) (p - 2) (orth la) 1)) blk false m n A
      ((k + over : ℕ) : ℤ) .nan w = .ok (⟨st.c, st.Q, st.B⟩, w') := by
    unfold QB2 qb2Call
    rw [Py.bind_eq_of_ok (Py.bind_eq_of_ok e1)]; rfl
  obtain ⟨hQ, hB⟩ := e4 (by
    rcases hone with h | h
    · right; exact h
    · left; exact_mod_cast h)
  have hcc : st.c ≤ k + over := by omega
  obtain ⟨out, g1, g2, g3, g4, -⟩ := C12_svd1_valid la _ A k .nan over w w' _ hqb hQ hcc
  obtain ⟨out', g1', l1, l2⟩ := C62_svd1_near_optimal la _ A hA k .nan over w w' _ hqb hQ hB hcc
  rw [g1] at g1'
  cases g1'
  refine ⟨out, w', g1, g2, g3, g4, l2.trans ?_⟩
  have := e5 hcK
  change tailSq s k + fro (A - st.Q * st.B) ^ 2 + (10 * eps) ^ 2 * ((min st.c n : ℕ) : ℝ) ≤ _
  rw [show ((min st.c n : ℕ) : ℝ) = ((min K n : ℕ) : ℝ) by rw [hcK]]
  unfold sketchCost at this
  linarith

/-- **C78** for `evd1(A, k, nan, over, p, blk, rng)` on a symmetric `A`, under the same conditions. -/
theorem C78_evd1 (A : Matrix (Fin n) (Fin n) ℝ) (hsym : Aᵀ = A)
    {U : Matrix (Fin n) (Fin r) ℝ} {s : Fin r → ℝ} {V : Matrix (Fin n) (Fin r) ℝ} (hA : IsSVD A U s V)
    (k over K : ℕ) (hk : 0 < k) (hk' : k ≤ n) (hK : K = min (k + over) n) (p : ℤ) (hp : 2 ≤ p) (blk : ℕ) (hblk : 0 < blk)
    (W : ℕ) (hW : W = if p = 2 then K else min blk K) (t : ℕ) (ht : t ≤ r) (htk : t ≤ W) (τ : ℝ)
    (hτ : ∀ (i : Fin r) (j : Fin t), t ≤ i.1 → s i ≤ τ * s (Fin.castLE ht j))
    (hone : K ≤ blk ∨ k + over ≤ A.rank) (ε : ℝ) (h0 : 0 ≤ ε) (h1 : ε < 1) :
    ∃ E : Set (Proof.Draws (startRows (p - 2) n n) (blockWidths K blk)),
      normalSeq _ _ E ≤ ENNReal.ofReal (3 * 9 ^ t * Real.exp (-(W * ε ^ 2 / 32))) ∧
      ∀ Zs ∉ E, ∀ (G : Type) (la : LinAlg) (R : NpRng G) (w : World G), NextDraws R _ w.rng Zs →
        ∃ (out : EVDOut n) (w' : World G),
          evd1 la (gaussianOperator R true) A k .nan over p blk w = .ok (out, w') ∧ out.r ≤ k ∧
          OrthoCols out.V ∧
          fro (A - out.V * diagonal out.lamb * out.Vᵀ) ≤
            √2 * √(tailSq s t * (1 + τ ^ (2 * (p - 2).toNat) * ((1 + ε / 2) / (1 - ε)))) +
            √(tailSq s k + (10 * eps) ^ 2 * K) := by
  have hn : 0 < min n n := by omega
  have hKi : K = min ((k + over : ℕ) : ℤ).toNat (min n n) := by rw [Int.toNat_natCast, hK, min_self]
  obtain ⟨E, hE, h3⟩ := qb2_tail A hA ((k + over : ℕ) : ℤ) K hKi (by omega) (p - 2) (by omega) blk hblk W
    (hW.trans (if_congr (by omega) rfl rfl)) t ht htk τ hτ ε h0 h1
  refine ⟨E, hE, fun Zs hZs G la R w hw => ?_⟩
  obtain ⟨st, w', e1, -, e3, e4, e5⟩ := h3 Zs hZs G la R .nan w hw
  have hcK : st.c = K := by
    rcases e3 with h | ⟨u, hu, -⟩
    · omega
    · cases hu
  have hqb : QB2 la (RF1 la (RS1 (gaussianOperator R true) (p - 2) (orth la) 1)) blk false n n A
      ((k : ℤ) + over) (Tol.half .nan) w = .ok (⟨st.c, st.Q, st.B⟩, w') := by
    unfold QB2 qb2Call
    rw [← Nat.cast_add, show Tol.half .nan = .nan from rfl, Py.bind_eq_of_ok (Py.bind_eq_of_ok e1)]; rfl
  obtain ⟨hQ, hB⟩ := e4 (by
    rcases hone with h | h
    · right; exact h
    · left; exact_mod_cast h)
  obtain ⟨out, g1, g2, g3, g4, g5, -⟩ := C14_evd1_valid la _ A hsym k (by omega) (by omega) .nan (Or.inl rfl) over w w'
    _ hqb hQ hB
  obtain ⟨out', g1', l1, l2⟩ := C62_evd1_near_optimal la _ A hsym hA k (by omega) (by omega) .nan (Or.inl rfl) over w w'
    _ hqb hQ hB
  rw [g1] at g1'
  cases g1'
  rw [Int.toNat_natCast] at g5 l1 l2
  refine ⟨out, w', ?_, by rw [g5]; exact min_le_left _ _, g2, l2.trans ?_⟩
  · unfold evd1
    rw [Py.assert_pos_bind hp]; exact g1
  · have := e5 hcK
    unfold sketchCost at this
    have h5 := Real.le_sqrt_of_sq_le this
    have h6 := mul_le_mul_of_nonneg_left h5 (Real.sqrt_nonneg 2)
    change √2 * fro (A - st.Q * st.B) + √(tailSq s k + (10 * eps) ^ 2 * (st.c : ℝ)) ≤ _
    rw [show (st.c : ℝ) = (K : ℝ) by rw [hcK]]
    linarith

/-! ### Interpolative and CUR decompositions -/

theorem id_tail_plain (A : Matrix (Fin m) (Fin n) ℝ)
    {U : Matrix (Fin m) (Fin r) ℝ} {s : Fin r → ℝ} {V : Matrix (Fin n) (Fin r) ℝ} (hA : IsSVD A U s V)
    (k : ℕ) (hk : 0 < k) (hk' : k ≤ min m n) (t : ℕ) (ht : t ≤ r) (htk : t ≤ k) (τ : ℝ)
    (hτ : ∀ (i : Fin r) (j : Fin t), t ≤ i.1 → s i ≤ τ * s (Fin.castLE ht j)) (q : ℤ) (hq : 0 ≤ q)
    (ε : ℝ) (e0 : 0 ≤ ε) (e1 : ε < 1) :
    ∃ E : Set (Fin (startRows q n m) × Fin (k + 0) → ℝ),
      normals _ (k + 0) E ≤ ENNReal.ofReal (sketchRisk t (k + 0) ε) ∧
      ∀ Z ∉ E, ∀ (G : Type) (la : LinAlg) (R : NpRng G) (w w' : World G) (o : ColID n),
        NextNormal R w _ _ Z →
        (OSID1 la (RS1 (gaussianOperator R true) q (orth la) 1)).col m n A k 0 w = .ok (o, w') →
        fro (A - A.submatrix id o.Js * o.X) ^ 2 ≤
          (1 + pivotGrowth n k) * (tailSq s t * (1 + τ ^ (2 * q.toNat) * sketchCost ε)) := by
  obtain ⟨E, hE, h3⟩ := rs1_tail Aᵀ (Proof.isSVD_transpose hA) (k + 0) hk (by omega) t ht htk τ hτ q hq ε e0 e1
  have hg0 : 0 ≤ 1 + pivotGrowth n k := by have := pivotGrowth_nonneg (show k ≤ n by omega); linarith
  refine ⟨E, hE, fun Z hZ G la R w w' o hw h => ?_⟩
  obtain ⟨S, w1, hS, -, -, -, -, b3⟩ := osid1_col_error h
  have hc : S.c = k + 0 := rs1Call_width_eq (fun _ _ => rfl) (by omega) hS
  obtain ⟨c, Q, hcr, hQ, hle⟩ := Proof.exists_orth_basis (Aᵀ * S.mat)
  have hle' : colSpace Q ≤ colSpace (Aᵀ * S.mat) := by
    refine le_of_eq (Submodule.eq_of_le_of_finrank_le hle ?_).symm
    rw [finrank_colSpace, finrank_colSpace]
    exact (rank_le_width' _).trans hcr
  obtain ⟨W, hW⟩ := colSpace_le_iff.1 hle'
  refine (b3 (by omega) (A * Q * Wᵀ)).trans (mul_le_mul_of_nonneg_left ?_ hg0)
  have := h3 Z hZ G la R w w1 S hw hS c Q hQ hle
  have e : A - A * Q * Wᵀ * (S.matᵀ * A) = (Aᵀ - Q * (Qᵀ * Aᵀ))ᵀ := by
    have hQt : Wᵀ * (S.matᵀ * A) = Qᵀ := by
      rw [hW, transpose_mul, transpose_mul, transpose_transpose]
    rw [transpose_sub, transpose_mul, transpose_mul, transpose_transpose, transpose_transpose,
      Matrix.mul_assoc (A * Q), hQt]
  rw [e, fro_transpose']
  exact this

theorem id_tail_power (A : Matrix (Fin m) (Fin n) ℝ)
    {U : Matrix (Fin m) (Fin r) ℝ} {s : Fin r → ℝ} {V : Matrix (Fin n) (Fin r) ℝ} (hA : IsSVD A U s V)
    (k over : ℕ) (hk : 0 < k) (hkn : k ≤ n) (hk' : k + over ≤ min m n) (t : ℕ) (ht : t ≤ r) (htr : t ≤ A.rank)
    (τ : ℝ) (hτ : ∀ (i : Fin r) (j : Fin t), t ≤ i.1 → s i ≤ τ * s (Fin.castLE ht j)) (q : ℤ) (hq : 1 ≤ q)
    (ε : ℝ) (e0 : 0 ≤ ε) (e1 : ε < 1) :
    ∃ E : Set (Fin (startRows q n m) × Fin (k + over) → ℝ),
      normals _ (k + over) E ≤ ENNReal.ofReal (sketchRisk t (k + over) ε) ∧
      ∀ Z ∉ E, ∀ (G : Type) (la : LinAlg) (R : NpRng G) (w w' : World G) (o : ColID n),
        NextNormal R w _ _ Z →
        (OSID1 la (RS1 (gaussianOperator R true) q (orth la) 1)).col m n A k over w = .ok (o, w') →
        fro (A - A.submatrix id o.Js * o.X) ^ 2 ≤
          (1 + pivotGrowth n k) * (tailSq s t * (1 + τ ^ (2 * (q - 1).toNat) * sketchCost ε)) +
            pivotLoss n k * tailSq s k := by
  have hpos : ∀ j : Fin t, 0 < s (Fin.castLE ht j) := by
    by_contra hc
    have := rank_le_of_svd hA ht hc
    omega
  have hτn : 0 ≤ τ ^ (2 * (q - 1).toNat) := by rw [pow_mul]; positivity
  have hg0 : 0 ≤ 1 + pivotGrowth n k := by have := pivotGrowth_nonneg hkn; linarith
  have hT := Proof.isSVD_transpose hA
  obtain ⟨B, hB, hAB⟩ := exists_best hA k
  -- the range of the sketch
  have key : ∃ E : Set (Fin (startRows q n m) × Fin (k + over) → ℝ),
      normals _ (k + over) E ≤ ENNReal.ofReal (sketchRisk t (k + over) ε) ∧
      ∀ Z ∉ E, ∀ (G : Type) (la : LinAlg) (R : NpRng G) (w w' : World G) (S : Cols m),
        NextNormal R w _ _ Z → rs1Call (gaussianOperator R true) q (orth la) 1 Aᵀ (k + over) w = .ok (S, w') →
        froSq (A - S.mat * (S.matᵀ * A)) ≤ tailSq s t * (1 + τ ^ (2 * (q - 1).toNat) * sketchCost ε) := by
    by_cases hp2 : q % 2 = 0
    · rw [show startRows q n m = m from if_pos hp2]
      refine ⟨_, tame_probability s t (k + over) ht (by omega) hA.left e0 e1.le, fun Z hZ G la R w w' S hw h => ?_⟩
      obtain ⟨t1, t2, -⟩ := tame_bound (by omega) e1 (not_not.1 hZ)
      obtain ⟨S0, w₁, g1, g2⟩ := (rs1_range_bound la _ Aᵀ hT t ht hpos τ hτ q hq (k + over) w w' S h).1 hp2
      obtain ⟨u, hu, hgen⟩ := gaussian_next R (r := m) (c := k + over) (by omega) hw
      rw [hgen] at g1
      cases g1
      obtain ⟨e1, e2⟩ := scale_rows hu t1
      have := g2 _ e1
      rw [e2, transpose_transpose] at this
      have t3 := mul_le_mul_of_nonneg_left t2 hτn
      unfold sketchBound at t3
      linarith
    · rw [show startRows q n m = n from if_neg hp2]
      refine ⟨_, tame_probability s t (k + over) ht (by omega) hA.right e0 e1.le, fun Z hZ G la R w w' S hw h => ?_⟩
      obtain ⟨t1, t2, -⟩ := tame_bound (by omega) e1 (not_not.1 hZ)
      obtain ⟨S0, w₁, g1, g2⟩ := (rs1_range_bound la _ Aᵀ hT t ht hpos τ hτ q hq (k + over) w w' S h).2 (by omega)
      obtain ⟨u, hu, hgen⟩ := gaussian_next R (r := n) (c := k + over) (by omega) hw
      rw [hgen] at g1
      cases g1
      obtain ⟨e1, e2⟩ := scale_rows hu t1
      have := g2 _ e1
      rw [e2, transpose_transpose] at this
      have t3 := mul_le_mul_of_nonneg_left t2 hτn
      unfold sketchBound at t3
      linarith
  obtain ⟨E, hE, h3⟩ := key
  refine ⟨E, hE, fun Z hZ G la R w w' o hw h => ?_⟩
  obtain ⟨S, w1, hS, -, -, -, b2, -⟩ := osid1_col_error h
  have ho := (rs1_orth la hS).2 (by omega)
  have := h3 Z hZ G la R w w1 S hw hS
  rw [← fro_sq] at this
  refine (b2 ho B hB).trans ?_
  rw [fro_sq (A - B), hAB]
  exact add_le_add (mul_le_mul_of_nonneg_left this hg0) le_rfl

theorem id_tail_gauss (A : Matrix (Fin m) (Fin n) ℝ)
    {U : Matrix (Fin m) (Fin r) ℝ} {s : Fin r → ℝ} {V : Matrix (Fin n) (Fin r) ℝ} (hA : IsSVD A U s V)
    (k over : ℕ) (hk : 0 < k) (hkn : k ≤ n) (hk' : k + over ≤ min m n) (t : ℕ) (ht : t ≤ r) (htk' : t ≤ k)
    (ε : ℝ) (e0 : 0 ≤ ε) (e1 : ε < 1) :
    ∃ E : Set (Fin (startRows 0 n m) × Fin (k + over) → ℝ),
      normals _ (k + over) E ≤ ENNReal.ofReal (sketchRisk t (k + over) ε) ∧
      ∀ Z ∉ E, ∀ (G : Type) (la : LinAlg) (R : NpRng G) (w w' : World G) (o : ColID n),
        NextNormal R w _ _ Z →
        (OSID1 la (RS1 (gaussianOperator R true) 0 (orth la) 1)).col m n A k over w = .ok (o, w') →
        fro (A - A.submatrix id o.Js * o.X) ^ 2 ≤
          tailSq s t * (2 * (1 + pivotGrowth n k) * (1 + sketchCost ε) +
            2 * pivotLoss n k * (t * sketchCost ε)) := by
  change ∃ E : Set (Fin m × Fin (k + over) → ℝ), normals m (k + over) E ≤ _ ∧
    ∀ Z ∉ E, ∀ (G : Type) (la : LinAlg) (R : NpRng G)
      (w w' : World G) (o : ColID n), NextNormal R w m (k + over) Z → _ → _
  have hg0 : 0 ≤ 1 + pivotGrowth n k := by have := pivotGrowth_nonneg hkn; linarith
  have hl0 := pivotLoss_nonneg hkn
  refine ⟨_, tame_probability s t (k + over) ht (by omega) hA.left e0 e1.le, fun Z hZ G la R w w' o hw h => ?_⟩
  obtain ⟨t1, t2, t3⟩ := tame_bound (by omega) e1 (not_not.1 hZ)
  obtain ⟨S, w1, hS, -, -, c1, -, -⟩ := osid1_col_error h
  obtain ⟨S0, w₁, hg, rfl⟩ := (rs1_orth la hS).1 rfl
  obtain ⟨u, hu, hgen⟩ := gaussian_next R (r := m) (c := k + over) (by omega) hw
  rw [hgen] at hg
  cases hg
  obtain ⟨e1, e2⟩ := scale_rows hu t1
  obtain ⟨C, B, hB, hC, hAC, hZB⟩ := Proof.interp_first hA ht (u • Proof.drawMat Z)
    (u⁻¹ • Proof.rpinv (firstRows ht (Uᵀ * Proof.drawMat Z))) e1
  have := c1 C ((u • Proof.drawMat Z)ᵀ * B) ((Matrix.rank_mul_le_right _ _).trans (hB.trans htk'))
  rw [e2] at hAC
  have f1 : fro (A - C * ((u • Proof.drawMat Z)ᵀ * A)) ^ 2 = tailSq s t + sketchBound s t (k + over) ht U Z := by
    rw [fro_sq, hAC]; rfl
  have f2 : fro C ^ 2 * fro ((u • Proof.drawMat Z)ᵀ * A - (u • Proof.drawMat Z)ᵀ * B) ^ 2 =
      froSq (Proof.rpinv (firstRows ht (Uᵀ * Proof.drawMat Z))) *
        froSq (diagonal (tail s t) * (Uᵀ * Proof.drawMat Z)) := by
    rw [fro_sq, fro_sq, hC, hZB, Matrix.mul_smul, Matrix.mul_smul, froSq_smul, froSq_smul]
    field_simp
  obtain ⟨x, hx⟩ : ∃ x, x = √(1 + pivotGrowth n k) * fro (A - C * ((u • Proof.drawMat Z)ᵀ * A)) := ⟨_, rfl⟩
  obtain ⟨y, hy⟩ : ∃ y, y = fro C * (√(pivotLoss n k) *
    fro ((u • Proof.drawMat Z)ᵀ * A - (u • Proof.drawMat Z)ᵀ * B)) := ⟨_, rfl⟩
  have g1 : fro (A - A.submatrix id o.Js * o.X) ≤ x + y := by rw [hx, hy]; exact this
  have hx2 : x ^ 2 ≤ (1 + pivotGrowth n k) * (tailSq s t + tailSq s t * sketchCost ε) := by
    rw [hx, mul_pow, Real.sq_sqrt hg0, f1]
    exact mul_le_mul_of_nonneg_left (add_le_add le_rfl t2) hg0
  have hy2 : y ^ 2 ≤ pivotLoss n k * (tailSq s t * (t * sketchCost ε)) := by
    have e : y ^ 2 = pivotLoss n k * (fro C ^ 2 *
        fro ((u • Proof.drawMat Z)ᵀ * A - (u • Proof.drawMat Z)ᵀ * B) ^ 2) := by
      rw [hy, mul_pow, mul_pow, Real.sq_sqrt hl0]; ring
    rw [e, f2]
    exact mul_le_mul_of_nonneg_left t3 hl0
  have g2 : fro (A - A.submatrix id o.Js * o.X) ^ 2 ≤ (x + y) ^ 2 :=
    pow_le_pow_left₀ (fro_nonneg _) g1 2
  have g3 : (x + y) ^ 2 ≤ 2 * x ^ 2 + 2 * y ^ 2 := by nlinarith [sq_nonneg (x - y)]
  refine (g2.trans g3).trans ?_
  have g4 : 2 * x ^ 2 + 2 * y ^ 2 ≤ 2 * ((1 + pivotGrowth n k) * (tailSq s t + tailSq s t * sketchCost ε)) +
    2 * (pivotLoss n k * (tailSq s t * (t * sketchCost ε))) := by linarith
  refine g4.trans (le_of_eq ?_)
  ring

theorem id_tail_col (A : Matrix (Fin m) (Fin n) ℝ)
    {U : Matrix (Fin m) (Fin r) ℝ} {s : Fin r → ℝ} {V : Matrix (Fin n) (Fin r) ℝ} (hA : IsSVD A U s V)
    (k over : ℕ) (hk : 0 < k) (hr : k ≤ A.rank) (hk' : k + over ≤ min m n) (t : ℕ) (ht : t ≤ r) (htk' : t ≤ k)
    (τ : ℝ) (hτ : ∀ (i : Fin r) (j : Fin t), t ≤ i.1 → s i ≤ τ * s (Fin.castLE ht j)) (q : ℤ) (hq : 0 ≤ q)
    (ε : ℝ) (e0 : 0 ≤ ε) (e1 : ε < 1) :
    ∃ E : Set (Fin (startRows q n m) × Fin (k + over) → ℝ),
      normals _ (k + over) E ≤ ENNReal.ofReal (sketchRisk t (k + over) ε) ∧
      ∀ Z ∉ E, ∀ (G : Type) (la : LinAlg) (R : NpRng G) (w : World G), NextNormal R w _ _ Z →
        ∃ o w', (OSID1 la (RS1 (gaussianOperator R true) q (orth la) 1)).col m n A k over w = .ok (o, w') ∧
          o.c = k ∧ FullColRank (A.submatrix id o.Js) ∧
          fro (A - A.submatrix id o.Js * o.X) ^ 2 ≤ idTail n k over t s τ q.toNat ε := by
  have hkn : k ≤ n := by omega
  have key : ∃ E : Set (Fin (startRows q n m) × Fin (k + over) → ℝ),
      normals _ (k + over) E ≤ ENNReal.ofReal (sketchRisk t (k + over) ε) ∧
      ∀ Z ∉ E, ∀ (G : Type) (la : LinAlg) (R : NpRng G) (w w' : World G) (o : ColID n),
        NextNormal R w _ _ Z →
        (OSID1 la (RS1 (gaussianOperator R true) q (orth la) 1)).col m n A k over w = .ok (o, w') →
        fro (A - A.submatrix id o.Js * o.X) ^ 2 ≤ idTail n k over t s τ q.toNat ε := by
    unfold idTail
    by_cases h0 : over = 0
    · subst h0
      simp only [if_pos rfl]
      exact id_tail_plain A hA k hk hk' t ht htk' τ hτ q hq ε e0 e1
    · simp only [if_neg h0]
      by_cases h1 : q = 0
      · subst h1
        simp only [if_pos Int.toNat_zero]
        exact id_tail_gauss A hA k over hk hkn hk' t ht htk' ε e0 e1
      · have hq1 : ¬ q.toNat = 0 := by omega
        simp only [if_neg hq1]
        rw [show q.toNat - 1 = (q - 1).toNat by omega]
        exact id_tail_power A hA k over hk hkn hk' t ht (by omega) τ hτ q (by omega) ε e0 e1
  obtain ⟨E, hE, h3⟩ := key
  obtain ⟨E', hE', h4⟩ := except_ae hE (osid1_col_ae A k over hk hr q hq)
  refine ⟨E', hE', fun Z hZ G la R w hw => ?_⟩
  obtain ⟨z1, z2⟩ := h4 Z hZ
  obtain ⟨o, w', e1, -⟩ := z2 G la R w hw
  obtain ⟨S, w1, -, -, f, -⟩ := osid1_col_error e1
  exact ⟨o, w', e1, (osid1_col_interp e1).1, f, h3 Z z1 G la R w w' o hw e1⟩

theorem id_tail_row (A : Matrix (Fin m) (Fin n) ℝ)
    {U : Matrix (Fin m) (Fin r) ℝ} {s : Fin r → ℝ} {V : Matrix (Fin n) (Fin r) ℝ} (hA : IsSVD A U s V)
    (k over : ℕ) (hk : 0 < k) (hr : k ≤ A.rank) (hk' : k + over ≤ min m n) (t : ℕ) (ht : t ≤ r) (htk' : t ≤ k)
    (τ : ℝ) (hτ : ∀ (i : Fin r) (j : Fin t), t ≤ i.1 → s i ≤ τ * s (Fin.castLE ht j)) (q : ℤ) (hq : 0 ≤ q)
    (ε : ℝ) (e0 : 0 ≤ ε) (e1 : ε < 1) :
    ∃ E : Set (Fin (startRows q m n) × Fin (k + over) → ℝ),
      normals _ (k + over) E ≤ ENNReal.ofReal (sketchRisk t (k + over) ε) ∧
      ∀ Z ∉ E, ∀ (G : Type) (la : LinAlg) (R : NpRng G) (w : World G), NextNormal R w _ _ Z →
        ∃ o w', (OSID1 la (RS1 (gaussianOperator R true) q (orth la) 1)).row m n A k over w = .ok (o, w') ∧
          o.c = k ∧ FullColRank (A.submatrix o.Is id)ᵀ ∧
          fro (A - o.Z * A.submatrix o.Is id) ^ 2 ≤ idTail m k over t s τ q.toNat ε := by
  obtain ⟨E, hE, h3⟩ := id_tail_col Aᵀ (Proof.isSVD_transpose hA) k over hk (by rwa [rank_transpose])
    (by omega) t ht htk' τ hτ q hq ε e0 e1
  refine ⟨E, hE, fun Z hZ G la R w hw => ?_⟩
  obtain ⟨o, w', e1, e2, e3, e4⟩ := h3 Z hZ G la R w hw
  refine ⟨RowID.ofCol o, w', osid1_row_ok.2 ⟨o, e1, rfl⟩, e2, ?_, ?_⟩
  · have e : (A.submatrix o.Js id)ᵀ = Aᵀ.submatrix id o.Js := by rw [transpose_submatrix]
    show FullColRank (A.submatrix o.Js id)ᵀ
    rw [e]
    exact e3
  · have e0 : fro (Aᵀ - Aᵀ.submatrix id o.Js * o.X) = fro (A - o.Xᵀ * A.submatrix o.Js id) := by
      rw [← fro_transpose', transpose_sub, transpose_mul, transpose_submatrix, transpose_transpose]
    rw [e0] at e4
    exact e4

/-- **C78** (`osid1`, columns).  `osid1(A, k, over, p, axis=1, rng)` with `p ≥ 1`, `0 < k ≤ rank(A)`,
`k + over ≤ min(m, n)`, `t ≤ k` and singular values with ratio at most `τ` across the gap at `t`: outside a set of
draws of probability at most `3 · 9^t · exp(-(k+over) ε²/32)` the call returns `k` columns with squared error at
most `idTail n k over t s τ (p-1) ε`. -/
theorem C78_osid1_column (A : Matrix (Fin m) (Fin n) ℝ)
    {U : Matrix (Fin m) (Fin r) ℝ} {s : Fin r → ℝ} {V : Matrix (Fin n) (Fin r) ℝ} (hA : IsSVD A U s V)
    (k over : ℕ) (hk : 0 < k) (hr : k ≤ A.rank) (hk' : k + over ≤ min m n) (t : ℕ) (ht : t ≤ r) (htk' : t ≤ k)
    (τ : ℝ) (hτ : ∀ (i : Fin r) (j : Fin t), t ≤ i.1 → s i ≤ τ * s (Fin.castLE ht j)) (p : ℤ) (hp : 1 ≤ p)
    (ε : ℝ) (e0 : 0 ≤ ε) (e1 : ε < 1) :
    ∃ E : Set (Fin (startRows (p - 1) n m) × Fin (k + over) → ℝ),
      normals _ (k + over) E ≤ ENNReal.ofReal (sketchRisk t (k + over) ε) ∧
      ∀ Z ∉ E, ∀ (G : Type) (la : LinAlg) (R : NpRng G) (w : World G), NextNormal R w _ _ Z →
        ∃ o w', osid1 la (gaussianOperator R true) A k over p 1 w = .ok (.col o, w') ∧ o.c = k ∧
          fro (A - A.submatrix id o.Js * o.X) ^ 2 ≤ idTail n k over t s τ (p - 1).toNat ε := by
  obtain ⟨E, hE, h3⟩ := id_tail_col A hA k over hk hr hk' t ht htk' τ hτ (p - 1) (by omega) ε e0 e1
  refine ⟨E, hE, fun Z hZ G la R w hw => ?_⟩
  obtain ⟨o, w', e1, e2, -, e4⟩ := h3 Z hZ G la R w hw
  exact ⟨o, w', call_col.2 ⟨o, e1, rfl⟩, e2, e4⟩

/-- **C78** (`osid1`, rows). -/
theorem C78_osid1_row (A : Matrix (Fin m) (Fin n) ℝ)
    {U : Matrix (Fin m) (Fin r) ℝ} {s : Fin r → ℝ} {V : Matrix (Fin n) (Fin r) ℝ} (hA : IsSVD A U s V)
    (k over : ℕ) (hk : 0 < k) (hr : k ≤ A.rank) (hk' : k + over ≤ min m n) (t : ℕ) (ht : t ≤ r) (htk' : t ≤ k)
    (τ : ℝ) (hτ : ∀ (i : Fin r) (j : Fin t), t ≤ i.1 → s i ≤ τ * s (Fin.castLE ht j)) (p : ℤ) (hp : 1 ≤ p)
    (ε : ℝ) (e0 : 0 ≤ ε) (e1 : ε < 1) :
    ∃ E : Set (Fin (startRows (p - 1) m n) × Fin (k + over) → ℝ),
      normals _ (k + over) E ≤ ENNReal.ofReal (sketchRisk t (k + over) ε) ∧
      ∀ Z ∉ E, ∀ (G : Type) (la : LinAlg) (R : NpRng G) (w : World G), NextNormal R w _ _ Z →
        ∃ o w', osid1 la (gaussianOperator R true) A k over p 0 w = .ok (.row o, w') ∧ o.c = k ∧
          fro (A - o.Z * A.submatrix o.Is id) ^ 2 ≤ idTail m k over t s τ (p - 1).toNat ε := by
  obtain ⟨E, hE, h3⟩ := id_tail_row A hA k over hk hr hk' t ht htk' τ hτ (p - 1) (by omega) ε e0 e1
  refine ⟨E, hE, fun Z hZ G la R w hw => ?_⟩
  obtain ⟨o, w', e1, e2, -, e4⟩ := h3 Z hZ G la R w hw
  exact ⟨o, w', call_row.2 ⟨o, e1, rfl⟩, e2, e4⟩

/-- **C78** (`osid2`, columns): the same bound. -/
theorem C78_osid2_column (A : Matrix (Fin m) (Fin n) ℝ)
    {U : Matrix (Fin m) (Fin r) ℝ} {s : Fin r → ℝ} {V : Matrix (Fin n) (Fin r) ℝ} (hA : IsSVD A U s V)
    (k over : ℕ) (hk : 0 < k) (hr : k ≤ A.rank) (hk' : k + over ≤ min m n) (t : ℕ) (ht : t ≤ r) (htk' : t ≤ k)
    (τ : ℝ) (hτ : ∀ (i : Fin r) (j : Fin t), t ≤ i.1 → s i ≤ τ * s (Fin.castLE ht j)) (p : ℤ) (hp : 1 ≤ p)
    (ε : ℝ) (e0 : 0 ≤ ε) (e1 : ε < 1) :
    ∃ E : Set (Fin (startRows (p - 1) n m) × Fin (k + over) → ℝ),
      normals _ (k + over) E ≤ ENNReal.ofReal (sketchRisk t (k + over) ε) ∧
      ∀ Z ∉ E, ∀ (G : Type) (la : LinAlg) (R : NpRng G) (w : World G), NextNormal R w _ _ Z →
        ∃ o w', osid2 la (gaussianOperator R true) A k over p 1 w = .ok (.col o, w') ∧ o.c = k ∧
          fro (A - A.submatrix id o.Js * o.X) ^ 2 ≤ idTail n k over t s τ (p - 1).toNat ε := by
  obtain ⟨E, hE, h3⟩ := C78_osid1_column A hA k over hk hr hk' t ht htk' τ hτ p hp ε e0 e1
  refine ⟨E, hE, fun Z hZ G la R w hw => ?_⟩
  obtain ⟨o, w', e1, e2, e4⟩ := h3 Z hZ G la R w hw
  obtain ⟨X2, f1, f2⟩ := C76_osid2_column la _ A k over w w' o e1
  exact ⟨_, w', f1, e2, (pow_le_pow_left₀ (fro_nonneg _) f2 2).trans e4⟩

/-- **C78** (`osid2`, rows). -/
theorem C78_osid2_row (A : Matrix (Fin m) (Fin n) ℝ)
    {U : Matrix (Fin m) (Fin r) ℝ} {s : Fin r → ℝ} {V : Matrix (Fin n) (Fin r) ℝ} (hA : IsSVD A U s V)
    (k over : ℕ) (hk : 0 < k) (hr : k ≤ A.rank) (hk' : k + over ≤ min m n) (t : ℕ) (ht : t ≤ r) (htk' : t ≤ k)
    (τ : ℝ) (hτ : ∀ (i : Fin r) (j : Fin t), t ≤ i.1 → s i ≤ τ * s (Fin.castLE ht j)) (p : ℤ) (hp : 1 ≤ p)
    (ε : ℝ) (e0 : 0 ≤ ε) (e1 : ε < 1) :
    ∃ E : Set (Fin (startRows (p - 1) m n) × Fin (k + over) → ℝ),
      normals _ (k + over) E ≤ ENNReal.ofReal (sketchRisk t (k + over) ε) ∧
      ∀ Z ∉ E, ∀ (G : Type) (la : LinAlg) (R : NpRng G) (w : World G), NextNormal R w _ _ Z →
        ∃ o w', osid2 la (gaussianOperator R true) A k over p 0 w = .ok (.row o, w') ∧ o.c = k ∧
          fro (A - o.Z * A.submatrix o.Is id) ^ 2 ≤ idTail m k over t s τ (p - 1).toNat ε := by
  obtain ⟨E, hE, h3⟩ := C78_osid1_row A hA k over hk hr hk' t ht htk' τ hτ p hp ε e0 e1
  refine ⟨E, hE, fun Z hZ G la R w hw => ?_⟩
  obtain ⟨o, w', e1, e2, e4⟩ := h3 Z hZ G la R w hw
  obtain ⟨Z2, f1, f2⟩ := C76_osid2_row la _ A k over w w' o e1
  exact ⟨_, w', f1, e2, (pow_le_pow_left₀ (fro_nonneg _) f2 2).trans e4⟩

/-- **C78** (`tsid1`): the same bound, with the number of columns for `m > n` and of rows otherwise. -/
theorem C78_tsid1 (A : Matrix (Fin m) (Fin n) ℝ)
    {U : Matrix (Fin m) (Fin r) ℝ} {s : Fin r → ℝ} {V : Matrix (Fin n) (Fin r) ℝ} (hA : IsSVD A U s V)
    (k over : ℕ) (hk : 0 < k) (hr : k ≤ A.rank) (hk' : k + over ≤ min m n) (t : ℕ) (ht : t ≤ r) (htk' : t ≤ k)
    (τ : ℝ) (hτ : ∀ (i : Fin r) (j : Fin t), t ≤ i.1 → s i ≤ τ * s (Fin.castLE ht j)) (p : ℤ) (hp : 1 ≤ p)
    (ε : ℝ) (e0 : 0 ≤ ε) (e1 : ε < 1) :
    (m > n → ∃ E : Set (Fin (startRows (p - 1) n m) × Fin (k + over) → ℝ),
      normals _ (k + over) E ≤ ENNReal.ofReal (sketchRisk t (k + over) ε) ∧
      ∀ Z ∉ E, ∀ (G : Type) (la : LinAlg) (R : NpRng G) (w : World G), NextNormal R w _ _ Z →
        ∃ o w', tsid1 la (gaussianOperator R true) A k over p w = .ok (o, w') ∧ o.row.c = k ∧ o.col.c = k ∧
          fro (A - o.row.Z * A.submatrix o.row.Is o.col.Js * o.col.X) ^ 2 ≤ idTail n k over t s τ (p - 1).toNat ε) ∧
    (m ≤ n → ∃ E : Set (Fin (startRows (p - 1) m n) × Fin (k + over) → ℝ),
      normals _ (k + over) E ≤ ENNReal.ofReal (sketchRisk t (k + over) ε) ∧
      ∀ Z ∉ E, ∀ (G : Type) (la : LinAlg) (R : NpRng G) (w : World G), NextNormal R w _ _ Z →
        ∃ o w', tsid1 la (gaussianOperator R true) A k over p w = .ok (o, w') ∧ o.row.c = k ∧ o.col.c = k ∧
          fro (A - o.row.Z * A.submatrix o.row.Is o.col.Js * o.col.X) ^ 2 ≤ idTail m k over t s τ (p - 1).toNat ε) := by
  constructor
  · intro hmn
    obtain ⟨E, hE, h3⟩ := id_tail_col A hA k over hk hr hk' t ht htk' τ hτ (p - 1) (by omega) ε e0 e1
    refine ⟨E, hE, fun Z hZ G la R w hw => ?_⟩
    obtain ⟨o, w', a1, a2, a3, a4⟩ := h3 Z hZ G la R w hw
    have hrk : (A.submatrix id o.Js).rank = k := by rw [← a2]; exact a3
    obtain ⟨x, hx⟩ := (qrcpCol_cases la (A.submatrix id o.Js)ᵀ k).1 (by rw [rank_transpose, hrk])
    have hts : tsid1 la (gaussianOperator R true) A k over p w = .ok (⟨RowID.ofCol x, o⟩, w') :=
      (tsid1_tall hmn).2 ⟨a1, qrcpRow_ok.2 ⟨x, hx, rfl⟩⟩
    obtain ⟨f1, f2, -, -, f5⟩ := C21_tsid1 la _ A k over p w w' _ hts
    rw [if_pos hmn] at f5
    refine ⟨_, w', hts, f1, f2, ?_⟩
    rw [f5]
    exact a4
  · intro hmn
    obtain ⟨E, hE, h3⟩ := id_tail_row A hA k over hk hr hk' t ht htk' τ hτ (p - 1) (by omega) ε e0 e1
    refine ⟨E, hE, fun Z hZ G la R w hw => ?_⟩
    obtain ⟨o, w', a1, a2, a3, a4⟩ := h3 Z hZ G la R w hw
    have hrk : (A.submatrix o.Is id).rank = k := by
      rw [← rank_transpose, ← a2]; exact a3
    obtain ⟨x, hx⟩ := (qrcpCol_cases la (A.submatrix o.Is id) k).1 hrk.ge
    have hts : tsid1 la (gaussianOperator R true) A k over p w = .ok (⟨o, x⟩, w') :=
      (tsid1_wide (by omega)).2 ⟨a1, hx⟩
    obtain ⟨f1, f2, -, -, f5⟩ := C21_tsid1 la _ A k over p w w' _ hts
    rw [if_neg (by omega)] at f5
    refine ⟨_, w', hts, f1, f2, ?_⟩
    rw [f5]
    exact a4

/-- **C78** (`cur1`), which spends one pass less on its sketch (`p ≥ 2`). -/
theorem C78_cur1 (A : Matrix (Fin m) (Fin n) ℝ)
    {U : Matrix (Fin m) (Fin r) ℝ} {s : Fin r → ℝ} {V : Matrix (Fin n) (Fin r) ℝ} (hA : IsSVD A U s V)
    (k over : ℕ) (hk : 0 < k) (hr : k ≤ A.rank) (hk' : k + over ≤ min m n) (t : ℕ) (ht : t ≤ r) (htk' : t ≤ k)
    (τ : ℝ) (hτ : ∀ (i : Fin r) (j : Fin t), t ≤ i.1 → s i ≤ τ * s (Fin.castLE ht j)) (p : ℤ) (hp : 2 ≤ p)
    (ε : ℝ) (e0 : 0 ≤ ε) (e1 : ε < 1) :
    (m > n → ∃ E : Set (Fin (startRows (p - 2) n m) × Fin (k + over) → ℝ),
      normals _ (k + over) E ≤ ENNReal.ofReal (sketchRisk t (k + over) ε) ∧
      ∀ Z ∉ E, ∀ (G : Type) (la : LinAlg) (R : NpRng G) (w : World G), NextNormal R w _ _ Z →
        ∃ o w', cur1 la (gaussianOperator R true) A k over p w = .ok (o, w') ∧
          fro (A - A.submatrix id o.Js * o.U * A.submatrix o.Is id) ^ 2 ≤
            (1 + √(k + pivotGrowth m k)) ^ 2 * idTail n k over t s τ (p - 2).toNat ε) ∧
    (m ≤ n → ∃ E : Set (Fin (startRows (p - 2) m n) × Fin (k + over) → ℝ),
      normals _ (k + over) E ≤ ENNReal.ofReal (sketchRisk t (k + over) ε) ∧
      ∀ Z ∉ E, ∀ (G : Type) (la : LinAlg) (R : NpRng G) (w : World G), NextNormal R w _ _ Z →
        ∃ o w', cur1 la (gaussianOperator R true) A k over p w = .ok (o, w') ∧
          fro (A - A.submatrix id o.Js * o.U * A.submatrix o.Is id) ^ 2 ≤
            (1 + √(k + pivotGrowth n k)) ^ 2 * idTail m k over t s τ (p - 2).toNat ε) := by
  constructor
  · intro hmn
    obtain ⟨E, hE, h3⟩ := id_tail_col A hA k over hk hr hk' t ht htk' τ hτ (p - 2) (by omega) ε e0 e1
    refine ⟨E, hE, fun Z hZ G la R w hw => ?_⟩
    obtain ⟨o, w', e1, e2, e3, e4⟩ := h3 Z hZ G la R w hw
    obtain ⟨out, f1, f2⟩ := C76_cur1_tall la _ A hmn k over w w' o e1 e2 e3
    refine ⟨out, w', f1, (pow_le_pow_left₀ (fro_nonneg _) f2 2).trans ?_⟩
    rw [mul_pow]
    exact mul_le_mul_of_nonneg_left e4 (sq_nonneg _)
  · intro hmn
    obtain ⟨E, hE, h3⟩ := id_tail_row A hA k over hk hr hk' t ht htk' τ hτ (p - 2) (by omega) ε e0 e1
    refine ⟨E, hE, fun Z hZ G la R w hw => ?_⟩
    obtain ⟨o, w', e1, e2, e3, e4⟩ := h3 Z hZ G la R w hw
    obtain ⟨out, f1, f2⟩ := C76_cur1_wide la _ A hmn k over w w' o e1 e2 e3
    refine ⟨out, w', f1, (pow_le_pow_left₀ (fro_nonneg _) f2 2).trans ?_⟩
    rw [mul_pow]
    exact mul_le_mul_of_nonneg_left e4 (sq_nonneg _)

/-- singular values `100, 1, 1, ..., 1` -/
noncomputable def demoTailS : Fin 400 → ℝ := fun i => if i.1 = 0 then 100 else 1

/-- the hypotheses of this file, for a matrix of size 400, one leading direction and a sketch of 300 columns: the
exceptional draws have probability less than 1, and `rf1(A, 300, 2, rng)` leaves less than 400 of the squared
norm 10399 of `A` -/
theorem demoTail_facts : IsSVD (diagonal demoTailS) 1 demoTailS 1 ∧ 300 ≤ min 400 400 ∧
    (∀ (i : Fin 400) (j : Fin 1), 1 ≤ i.1 → demoTailS i ≤ 1 / 100 * demoTailS (Fin.castLE (by omega) j)) ∧
    sketchRisk 1 300 (3 / 4) < 1 ∧
    tailSq demoTailS 1 * (1 + (1 / 100) ^ (2 * (2 - 1 : ℤ).toNat) * sketchCost (3 / 4)) < 400 ∧
    froSq (diagonal demoTailS) = 10399 ∧ tailSq demoTailS 1 = 399 := by
  have hsum : ∀ x y : ℝ, ∑ i : Fin 400, (if i.1 = 0 then x else y) = x + 399 * y := by
    intro x y
    rw [Fin.sum_univ_succ]
    simp
  have htail : tailSq demoTailS 1 = 399 := by
    unfold tailSq tail demoTailS
    have e : ∀ i : Fin 400, (if i.1 < 1 then (0 : ℝ) else if i.1 = 0 then 100 else 1) ^ 2 =
        if i.1 = 0 then 0 else 1 := by
      intro i
      by_cases h : i.1 = 0 <;> simp [h]
    rw [Finset.sum_congr rfl fun i _ => e i, hsum]
    norm_num
  refine ⟨⟨?_, ?_, ?_, ?_, ?_⟩, by omega, ?_, ?_, ?_, ?_, htail⟩
  · show (1 : Matrix (Fin 400) (Fin 400) ℝ)ᵀ * 1 = 1
    simp
  · show (1 : Matrix (Fin 400) (Fin 400) ℝ)ᵀ * 1 = 1
    simp
  · intro i; unfold demoTailS; split <;> norm_num
  · intro i j h
    have h' : i.1 ≤ j.1 := h
    unfold demoTailS
    by_cases hj : j.1 = 0
    · have hi : i.1 = 0 := by omega
      rw [if_pos hj, if_pos hi]
    · rw [if_neg hj]
      split <;> norm_num
  · simp
  · intro i j h
    unfold demoTailS
    have hj : (Fin.castLE (by omega : 1 ≤ 400) j).1 = 0 := by simp
    rw [if_neg (by omega), if_pos hj]
    norm_num
  · unfold sketchRisk
    have h1 : Real.exp (-(((300 : ℕ) : ℝ) * (3 / 4) ^ 2 / 32)) ≤ Real.exp (-5) :=
      Real.exp_le_exp.2 (by norm_num)
    have h2 : Real.exp (-5) < 1 / 27 := by
      rw [Real.exp_neg, ← one_div]
      refine one_div_lt_one_div_of_lt (by norm_num) ?_
      have h3 : (2 : ℝ) ≤ Real.exp 1 := by have := Real.add_one_le_exp 1; linarith
      have h4 : Real.exp 5 = Real.exp 1 ^ 5 := by rw [← Real.exp_nat_mul]; norm_num
      rw [h4]
      have h5 : (2 : ℝ) ^ 5 ≤ Real.exp 1 ^ 5 := pow_le_pow_left₀ (by norm_num) h3 5
      refine lt_of_lt_of_le ?_ h5
      norm_num
    linarith
  · rw [htail]
    unfold sketchCost
    norm_num
  · have := Proof.froSq_diag_mul demoTailS (1 : Matrix (Fin 400) (Fin 400) ℝ)
    rw [Matrix.mul_one] at this
    rw [this]
    have e : ∀ i : Fin 400, demoTailS i ^ 2 * ∑ j, (1 : Matrix (Fin 400) (Fin 400) ℝ) i j ^ 2 =
        if i.1 = 0 then 10000 else 1 := by
      intro i
      rw [Finset.sum_eq_single i (fun j _ hj => by rw [one_apply_ne (Ne.symm hj)]; ring) (fun h => absurd (Finset.mem_univ _) h),
        one_apply_eq]
      unfold demoTailS
      split <;> norm_num
    rw [Finset.sum_congr rfl fun i _ => e i, hsum]
    norm_num

end Parla.Props
