import Verif.Props.Spectral

/-! # C95 for the blocked algorithms, `svd1` and `evd1` -/

namespace Parla.Props

open Matrix Parla Spec MeasureTheory
open Parla.Proof

variable {G : Type} {m n r : ℕ}

private theorem proj_norm_le {b : ℕ} {Q : Matrix (Fin m) (Fin b) ℝ} (hQ : OrthoCols Q) (M : Matrix (Fin m) (Fin n) ℝ) (x : Fin n → ℝ) :
    sqNorm ((M - Q * (Qᵀ * M)) *ᵥ x) ≤ sqNorm (M *ᵥ x) := by
  have hQ' : Qᵀ * Q = 1 := hQ
  have h1 : M *ᵥ x = Q *ᵥ ((Qᵀ * M) *ᵥ x) + (M - Q * (Qᵀ * M)) *ᵥ x := by
    rw [mulVec_mulVec, ← add_mulVec]; congr 1; abel
  have h2 : (Q *ᵥ ((Qᵀ * M) *ᵥ x)) ⬝ᵥ ((M - Q * (Qᵀ * M)) *ᵥ x) = 0 := by
    rw [dotProduct_comm, dotProduct_mulVec, ← mulVec_transpose, mulVec_mulVec, Matrix.mul_sub, ← Matrix.mul_assoc Qᵀ Q, hQ',
      Matrix.one_mul, sub_self, zero_mulVec, zero_dotProduct]
  have h3 : sqNorm (M *ᵥ x) = sqNorm (Q *ᵥ ((Qᵀ * M) *ᵥ x)) + sqNorm ((M - Q * (Qᵀ * M)) *ᵥ x) := by
    nth_rw 1 [h1]
    rw [sqNorm_add, h2]; ring
  rw [h3]; have := sqNorm_nonneg (Q *ᵥ ((Qᵀ * M) *ᵥ x)); linarith

/-- the error of QB2 is in every direction at most what its first block leaves -/
theorem first_block_spec (la : LinAlg) (rf : RangeFinder G) (blk : ℕ)
    (A : Matrix (Fin m) (Fin n) ℝ) (hmn : 0 < min m n) (k : ℤ) (hk : 0 < k)
    (tol : Tol) (w w' : World G) (st : QB2St m n) (h : qb2Run la rf blk A k tol w = .ok (st, w')) :
    ∃ out w0 w1 c, ∃ Q : Matrix (Fin m) (Fin c) ℝ, w0.rng = w.rng ∧
      rf m n A (min blk (min k.toNat (min m n)) : ℕ) .nan w0 = .ok (out, w1) ∧
      colSpace out.mat ≤ colSpace Q ∧ OrthoCols Q ∧
      ∀ e, SpecNormLE (A - Q * (Qᵀ * A)) e → SpecNormLE (A - st.Q * st.B) e := by
  rw [qb2Run_open w hk] at h
  have hK0 : 0 < clampK k m n := by unfold clampK; omega
  unfold qb2Loop at h
  rw [Py.bind_ok_iff] at h
  obtain ⟨out, wd, hd, h⟩ := h
  obtain ⟨w1, h1, rfl⟩ := qb2Draw_ok_iff.1 hd
  have hbl : qb2Blk (clampK k m n) (qb2Init A blk).c (qb2Init A blk).blk = min blk (clampK k m n) := by
    change qb2Blk (clampK k m n) 0 blk = _
    unfold qb2Blk; split <;> omega
  rw [hbl] at h h1
  obtain ⟨s1, hs1⟩ : ∃ s1, s1 = qb2Update la (min blk (clampK k m n)) (qb2Init A blk) out := ⟨_, rfl⟩
  rw [← hs1] at h
  have hI1 : QB2Inv A s1 := by rw [hs1]; exact qb2Inv_update la (qb2Inv_init A blk) _ _
  have hmono : QB2Inv A st ∧ ∀ x, sqNorm (st.A *ᵥ x) ≤ sqNorm (s1.A *ᵥ x) := by
    by_cases c1 : tol.use ∧ s1.sqn ≤ absSqTol tol A
    · rw [if_pos c1] at h; cases h; exact ⟨hI1, fun _ => le_rfl⟩
    · rw [if_neg c1] at h
      by_cases c2 : s1.c ≥ clampK k m n
      · rw [if_pos c2] at h; cases h; exact ⟨hI1, fun _ => le_rfl⟩
      · rw [if_neg c2] at h
        refine (qb2Loop_ind (P := fun x => QB2Inv A x ∧ ∀ v, sqNorm (x.A *ᵥ v) ≤ sqNorm (s1.A *ᵥ v)) ?_ _ _ _ _ _ h (by omega)
          ⟨hI1, fun _ => le_rfl⟩).1
        rintro x o u u' ⟨hx, hx'⟩ - -
        refine ⟨qb2Inv_update la hx (qb2Blk (clampK k m n) x.c x.blk) o, fun v => le_trans ?_ (hx' v)⟩
        exact proj_norm_le (la.qr_orth (projectOut o.mat x.Q)) x.A v
  obtain ⟨hIs, hle⟩ := hmono
  have hp0 : projectOut out.mat (0 : Matrix (Fin m) (Fin 0) ℝ) = out.mat := by unfold projectOut; simp
  have hA1 : s1.A = A - (la.qr out.mat).1 * ((la.qr out.mat).1ᵀ * A) := by
    rw [hs1]
    change A - (la.qr (projectOut out.mat (0 : Matrix (Fin m) (Fin 0) ℝ))).1 *
      ((la.qr (projectOut out.mat (0 : Matrix (Fin m) (Fin 0) ℝ))).1ᵀ * A) = _
    rw [hp0]
  refine ⟨out, _, w1, _, (la.qr out.mat).1, ?_, h1, qr_range la _, la.qr_orth _, fun e he x => ?_⟩
  · split <;> rfl
  · rw [← hA1] at he
    rw [← hIs.1]
    exact (Real.sqrt_le_sqrt (hle x)).trans (he x)

/-- QB2 over Gaussian power sketches: the spectral norm of the error of the run, if it builds all its columns -/
theorem qb2_spec_mean (A : Matrix (Fin m) (Fin n) ℝ)
    {U : Matrix (Fin m) (Fin r) ℝ} {s : Fin r → ℝ} {V : Matrix (Fin n) (Fin r) ℝ} (hA : IsSVD A U s V)
    (k : ℤ) (K : ℕ) (hK : K = min k.toNat (min m n)) (p : ℤ) (hp : 0 ≤ p) (blk : ℕ) (hblk : 0 < blk)
    (W : ℕ) (hW : W = if p = 0 then K else min blk K) (t : ℕ) (ht : t ≤ r) (htk : t + 2 ≤ W) :
    ∃ g : Proof.Draws (startRows p m n) (blockWidths K blk) → ℝ,
      (∀ Z, 0 ≤ g Z) ∧ Integrable g (normalSeq _ _) ∧
      ∫ Z, g Z ∂(normalSeq _ _) = ((r : ℝ) - t) * (t / ((W : ℝ) - t - 1)) ∧
      ∀ᵐ Zs ∂(normalSeq _ _), ∀ (G : Type) (la : LinAlg) (R : NpRng G) (tol : Tol) (w w' : World G)
        (st : QB2St m n), NextDraws R _ w.rng Zs →
        qb2Run la (RF1 la (RS1 (gaussianOperator R true) p (orth la) 1)) blk A k tol w = .ok (st, w') →
        (st.c = K ∨ W = min blk K) → SpecNormLE (A - st.Q * st.B) (nth s t * (1 + g Zs) ^ (2 * ((p.toNat : ℝ) + 1))⁻¹) := by
  have hprob : IsProbabilityMeasure stdNormal := by unfold stdNormal; infer_instance
  have hWK : W ≤ K := by rw [hW]; split <;> omega
  have hk : 0 < k := by omega
  have hmn : 0 < min m n := by omega
  by_cases hb : W = min blk K
  · -- the first block
    rw [hb] at htk ⊢
    obtain ⟨g, h0, h1, h2, h3⟩ := rs1_spec_mean A hA (min blk K) (by omega) t ht htk p
    rw [blockWidths_pos (by omega) (by omega)]
    have hfst : MeasurePreserving
        (Prod.fst : Proof.Draws (startRows p m n) (min blk K :: blockWidths (K - min blk K) blk) → _)
        (normalSeq _ (min blk K :: blockWidths (K - min blk K) blk)) (normals _ (min blk K)) :=
      measurePreserving_fst (μ := normals (startRows p m n) (min blk K)) (ν := normalSeq _ _)
    refine ⟨fun Zs => g Zs.1, fun Zs => h0 _, hfst.integrable_comp_of_integrable h1, ?_, ?_⟩
    · exact (mp_integral hfst h1).trans h2
    · filter_upwards [hfst.quasiMeasurePreserving.ae h3] with Zs hZs G la R tol w w' st hw h _
      obtain ⟨out, w0, w1, c, Q, e1, e2, e3, e4, e6⟩ := first_block_spec la _ blk A hmn k hk tol w w' st h
      rw [← hK] at e2
      obtain ⟨S, w2, e4', e5⟩ := rf1_open e2
      have hw0 : NextNormal R w0 _ _ Zs.1 := by
        unfold NextNormal
        rw [e1]; exact hw.1
      exact e6 _ (hZs G la R w0 w2 S hw0 e4' _ Q e4 (e5.trans e3))
  · -- several blocks, no power iterations
    have hae := qb2Run_ae A hmn k hk p hp blk hblk
    rw [← hK] at hae
    obtain rfl : p = 0 := by
      by_contra hne
      rw [if_neg hne] at hW
      exact hb hW
    obtain rfl : K = W := by rw [hW, if_pos rfl]
    have hmp := measurePreserving_allCols n (blockWidths K blk)
    have hsum := blockWidths_sum K blk
    obtain ⟨⟨h1, h2⟩, h3⟩ := sketchBound_mean (fun _ => 1) t (blockWidths K blk).sum ht (by omega) hA.right
    have hn : 0 ≤ nth s t := nth_nonneg hA.nonneg
    refine ⟨fun Zs => sketchBound (fun _ => 1) t _ ht V (Proof.entries (allCols (blockWidths K blk) Zs)),
      fun Zs => froSq_nonneg _, hmp.integrable_comp_of_integrable h1, ?_, ?_⟩
    · have e := (mp_integral hmp h1).trans h2
      rw [show (((blockWidths K blk).sum : ℕ) : ℝ) = (K : ℝ) by rw [hsum], tailSq_one t ht] at e
      exact e
    · filter_upwards [hmp.quasiMeasurePreserving.ae h3, hae] with Zs hZs hZ' G la R tol w w' st hw h hc
      have hc : st.c = K := hc.resolve_right hb
      obtain ⟨st', w'', f1, f2⟩ := hZ' G la R tol w hw
      rw [h] at f1
      cases f1
      have hcon := run_conclusions la _ 0 blk hblk A hmn k hk tol w w' st h f2
      by_cases hkr : k ≤ A.rank
      · obtain ⟨hQ, hB⟩ := hcon.2.2.2.1 (Or.inl hkr)
        rw [qb2Run_open w hk] at h
        have hcl : clampK k m n = K := hK.symm
        rw [hcl] at h
        have hrng : (if k ≤ (min m n : ℕ) then w else { w with warns := w.warns + 1 }).rng = w.rng := by
          split <;> rfl
        have hr := (loop_range la R A hblk (by omega) _ _ _ (qb2Init A blk) _ (by change 0 < K; omega) rfl
          (blockWidths K blk) rfl Zs (qb2Inv_init A blk) (by rw [hrng]; exact hw) st w' h hc).2
        rw [hB]
        refine spec_of_pow hn (add_nonneg zero_le_one (froSq_nonneg _)) (0 : ℤ).toNat ?_
        refine spec_range_bound hA ht 0 (Vᵀ * allCols (a := n) (blockWidths K blk) Zs) _ hZs hQ (le_trans (le_of_eq ?_) hr)
        rw [zero_add, ← Matrix.mul_assoc]
        simp only [pow_one]
        rw [← hA.eq]
      · have hres : (A - st.Q * st.B).rank = 0 := by
          have hA1 := rank_le_width' A
          have hA2 : A.rank ≤ m := by simpa using A.rank_le_height
          rw [hcon.2.2.1]
          omega
        rw [eq_zero_of_rank hres]
        intro x
        rw [zero_mulVec]
        have h0 : norm2 (0 : Fin m → ℝ) = 0 := by simp [norm2, sqNorm]
        rw [h0]
        refine mul_nonneg (mul_nonneg hn (Real.rpow_nonneg (add_nonneg zero_le_one (froSq_nonneg _)) _)) (norm2_nonneg _)

/-- **C95** (mean) for `qb_b(p, blk, overwrite, A, k, tol, rng)`: the mean of the spectral norm of the error of the runs that build all
`K = min(k, m, n)` columns is at most `s_t (1 + (r - t) t/(W - t - 1))^(1/(2(p-1)))`, where `W = K` when there are no power
iterations and otherwise the width of the first block (and then all runs are covered, also those that stop early). -/
theorem C95_qb_b_mean (A : Matrix (Fin m) (Fin n) ℝ)
    {U : Matrix (Fin m) (Fin r) ℝ} {s : Fin r → ℝ} {V : Matrix (Fin n) (Fin r) ℝ} (hA : IsSVD A U s V)
    (k : ℤ) (K : ℕ) (hK : K = min k.toNat (min m n)) (p : ℤ) (hp : 2 ≤ p) (blk : ℕ) (hblk : 0 < blk)
    (W : ℕ) (hW : W = if p = 2 then K else min blk K) (t : ℕ) (ht : t ≤ r) (htk : t + 2 ≤ W) :
    ∃ g : Proof.Draws (startRows (p - 2) m n) (blockWidths K blk) → ℝ,
      (∀ Z, 0 ≤ g Z) ∧ Integrable g (normalSeq _ _) ∧
      ∫ Z, g Z ∂(normalSeq _ _) ≤ nth s t * (1 + ((r : ℝ) - t) * (t / ((W : ℝ) - t - 1))) ^ (2 * ((p : ℝ) - 1))⁻¹ ∧
      ∀ᵐ Zs ∂(normalSeq _ _), ∀ (G : Type) (la : LinAlg) (R : NpRng G) (ow : Bool) (tol : Tol) (w : World G),
        NextDraws R _ w.rng Zs →
        ∃ (out : QBOut m n) (A' : Matrix (Fin m) (Fin n) ℝ) (w' : World G),
          qbB la (gaussianOperator R true) p blk ow A k tol w = .ok ((out, A'), w') ∧
          (out.c = K ∨ ∃ u, tol = .val u ∧ 0 < u ∧ fro (A - out.Q * out.B) ≤ u * fro A) ∧
          ((out.c = K ∨ 2 < p) → SpecNormLE (A - out.Q * out.B) (g Zs)) := by
  have hprob : IsProbabilityMeasure stdNormal := by unfold stdNormal; infer_instance
  have hprob' : IsProbabilityMeasure (normalSeq (startRows (p - 2) m n) (blockWidths K blk)) := inferInstance
  have hWK : W ≤ K := by rw [hW]; split <;> omega
  obtain ⟨g, h0, h1, h2, h3⟩ := qb2_spec_mean A hA k K hK (p - 2) (by omega) blk hblk W
    (hW.trans (if_congr (by omega) rfl rfl)) t ht htk
  obtain ⟨c1, c2, c3⟩ := bound_mean h0 h1 (nth_nonneg hA.nonneg (i := t)) h2 (p - 2).toNat
  rw [show 2 * (((p - 2).toNat : ℝ) + 1) = 2 * ((p : ℝ) - 1) by rw [cast_pass hp]; push_cast; ring] at c1 c2 c3 h3
  refine ⟨_, c1, c2, c3, ?_⟩
  have hae := qb2Run_ae A (by omega) k (by omega) (p - 2) (by omega) blk hblk
  rw [← hK] at hae
  filter_upwards [h3, hae] with Zs hZ hZs G la R ow tol w hw
  obtain ⟨st, w', e1, e2⟩ := hZs G la R tol w hw
  have hcon := run_conclusions la _ (p - 2) blk hblk A (by omega) k (by omega) tol w w' st e1 e2
  refine ⟨⟨st.c, st.Q, st.B⟩, if ow then st.A else A, w', ?_, ?_, fun hc => hZ G la R tol w w' st hw e1
    (hc.imp_right fun h => by rw [hW, if_neg (by omega)])⟩
  · unfold qbB qb2Call
    rw [Py.bind_eq_of_ok e1]
    rfl
  · refine hcon.2.1.imp_left fun h => ?_
    change st.c = K
    omega

/-- **C95** for `svd1(A, k, over, nan, p, blk, rng)`: there is a function `g` of the draws, with mean at most
`s_t (1 + (r - t) t/(W - t - 1))^(1/(2(p-1)))` whatever the gaps in the spectrum of `A`, such that almost surely the call returns, each
singular value returned is at most the one of `A` in the same position with squares differing by at most `g²`, and
`‖A v - s u‖ ≤ g`. -/
theorem C95_svd1 (A : Matrix (Fin m) (Fin n) ℝ)
    {U : Matrix (Fin m) (Fin r) ℝ} {s : Fin r → ℝ} {V : Matrix (Fin n) (Fin r) ℝ} (hA : IsSVD A U s V)
    (k over K : ℕ) (hK : K = min (k + over) (min m n)) (p : ℤ) (hp : 2 ≤ p) (blk : ℕ) (hblk : 0 < blk)
    (W : ℕ) (hW : W = if p = 2 then K else min blk K) (t : ℕ) (ht : t ≤ r) (htk : t + 2 ≤ W)
    (hone : K ≤ blk ∨ k + over ≤ A.rank) :
    ∃ g : Proof.Draws (startRows (p - 2) m n) (blockWidths K blk) → ℝ,
      (∀ Z, 0 ≤ g Z) ∧ Integrable g (normalSeq _ _) ∧
      ∫ Z, g Z ∂(normalSeq _ _) ≤ nth s t * (1 + ((r : ℝ) - t) * (t / ((W : ℝ) - t - 1))) ^ (2 * ((p : ℝ) - 1))⁻¹ ∧
      ∀ᵐ Zs ∂(normalSeq _ _), ∀ (G : Type) (la : LinAlg) (R : NpRng G) (w : World G),
        NextDraws R _ w.rng Zs →
        ∃ (out : SVDOut m n) (w' : World G),
          svd1 la (gaussianOperator R true) A k over .nan p blk w = .ok (out, w') ∧
          (∀ i : Fin out.r, out.s i ≤ nth s i ∧ nth s i ^ 2 ≤ out.s i ^ 2 + g Zs ^ 2 ∧
            Aᵀ *ᵥ out.U.col i = out.s i • out.Vh.row i ∧ norm2 (A *ᵥ out.Vh.row i - out.s i • out.U.col i) ≤ g Zs) ∧
          ∀ i, out.r ≤ i → i < k → nth s i ^ 2 ≤ (10 * eps) ^ 2 + g Zs ^ 2 := by
  have hprob : IsProbabilityMeasure stdNormal := by unfold stdNormal; infer_instance
  have hprob' : IsProbabilityMeasure (normalSeq (startRows (p - 2) m n) (blockWidths K blk)) := inferInstance
  have hWK : W ≤ K := by rw [hW]; split <;> omega
  have hKi : K = min ((k + over : ℕ) : ℤ).toNat (min m n) := by rw [Int.toNat_natCast, hK]
  obtain ⟨g, h0, h1, h2, h3⟩ := qb2_spec_mean A hA ((k + over : ℕ) : ℤ) K hKi (p - 2) (by omega) blk hblk W
    (hW.trans (if_congr (by omega) rfl rfl)) t ht htk
  obtain ⟨c1, c2, c3⟩ := bound_mean h0 h1 (nth_nonneg hA.nonneg (i := t)) h2 (p - 2).toNat
  rw [show 2 * (((p - 2).toNat : ℝ) + 1) = 2 * ((p : ℝ) - 1) by rw [cast_pass hp]; push_cast; ring] at c1 c2 c3 h3
  refine ⟨_, c1, c2, c3, ?_⟩
  have hae := qb2Run_ae A (by omega) ((k + over : ℕ) : ℤ) (by omega) (p - 2) (by omega) blk hblk
  rw [← hKi] at hae
  filter_upwards [h3, hae] with Zs hZ hZs G la R w hw
  obtain ⟨st, w', e1, e2⟩ := hZs G la R .nan w hw
  have hcon := run_conclusions la _ (p - 2) blk hblk A (by omega) _ (by omega) .nan w w' st e1 e2
  have hcK : st.c = K := by
    rcases hcon.2.1 with h | ⟨u, hu, -⟩
    · omega
    · cases hu
  have hqb : QB2 la (RF1 la (RS1 (gaussianOperator R true) (p - 2) (orth la) 1)) blk false m n A
      ((k + over : ℕ) : ℤ) .nan w = .ok (⟨st.c, st.Q, st.B⟩, w') := by
    unfold QB2 qb2Call
    rw [Py.bind_eq_of_ok (Py.bind_eq_of_ok e1)]; rfl
  obtain ⟨hQ, hB⟩ := hcon.2.2.2.1 (by
    rcases hone with h | h
    · right; omega
    · left; exact_mod_cast h)
  have hcc : st.c ≤ k + over := by omega
  obtain ⟨out, g1, -⟩ := C12_svd1_valid la _ A k .nan over w w' _ hqb hQ hcc
  have hsp := hZ G la R .nan w w' st hw e1 (Or.inl hcK)
  obtain ⟨v1, -, v3⟩ := C93_svd1_vectors la _ A k .nan over w w' _ hqb hQ hB out g1
  obtain ⟨u1, u2⟩ := C93_svd1_values la _ A hA k .nan over w w' _ hqb hQ hB hcc out g1 _ hsp
  exact ⟨out, w', g1, fun i => ⟨(u1 i).1, (u1 i).2, v1 i, v3 _ hsp i⟩, u2⟩

/-- **C95** for `evd1(A, k, nan, over, p, blk, rng)` on a symmetric `A`: with `g` as for `svd1`, the magnitude of each value returned is
at most the one in the same position of `A` and at least that minus `√2 g`, `‖A v - lamb v‖ ≤ g`, and there is an eigenvalue of `A`
within `g` of each value. -/
theorem C95_evd1 (A : Matrix (Fin n) (Fin n) ℝ) (hsym : Aᵀ = A)
    {U : Matrix (Fin n) (Fin r) ℝ} {s : Fin r → ℝ} {V : Matrix (Fin n) (Fin r) ℝ} (hA : IsSVD A U s V)
    (k over K : ℕ) (hk : 0 < k) (hk' : k ≤ n) (hK : K = min (k + over) n) (p : ℤ) (hp : 2 ≤ p) (blk : ℕ) (hblk : 0 < blk)
    (W : ℕ) (hW : W = if p = 2 then K else min blk K) (t : ℕ) (ht : t ≤ r) (htk : t + 2 ≤ W)
    (hone : K ≤ blk ∨ k + over ≤ A.rank) :
    ∃ g : Proof.Draws (startRows (p - 2) n n) (blockWidths K blk) → ℝ,
      (∀ Z, 0 ≤ g Z) ∧ Integrable g (normalSeq _ _) ∧
      ∫ Z, g Z ∂(normalSeq _ _) ≤ nth s t * (1 + ((r : ℝ) - t) * (t / ((W : ℝ) - t - 1))) ^ (2 * ((p : ℝ) - 1))⁻¹ ∧
      ∀ᵐ Zs ∂(normalSeq _ _), ∀ (G : Type) (la : LinAlg) (R : NpRng G) (w : World G),
        NextDraws R _ w.rng Zs →
        ∃ (out : EVDOut n) (w' : World G),
          evd1 la (gaussianOperator R true) A k .nan over p blk w = .ok (out, w') ∧
          (∀ i : Fin out.r, |out.lamb i| ≤ nth s i ∧ nth s i ≤ |out.lamb i| + √2 * g Zs ∧
            norm2 (A *ᵥ out.V.col i - out.lamb i • out.V.col i) ≤ g Zs ∧
            ∀ (X : Matrix (Fin n) (Fin n) ℝ) (mu : Fin n → ℝ), IsEVD A X mu → ∃ j, |mu j - out.lamb i| ≤ g Zs) ∧
          ∀ i, out.r ≤ i → i < k → nth s i ≤ 10 * eps + √2 * g Zs := by
  have hprob : IsProbabilityMeasure stdNormal := by unfold stdNormal; infer_instance
  have hprob' : IsProbabilityMeasure (normalSeq (startRows (p - 2) n n) (blockWidths K blk)) := inferInstance
  have hWK : W ≤ K := by rw [hW]; split <;> omega
  have hn : 0 < min n n := by omega
  have hKi : K = min ((k + over : ℕ) : ℤ).toNat (min n n) := by rw [Int.toNat_natCast, hK, min_self]
  obtain ⟨g, h0, h1, h2, h3⟩ := qb2_spec_mean A hA ((k + over : ℕ) : ℤ) K hKi (p - 2) (by omega) blk hblk W
    (hW.trans (if_congr (by omega) rfl rfl)) t ht htk
  obtain ⟨c1, c2, c3⟩ := bound_mean h0 h1 (nth_nonneg hA.nonneg (i := t)) h2 (p - 2).toNat
  rw [show 2 * (((p - 2).toNat : ℝ) + 1) = 2 * ((p : ℝ) - 1) by rw [cast_pass hp]; push_cast; ring] at c1 c2 c3 h3
  refine ⟨_, c1, c2, c3, ?_⟩
  have hae := qb2Run_ae A hn ((k + over : ℕ) : ℤ) (by omega) (p - 2) (by omega) blk hblk
  rw [← hKi] at hae
  filter_upwards [h3, hae] with Zs hZ hZs G la R w hw
  obtain ⟨st, w', e1, e2⟩ := hZs G la R .nan w hw
  have hcon := run_conclusions la _ (p - 2) blk hblk A hn _ (by omega) .nan w w' st e1 e2
  have hcK : st.c = K := by
    rcases hcon.2.1 with h | ⟨u, hu, -⟩
    · omega
    · cases hu
  have hqb : QB2 la (RF1 la (RS1 (gaussianOperator R true) (p - 2) (orth la) 1)) blk false n n A
      ((k : ℤ) + over) (Tol.half .nan) w = .ok (⟨st.c, st.Q, st.B⟩, w') := by
    unfold QB2 qb2Call
    rw [← Nat.cast_add, show Tol.half .nan = .nan from rfl, Py.bind_eq_of_ok (Py.bind_eq_of_ok e1)]; rfl
  obtain ⟨hQ, hB⟩ := hcon.2.2.2.1 (by
    rcases hone with h | h
    · right; omega
    · left; exact_mod_cast h)
  obtain ⟨out, g1, -⟩ := C14_evd1_valid la _ A hsym k (by omega) (by omega) .nan (Or.inl rfl) over w w' _ hqb hQ hB
  have hsp := hZ G la R .nan w w' st hw e1 (Or.inl hcK)
  obtain ⟨-, -, v3⟩ := C93_evd1_vectors la _ A hsym k .nan over w w' _ hqb hQ hB out g1
  obtain ⟨u1, u2⟩ := C93_evd1_values la _ A hsym hA k .nan over w w' _ hqb hQ hB out g1 _ (c1 Zs) hsp
  refine ⟨out, w', ?_, fun i => ⟨(u1 i).1, (u1 i).2, v3 _ hsp i⟩, fun i hi hk => u2 i hi (by omega)⟩
  unfold evd1
  rw [Py.assert_pos_bind hp]; exact g1

end Parla.Props
