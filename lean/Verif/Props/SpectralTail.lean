import Verif.Props.SpectralBlocks
import Verif.Props.LowRankTail

/-! # C95 with exponentially small failure probability

The exceptional set `E` of arrays of normals is given in advance, as in C78; outside it every run meets the spectral norm bound, for
every spectrum of `A` (no gap is asked for). -/

namespace Parla.Props

open Matrix Parla Spec MeasureTheory
open Parla.Proof

variable {G : Type} {m n r : ℕ}

private theorem tame_one {a t k : ℕ} {ht : t ≤ r} {s : Fin r → ℝ} (hn : 0 ≤ nth s t) (hk : 0 < k) {X : Matrix (Fin a) (Fin r) ℝ}
    {ε : ℝ} (h1 : ε < 1) {Z : Fin a × Fin k → ℝ} (h : Tame (fun _ => 1) t k ht X ε Z) {q : ℝ} (hq : 0 ≤ q) :
    nth s t * (1 + sketchBound (fun _ => 1) t k ht X Z) ^ q ≤ nth s t * (1 + ((r : ℝ) - t) * sketchCost ε) ^ q := by
  obtain ⟨-, t2, -⟩ := tame_bound hk h1 h
  rw [tailSq_one t ht] at t2
  have h0 : 0 ≤ sketchBound (fun _ => 1) t k ht X Z := froSq_nonneg _
  exact mul_le_mul_of_nonneg_left (Real.rpow_le_rpow (by linarith) (by linarith) hq) hn

theorem SpecNormLE.mono {E : Matrix (Fin m) (Fin n) ℝ} {e f : ℝ} (h : SpecNormLE E e) (hef : e ≤ f) : SpecNormLE E f :=
  fun x => (h x).trans (mul_le_mul_of_nonneg_right hef (norm2_nonneg x))

/-- the factor of C95 outside an exceptional set, for a power sketch with `p` passes -/
theorem rs1_spec_tail (A : Matrix (Fin m) (Fin n) ℝ)
    {U : Matrix (Fin m) (Fin r) ℝ} {s : Fin r → ℝ} {V : Matrix (Fin n) (Fin r) ℝ} (hA : IsSVD A U s V)
    (k : ℕ) (hk : 0 < k) (hk' : k ≤ min m n) (t : ℕ) (ht : t ≤ r) (p : ℤ) (ε : ℝ) (h0 : 0 ≤ ε) (h1 : ε < 1) :
    ∃ E : Set (Fin (startRows p m n) × Fin k → ℝ), normals _ k E ≤ ENNReal.ofReal (sketchRisk t k ε) ∧
      ∀ Z ∉ E, ∀ (G : Type) (la : LinAlg) (R : NpRng G) (w w' : World G) (S : Cols n),
        NextNormal R w _ _ Z → rs1Call (gaussianOperator R true) p (orth la) 1 A k w = .ok (S, w') →
        ∀ (c : ℕ) (Q : Matrix (Fin m) (Fin c) ℝ), OrthoCols Q → colSpace (A * S.mat) ≤ colSpace Q →
        SpecNormLE (A - Q * (Qᵀ * A)) (nth s t * (1 + ((r : ℝ) - t) * sketchCost ε) ^ (2 * ((p.toNat : ℝ) + 1))⁻¹) := by
  have hn : 0 ≤ nth s t := nth_nonneg hA.nonneg
  have hq : (0 : ℝ) ≤ (2 * ((p.toNat : ℝ) + 1))⁻¹ := by positivity
  by_cases hp2 : p % 2 = 0
  · rw [show startRows p m n = n from if_pos hp2]
    refine ⟨_, tame_probability (fun _ => 1) t k ht hk hA.right h0 h1.le, fun Z hZ G la R w w' S hw h c Q hQ hAS => ?_⟩
    obtain ⟨t1, -, -⟩ := tame_bound hk h1 (not_not.1 hZ)
    obtain ⟨S0, w₁, g1, g2⟩ := (rs1_spec la _ A hA t ht p k w w' S h hQ hAS).1 hp2
    obtain ⟨u, hu, hgen⟩ := gaussian_next R (r := n) (c := k) (by omega) hw
    rw [hgen] at g1
    cases g1
    obtain ⟨e1, e2⟩ := scale_rows hu t1
    have := g2 _ e1
    rw [e2, fro_sq] at this
    exact SpecNormLE.mono this (tame_one hn hk h1 (not_not.1 hZ) hq)
  · rw [show startRows p m n = m from if_neg hp2]
    refine ⟨_, tame_probability (fun _ => 1) t k ht hk hA.left h0 h1.le, fun Z hZ G la R w w' S hw h c Q hQ hAS => ?_⟩
    obtain ⟨t1, -, -⟩ := tame_bound hk h1 (not_not.1 hZ)
    obtain ⟨S0, w₁, g1, g2⟩ := (rs1_spec la _ A hA t ht p k w w' S h hQ hAS).2 (by omega)
    obtain ⟨u, hu, hgen⟩ := gaussian_next R (r := m) (c := k) (by omega) hw
    rw [hgen] at g1
    cases g1
    obtain ⟨e1, e2⟩ := scale_rows hu t1
    have := g2 _ e1
    rw [e2, fro_sq] at this
    exact SpecNormLE.mono this (tame_one hn hk h1 (not_not.1 hZ) hq)

/-- QB2 over Gaussian power sketches: the spectral norm of the error of the run, outside an exceptional set -/
theorem qb2_spec_tail (A : Matrix (Fin m) (Fin n) ℝ)
    {U : Matrix (Fin m) (Fin r) ℝ} {s : Fin r → ℝ} {V : Matrix (Fin n) (Fin r) ℝ} (hA : IsSVD A U s V)
    (k : ℤ) (K : ℕ) (hK : K = min k.toNat (min m n)) (hK0 : 0 < K) (p : ℤ) (hp : 0 ≤ p) (blk : ℕ) (hblk : 0 < blk)
    (W : ℕ) (hW : W = if p = 0 then K else min blk K) (t : ℕ) (ht : t ≤ r) (ε : ℝ) (h0 : 0 ≤ ε) (h1 : ε < 1) :
    ∃ E : Set (Proof.Draws (startRows p m n) (blockWidths K blk)),
      normalSeq _ _ E ≤ ENNReal.ofReal (sketchRisk t W ε) ∧
      ∀ Zs ∉ E, ∀ (G : Type) (la : LinAlg) (R : NpRng G) (tol : Tol) (w : World G), NextDraws R _ w.rng Zs →
        ∃ (st : QB2St m n) (w' : World G),
        qb2Run la (RF1 la (RS1 (gaussianOperator R true) p (orth la) 1)) blk A k tol w = .ok (st, w') ∧
        (st.c = K ∨ ∃ u, tol = .val u ∧ 0 < u ∧ fro (A - st.Q * st.B) ≤ u * fro A) ∧
        (k ≤ A.rank ∨ K ≤ blk → OrthoCols st.Q ∧ st.B = st.Qᵀ * A) ∧
        (st.c = K ∨ W = min blk K →
          SpecNormLE (A - st.Q * st.B) (nth s t * (1 + ((r : ℝ) - t) * sketchCost ε) ^ (2 * ((p.toNat : ℝ) + 1))⁻¹)) := by
  have hprob : IsProbabilityMeasure stdNormal := by unfold stdNormal; infer_instance
  have hWK : W ≤ K := by rw [hW]; split <;> omega
  have hW0 : 0 < W := by rw [hW]; split <;> omega
  have hk : 0 < k := by omega
  have hmn : 0 < min m n := by omega
  have hn : 0 ≤ nth s t := nth_nonneg hA.nonneg
  have hc0 := sketchCost_nonneg h0 h1
  have hrt : (0 : ℝ) ≤ (r : ℝ) - t := by have : (t : ℝ) ≤ r := by exact_mod_cast ht
                                         linarith
  have hae := qb2Run_ae A hmn k hk p hp blk hblk
  rw [← hK] at hae
  suffices hmain : ∃ E : Set (Proof.Draws (startRows p m n) (blockWidths K blk)),
      normalSeq _ _ E ≤ ENNReal.ofReal (sketchRisk t W ε) ∧
      ∀ Zs ∉ E, ∀ (G : Type) (la : LinAlg) (R : NpRng G) (tol : Tol) (w w' : World G) (st : QB2St m n), NextDraws R _ w.rng Zs →
        qb2Run la (RF1 la (RS1 (gaussianOperator R true) p (orth la) 1)) blk A k tol w = .ok (st, w') →
        (A - st.Q * st.B).rank = A.rank - st.c →
        (k ≤ A.rank → OrthoCols st.Q ∧ st.B = st.Qᵀ * A) → (st.c = K ∨ W = min blk K) →
        SpecNormLE (A - st.Q * st.B) (nth s t * (1 + ((r : ℝ) - t) * sketchCost ε) ^ (2 * ((p.toNat : ℝ) + 1))⁻¹) by
    obtain ⟨E, hE, h3⟩ := hmain
    obtain ⟨E', hE', h4⟩ := except_ae hE hae
    refine ⟨E', hE', fun Zs hZs G la R tol w hw => ?_⟩
    obtain ⟨z1, z2⟩ := h4 Zs hZs
    obtain ⟨st, w', f1, f2⟩ := z2 G la R tol w hw
    have hcon := run_conclusions la _ p blk hblk A hmn k hk tol w w' st f1 f2
    refine ⟨st, w', f1, ?_, ?_, h3 Zs z1 G la R tol w w' st hw f1 hcon.2.2.1 fun h => hcon.2.2.2.1 (Or.inl h)⟩
    · exact hcon.2.1.imp_left fun h => by omega
    · intro h
      refine hcon.2.2.2.1 (h.imp_right fun h => ?_)
      omega
  by_cases hb : W = min blk K
  · rw [hb] at hW0 ⊢
    obtain ⟨E, hE, h3⟩ := rs1_spec_tail A hA (min blk K) hW0 (by omega) t ht p ε h0 h1
    rw [blockWidths_pos (by omega) (by omega)]
    have hfst : MeasurePreserving
        (Prod.fst : Proof.Draws (startRows p m n) (min blk K :: blockWidths (K - min blk K) blk) → _)
        (normalSeq _ (min blk K :: blockWidths (K - min blk K) blk)) (normals _ (min blk K)) :=
      measurePreserving_fst (μ := normals (startRows p m n) (min blk K)) (ν := normalSeq _ _)
    refine ⟨Prod.fst ⁻¹' E, except_preimage hfst hE, fun Zs hZs G la R tol w w' st hw h _ _ _ => ?_⟩
    obtain ⟨out, w0, w1, c, Q, e1, e2, e3, e4, e6⟩ := first_block_spec la _ blk A hmn k hk tol w w' st h
    rw [← hK] at e2
    obtain ⟨S, w2, e4', e5⟩ := rf1_open e2
    have hw0 : NextNormal R w0 _ _ Zs.1 := by
      unfold NextNormal
      rw [e1]; exact hw.1
    exact e6 _ (h3 Zs.1 hZs G la R w0 w2 S hw0 e4' _ Q e4 (e5.trans e3))
  · obtain rfl : p = 0 := by
      by_contra hne
      rw [if_neg hne] at hW
      exact hb hW
    obtain rfl : K = W := by rw [hW, if_pos rfl]
    have hmp := measurePreserving_allCols n (blockWidths K blk)
    have hsum := blockWidths_sum K blk
    have htp := tame_probability (fun _ => (1 : ℝ)) t (blockWidths K blk).sum ht (by omega) hA.right h0 h1.le
    refine ⟨(fun Zs => Proof.entries (allCols (blockWidths K blk) Zs)) ⁻¹' _,
      (except_preimage hmp htp).trans (by rw [hsum]), fun Zs hZs G la R tol w w' st hw h hrk hor hc => ?_⟩
    have hc : st.c = K := hc.resolve_right hb
    have htame := not_not.1 hZs
    obtain ⟨hZ, -, -⟩ := tame_bound (by omega) h1 htame
    by_cases hkr : k ≤ A.rank
    · obtain ⟨hQ, hB⟩ := hor hkr
      rw [qb2Run_open w hk] at h
      have hcl : clampK k m n = K := hK.symm
      rw [hcl] at h
      have hrng : (if k ≤ (min m n : ℕ) then w else { w with warns := w.warns + 1 }).rng = w.rng := by
        split <;> rfl
      have hr := (loop_range la R A hblk (by omega) _ _ _ (qb2Init A blk) _ (by change 0 < K; omega) rfl
        (blockWidths K blk) rfl Zs (qb2Inv_init A blk) (by rw [hrng]; exact hw) st w' h hc).2
      rw [hB]
      refine SpecNormLE.mono ?_ (tame_one hn (by omega) h1 htame (by positivity))
      refine spec_of_pow hn (add_nonneg zero_le_one (froSq_nonneg _)) (0 : ℤ).toNat ?_
      refine spec_range_bound hA ht 0 (Vᵀ * allCols (a := n) (blockWidths K blk) Zs) _ hZ hQ (le_trans (le_of_eq ?_) hr)
      rw [zero_add, ← Matrix.mul_assoc]
      simp only [pow_one]
      rw [← hA.eq]
    · have hres : (A - st.Q * st.B).rank = 0 := by
        have hA1 := rank_le_width' A
        have hA2 : A.rank ≤ m := by simpa using A.rank_le_height
        rw [hrk]
        omega
      rw [eq_zero_of_rank hres]
      intro x
      rw [zero_mulVec]
      have h0 : norm2 (0 : Fin m → ℝ) = 0 := by simp [norm2, sqNorm]
      rw [h0]
      exact mul_nonneg (mul_nonneg hn (Real.rpow_nonneg (by positivity) _)) (norm2_nonneg _)

/-- **C95** (failure probability, rangefinder).  Except for a set of draws of probability at most `3·9^t·exp(-kε²/32)`,
`rf1(A, k, p, rng)` with a Gaussian sketch returns a `Q` with `‖A - QQ'A‖₂ ≤ s_t (1 + (r - t)(1 + ε/2)/(1 - ε))^(1/(2p))`. -/
theorem C95_rf1_tail (A : Matrix (Fin m) (Fin n) ℝ)
    {U : Matrix (Fin m) (Fin r) ℝ} {s : Fin r → ℝ} {V : Matrix (Fin n) (Fin r) ℝ} (hA : IsSVD A U s V)
    (k : ℕ) (hk : 0 < k) (hk' : k ≤ min m n) (t : ℕ) (ht : t ≤ r) (p : ℤ) (hp : 1 ≤ p) (ε : ℝ) (h0 : 0 ≤ ε) (h1 : ε < 1) :
    ∃ E : Set (Fin (startRows (p - 1) m n) × Fin k → ℝ),
      normals _ k E ≤ ENNReal.ofReal (3 * 9 ^ t * Real.exp (-(k * ε ^ 2 / 32))) ∧
      ∀ Z ∉ E, ∀ (G : Type) (la : LinAlg) (R : NpRng G) (w : World G), NextNormal R w _ _ Z →
        ∃ Q w', rf1 la (gaussianOperator R true) A k p w = .ok (Q, w') ∧ Q.c = k ∧ OrthoCols Q.mat ∧
          SpecNormLE (A - Q.mat * (Q.matᵀ * A))
            (nth s t * (1 + ((r : ℝ) - t) * ((1 + ε / 2) / (1 - ε))) ^ (2 * (p : ℝ))⁻¹) := by
  obtain ⟨E, hE, h3⟩ := rs1_spec_tail A hA k hk hk' t ht (p - 1) ε h0 h1
  rw [show 2 * (((p - 1).toNat : ℝ) + 1) = 2 * (p : ℝ) by rw [cast_pass hp]; push_cast; ring] at h3
  obtain ⟨E', hE', h4⟩ := except_ae hE (C59_rf1 A k hk hk' p hp)
  refine ⟨E', hE', fun Z hZ G la R w hw => ?_⟩
  obtain ⟨z1, z2⟩ := h4 Z hZ
  obtain ⟨Q, w', e1, e2, e3, -⟩ := z2 G la R w hw
  refine ⟨Q, w', e1, e2, e3, ?_⟩
  obtain ⟨-, -, -, -, S, w1, h5, h6⟩ := C01_rf1_procedural la _ A k p w w' Q e1
  exact h3 Z z1 G la R { w with warns := w.warns + 1 } w1 S hw h5 _ _ e3 h6

/-- **C95** (failure probability) for `qb(A, k, p, rng)`, with exponent `1/(2(p-1))`. -/
theorem C95_qb_tail (A : Matrix (Fin m) (Fin n) ℝ)
    {U : Matrix (Fin m) (Fin r) ℝ} {s : Fin r → ℝ} {V : Matrix (Fin n) (Fin r) ℝ} (hA : IsSVD A U s V)
    (k : ℕ) (hk : 0 < k) (hk' : k ≤ min m n) (t : ℕ) (ht : t ≤ r) (p : ℤ) (hp : 2 ≤ p) (ε : ℝ) (h0 : 0 ≤ ε) (h1 : ε < 1) :
    ∃ E : Set (Fin (startRows (p - 2) m n) × Fin k → ℝ),
      normals _ k E ≤ ENNReal.ofReal (3 * 9 ^ t * Real.exp (-(k * ε ^ 2 / 32))) ∧
      ∀ Z ∉ E, ∀ (G : Type) (la : LinAlg) (R : NpRng G) (w : World G), NextNormal R w _ _ Z →
        ∃ out w', qb la (gaussianOperator R true) p A k w = .ok (out, w') ∧ out.c = k ∧ OrthoCols out.Q ∧
          SpecNormLE (A - out.Q * out.B)
            (nth s t * (1 + ((r : ℝ) - t) * ((1 + ε / 2) / (1 - ε))) ^ (2 * ((p : ℝ) - 1))⁻¹) := by
  obtain ⟨E, hE, h3⟩ := rs1_spec_tail A hA k hk hk' t ht (p - 2) ε h0 h1
  rw [show 2 * (((p - 2).toNat : ℝ) + 1) = 2 * ((p : ℝ) - 1) by rw [cast_pass hp]; push_cast; ring] at h3
  obtain ⟨E', hE', h4⟩ := except_ae hE (C59_qb A k hk hk' p hp)
  refine ⟨E', hE', fun Z hZ G la R w hw => ?_⟩
  obtain ⟨z1, z2⟩ := h4 Z hZ
  obtain ⟨out, w', e1, e2, e3, e4, -⟩ := z2 G la R w hw
  refine ⟨out, w', e1, e2, e3, ?_⟩
  rw [e4]
  have h := e1
  unfold qb qb1Call at h
  rw [Py.bind_ok_iff] at h; obtain ⟨_, w0, ha, h⟩ := h
  rw [Py.assert_ok_iff] at ha; obtain ⟨hk, rfl⟩ := ha
  rw [Py.bind_ok_iff] at h; obtain ⟨_, w0, ha, h⟩ := h
  rw [Py.assert_ok_iff] at ha; obtain ⟨hk', rfl⟩ := ha
  rw [Py.bind_ok_iff] at h; obtain ⟨_, w0, ha, h⟩ := h
  cases ha
  rw [Py.bind_ok_iff] at h; obtain ⟨Q, w1, h1, h⟩ := h
  rw [Py.bind_eq_of_ok (Py.emit_apply _ _)] at h
  cases h
  obtain ⟨S, w2, h5, h6⟩ := rf1_open h1
  exact h3 Z z1 G la R w0 w2 S hw h5 _ _ e3 h6

/-- **C95** (failure probability) for `qb_b(p, blk, overwrite, A, k, tol, rng)`: the bound holds for the runs that build all
`K = min(k, m, n)` columns and, when `p > 2`, for all runs; `W` as in `C95_qb_b_mean`. -/
theorem C95_qb_b_tail (A : Matrix (Fin m) (Fin n) ℝ)
    {U : Matrix (Fin m) (Fin r) ℝ} {s : Fin r → ℝ} {V : Matrix (Fin n) (Fin r) ℝ} (hA : IsSVD A U s V)
    (k : ℤ) (K : ℕ) (hK : K = min k.toNat (min m n)) (hK0 : 0 < K) (p : ℤ) (hp : 2 ≤ p) (blk : ℕ) (hblk : 0 < blk)
    (W : ℕ) (hW : W = if p = 2 then K else min blk K) (t : ℕ) (ht : t ≤ r) (ε : ℝ) (h0 : 0 ≤ ε) (h1 : ε < 1) :
    ∃ E : Set (Proof.Draws (startRows (p - 2) m n) (blockWidths K blk)),
      normalSeq _ _ E ≤ ENNReal.ofReal (3 * 9 ^ t * Real.exp (-(W * ε ^ 2 / 32))) ∧
      ∀ Zs ∉ E, ∀ (G : Type) (la : LinAlg) (R : NpRng G) (ow : Bool) (tol : Tol) (w : World G), NextDraws R _ w.rng Zs →
        ∃ (out : QBOut m n) (A' : Matrix (Fin m) (Fin n) ℝ) (w' : World G),
          qbB la (gaussianOperator R true) p blk ow A k tol w = .ok ((out, A'), w') ∧
          (out.c = K ∨ ∃ u, tol = .val u ∧ 0 < u ∧ fro (A - out.Q * out.B) ≤ u * fro A) ∧
          ((out.c = K ∨ 2 < p) → SpecNormLE (A - out.Q * out.B)
            (nth s t * (1 + ((r : ℝ) - t) * ((1 + ε / 2) / (1 - ε))) ^ (2 * ((p : ℝ) - 1))⁻¹)) := by
  obtain ⟨E, hE, h3⟩ := qb2_spec_tail A hA k K hK hK0 (p - 2) (by omega) blk hblk W
    (hW.trans (if_congr (by omega) rfl rfl)) t ht ε h0 h1
  rw [show 2 * (((p - 2).toNat : ℝ) + 1) = 2 * ((p : ℝ) - 1) by rw [cast_pass hp]; push_cast; ring] at h3
  refine ⟨E, hE, fun Zs hZs G la R ow tol w hw => ?_⟩
  obtain ⟨st, w', e1, e2, -, e4⟩ := h3 Zs hZs G la R tol w hw
  refine ⟨⟨st.c, st.Q, st.B⟩, if ow then st.A else A, w', ?_, e2, fun hc => e4
    (hc.imp_right fun h => by rw [hW, if_neg (by omega)])⟩
  unfold qbB qb2Call
  rw [Py.bind_eq_of_ok e1]
  rfl

/-- **C95** (failure probability) for `svd1(A, k, over, nan, p, blk, rng)`: with `e` the bound of `C95_qb_b_tail`, the values and vectors
returned are right to within `e` in the sense of C93. -/
theorem C95_svd1_tail (A : Matrix (Fin m) (Fin n) ℝ)
    {U : Matrix (Fin m) (Fin r) ℝ} {s : Fin r → ℝ} {V : Matrix (Fin n) (Fin r) ℝ} (hA : IsSVD A U s V)
    (k over K : ℕ) (hK : K = min (k + over) (min m n)) (hK0 : 0 < K) (p : ℤ) (hp : 2 ≤ p) (blk : ℕ) (hblk : 0 < blk)
    (W : ℕ) (hW : W = if p = 2 then K else min blk K) (t : ℕ) (ht : t ≤ r)
    (hone : K ≤ blk ∨ k + over ≤ A.rank) (ε : ℝ) (h0 : 0 ≤ ε) (h1 : ε < 1)
    (e : ℝ) (he : e = nth s t * (1 + ((r : ℝ) - t) * ((1 + ε / 2) / (1 - ε))) ^ (2 * ((p : ℝ) - 1))⁻¹) :
    ∃ E : Set (Proof.Draws (startRows (p - 2) m n) (blockWidths K blk)),
      normalSeq _ _ E ≤ ENNReal.ofReal (3 * 9 ^ t * Real.exp (-(W * ε ^ 2 / 32))) ∧
      ∀ Zs ∉ E, ∀ (G : Type) (la : LinAlg) (R : NpRng G) (w : World G), NextDraws R _ w.rng Zs →
        ∃ (out : SVDOut m n) (w' : World G),
          svd1 la (gaussianOperator R true) A k over .nan p blk w = .ok (out, w') ∧
          (∀ i : Fin out.r, out.s i ≤ nth s i ∧ nth s i ^ 2 ≤ out.s i ^ 2 + e ^ 2 ∧
            Aᵀ *ᵥ out.U.col i = out.s i • out.Vh.row i ∧ norm2 (A *ᵥ out.Vh.row i - out.s i • out.U.col i) ≤ e) ∧
          ∀ i, out.r ≤ i → i < k → nth s i ^ 2 ≤ (10 * eps) ^ 2 + e ^ 2 := by
  have hKi : K = min ((k + over : ℕ) : ℤ).toNat (min m n) := by rw [Int.toNat_natCast, hK]
  obtain ⟨E, hE, h3⟩ := qb2_spec_tail A hA ((k + over : ℕ) : ℤ) K hKi hK0 (p - 2) (by omega) blk hblk W
    (hW.trans (if_congr (by omega) rfl rfl)) t ht ε h0 h1
  rw [show 2 * (((p - 2).toNat : ℝ) + 1) = 2 * ((p : ℝ) - 1) by rw [cast_pass hp]; push_cast; ring,
    show nth s t * (1 + ((r : ℝ) - t) * sketchCost ε) ^ (2 * ((p : ℝ) - 1))⁻¹ = e from he.symm] at h3
  refine ⟨E, hE, fun Zs hZs G la R w hw => ?_⟩
  obtain ⟨st, w', e1, e3, e4, e5⟩ := h3 Zs hZs G la R .nan w hw
  have hcK : st.c = K := by
    rcases e3 with h | ⟨u, hu, -⟩
    · omega
    · cases hu
  have hqb : QB2 la (RF1 la (RS1 (gaussianOperator R true) (p - 2) (orth la) 1)) blk false m n A
      ((k + over : ℕ) : ℤ) .nan w = .ok (⟨st.c, st.Q, st.B⟩, w') := by
    unfold QB2 qb2Call
    rw [Py.bind_eq_of_ok (Py.bind_eq_of_ok e1)]; rfl
  obtain ⟨hQ, hB⟩ := e4 (by
    rcases hone with h | h
    · right; omega
    · left; exact_mod_cast h)
  have hcc : st.c ≤ k + over := by omega
  obtain ⟨out, g1, -⟩ := C12_svd1_valid la _ A k .nan over w w' _ hqb hQ hcc
  have hsp := e5 (Or.inl hcK)
  obtain ⟨v1, -, v3⟩ := C93_svd1_vectors la _ A k .nan over w w' _ hqb hQ hB out g1
  obtain ⟨u1, u2⟩ := C93_svd1_values la _ A hA k .nan over w w' _ hqb hQ hB hcc out g1 _ hsp
  exact ⟨out, w', g1, fun i => ⟨(u1 i).1, (u1 i).2, v1 i, v3 _ hsp i⟩, u2⟩

/-- **C95** (failure probability) for `evd1(A, k, nan, over, p, blk, rng)` on a symmetric `A`. -/
theorem C95_evd1_tail (A : Matrix (Fin n) (Fin n) ℝ) (hsym : Aᵀ = A)
    {U : Matrix (Fin n) (Fin r) ℝ} {s : Fin r → ℝ} {V : Matrix (Fin n) (Fin r) ℝ} (hA : IsSVD A U s V)
    (k over K : ℕ) (hk : 0 < k) (hk' : k ≤ n) (hK : K = min (k + over) n) (p : ℤ) (hp : 2 ≤ p) (blk : ℕ) (hblk : 0 < blk)
    (W : ℕ) (hW : W = if p = 2 then K else min blk K) (t : ℕ) (ht : t ≤ r)
    (hone : K ≤ blk ∨ k + over ≤ A.rank) (ε : ℝ) (h0 : 0 ≤ ε) (h1 : ε < 1)
    (e : ℝ) (he : e = nth s t * (1 + ((r : ℝ) - t) * ((1 + ε / 2) / (1 - ε))) ^ (2 * ((p : ℝ) - 1))⁻¹) :
    ∃ E : Set (Proof.Draws (startRows (p - 2) n n) (blockWidths K blk)),
      normalSeq _ _ E ≤ ENNReal.ofReal (3 * 9 ^ t * Real.exp (-(W * ε ^ 2 / 32))) ∧
      ∀ Zs ∉ E, ∀ (G : Type) (la : LinAlg) (R : NpRng G) (w : World G), NextDraws R _ w.rng Zs →
        ∃ (out : EVDOut n) (w' : World G),
          evd1 la (gaussianOperator R true) A k .nan over p blk w = .ok (out, w') ∧
          (∀ i : Fin out.r, |out.lamb i| ≤ nth s i ∧ nth s i ≤ |out.lamb i| + √2 * e ∧
            norm2 (A *ᵥ out.V.col i - out.lamb i • out.V.col i) ≤ e ∧
            ∀ (X : Matrix (Fin n) (Fin n) ℝ) (mu : Fin n → ℝ), IsEVD A X mu → ∃ j, |mu j - out.lamb i| ≤ e) ∧
          ∀ i, out.r ≤ i → i < k → nth s i ≤ 10 * eps + √2 * e := by
  have hn : 0 < min n n := by omega
  have hKi : K = min ((k + over : ℕ) : ℤ).toNat (min n n) := by rw [Int.toNat_natCast, hK, min_self]
  have hc0 : 0 ≤ (1 + ε / 2) / (1 - ε) := sketchCost_nonneg h0 h1
  have hrt : (0 : ℝ) ≤ (r : ℝ) - t := by have : (t : ℝ) ≤ r := by exact_mod_cast ht
                                         linarith
  have he0 : 0 ≤ e := by
    rw [he]; exact mul_nonneg (nth_nonneg hA.nonneg) (Real.rpow_nonneg (by positivity) _)
  obtain ⟨E, hE, h3⟩ := qb2_spec_tail A hA ((k + over : ℕ) : ℤ) K hKi (by omega) (p - 2) (by omega) blk hblk W
    (hW.trans (if_congr (by omega) rfl rfl)) t ht ε h0 h1
  rw [show 2 * (((p - 2).toNat : ℝ) + 1) = 2 * ((p : ℝ) - 1) by rw [cast_pass hp]; push_cast; ring,
    show nth s t * (1 + ((r : ℝ) - t) * sketchCost ε) ^ (2 * ((p : ℝ) - 1))⁻¹ = e from he.symm] at h3
  refine ⟨E, hE, fun Zs hZs G la R w hw => ?_⟩
  obtain ⟨st, w', e1, e3, e4, e5⟩ := h3 Zs hZs G la R .nan w hw
  have hcK : st.c = K := by
    rcases e3 with h | ⟨u, hu, -⟩
    · omega
    · cases hu
  have hqb : QB2 la (RF1 la (RS1 (gaussianOperator R true) (p - 2) (orth la) 1)) blk false n n A
      ((k : ℤ) + over) (Tol.half .nan) w = .ok (⟨st.c, st.Q, st.B⟩, w') := by
    unfold QB2 qb2Call
    rw [← Nat.cast_add, show Tol.half .nan = .nan from rfl, Py.bind_eq_of_ok (Py.bind_eq_of_ok e1)]; rfl
  obtain ⟨hQ, hB⟩ := e4 (by
    rcases hone with h | h
    · right; omega
    · left; exact_mod_cast h)
  obtain ⟨out, g1, -⟩ := C14_evd1_valid la _ A hsym k (by omega) (by omega) .nan (Or.inl rfl) over w w' _ hqb hQ hB
  have hsp := e5 (Or.inl hcK)
  obtain ⟨-, -, v3⟩ := C93_evd1_vectors la _ A hsym k .nan over w w' _ hqb hQ hB out g1
  obtain ⟨u1, u2⟩ := C93_evd1_values la _ A hsym hA k .nan over w w' _ hqb hQ hB out g1 _ he0 hsp
  refine ⟨out, w', ?_, fun i => ⟨(u1 i).1, (u1 i).2, v3 _ hsp i⟩, fun i hi hk => u2 i hi (by omega)⟩
  unfold evd1
  rw [Py.assert_pos_bind hp]; exact g1

end Parla.Props
