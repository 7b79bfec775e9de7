import Verif.Props.ExtendQB
import Verif.Props.LowRankTail
import Verif.Props.Passes

/-! # C91: how many columns a tolerance costs

`qb_b` with a relative tolerance `u` chooses the number of columns itself.  It is never smaller than the smallest rank for
which the tolerance can be met at all, and with high probability not much larger. -/

namespace Parla.Props

open Matrix Parla Spec MeasureTheory
open Parla.Proof (Draws)

variable {G : Type} {m n r : ℕ}

/-- **C91** (no fewer than necessary).  A run of QB2 that meets the tolerance has at least as many columns as the best
approximation that meets it: the tail of the singular values from the number of columns on is within the tolerance. -/
theorem C91_qb2_lower (la : LinAlg) (rf : RangeFinder G) (hrf : RFShape rf m n) (blk : ℕ) (hblk : 0 < blk) (ow : Bool)
    (A : Matrix (Fin m) (Fin n) ℝ) (hmn : 0 < min m n)
    {U : Matrix (Fin m) (Fin r) ℝ} {s : Fin r → ℝ} {V : Matrix (Fin n) (Fin r) ℝ} (hA : IsSVD A U s V) (k : ℤ) (u : ℝ)
    (w w' : World G) (out : QBOut m n) (A' : Matrix (Fin m) (Fin n) ℝ)
    (h : qb2Call la rf blk ow A k (.val u) w = .ok ((out, A'), w')) :
    (out.c : ℤ) = min k (min m n : ℕ) ∨ (0 < u ∧ tailSq s out.c ≤ (u * fro A) ^ 2) := by
  obtain ⟨-, h2⟩ := C05_qb2_exit la rf hrf blk hblk ow A hmn k _ w w' out A' h
  refine h2.imp_right ?_
  rintro ⟨t, e, ht, he⟩
  cases e
  refine ⟨ht, ?_⟩
  have hr : (out.Q * out.B).rank ≤ out.c := (rank_mul_le_left _ _).trans (by simpa using out.Q.rank_le_width)
  have := Proof.ey_rank hA (out.Q * out.B) hr
  rw [← fro_sq] at this
  exact this.trans (pow_le_pow_left₀ (fro_nonneg _) he 2)

/-- if `K` columns, without a tolerance, would do, then with the tolerance `qb_b` stops within `K` columns -/
private theorem stops {la : LinAlg} {R : NpRng G} {p : ℤ} {blk : ℕ} {ow : Bool}
    {A : Matrix (Fin m) (Fin n) ℝ} {K : ℕ} {k : ℤ} (hK0 : 0 < K) (hKk : (K : ℤ) ≤ k)
    (hk : k ≤ (min m n : ℕ)) (hdvd : (K : ℤ) = k ∨ blk ∣ K) {u : ℝ} (hu : 0 < u) {w w' : World G} {out : QBOut m n}
    {A' : Matrix (Fin m) (Fin n) ℝ}
    (h : qbB la (gaussianOperator R true) p blk ow A K (.val u) w = .ok ((out, A'), w'))
    (hmet : fro (A - out.Q * out.B) ≤ u * fro A) (hc : out.c ≤ K) :
    qbB la (gaussianOperator R true) p blk ow A k (.val u) w = .ok ((out, A'), w') ∧
      (numPasses w'.trace : ℤ) ≤ numPasses w.trace + p * ⌈(K : ℚ) / blk⌉ := by
  have e : qbB la (gaussianOperator R true) p blk ow A k (.val u) w = .ok ((out, A'), w') := by
    refine C90_qb2_done la _ (C05_rf1_shape la _ _ _ (Or.inl rfl) _) blk ow A (by omega) K k hKk hk u hu w w' out A' h hmet ?_
    rcases hdvd with h0 | h0
    · exact Or.inl h0
    · exact Or.inr (Or.inl (by exact_mod_cast h0))
  refine ⟨e, ?_⟩
  obtain ⟨h1, h2, -⟩ := C24_qb_b_passes la _ (gaussianOperator_quiet R true) p blk ow A K _ w w' out A' h
  rw [h2]
  have : ⌈(out.c : ℚ) / blk⌉ ≤ ⌈(K : ℚ) / blk⌉ :=
    Int.ceil_le_ceil (div_le_div_of_nonneg_right (by exact_mod_cast hc) (by positivity))
  nlinarith

/-- **C91** (not many more, in the mean).  Let `K` be a multiple of the block size (or the target itself), `W` the number of
columns in the bound of C65, and suppose the bound on the mean squared error is at most `δ (u ‖A‖)²`.  Then except with
probability at most `δ` over the draws for the first `K` columns, `qb_b` with target `k ≥ K` and tolerance `u` returns
within the tolerance, with at most `K` columns and at most `p ⌈K/blk⌉` passes over `A`. -/
theorem C91_qb_b (A : Matrix (Fin m) (Fin n) ℝ)
    {U : Matrix (Fin m) (Fin r) ℝ} {s : Fin r → ℝ} {V : Matrix (Fin n) (Fin r) ℝ} (hA : IsSVD A U s V)
    (k : ℤ) (hk : k ≤ (min m n : ℕ)) (K : ℕ) (hKk : (K : ℤ) ≤ k) (p : ℤ) (hp : 2 ≤ p) (blk : ℕ) (hblk : 0 < blk)
    (hdvd : (K : ℤ) = k ∨ blk ∣ K)
    (W : ℕ) (hW : W = if p = 2 then K else min blk K) (t : ℕ) (ht : t ≤ r) (htk : t + 2 ≤ W) (τ : ℝ)
    (hτ : ∀ (i : Fin r) (j : Fin t), t ≤ i.1 → s i ≤ τ * s (Fin.castLE ht j)) (u : ℝ) (hu : 0 < u) (δ : ℝ) (hδ : 0 < δ)
    (hbound : tailSq s t * (1 + τ ^ (2 * (p - 2).toNat) * (t / ((W : ℝ) - t - 1))) ≤ δ * (u * fro A) ^ 2) :
    ∃ E : Set (Draws (startRows (p - 2) m n) (blockWidths K blk)), normalSeq _ _ E ≤ ENNReal.ofReal δ ∧
      ∀ Zs ∉ E, ∀ (G : Type) (la : LinAlg) (R : NpRng G) (ow : Bool) (w : World G), NextDraws R _ w.rng Zs →
        ∃ (out : QBOut m n) (A' : Matrix (Fin m) (Fin n) ℝ) (w' : World G),
          qbB la (gaussianOperator R true) p blk ow A k (.val u) w = .ok ((out, A'), w') ∧ out.c ≤ K ∧
          fro (A - out.Q * out.B) ≤ u * fro A ∧
          (numPasses w'.trace : ℤ) ≤ numPasses w.trace + p * ⌈(K : ℚ) / blk⌉ := by
  have hWK : W ≤ K := by rw [hW]; split <;> omega
  obtain ⟨g, h0, h1, h2, h3⟩ := C65_qb_b A hA K K (by omega) p hp blk hblk W hW t ht htk τ hτ
  have : IsProbabilityMeasure stdNormal := by unfold stdNormal; infer_instance
  obtain ⟨E, hE, h4⟩ := exceptional h0 h1 h2 hδ h3
  refine ⟨E, hE, fun Zs hZs G la R ow w hw => ?_⟩
  obtain ⟨h5, h6⟩ := h4 Zs hZs
  obtain ⟨out, A', w', e1, e2, e3⟩ := h5 G la R ow (.val u) w hw
  have hrf : RFShape (RF1 la (RS1 (gaussianOperator R true) (p - 2) (orth la) 1)) m n := C05_rf1_shape la _ _ _ (Or.inl rfl) _
  have hc : out.c ≤ K := by
    have := (C05_qb2_exit la _ hrf blk hblk ow A (by omega) K _ w w' out A' e1).1
    omega
  have hmet : fro (A - out.Q * out.B) ≤ u * fro A := by
    rcases e2 with e2 | ⟨u', e, -, e2⟩
    · have h7 := (e3 e2).trans h6
      have h8 : fro (A - out.Q * out.B) ^ 2 ≤ (u * fro A) ^ 2 := h7.trans (by rw [div_le_iff₀ hδ]; linarith [hbound])
      exact (pow_le_pow_iff_left₀ (fro_nonneg _) (mul_nonneg hu.le (fro_nonneg A)) two_ne_zero).1 h8
    · cases e; exact e2
  obtain ⟨g1, g2⟩ := stops (by omega) hKk hk hdvd hu e1 hmet hc
  exact ⟨out, A', w', g1, hc, hmet, g2⟩

/-- **C91** (not many more, exponentially small failure probability). -/
theorem C91_qb_b_tail (A : Matrix (Fin m) (Fin n) ℝ)
    {U : Matrix (Fin m) (Fin r) ℝ} {s : Fin r → ℝ} {V : Matrix (Fin n) (Fin r) ℝ} (hA : IsSVD A U s V)
    (k : ℤ) (hk : k ≤ (min m n : ℕ)) (K : ℕ) (hK0 : 0 < K) (hKk : (K : ℤ) ≤ k) (p : ℤ) (hp : 2 ≤ p) (blk : ℕ)
    (hblk : 0 < blk) (hdvd : (K : ℤ) = k ∨ blk ∣ K)
    (W : ℕ) (hW : W = if p = 2 then K else min blk K) (t : ℕ) (ht : t ≤ r) (htk : t ≤ W) (τ : ℝ)
    (hτ : ∀ (i : Fin r) (j : Fin t), t ≤ i.1 → s i ≤ τ * s (Fin.castLE ht j)) (u : ℝ) (hu : 0 < u)
    (ε : ℝ) (hε : 0 ≤ ε) (hε1 : ε < 1)
    (hbound : tailSq s t * (1 + τ ^ (2 * (p - 2).toNat) * ((1 + ε / 2) / (1 - ε))) ≤ (u * fro A) ^ 2) :
    ∃ E : Set (Draws (startRows (p - 2) m n) (blockWidths K blk)),
      normalSeq _ _ E ≤ ENNReal.ofReal (3 * 9 ^ t * Real.exp (-(W * ε ^ 2 / 32))) ∧
      ∀ Zs ∉ E, ∀ (G : Type) (la : LinAlg) (R : NpRng G) (ow : Bool) (w : World G), NextDraws R _ w.rng Zs →
        ∃ (out : QBOut m n) (A' : Matrix (Fin m) (Fin n) ℝ) (w' : World G),
          qbB la (gaussianOperator R true) p blk ow A k (.val u) w = .ok ((out, A'), w') ∧ out.c ≤ K ∧
          fro (A - out.Q * out.B) ≤ u * fro A ∧
          (numPasses w'.trace : ℤ) ≤ numPasses w.trace + p * ⌈(K : ℚ) / blk⌉ := by
  obtain ⟨E, hE, h4⟩ := C78_qb_b A hA K K (by omega) hK0 p hp blk hblk W hW t ht htk τ hτ ε hε hε1
  refine ⟨E, hE, fun Zs hZs G la R ow w hw => ?_⟩
  obtain ⟨out, A', w', e1, e2, e3⟩ := h4 Zs hZs G la R ow (.val u) w hw
  have hrf : RFShape (RF1 la (RS1 (gaussianOperator R true) (p - 2) (orth la) 1)) m n := C05_rf1_shape la _ _ _ (Or.inl rfl) _
  have hc : out.c ≤ K := by
    have := (C05_qb2_exit la _ hrf blk hblk ow A (by omega) K _ w w' out A' e1).1
    omega
  have hmet : fro (A - out.Q * out.B) ≤ u * fro A := by
    rcases e2 with e2 | ⟨u', e, -, e2⟩
    · exact (pow_le_pow_iff_left₀ (fro_nonneg _) (mul_nonneg hu.le (fro_nonneg A)) two_ne_zero).1 ((e3 e2).trans hbound)
    · cases e; exact e2
  obtain ⟨g1, g2⟩ := stops hK0 hKk hk hdvd hu e1 hmet hc
  exact ⟨out, A', w', g1, hc, hmet, g2⟩

/-- **C91** (`svd1`).  Under the same conditions `svd1` without oversampling, with target `k ≥ K` and tolerance `u`, returns
within the tolerance (up to the singular values below `10 eps` that it drops), with at most `K` components and at most
`p ⌈K/blk⌉` passes over `A`. -/
theorem C91_svd1 (A : Matrix (Fin m) (Fin n) ℝ)
    {U : Matrix (Fin m) (Fin r) ℝ} {s : Fin r → ℝ} {V : Matrix (Fin n) (Fin r) ℝ} (hA : IsSVD A U s V)
    (k : ℕ) (hk : k ≤ min m n) (K : ℕ) (hKk : K ≤ k) (p : ℤ) (hp : 2 ≤ p) (blk : ℕ) (hblk : 0 < blk)
    (hdvd : K = k ∨ blk ∣ K)
    (W : ℕ) (hW : W = if p = 2 then K else min blk K) (t : ℕ) (ht : t ≤ r) (htk : t + 2 ≤ W) (τ : ℝ)
    (hτ : ∀ (i : Fin r) (j : Fin t), t ≤ i.1 → s i ≤ τ * s (Fin.castLE ht j)) (u : ℝ) (hu : 0 < u) (δ : ℝ) (hδ : 0 < δ)
    (hbound : tailSq s t * (1 + τ ^ (2 * (p - 2).toNat) * (t / ((W : ℝ) - t - 1))) ≤ δ * (u * fro A) ^ 2) :
    ∃ E : Set (Draws (startRows (p - 2) m n) (blockWidths K blk)), normalSeq _ _ E ≤ ENNReal.ofReal δ ∧
      ∀ Zs ∉ E, ∀ (G : Type) (la : LinAlg) (R : NpRng G) (w : World G), NextDraws R _ w.rng Zs →
        ∃ (out : SVDOut m n) (w' : World G),
          svd1 la (gaussianOperator R true) A k 0 (.val u) p blk w = .ok (out, w') ∧ out.r ≤ K ∧
          fro (A - out.U * diagonal out.s * out.Vh) ≤ u * fro A + 10 * eps * K ∧
          (numPasses w'.trace : ℤ) ≤ numPasses w.trace + p * ⌈(K : ℚ) / blk⌉ := by
  obtain ⟨E, hE, h⟩ := C91_qb_b A hA (k : ℤ) (by exact_mod_cast hk) K (by exact_mod_cast hKk) p hp blk hblk
    (hdvd.imp_left fun h => by exact_mod_cast h) W hW t ht htk τ hτ u hu δ hδ hbound
  refine ⟨E, hE, fun Zs hZs G la R w hw => ?_⟩
  obtain ⟨qbo, A', w', e1, e2, e3, e4⟩ := h Zs hZs G la R false w hw
  have hqb : QB2 la (RF1 la (RS1 (gaussianOperator R true) (p - 2) (orth la) 1)) blk false m n A
      ((k + 0 : ℕ) : ℤ) (.val u) w = .ok (qbo, w') := by
    unfold QB2
    rw [Py.bind_eq_of_ok (show qb2Call _ _ _ _ A ((k + 0 : ℕ) : ℤ) (.val u) w = _ from e1)]; rfl
  obtain ⟨r', hr, hcall, -⟩ := svd1_open la _ A k (.val u) 0 w w' _ hqb
  obtain ⟨out, hout, -, he⟩ := C13_svd1_tolerance la _ A k (.val u) w w' _ hqb
  have hWK : W ≤ K := by rw [hW]; split <;> omega
  have hun : ∀ (out : QBOut m n) (A' : Matrix (Fin m) (Fin n) ℝ),
      qbB la (gaussianOperator R true) p blk false A k (.val u) w = .ok ((out, A'), w') → ∃ st : QB2St m n,
      qb2Run la (RF1 la (RS1 (gaussianOperator R true) (p - 2) (orth la) 1)) blk A k (.val u) w = .ok (st, w') ∧
      out = ⟨st.c, st.Q, st.B⟩ := by
    intro out A' h
    unfold qbB qb2Call at h
    rw [Py.bind_ok_iff] at h
    obtain ⟨st, w1, h1, h⟩ := h
    cases h
    exact ⟨st, h1, rfl⟩
  obtain ⟨st, hrun, rfl⟩ := hun _ _ e1
  refine ⟨out, w', hout, ?_, (he (C06_qb2_unconditional la _ blk A (by omega) _ _ w w' st hrun).1).trans ?_, e4⟩
  · rw [hcall] at hout
    cases hout
    exact hr.trans ((min_le_left _ _).trans e2)
  · refine add_le_add e3 ?_
    exact mul_le_mul_of_nonneg_left (by exact_mod_cast e2) (by have := eps_pos; positivity)

/-- The hypotheses are met: singular values `100, 1, ..., 1` (400 of them) and tolerance 1/2.  With blocks of 20 columns and
three passes, except with probability 1/6 the first block is enough, whatever larger target is given. -/
example : ∃ E : Set (Draws (startRows (3 - 2) 400 400) (blockWidths 20 20)), normalSeq _ _ E ≤ ENNReal.ofReal (1 / 6) ∧
    ∀ Zs ∉ E, ∀ (G : Type) (la : LinAlg) (R : NpRng G) (ow : Bool) (w : World G), NextDraws R _ w.rng Zs →
      ∃ (out : QBOut 400 400) (A' : Matrix (Fin 400) (Fin 400) ℝ) (w' : World G),
        qbB la (gaussianOperator R true) 3 20 ow (diagonal demoTailS) 400 (.val (1 / 2)) w = .ok ((out, A'), w') ∧
        out.c ≤ 20 ∧ fro (diagonal demoTailS - out.Q * out.B) ≤ 1 / 2 * fro (diagonal demoTailS) ∧
        (numPasses w'.trace : ℤ) ≤ numPasses w.trace + 3 * ⌈((20 : ℕ) : ℚ) / (20 : ℕ)⌉ := by
  obtain ⟨h1, -, h3, -, -, h6, h7⟩ := demoTail_facts
  refine C91_qb_b _ h1 400 (by norm_num) 20 (by norm_num) 3 (by norm_num) 20 (by norm_num) (Or.inr dvd_rfl) 20 (by norm_num) 1
    (by norm_num) (by norm_num) (1 / 100) h3 (1 / 2) (by norm_num) (1 / 6) (by norm_num) ?_
  rw [mul_pow, fro_sq, h6, h7]
  norm_num

end Parla.Props
