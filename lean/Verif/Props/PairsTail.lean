import Verif.Props.PairsGaussian
import Verif.Props.LowRankTail
import Verif.Props.Angles

/-! # C93 and C94 for `svd1` and `evd1` with their Gaussian sketches, outside an exceptional set of small probability -/

namespace Parla.Props

open Matrix Parla Spec MeasureTheory
open Parla.Proof

variable {m n r : ℕ}

/-- what a run of `svd1` with Gaussian sketches consists of, outside the exceptional set of C78 -/
theorem svd1_tail_run (A : Matrix (Fin m) (Fin n) ℝ)
    {U : Matrix (Fin m) (Fin r) ℝ} {s : Fin r → ℝ} {V : Matrix (Fin n) (Fin r) ℝ} (hA : IsSVD A U s V)
    (k over K : ℕ) (hK : K = min (k + over) (min m n)) (hK0 : 0 < K) (p : ℤ) (hp : 2 ≤ p) (blk : ℕ) (hblk : 0 < blk)
    (W : ℕ) (hW : W = if p = 2 then K else min blk K) (t : ℕ) (ht : t ≤ r) (htk : t ≤ W) (τ : ℝ)
    (hτ : ∀ (i : Fin r) (j : Fin t), t ≤ i.1 → s i ≤ τ * s (Fin.castLE ht j))
    (hone : K ≤ blk ∨ k + over ≤ A.rank) (ε : ℝ) (h0 : 0 ≤ ε) (h1 : ε < 1) :
    ∃ E : Set (Proof.Draws (startRows (p - 2) m n) (blockWidths K blk)),
      normalSeq _ _ E ≤ ENNReal.ofReal (3 * 9 ^ t * Real.exp (-(W * ε ^ 2 / 32))) ∧
      ∀ Zs ∉ E, ∀ (G : Type) (la : LinAlg) (R : NpRng G) (w : World G), NextDraws R _ w.rng Zs →
        ∃ (qbo : QBOut m n) (out : SVDOut m n) (w' : World G),
          QB2 la (RF1 la (RS1 (gaussianOperator R true) (p - 2) (orth la) 1)) blk false m n A ((k + over : ℕ) : ℤ) .nan w =
            .ok (qbo, w') ∧ OrthoCols qbo.Q ∧ qbo.B = qbo.Qᵀ * A ∧ qbo.c ≤ k + over ∧
          svd1 la (gaussianOperator R true) A k over .nan p blk w = .ok (out, w') ∧
          fro (A - qbo.Q * qbo.B) ^ 2 ≤ tailSq s t * (1 + τ ^ (2 * (p - 2).toNat) * ((1 + ε / 2) / (1 - ε))) := by
  have hKi : K = min ((k + over : ℕ) : ℤ).toNat (min m n) := by rw [Int.toNat_natCast, hK]
  obtain ⟨E, hE, h3⟩ := qb2_tail A hA ((k + over : ℕ) : ℤ) K hKi hK0 (p - 2) (by omega) blk hblk W
    (hW.trans (if_congr (by omega) rfl rfl)) t ht htk τ hτ ε h0 h1
  refine ⟨E, hE, fun Zs hZs G la R w hw => ?_⟩
  obtain ⟨st, w', e1, -, e3, e4, e5⟩ := h3 Zs hZs G la R .nan w hw
  have hcK : st.c = K := by
    rcases e3 with h | ⟨u, hu, -⟩
    · omega
    · cases hu
  have hqb : QB2 la (RF1 la (RS1 (gaussianOperator R true) (p - 2) (orth la) 1)) blk false m n A
      ((k + over : ℕ) : ℤ) .nan w = .ok (⟨st.c, st.Q, st.B⟩, w') := by
    unfold QB2 qb2Call
    rw [Py.bind_eq_of_ok (Py.bind_eq_of_ok e1)]; rfl
  obtain ⟨hQ, hB⟩ := e4 (by
    rcases hone with h | h
    · right; exact h
    · left; exact_mod_cast h)
  have hcc : st.c ≤ k + over := by omega
  obtain ⟨out, g1, -⟩ := C12_svd1_valid la _ A k .nan over w w' _ hqb hQ hcc
  have := e5 hcK
  unfold sketchCost at this
  exact ⟨_, out, w', hqb, hQ, hB, hcc, g1, this⟩

/-- **C93** for `svd1(A, k, over, nan, p, blk, rng)` under the conditions of C78, with `g` the bound of C78 for the squared error of
the QB step: outside an exceptional set of draws of probability at most `3 * 9^t * exp(-W ε²/32)`, fixed in advance, the
call returns, every value it returns is below the singular value of `A` in the same position with squares differing by at most `g`,
and the vectors satisfy `A'u = s v` exactly and `|A v - s u|² ≤ g`. -/
theorem C93_svd1_tail (A : Matrix (Fin m) (Fin n) ℝ)
    {U : Matrix (Fin m) (Fin r) ℝ} {s : Fin r → ℝ} {V : Matrix (Fin n) (Fin r) ℝ} (hA : IsSVD A U s V)
    (k over K : ℕ) (hK : K = min (k + over) (min m n)) (hK0 : 0 < K) (p : ℤ) (hp : 2 ≤ p) (blk : ℕ) (hblk : 0 < blk)
    (W : ℕ) (hW : W = if p = 2 then K else min blk K) (t : ℕ) (ht : t ≤ r) (htk : t ≤ W) (τ : ℝ)
    (hτ : ∀ (i : Fin r) (j : Fin t), t ≤ i.1 → s i ≤ τ * s (Fin.castLE ht j))
    (hone : K ≤ blk ∨ k + over ≤ A.rank) (ε : ℝ) (h0 : 0 ≤ ε) (h1 : ε < 1) (g : ℝ)
    (hg : g = tailSq s t * (1 + τ ^ (2 * (p - 2).toNat) * ((1 + ε / 2) / (1 - ε)))) :
    ∃ E : Set (Proof.Draws (startRows (p - 2) m n) (blockWidths K blk)),
      normalSeq _ _ E ≤ ENNReal.ofReal (3 * 9 ^ t * Real.exp (-(W * ε ^ 2 / 32))) ∧
      ∀ Zs ∉ E, ∀ (G : Type) (la : LinAlg) (R : NpRng G) (w : World G), NextDraws R _ w.rng Zs →
        ∃ (out : SVDOut m n) (w' : World G),
          svd1 la (gaussianOperator R true) A k over .nan p blk w = .ok (out, w') ∧
          (∀ i : Fin out.r, out.s i ≤ nth s i ∧ nth s i ^ 2 ≤ out.s i ^ 2 + g ∧
            Aᵀ *ᵥ out.U.col i = out.s i • out.Vh.row i ∧ norm2 (A *ᵥ out.Vh.row i - out.s i • out.U.col i) ^ 2 ≤ g) ∧
          ∀ i, out.r ≤ i → i < k → nth s i ^ 2 ≤ (10 * eps) ^ 2 + g := by
  obtain ⟨E, hE, h3⟩ := svd1_tail_run A hA k over K hK hK0 p hp blk hblk W hW t ht htk τ hτ hone ε h0 h1
  refine ⟨E, hE, fun Zs hZs G la R w hw => ?_⟩
  obtain ⟨qbo, out, w', hqb, hQ, hB, hcc, g1, hgg⟩ := h3 Zs hZs G la R w hw
  rw [← hg] at hgg
  obtain ⟨v1, -, v3⟩ := C93_svd1_vectors la _ A k .nan over w w' _ hqb hQ hB out g1
  obtain ⟨u1, u2⟩ := C93_svd1_values la _ A hA k .nan over w w' _ hqb hQ hB hcc out g1 _ (specNorm_fro _)
  refine ⟨out, w', g1, fun i => ⟨(u1 i).1, (u1 i).2.trans (add_le_add le_rfl hgg), v1 i, ?_⟩,
    fun i hi hk => (u2 i hi hk).trans (add_le_add le_rfl hgg)⟩
  exact (pow_le_pow_left₀ (norm2_nonneg _) (v3 _ (specNorm_fro _) i) 2).trans hgg

/-- what a run of `evd1` with Gaussian sketches consists of, outside the exceptional set of C78 -/
theorem evd1_tail_run (A : Matrix (Fin n) (Fin n) ℝ) (hsym : Aᵀ = A)
    {U : Matrix (Fin n) (Fin r) ℝ} {s : Fin r → ℝ} {V : Matrix (Fin n) (Fin r) ℝ} (hA : IsSVD A U s V)
    (k over K : ℕ) (hk : 0 < k) (hk' : k ≤ n) (hK : K = min (k + over) n) (p : ℤ) (hp : 2 ≤ p) (blk : ℕ) (hblk : 0 < blk)
    (W : ℕ) (hW : W = if p = 2 then K else min blk K) (t : ℕ) (ht : t ≤ r) (htk : t ≤ W) (τ : ℝ)
    (hτ : ∀ (i : Fin r) (j : Fin t), t ≤ i.1 → s i ≤ τ * s (Fin.castLE ht j))
    (hone : K ≤ blk ∨ k + over ≤ A.rank) (ε : ℝ) (h0 : 0 ≤ ε) (h1 : ε < 1) :
    ∃ E : Set (Proof.Draws (startRows (p - 2) n n) (blockWidths K blk)),
      normalSeq _ _ E ≤ ENNReal.ofReal (3 * 9 ^ t * Real.exp (-(W * ε ^ 2 / 32))) ∧
      ∀ Zs ∉ E, ∀ (G : Type) (la : LinAlg) (R : NpRng G) (w : World G), NextDraws R _ w.rng Zs →
        ∃ (qbo : QBOut n n) (out : EVDOut n) (w' : World G),
          QB2 la (RF1 la (RS1 (gaussianOperator R true) (p - 2) (orth la) 1)) blk false n n A ((k : ℤ) + over) (Tol.half .nan) w =
            .ok (qbo, w') ∧ OrthoCols qbo.Q ∧ qbo.B = qbo.Qᵀ * A ∧
          evd1Call la (QB2 la (RF1 la (RS1 (gaussianOperator R true) (p - 2) (orth la) 1)) blk false) A k .nan over w =
            .ok (out, w') ∧
          evd1 la (gaussianOperator R true) A k .nan over p blk w = .ok (out, w') ∧
          fro (A - qbo.Q * qbo.B) ^ 2 ≤ tailSq s t * (1 + τ ^ (2 * (p - 2).toNat) * ((1 + ε / 2) / (1 - ε))) := by
  have hn : 0 < min n n := by omega
  have hKi : K = min ((k + over : ℕ) : ℤ).toNat (min n n) := by rw [Int.toNat_natCast, hK, min_self]
  obtain ⟨E, hE, h3⟩ := qb2_tail A hA ((k + over : ℕ) : ℤ) K hKi (by omega) (p - 2) (by omega) blk hblk W
    (hW.trans (if_congr (by omega) rfl rfl)) t ht htk τ hτ ε h0 h1
  refine ⟨E, hE, fun Zs hZs G la R w hw => ?_⟩
  obtain ⟨st, w', e1, -, e3, e4, e5⟩ := h3 Zs hZs G la R .nan w hw
  have hcK : st.c = K := by
    rcases e3 with h | ⟨u, hu, -⟩
    · omega
    · cases hu
  have hqb : QB2 la (RF1 la (RS1 (gaussianOperator R true) (p - 2) (orth la) 1)) blk false n n A
      ((k : ℤ) + over) (Tol.half .nan) w = .ok (⟨st.c, st.Q, st.B⟩, w') := by
    unfold QB2 qb2Call
    rw [← Nat.cast_add, show Tol.half .nan = .nan from rfl, Py.bind_eq_of_ok (Py.bind_eq_of_ok e1)]; rfl
  obtain ⟨hQ, hB⟩ := e4 (by
    rcases hone with h | h
    · right; exact h
    · left; exact_mod_cast h)
  obtain ⟨out, g1, -⟩ := C14_evd1_valid la _ A hsym k (by omega) (by omega) .nan (Or.inl rfl) over w w'
    _ hqb hQ hB
  have h5 := e5 hcK
  unfold sketchCost at h5
  refine ⟨_, out, w', hqb, hQ, hB, g1, ?_, h5⟩
  unfold evd1
  rw [Py.assert_pos_bind hp]; exact g1

/-- **C93** for `evd1(A, k, nan, over, p, blk, rng)` on a symmetric `A`, under the conditions of C78 and with the same
exceptional probability. -/
theorem C93_evd1_tail (A : Matrix (Fin n) (Fin n) ℝ) (hsym : Aᵀ = A)
    {U : Matrix (Fin n) (Fin r) ℝ} {s : Fin r → ℝ} {V : Matrix (Fin n) (Fin r) ℝ} (hA : IsSVD A U s V)
    (k over K : ℕ) (hk : 0 < k) (hk' : k ≤ n) (hK : K = min (k + over) n) (p : ℤ) (hp : 2 ≤ p) (blk : ℕ) (hblk : 0 < blk)
    (W : ℕ) (hW : W = if p = 2 then K else min blk K) (t : ℕ) (ht : t ≤ r) (htk : t ≤ W) (τ : ℝ)
    (hτ : ∀ (i : Fin r) (j : Fin t), t ≤ i.1 → s i ≤ τ * s (Fin.castLE ht j))
    (hone : K ≤ blk ∨ k + over ≤ A.rank) (ε : ℝ) (h0 : 0 ≤ ε) (h1 : ε < 1) (g : ℝ)
    (hg : g = √(tailSq s t * (1 + τ ^ (2 * (p - 2).toNat) * ((1 + ε / 2) / (1 - ε))))) :
    ∃ E : Set (Proof.Draws (startRows (p - 2) n n) (blockWidths K blk)),
      normalSeq _ _ E ≤ ENNReal.ofReal (3 * 9 ^ t * Real.exp (-(W * ε ^ 2 / 32))) ∧
      ∀ Zs ∉ E, ∀ (G : Type) (la : LinAlg) (R : NpRng G) (w : World G), NextDraws R _ w.rng Zs →
        ∃ (out : EVDOut n) (w' : World G),
          evd1 la (gaussianOperator R true) A k .nan over p blk w = .ok (out, w') ∧
          (∀ i : Fin out.r, |out.lamb i| ≤ nth s i ∧ nth s i ≤ |out.lamb i| + √2 * g ∧
            norm2 (A *ᵥ out.V.col i - out.lamb i • out.V.col i) ≤ g ∧
            ∀ (X : Matrix (Fin n) (Fin n) ℝ) (mu : Fin n → ℝ), IsEVD A X mu → ∃ j, |mu j - out.lamb i| ≤ g) ∧
          ∀ i, out.r ≤ i → i < k → nth s i ≤ 10 * eps + √2 * g := by
  obtain ⟨E, hE, h3⟩ := evd1_tail_run A hsym hA k over K hk hk' hK p hp blk hblk W hW t ht htk τ hτ hone ε h0 h1
  refine ⟨E, hE, fun Zs hZs G la R w hw => ?_⟩
  obtain ⟨qbo, out, w', hqb, hQ, hB, g1, g2, h5⟩ := h3 Zs hZs G la R w hw
  have hgg : fro (A - qbo.Q * qbo.B) ≤ g := hg ▸ Real.le_sqrt_of_sq_le h5
  have hsp : SpecNormLE (A - qbo.Q * qbo.B) g := fun x =>
    (specNorm_fro _ x).trans (mul_le_mul_of_nonneg_right hgg (norm2_nonneg x))
  have hg0 : 0 ≤ g := hg ▸ Real.sqrt_nonneg _
  obtain ⟨-, -, v3⟩ := C93_evd1_vectors la _ A hsym k .nan over w w' _ hqb hQ hB out g1
  obtain ⟨u1, u2⟩ := C93_evd1_values la _ A hsym hA k .nan over w w' _ hqb hQ hB out g1 _ hg0 hsp
  exact ⟨out, w', g2, fun i => ⟨(u1 i).1, (u1 i).2, v3 _ hsp i⟩, fun i hi hk => u2 i hi (by omega)⟩

/-- **C94** for `svd1` under the conditions of C78: with `g` the bound of C78 for the squared error of the QB step, outside the
exceptional set: wherever the squares of the singular values of `A` drop by more than `g`, the leading vectors returned are near the
span of the leading singular vectors. -/
theorem C94_svd1_tail (A : Matrix (Fin m) (Fin n) ℝ)
    {U : Matrix (Fin m) (Fin r) ℝ} {s : Fin r → ℝ} {V : Matrix (Fin n) (Fin r) ℝ} (hA : IsSVD A U s V)
    (k over K : ℕ) (hK : K = min (k + over) (min m n)) (hK0 : 0 < K) (p : ℤ) (hp : 2 ≤ p) (blk : ℕ) (hblk : 0 < blk)
    (W : ℕ) (hW : W = if p = 2 then K else min blk K) (t : ℕ) (ht : t ≤ r) (htk : t ≤ W) (τ : ℝ)
    (hτ : ∀ (i : Fin r) (j : Fin t), t ≤ i.1 → s i ≤ τ * s (Fin.castLE ht j))
    (hone : K ≤ blk ∨ k + over ≤ A.rank) (ε : ℝ) (h0 : 0 ≤ ε) (h1 : ε < 1) (g : ℝ)
    (hg : g = tailSq s t * (1 + τ ^ (2 * (p - 2).toNat) * ((1 + ε / 2) / (1 - ε)))) :
    ∃ E : Set (Proof.Draws (startRows (p - 2) m n) (blockWidths K blk)),
      normalSeq _ _ E ≤ ENNReal.ofReal (3 * 9 ^ t * Real.exp (-(W * ε ^ 2 / 32))) ∧
      ∀ Zs ∉ E, ∀ (G : Type) (la : LinAlg) (R : NpRng G) (w : World G), NextDraws R _ w.rng Zs →
        ∃ (out : SVDOut m n) (w' : World G),
          svd1 la (gaussianOperator R true) A k over .nan p blk w = .ok (out, w') ∧
          ∀ q, nth s q ^ 2 + g < nth s (q - 1) ^ 2 → ∀ i : Fin out.r, i.1 < q →
            NearSpan V {j | j.1 < q} (out.Vh.row i) (nth s q * √g / (nth s (q - 1) ^ 2 - nth s q ^ 2 - g)) ∧
            NearSpan U {j | j.1 < q} (out.U.col i) (nth s (q - 1) * √g / (nth s (q - 1) ^ 2 - nth s q ^ 2 - g)) := by
  obtain ⟨E, hE, h3⟩ := svd1_tail_run A hA k over K hK hK0 p hp blk hblk W hW t ht htk τ hτ hone ε h0 h1
  refine ⟨E, hE, fun Zs hZs G la R w hw => ?_⟩
  obtain ⟨qbo, out, w', hqb, hQ, hB, hc, hout, hgg⟩ := h3 Zs hZs G la R w hw
  rw [← hg] at hgg
  refine ⟨out, w', hout, fun q hq i hi => ?_⟩
  have hgs : √g ^ 2 = g := Real.sq_sqrt ((sq_nonneg _).trans hgg)
  have := C94_svd1_leading la _ A hA k .nan over w w' qbo hqb hQ hB hc out hout √g
    (fun x => (specNorm_fro _ x).trans (mul_le_mul_of_nonneg_right (Real.le_sqrt_of_sq_le hgg) (norm2_nonneg x))) q
    (by rw [hgs]; exact hq) i hi
  rw [hgs] at this
  exact this

/-- **C94** for `evd1` on a symmetric `A`, under the conditions of C78 and with the same exceptional probability. -/
theorem C94_evd1_tail (A : Matrix (Fin n) (Fin n) ℝ) (hsym : Aᵀ = A)
    {U : Matrix (Fin n) (Fin r) ℝ} {s : Fin r → ℝ} {V : Matrix (Fin n) (Fin r) ℝ} (hA : IsSVD A U s V)
    (k over K : ℕ) (hk : 0 < k) (hk' : k ≤ n) (hK : K = min (k + over) n) (p : ℤ) (hp : 2 ≤ p) (blk : ℕ) (hblk : 0 < blk)
    (W : ℕ) (hW : W = if p = 2 then K else min blk K) (t : ℕ) (ht : t ≤ r) (htk : t ≤ W) (τ : ℝ)
    (hτ : ∀ (i : Fin r) (j : Fin t), t ≤ i.1 → s i ≤ τ * s (Fin.castLE ht j))
    (hone : K ≤ blk ∨ k + over ≤ A.rank) (ε : ℝ) (h0 : 0 ≤ ε) (h1 : ε < 1) (g : ℝ)
    (hg : g = √(tailSq s t * (1 + τ ^ (2 * (p - 2).toNat) * ((1 + ε / 2) / (1 - ε))))) :
    ∃ E : Set (Proof.Draws (startRows (p - 2) n n) (blockWidths K blk)),
      normalSeq _ _ E ≤ ENNReal.ofReal (3 * 9 ^ t * Real.exp (-(W * ε ^ 2 / 32))) ∧
      ∀ Zs ∉ E, ∀ (G : Type) (la : LinAlg) (R : NpRng G) (w : World G), NextDraws R _ w.rng Zs →
        ∃ (out : EVDOut n) (w' : World G),
          evd1 la (gaussianOperator R true) A k .nan over p blk w = .ok (out, w') ∧
          ∀ (X : Matrix (Fin n) (Fin n) ℝ) (mu : Fin n → ℝ), IsEVD A X mu → ∀ (i : Fin out.r) (gap : ℝ), 0 < gap →
            ∀ S : Set (Fin n), (∀ j, j ∉ S → gap ≤ |mu j - out.lamb i|) → NearSpan X S (out.V.col i) (g / gap) := by
  obtain ⟨E, hE, h3⟩ := evd1_tail_run A hsym hA k over K hk hk' hK p hp blk hblk W hW t ht htk τ hτ hone ε h0 h1
  refine ⟨E, hE, fun Zs hZs G la R w hw => ?_⟩
  obtain ⟨qbo, out, w', hqb, hQ, hB, g1, g2, h5⟩ := h3 Zs hZs G la R w hw
  have hgg : fro (A - qbo.Q * qbo.B) ≤ g := hg ▸ Real.le_sqrt_of_sq_le h5
  have hsp : SpecNormLE (A - qbo.Q * qbo.B) g := fun x =>
    (specNorm_fro _ x).trans (mul_le_mul_of_nonneg_right hgg (norm2_nonneg x))
  exact ⟨out, w', g2, fun X mu hE i gap hgap S hS => C94_evd1 la _ A hsym k .nan over w w' qbo hqb hQ hB out g1 X mu hE _
    hsp i gap hgap S hS⟩

/-- The hypotheses are met by `diag(100, 1, ..., 1)` of order 400 with `k = 250`, `over = 50` and three passes: outside a set of
draws of probability at most `27 exp(-5.2)` the leading right singular vector is within 1/100 of the span of the first one. -/
example : ∃ E : Set (Proof.Draws (startRows (3 - 2) 400 400) (blockWidths 300 300)),
    normalSeq _ _ E ≤ ENNReal.ofReal (3 * 9 ^ 1 * Real.exp (-(((300 : ℕ) : ℝ) * (3 / 4) ^ 2 / 32))) ∧
    ∀ Zs ∉ E, ∀ (G : Type) (la : LinAlg) (R : NpRng G) (w : World G), NextDraws R _ w.rng Zs →
      ∃ (out : SVDOut 400 400) (w' : World G),
        svd1 la (gaussianOperator R true) (diagonal demoTailS) 250 50 .nan 3 300 w = .ok (out, w') ∧
        ∀ i : Fin out.r, i.1 < 1 → NearSpan 1 {j : Fin 400 | j.1 < 1} (out.Vh.row i) (1 / 100) := by
  obtain ⟨f1, f2, f3, f4, f5, f6, f7⟩ := demoTail_facts
  obtain ⟨E, hE, h⟩ := C94_svd1_tail (diagonal demoTailS) f1 250 50 300 (by norm_num) (by norm_num) 3 (by norm_num) 300
    (by norm_num) 300 (by norm_num) 1 (by norm_num) (by norm_num) (1 / 100) f3 (Or.inl le_rfl) (3 / 4) (by norm_num)
    (by norm_num) _ rfl
  refine ⟨E, hE, fun Zs hZs G la R w hw => ?_⟩
  obtain ⟨out, w', e1, e2⟩ := h Zs hZs G la R w hw
  refine ⟨out, w', e1, fun i hi => ?_⟩
  have hg : tailSq demoTailS 1 * (1 + (1 / 100) ^ (2 * (3 - 2 : ℤ).toNat) * ((1 + (3 / 4) / 2) / (1 - 3 / 4))) < 400 := f5
  generalize tailSq demoTailS 1 * (1 + (1 / 100) ^ (2 * (3 - 2 : ℤ).toNat) * ((1 + (3 / 4) / 2) / (1 - 3 / 4))) = g at *
  have n0 : nth demoTailS 0 = 100 := by simp [nth, demoTailS]
  have n1 : nth demoTailS 1 = 1 := by simp [nth, demoTailS]
  have h3 := (e2 1 (by rw [n1, Nat.sub_self, n0]; linarith) i hi).1
  obtain ⟨y, h4, h5⟩ := h3
  refine ⟨y, h4, h5.trans ?_⟩
  rw [n1, Nat.sub_self, n0, div_le_div_iff₀ (by linarith) (by norm_num)]
  have : √g ≤ 20 := Real.sqrt_le_iff.2 ⟨by norm_num, by linarith⟩
  linarith

end Parla.Props
