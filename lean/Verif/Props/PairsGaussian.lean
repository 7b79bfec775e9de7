import Verif.Props.Pairs
import Verif.Props.Expected

/-! # C93 for `svd1` and `evd1` with their Gaussian sketches -/

namespace Parla.Props

open Matrix Parla Spec MeasureTheory
open Parla.Proof

variable {m n r : ℕ}

/-- what a run of `svd1` with Gaussian sketches consists of, and the bound on the error of its QB step -/
theorem svd1_gaussian_run (A : Matrix (Fin m) (Fin n) ℝ)
    {U : Matrix (Fin m) (Fin r) ℝ} {s : Fin r → ℝ} {V : Matrix (Fin n) (Fin r) ℝ} (hA : IsSVD A U s V)
    (k over K : ℕ) (hK : K = min (k + over) (min m n)) (p : ℤ) (hp : 2 ≤ p) (blk : ℕ) (hblk : 0 < blk)
    (W : ℕ) (hW : W = if p = 2 then K else min blk K) (t : ℕ) (ht : t ≤ r) (htk : t + 2 ≤ W) (τ : ℝ)
    (hτ : ∀ (i : Fin r) (j : Fin t), t ≤ i.1 → s i ≤ τ * s (Fin.castLE ht j))
    (hone : K ≤ blk ∨ k + over ≤ A.rank) :
    ∃ g : Proof.Draws (startRows (p - 2) m n) (blockWidths K blk) → ℝ,
      (∀ Z, 0 ≤ g Z) ∧ Integrable g (normalSeq _ _) ∧
      ∫ Z, g Z ∂(normalSeq _ _) = tailSq s t * (1 + τ ^ (2 * (p - 2).toNat) * (t / ((W : ℝ) - t - 1))) ∧
      ∀ᵐ Zs ∂(normalSeq _ _), ∀ (G : Type) (la : LinAlg) (R : NpRng G) (w : World G),
        NextDraws R _ w.rng Zs →
        ∃ (qbo : QBOut m n) (out : SVDOut m n) (w' : World G),
          QB2 la (RF1 la (RS1 (gaussianOperator R true) (p - 2) (orth la) 1)) blk false m n A ((k + over : ℕ) : ℤ) .nan w =
            .ok (qbo, w') ∧ OrthoCols qbo.Q ∧ qbo.B = qbo.Qᵀ * A ∧ qbo.c ≤ k + over ∧
          svd1 la (gaussianOperator R true) A k over .nan p blk w = .ok (out, w') ∧ fro (A - qbo.Q * qbo.B) ^ 2 ≤ g Zs := by
  have hWK : W ≤ K := by rw [hW]; split <;> omega
  have hKi : K = min ((k + over : ℕ) : ℤ).toNat (min m n) := by rw [Int.toNat_natCast, hK]
  obtain ⟨g, h0, h1, h2, h3⟩ := qb2_expected A hA ((k + over : ℕ) : ℤ) K hKi (p - 2) (by omega) blk hblk W
    (hW.trans (if_congr (by omega) rfl rfl)) t ht htk τ hτ
  refine ⟨g, h0, h1, h2, ?_⟩
  have hae := qb2Run_ae A (by omega) ((k + over : ℕ) : ℤ) (by omega) (p - 2) (by omega) blk hblk
  rw [← hKi] at hae
  filter_upwards [h3, hae] with Zs hZ hZs G la R w hw
  obtain ⟨st, w', e1, e2⟩ := hZs G la R .nan w hw
  have hcon := run_conclusions la _ (p - 2) blk hblk A (by omega) _ (by omega) .nan w w' st e1 e2
  have hcK : st.c = K := by
    rcases hcon.2.1 with h | ⟨u, hu, -⟩
    · omega
    · cases hu
  have hqb : QB2 la (RF1 la (RS1 (gaussianOperator R true) (p - 2) (orth la) 1)) blk false m n A
      ((k + over : ℕ) : ℤ) .nan w = .ok (⟨st.c, st.Q, st.B⟩, w') := by
    unfold QB2 qb2Call
    rw [Py.bind_eq_of_ok (Py.bind_eq_of_ok e1)]; rfl
  obtain ⟨hQ, hB⟩ := hcon.2.2.2.1 (by
    rcases hone with h | h
    · right; omega
    · left; exact_mod_cast h)
  have hcc : st.c ≤ k + over := by omega
  obtain ⟨out, g1, -⟩ := C12_svd1_valid la _ A k .nan over w w' _ hqb hQ hcc
  exact ⟨_, out, w', hqb, hQ, hB, hcc, g1, hZ G la R .nan w w' st hw e1 hcK⟩

/-- **C93** for `svd1(A, k, over, nan, p, blk, rng)` under the conditions of C65: there is a function `g` of the draws, with mean at
most the bound of C65 for the squared error of the sketch, such that almost surely the call returns and every value it returns is
below the singular value of `A` in the same position, with squares differing by at most `g`; the vectors satisfy `A'u = s v`
exactly and `|A v - s u|^2 <= g`. -/
theorem C93_svd1_gaussian (A : Matrix (Fin m) (Fin n) ℝ)
    {U : Matrix (Fin m) (Fin r) ℝ} {s : Fin r → ℝ} {V : Matrix (Fin n) (Fin r) ℝ} (hA : IsSVD A U s V)
    (k over K : ℕ) (hK : K = min (k + over) (min m n)) (p : ℤ) (hp : 2 ≤ p) (blk : ℕ) (hblk : 0 < blk)
    (W : ℕ) (hW : W = if p = 2 then K else min blk K) (t : ℕ) (ht : t ≤ r) (htk : t + 2 ≤ W) (τ : ℝ)
    (hτ : ∀ (i : Fin r) (j : Fin t), t ≤ i.1 → s i ≤ τ * s (Fin.castLE ht j))
    (hone : K ≤ blk ∨ k + over ≤ A.rank) :
    ∃ g : Proof.Draws (startRows (p - 2) m n) (blockWidths K blk) → ℝ,
      (∀ Z, 0 ≤ g Z) ∧ Integrable g (normalSeq _ _) ∧
      ∫ Z, g Z ∂(normalSeq _ _) = tailSq s t * (1 + τ ^ (2 * (p - 2).toNat) * (t / ((W : ℝ) - t - 1))) ∧
      ∀ᵐ Zs ∂(normalSeq _ _), ∀ (G : Type) (la : LinAlg) (R : NpRng G) (w : World G),
        NextDraws R _ w.rng Zs →
        ∃ (out : SVDOut m n) (w' : World G),
          svd1 la (gaussianOperator R true) A k over .nan p blk w = .ok (out, w') ∧
          (∀ i : Fin out.r, out.s i ≤ nth s i ∧ nth s i ^ 2 ≤ out.s i ^ 2 + g Zs ∧
            Aᵀ *ᵥ out.U.col i = out.s i • out.Vh.row i ∧ norm2 (A *ᵥ out.Vh.row i - out.s i • out.U.col i) ^ 2 ≤ g Zs) ∧
          ∀ i, out.r ≤ i → i < k → nth s i ^ 2 ≤ (10 * eps) ^ 2 + g Zs := by
  obtain ⟨g, h0, h1, h2, h3⟩ := svd1_gaussian_run A hA k over K hK p hp blk hblk W hW t ht htk τ hτ hone
  refine ⟨g, h0, h1, h2, ?_⟩
  filter_upwards [h3] with Zs hZ G la R w hw
  obtain ⟨qbo, out, w', hqb, hQ, hB, hcc, g1, hg⟩ := hZ G la R w hw
  obtain ⟨v1, -, v3⟩ := C93_svd1_vectors la _ A k .nan over w w' _ hqb hQ hB out g1
  obtain ⟨u1, u2⟩ := C93_svd1_values la _ A hA k .nan over w w' _ hqb hQ hB hcc out g1 _ (specNorm_fro _)
  refine ⟨out, w', g1, fun i => ⟨(u1 i).1, (u1 i).2.trans (add_le_add le_rfl hg), v1 i, ?_⟩,
    fun i hi hk => (u2 i hi hk).trans (add_le_add le_rfl hg)⟩
  exact (pow_le_pow_left₀ (norm2_nonneg _) (v3 _ (specNorm_fro _) i) 2).trans hg

/-- what a run of `evd1` with Gaussian sketches consists of, and the bound on the error of its QB step -/
theorem evd1_gaussian_run (A : Matrix (Fin n) (Fin n) ℝ) (hsym : Aᵀ = A)
    {U : Matrix (Fin n) (Fin r) ℝ} {s : Fin r → ℝ} {V : Matrix (Fin n) (Fin r) ℝ} (hA : IsSVD A U s V)
    (k over K : ℕ) (hk : 0 < k) (hk' : k ≤ n) (hK : K = min (k + over) n) (p : ℤ) (hp : 2 ≤ p) (blk : ℕ) (hblk : 0 < blk)
    (W : ℕ) (hW : W = if p = 2 then K else min blk K) (t : ℕ) (ht : t ≤ r) (htk : t + 2 ≤ W) (τ : ℝ)
    (hτ : ∀ (i : Fin r) (j : Fin t), t ≤ i.1 → s i ≤ τ * s (Fin.castLE ht j))
    (hone : K ≤ blk ∨ k + over ≤ A.rank) :
    ∃ g : Proof.Draws (startRows (p - 2) n n) (blockWidths K blk) → ℝ,
      (∀ Z, 0 ≤ g Z) ∧ Integrable g (normalSeq _ _) ∧
      ∫ Z, g Z ∂(normalSeq _ _) = tailSq s t * (1 + τ ^ (2 * (p - 2).toNat) * (t / ((W : ℝ) - t - 1))) ∧
      ∀ᵐ Zs ∂(normalSeq _ _), ∀ (G : Type) (la : LinAlg) (R : NpRng G) (w : World G),
        NextDraws R _ w.rng Zs →
        ∃ (qbo : QBOut n n) (out : EVDOut n) (w' : World G),
          QB2 la (RF1 la (RS1 (gaussianOperator R true) (p - 2) (orth la) 1)) blk false n n A ((k : ℤ) + over) (Tol.half .nan) w =
            .ok (qbo, w') ∧ OrthoCols qbo.Q ∧ qbo.B = qbo.Qᵀ * A ∧
          evd1Call la (QB2 la (RF1 la (RS1 (gaussianOperator R true) (p - 2) (orth la) 1)) blk false) A k .nan over w =
            .ok (out, w') ∧
          evd1 la (gaussianOperator R true) A k .nan over p blk w = .ok (out, w') ∧ fro (A - qbo.Q * qbo.B) ^ 2 ≤ g Zs := by
  have hWK : W ≤ K := by rw [hW]; split <;> omega
  have hn : 0 < min n n := by omega
  have hKi : K = min ((k + over : ℕ) : ℤ).toNat (min n n) := by rw [Int.toNat_natCast, hK, min_self]
  obtain ⟨g, h0, h1, h2, h3⟩ := qb2_expected A hA ((k + over : ℕ) : ℤ) K hKi (p - 2) (by omega) blk hblk W
    (hW.trans (if_congr (by omega) rfl rfl)) t ht htk τ hτ
  refine ⟨g, h0, h1, h2, ?_⟩
  have hae := qb2Run_ae A hn ((k + over : ℕ) : ℤ) (by omega) (p - 2) (by omega) blk hblk
  rw [← hKi] at hae
  filter_upwards [h3, hae] with Zs hZ hZs G la R w hw
  obtain ⟨st, w', e1, e2⟩ := hZs G la R .nan w hw
  have hcon := run_conclusions la _ (p - 2) blk hblk A hn _ (by omega) .nan w w' st e1 e2
  have hcK : st.c = K := by
    rcases hcon.2.1 with h | ⟨u, hu, -⟩
    · omega
    · cases hu
  have hqb : QB2 la (RF1 la (RS1 (gaussianOperator R true) (p - 2) (orth la) 1)) blk false n n A
      ((k : ℤ) + over) (Tol.half .nan) w = .ok (⟨st.c, st.Q, st.B⟩, w') := by
    unfold QB2 qb2Call
    rw [← Nat.cast_add, show Tol.half .nan = .nan from rfl, Py.bind_eq_of_ok (Py.bind_eq_of_ok e1)]; rfl
  obtain ⟨hQ, hB⟩ := hcon.2.2.2.1 (by
    rcases hone with h | h
    · right; omega
    · left; exact_mod_cast h)
  obtain ⟨out, g1, -⟩ := C14_evd1_valid la _ A hsym k (by omega) (by omega) .nan (Or.inl rfl) over w w' _ hqb hQ hB
  refine ⟨_, out, w', hqb, hQ, hB, g1, ?_, hZ G la R .nan w w' st hw e1 hcK⟩
  unfold evd1
  rw [Py.assert_pos_bind hp]; exact g1

/-- **C93** for `evd1(A, k, nan, over, p, blk, rng)` on a symmetric `A`, under the conditions of C65: with `g` as for `svd1`, almost
surely the call returns; the magnitude of each value it returns is at most the one in the same position of `A` and
at least that minus `sqrt(2 g)`; each pair misses being an eigenpair by at most `sqrt(g)`, and there is an eigenvalue of `A` within
`sqrt(g)` of each value. -/
theorem C93_evd1_gaussian (A : Matrix (Fin n) (Fin n) ℝ) (hsym : Aᵀ = A)
    {U : Matrix (Fin n) (Fin r) ℝ} {s : Fin r → ℝ} {V : Matrix (Fin n) (Fin r) ℝ} (hA : IsSVD A U s V)
    (k over K : ℕ) (hk : 0 < k) (hk' : k ≤ n) (hK : K = min (k + over) n) (p : ℤ) (hp : 2 ≤ p) (blk : ℕ) (hblk : 0 < blk)
    (W : ℕ) (hW : W = if p = 2 then K else min blk K) (t : ℕ) (ht : t ≤ r) (htk : t + 2 ≤ W) (τ : ℝ)
    (hτ : ∀ (i : Fin r) (j : Fin t), t ≤ i.1 → s i ≤ τ * s (Fin.castLE ht j))
    (hone : K ≤ blk ∨ k + over ≤ A.rank) :
    ∃ g : Proof.Draws (startRows (p - 2) n n) (blockWidths K blk) → ℝ,
      (∀ Z, 0 ≤ g Z) ∧ Integrable g (normalSeq _ _) ∧
      ∫ Z, g Z ∂(normalSeq _ _) = tailSq s t * (1 + τ ^ (2 * (p - 2).toNat) * (t / ((W : ℝ) - t - 1))) ∧
      ∀ᵐ Zs ∂(normalSeq _ _), ∀ (G : Type) (la : LinAlg) (R : NpRng G) (w : World G),
        NextDraws R _ w.rng Zs →
        ∃ (out : EVDOut n) (w' : World G),
          evd1 la (gaussianOperator R true) A k .nan over p blk w = .ok (out, w') ∧
          (∀ i : Fin out.r, |out.lamb i| ≤ nth s i ∧ nth s i ≤ |out.lamb i| + √2 * √(g Zs) ∧
            norm2 (A *ᵥ out.V.col i - out.lamb i • out.V.col i) ≤ √(g Zs) ∧
            ∀ (X : Matrix (Fin n) (Fin n) ℝ) (mu : Fin n → ℝ), IsEVD A X mu → ∃ j, |mu j - out.lamb i| ≤ √(g Zs)) ∧
          ∀ i, out.r ≤ i → i < k → nth s i ≤ 10 * eps + √2 * √(g Zs) := by
  obtain ⟨g, h0, h1, h2, h3⟩ := evd1_gaussian_run A hsym hA k over K hk hk' hK p hp blk hblk W hW t ht htk τ hτ hone
  refine ⟨g, h0, h1, h2, ?_⟩
  filter_upwards [h3] with Zs hZ G la R w hw
  obtain ⟨qbo, out, w', hqb, hQ, hB, g1, g2, hg'⟩ := hZ G la R w hw
  have hg : fro (A - qbo.Q * qbo.B) ≤ √(g Zs) := Real.le_sqrt_of_sq_le hg'
  have hsp : SpecNormLE (A - qbo.Q * qbo.B) √(g Zs) := fun x =>
    (specNorm_fro _ x).trans (mul_le_mul_of_nonneg_right hg (norm2_nonneg x))
  obtain ⟨-, -, v3⟩ := C93_evd1_vectors la _ A hsym k .nan over w w' _ hqb hQ hB out g1
  obtain ⟨u1, u2⟩ := C93_evd1_values la _ A hsym hA k .nan over w w' _ hqb hQ hB out g1 _ (Real.sqrt_nonneg _) hsp
  exact ⟨out, w', g2, fun i => ⟨(u1 i).1, (u1 i).2, v3 _ hsp i⟩, fun i hi hk => u2 i hi (by omega)⟩

end Parla.Props
