import Verif.Proof.Angles
import Verif.Props.PairsGaussian

/-! # C94: the directions that the low-rank drivers return -/

namespace Parla.Props

open Matrix Parla Spec MeasureTheory
open Parla.Proof

variable {G : Type} {m n r : ℕ}

private theorem sq_of_norm {k : ℕ} {x : Fin k → ℝ} {e : ℝ} (h : norm2 x ≤ e) : sqNorm x ≤ e ^ 2 := by
  rw [← norm2_sq]; exact pow_le_pow_left₀ (norm2_nonneg _) h 2

/-- **C94** (`SVD1`, leading subspace).  Let `sig` be the singular values of `A`, `e` a bound on the spectral norm of the error of the
QB step, and `t > 0` a position where the squares of the singular values drop by more than `e^2`.  The first `t` right vectors
returned are within `sig_t e / (sig_{t-1}^2 - sig_t^2 - e^2)` of combinations of the `t` leading right singular vectors of `A`,
and the first `t` left vectors within `sig_{t-1} e / (sig_{t-1}^2 - sig_t^2 - e^2)` (positions counted from 0). -/
theorem C94_svd1_leading (la : LinAlg) (qb : QBDecomposer G) (A : Matrix (Fin m) (Fin n) ℝ)
    {U : Matrix (Fin m) (Fin r) ℝ} {sig : Fin r → ℝ} {V : Matrix (Fin n) (Fin r) ℝ} (hA : IsSVD A U sig V)
    (k : ℕ) (tol : Tol) (over : ℕ)
    (w w' : World G) (qbo : QBOut m n) (hqb : qb m n A ((k + over : ℕ) : ℤ) tol w = .ok (qbo, w'))
    (hQ : OrthoCols qbo.Q) (hB : qbo.B = qbo.Qᵀ * A) (hc : qbo.c ≤ k + over) (out : SVDOut m n)
    (h : svd1Call la qb A k tol over w = .ok (out, w')) (e : ℝ) (he : SpecNormLE (A - qbo.Q * qbo.B) e)
    (t : ℕ) (hgap : nth sig t ^ 2 + e ^ 2 < nth sig (t - 1) ^ 2) (i : Fin out.r) (hi : i.1 < t) :
    NearSpan V {j | j.1 < t} (out.Vh.row i) (nth sig t * e / (nth sig (t - 1) ^ 2 - nth sig t ^ 2 - e ^ 2)) ∧
    NearSpan U {j | j.1 < t} (out.U.col i) (nth sig (t - 1) * e / (nth sig (t - 1) ^ 2 - nth sig t ^ 2 - e ^ 2)) := by
  obtain ⟨v1, -, v3⟩ := C93_svd1_vectors la qb A k tol over w w' qbo hqb hQ hB out h
  obtain ⟨u1, -⟩ := C93_svd1_values la qb A hA k tol over w w' qbo hqb hQ hB hc out h e he
  obtain ⟨out', h1, -, -, -, -, h7, -⟩ := C12_svd1_valid la qb A k tol over w w' qbo hqb hQ hc
  rw [h1] at h
  cases h
  have heps : (0 : ℝ) < eps := by unfold eps; positivity
  have hs : 0 < out.s i := by have := h7 i; linarith
  have he0 : 0 ≤ e := (norm2_nonneg _).trans (v3 e he i)
  have hst : 0 ≤ nth sig t := nth_nonneg hA.nonneg
  have hsp : 0 ≤ nth sig (t - 1) := nth_nonneg hA.nonneg
  have hmono : nth sig (t - 1) ≤ nth sig i := by
    by_cases htr : t - 1 < r
    · rw [nth_of_lt htr, nth_of_lt (show i.1 < r by omega)]
      exact hA.anti (Fin.le_def.2 (by simp; omega))
    · rw [nth_of_le (by omega)]; exact nth_nonneg hA.nonneg
  have hp : nth sig (t - 1) ^ 2 ≤ out.s i ^ 2 + e ^ 2 := (pow_le_pow_left₀ hsp hmono 2).trans (u1 i).2
  have hcc : nth sig t ^ 2 < out.s i ^ 2 := by linarith
  have hres := sq_of_norm (v3 e he i)
  have hd1 : 0 < nth sig (t - 1) ^ 2 - nth sig t ^ 2 - e ^ 2 := by linarith
  constructor
  · obtain ⟨y, hy1, hy2⟩ := right_angle hA hs he0 (v1 i) hres t hcc
    refine ⟨y, hy1, hy2.trans ?_⟩
    rw [div_mul_eq_mul_div]
    exact div_le_div_of_nonneg_left (by positivity) hd1 (by linarith)
  · obtain ⟨y, hy1, hy2⟩ := left_angle hA hs he0 (v1 i) hres t hcc
    refine ⟨y, hy1, hy2.trans ?_⟩
    rw [mul_div_right_comm]
    exact mul_le_mul_of_nonneg_right (gap_le hs.le hsp (sq_nonneg _) hp hgap) he0

/-- **C94** (`SVD1`, any group of singular values).  If all singular values of `A` outside the group `S`, and zero, are at a
distance of at least `gap` from the value `s_i` returned, then the vectors returned with it are within `e / gap` of combinations
of the singular vectors of the group. -/
theorem C94_svd1_group (la : LinAlg) (qb : QBDecomposer G) (A : Matrix (Fin m) (Fin n) ℝ)
    {U : Matrix (Fin m) (Fin r) ℝ} {sig : Fin r → ℝ} {V : Matrix (Fin n) (Fin r) ℝ} (hA : IsSVD A U sig V)
    (k : ℕ) (tol : Tol) (over : ℕ)
    (w w' : World G) (qbo : QBOut m n) (hqb : qb m n A ((k + over : ℕ) : ℤ) tol w = .ok (qbo, w'))
    (hQ : OrthoCols qbo.Q) (hB : qbo.B = qbo.Qᵀ * A) (out : SVDOut m n)
    (h : svd1Call la qb A k tol over w = .ok (out, w')) (e : ℝ) (he : SpecNormLE (A - qbo.Q * qbo.B) e)
    (i : Fin out.r) (gap : ℝ) (hg : 0 < gap) (hgs : gap ≤ out.s i) (S : Set (Fin r)) (hS : ∀ j, j ∉ S → gap ≤ |sig j - out.s i|) :
    NearSpan V S (out.Vh.row i) (e / gap) ∧ NearSpan U S (out.U.col i) (e / gap) := by
  obtain ⟨v1, -, v3⟩ := C93_svd1_vectors la qb A k tol over w w' qbo hqb hQ hB out h
  exact both_angle hA ((norm2_nonneg _).trans (v3 e he i)) (v1 i) (sq_of_norm (v3 e he i)) S hg hgs hS

/-- **C94** (`EVD1`).  For symmetric `A`: if all eigenvalues of `A` outside the group `S` are at a distance of at least `gap` from the
value `lamb_i` returned, then the vector returned with it is within `e / gap` of a combination of the eigenvectors of the group. -/
theorem C94_evd1 (la : LinAlg) (qb : QBDecomposer G) (A : Matrix (Fin n) (Fin n) ℝ)
    (hA : Aᵀ = A) (k : ℤ) (tol : Tol) (over : ℕ) (w w' : World G) (qbo : QBOut n n)
    (hqb : qb n n A (k + over) tol.half w = .ok (qbo, w')) (hQ : OrthoCols qbo.Q) (hB : qbo.B = qbo.Qᵀ * A)
    (out : EVDOut n) (h : evd1Call la qb A k tol over w = .ok (out, w')) (W : Matrix (Fin n) (Fin n) ℝ) (mu : Fin n → ℝ)
    (hE : IsEVD A W mu) (e : ℝ) (he : SpecNormLE (A - qbo.Q * qbo.B) e)
    (i : Fin out.r) (gap : ℝ) (hg : 0 < gap) (S : Set (Fin n)) (hS : ∀ j, j ∉ S → gap ≤ |mu j - out.lamb i|) :
    NearSpan W S (out.V.col i) (e / gap) := by
  obtain ⟨-, -, v3⟩ := C93_evd1_vectors la qb A hA k tol over w w' qbo hqb hQ hB out h
  have := (v3 e he i).1
  exact eig_angle hE.orth hE.eq ((norm2_nonneg _).trans this) (sq_of_norm this) hg S hS

/-- **C94** (`EVD1`, isolated eigenvalue).  For symmetric `A`: each vector returned is within `e / (gap - e)` of a multiple of one
eigenvector of `A`, if every two eigenvalues of `A` are more than `gap > e` apart. -/
theorem C94_evd1_simple (la : LinAlg) (qb : QBDecomposer G) (A : Matrix (Fin n) (Fin n) ℝ)
    (hA : Aᵀ = A) (k : ℤ) (tol : Tol) (over : ℕ) (w w' : World G) (qbo : QBOut n n)
    (hqb : qb n n A (k + over) tol.half w = .ok (qbo, w')) (hQ : OrthoCols qbo.Q) (hB : qbo.B = qbo.Qᵀ * A)
    (out : EVDOut n) (h : evd1Call la qb A k tol over w = .ok (out, w')) (W : Matrix (Fin n) (Fin n) ℝ) (mu : Fin n → ℝ)
    (hE : IsEVD A W mu) (e : ℝ) (he : SpecNormLE (A - qbo.Q * qbo.B) e)
    (gap : ℝ) (hg : e < gap) (hS : ∀ j l, j ≠ l → gap ≤ |mu j - mu l|) (i : Fin out.r) :
    ∃ j, |mu j - out.lamb i| ≤ e ∧ NearSpan W {j} (out.V.col i) (e / (gap - e)) := by
  obtain ⟨-, -, v3⟩ := C93_evd1_vectors la qb A hA k tol over w w' qbo hqb hQ hB out h
  obtain ⟨j, hj⟩ := (v3 e he i).2 W mu hE
  refine ⟨j, hj, C94_evd1 la qb A hA k tol over w w' qbo hqb hQ hB out h W mu hE e he i _ (by linarith) _ fun l hl => ?_⟩
  have h1 := hS l j hl
  have h2 := abs_sub_le (mu l) (out.lamb i) (mu j)
  rw [abs_sub_comm (out.lamb i)] at h2
  linarith

/-- **C94** (`EVD2`).  As for `EVD1`, with `e` a bound on the spectral norm of the error `A - V diag(lamb) V'`. -/
theorem C94_evd2 (la : LinAlg) (skOp : RowSketcher G) (A : Matrix (Fin n) (Fin n) ℝ)
    (hA : IsPSD A) (k : ℤ) (tol : Tol) (over : ℕ) (w w' : World G) (out : EVDOut n)
    (h : evd2Call la skOp A k tol over w = .ok (out, w')) (W : Matrix (Fin n) (Fin n) ℝ) (mu : Fin n → ℝ) (hE : IsEVD A W mu)
    (e : ℝ) (he : SpecNormLE (A - out.V * diagonal out.lamb * out.Vᵀ) e) (i : Fin out.r) :
    norm2 (A *ᵥ out.V.col i - out.lamb i • out.V.col i) ≤ e ∧ (∃ j, |mu j - out.lamb i| ≤ e) ∧
    ∀ (gap : ℝ), 0 < gap → ∀ (S : Set (Fin n)), (∀ j, j ∉ S → gap ≤ |mu j - out.lamb i|) →
      NearSpan W S (out.V.col i) (e / gap) := by
  obtain ⟨-, -, S, w1, hS, -, hV, -⟩ := C16_evd2_psd la skOp A hA k tol over w w' out h
  have hV' : out.Vᵀ * out.V = 1 := hV
  have hcol : out.V.col i = out.V *ᵥ Pi.single i 1 := by rw [mulVec_single_one]
  have hone : sqNorm (out.V.col i) = 1 := by
    rw [hcol, sqNorm_orth_mulVec hV']; simp [sqNorm, Pi.single_apply]
  have hr : A *ᵥ out.V.col i - out.lamb i • out.V.col i = (A - out.V * diagonal out.lamb * out.Vᵀ) *ᵥ out.V.col i := by
    rw [sub_mulVec]
    congr 1
    rw [hcol, mulVec_mulVec, Matrix.mul_assoc, hV', Matrix.mul_one, ← mulVec_mulVec, ← mulVec_smul]
    congr 1
    funext l
    rw [mulVec_diagonal]
    by_cases hl : l = i
    · subst hl; simp
    · simp [hl]
  have h1 : norm2 (A *ᵥ out.V.col i - out.lamb i • out.V.col i) ≤ e := by
    rw [hr]
    refine (he _).trans ?_
    unfold norm2; rw [hone, Real.sqrt_one, mul_one]
  have he0 : 0 ≤ e := (norm2_nonneg _).trans h1
  exact ⟨h1, near_eigenvalue hE.orth hE.eq hone (sq_of_norm h1) he0, fun gap hg S hS =>
    eig_angle hE.orth hE.eq he0 (sq_of_norm h1) hg S hS⟩

/-- **C94** for `svd1(A, k, over, nan, p, blk, rng)` under the conditions of C65: with `g` a function of the draws whose mean is
the bound of C65, almost surely: wherever the squares of the singular values of `A` drop by more than `g`, the leading vectors
returned are near the span of the leading singular vectors. -/
theorem C94_svd1_gaussian (A : Matrix (Fin m) (Fin n) ℝ)
    {U : Matrix (Fin m) (Fin r) ℝ} {s : Fin r → ℝ} {V : Matrix (Fin n) (Fin r) ℝ} (hA : IsSVD A U s V)
    (k over K : ℕ) (hK : K = min (k + over) (min m n)) (p : ℤ) (hp : 2 ≤ p) (blk : ℕ) (hblk : 0 < blk)
    (W : ℕ) (hW : W = if p = 2 then K else min blk K) (t : ℕ) (ht : t ≤ r) (htk : t + 2 ≤ W) (τ : ℝ)
    (hτ : ∀ (i : Fin r) (j : Fin t), t ≤ i.1 → s i ≤ τ * s (Fin.castLE ht j))
    (hone : K ≤ blk ∨ k + over ≤ A.rank) :
    ∃ g : Proof.Draws (startRows (p - 2) m n) (blockWidths K blk) → ℝ,
      (∀ Z, 0 ≤ g Z) ∧ Integrable g (normalSeq _ _) ∧
      ∫ Z, g Z ∂(normalSeq _ _) = tailSq s t * (1 + τ ^ (2 * (p - 2).toNat) * (t / ((W : ℝ) - t - 1))) ∧
      ∀ᵐ Zs ∂(normalSeq _ _), ∀ (G : Type) (la : LinAlg) (R : NpRng G) (w : World G),
        NextDraws R _ w.rng Zs →
        ∃ (out : SVDOut m n) (w' : World G),
          svd1 la (gaussianOperator R true) A k over .nan p blk w = .ok (out, w') ∧
          ∀ q, nth s q ^ 2 + g Zs < nth s (q - 1) ^ 2 → ∀ i : Fin out.r, i.1 < q →
            NearSpan V {j | j.1 < q} (out.Vh.row i) (nth s q * √(g Zs) / (nth s (q - 1) ^ 2 - nth s q ^ 2 - g Zs)) ∧
            NearSpan U {j | j.1 < q} (out.U.col i) (nth s (q - 1) * √(g Zs) / (nth s (q - 1) ^ 2 - nth s q ^ 2 - g Zs)) := by
  obtain ⟨g, h0, h1, h2, h3⟩ := svd1_gaussian_run A hA k over K hK p hp blk hblk W hW t ht htk τ hτ hone
  refine ⟨g, h0, h1, h2, ?_⟩
  filter_upwards [h3] with Zs hZ G la R w hw
  obtain ⟨qbo, out, w', hqb, hQ, hB, hc, hout, hg⟩ := hZ G la R w hw
  refine ⟨out, w', hout, fun q hq i hi => ?_⟩
  have hgs : √(g Zs) ^ 2 = g Zs := Real.sq_sqrt (h0 Zs)
  have := C94_svd1_leading la _ A hA k .nan over w w' qbo hqb hQ hB hc out hout √(g Zs)
    (fun x => (specNorm_fro _ x).trans (mul_le_mul_of_nonneg_right (Real.le_sqrt_of_sq_le hg) (norm2_nonneg x))) q
    (by rw [hgs]; exact hq) i hi
  rw [hgs] at this
  exact this

/-- **C94** for `evd1(A, k, nan, over, p, blk, rng)` on a symmetric `A`, under the conditions of C65 and with `g` as there. -/
theorem C94_evd1_gaussian (A : Matrix (Fin n) (Fin n) ℝ) (hsym : Aᵀ = A)
    {U : Matrix (Fin n) (Fin r) ℝ} {s : Fin r → ℝ} {V : Matrix (Fin n) (Fin r) ℝ} (hA : IsSVD A U s V)
    (k over K : ℕ) (hk : 0 < k) (hk' : k ≤ n) (hK : K = min (k + over) n) (p : ℤ) (hp : 2 ≤ p) (blk : ℕ) (hblk : 0 < blk)
    (W : ℕ) (hW : W = if p = 2 then K else min blk K) (t : ℕ) (ht : t ≤ r) (htk : t + 2 ≤ W) (τ : ℝ)
    (hτ : ∀ (i : Fin r) (j : Fin t), t ≤ i.1 → s i ≤ τ * s (Fin.castLE ht j))
    (hone : K ≤ blk ∨ k + over ≤ A.rank) :
    ∃ g : Proof.Draws (startRows (p - 2) n n) (blockWidths K blk) → ℝ,
      (∀ Z, 0 ≤ g Z) ∧ Integrable g (normalSeq _ _) ∧
      ∫ Z, g Z ∂(normalSeq _ _) = tailSq s t * (1 + τ ^ (2 * (p - 2).toNat) * (t / ((W : ℝ) - t - 1))) ∧
      ∀ᵐ Zs ∂(normalSeq _ _), ∀ (G : Type) (la : LinAlg) (R : NpRng G) (w : World G),
        NextDraws R _ w.rng Zs →
        ∃ (out : EVDOut n) (w' : World G),
          evd1 la (gaussianOperator R true) A k .nan over p blk w = .ok (out, w') ∧
          ∀ (X : Matrix (Fin n) (Fin n) ℝ) (mu : Fin n → ℝ), IsEVD A X mu → ∀ (i : Fin out.r) (gap : ℝ), 0 < gap →
            ∀ S : Set (Fin n), (∀ j, j ∉ S → gap ≤ |mu j - out.lamb i|) → NearSpan X S (out.V.col i) (√(g Zs) / gap) := by
  obtain ⟨g, h0, h1, h2, h3⟩ := evd1_gaussian_run A hsym hA k over K hk hk' hK p hp blk hblk W hW t ht htk τ hτ hone
  refine ⟨g, h0, h1, h2, ?_⟩
  filter_upwards [h3] with Zs hZ G la R w hw
  obtain ⟨qbo, out, w', hqb, hQ, hB, hcall, hout, hg⟩ := hZ G la R w hw
  exact ⟨out, w', hout, fun X mu hE i gap hgap S hS => C94_evd1 la _ A hsym k .nan over w w' qbo hqb hQ hB out hcall X mu hE _
    (fun x => (specNorm_fro _ x).trans (mul_le_mul_of_nonneg_right (Real.le_sqrt_of_sq_le hg) (norm2_nonneg x))) i gap hgap S hS⟩

end Parla.Props
