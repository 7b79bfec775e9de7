import Verif.Props.Angles
import Verif.Base.LinAlgExists

/-! # C93 and C94: a run with two different signs, a missed direction and a known error -/

namespace Parla.Props

open Matrix Parla Spec
open Parla.Proof

variable {G : Type}

/-- eigenvalues `2` and `-1` -/
def pairsA : Matrix (Fin 2) (Fin 2) ℝ := diagonal ![2, -1]

/-- a QB step that keeps the first coordinate only -/
def firstQB : QBDecomposer G := fun m _ A _ _ =>
  pure ⟨min 1 m, Matrix.of fun (i : Fin m) (j : Fin (min 1 m)) => if i.1 = j.1 then 1 else 0,
    (Matrix.of fun (i : Fin m) (j : Fin (min 1 m)) => if i.1 = j.1 then (1 : ℝ) else 0)ᵀ * A⟩

theorem pairs_facts (k : ℤ) (tol : Tol) (w : World G) :
    ∃ qbo : QBOut 2 2, firstQB 2 2 pairsA k tol w = .ok (qbo, w) ∧ OrthoCols qbo.Q ∧ qbo.B = qbo.Qᵀ * pairsA ∧ qbo.c = 1 ∧
      SpecNormLE (pairsA - qbo.Q * qbo.B) 1 := by
  refine ⟨_, rfl, ?_, rfl, rfl, ?_⟩
  · ext i j
    fin_cases i; fin_cases j
    simp [Matrix.mul_apply, Fin.sum_univ_two]
  · intro x
    have : pairsA - (Matrix.of fun (i : Fin 2) (j : Fin (min 1 2)) => if i.1 = j.1 then (1 : ℝ) else 0) *
        ((Matrix.of fun (i : Fin 2) (j : Fin (min 1 2)) => if i.1 = j.1 then (1 : ℝ) else 0)ᵀ * pairsA) = diagonal ![0, -1] := by
      have hu : ∀ f : Fin (min 1 2) → ℝ, ∑ j, f j = f ⟨0, by decide⟩ := fun f => Fin.sum_univ_one f
      ext i j
      fin_cases i <;> fin_cases j <;> simp [pairsA, Matrix.mul_apply, Fin.sum_univ_two, hu]
    rw [this, one_mul]
    refine Real.sqrt_le_sqrt ?_
    simp [sqNorm, Fin.sum_univ_two, mulVec_diagonal]
    positivity

theorem pairs_svd : IsSVD pairsA 1 ![2, 1] (diagonal ![1, -1]) := by
  refine ⟨by simp [OrthoCols], ?_, ?_, ?_, ?_⟩
  · show (diagonal ![1, -1])ᵀ * diagonal ![(1 : ℝ), -1] = 1
    rw [diagonal_transpose, diagonal_mul_diagonal, ← diagonal_one]
    congr 1; funext i; fin_cases i <;> simp
  · intro i; fin_cases i <;> simp
  · intro i j hij
    fin_cases i <;> fin_cases j <;> simp at hij ⊢
  · rw [diagonal_transpose, Matrix.one_mul, diagonal_mul_diagonal]
    unfold pairsA
    congr 1; funext i; fin_cases i <;> simp

theorem pairs_evd : IsEVD pairsA 1 ![2, -1] := by
  refine ⟨by simp [OrthoCols], ?_, by simp [pairsA]⟩
  intro i j hij
  fin_cases i <;> fin_cases j <;> simp at hij ⊢
  norm_num

private theorem tiny : (10 * eps : ℝ) < 1 / 2 := by unfold eps; norm_num

/-- `SVD1` with `k = 2`: exactly one value is returned, between `sqrt 3` and `2` -/
example (w : World G) : ∃ out : SVDOut 2 2, svd1Call LinAlg.ref firstQB pairsA 2 .nan 0 w = .ok (out, w) ∧
    ∃ i, out.s i ≤ 2 ∧ 4 ≤ out.s i ^ 2 + 1 := by
  obtain ⟨qbo, h1, h2, h3, h4, h5⟩ := pairs_facts ((2 + 0 : ℕ) : ℤ) .nan w
  obtain ⟨out, g1, -⟩ := C12_svd1_valid LinAlg.ref firstQB pairsA 2 .nan 0 w w qbo h1 h2 (by omega)
  obtain ⟨u1, u2⟩ := C93_svd1_values LinAlg.ref _ pairsA pairs_svd 2 .nan 0 w w _ h1 h2 h3 (by omega) out g1 1 h5
  have ht := tiny
  have he : (0 : ℝ) < eps := by unfold eps; positivity
  have hne : 0 < out.r := by
    by_contra h
    have := u2 0 (by omega) (by norm_num)
    simp [nth] at this
    nlinarith
  refine ⟨out, g1, ⟨0, hne⟩, ?_⟩
  have := u1 ⟨0, hne⟩
  simp [nth] at this
  exact ⟨this.1, by linarith [this.2]⟩

/-- `EVD1` with `k = 2`: there is a value, its magnitude is between `2 - sqrt 2` and `2`, and the interlacing counts hold -/
example (w : World G) : ∃ out : EVDOut 2, evd1Call LinAlg.ref firstQB pairsA 2 .nan 0 w = .ok (out, w) ∧
    (∃ i, |out.lamb i| ≤ 2 ∧ 2 ≤ |out.lamb i| + √2) ∧
    Nat.card {i // 2 ≤ out.lamb i} ≤ Nat.card {j // (2 : ℝ) ≤ ![2, -1] j} := by
  have hs : pairsAᵀ = pairsA := diagonal_transpose _
  obtain ⟨qbo, h1, h2, h3, h4, h5⟩ := pairs_facts ((2 : ℤ) + (0 : ℕ)) (Tol.half .nan) w
  obtain ⟨out, g1, -⟩ := C14_evd1_valid LinAlg.ref firstQB pairsA hs 2 (by norm_num) (by norm_num) .nan (Or.inl rfl) 0 w w qbo h1 h2 h3
  obtain ⟨u1, u2⟩ := C93_evd1_values LinAlg.ref _ pairsA hs pairs_svd 2 .nan 0 w w _ h1 h2 h3 out g1 1 zero_le_one h5
  have ht := tiny
  have hr2 : √2 < (3 : ℝ) / 2 := by rw [Real.sqrt_lt' (by norm_num)]; norm_num
  have hne : 0 < out.r := by
    by_contra h
    have := u2 0 (by omega) (by decide)
    simp [nth] at this
    linarith
  refine ⟨out, g1, ⟨⟨0, hne⟩, ?_⟩, (C93_evd1_interlacing LinAlg.ref _ pairsA hs 2 .nan 0 w w _ h1 h2 h3 out g1 _ _ pairs_evd 2).1⟩
  have := u1 ⟨0, hne⟩
  simp [nth] at this
  exact this

/-- C94 for `SVD1`: `2^2` exceeds `1^2` by more than the squared error `1`, so with `t = 1` the vectors are near the leading ones -/
example (w : World G) : ∃ out : SVDOut 2 2, svd1Call LinAlg.ref firstQB pairsA 2 .nan 0 w = .ok (out, w) ∧
    ∀ i : Fin out.r, i.1 < 1 → NearSpan (1 : Matrix (Fin 2) (Fin 2) ℝ) {0} (out.U.col i) 1 := by
  obtain ⟨qbo, h1, h2, h3, h4, h5⟩ := pairs_facts ((2 + 0 : ℕ) : ℤ) .nan w
  obtain ⟨out, g1, -⟩ := C12_svd1_valid LinAlg.ref firstQB pairsA 2 .nan 0 w w qbo h1 h2 (by omega)
  refine ⟨out, g1, fun i hi => ?_⟩
  have := (C94_svd1_leading LinAlg.ref _ pairsA pairs_svd 2 .nan 0 w w _ h1 h2 h3 (by omega) out g1 1 h5 1
    (by simp [nth]; norm_num) i hi).2
  simp [nth] at this
  norm_num at this
  exact this

/-- C94 for `EVD1`: the eigenvalues `2` and `-1` are further apart than the error `1` -/
example (w : World G) : ∃ out : EVDOut 2, evd1Call LinAlg.ref firstQB pairsA 2 .nan 0 w = .ok (out, w) ∧
    ∀ i : Fin out.r, ∃ j, |(![2, -1] : Fin 2 → ℝ) j - out.lamb i| ≤ 1 ∧ NearSpan (1 : Matrix (Fin 2) (Fin 2) ℝ) {j} (out.V.col i) (1 / 2) := by
  have hs : pairsAᵀ = pairsA := diagonal_transpose _
  obtain ⟨qbo, h1, h2, h3, h4, h5⟩ := pairs_facts ((2 : ℤ) + (0 : ℕ)) (Tol.half .nan) w
  obtain ⟨out, g1, -⟩ := C14_evd1_valid LinAlg.ref firstQB pairsA hs 2 (by norm_num) (by norm_num) .nan (Or.inl rfl) 0 w w qbo h1 h2 h3
  refine ⟨out, g1, fun i => ?_⟩
  have := C94_evd1_simple LinAlg.ref _ pairsA hs 2 .nan 0 w w _ h1 h2 h3 out g1 _ _ pairs_evd 1 h5 3 (by norm_num) (fun j l hjl => by
    fin_cases j <;> fin_cases l <;> simp at hjl ⊢ <;> norm_num) i
  rw [show (3 : ℝ) - 1 = 2 by norm_num] at this
  exact this

/-- `EVD2` on `diag(2, 1, 0)` with `k = 1`: the value returned is at most `2` up to the regularisation -/
example (w : World G) : ∃ (out : EVDOut 3) (w' : World G),
    evd2Call LinAlg.ref coordSketcher (diagonal ![2, 1, 0]) 1 .nan 0 w = .ok (out, w') ∧
    IsEVD (diagonal ![(2 : ℝ), 1, 0]) 1 ![2, 1, 0] ∧ IsPSD (diagonal ![(2 : ℝ), 1, 0]) := by
  have hA : IsPSD (diagonal ![(2 : ℝ), 1, 0]) := by
    refine ⟨by simp, fun x => ?_⟩
    simp only [dotProduct, Fin.sum_univ_three, mulVec_diagonal]
    simp
    nlinarith [sq_nonneg (x 0), sq_nonneg (x 1)]
  obtain ⟨out, w', h⟩ := C16_evd2_returns LinAlg.ref (coordSketcher (G := G)) (diagonal ![2, 1, 0]) hA 1 one_pos (by norm_num) .nan 0 w
    _ _ rfl (by
      rw [fullColRank_iff_inj]
      intro x hx
      funext j
      have hj : j.1 < 1 := j.2
      have := congrFun hx ⟨j.1, by omega⟩
      simp only [mulVec, dotProduct, of_apply, Pi.zero_apply] at this
      rw [Finset.sum_eq_single j] at this
      · simpa using this
      · intro b _ hb
        rw [if_neg (fun e => hb (Fin.ext e.symm)), zero_mul]
      · intro h; exact absurd (Finset.mem_univ j) h) (by simp) (by
      intro h
      have := congrFun (congrFun h 0) ⟨0, by simp⟩
      simp [Matrix.mul_apply] at this)
  refine ⟨out, w', h, ⟨by simp [OrthoCols], ?_, by simp⟩, hA⟩
  intro i j hij
  fin_cases i <;> fin_cases j <;> simp at hij ⊢

end Parla.Props
