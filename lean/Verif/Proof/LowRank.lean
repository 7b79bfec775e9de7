import Verif.SpecLowRank
import Verif.Proof.Stab
import Verif.Proof.Generic
import Verif.Base.LinAlgExists

/-! # Eckart-Young and the error of a sketched range -/

namespace Parla.Proof

open Matrix Parla Spec

variable {m n r k l c : ℕ}

theorem froSq_le_of_range {Q : Matrix (Fin m) (Fin c) ℝ} (hQ : Qᵀ * Q = 1) (A : Matrix (Fin m) (Fin n) ℝ)
    (W : Matrix (Fin c) (Fin n) ℝ) : froSq (A - Q * (Qᵀ * A)) ≤ froSq (A - Q * W) := by
  have h : (A - Q * (Qᵀ * A))ᵀ * (Q * (Qᵀ * A - W)) = 0 := by
    rw [transpose_sub, transpose_mul, transpose_mul, transpose_transpose, Matrix.sub_mul, Matrix.mul_assoc,
      ← Matrix.mul_assoc Qᵀ Q, hQ, Matrix.one_mul, Matrix.mul_assoc, sub_self]
  have h2 := froSq_add_of_orth h
  have e : A - Q * (Qᵀ * A) + Q * (Qᵀ * A - W) = A - Q * W := by
    rw [Matrix.mul_sub]; abel
  rw [e] at h2
  rw [h2]
  linarith [froSq_nonneg (Q * (Qᵀ * A - W))]

theorem froSq_le_of_colSpace {Q : Matrix (Fin m) (Fin c) ℝ} (hQ : Qᵀ * Q = 1)
    (A X : Matrix (Fin m) (Fin n) ℝ) (h : colSpace X ≤ colSpace Q) :
    froSq (A - Q * (Qᵀ * A)) ≤ froSq (A - X) := by
  obtain ⟨W, rfl⟩ := colSpace_le_iff.1 h
  exact froSq_le_of_range hQ A W

theorem froSq_orth {Q : Matrix (Fin m) (Fin c) ℝ} (hQ : Qᵀ * Q = 1) : froSq Q = c := by
  rw [froSq_eq_trace, hQ, trace_one, Fintype.card_fin]

theorem froSq_orth_transpose_mul_le {Q : Matrix (Fin m) (Fin c) ℝ} (hQ : Qᵀ * Q = 1)
    (M : Matrix (Fin m) (Fin n) ℝ) : froSq (Qᵀ * M) ≤ froSq M := by
  have := froSq_sub_proj hQ M
  linarith [froSq_nonneg (M - Q * (Qᵀ * M))]

theorem froSq_diag (s : Fin r → ℝ) : froSq (diagonal s) = ∑ i, s i ^ 2 := by
  unfold froSq
  refine Finset.sum_congr rfl fun i _ => ?_
  rw [Finset.sum_eq_single i]
  · simp
  · intro j _ hj; simp [diagonal_apply_ne s hj.symm]
  · simp

theorem svd_froSq {A : Matrix (Fin m) (Fin n) ℝ} {U : Matrix (Fin m) (Fin r) ℝ} {s : Fin r → ℝ}
    {V : Matrix (Fin n) (Fin r) ℝ} (h : IsSVD A U s V) : froSq A = ∑ i, s i ^ 2 := by
  rw [h.eq, froSq_mul_orth (V := Vᵀ) (by rw [transpose_transpose]; exact h.right),
    froSq_orth_mul h.left, froSq_diag]

/-- a weighted sum with weights in [0, 1] of total at most `k` is at most the sum of the `k` largest -/
theorem weighted_le (s c : Fin r → ℝ) (hs : ∀ i, 0 ≤ s i) (ha : Antitone s) (h0 : ∀ i, 0 ≤ c i)
    (h1 : ∀ i, c i ≤ 1) (k : ℕ) (hc : ∑ i, c i ≤ k) :
    ∑ i, c i * s i ^ 2 + tailSq s k ≤ ∑ i, s i ^ 2 := by
  by_cases hk : k < r
  · obtain ⟨t, ht⟩ : ∃ t, t = s ⟨k, hk⟩ ^ 2 := ⟨_, rfl⟩
    have ht0 : 0 ≤ t := by rw [ht]; positivity
    have key : ∀ i : Fin r, c i * s i ^ 2 + tail s k i ^ 2 ≤
        s i ^ 2 + t * (c i - if i.1 < k then 1 else 0) := by
      intro i
      unfold tail
      by_cases hi : i.1 < k
      · rw [if_pos hi, if_pos hi]
        have h2 : t ≤ s i ^ 2 := by
          rw [ht]; exact pow_le_pow_left₀ (hs _) (ha (Fin.mk_le_mk.2 hi.le)) 2
        nlinarith [h1 i]
      · rw [if_neg hi, if_neg hi]
        have h2 : s i ^ 2 ≤ t := by
          rw [ht]; exact pow_le_pow_left₀ (hs _) (ha (Fin.mk_le_mk.2 (by omega))) 2
        nlinarith [h0 i]
    have hsum := Finset.sum_le_sum fun i (_ : i ∈ Finset.univ) => key i
    rw [Finset.sum_add_distrib, Finset.sum_add_distrib, ← Finset.mul_sum, Finset.sum_sub_distrib] at hsum
    have hcount : ∑ i : Fin r, (if i.1 < k then (1 : ℝ) else 0) = k := by
      rw [Finset.sum_ite, Finset.sum_const_zero, add_zero, Finset.sum_const, nsmul_eq_mul, mul_one]
      congr 1
      rw [Fin.card_filter_val_lt]; omega
    rw [hcount] at hsum
    unfold tailSq
    nlinarith
  · have htail : tailSq s k = 0 := by
      unfold tailSq
      refine Finset.sum_eq_zero fun i _ => ?_
      unfold tail
      rw [if_pos (by omega)]; norm_num
    rw [htail, add_zero]
    refine Finset.sum_le_sum fun i _ => ?_
    nlinarith [h1 i, sq_nonneg (s i)]

theorem tailSq_anti (s : Fin r → ℝ) {a b : ℕ} (h : a ≤ b) : tailSq s b ≤ tailSq s a := by
  unfold tailSq
  refine Finset.sum_le_sum fun i _ => ?_
  unfold tail
  split <;> split
  · exact le_rfl
  · norm_num; positivity
  · omega
  · exact le_rfl

/-- **Eckart-Young** for projections onto the range of `k` orthonormal columns -/
theorem ey_proj {A : Matrix (Fin m) (Fin n) ℝ} {U : Matrix (Fin m) (Fin r) ℝ} {s : Fin r → ℝ}
    {V : Matrix (Fin n) (Fin r) ℝ} (h : IsSVD A U s V) {Q : Matrix (Fin m) (Fin k) ℝ} (hQ : Qᵀ * Q = 1) :
    tailSq s k ≤ froSq (A - Q * (Qᵀ * A)) := by
  rw [froSq_sub_proj hQ, svd_froSq h]
  have e : froSq (Qᵀ * A) = ∑ j, (∑ i, (Qᵀ * U) i j ^ 2) * s j ^ 2 := by
    rw [h.eq, ← Matrix.mul_assoc, ← Matrix.mul_assoc,
      froSq_mul_orth (V := Vᵀ) (by rw [transpose_transpose]; exact h.right)]
    unfold froSq
    rw [Finset.sum_comm]
    refine Finset.sum_congr rfl fun j _ => ?_
    rw [Finset.sum_mul]
    refine Finset.sum_congr rfl fun i _ => ?_
    rw [mul_diagonal, mul_pow]
  rw [e]
  have := weighted_le s (fun j => ∑ i, (Qᵀ * U) i j ^ 2) h.nonneg h.anti
    (fun j => Finset.sum_nonneg fun i _ => sq_nonneg _) (fun j => ?_) k ?_
  · linarith
  · have h1 := froSq_orth_transpose_mul_le hQ (U.submatrix id (fun _ : Fin 1 => j))
    have h2 : froSq (U.submatrix id (fun _ : Fin 1 => j)) = 1 := by
      have := congrFun (congrFun h.left j) j
      rw [mul_apply, one_apply_eq] at this
      unfold froSq
      simp only [submatrix_apply, id, Finset.univ_unique, Finset.sum_singleton]
      rw [← this]
      exact Finset.sum_congr rfl fun i _ => by rw [transpose_apply, sq]
    rw [h2] at h1
    refine le_trans (le_of_eq ?_) h1
    unfold froSq
    simp [mul_apply]
  · have h1 : froSq (Qᵀ * U) ≤ k := by
      rw [← froSq_transpose, transpose_mul, transpose_transpose, ← froSq_orth hQ]
      exact froSq_orth_transpose_mul_le h.left Q
    rw [Finset.sum_comm]; exact h1

theorem exists_orth_basis (X : Matrix (Fin m) (Fin n) ℝ) : ∃ (c : ℕ) (Q : Matrix (Fin m) (Fin c) ℝ),
    c ≤ X.rank ∧ Qᵀ * Q = 1 ∧ colSpace X ≤ colSpace Q := by
  obtain ⟨S, hS⟩ := exists_full_cols X le_rfl
  refine ⟨_, (LinAlg.ref.qr (X * S)).1, min_le_right _ _, LinAlg.ref.qr_orth _, ?_⟩
  have : colSpace (X * S) = colSpace X := by
    apply Submodule.eq_of_le_of_finrank_le (colSpace_mul_le _ _)
    rw [finrank_colSpace, finrank_colSpace]
    exact hS.ge
  rw [← this]; exact qr_range _ _

/-- **Eckart-Young** -/
theorem ey_rank {A : Matrix (Fin m) (Fin n) ℝ} {U : Matrix (Fin m) (Fin r) ℝ} {s : Fin r → ℝ}
    {V : Matrix (Fin n) (Fin r) ℝ} (h : IsSVD A U s V) (X : Matrix (Fin m) (Fin n) ℝ) (hX : X.rank ≤ k) :
    tailSq s k ≤ froSq (A - X) := by
  obtain ⟨c, Q, hc, hQ, hXQ⟩ := exists_orth_basis X
  exact (tailSq_anti s (hc.trans hX)).trans ((ey_proj h hQ).trans (froSq_le_of_colSpace hQ A X hXQ))

/-- `A (A'A)^q = U diag(s^(2q+1)) V'` -/
theorem svd_power {A : Matrix (Fin m) (Fin n) ℝ} {U : Matrix (Fin m) (Fin r) ℝ} {s : Fin r → ℝ}
    {V : Matrix (Fin n) (Fin r) ℝ} (h : IsSVD A U s V) (q : ℕ) :
    A * (Aᵀ * A) ^ q = U * diagonal (fun i => s i ^ (2 * q + 1)) * Vᵀ := by
  induction q with
  | zero => simp only [pow_zero, Matrix.mul_one, mul_zero, zero_add, pow_one]; exact h.eq
  | succ q ih =>
    have hU : Uᵀ * U = 1 := h.left
    have hV : Vᵀ * V = 1 := h.right
    have hg : Aᵀ * A = V * diagonal (fun i => s i ^ 2) * Vᵀ := by
      rw [h.eq]
      simp only [transpose_mul, transpose_transpose, diagonal_transpose, Matrix.mul_assoc]
      rw [← Matrix.mul_assoc Uᵀ U, hU, Matrix.one_mul, ← Matrix.mul_assoc (diagonal s) (diagonal s),
        diagonal_mul_diagonal]
      simp only [sq]
    rw [pow_succ, ← Matrix.mul_assoc, ih, hg]
    simp only [Matrix.mul_assoc]
    rw [← Matrix.mul_assoc Vᵀ V, hV, Matrix.one_mul, ← Matrix.mul_assoc (diagonal _) (diagonal _),
      diagonal_mul_diagonal]
    congr 3
    funext i
    ring

/-- error of the projection onto a range containing that of `U diag(s^(e+1)) Ω` -/
theorem range_bound {A : Matrix (Fin m) (Fin n) ℝ} {U : Matrix (Fin m) (Fin r) ℝ} {s : Fin r → ℝ}
    {V : Matrix (Fin n) (Fin r) ℝ} (h : IsSVD A U s V) (hk : k ≤ r) (hpos : ∀ j : Fin k, 0 < s (Fin.castLE hk j))
    (τ : ℝ) (hτ : ∀ (i : Fin r) (j : Fin k), k ≤ i.1 → s i ≤ τ * s (Fin.castLE hk j)) (e : ℕ)
    (Ω : Matrix (Fin r) (Fin l) ℝ) (W : Matrix (Fin l) (Fin k) ℝ)
    (hW : (Ω.submatrix (Fin.castLE hk) id) * W = 1)
    {Q : Matrix (Fin m) (Fin c) ℝ} (hQ : Qᵀ * Q = 1)
    (hY : colSpace (U * diagonal (fun i => s i ^ (e + 1)) * Ω) ≤ colSpace Q) :
    froSq (A - Q * (Qᵀ * A)) ≤ tailSq s k + τ ^ (2 * e) * froSq (diagonal (tail s k) * (Ω * W)) := by
  obtain ⟨E, hE⟩ : ∃ E : Matrix (Fin k) (Fin r) ℝ, E = (1 : Matrix (Fin r) (Fin r) ℝ).submatrix (Fin.castLE hk) id :=
    ⟨_, rfl⟩
  obtain ⟨P, hP⟩ : ∃ P : Matrix (Fin r) (Fin k) ℝ, P = diagonal (fun i => s i ^ (e + 1)) * Ω * W *
      diagonal (fun j => (s (Fin.castLE hk j) ^ e)⁻¹) := ⟨_, rfl⟩
  have hEa : ∀ a b, E a b = if b.1 = a.1 then 1 else 0 := by
    intro a b
    rw [hE]
    simp [one_apply, Fin.ext_iff, eq_comm]
  have hEE : E * Eᵀ = 1 := by
    ext i j
    rw [mul_apply, Finset.sum_eq_single (Fin.castLE hk i)]
    · simp [hEa, one_apply, Fin.ext_iff]
    · intro b _ hb
      have : ¬ b.1 = i.1 := fun h' => hb (Fin.ext h')
      simp [hEa, this]
    · simp
  have hX : colSpace (U * P * E * Vᵀ) ≤ colSpace Q := by
    refine le_trans ?_ hY
    rw [hP]
    have : U * (diagonal (fun i => s i ^ (e + 1)) * Ω * W * diagonal (fun j => (s (Fin.castLE hk j) ^ e)⁻¹)) *
        E * Vᵀ = (U * diagonal (fun i => s i ^ (e + 1)) * Ω) *
          (W * diagonal (fun j => (s (Fin.castLE hk j) ^ e)⁻¹) * E * Vᵀ) := by
      simp only [Matrix.mul_assoc]
    rw [this]
    exact colSpace_mul_le _ _
  refine (froSq_le_of_colSpace hQ A _ hX).trans ?_
  have e1 : A - U * P * E * Vᵀ = U * (diagonal s - P * E) * Vᵀ := by
    conv_lhs => rw [h.eq]
    rw [Matrix.mul_sub, Matrix.sub_mul, Matrix.mul_assoc U P E]
  rw [e1, froSq_mul_orth (V := Vᵀ) (by rw [transpose_transpose]; exact h.right), froSq_orth_mul h.left]
  have hD : diagonal s - diagonal s * Eᵀ * E = diagonal (tail s k) := by
    ext i j
    have : (diagonal s * Eᵀ * E) i j = if i.1 < k ∧ i = j then s i else 0 := by
      rw [Matrix.mul_assoc, diagonal_mul, mul_apply]
      by_cases hi : i.1 < k
      · rw [Finset.sum_eq_single ⟨i.1, hi⟩]
        · simp only [transpose_apply, hEa, Fin.ext_iff]
          by_cases hij : i.1 = j.1
          · simp [hij, show j.1 < k by omega]
          · simp [hij, Ne.symm hij]
        · intro b _ hb
          have : ¬ i.1 = b.1 := fun h' => hb (Fin.ext h'.symm)
          simp [hEa, this]
        · simp
      · rw [Finset.sum_eq_zero, mul_zero, if_neg (by tauto)]
        intro b _
        have : ¬ i.1 = b.1 := fun h' => hi (by rw [h']; exact b.2)
        simp [hEa, this]
    rw [Matrix.sub_apply, this]
    by_cases hij : i = j
    · subst hij
      simp only [diagonal_apply_eq, tail, and_true]
      split <;> simp
    · simp [diagonal_apply_ne _ hij, hij]
  have horth : froSq (diagonal s - P * E) = froSq (diagonal (tail s k)) + froSq (diagonal s * Eᵀ - P) := by
    rw [← hD]
    have e2 : diagonal s - P * E = (diagonal s - diagonal s * Eᵀ * E) + (diagonal s * Eᵀ - P) * E := by
      rw [Matrix.sub_mul]; abel
    rw [e2, ← froSq_transpose, transpose_add, froSq_add_of_orth, froSq_transpose, froSq_transpose,
      froSq_mul_orth hEE]
    rw [transpose_transpose, transpose_mul, ← Matrix.mul_assoc, Matrix.sub_mul, Matrix.mul_assoc _ E, hEE,
      Matrix.mul_one, sub_self, Matrix.zero_mul]
  rw [horth, froSq_diag]
  refine add_le_add le_rfl ?_
  unfold froSq
  rw [Finset.mul_sum]
  refine Finset.sum_le_sum fun i _ => ?_
  rw [Finset.mul_sum]
  refine Finset.sum_le_sum fun j _ => ?_
  have hPij : P i j = s i ^ (e + 1) * (Ω * W) i j * (s (Fin.castLE hk j) ^ e)⁻¹ := by
    rw [hP, mul_diagonal, Matrix.mul_assoc, diagonal_mul]
  have hDij : (diagonal s * Eᵀ) i j = if i = Fin.castLE hk j then s i else 0 := by
    rw [diagonal_mul, transpose_apply, hEa]
    simp [Fin.ext_iff]
  rw [Matrix.sub_apply, hPij, hDij, diagonal_mul]
  have hsj := hpos j
  by_cases hi : i.1 < k
  · have hOW : (Ω * W) i j = if i = Fin.castLE hk j then 1 else 0 := by
      have := congrFun (congrFun hW ⟨i.1, hi⟩) j
      rw [mul_apply] at this
      simp only [submatrix_apply, id] at this
      have hci : Fin.castLE hk ⟨i.1, hi⟩ = i := Fin.ext rfl
      rw [hci] at this
      rw [mul_apply, this, one_apply]
      by_cases hij : i = Fin.castLE hk j
      · rw [if_pos hij]
        have hh : (⟨i.1, hi⟩ : Fin k) = j := by
          have h3 : i.1 = j.1 := by rw [hij]; rfl
          exact Fin.ext h3
        rw [if_pos hh]
      · rw [if_neg hij]
        have hh : ¬ (⟨i.1, hi⟩ : Fin k) = j := fun h' => by
          subst h'; exact hij rfl
        rw [if_neg hh]
    have : (if i = Fin.castLE hk j then s i else 0) -
        s i ^ (e + 1) * (Ω * W) i j * (s (Fin.castLE hk j) ^ e)⁻¹ = 0 := by
      rw [hOW]
      by_cases hij : i = Fin.castLE hk j
      · rw [if_pos hij, if_pos hij, hij]
        field_simp
        ring
      · rw [if_neg hij, if_neg hij]; ring
    rw [this]
    have h0 : 0 ≤ τ ^ (2 * e) := by rw [pow_mul]; positivity
    simp only [ne_eq, OfNat.ofNat_ne_zero, not_false_eq_true, zero_pow]
    positivity
  · rw [if_neg (fun h' => hi (by rw [h']; exact j.2)), zero_sub, neg_sq]
    unfold tail
    rw [if_neg hi]
    have h1 := hτ i j (by omega)
    have hsi := h.nonneg i
    have h2 : s i ^ (e + 1) * (Ω * W) i j * (s (Fin.castLE hk j) ^ e)⁻¹ =
        (s i / s (Fin.castLE hk j)) ^ e * (s i * (Ω * W) i j) := by
      rw [div_pow, div_eq_mul_inv]; ring
    rw [h2, mul_pow]
    refine mul_le_mul_of_nonneg_right ?_ (sq_nonneg _)
    rw [← pow_mul, mul_comm e 2]
    refine pow_le_pow_left₀ (by positivity) ?_ _
    rw [div_le_iff₀ hsj]; exact h1

end Parla.Proof
