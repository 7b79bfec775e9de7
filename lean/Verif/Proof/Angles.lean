import Verif.Proof.Weyl

/-! # Angles between computed and exact singular vectors and eigenvectors -/

namespace Parla.Proof

open Matrix Parla Spec

variable {m n r : ℕ}

private theorem le_of_sqNorm {k : ℕ} {x : Fin k → ℝ} {d : ℝ} (hd : 0 ≤ d) (h : sqNorm x ≤ d ^ 2) : norm2 x ≤ d :=
  (Real.sqrt_le_sqrt h).trans (by rw [Real.sqrt_sq hd])

/-- An approximate eigenvector is close to the span of the eigenvectors whose eigenvalues are close. -/
theorem eig_angle {A W : Matrix (Fin n) (Fin n) ℝ} {mu : Fin n → ℝ} (hW : Wᵀ * W = 1) (hA : A = W * diagonal mu * Wᵀ)
    {v : Fin n → ℝ} {lam e gap : ℝ} (he0 : 0 ≤ e) (he : sqNorm (A *ᵥ v - lam • v) ≤ e ^ 2) (hg : 0 < gap)
    (S : Set (Fin n)) (hS : ∀ j, j ∉ S → gap ≤ |mu j - lam|) : NearSpan W S v (e / gap) := by
  classical
  have hW' : W * Wᵀ = 1 := mul_eq_one_comm.1 hW
  have hc : ∀ j, (Wᵀ *ᵥ (A *ᵥ v - lam • v)) j = (mu j - lam) * (Wᵀ *ᵥ v) j := by
    intro j
    rw [mulVec_sub, mulVec_smul, mulVec_mulVec, hA, ← Matrix.mul_assoc, ← Matrix.mul_assoc, hW, Matrix.one_mul, ← mulVec_mulVec]
    simp only [Pi.sub_apply, Pi.smul_apply, smul_eq_mul, mulVec_diagonal]
    ring
  refine ⟨fun j => if j ∈ S then (Wᵀ *ᵥ v) j else 0, fun j hj => if_neg hj, ?_⟩
  have h1 : v - W *ᵥ (fun j => if j ∈ S then (Wᵀ *ᵥ v) j else 0) = W *ᵥ (fun j => if j ∈ S then 0 else (Wᵀ *ᵥ v) j) := by
    have : v = W *ᵥ (Wᵀ *ᵥ v) := by rw [mulVec_mulVec, hW', one_mulVec]
    nth_rw 1 [this]
    rw [← mulVec_sub]
    congr 1
    funext j
    simp only [Pi.sub_apply]
    split <;> simp
  refine le_of_sqNorm (by positivity) ?_
  rw [h1, sqNorm_orth_mulVec hW, div_pow, le_div_iff₀ (by positivity)]
  refine le_trans ?_ (le_trans (bessel hW _) he)
  unfold sqNorm
  rw [Finset.sum_mul]
  refine Finset.sum_le_sum fun j _ => ?_
  beta_reduce
  by_cases hj : j ∈ S
  · rw [if_pos hj, zero_pow two_ne_zero, zero_mul]; positivity
  · rw [if_neg hj, hc, mul_pow, mul_comm, ← sq_abs (mu j - lam)]
    exact mul_le_mul_of_nonneg_right (pow_le_pow_left₀ hg.le (hS j hj) 2) (sq_nonneg _)

variable {A : Matrix (Fin m) (Fin n) ℝ} {U : Matrix (Fin m) (Fin r) ℝ} {sig : Fin r → ℝ} {V : Matrix (Fin n) (Fin r) ℝ}

private theorem coef (h : IsSVD A U sig V) {u : Fin m → ℝ} {v : Fin n → ℝ} {s : ℝ}
    (hu : Aᵀ *ᵥ u = s • v) (j : Fin r) : sig j * (Uᵀ *ᵥ u) j = s * (Vᵀ *ᵥ v) j := by
  have hV : Vᵀ * V = 1 := h.right
  have h1 := congrFun (congrArg (fun z => Vᵀ *ᵥ z) hu) j
  have h2 : Vᵀ * Aᵀ = diagonal sig * Uᵀ := by
    rw [← transpose_mul, svd_mul_right h, transpose_mul, diagonal_transpose]
  rw [mulVec_mulVec, h2, ← mulVec_mulVec, mulVec_diagonal, mulVec_smul] at h1
  exact h1

private theorem coef' (h : IsSVD A U sig V) {u : Fin m → ℝ} {v : Fin n → ℝ} {s : ℝ} (j : Fin r) :
    sig j * (Vᵀ *ᵥ v) j = s * (Uᵀ *ᵥ u) j + (Uᵀ *ᵥ (A *ᵥ v - s • u)) j := by
  have h2 : Uᵀ * A = diagonal sig * Vᵀ := by
    have := svd_mul_left h
    rw [← transpose_transpose (Uᵀ * A), transpose_mul, transpose_transpose, this, transpose_mul, diagonal_transpose]
  rw [mulVec_sub, mulVec_smul, mulVec_mulVec, h2, ← mulVec_mulVec]
  simp only [Pi.sub_apply, Pi.smul_apply, smul_eq_mul, mulVec_diagonal]
  ring

/-- the first `t` positions -/
private theorem sig_le (h : IsSVD A U sig V) {t : ℕ} {j : Fin r} (hj : ¬ j.1 < t) : sig j ≤ nth sig t := by
  have ht : t < r := by have := j.2; omega
  rw [nth_of_lt ht]
  exact h.anti (Fin.le_def.2 (by simpa using hj))

/-- A right vector with `A'u = s v` is close to the span of the right singular vectors in `S`. -/
theorem right_core (h : IsSVD A U sig V) {u : Fin m → ℝ} {v : Fin n → ℝ} {s e D : ℝ} (hs : 0 < s) (he0 : 0 ≤ e)
    (hu : Aᵀ *ᵥ u = s • v) (he : sqNorm (A *ᵥ v - s • u) ≤ e ^ 2) (S : Set (Fin r)) (hD : 0 ≤ D)
    (hS : ∀ j, j ∉ S → sig j ^ 2 ≤ D ^ 2 * (s ^ 2 - sig j ^ 2) ^ 2 ∧ s ^ 2 - sig j ^ 2 ≠ 0) :
    NearSpan V S v (D * e) := by
  classical
  have hV : Vᵀ * V = 1 := h.right
  have hv : V *ᵥ (Vᵀ *ᵥ v) = v := by
    have h1 : s • v = V *ᵥ (diagonal sig *ᵥ (Uᵀ *ᵥ u)) := by
      rw [← hu, mulVec_mulVec, mulVec_mulVec]
      congr 1
      rw [h.eq, transpose_mul, transpose_mul, transpose_transpose, diagonal_transpose, Matrix.mul_assoc]
    have h2 : v = s⁻¹ • (V *ᵥ (diagonal sig *ᵥ (Uᵀ *ᵥ u))) := by rw [← h1, smul_smul, inv_mul_cancel₀ hs.ne', one_smul]
    rw [h2, mulVec_smul, mulVec_smul, mulVec_mulVec _ Vᵀ V, hV, one_mulVec]
  refine ⟨fun j => if j ∈ S then (Vᵀ *ᵥ v) j else 0, fun j hj => if_neg hj, ?_⟩
  have h1 : v - V *ᵥ (fun j => if j ∈ S then (Vᵀ *ᵥ v) j else 0) = V *ᵥ (fun j => if j ∈ S then 0 else (Vᵀ *ᵥ v) j) := by
    nth_rw 1 [← hv]
    rw [← mulVec_sub]
    congr 1
    funext j
    simp only [Pi.sub_apply]
    split <;> simp
  refine le_of_sqNorm (by positivity) ?_
  rw [h1, sqNorm_orth_mulVec hV, mul_pow]
  refine le_trans ?_ (mul_le_mul_of_nonneg_left (le_trans (bessel h.left _) he) (sq_nonneg _))
  unfold sqNorm
  rw [Finset.mul_sum]
  refine Finset.sum_le_sum fun j _ => ?_
  beta_reduce
  by_cases hj : j ∈ S
  · rw [if_pos hj, zero_pow two_ne_zero]; positivity
  · rw [if_neg hj]
    have a1 := coef h hu j
    have a2 := coef' h (u := u) (v := v) (s := s) j
    have a5 : (s ^ 2 - sig j ^ 2) * (Vᵀ *ᵥ v) j = - (sig j * (Uᵀ *ᵥ (A *ᵥ v - s • u)) j) := by
      linear_combination (-sig j) * a2 - s * a1
    obtain ⟨hj1, hj2⟩ := hS j hj
    have hp : 0 < (s ^ 2 - sig j ^ 2) ^ 2 := by positivity
    refine le_of_mul_le_mul_left ?_ hp
    calc (s ^ 2 - sig j ^ 2) ^ 2 * (Vᵀ *ᵥ v) j ^ 2 = sig j ^ 2 * (Uᵀ *ᵥ (A *ᵥ v - s • u)) j ^ 2 := by rw [← mul_pow, a5]; ring
      _ ≤ D ^ 2 * (s ^ 2 - sig j ^ 2) ^ 2 * (Uᵀ *ᵥ (A *ᵥ v - s • u)) j ^ 2 := mul_le_mul_of_nonneg_right hj1 (sq_nonneg _)
      _ = _ := by ring

/-- A left vector with `A'u = s v` is close to the span of the left singular vectors in `S`. -/
theorem left_core (h : IsSVD A U sig V) {u : Fin m → ℝ} {v : Fin n → ℝ} {s e D : ℝ} (he0 : 0 ≤ e)
    (hu : Aᵀ *ᵥ u = s • v) (he : sqNorm (A *ᵥ v - s • u) ≤ e ^ 2) (S : Set (Fin r)) (hD : 0 ≤ D) (hDs : 1 ≤ D ^ 2 * s ^ 2)
    (hS : ∀ j, j ∉ S → s ^ 2 ≤ D ^ 2 * (s ^ 2 - sig j ^ 2) ^ 2 ∧ s ^ 2 - sig j ^ 2 ≠ 0) :
    NearSpan U S u (D * e) := by
  classical
  have hU : Uᵀ * U = 1 := h.left
  obtain ⟨f, hf⟩ : ∃ f, f = A *ᵥ v - s • u := ⟨_, rfl⟩
  obtain ⟨z, hz⟩ : ∃ z : Fin r → ℝ, z = fun j => if j ∈ S then 0 else (Uᵀ *ᵥ u) j := ⟨_, rfl⟩
  -- the part of `u` outside the range of `A`
  have hAv : U *ᵥ (Uᵀ *ᵥ (A *ᵥ v)) = A *ᵥ v := by
    rw [mulVec_mulVec, mulVec_mulVec]
    congr 1
    rw [h.eq, Matrix.mul_assoc, ← Matrix.mul_assoc Uᵀ, ← Matrix.mul_assoc Uᵀ, hU, Matrix.one_mul, Matrix.mul_assoc]
  have hout : s • (u - U *ᵥ (Uᵀ *ᵥ u)) = -(f - U *ᵥ (Uᵀ *ᵥ f)) := by
    rw [hf, mulVec_sub, mulVec_sub, hAv, mulVec_smul, mulVec_smul, smul_sub]
    abel
  refine ⟨fun j => if j ∈ S then (Uᵀ *ᵥ u) j else 0, fun j hj => if_neg hj, ?_⟩
  have h1 : u - U *ᵥ (fun j => if j ∈ S then (Uᵀ *ᵥ u) j else 0) = U *ᵥ z + (u - U *ᵥ (Uᵀ *ᵥ u)) := by
    have : (fun j : Fin r => if j ∈ S then (Uᵀ *ᵥ u) j else 0) = Uᵀ *ᵥ u - z := by
      rw [hz]; funext j; simp only [Pi.sub_apply]; split <;> simp
    rw [this, mulVec_sub]; abel
  have hperp : ∀ x : Fin m → ℝ, Uᵀ *ᵥ (x - U *ᵥ (Uᵀ *ᵥ x)) = 0 := by
    intro x; rw [mulVec_sub, mulVec_mulVec _ Uᵀ U, hU, one_mulVec, sub_self]
  have pyth : ∀ (y : Fin r → ℝ) (x : Fin m → ℝ), sqNorm (U *ᵥ y + (x - U *ᵥ (Uᵀ *ᵥ x))) = sqNorm y + sqNorm (x - U *ᵥ (Uᵀ *ᵥ x)) := by
    intro y x
    rw [sqNorm_add, sqNorm_orth_mulVec hU, dotProduct_comm, dotProduct_mulVec, ← mulVec_transpose, hperp, zero_dotProduct]
    ring
  refine le_of_sqNorm (by positivity) ?_
  rw [h1, pyth, mul_pow]
  have hff : sqNorm f = sqNorm (Uᵀ *ᵥ f) + sqNorm (f - U *ᵥ (Uᵀ *ᵥ f)) := by
    rw [← pyth]; congr 1; abel
  have b2 : s ^ 2 * sqNorm (u - U *ᵥ (Uᵀ *ᵥ u)) = sqNorm (f - U *ᵥ (Uᵀ *ᵥ f)) := by
    rw [← sqNorm_smul, hout, sqNorm_neg]
  have b1 : sqNorm z ≤ D ^ 2 * sqNorm (Uᵀ *ᵥ f) := by
    unfold sqNorm
    rw [Finset.mul_sum]
    refine Finset.sum_le_sum fun j _ => ?_
    rw [hz]; beta_reduce
    by_cases hj : j ∈ S
    · rw [if_pos hj, zero_pow two_ne_zero]; positivity
    · rw [if_neg hj]
      have a1 := coef h hu j
      have a2 := coef' h (u := u) (v := v) (s := s) j
      rw [← hf] at a2
      have a5 : (s ^ 2 - sig j ^ 2) * (Uᵀ *ᵥ u) j = - (s * (Uᵀ *ᵥ f) j) := by
        linear_combination (-s) * a2 - sig j * a1
      obtain ⟨hj1, hj2⟩ := hS j hj
      have hp : 0 < (s ^ 2 - sig j ^ 2) ^ 2 := by positivity
      refine le_of_mul_le_mul_left ?_ hp
      calc (s ^ 2 - sig j ^ 2) ^ 2 * (Uᵀ *ᵥ u) j ^ 2 = s ^ 2 * (Uᵀ *ᵥ f) j ^ 2 := by rw [← mul_pow, a5]; ring
        _ ≤ D ^ 2 * (s ^ 2 - sig j ^ 2) ^ 2 * (Uᵀ *ᵥ f) j ^ 2 := mul_le_mul_of_nonneg_right hj1 (sq_nonneg _)
        _ = _ := by ring
  have b3 : sqNorm (u - U *ᵥ (Uᵀ *ᵥ u)) ≤ D ^ 2 * sqNorm (f - U *ᵥ (Uᵀ *ᵥ f)) := by
    rw [← b2]
    have := mul_le_mul_of_nonneg_right hDs (sqNorm_nonneg (u - U *ᵥ (Uᵀ *ᵥ u)))
    linarith
  rw [← hf] at he
  have := mul_le_mul_of_nonneg_left he (sq_nonneg D)
  nlinarith

/-- right vectors and the leading `t` singular vectors -/
theorem right_angle (h : IsSVD A U sig V) {u : Fin m → ℝ} {v : Fin n → ℝ} {s e : ℝ} (hs : 0 < s) (he0 : 0 ≤ e)
    (hu : Aᵀ *ᵥ u = s • v) (he : sqNorm (A *ᵥ v - s • u) ≤ e ^ 2) (t : ℕ) (hc : nth sig t ^ 2 < s ^ 2) :
    NearSpan V {j | j.1 < t} v (nth sig t / (s ^ 2 - nth sig t ^ 2) * e) := by
  have hst : 0 ≤ nth sig t := nth_nonneg h.nonneg
  have hpos : 0 < s ^ 2 - nth sig t ^ 2 := by linarith
  refine right_core h hs he0 hu he _ (by positivity) fun j hj => ?_
  have a1 := pow_le_pow_left₀ (h.nonneg j) (sig_le h hj) 2
  refine ⟨?_, (by linarith : 0 < s ^ 2 - sig j ^ 2).ne'⟩
  rw [div_pow, div_mul_eq_mul_div, le_div_iff₀ (by positivity)]
  exact mul_le_mul a1 (pow_le_pow_left₀ hpos.le (by linarith) 2) (sq_nonneg _) (sq_nonneg _)

/-- left vectors and the leading `t` singular vectors -/
theorem left_angle (h : IsSVD A U sig V) {u : Fin m → ℝ} {v : Fin n → ℝ} {s e : ℝ} (hs : 0 < s) (he0 : 0 ≤ e)
    (hu : Aᵀ *ᵥ u = s • v) (he : sqNorm (A *ᵥ v - s • u) ≤ e ^ 2) (t : ℕ) (hc : nth sig t ^ 2 < s ^ 2) :
    NearSpan U {j | j.1 < t} u (s / (s ^ 2 - nth sig t ^ 2) * e) := by
  have hst : 0 ≤ nth sig t := nth_nonneg h.nonneg
  have hpos : 0 < s ^ 2 - nth sig t ^ 2 := by linarith
  refine left_core h he0 hu he _ (by positivity) ?_ fun j hj => ?_
  · rw [div_pow, div_mul_eq_mul_div, le_div_iff₀ (by positivity), one_mul, ← sq]
    exact pow_le_pow_left₀ hpos.le (by have := sq_nonneg (nth sig t); linarith) 2
  have a1 := pow_le_pow_left₀ (h.nonneg j) (sig_le h hj) 2
  refine ⟨?_, (by linarith : 0 < s ^ 2 - sig j ^ 2).ne'⟩
  rw [div_pow, div_mul_eq_mul_div, le_div_iff₀ (by positivity)]
  exact mul_le_mul_of_nonneg_left (pow_le_pow_left₀ hpos.le (by linarith) 2) (sq_nonneg _)

private theorem gap_sq {s x gap : ℝ} (hs : 0 ≤ s) (hx : 0 ≤ x) (hg : 0 < gap) (h : gap ≤ |x - s|) :
    gap ^ 2 * (s + x) ^ 2 ≤ (s ^ 2 - x ^ 2) ^ 2 ∧ s ^ 2 - x ^ 2 ≠ 0 := by
  have h1 : (s ^ 2 - x ^ 2) ^ 2 = (|x - s|) ^ 2 * (s + x) ^ 2 := by rw [sq_abs]; ring
  refine ⟨by rw [h1]; exact mul_le_mul_of_nonneg_right (pow_le_pow_left₀ hg.le h 2) (sq_nonneg _), fun h0 => ?_⟩
  have h2 : (s - x) * (s + x) = 0 := by linear_combination h0
  rcases mul_eq_zero.1 h2 with h3 | h3
  · rw [show x - s = 0 by linarith, abs_zero] at h; linarith
  · rw [show x - s = 0 by linarith, abs_zero] at h; linarith

/-- singular vectors whose singular values are at a distance -/
theorem both_angle (h : IsSVD A U sig V) {u : Fin m → ℝ} {v : Fin n → ℝ} {s e gap : ℝ} (he0 : 0 ≤ e)
    (hu : Aᵀ *ᵥ u = s • v) (he : sqNorm (A *ᵥ v - s • u) ≤ e ^ 2) (S : Set (Fin r)) (hg : 0 < gap) (hgs : gap ≤ s)
    (hS : ∀ j, j ∉ S → gap ≤ |sig j - s|) : NearSpan V S v (e / gap) ∧ NearSpan U S u (e / gap) := by
  have hs : 0 < s := by linarith
  rw [show e / gap = gap⁻¹ * e by rw [div_eq_inv_mul]]
  constructor
  · refine right_core h hs he0 hu he S (by positivity) fun j hj => ?_
    obtain ⟨h1, h2⟩ := gap_sq hs.le (h.nonneg j) hg (hS j hj)
    refine ⟨?_, h2⟩
    rw [inv_pow, ← div_eq_inv_mul, le_div_iff₀ (by positivity), mul_comm]
    refine le_trans ?_ h1
    exact mul_le_mul_of_nonneg_left (pow_le_pow_left₀ (h.nonneg j) (by linarith) 2) (sq_nonneg _)
  · refine left_core h he0 hu he S (by positivity) ?_ fun j hj => ?_
    · rw [inv_pow, ← div_eq_inv_mul, le_div_iff₀ (by positivity), one_mul]
      exact pow_le_pow_left₀ hg.le hgs 2
    obtain ⟨h1, h2⟩ := gap_sq hs.le (h.nonneg j) hg (hS j hj)
    refine ⟨?_, h2⟩
    rw [inv_pow, ← div_eq_inv_mul, le_div_iff₀ (by positivity), mul_comm]
    refine le_trans ?_ h1
    exact mul_le_mul_of_nonneg_left (pow_le_pow_left₀ hs.le (by linarith [h.nonneg j]) 2) (sq_nonneg _)

/-- the bounds in terms of `A` alone -/
theorem gap_le {s p a e : ℝ} (hs : 0 ≤ s) (hp : 0 ≤ p) (ha : 0 ≤ a) (h1 : p ^ 2 ≤ s ^ 2 + e ^ 2) (hgap : a + e ^ 2 < p ^ 2) :
    s / (s ^ 2 - a) ≤ p / (p ^ 2 - a - e ^ 2) := by
  have he := sq_nonneg e
  rw [div_le_div_iff₀ (by linarith) (by linarith)]
  rcases le_total s p with h | h
  · have c1 := mul_le_mul_of_nonneg_right h (by linarith : 0 ≤ p ^ 2 - a - e ^ 2)
    have c2 := mul_le_mul_of_nonneg_left (by linarith : p ^ 2 - a - e ^ 2 ≤ s ^ 2 - a) hp
    linarith
  · have c1 : 0 ≤ s * p * (s - p) := mul_nonneg (mul_nonneg hs hp) (by linarith)
    have c2 : p * a ≤ s * a := mul_le_mul_of_nonneg_right h ha
    nlinarith [mul_nonneg hs he]

end Parla.Proof
