import Verif.Base.Rounding
import Verif.Proof.LowRank

/-! # Rounding error analysis of one block of QB -/

namespace Parla.Proof

open Matrix Spec

variable {m n k b : ℕ}

theorem fro_mul_le (X : Matrix (Fin m) (Fin k) ℝ) (Y : Matrix (Fin k) (Fin n) ℝ) : fro (X * Y) ≤ fro X * fro Y := by
  rw [fro_le_iff_sq (mul_nonneg (fro_nonneg _) (fro_nonneg _)), mul_pow, fro_sq, fro_sq]
  exact froSq_mul_le X Y

theorem fro_orth_mul {Q : Matrix (Fin m) (Fin k) ℝ} (hQ : OrthoCols Q) (M : Matrix (Fin k) (Fin n) ℝ) :
    fro (Q * M) = fro M := by
  unfold fro; rw [froSq_orth_mul hQ]

theorem fro_orth_transpose_mul_le {Q : Matrix (Fin m) (Fin k) ℝ} (hQ : OrthoCols Q) (M : Matrix (Fin m) (Fin n) ℝ) :
    fro (Qᵀ * M) ≤ fro M := by
  rw [fro_le_iff_sq (fro_nonneg _), fro_sq]
  exact froSq_orth_transpose_mul_le hQ M

theorem fro_tr (M : Matrix (Fin m) (Fin n) ℝ) : fro Mᵀ = fro M := by unfold fro; rw [froSq_transpose]

theorem fro_sub_comm (X Y : Matrix (Fin m) (Fin n) ℝ) : fro (X - Y) = fro (Y - X) := by
  rw [← neg_sub]; unfold fro; rw [froSq_neg]

theorem fro_sub_le (X Y Z : Matrix (Fin m) (Fin n) ℝ) : fro (X - Z) ≤ fro (X - Y) + fro (Y - Z) := by
  have := fro_triangle (X - Y) (Y - Z)
  rwa [sub_add_sub_cancel] at this

theorem fro_le_add (X Y : Matrix (Fin m) (Fin n) ℝ) : fro X ≤ fro (X - Y) + fro Y := by
  have := fro_triangle (X - Y) Y
  rwa [sub_add_cancel] at this

theorem fro_proj_le {Q : Matrix (Fin m) (Fin k) ℝ} (hQ : OrthoCols Q) (A : Matrix (Fin m) (Fin n) ℝ) :
    fro (A - Q * (Qᵀ * A)) ≤ fro A := by
  rw [fro_le_iff_sq (fro_nonneg _), fro_sq, froSq_sub_proj hQ]
  linarith [froSq_nonneg (Qᵀ * A)]

theorem fro_orth {Q : Matrix (Fin m) (Fin k) ℝ} (hQ : OrthoCols Q) : fro Q = Real.sqrt k := by
  unfold fro
  rw [froSq_eq_trace, hQ, Matrix.trace_one, Fintype.card_fin]

/-- the norm of an array within `ε ≤ 1` of an orthonormal one -/
theorem fro_near_orth {Q Q' : Matrix (Fin m) (Fin k) ℝ} (hQ' : OrthoCols Q') {ε : ℝ} (h : fro (Q - Q') ≤ ε) :
    fro Q ≤ Real.sqrt k + ε := by
  have := fro_le_add Q Q'
  rw [fro_orth hQ'] at this
  linarith

/-- squares that are close -/
theorem abs_sq_sub_sq_le {x y d s : ℝ} (h1 : |x - y| ≤ d) (h2 : |x + y| ≤ s) : |x ^ 2 - y ^ 2| ≤ d * s := by
  have e : x ^ 2 - y ^ 2 = (x - y) * (x + y) := by ring
  rw [e, abs_mul]
  exact mul_le_mul h1 h2 (abs_nonneg _) ((abs_nonneg _).trans h1)

theorem abs_fro_sub_le (X Y : Matrix (Fin m) (Fin n) ℝ) : |fro X - fro Y| ≤ fro (X - Y) := by
  rw [abs_le]
  have h1 := fro_le_add X Y
  have h2 := fro_le_add Y X
  rw [fro_sub_comm] at h2
  constructor <;> linarith

/-- One block: `B = fl(Q'A)`, `P = fl(QB)`, `A⁺ = fl(A - P)`, with `Q` within `ε` of an orthonormal `Q'`. -/
theorem round_block {A P A' : Matrix (Fin m) (Fin n) ℝ} {Q Q' : Matrix (Fin m) (Fin b) ℝ} {B : Matrix (Fin b) (Fin n) ℝ}
    {ε q θ : ℝ} (hε : 0 ≤ ε) (hQ' : OrthoCols Q') (hQ : fro (Q - Q') ≤ ε)
    (hB : fro (B - Qᵀ * A) ≤ ε * fro Qᵀ * fro A) (hP : fro (P - Q * B) ≤ ε * fro Q * fro B)
    (hA' : fro (A' - (A - P)) ≤ ε * fro (A - P)) (hq : fro Q ≤ q) (hθ : θ = 7 * (1 + q) * ε) (hθ1 : θ ≤ 1) :
    fro (A' - (A - Q * B)) ≤ θ * fro A ∧ fro A' ≤ (1 + θ) * fro A ∧ fro B ^ 2 ≤ 2 * fro A ^ 2 ∧
    |fro A' ^ 2 - (fro A ^ 2 - fro B ^ 2)| ≤ 4 * θ * fro A ^ 2 := by
  obtain ⟨a, ha⟩ : ∃ a, a = fro A := ⟨_, rfl⟩
  have ha0 : 0 ≤ a := ha ▸ fro_nonneg _
  have hq0 : 0 ≤ q := (fro_nonneg _).trans hq
  have hεq : ε * (1 + q) ≤ 1 / 7 := by nlinarith
  have hε1 : ε ≤ 1 := by nlinarith
  -- the error of `B`
  have hB' : fro (B - Q'ᵀ * A) ≤ ε * (1 + q) * a := by
    have h1 := fro_sub_le B (Qᵀ * A) (Q'ᵀ * A)
    have h2 : fro (Qᵀ * A - Q'ᵀ * A) ≤ ε * a := by
      rw [← Matrix.sub_mul, ← Matrix.transpose_sub]
      refine (fro_mul_le _ _).trans ?_
      rw [fro_tr, ha]
      exact mul_le_mul_of_nonneg_right hQ (fro_nonneg _)
    have h3 : fro (B - Qᵀ * A) ≤ ε * q * a := by
      refine hB.trans ?_
      rw [fro_tr, ha]
      exact mul_le_mul_of_nonneg_right (mul_le_mul_of_nonneg_left hq hε) (fro_nonneg _)
    linarith
  have hB0 : fro (Q'ᵀ * A) ≤ a := ha ▸ fro_orth_transpose_mul_le hQ' A
  have hBn : fro B ≤ a + ε * (1 + q) * a := by linarith [fro_le_add B (Q'ᵀ * A)]
  have hBn' : fro B ≤ 8 / 7 * a := by nlinarith
  -- the product
  have hQB : fro (Q * B - Q' * (Q'ᵀ * A)) ≤ ε * (1 + q) * a + 8 / 7 * (ε * a) := by
    have h1 := fro_sub_le (Q * B) (Q' * B) (Q' * (Q'ᵀ * A))
    have h2 : fro (Q * B - Q' * B) ≤ ε * (8 / 7 * a) := by
      rw [← Matrix.sub_mul]
      exact (fro_mul_le _ _).trans (mul_le_mul hQ hBn' (fro_nonneg _) hε)
    have h3 : fro (Q' * B - Q' * (Q'ᵀ * A)) ≤ ε * (1 + q) * a := by
      rw [← Matrix.mul_sub, fro_orth_mul hQ']; exact hB'
    linarith
  have hPn : fro (P - Q * B) ≤ 8 / 7 * (ε * q * a) := by
    refine hP.trans ?_
    have : ε * fro Q * fro B ≤ ε * q * (8 / 7 * a) :=
      mul_le_mul (mul_le_mul_of_nonneg_left hq hε) hBn' (fro_nonneg _) (mul_nonneg hε hq0)
    linarith
  -- the exact remainder
  have hR : fro (A - Q' * (Q'ᵀ * A)) ≤ a := ha ▸ fro_proj_le hQ' A
  have e1 : fro (A - P - (A - Q * B)) = fro (P - Q * B) := by
    rw [fro_sub_comm]; congr 1; abel
  have e2 : fro (A - Q * B - (A - Q' * (Q'ᵀ * A))) = fro (Q * B - Q' * (Q'ᵀ * A)) := by
    rw [fro_sub_comm]; congr 1; abel
  have hεa : 0 ≤ ε * a := mul_nonneg hε ha0
  have hεqa : 0 ≤ ε * q * a := mul_nonneg (mul_nonneg hε hq0) ha0
  have hsum : ε * (1 + q) * a ≤ 1 / 7 * a := mul_le_mul_of_nonneg_right hεq ha0
  have hsum' : ε * (1 + q) * a = ε * a + ε * q * a := by ring
  have hAP : fro (A - P) ≤ 10 / 7 * a := by
    have h1 := fro_le_add (A - P) (A - Q * B)
    have h2 := fro_le_add (A - Q * B) (A - Q' * (Q'ᵀ * A))
    rw [e1] at h1
    rw [e2] at h2
    linarith
  have hA1 : fro (A' - (A - P)) ≤ 10 / 7 * (ε * a) := by
    refine hA'.trans ?_
    have := mul_le_mul_of_nonneg_left hAP hε
    linarith
  have hθa : θ * a = 7 * (ε * a) + 7 * (ε * q * a) := by rw [hθ]; ring
  have g1 : fro (A' - (A - Q * B)) ≤ 10 / 7 * (ε * a) + 8 / 7 * (ε * q * a) := by
    have := fro_sub_le A' (A - P) (A - Q * B)
    rw [e1] at this
    linarith
  have g2 : fro (A' - (A - Q' * (Q'ᵀ * A))) ≤ θ * a := by
    have := fro_sub_le A' (A - Q * B) (A - Q' * (Q'ᵀ * A))
    rw [e2] at this
    linarith
  have hθ0 : 0 ≤ θ := by rw [hθ]; exact mul_nonneg (mul_nonneg (by norm_num) (by linarith)) hε
  have g3 : fro A' ≤ (1 + θ) * a := by
    have := fro_le_add A' (A - Q' * (Q'ᵀ * A))
    linarith
  have hsq : fro (A - Q' * (Q'ᵀ * A)) ^ 2 = a ^ 2 - fro (Q'ᵀ * A) ^ 2 := by
    rw [fro_sq, fro_sq, ha, fro_sq, froSq_sub_proj hQ']
  have g4 : |fro A' ^ 2 - fro (A - Q' * (Q'ᵀ * A)) ^ 2| ≤ θ * a * (3 * a) := by
    refine abs_sq_sub_sq_le ((abs_fro_sub_le _ _).trans g2) ?_
    rw [abs_of_nonneg (add_nonneg (fro_nonneg _) (fro_nonneg _))]
    have : θ * a ≤ 1 * a := mul_le_mul_of_nonneg_right hθ1 ha0
    linarith
  have g5 : |fro B ^ 2 - fro (Q'ᵀ * A) ^ 2| ≤ ε * (1 + q) * a * (7 * a) := by
    refine abs_sq_sub_sq_le ((abs_fro_sub_le _ _).trans hB') ?_
    rw [abs_of_nonneg (add_nonneg (fro_nonneg _) (fro_nonneg _))]
    linarith
  rw [← ha]
  refine ⟨by linarith, g3, ?_, ?_⟩
  · have : fro B ^ 2 ≤ (8 / 7 * a) ^ 2 := pow_le_pow_left₀ (fro_nonneg _) hBn' 2
    nlinarith [sq_nonneg a]
  · have e : fro A' ^ 2 - (a ^ 2 - fro B ^ 2) =
        (fro A' ^ 2 - fro (A - Q' * (Q'ᵀ * A)) ^ 2) + (fro B ^ 2 - fro (Q'ᵀ * A) ^ 2) := by rw [hsq]; ring
    rw [e]
    refine (abs_add_le _ _).trans ?_
    have h1 : ε * (1 + q) * a * (7 * a) = θ * a ^ 2 := by rw [hθ]; ring
    have h2 : θ * a * (3 * a) = 3 * θ * a ^ 2 := by ring
    linarith

/-- One block: the computed product `Q B` is near the projection onto the range of the orthonormal `Q'`. -/
theorem round_project {A : Matrix (Fin m) (Fin n) ℝ} {Q Q' : Matrix (Fin m) (Fin b) ℝ} {B : Matrix (Fin b) (Fin n) ℝ}
    {ε q θ : ℝ} (hε : 0 ≤ ε) (hQ' : OrthoCols Q') (hQ : fro (Q - Q') ≤ ε)
    (hB : fro (B - Qᵀ * A) ≤ ε * fro Qᵀ * fro A) (hq : fro Q ≤ q) (hθ : θ = 3 * (1 + q) * ε) (hθ1 : θ ≤ 1) :
    fro (Q * B - Q' * (Q'ᵀ * A)) ≤ θ * fro A := by
  obtain ⟨a, ha⟩ : ∃ a, a = fro A := ⟨_, rfl⟩
  have ha0 : 0 ≤ a := ha ▸ fro_nonneg _
  have hq0 : 0 ≤ q := (fro_nonneg _).trans hq
  have hB' : fro (B - Q'ᵀ * A) ≤ ε * (1 + q) * a := by
    have h1 := fro_sub_le B (Qᵀ * A) (Q'ᵀ * A)
    have h2 : fro (Qᵀ * A - Q'ᵀ * A) ≤ ε * a := by
      rw [← Matrix.sub_mul, ← Matrix.transpose_sub]
      refine (fro_mul_le _ _).trans ?_
      rw [fro_tr, ha]
      exact mul_le_mul_of_nonneg_right hQ (fro_nonneg _)
    have h3 : fro (B - Qᵀ * A) ≤ ε * q * a := by
      refine hB.trans ?_
      rw [fro_tr, ha]
      exact mul_le_mul_of_nonneg_right (mul_le_mul_of_nonneg_left hq hε) (fro_nonneg _)
    linarith
  have hB0 : fro (Q'ᵀ * A) ≤ a := ha ▸ fro_orth_transpose_mul_le hQ' A
  have hεq : ε * (1 + q) ≤ 1 / 3 := by nlinarith
  have hBn' : fro B ≤ 2 * a := by
    have : ε * (1 + q) * a ≤ 1 / 3 * a := mul_le_mul_of_nonneg_right hεq ha0
    linarith [fro_le_add B (Q'ᵀ * A)]
  have h1 := fro_sub_le (Q * B) (Q' * B) (Q' * (Q'ᵀ * A))
  have h2 : fro (Q * B - Q' * B) ≤ ε * (2 * a) := by
    rw [← Matrix.sub_mul]
    exact (fro_mul_le _ _).trans (mul_le_mul hQ hBn' (fro_nonneg _) hε)
  have h3 : fro (Q' * B - Q' * (Q'ᵀ * A)) ≤ ε * (1 + q) * a := by
    rw [← Matrix.mul_sub, fro_orth_mul hQ']; exact hB'
  have e : θ * a = 3 * (ε * a) + 3 * (ε * q * a) := by rw [hθ]; ring
  rw [← ha, e]
  linarith [mul_nonneg (mul_nonneg hε hq0) ha0, mul_nonneg hε ha0]

/-- an array near an orthonormal one is nearly orthonormal -/
theorem gram_near_orth {Q Q' : Matrix (Fin m) (Fin k) ℝ} (hQ' : OrthoCols Q') {ε : ℝ} (h : fro (Q - Q') ≤ ε) :
    fro (Qᵀ * Q - 1) ≤ (2 + ε) * ε := by
  have hε : 0 ≤ ε := (fro_nonneg _).trans h
  have e : Qᵀ * Q - 1 = (Q'ᵀ * (Q - Q') + (Q'ᵀ * (Q - Q'))ᵀ) + (Q - Q')ᵀ * (Q - Q') := by
    have : Q'ᵀ * Q' = 1 := hQ'
    simp only [Matrix.mul_sub, Matrix.sub_mul, Matrix.transpose_sub, Matrix.transpose_mul, Matrix.transpose_transpose, this,
      Matrix.transpose_one]
    abel
  rw [e]
  refine (fro_triangle _ _).trans ?_
  have h1 := fro_triangle (Q'ᵀ * (Q - Q')) (Q'ᵀ * (Q - Q'))ᵀ
  rw [fro_tr] at h1
  have h2 : fro (Q'ᵀ * (Q - Q')) ≤ ε := (fro_orth_transpose_mul_le hQ' _).trans h
  have h3 : fro ((Q - Q')ᵀ * (Q - Q')) ≤ ε * ε := by
    refine (fro_mul_le _ _).trans ?_
    rw [fro_tr]
    exact mul_le_mul h h (fro_nonneg _) hε
  linarith

/-- the projection onto the range of a basis of a perturbed sketch -/
theorem round_range {A : Matrix (Fin m) (Fin n) ℝ} {S : Matrix (Fin n) (Fin k) ℝ} {Y : Matrix (Fin m) (Fin k) ℝ}
    {Q' : Matrix (Fin m) (Fin b) ℝ} {R : Matrix (Fin b) (Fin k) ℝ} {ε : ℝ} (hε : 0 ≤ ε) (hε1 : ε ≤ 1) (hQ' : OrthoCols Q')
    (hY : fro (Y - A * S) ≤ ε * fro A * fro S) (hR : fro (Q' * R - Y) ≤ ε * fro Y) (X : Matrix (Fin k) (Fin n) ℝ) :
    fro (A - Q' * (Q'ᵀ * A)) ≤ fro (A - A * S * X) + 3 * ε * fro A * fro S * fro X := by
  have hAS : fro (A * S) ≤ fro A * fro S := fro_mul_le _ _
  have ha := mul_nonneg (fro_nonneg A) (fro_nonneg S)
  have hYn : fro Y ≤ 2 * (fro A * fro S) := by
    have := fro_le_add Y (A * S)
    nlinarith
  have hE : fro (A * S - Q' * R) ≤ 3 * ε * fro A * fro S := by
    have h1 := fro_sub_le (A * S) Y (Q' * R)
    rw [fro_sub_comm (A * S) Y, fro_sub_comm Y (Q' * R)] at h1
    have h2 : ε * fro Y ≤ ε * (2 * (fro A * fro S)) := mul_le_mul_of_nonneg_left hYn hε
    linarith
  -- the projection annihilates `Q' R`
  have hP : A - Q' * (Q'ᵀ * A) = ((A - A * S * X) - Q' * (Q'ᵀ * (A - A * S * X))) +
      ((A * S - Q' * R) * X - Q' * (Q'ᵀ * ((A * S - Q' * R) * X))) := by
    have h0 : Q' * (Q'ᵀ * (Q' * R * X)) = Q' * R * X := by
      have : Q'ᵀ * Q' = 1 := hQ'
      rw [Matrix.mul_assoc Q' R X, ← Matrix.mul_assoc Q'ᵀ Q', this, Matrix.one_mul]
    simp only [Matrix.mul_sub, Matrix.sub_mul, h0]
    abel
  rw [hP]
  refine (fro_triangle _ _).trans (add_le_add (fro_proj_le hQ' _) ((fro_proj_le hQ' _).trans ?_))
  exact (fro_mul_le _ _).trans (mul_le_mul_of_nonneg_right hE (fro_nonneg _))

/-- the error of `A S X` for the natural choice of `X`, in terms of the singular values -/
theorem sketch_resid {r t l : ℕ} {A : Matrix (Fin m) (Fin n) ℝ} {U : Matrix (Fin m) (Fin r) ℝ} {s : Fin r → ℝ}
    {V : Matrix (Fin n) (Fin r) ℝ} (h : IsSVD A U s V) (ht : t ≤ r) (S : Matrix (Fin n) (Fin l) ℝ)
    (W : Matrix (Fin l) (Fin t) ℝ) (hW : ((Vᵀ * S).submatrix (Fin.castLE ht) id) * W = 1) :
    ∃ X : Matrix (Fin l) (Fin n) ℝ, fro X = fro W ∧
      froSq (A - A * S * X) = tailSq s t + froSq (diagonal (tail s t) * (Vᵀ * S * W)) := by
  obtain ⟨E, hE⟩ : ∃ E : Matrix (Fin t) (Fin r) ℝ, E = (1 : Matrix (Fin r) (Fin r) ℝ).submatrix (Fin.castLE ht) id :=
    ⟨_, rfl⟩
  have hEa : ∀ a b, E a b = if b.1 = a.1 then 1 else 0 := by
    intro a b
    rw [hE]
    simp [one_apply, Fin.ext_iff, eq_comm]
  have hEE : E * Eᵀ = 1 := by
    ext i j
    rw [mul_apply, Finset.sum_eq_single (Fin.castLE ht i)]
    · simp [hEa, one_apply, Fin.ext_iff]
    · intro b _ hb
      have : ¬ b.1 = i.1 := fun h' => hb (Fin.ext h')
      simp [hEa, this]
    · simp
  have hVt : Vᵀ * Vᵀᵀ = 1 := by rw [transpose_transpose]; exact h.right
  obtain ⟨Z, hZ⟩ : ∃ Z : Matrix (Fin r) (Fin t) ℝ, Z = Vᵀ * S * W := ⟨_, rfl⟩
  have hZtop : ∀ (i : Fin r) (hi : i.1 < t) (j : Fin t), Z i j = if i.1 = j.1 then 1 else 0 := by
    intro i hi j
    have := congrFun (congrFun hW ⟨i.1, hi⟩) j
    rw [one_apply] at this
    rw [hZ, mul_apply]
    rw [mul_apply] at this
    have e : Fin.castLE ht ⟨i.1, hi⟩ = i := Fin.ext rfl
    simp only [submatrix_apply, e, id] at this
    rw [this]
    simp [Fin.ext_iff]
  refine ⟨W * (E * Vᵀ), ?_, ?_⟩
  · unfold fro
    rw [froSq_mul_orth]
    rw [transpose_mul, Matrix.mul_assoc, ← Matrix.mul_assoc Vᵀ, hVt, Matrix.one_mul, hEE]
  · have e1 : A - A * S * (W * (E * Vᵀ)) = U * (diagonal s - diagonal s * Z * E) * Vᵀ := by
      have : A * S * (W * (E * Vᵀ)) = U * (diagonal s * Z * E) * Vᵀ := by
        conv_lhs => rw [h.eq]
        rw [hZ]
        simp only [Matrix.mul_assoc]
      rw [this]
      conv_lhs => rw [h.eq]
      rw [Matrix.mul_sub, Matrix.sub_mul]
    rw [e1, froSq_mul_orth hVt, froSq_orth_mul h.left]
    have e2 : diagonal s - diagonal s * Z * E = diagonal (tail s t) + -(diagonal (tail s t) * Z * E) := by
      ext i j
      simp only [Matrix.sub_apply, Matrix.add_apply, Matrix.neg_apply, Matrix.mul_assoc, diagonal_mul]
      by_cases hi : i.1 < t
      · have hz : (Z * E) i j = if i = j then 1 else 0 := by
          rw [mul_apply, Finset.sum_eq_single (⟨i.1, hi⟩ : Fin t)]
          · rw [hZtop i hi, hEa]
            simp [Fin.ext_iff, eq_comm]
          · intro b _ hb
            have : ¬ i.1 = b.1 := fun h' => hb (Fin.ext h'.symm)
            rw [hZtop i hi]; simp [this]
          · simp
        have ht0 : tail s t i = 0 := by simp [tail, hi]
        rw [hz, ht0, diagonal_apply, diagonal_apply, ht0]
        split_ifs <;> simp
      · have ht0 : tail s t i = s i := by simp [tail, hi]
        rw [diagonal_apply, diagonal_apply, ht0]
        ring
    rw [e2, ← froSq_transpose, transpose_add, froSq_add_of_orth, froSq_transpose, froSq_transpose, froSq_neg]
    · rw [froSq_mul_orth hEE, hZ]
      congr 1
      simp only [froSq, tailSq]
      refine Finset.sum_congr rfl fun i _ => ?_
      rw [Finset.sum_eq_single i]
      · simp
      · intro b _ hb; simp [diagonal_apply_ne' _ hb]
      · simp
    · rw [transpose_transpose, transpose_neg, Matrix.mul_neg, neg_eq_zero, transpose_mul, ← Matrix.mul_assoc]
      have : diagonal (tail s t) * Eᵀ = 0 := by
        ext i j
        rw [diagonal_mul, transpose_apply, hEa]
        by_cases hi : i.1 < t
        · simp [tail, hi]
        · have : ¬ i.1 = j.1 := by have := j.2; omega
          simp [this]
      rw [this, Matrix.zero_mul]

end Parla.Proof
