import Verif.Proof.LowRank
import Verif.Props.AlmostSure
import Verif.Props.SVD
import Verif.Props.EVD1

/-! # C61, C62: how far from the best approximation the rangefinder, QB and SVD1 are -/

namespace Parla.Props

open Matrix Parla Spec MeasureTheory

variable {G : Type} {m n r : ℕ}

/-- the first `t` rows -/
def firstRows {r l t : ℕ} (ht : t ≤ r) (M : Matrix (Fin r) (Fin l) ℝ) : Matrix (Fin t) (Fin l) ℝ :=
  M.submatrix (Fin.castLE ht) id

/-- the error of projecting onto (at least) the range of `A S`, `S` a power sketch -/
theorem rs1_bound (la : LinAlg) (gen : SkOpGen G) (A : Matrix (Fin m) (Fin n) ℝ)
    {U : Matrix (Fin m) (Fin r) ℝ} {s : Fin r → ℝ} {V : Matrix (Fin n) (Fin r) ℝ} (hA : IsSVD A U s V)
    (t : ℕ) (ht : t ≤ r) (hpos : ∀ j : Fin t, 0 < s (Fin.castLE ht j)) (τ : ℝ)
    (hτ : ∀ (i : Fin r) (j : Fin t), t ≤ i.1 → s i ≤ τ * s (Fin.castLE ht j))
    (p : ℤ) (k : ℕ) (w w' : World G) (S : Cols n)
    (h : rs1Call gen p (orth la) 1 A k w = .ok (S, w')) {c : ℕ} {Q : Matrix (Fin m) (Fin c) ℝ}
    (hQ : OrthoCols Q) (hAS : colSpace (A * S.mat) ≤ colSpace Q) :
    (p % 2 = 0 → ∃ S0 w₁, gen n k w = .ok (S0, w₁) ∧
      ∀ W : Matrix (Fin k) (Fin t) ℝ, firstRows ht (Vᵀ * S0) * W = 1 →
        froSq (A - Q * (Qᵀ * A)) ≤ tailSq s t +
          τ ^ (2 * p.toNat) * froSq (diagonal (tail s t) * (Vᵀ * S0 * W))) ∧
    (p % 2 = 1 → ∃ S0 w₁, gen m k w = .ok (S0, w₁) ∧
      ∀ W : Matrix (Fin k) (Fin t) ℝ, firstRows ht (Uᵀ * S0) * W = 1 →
        froSq (A - Q * (Qᵀ * A)) ≤ tailSq s t +
          τ ^ (2 * p.toNat) * froSq (diagonal (tail s t) * (Uᵀ * S0 * W))) := by
  obtain ⟨h1, h2⟩ := C02_rs1_range_parla la gen p (orth la) (Or.inl rfl) 1 A k w w' S h
  have hp : 0 ≤ p := (rs1Call_open h).1
  constructor
  · intro hev
    obtain ⟨S0, ⟨w₁, hg⟩, hle, -⟩ := h1 hev
    refine ⟨S0, w₁, hg, fun W hW => ?_⟩
    refine Proof.range_bound hA ht hpos τ hτ p.toNat (Vᵀ * S0) W hW hQ (le_trans (le_of_eq ?_)
      ((colSpace_mul_mono A hle).trans hAS))
    rw [← Matrix.mul_assoc A, Proof.svd_power hA, Matrix.mul_assoc _ Vᵀ,
      show 2 * (p / 2).toNat + 1 = p.toNat + 1 by omega]
  · intro hodd
    obtain ⟨S0, ⟨w₁, hg⟩, hle, -⟩ := h2 hodd
    refine ⟨S0, w₁, hg, fun W hW => ?_⟩
    refine Proof.range_bound hA ht hpos τ hτ p.toNat (Uᵀ * S0) W hW hQ (le_trans (le_of_eq ?_)
      ((colSpace_mul_mono A hle).trans hAS))
    rw [← Matrix.mul_assoc A, Proof.svd_power hA]
    have e : Vᵀ * (Aᵀ * S0) = diagonal s * (Uᵀ * S0) := by
      rw [hA.eq, transpose_mul, transpose_mul, transpose_transpose, diagonal_transpose]
      simp only [← Matrix.mul_assoc]
      rw [show Vᵀ * V = 1 from hA.right, Matrix.one_mul]
    rw [Matrix.mul_assoc _ Vᵀ, e, ← Matrix.mul_assoc _ (diagonal s), Matrix.mul_assoc U _ (diagonal s),
      diagonal_mul_diagonal]
    simp only [← pow_succ]
    rw [show 2 * ((p - 1) / 2).toNat + 1 + 1 = p.toNat + 1 by omega]

/-- **C61** (nothing is better).  For every `A` with singular values `s` (in any singular value
decomposition), the squared error of every approximation of rank at most `k` is at least the sum of the
squares of the singular values after the first `k`, and this holds in particular for the projection onto the
`k` columns that `rf1` returns. -/
theorem C61_rf1_lower (la : LinAlg) (gauss : SkOpGen G) (A : Matrix (Fin m) (Fin n) ℝ)
    {U : Matrix (Fin m) (Fin r) ℝ} {s : Fin r → ℝ} {V : Matrix (Fin n) (Fin r) ℝ} (hA : IsSVD A U s V)
    (k p : ℤ) (w w' : World G) (Q : Cols m) (h : rf1 la gauss A k p w = .ok (Q, w')) :
    tailSq s k.toNat ≤ fro (A - Q.mat * (Q.matᵀ * A)) ^ 2 ∧
    ∀ X : Matrix (Fin m) (Fin n) ℝ, X.rank ≤ k.toNat → tailSq s k.toNat ≤ fro (A - X) ^ 2 := by
  obtain ⟨h1, h2, h3, h4, -⟩ := C01_rf1_procedural la gauss A k p w w' Q h
  simp only [fro_sq]
  refine ⟨?_, fun X hX => Proof.ey_rank hA X hX⟩
  have : k.toNat = Q.c := by omega
  rw [this]
  exact Proof.ey_proj hA h4

/-- **C61** (rangefinder error).  Let `s` be the singular values of `A`, with the first `t` positive and
`s_i ≤ τ s_j` for `i ≥ t > j`.  Whenever `rf1(A, k, p, rng)` returns `Q`, and the start `S0` of its power
iteration is such that the first `t` rows of `Ω = V'S0` (`U'S0` for even `p`) have a right inverse `W`,

  `‖A - QQ'A‖² ≤ ∑_{i≥t} s_i² + τ^(2(p-1)) ‖diag(0,..,0,s_t,..) Ω W‖²`. -/
theorem C61_rf1_error (la : LinAlg) (gauss : SkOpGen G) (A : Matrix (Fin m) (Fin n) ℝ)
    {U : Matrix (Fin m) (Fin r) ℝ} {s : Fin r → ℝ} {V : Matrix (Fin n) (Fin r) ℝ} (hA : IsSVD A U s V)
    (t : ℕ) (ht : t ≤ r) (hpos : ∀ j : Fin t, 0 < s (Fin.castLE ht j)) (τ : ℝ)
    (hτ : ∀ (i : Fin r) (j : Fin t), t ≤ i.1 → s i ≤ τ * s (Fin.castLE ht j))
    (k p : ℤ) (w w' : World G) (Q : Cols m) (h : rf1 la gauss A k p w = .ok (Q, w')) :
    ((p - 1) % 2 = 0 → ∃ S0 w₁, gauss n k.toNat { w with warns := w.warns + 1 } = .ok (S0, w₁) ∧
      ∀ W : Matrix (Fin k.toNat) (Fin t) ℝ, firstRows ht (Vᵀ * S0) * W = 1 →
        fro (A - Q.mat * (Q.matᵀ * A)) ^ 2 ≤ tailSq s t +
          τ ^ (2 * (p - 1).toNat) * fro (diagonal (tail s t) * (Vᵀ * S0 * W)) ^ 2) ∧
    ((p - 1) % 2 = 1 → ∃ S0 w₁, gauss m k.toNat { w with warns := w.warns + 1 } = .ok (S0, w₁) ∧
      ∀ W : Matrix (Fin k.toNat) (Fin t) ℝ, firstRows ht (Uᵀ * S0) * W = 1 →
        fro (A - Q.mat * (Q.matᵀ * A)) ^ 2 ≤ tailSq s t +
          τ ^ (2 * (p - 1).toNat) * fro (diagonal (tail s t) * (Uᵀ * S0 * W)) ^ 2) := by
  obtain ⟨-, -, -, h4, S, w1, h5, h6⟩ := C01_rf1_procedural la gauss A k p w w' Q h
  simp only [fro_sq]
  exact rs1_bound la gauss A hA t ht hpos τ hτ (p - 1) k.toNat _ w1 S h5 h4 h6

/-- **C61** for `qb(num_passes, A, k, rng)`: the same bound, with two passes less in the power of `τ`, for
the approximation `Q B` it returns. -/
theorem C61_qb_error (la : LinAlg) (gauss : SkOpGen G) (A : Matrix (Fin m) (Fin n) ℝ)
    {U : Matrix (Fin m) (Fin r) ℝ} {s : Fin r → ℝ} {V : Matrix (Fin n) (Fin r) ℝ} (hA : IsSVD A U s V)
    (t : ℕ) (ht : t ≤ r) (hpos : ∀ j : Fin t, 0 < s (Fin.castLE ht j)) (τ : ℝ)
    (hτ : ∀ (i : Fin r) (j : Fin t), t ≤ i.1 → s i ≤ τ * s (Fin.castLE ht j))
    (k p : ℤ) (w w' : World G) (out : QBOut m n) (h : qb la gauss p A k w = .ok (out, w')) :
    (out.c : ℤ) ≤ k ∧ tailSq s k.toNat ≤ fro (A - out.Q * out.B) ^ 2 ∧
    ((p - 2) % 2 = 0 → ∃ S0 w₁, gauss n k.toNat w = .ok (S0, w₁) ∧
      ∀ W : Matrix (Fin k.toNat) (Fin t) ℝ, firstRows ht (Vᵀ * S0) * W = 1 →
        fro (A - out.Q * out.B) ^ 2 ≤ tailSq s t +
          τ ^ (2 * (p - 2).toNat) * fro (diagonal (tail s t) * (Vᵀ * S0 * W)) ^ 2) ∧
    ((p - 2) % 2 = 1 → ∃ S0 w₁, gauss m k.toNat w = .ok (S0, w₁) ∧
      ∀ W : Matrix (Fin k.toNat) (Fin t) ℝ, firstRows ht (Uᵀ * S0) * W = 1 →
        fro (A - out.Q * out.B) ^ 2 ≤ tailSq s t +
          τ ^ (2 * (p - 2).toNat) * fro (diagonal (tail s t) * (Uᵀ * S0 * W)) ^ 2) := by
  unfold qb qb1Call at h
  rw [Py.bind_ok_iff] at h; obtain ⟨_, w0, ha, h⟩ := h
  rw [Py.assert_ok_iff] at ha; obtain ⟨hk, rfl⟩ := ha
  rw [Py.bind_ok_iff] at h; obtain ⟨_, w0, ha, h⟩ := h
  rw [Py.assert_ok_iff] at ha; obtain ⟨hk', rfl⟩ := ha
  rw [Py.bind_ok_iff] at h; obtain ⟨_, w0, ha, h⟩ := h
  cases ha
  rw [Py.bind_ok_iff] at h; obtain ⟨Q, w1, h1, h⟩ := h
  rw [Py.bind_eq_of_ok (Py.emit_apply _ _)] at h
  cases h
  unfold RF1 rf1Call at h1
  rw [Py.assert_pos_bind hk, Py.assert_pos_bind hk'] at h1
  have h1 : (RS1 gauss (p - 2) (orth la) 1 m n A k.toNat >>= fun S => passA A S >>= fun Y =>
      pure ⟨_, (la.qr Y.mat).1⟩) w0 = .ok (Q, w1) := h1
  rw [Py.bind_ok_iff] at h1; obtain ⟨S, w2, h2, h1⟩ := h1
  rw [Py.bind_ok_iff] at h1; obtain ⟨Y, w3, h3, h1⟩ := h1
  unfold passA at h3
  rw [Py.bind_eq_of_ok (Py.emit_apply _ _)] at h3
  cases h3
  cases h1
  have hSc : S.c ≤ k.toNat := by
    rw [rs1Call_width_eq (fun _ _ => rfl) (by omega) h2]
  simp only [fro_sq]
  refine ⟨?_, ?_, rs1_bound la gauss A hA t ht hpos τ hτ (p - 2) k.toNat w0 w2 S h2 (la.qr_orth _)
    (qr_range la _)⟩
  · have : ((min m S.c : ℕ) : ℤ) ≤ k := by omega
    exact this
  · refine (Proof.tailSq_anti s ?_).trans (Proof.ey_proj hA (la.qr_orth (A * S.mat)))
    omega

theorem firstRows_transpose {a l t : ℕ} (ht : t ≤ r) (V : Matrix (Fin a) (Fin r) ℝ)
    (S : Matrix (Fin a) (Fin l) ℝ) :
    firstRows ht (Vᵀ * S) = (V.submatrix id (Fin.castLE ht))ᵀ * S := by
  unfold firstRows
  ext i j
  simp [mul_apply]

/-- the rows of a Gaussian start along `k` given orthonormal directions are invertible, almost surely -/
theorem rows_inv_ae {a k : ℕ} (hk : k ≤ r) {V : Matrix (Fin a) (Fin r) ℝ} (hV : OrthoCols V) :
    ∀ᵐ Z ∂(normals a k), ∃ W : Matrix (Fin k) (Fin k) ℝ, firstRows hk (Vᵀ * Proof.drawMat Z) * W = 1 := by
  filter_upwards [Proof.ae_rank_mul (μ := stdNormal) (V.submatrix id (Fin.castLE hk))ᵀ k] with Z hZ
  have h1 : (V.submatrix id (Fin.castLE hk)).rank = k :=
    orthoCols_rank (orth_submatrix hV (Fin.castLE_injective hk))
  rw [rank_transpose, h1, min_self, ← firstRows_transpose] at hZ
  have h2 : FullColRank (firstRows hk (Vᵀ * Proof.drawMat Z)) := hZ
  have h3 := h2.gram_unit
  rw [det_mul, det_transpose] at h3
  have h4 : IsUnit (firstRows hk (Vᵀ * Proof.drawMat Z)).det := isUnit_of_mul_isUnit_right h3
  exact ⟨_, Matrix.mul_nonsing_inv _ h4⟩

/-- **C61** (rate of convergence in the number of passes).  Let `0 < k ≤ min(m, n)`, the first `k` singular
values of `A` positive and `s_i ≤ τ s_j` for `i ≥ k > j`.  For almost every Gaussian draw `Z` there is a
constant `C` such that, whatever the number of passes, `rf1(A, k, p, rng)` returns a `Q` with

  `∑_{i≥k} s_i² ≤ ‖A - QQ'A‖² ≤ ∑_{i≥k} s_i² + τ^(2(p-1)) C`.

(The draw has the shape of `A`'s right singular vectors for odd `p` and of the left ones for even `p`.)
In particular the error converges to the best possible one if `τ < 1`. -/
theorem C61_rf1_rate (A : Matrix (Fin m) (Fin n) ℝ)
    {U : Matrix (Fin m) (Fin r) ℝ} {s : Fin r → ℝ} {V : Matrix (Fin n) (Fin r) ℝ} (hA : IsSVD A U s V)
    (k : ℕ) (hk : 0 < k) (hk' : k ≤ min m n) (hkr : k ≤ r) (hpos : ∀ j : Fin k, 0 < s (Fin.castLE hkr j))
    (τ : ℝ) (hτ : ∀ (i : Fin r) (j : Fin k), k ≤ i.1 → s i ≤ τ * s (Fin.castLE hkr j)) :
    (∀ᵐ Z ∂(normals n k), ∃ C : ℝ, ∀ (G : Type) (la : LinAlg) (R : NpRng G) (w : World G) (q : ℕ),
      NextNormal R w n k Z →
      ∃ Q w', rf1 la (gaussianOperator R true) A k (2 * q + 1) w = .ok (Q, w') ∧
        tailSq s k ≤ fro (A - Q.mat * (Q.matᵀ * A)) ^ 2 ∧
        fro (A - Q.mat * (Q.matᵀ * A)) ^ 2 ≤ tailSq s k + τ ^ (4 * q) * C) ∧
    (∀ᵐ Z ∂(normals m k), ∃ C : ℝ, ∀ (G : Type) (la : LinAlg) (R : NpRng G) (w : World G) (q : ℕ),
      NextNormal R w m k Z →
      ∃ Q w', rf1 la (gaussianOperator R true) A k (2 * q + 2) w = .ok (Q, w') ∧
        tailSq s k ≤ fro (A - Q.mat * (Q.matᵀ * A)) ^ 2 ∧
        fro (A - Q.mat * (Q.matᵀ * A)) ^ 2 ≤ tailSq s k + τ ^ (4 * q + 2) * C) := by
  have ret : ∀ {G : Type} (la : LinAlg) (R : NpRng G) (w : World G) (p : ℤ), 1 ≤ p →
      ∃ Q w', rf1 la (gaussianOperator R true) A k p w = .ok (Q, w') := by
    intro G la R w p hp
    obtain ⟨S, w1, h1, -⟩ := rs1Call_total (gaussianOperator R true) (p - 1) (by omega) (orth la) A k
      { w with warns := w.warns + 1 } _ _ ((C55_gaussian_result R _ k _).1 (by
        unfold startRows; split <;> omega))
    have h1' : RS1 (gaussianOperator R true) (p - 1) (orth la) 1 m n A (k : ℤ).toNat
        { w with warns := w.warns + 1 } = .ok (S, w1) := by
      rw [Int.toNat_natCast]; exact h1
    refine ⟨⟨_, (la.qr (A * S.mat)).1⟩, { w1 with trace := w1.trace ++ [.mulA] }, ?_⟩
    unfold rf1 rf1Call
    rw [Py.assert_pos_bind (by exact_mod_cast hk), Py.assert_pos_bind (by exact_mod_cast hk')]
    simp only [Tol.not_isNaN_val, not_false_eq_true, if_true]
    rw [Py.bind_eq_of_ok (Py.warn_apply w), Py.bind_eq_of_ok h1']
    rfl
  have scale : ∀ {a : ℕ} {X : Matrix (Fin a) (Fin r) ℝ} {M : Matrix (Fin a) (Fin k) ℝ}
      {W : Matrix (Fin k) (Fin k) ℝ} {t : ℝ}, t ≠ 0 → firstRows hkr (Xᵀ * M) * W = 1 →
      firstRows hkr (Xᵀ * (t • M)) * (t⁻¹ • W) = 1 ∧ Xᵀ * (t • M) * (t⁻¹ • W) = Xᵀ * M * W := by
    intro a X M W t ht h
    rw [Matrix.mul_smul Xᵀ]
    have : firstRows hkr (t • (Xᵀ * M)) = t • firstRows hkr (Xᵀ * M) := rfl
    rw [this]
    simp only [Matrix.smul_mul, Matrix.mul_smul, smul_smul, inv_mul_cancel₀ ht, one_smul]
    exact ⟨h, trivial⟩
  constructor
  · filter_upwards [rows_inv_ae hkr hA.right] with Z ⟨W, hW⟩
    refine ⟨fro (diagonal (tail s k) * (Vᵀ * Proof.drawMat Z * W)) ^ 2, fun G la R w q hw => ?_⟩
    obtain ⟨Q, w', hQ⟩ := ret la R w (2 * q + 1) (by omega)
    refine ⟨Q, w', hQ, by simpa using (C61_rf1_lower la _ A hA k _ w w' Q hQ).1, ?_⟩
    obtain ⟨S0, w₁, g1, g2⟩ := (C61_rf1_error la _ A hA k hkr hpos τ hτ k _ w w' Q hQ).1 (by omega)
    obtain ⟨t, ht, hgen⟩ := gaussian_next R (r := n) (c := k) (by omega)
      (w := { w with warns := w.warns + 1 }) hw
    have g1' : gaussianOperator R true n k { w with warns := w.warns + 1 } = .ok (S0, w₁) := g1
    rw [hgen] at g1'
    cases g1'
    obtain ⟨e1, e2⟩ := scale ht hW
    have := g2 _ e1
    rw [show Vᵀ * (t • Proof.drawMat Z) * (t⁻¹ • W) = _ from e2] at this
    refine this.trans (le_of_eq ?_)
    rw [show 2 * ((2 * (q : ℤ) + 1) - 1).toNat = 4 * q by omega]
  · filter_upwards [rows_inv_ae hkr hA.left] with Z ⟨W, hW⟩
    refine ⟨fro (diagonal (tail s k) * (Uᵀ * Proof.drawMat Z * W)) ^ 2, fun G la R w q hw => ?_⟩
    obtain ⟨Q, w', hQ⟩ := ret la R w (2 * q + 2) (by omega)
    refine ⟨Q, w', hQ, by simpa using (C61_rf1_lower la _ A hA k _ w w' Q hQ).1, ?_⟩
    obtain ⟨S0, w₁, g1, g2⟩ := (C61_rf1_error la _ A hA k hkr hpos τ hτ k _ w w' Q hQ).2 (by omega)
    obtain ⟨t, ht, hgen⟩ := gaussian_next R (r := m) (c := k) (by omega)
      (w := { w with warns := w.warns + 1 }) hw
    have g1' : gaussianOperator R true m k { w with warns := w.warns + 1 } = .ok (S0, w₁) := g1
    rw [hgen] at g1'
    cases g1'
    obtain ⟨e1, e2⟩ := scale ht hW
    have := g2 _ e1
    rw [show Uᵀ * (t • Proof.drawMat Z) * (t⁻¹ • W) = _ from e2] at this
    refine this.trans (le_of_eq ?_)
    rw [show 2 * ((2 * (q : ℤ) + 2) - 1).toNat = 4 * q + 2 by omega]

/-- the best approximation of rank `k` -/
theorem exists_best {A : Matrix (Fin m) (Fin n) ℝ}
    {U : Matrix (Fin m) (Fin r) ℝ} {s : Fin r → ℝ} {V : Matrix (Fin n) (Fin r) ℝ} (hA : IsSVD A U s V) (k : ℕ) :
    ∃ X : Matrix (Fin m) (Fin n) ℝ, X.rank ≤ k ∧ froSq (A - X) = tailSq s k := by
  obtain ⟨D, hD⟩ : ∃ D : Matrix (Fin r) (Fin r) ℝ, D = diagonal (fun i : Fin r => if i.1 < k then s i else 0) :=
    ⟨_, rfl⟩
  refine ⟨U * D * Vᵀ, ?_, ?_⟩
  · rw [Matrix.mul_assoc U]
    refine (Matrix.rank_mul_le_right _ _).trans ((Matrix.rank_mul_le_left _ _).trans ?_)
    rw [hD, Matrix.rank_diagonal]
    refine (Fintype.card_le_of_injective (β := Fin k) (fun i => ⟨i.1.1, ?_⟩) ?_).trans_eq (Fintype.card_fin k)
    · by_contra h
      exact i.2 (if_neg h)
    · intro i j h
      have : i.1.1 = j.1.1 := by simpa using h
      exact Subtype.ext (Fin.ext this)
  · have e : A - U * D * Vᵀ = U * diagonal (tail s k) * Vᵀ := by
      conv_lhs => rw [hA.eq]
      rw [← Matrix.sub_mul, ← Matrix.mul_sub, hD, diagonal_sub]
      congr 3
      funext i
      unfold tail
      split <;> simp
    rw [e, froSq_mul_orth (V := Vᵀ) (by rw [transpose_transpose]; exact hA.right), froSq_orth_mul hA.left,
      Proof.froSq_diag]
    rfl

/-- the singular values of the small factor are dominated by those of `A` -/
theorem tail_small_le (la : LinAlg) {c : ℕ} {A : Matrix (Fin m) (Fin n) ℝ}
    {U : Matrix (Fin m) (Fin r) ℝ} {s : Fin r → ℝ} {V : Matrix (Fin n) (Fin r) ℝ} (hA : IsSVD A U s V)
    {Q : Matrix (Fin m) (Fin c) ℝ} (hQ : OrthoCols Q) (k : ℕ) :
    tailSq (la.svd (Qᵀ * A)).2.1 k ≤ tailSq s k := by
  have hB : IsSVD (Qᵀ * A) (la.svd (Qᵀ * A)).1 (la.svd (Qᵀ * A)).2.1 (la.svd (Qᵀ * A)).2.2ᵀ :=
    ⟨la.svd_left _, by unfold OrthoCols; rw [transpose_transpose]; exact la.svd_right _, la.svd_nonneg _,
      la.svd_anti _, by rw [transpose_transpose]; exact (la.svd_mul _).symm⟩
  obtain ⟨X, hX, he⟩ := exists_best hA k
  refine (Proof.ey_rank hB (Qᵀ * X) ((Matrix.rank_mul_le_right _ _).trans hX)).trans ?_
  rw [← Matrix.mul_sub, ← he]
  exact Proof.froSq_orth_transpose_mul_le hQ _

/-- **C62**.  If the QB step returns an orthonormal `Q` with `B = Q'A`, the approximation `U S Vh` that `SVD1`
returns for target rank `k` is optimal up to the error of the QB factorisation and the singular values below
`10 eps` that it drops:

  `∑_{i≥k} s_i² ≤ ‖A - U S Vh‖² ≤ ∑_{i≥k} s_i² + ‖A - QB‖² + (10 eps)² min(c, n)`

where `s` are the singular values of `A` and `c` is the number of columns of `Q`. -/
theorem C62_svd1_near_optimal (la : LinAlg) (qb : QBDecomposer G) (A : Matrix (Fin m) (Fin n) ℝ)
    {U : Matrix (Fin m) (Fin r) ℝ} {s : Fin r → ℝ} {V : Matrix (Fin n) (Fin r) ℝ} (hA : IsSVD A U s V)
    (k : ℕ) (tol : Tol) (over : ℕ) (w w' : World G) (qbo : QBOut m n)
    (hqb : qb m n A ((k + over : ℕ) : ℤ) tol w = .ok (qbo, w'))
    (hQ : OrthoCols qbo.Q) (hB : qbo.B = qbo.Qᵀ * A) (hc : qbo.c ≤ k + over) :
    ∃ out : SVDOut m n, svd1Call la qb A k tol over w = .ok (out, w') ∧
      tailSq s k ≤ fro (A - out.U * diagonal out.s * out.Vh) ^ 2 ∧
      fro (A - out.U * diagonal out.s * out.Vh) ^ 2 ≤
        tailSq s k + fro (A - qbo.Q * qbo.B) ^ 2 + (10 * eps) ^ 2 * (min qbo.c n : ℕ) := by
  obtain ⟨out, h1, h2, -, -, -, -, -, -, h8, h9⟩ := C12_svd1_valid la qb A k tol over w w' qbo hqb hQ hc
  refine ⟨out, h1, ?_, ?_⟩
  · rw [fro_sq]
    refine Proof.ey_rank hA _ ?_
    rw [Matrix.mul_assoc]
    exact (Matrix.rank_mul_le_left _ _).trans ((Matrix.rank_le_width _).trans h2)
  · rw [h9 hB]
    have h3 := tail_small_le la hA hQ k
    rw [← hB] at h3
    have h4 : ∑ j ∈ Finset.univ.filter (fun j : Fin (min qbo.c n) => out.r ≤ j.1), (la.svd qbo.B).2.1 j ^ 2 ≤
        ∑ j : Fin (min qbo.c n), (tail (la.svd qbo.B).2.1 k j ^ 2 + (10 * eps) ^ 2) := by
      rw [Finset.sum_filter]
      refine Finset.sum_le_sum fun j _ => ?_
      have he : 0 ≤ (10 * eps) ^ 2 := sq_nonneg _
      split
      · rename_i hj
        rcases h8 j hj with ⟨-, hkj⟩ | hlt
        · unfold tail
          rw [if_neg (by omega)]; linarith
        · have := pow_le_pow_left₀ (la.svd_nonneg qbo.B j) hlt.le 2
          linarith [sq_nonneg (tail (la.svd qbo.B).2.1 k j)]
      · positivity
    rw [Finset.sum_add_distrib, Finset.sum_const, Finset.card_univ, Fintype.card_fin, nsmul_eq_mul] at h4
    have h5 : ∑ j, tail (la.svd qbo.B).2.1 k j ^ 2 = tailSq (la.svd qbo.B).2.1 k := rfl
    rw [h5] at h4
    linarith

/-- a singular value decomposition from a spectral one -/
theorem isSVD_of_eigh (la : LinAlg) {c : ℕ} {C : Matrix (Fin c) (Fin c) ℝ} (hC : Cᵀ = C) :
    ∃ (U V : Matrix (Fin c) (Fin c) ℝ) (σ : Equiv.Perm (Fin c)),
      IsSVD C U (fun i => |(la.eigh C).1 (σ i)|) V := by
  obtain ⟨lam, hlam⟩ : ∃ lam, lam = (la.eigh C).1 := ⟨_, rfl⟩
  obtain ⟨W, hW⟩ : ∃ W, W = (la.eigh C).2 := ⟨_, rfl⟩
  have hWo : Wᵀ * W = 1 := hW ▸ la.eigh_orth C hC
  have hWC : W * diagonal lam * Wᵀ = C := by rw [hW, hlam]; exact la.eigh_mul C hC
  rw [← hlam]
  obtain ⟨σ, hσ⟩ : ∃ σ, σ = la.argsort (fun i => -|lam i|) := ⟨_, rfl⟩
  have hmono : Monotone ((fun i => -|lam i|) ∘ σ) := hσ ▸ la.argsort_mono _
  obtain ⟨g, hg⟩ : ∃ g : Fin c → ℝ, g = fun i => if lam (σ i) < 0 then -1 else 1 := ⟨_, rfl⟩
  have hg2 : ∀ i, g i * g i = 1 := by intro i; rw [hg]; dsimp only; split <;> norm_num
  have hgl : ∀ i, |lam (σ i)| * g i = lam (σ i) := by
    intro i; rw [hg]; dsimp only
    split
    · rename_i h; rw [abs_of_neg h]; ring
    · rename_i h; rw [abs_of_nonneg (not_lt.1 h)]; ring
  have hWσ : (W.submatrix id σ)ᵀ * W.submatrix id σ = 1 := by
    have h : (W.submatrix id σ)ᵀ * W.submatrix id σ = (Wᵀ * W).submatrix σ σ := by
      ext i j; simp [mul_apply]
    rw [h, hWo]
    ext i j; simp [one_apply]
  refine ⟨W.submatrix id σ, W.submatrix id σ * diagonal g, σ, hWσ, ?_, fun i => abs_nonneg _, ?_, ?_⟩
  · unfold OrthoCols
    rw [transpose_mul, diagonal_transpose, Matrix.mul_assoc, ← Matrix.mul_assoc _ _ (diagonal g), hWσ,
      Matrix.one_mul, diagonal_mul_diagonal]
    simp only [hg2]
    exact diagonal_one
  · intro i j hij
    have := hmono hij
    simp only [Function.comp] at this
    linarith
  · rw [transpose_mul, diagonal_transpose, ← Matrix.mul_assoc, Matrix.mul_assoc _ (diagonal _) (diagonal g),
      diagonal_mul_diagonal]
    simp only [hgl]
    rw [← hWC]
    have : diagonal (fun i => lam (σ i)) = (diagonal lam).submatrix σ σ := by
      ext i j; simp [diagonal_apply]
    rw [this, transpose_submatrix, submatrix_mul_equiv, submatrix_mul_equiv]
    rfl

/-- the largest values have the largest sum -/
theorem top_sum {ι : Type} [Fintype ι] [DecidableEq ι] (f : ι → ℝ) (T T' : Finset ι) (hc : T'.card = T.card)
    (h : ∀ i ∈ T, ∀ j ∉ T, f j ≤ f i) : ∑ j ∈ T', f j ≤ ∑ j ∈ T, f j := by
  obtain ⟨τ, h1, h2⟩ : ∃ τ, (∀ i ∈ T, τ ≤ f i) ∧ ∀ j ∉ T, f j ≤ τ ∨ T = ∅ := by
    rcases T.eq_empty_or_nonempty with rfl | hT
    · exact ⟨0, by simp, by simp⟩
    · obtain ⟨i, hi, hmin⟩ := T.exists_min_image f hT
      exact ⟨f i, hmin, fun j hj => Or.inl (h i hi j hj)⟩
  have e1 : ∑ j ∈ T', (f j - τ) ≤ ∑ j ∈ T, (f j - τ) := by
    rw [← Finset.sum_inter_add_sum_sdiff T' T, ← Finset.sum_inter_add_sum_sdiff T T', Finset.inter_comm T' T]
    refine add_le_add le_rfl ?_
    have a1 : ∑ j ∈ T' \ T, (f j - τ) ≤ 0 := by
      refine Finset.sum_nonpos fun j hj => ?_
      rw [Finset.mem_sdiff] at hj
      rcases h2 j hj.2 with h | h
      · linarith
      · subst h
        rw [Finset.card_empty, Finset.card_eq_zero] at hc
        rw [hc] at hj
        simp at hj
    have a2 : 0 ≤ ∑ j ∈ T \ T', (f j - τ) := by
      refine Finset.sum_nonneg fun j hj => ?_
      rw [Finset.mem_sdiff] at hj
      linarith [h1 j hj.1]
    linarith
  rw [Finset.sum_sub_distrib, Finset.sum_sub_distrib, Finset.sum_const, Finset.sum_const, hc] at e1
  linarith

/-- **C62** (EVD1).  If the QB step returns an orthonormal `Q` with `B = Q'A`, the approximation
`V diag(lamb) V'` that `EVD1` returns for the symmetric matrix `A` and target rank `k` is optimal up to the error of
the QB factorisation and the eigenvalues below `10 eps` that it drops:

  `√(∑_{i≥k} s_i²) ≤ ‖A - V diag(lamb) V'‖ ≤ √2 ‖A - QB‖ + √(∑_{i≥k} s_i² + (10 eps)² c)`

where `s` are the singular values of `A` (the magnitudes of its eigenvalues) and `c` is the number of columns of
`Q`. -/
theorem C62_evd1_near_optimal (la : LinAlg) (qb : QBDecomposer G) (A : Matrix (Fin n) (Fin n) ℝ) (hsym : Aᵀ = A)
    {U : Matrix (Fin n) (Fin r) ℝ} {s : Fin r → ℝ} {V : Matrix (Fin n) (Fin r) ℝ} (hA : IsSVD A U s V)
    (k : ℤ) (hk : 0 < k) (hk' : k ≤ n) (tol : Tol) (htol : tol = .nan ∨ ∃ t, tol = .val t ∧ 0 ≤ t) (over : ℕ)
    (w w' : World G) (qbo : QBOut n n) (hqb : qb n n A (k + over) tol.half w = .ok (qbo, w'))
    (hQ : OrthoCols qbo.Q) (hB : qbo.B = qbo.Qᵀ * A) :
    ∃ out : EVDOut n, evd1Call la qb A k tol over w = .ok (out, w') ∧
      √(tailSq s k.toNat) ≤ fro (A - out.V * diagonal out.lamb * out.Vᵀ) ∧
      fro (A - out.V * diagonal out.lamb * out.Vᵀ) ≤
        √2 * fro (A - qbo.Q * qbo.B) + √(tailSq s k.toNat + (10 * eps) ^ 2 * qbo.c) := by
  classical
  obtain ⟨out, h1, -, -, h4, h5, I, hI1, hI2, hI3, hI4⟩ := C14_evd1_valid la qb A hsym k hk hk' tol htol over w w'
    qbo hqb hQ hB
  obtain ⟨C, hCdef⟩ : ∃ C, C = qbo.Qᵀ * A * qbo.Q := ⟨_, rfl⟩
  rw [← hCdef] at h5 hI2 hI3 hI4
  have hCs : Cᵀ = C := by
    rw [hCdef]; simp only [transpose_mul, transpose_transpose, hsym, Matrix.mul_assoc]
  obtain ⟨lam, hlam⟩ : ∃ lam, lam = (la.eigh C).1 := ⟨_, rfl⟩
  rw [← hlam] at h5 hI2 hI3 hI4
  have hrk : out.r ≤ k.toNat := by rw [h5]; exact min_le_left _ _
  have hs0 : 0 ≤ tailSq s k.toNat := Finset.sum_nonneg fun _ _ => sq_nonneg _
  refine ⟨out, h1, ?_, ?_⟩
  · rw [show fro _ = √(froSq _) from rfl]
    refine Real.sqrt_le_sqrt (Proof.ey_rank hA _ ?_)
    rw [Matrix.mul_assoc]
    exact (Matrix.rank_mul_le_left _ _).trans ((Matrix.rank_le_width _).trans hrk)
  have hsum : ∑ j ∈ Finset.univ.filter (fun j => j ∉ Set.range I), lam j ^ 2 ≤
      tailSq s k.toNat + (10 * eps) ^ 2 * qbo.c := by
    by_cases hr : out.r = k.toNat
    · -- the `k` largest are kept
      obtain ⟨U', V', σ, hsvd⟩ := isSVD_of_eigh la hCs
      rw [← hlam] at hsvd
      obtain ⟨X, hX, he⟩ := exists_best hA k.toNat
      have h6 : tailSq (fun i => |lam (σ i)|) k.toNat ≤ tailSq s k.toNat := by
        refine (Proof.ey_rank hsvd (qbo.Qᵀ * X * qbo.Q) ?_).trans ?_
        · exact (Matrix.rank_mul_le_left _ _).trans ((Matrix.rank_mul_le_right _ _).trans hX)
        · rw [hCdef, ← Matrix.sub_mul, ← Matrix.mul_sub, ← he]
          refine le_trans ?_ (Proof.froSq_orth_transpose_mul_le hQ _)
          rw [← froSq_transpose, transpose_mul, ← froSq_transpose (qbo.Qᵀ * (A - X))]
          exact Proof.froSq_orth_transpose_mul_le hQ _
      have h7 : tailSq (fun i => |lam (σ i)|) k.toNat =
          ∑ j, lam j ^ 2 - ∑ j ∈ Finset.univ.filter (fun j => (σ.symm j).1 < k.toNat), lam j ^ 2 := by
        rw [← Equiv.sum_comp σ (fun j => lam j ^ 2), Finset.sum_filter,
          ← Equiv.sum_comp σ (fun j => if (σ.symm j).1 < k.toNat then lam j ^ 2 else 0), ← Finset.sum_sub_distrib]
        refine Finset.sum_congr rfl fun i _ => ?_
        unfold tail
        rw [Equiv.symm_apply_apply]
        split <;> simp
      have h8 : ∑ j ∈ Finset.univ.filter (fun j => (σ.symm j).1 < k.toNat), lam j ^ 2 ≤
          ∑ j ∈ Finset.univ.image I, lam j ^ 2 := by
        refine top_sum _ _ _ ?_ ?_
        · rw [Finset.card_image_of_injective _ hI1, Finset.card_univ, Fintype.card_fin]
          have hkc : k.toNat ≤ qbo.c := by
            rw [← hr, h5]; exact (min_le_right _ _).trans (min_le_left _ _)
          have : (Finset.univ.filter fun j : Fin qbo.c => (σ.symm j).1 < k.toNat) =
              Finset.univ.image fun i : Fin k.toNat => σ (Fin.castLE hkc i) := by
            ext j
            simp only [Finset.mem_filter, Finset.mem_univ, true_and, Finset.mem_image]
            constructor
            · intro h
              exact ⟨⟨_, h⟩, by
                have : Fin.castLE hkc ⟨(σ.symm j).1, h⟩ = σ.symm j := Fin.ext rfl
                rw [this, Equiv.apply_symm_apply]⟩
            · rintro ⟨i, rfl⟩
              rw [Equiv.symm_apply_apply]
              exact i.2
          rw [this, Finset.card_image_of_injective _ (show Function.Injective
              (fun i : Fin k.toNat => σ (Fin.castLE hkc i)) from σ.injective.comp (Fin.castLE_injective hkc)),
            Finset.card_univ, Fintype.card_fin, hr]
        · intro i hi j hj
          obtain ⟨a, -, rfl⟩ := Finset.mem_image.1 hi
          have := hI3 j (fun b hb => hj (Finset.mem_image.2 ⟨b, Finset.mem_univ _, hb⟩)) a
          rw [hI2] at this
          exact sq_le_sq.2 this
      have h9 : ∑ j ∈ Finset.univ.filter (fun j => j ∉ Set.range I), lam j ^ 2 =
          ∑ j, lam j ^ 2 - ∑ j ∈ Finset.univ.image I, lam j ^ 2 := by
        rw [← Finset.sum_compl_add_sum (Finset.univ.image I), add_sub_cancel_right]
        refine Finset.sum_congr ?_ fun _ _ => rfl
        ext j; simp
      have h10 : 0 ≤ (10 * eps) ^ 2 * (qbo.c : ℝ) := by positivity
      linarith
    · -- everything above the cut is kept
      have hcount : out.r = numAbove lam (10 * eps) := by
        have : numAbove lam (10 * eps) ≤ qbo.c := by
          rw [numAbove_eq, countAbove]
          exact (Finset.card_le_univ _).trans (by simp)
        omega
      have hz : ∀ j, j ∉ Set.range I → |lam j| ≤ 10 * eps := by
        intro j hj
        by_contra hgt
        push Not at hgt
        have hsub : insert j (Finset.univ.image I) ⊆ Finset.univ.filter fun i => |lam i| > 10 * eps := by
          intro i hi
          rw [Finset.mem_insert, Finset.mem_image] at hi
          rw [Finset.mem_filter]
          refine ⟨Finset.mem_univ _, ?_⟩
          rcases hi with rfl | ⟨a, -, rfl⟩
          · exact hgt
          · rw [← hI2]; exact h4 a
        have hcard := Finset.card_le_card hsub
        rw [Finset.card_insert_of_notMem (by
          intro h; obtain ⟨a, -, ha⟩ := Finset.mem_image.1 h; exact hj ⟨a, ha⟩),
          Finset.card_image_of_injective _ hI1, Finset.card_univ, Fintype.card_fin, hcount,
          numAbove_eq, countAbove] at hcard
        omega
      calc ∑ j ∈ Finset.univ.filter (fun j => j ∉ Set.range I), lam j ^ 2
          ≤ ∑ j ∈ Finset.univ.filter (fun j => j ∉ Set.range I), (10 * eps) ^ 2 := by
            refine Finset.sum_le_sum fun j hj => ?_
            rw [← sq_abs]
            exact pow_le_pow_left₀ (abs_nonneg _) (hz j (Finset.mem_filter.1 hj).2) 2
        _ ≤ ∑ j : Fin qbo.c, (10 * eps) ^ 2 :=
            Finset.sum_le_sum_of_subset_of_nonneg (Finset.filter_subset _ _)
              (fun _ _ _ => sq_nonneg _)
        _ = (10 * eps) ^ 2 * qbo.c := by
            rw [Finset.sum_const, Finset.card_univ, Fintype.card_fin, nsmul_eq_mul, mul_comm]
        _ ≤ _ := by linarith
  have htwo : fro (A - qbo.Q * qbo.Qᵀ * A * (qbo.Q * qbo.Qᵀ)) ≤ √2 * fro (A - qbo.Q * qbo.B) := by
    have h2 := two_sided_le hQ hsym
    rw [fro_le_iff_sq (mul_nonneg (Real.sqrt_nonneg _) (fro_nonneg _)), mul_pow, Real.sq_sqrt (by norm_num), fro_sq,
      hB]
    exact h2
  have hsplit : A - out.V * diagonal out.lamb * out.Vᵀ =
      (A - qbo.Q * qbo.Qᵀ * A * (qbo.Q * qbo.Qᵀ)) +
        (qbo.Q * qbo.Qᵀ * A * (qbo.Q * qbo.Qᵀ) - out.V * diagonal out.lamb * out.Vᵀ) := by abel
  rw [hsplit]
  refine (fro_triangle _ _).trans (add_le_add htwo ?_)
  refine Real.le_sqrt_of_sq_le ?_
  rw [hI4]
  exact hsum

/-- every matrix has a singular value decomposition in the sense of the specification -/
theorem exists_isSVD (A : Matrix (Fin m) (Fin n) ℝ) :
    ∃ (U : Matrix (Fin m) (Fin (min m n)) ℝ) (s : Fin (min m n) → ℝ) (V : Matrix (Fin n) (Fin (min m n)) ℝ),
      IsSVD A U s V := by
  refine ⟨(LinAlg.ref.svd A).1, (LinAlg.ref.svd A).2.1, (LinAlg.ref.svd A).2.2ᵀ, LinAlg.ref.svd_left _, ?_,
    LinAlg.ref.svd_nonneg _, LinAlg.ref.svd_anti _, ?_⟩
  · unfold OrthoCols; rw [transpose_transpose]; exact LinAlg.ref.svd_right _
  · rw [transpose_transpose]; exact (LinAlg.ref.svd_mul _).symm

/-- a matrix with singular values `2, 1` -/
theorem demo_isSVD : IsSVD (diagonal ![2, 1] : Matrix (Fin 2) (Fin 2) ℝ) 1 ![2, 1] 1 where
  left := by unfold OrthoCols; simp
  right := by unfold OrthoCols; simp
  nonneg := by intro i; fin_cases i <;> simp
  anti := by
    intro i j h
    fin_cases i <;> fin_cases j <;> simp at h ⊢
  eq := by simp

/-- non-vacuity of `C61_rf1_rate`: target rank 1, rate `τ = 1/2`, and the error of the best approximation is 1 -/
example : (∀ j : Fin 1, 0 < (![2, 1] : Fin 2 → ℝ) (Fin.castLE (by omega) j)) ∧
    (∀ (i : Fin 2) (j : Fin 1), 1 ≤ i.1 → (![2, 1] : Fin 2 → ℝ) i ≤
      1 / 2 * (![2, 1] : Fin 2 → ℝ) (Fin.castLE (by omega) j)) ∧ tailSq (![2, 1] : Fin 2 → ℝ) 1 = 1 := by
  refine ⟨?_, ?_, ?_⟩
  · intro j; fin_cases j; simp
  · intro i j h
    fin_cases i <;> fin_cases j <;> simp at h ⊢
  · simp [tailSq, tail, Fin.sum_univ_two]

/-- non-vacuity of `C61_rf1_error`: the start `S0 = [1; 1]` has an invertible first row, and the bound it gives
for one pass is `1 + 1`. -/
example : firstRows (r := 2) (t := 1) (by omega) ((1 : Matrix (Fin 2) (Fin 2) ℝ)ᵀ * (Matrix.of fun _ _ => (1 : ℝ) : Matrix (Fin 2) (Fin 1) ℝ)) *
    (1 : Matrix (Fin 1) (Fin 1) ℝ) = 1 := by
  ext i j
  fin_cases i; fin_cases j
  simp [firstRows]

end Parla.Props
