import Verif.Proof.SpecRange
import Verif.Props.Angles
import Mathlib.Analysis.Convex.Integral
import Mathlib.Analysis.Convex.SpecificFunctions.Pow
import Mathlib.Analysis.SpecialFunctions.Pow.Continuity

/-! # C95: the spectral norm of the error, without a gap in the spectrum -/

namespace Parla.Props

open Matrix Parla Spec MeasureTheory
open Parla.Proof

variable {G : Type} {m n r : ℕ}

theorem spec_of_pow {N : Matrix (Fin m) (Fin n) ℝ} {sg c : ℝ} (hs : 0 ≤ sg) (hc : 0 ≤ c) (e : ℕ)
    (h : ∀ z, sqNorm (Nᵀ *ᵥ z) ^ (e + 1) ≤ (sg ^ 2) ^ (e + 1) * c * sqNorm z ^ (e + 1)) :
    SpecNormLE N (sg * c ^ (2 * ((e : ℝ) + 1))⁻¹) := by
  have hcast : (2 * ((e : ℝ) + 1)) = ((2 * (e + 1) : ℕ) : ℝ) := by push_cast; ring
  rw [hcast]
  have hD0 : 0 ≤ c ^ (((2 * (e + 1) : ℕ) : ℝ))⁻¹ := Real.rpow_nonneg hc _
  have hD : (c ^ (((2 * (e + 1) : ℕ) : ℝ))⁻¹) ^ (2 * (e + 1)) = c := Real.rpow_inv_natCast_pow hc (by omega)
  have h1 : SpecNormLE Nᵀ (sg * c ^ (((2 * (e + 1) : ℕ) : ℝ))⁻¹) := by
    intro z
    refine le_of_pow_le_pow_left₀ (n := 2 * (e + 1)) (by omega) (mul_nonneg (mul_nonneg hs hD0) (norm2_nonneg z)) ?_
    rw [mul_pow, mul_pow, hD, pow_mul, pow_mul, pow_mul, norm2_sq, norm2_sq]
    exact h z
  have := specNorm_transpose (mul_nonneg hs hD0) h1
  rwa [transpose_transpose] at this

/-- the spectral norm of the error of projecting onto (at least) the range of `A S`, `S` a power sketch with `p` passes -/
theorem rs1_spec (la : LinAlg) (gen : SkOpGen G) (A : Matrix (Fin m) (Fin n) ℝ)
    {U : Matrix (Fin m) (Fin r) ℝ} {s : Fin r → ℝ} {V : Matrix (Fin n) (Fin r) ℝ} (hA : IsSVD A U s V)
    (t : ℕ) (ht : t ≤ r) (p : ℤ) (k : ℕ) (w w' : World G) (S : Cols n)
    (h : rs1Call gen p (orth la) 1 A k w = .ok (S, w')) {c : ℕ} {Q : Matrix (Fin m) (Fin c) ℝ}
    (hQ : OrthoCols Q) (hAS : colSpace (A * S.mat) ≤ colSpace Q) :
    (p % 2 = 0 → ∃ S0 w₁, gen n k w = .ok (S0, w₁) ∧
      ∀ W : Matrix (Fin k) (Fin t) ℝ, firstRows ht (Vᵀ * S0) * W = 1 →
        SpecNormLE (A - Q * (Qᵀ * A))
          (nth s t * (1 + fro (diagonal (tail (fun _ => 1) t) * (Vᵀ * S0 * W)) ^ 2) ^ (2 * ((p.toNat : ℝ) + 1))⁻¹)) ∧
    (p % 2 = 1 → ∃ S0 w₁, gen m k w = .ok (S0, w₁) ∧
      ∀ W : Matrix (Fin k) (Fin t) ℝ, firstRows ht (Uᵀ * S0) * W = 1 →
        SpecNormLE (A - Q * (Qᵀ * A))
          (nth s t * (1 + fro (diagonal (tail (fun _ => 1) t) * (Uᵀ * S0 * W)) ^ 2) ^ (2 * ((p.toNat : ℝ) + 1))⁻¹)) := by
  obtain ⟨h1, h2⟩ := C02_rs1_range_parla la gen p (orth la) (Or.inl rfl) 1 A k w w' S h
  have hp : 0 ≤ p := (rs1Call_open h).1
  have hn : 0 ≤ nth s t := nth_nonneg hA.nonneg
  constructor
  · intro hev
    obtain ⟨S0, ⟨w₁, hg⟩, hle, -⟩ := h1 hev
    refine ⟨S0, w₁, hg, fun W hW => ?_⟩
    rw [fro_sq]
    refine spec_of_pow hn (add_nonneg zero_le_one (froSq_nonneg _)) p.toNat ?_
    refine spec_range_bound hA ht p.toNat (Vᵀ * S0) W hW hQ (le_trans (le_of_eq ?_) ((colSpace_mul_mono A hle).trans hAS))
    rw [← Matrix.mul_assoc A, Proof.svd_power hA, Matrix.mul_assoc _ Vᵀ,
      show 2 * (p / 2).toNat + 1 = p.toNat + 1 by omega]
  · intro hodd
    obtain ⟨S0, ⟨w₁, hg⟩, hle, -⟩ := h2 hodd
    refine ⟨S0, w₁, hg, fun W hW => ?_⟩
    rw [fro_sq]
    refine spec_of_pow hn (add_nonneg zero_le_one (froSq_nonneg _)) p.toNat ?_
    refine spec_range_bound hA ht p.toNat (Uᵀ * S0) W hW hQ (le_trans (le_of_eq ?_) ((colSpace_mul_mono A hle).trans hAS))
    rw [← Matrix.mul_assoc A, Proof.svd_power hA]
    have e : Vᵀ * (Aᵀ * S0) = diagonal s * (Uᵀ * S0) := by
      rw [hA.eq, transpose_mul, transpose_mul, transpose_transpose, diagonal_transpose]
      simp only [← Matrix.mul_assoc]
      rw [show Vᵀ * V = 1 from hA.right, Matrix.one_mul]
    rw [Matrix.mul_assoc _ Vᵀ, e, ← Matrix.mul_assoc _ (diagonal s), Matrix.mul_assoc U _ (diagonal s),
      diagonal_mul_diagonal]
    simp only [← pow_succ]
    rw [show 2 * ((p - 1) / 2).toNat + 1 + 1 = p.toNat + 1 by omega]

/-- **C95** (rangefinder).  Let `s` be the singular values of `A`, in any order of gaps.  Whenever `rf1(A, k, p, rng)` returns `Q`,
and the first `t` rows of `Ω = V'S0` (`U'S0` for even `p`), `S0` the start the call drew, have a right inverse `W`,

  `‖A - QQ'A‖₂ ≤ s_t (1 + ‖Ω₂W‖²)^(1/(2p))`

where `Ω₂` are the other rows of `Ω`: the factor tends to 1 with the number of passes whatever the spectrum of `A`. -/
theorem C95_rf1_error (la : LinAlg) (gauss : SkOpGen G) (A : Matrix (Fin m) (Fin n) ℝ)
    {U : Matrix (Fin m) (Fin r) ℝ} {s : Fin r → ℝ} {V : Matrix (Fin n) (Fin r) ℝ} (hA : IsSVD A U s V)
    (t : ℕ) (ht : t ≤ r)
    (k p : ℤ) (w w' : World G) (Q : Cols m) (h : rf1 la gauss A k p w = .ok (Q, w')) :
    ((p - 1) % 2 = 0 → ∃ S0 w₁, gauss n k.toNat { w with warns := w.warns + 1 } = .ok (S0, w₁) ∧
      ∀ W : Matrix (Fin k.toNat) (Fin t) ℝ, firstRows ht (Vᵀ * S0) * W = 1 →
        SpecNormLE (A - Q.mat * (Q.matᵀ * A))
          (nth s t * (1 + fro (diagonal (tail (fun _ => 1) t) * (Vᵀ * S0 * W)) ^ 2) ^ (2 * (p : ℝ))⁻¹)) ∧
    ((p - 1) % 2 = 1 → ∃ S0 w₁, gauss m k.toNat { w with warns := w.warns + 1 } = .ok (S0, w₁) ∧
      ∀ W : Matrix (Fin k.toNat) (Fin t) ℝ, firstRows ht (Uᵀ * S0) * W = 1 →
        SpecNormLE (A - Q.mat * (Q.matᵀ * A))
          (nth s t * (1 + fro (diagonal (tail (fun _ => 1) t) * (Uᵀ * S0 * W)) ^ 2) ^ (2 * (p : ℝ))⁻¹)) := by
  obtain ⟨-, -, -, h4, S, w1, h5, h6⟩ := C01_rf1_procedural la gauss A k p w w' Q h
  have hp : 0 ≤ p - 1 := (rs1Call_open h5).1
  have hc : (p : ℝ) = ((p - 1).toNat : ℝ) + 1 := by
    have : ((p - 1).toNat : ℤ) = p - 1 := Int.toNat_of_nonneg hp
    have h2 : (((p - 1).toNat : ℤ) : ℝ) = ((p - 1 : ℤ) : ℝ) := by rw [this]
    push_cast at h2
    linarith
  rw [hc]
  exact rs1_spec la gauss A hA t ht (p - 1) k.toNat _ w1 S h5 h4 h6

/-! ### Means over the Gaussian draw -/

/-- the mean of a power with exponent below 1 -/
theorem mean_rpow {X : Type} [MeasurableSpace X] {μ : Measure X} [IsProbabilityMeasure μ] {g : X → ℝ}
    (h0 : ∀ x, 0 ≤ g x) (hg : Integrable g μ) {a : ℝ} (ha0 : 0 ≤ a) (ha1 : a ≤ 1) :
    Integrable (fun x => (1 + g x) ^ a) μ ∧ ∫ x, (1 + g x) ^ a ∂μ ≤ (1 + ∫ x, g x ∂μ) ^ a := by
  have h1g : Integrable (fun x => 1 + g x) μ := (integrable_const 1).add hg
  have hi : Integrable (fun x => (1 + g x) ^ a) μ := by
    refine Integrable.mono' h1g
      ((Real.continuous_rpow_const ha0).comp_aestronglyMeasurable h1g.aestronglyMeasurable) (Filter.Eventually.of_forall fun x => ?_)
    have hx := h0 x
    rw [Real.norm_eq_abs, abs_of_nonneg (Real.rpow_nonneg (by linarith) _)]
    calc (1 + g x) ^ a ≤ (1 + g x) ^ (1 : ℝ) := Real.rpow_le_rpow_of_exponent_le (by linarith) ha1
      _ = 1 + g x := Real.rpow_one _
  refine ⟨hi, ?_⟩
  have := (Real.concaveOn_rpow ha0 ha1).le_map_integral (μ := μ) (f := fun x => 1 + g x)
    (Real.continuous_rpow_const ha0).continuousOn isClosed_Ici (Filter.Eventually.of_forall fun x => by
      have := h0 x; exact (by linarith : (0 : ℝ) ≤ 1 + g x)) h1g hi
  rw [integral_add (integrable_const 1) hg] at this
  simpa using this

theorem tailSq_one (t : ℕ) (ht : t ≤ r) : tailSq (fun _ : Fin r => (1 : ℝ)) t = (r : ℝ) - t := by
  obtain ⟨a, rfl⟩ : ∃ a, r = t + a := ⟨r - t, by omega⟩
  rw [← tailSq_rows]
  simp [froSq, diagonal_apply]

/-- the factor of C95 as a function of the draw, for a power sketch with `p` passes -/
theorem rs1_spec_mean (A : Matrix (Fin m) (Fin n) ℝ)
    {U : Matrix (Fin m) (Fin r) ℝ} {s : Fin r → ℝ} {V : Matrix (Fin n) (Fin r) ℝ} (hA : IsSVD A U s V)
    (k : ℕ) (hk' : k ≤ min m n) (t : ℕ) (ht : t ≤ r) (htk : t + 2 ≤ k) (p : ℤ) :
    ∃ g : (Fin (startRows p m n) × Fin k → ℝ) → ℝ, (∀ Z, 0 ≤ g Z) ∧ Integrable g (normals _ k) ∧
      ∫ Z, g Z ∂(normals _ k) = ((r : ℝ) - t) * (t / ((k : ℝ) - t - 1)) ∧
      ∀ᵐ Z ∂(normals _ k), ∀ (G : Type) (la : LinAlg) (R : NpRng G) (w w' : World G) (S : Cols n),
        NextNormal R w _ _ Z → rs1Call (gaussianOperator R true) p (orth la) 1 A k w = .ok (S, w') →
        ∀ (c : ℕ) (Q : Matrix (Fin m) (Fin c) ℝ), OrthoCols Q → colSpace (A * S.mat) ≤ colSpace Q →
        SpecNormLE (A - Q * (Qᵀ * A)) (nth s t * (1 + g Z) ^ (2 * ((p.toNat : ℝ) + 1))⁻¹) := by
  have scale : ∀ {a : ℕ} {X : Matrix (Fin a) (Fin r) ℝ} {M : Matrix (Fin a) (Fin k) ℝ}
      {W : Matrix (Fin k) (Fin t) ℝ} {u : ℝ}, u ≠ 0 → firstRows ht (Xᵀ * M) * W = 1 →
      firstRows ht (Xᵀ * (u • M)) * (u⁻¹ • W) = 1 ∧ Xᵀ * (u • M) * (u⁻¹ • W) = Xᵀ * M * W := by
    intro a X M W u hu h
    rw [Matrix.mul_smul Xᵀ]
    have : firstRows ht (u • (Xᵀ * M)) = u • firstRows ht (Xᵀ * M) := rfl
    rw [this]
    simp only [Matrix.smul_mul, Matrix.mul_smul, smul_smul, inv_mul_cancel₀ hu, one_smul]
    exact ⟨h, trivial⟩
  by_cases hp2 : p % 2 = 0
  · rw [show startRows p m n = n from if_pos hp2]
    obtain ⟨⟨h1, h2⟩, h3⟩ := sketchBound_mean (fun _ => 1) t k ht htk hA.right
    refine ⟨sketchBound (fun _ => 1) t k ht V, fun Z => froSq_nonneg _, h1, by rw [h2, tailSq_one t ht], ?_⟩
    filter_upwards [h3] with Z hZ G la R w w' S hw h c Q hQ hAS
    obtain ⟨S0, w₁, g1, g2⟩ := (rs1_spec la _ A hA t ht p k w w' S h hQ hAS).1 hp2
    obtain ⟨u, hu, hgen⟩ := gaussian_next R (r := n) (c := k) (by omega) hw
    rw [hgen] at g1
    cases g1
    obtain ⟨e1, e2⟩ := scale hu hZ
    have := g2 _ e1
    rw [e2, fro_sq] at this
    exact this
  · rw [show startRows p m n = m from if_neg hp2]
    obtain ⟨⟨h1, h2⟩, h3⟩ := sketchBound_mean (fun _ => 1) t k ht htk hA.left
    refine ⟨sketchBound (fun _ => 1) t k ht U, fun Z => froSq_nonneg _, h1, by rw [h2, tailSq_one t ht], ?_⟩
    filter_upwards [h3] with Z hZ G la R w w' S hw h c Q hQ hAS
    obtain ⟨S0, w₁, g1, g2⟩ := (rs1_spec la _ A hA t ht p k w w' S h hQ hAS).2 (by omega)
    obtain ⟨u, hu, hgen⟩ := gaussian_next R (r := m) (c := k) (by omega) hw
    rw [hgen] at g1
    cases g1
    obtain ⟨e1, e2⟩ := scale hu hZ
    have := g2 _ e1
    rw [e2, fro_sq] at this
    exact this

private theorem exp_le_one (q : ℕ) : 0 ≤ (2 * ((q : ℝ) + 1))⁻¹ ∧ (2 * ((q : ℝ) + 1))⁻¹ ≤ 1 := by
  have : (0 : ℝ) ≤ q := Nat.cast_nonneg q
  exact ⟨by positivity, inv_le_one_of_one_le₀ (by linarith)⟩

theorem cast_pass {p : ℤ} {j : ℤ} (hp : j ≤ p) : ((p - j).toNat : ℝ) = (p : ℝ) - j := by
  have : ((p - j).toNat : ℤ) = p - j := Int.toNat_of_nonneg (by omega)
  have h2 : (((p - j).toNat : ℤ) : ℝ) = ((p - j : ℤ) : ℝ) := by rw [this]
  push_cast at h2
  exact h2

/-- the mean of the bound -/
theorem bound_mean {X : Type} [MeasurableSpace X] {μ : Measure X} [IsProbabilityMeasure μ] {g : X → ℝ}
    (h0 : ∀ x, 0 ≤ g x) (hg : Integrable g μ) {sg c : ℝ} (hs : 0 ≤ sg) (hc : ∫ x, g x ∂μ = c) (q : ℕ) :
    (∀ x, 0 ≤ sg * (1 + g x) ^ (2 * ((q : ℝ) + 1))⁻¹) ∧ Integrable (fun x => sg * (1 + g x) ^ (2 * ((q : ℝ) + 1))⁻¹) μ ∧
    ∫ x, sg * (1 + g x) ^ (2 * ((q : ℝ) + 1))⁻¹ ∂μ ≤ sg * (1 + c) ^ (2 * ((q : ℝ) + 1))⁻¹ := by
  obtain ⟨a1, a2⟩ := exp_le_one q
  obtain ⟨b1, b2⟩ := mean_rpow h0 hg a1 a2
  refine ⟨fun x => mul_nonneg hs (Real.rpow_nonneg (by have := h0 x; linarith) _), b1.const_mul _, ?_⟩
  rw [integral_const_mul, ← hc]
  exact mul_le_mul_of_nonneg_left b2 hs

/-- **C95** (mean, rangefinder).  For `t + 2 ≤ k ≤ min(m, n)` and any singular values `s` of `A` (`r` of them), for almost every
draw `rf1(A, k, p, rng)` with a Gaussian sketch and `p ≥ 1` passes returns a `Q`, and the mean of `‖A - QQ'A‖₂` is at most

  `s_t (1 + (r - t) t/(k - t - 1))^(1/(2p))`. -/
theorem C95_rf1_mean (A : Matrix (Fin m) (Fin n) ℝ)
    {U : Matrix (Fin m) (Fin r) ℝ} {s : Fin r → ℝ} {V : Matrix (Fin n) (Fin r) ℝ} (hA : IsSVD A U s V)
    (k : ℕ) (hk' : k ≤ min m n) (t : ℕ) (ht : t ≤ r) (htk : t + 2 ≤ k) (p : ℤ) (hp : 1 ≤ p) :
    ∃ g : (Fin (startRows (p - 1) m n) × Fin k → ℝ) → ℝ, (∀ Z, 0 ≤ g Z) ∧ Integrable g (normals _ k) ∧
      ∫ Z, g Z ∂(normals _ k) ≤ nth s t * (1 + ((r : ℝ) - t) * (t / ((k : ℝ) - t - 1))) ^ (2 * (p : ℝ))⁻¹ ∧
      ∀ᵐ Z ∂(normals _ k), ∀ (G : Type) (la : LinAlg) (R : NpRng G) (w : World G), NextNormal R w _ _ Z →
        ∃ Q w', rf1 la (gaussianOperator R true) A k p w = .ok (Q, w') ∧ Q.c = k ∧ OrthoCols Q.mat ∧
          SpecNormLE (A - Q.mat * (Q.matᵀ * A)) (g Z) := by
  have : IsProbabilityMeasure (normals (startRows (p - 1) m n) k) := by
    change IsProbabilityMeasure (Proof.gauss _); infer_instance
  obtain ⟨g, h0, h1, h2, h3⟩ := rs1_spec_mean A hA k hk' t ht htk (p - 1)
  obtain ⟨c1, c2, c3⟩ := bound_mean h0 h1 (nth_nonneg hA.nonneg (i := t)) h2 (p - 1).toNat
  rw [show 2 * (((p - 1).toNat : ℝ) + 1) = 2 * (p : ℝ) by rw [cast_pass hp]; push_cast; ring] at c1 c2 c3 h3
  refine ⟨_, c1, c2, c3, ?_⟩
  filter_upwards [h3, C59_rf1 A k (by omega) hk' p hp] with Z hZ hZ' G la R w hw
  obtain ⟨Q, w', e1, e2, e3, -⟩ := hZ' G la R w hw
  refine ⟨Q, w', e1, e2, e3, ?_⟩
  obtain ⟨-, -, -, -, S, w1, h5, h6⟩ := C01_rf1_procedural la _ A k p w w' Q e1
  exact hZ G la R { w with warns := w.warns + 1 } w1 S hw h5 _ _ e3 h6

/-- **C95** (mean) for `qb(num_passes, A, k, rng)`, `p ≥ 2` passes: one pass less in the exponent. -/
theorem C95_qb_mean (A : Matrix (Fin m) (Fin n) ℝ)
    {U : Matrix (Fin m) (Fin r) ℝ} {s : Fin r → ℝ} {V : Matrix (Fin n) (Fin r) ℝ} (hA : IsSVD A U s V)
    (k : ℕ) (hk' : k ≤ min m n) (t : ℕ) (ht : t ≤ r) (htk : t + 2 ≤ k) (p : ℤ) (hp : 2 ≤ p) :
    ∃ g : (Fin (startRows (p - 2) m n) × Fin k → ℝ) → ℝ, (∀ Z, 0 ≤ g Z) ∧ Integrable g (normals _ k) ∧
      ∫ Z, g Z ∂(normals _ k) ≤ nth s t * (1 + ((r : ℝ) - t) * (t / ((k : ℝ) - t - 1))) ^ (2 * ((p : ℝ) - 1))⁻¹ ∧
      ∀ᵐ Z ∂(normals _ k), ∀ (G : Type) (la : LinAlg) (R : NpRng G) (w : World G), NextNormal R w _ _ Z →
        ∃ out w', qb la (gaussianOperator R true) p A k w = .ok (out, w') ∧ out.c = k ∧ OrthoCols out.Q ∧
          SpecNormLE (A - out.Q * out.B) (g Z) := by
  have : IsProbabilityMeasure (normals (startRows (p - 2) m n) k) := by
    change IsProbabilityMeasure (Proof.gauss _); infer_instance
  obtain ⟨g, h0, h1, h2, h3⟩ := rs1_spec_mean A hA k hk' t ht htk (p - 2)
  obtain ⟨c1, c2, c3⟩ := bound_mean h0 h1 (nth_nonneg hA.nonneg (i := t)) h2 (p - 2).toNat
  rw [show 2 * (((p - 2).toNat : ℝ) + 1) = 2 * ((p : ℝ) - 1) by rw [cast_pass hp]; push_cast; ring] at c1 c2 c3 h3
  refine ⟨_, c1, c2, c3, ?_⟩
  filter_upwards [h3, C59_qb A k (by omega) hk' p hp] with Z hZ hZ' G la R w hw
  obtain ⟨out, w', e1, e2, e3, e4, -⟩ := hZ' G la R w hw
  refine ⟨out, w', e1, e2, e3, ?_⟩
  rw [e4]
  have h := e1
  unfold qb qb1Call at h
  rw [Py.bind_ok_iff] at h; obtain ⟨_, w0, ha, h⟩ := h
  rw [Py.assert_ok_iff] at ha; obtain ⟨hk, rfl⟩ := ha
  rw [Py.bind_ok_iff] at h; obtain ⟨_, w0, ha, h⟩ := h
  rw [Py.assert_ok_iff] at ha; obtain ⟨hk', rfl⟩ := ha
  rw [Py.bind_ok_iff] at h; obtain ⟨_, w0, ha, h⟩ := h
  cases ha
  rw [Py.bind_ok_iff] at h; obtain ⟨Q, w1, h1, h⟩ := h
  rw [Py.bind_eq_of_ok (Py.emit_apply _ _)] at h
  cases h
  obtain ⟨S, w2, h5, h6⟩ := rf1_open h1
  exact hZ G la R w0 w2 S hw h5 _ _ e3 h6

end Parla.Props
