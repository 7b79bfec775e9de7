import Verif.Model.RoundingLS
import Verif.SpecRounding
import Verif.Props.Rounding
import Verif.Props.RatesLS

/-! # Perturbation bounds for the sketching and factorisation stages (C82) -/

namespace Parla.Proof

open Matrix Parla Spec Parla.Props

variable {m n d k : ℕ}

theorem norm2_mulVec_fro (M : Matrix (Fin m) (Fin n) ℝ) (v : Fin n → ℝ) : norm2 (M *ᵥ v) ≤ fro M * norm2 v := by
  have := fro_mul_le M (Matrix.of fun i (_ : Fin 1) => v i)
  have e1 : fro (M * (Matrix.of fun i (_ : Fin 1) => v i)) = norm2 (M *ᵥ v) := by
    unfold fro froSq norm2 sqNorm; simp [Matrix.mul_apply, mulVec, dotProduct]
  have e2 : fro (Matrix.of fun i (_ : Fin 1) => v i) = norm2 v := by
    unfold fro froSq norm2 sqNorm; simp
  rwa [e1, e2] at this

theorem norm2_le_add (u v : Fin n → ℝ) : norm2 u ≤ norm2 (u - v) + norm2 v := by
  have := norm2_add_le' (u - v) v
  rwa [sub_add_cancel] at this

theorem norm2_sub_symm (u v : Fin n → ℝ) : norm2 (u - v) = norm2 (v - u) := by
  unfold norm2; rw [← neg_sub, sqNorm_neg]

theorem norm2_abs_le {u v : Fin n → ℝ} {c : ℝ} (h : norm2 (u - v) ≤ c) : norm2 u ≤ norm2 v + c ∧ norm2 v ≤ norm2 u + c := by
  refine ⟨?_, ?_⟩
  · linarith [norm2_le_add u v]
  · have := norm2_le_add v u
    rw [norm2_sub_symm] at this
    linarith

theorem fro_le_of_sq {X : Matrix (Fin m) (Fin n) ℝ} {c : ℝ} (hc : 0 ≤ c) (h : froSq X ≤ c ^ 2) : fro X ≤ c :=
  Real.sqrt_le_iff.2 ⟨hc, h⟩

theorem fro_sq (X : Matrix (Fin m) (Fin n) ℝ) : fro X ^ 2 = froSq X := Real.sq_sqrt (froSq_nonneg _)

theorem fro_vcat_le (A : Matrix (Fin m) (Fin n) ℝ) (B : Matrix (Fin k) (Fin n) ℝ) : fro (vcat A B) ≤ fro A + fro B := by
  refine fro_le_of_sq (add_nonneg (fro_nonneg _) (fro_nonneg _)) ?_
  rw [froSq_vcat, ← fro_sq, ← fro_sq]
  nlinarith [fro_nonneg A, fro_nonneg B]

/-- `‖scale I‖` -/
theorem fro_scaleEye_le (e n : ℕ) (s : ℝ) : fro (scaleEye e n s) ≤ |s| * √n := by
  refine fro_le_of_sq (mul_nonneg (abs_nonneg _) (Real.sqrt_nonneg _)) ?_
  rw [mul_pow, sq_abs, Real.sq_sqrt (Nat.cast_nonneg _)]
  unfold froSq scaleEye
  rw [Finset.sum_comm]
  have : ∀ j : Fin n, ∑ i : Fin e, (Matrix.of (fun (i : Fin e) (j : Fin n) => if i.1 = j.1 then s else 0) i j) ^ 2 ≤ s ^ 2 := by
    intro j
    by_cases h : j.1 < e
    · rw [Finset.sum_eq_single ⟨j.1, h⟩]
      · simp
      · intro i _ hi
        have : i.1 ≠ j.1 := fun h' => hi (Fin.ext h')
        simp [this]
      · simp
    · rw [Finset.sum_eq_zero]
      · positivity
      · intro i _
        have : i.1 ≠ j.1 := by have := i.2; omega
        simp [this]
  calc _ ≤ ∑ _j : Fin n, s ^ 2 := Finset.sum_le_sum fun j _ => this j
    _ = _ := by simp [mul_comm]

theorem scaleEye_sub (e n : ℕ) (s t : ℝ) : scaleEye e n s - scaleEye e n t = scaleEye e n (s - t) := by
  ext i j; simp only [scaleEye, Matrix.sub_apply, Matrix.of_apply]; split_ifs <;> simp

theorem vcat_sub (A B : Matrix (Fin m) (Fin n) ℝ) (C D : Matrix (Fin k) (Fin n) ℝ) : vcat A C - vcat B D = vcat (A - B) (C - D) := by
  ext i j
  refine Fin.addCases (fun i => ?_) (fun i => ?_) i <;> simp

theorem sketchSize_nonneg (S : Matrix (Fin d) (Fin m) ℝ) (A : Matrix (Fin m) (Fin n) ℝ) (δ : ℝ) : 0 ≤ sketchSize S A δ :=
  add_nonneg (mul_nonneg (fro_nonneg _) (fro_nonneg _)) (mul_nonneg (Real.sqrt_nonneg _) (Real.sqrt_nonneg _))

theorem fro_lift_le (S : Matrix (Fin d) (Fin m) ℝ) (A : Matrix (Fin m) (Fin n) ℝ) (δ : ℝ) :
    fro (aLift (S * A) (√δ)) ≤ sketchSize S A δ := by
  refine (fro_vcat_le _ _).trans (add_le_add (fro_mul_le _ _) ?_)
  refine (fro_scaleEye_le _ _ _).trans_eq ?_
  rw [abs_of_nonneg (Real.sqrt_nonneg _)]

theorem lift_close {fl : FlLS} {N : ℕ} {ε : ℝ} (hfl : fl.Accurate N ε) (S : Matrix (Fin d) (Fin m) ℝ)
    (A : Matrix (Fin m) (Fin n) ℝ) {δ : ℝ} (hδ : 0 ≤ δ) (hd : d ≤ N) (hm : m ≤ N) (hn : n ≤ N) :
    fro (liftFl fl (fl.mul S A) δ - aLift (S * A) (√δ)) ≤ ε * sketchSize S A δ := by
  unfold liftFl aLift
  rw [vcat_sub, scaleEye_sub]
  refine (fro_vcat_le _ _).trans ?_
  have h1 := hfl.alg.mul S A hd hm hn
  have h2 := (fro_scaleEye_le (liftRows n (√δ)) n (fl.sqrt δ - √δ)).trans
    (mul_le_mul_of_nonneg_right (hfl.sqrt δ hδ) (Real.sqrt_nonneg _))
  unfold sketchSize
  linarith

/-- the array `M` preconditions `T` up to `1 ± θ` -/
def Conds {p k : ℕ} (T : Matrix (Fin p) (Fin n) ℝ) (M : Matrix (Fin n) (Fin k) ℝ) (θ : ℝ) : Prop :=
  ∀ z, (1 - θ) * sqNorm (T *ᵥ (M *ᵥ z)) ≤ sqNorm z ∧ sqNorm z ≤ (1 + θ) * sqNorm (T *ᵥ (M *ᵥ z))

/-- a triangular array whose Gram matrix is near that of `T` preconditions it -/
theorem tri_conds {p : ℕ} {T : Matrix (Fin p) (Fin n) ℝ} {R : Matrix (Fin n) (Fin n) ℝ} {θ μ : ℝ}
    (hR : ∀ i j, j < i → R i j = 0) (hμ : 0 < μ) (hT : ∀ v, μ * norm2 v ≤ norm2 (T *ᵥ v)) (hθ : θ < 1)
    (h : ∀ v, (1 - θ) * sqNorm (T *ᵥ v) ≤ sqNorm (R *ᵥ v) ∧ sqNorm (R *ᵥ v) ≤ (1 + θ) * sqNorm (T *ᵥ v)) :
    (∀ i, R i i ≠ 0) ∧ Conds T ((triu R)⁻¹ : Matrix (Fin n) (Fin n) ℝ) θ := by
  have hinj : ∀ v, R *ᵥ v = 0 → v = 0 := fun v hv => by
    have h1 := (h v).1
    rw [hv, sqNorm_zero'] at h1
    have h2 : sqNorm (T *ᵥ v) ≤ 0 := by
      by_contra hc
      push Not at hc
      have := mul_pos (sub_pos.2 hθ) hc
      linarith
    have h3 : norm2 (T *ᵥ v) = 0 := by unfold norm2; exact Real.sqrt_eq_zero_of_nonpos h2
    have h4 := hT v
    rw [h3] at h4
    have h5 : norm2 v = 0 := le_antisymm (by by_contra hc; push Not at hc; have := mul_pos hμ hc; linarith) (norm2_nonneg _)
    exact norm2_eq_zero.1 h5
  have hdet : R.det ≠ 0 := fun h0 => by
    obtain ⟨v, hv, hv'⟩ := Matrix.exists_mulVec_eq_zero_iff.2 h0
    exact hv (hinj v hv')
  have hdiag : ∀ i, R i i ≠ 0 := by
    have hd := det_triu R
    rw [triu_eq_self hR] at hd
    rw [hd] at hdet
    exact fun i => Finset.prod_ne_zero_iff.1 hdet i (Finset.mem_univ _)
  refine ⟨hdiag, fun z => ?_⟩
  have e : R *ᵥ (((triu R)⁻¹ : Matrix (Fin n) (Fin n) ℝ) *ᵥ z) = z := by
    rw [triu_eq_self hR, mulVec_mulVec, Matrix.mul_nonsing_inv _ (isUnit_iff_ne_zero.2 hdet), one_mulVec]
  have := h (((triu R)⁻¹ : Matrix (Fin n) (Fin n) ℝ) *ᵥ z)
  rwa [e] at this

/-- `‖T v‖` is at least `μ ‖v‖`, so `μ` is at most the size of the data -/
theorem le_size {p : ℕ} {T : Matrix (Fin p) (Fin n) ℝ} {μ γ : ℝ} (hn : 0 < n) (hT : ∀ v, μ * norm2 v ≤ norm2 (T *ᵥ v))
    (hγ : fro T ≤ γ) : μ ≤ γ := by
  have h1 := (hT (Pi.single ⟨0, hn⟩ 1)).trans (norm2_mulVec_fro T _)
  have h2 : norm2 (Pi.single (⟨0, hn⟩ : Fin n) (1 : ℝ)) = 1 := by
    unfold norm2 sqNorm
    rw [Finset.sum_eq_single ⟨0, hn⟩]
    · simp
    · intro b _ hb; simp [Pi.single_eq_of_ne hb]
    · simp
  rw [h2] at h1
  linarith

/-- the exact `Q` times the computed `R` is within `3 ε γ` of the exact sketch -/
theorem near_of_close {p : ℕ} {T That K : Matrix (Fin p) (Fin n) ℝ} {ε γ : ℝ} (hε : 0 ≤ ε) (hε1 : ε ≤ 1) (hγ : fro T ≤ γ)
    (h1 : fro (That - T) ≤ ε * γ) (h2 : fro (K - That) ≤ ε * fro That) : fro (K - T) ≤ 3 * ε * γ := by
  have h3 := fro_sub_le K That T
  have h4 := fro_le_add That T
  have h0 : 0 ≤ γ := (fro_nonneg T).trans hγ
  nlinarith [mul_nonneg hε h0, mul_nonneg hε (fro_nonneg That), mul_le_mul_of_nonneg_right hε1 (mul_nonneg hε h0)]

/-- squares of norms that differ by a small multiple -/
theorem sq_of_near {a t ρ : ℝ} (ha : 0 ≤ a) (ht : 0 ≤ t) (hρ : 0 ≤ ρ) (hρ1 : ρ ≤ 1) (h1 : a ≤ t + ρ * t) (h2 : t ≤ a + ρ * t) :
    (1 - 3 * ρ) * t ^ 2 ≤ a ^ 2 ∧ a ^ 2 ≤ (1 + 3 * ρ) * t ^ 2 := by
  have h3 : (1 - ρ) * t ≤ a := by linarith
  have h4 : ((1 - ρ) * t) ^ 2 ≤ a ^ 2 := pow_le_pow_left₀ (mul_nonneg (by linarith) ht) h3 2
  have h5 : a ^ 2 ≤ ((1 + ρ) * t) ^ 2 := pow_le_pow_left₀ ha (by linarith) 2
  have ht2 := sq_nonneg t
  constructor <;> nlinarith [mul_nonneg hρ ht2, mul_nonneg (mul_nonneg hρ (sub_nonneg.2 hρ1)) ht2]

/-- a matrix within `ρ μ` of `T` acts like it -/
theorem near_sq {p : ℕ} {T K : Matrix (Fin p) (Fin n) ℝ} {μ ρ : ℝ} (hμ : 0 < μ) (hρ : 0 ≤ ρ) (hρ1 : ρ ≤ 1)
    (hT : ∀ v, μ * norm2 v ≤ norm2 (T *ᵥ v)) (hK : fro (K - T) ≤ ρ * μ) (v : Fin n → ℝ) :
    (1 - 3 * ρ) * sqNorm (T *ᵥ v) ≤ sqNorm (K *ᵥ v) ∧ sqNorm (K *ᵥ v) ≤ (1 + 3 * ρ) * sqNorm (T *ᵥ v) := by
  have h1 : norm2 (K *ᵥ v - T *ᵥ v) ≤ ρ * norm2 (T *ᵥ v) := by
    rw [← sub_mulVec]
    refine (norm2_mulVec_fro _ _).trans ?_
    calc fro (K - T) * norm2 v ≤ ρ * μ * norm2 v := mul_le_mul_of_nonneg_right hK (norm2_nonneg _)
      _ = ρ * (μ * norm2 v) := by ring
      _ ≤ _ := mul_le_mul_of_nonneg_left (hT v) hρ
  obtain ⟨h2, h3⟩ := norm2_abs_le h1
  rw [← norm2_sq, ← norm2_sq]
  exact sq_of_near (norm2_nonneg _) (norm2_nonneg _) hρ hρ1 h2 h3

end Parla.Proof
