import Verif.Proof.Embed
import Mathlib.Analysis.Complex.ExponentialBounds
import Verif.Props.RatesLS
import Verif.Props.ExpectedLS

/-! # Property C68: Gaussian sketches embed, and what follows for the least squares drivers -/

namespace Parla.Props

open MeasureTheory ProbabilityTheory Matrix Parla Spec

variable {m n d : ℕ}

/-- **C68** (one subspace).  For a subspace `U` of `ℝ^m` and `0 ≤ ε ≤ 1`, except for draws of probability at most
`2 · 9^dim(U) · exp(-d ε²/32)`, the `d × m` Gaussian operator (`d ≤ m`) changes no squared norm of a vector of `U`
by more than a factor `1 ± ε`.  The bound does not depend on `m`. -/
theorem C68_gaussian_subspace (U : Submodule ℝ (Fin m → ℝ)) (hd : 0 < d) (hdm : d ≤ m) (ε : ℝ) (hε : 0 ≤ ε)
    (hε1 : ε ≤ 1) :
    ∃ E : Set (Fin d × Fin m → ℝ),
      normals d m E ≤ ENNReal.ofReal (2 * 9 ^ Module.finrank ℝ U * Real.exp (-(d * ε ^ 2 / 32))) ∧
      ∀ Z ∉ E, ∀ (G : Type) (R : NpRng G) (w : World G), NextNormal R w d m Z →
        ∃ S, gaussianOperator R true d m w = .ok (S, { w with rng := (R.standardNormal d m w.rng).2 }) ∧
          ∀ x ∈ U, (1 - ε) * sqNorm x ≤ sqNorm (S *ᵥ x) ∧ sqNorm (S *ᵥ x) ≤ (1 + ε) * sqNorm x := by
  refine ⟨{Z | ¬ ∀ x ∈ U, |sqNorm ((√(1 / d) • Proof.drawMat Z) *ᵥ x) - sqNorm x| ≤ ε * sqNorm x}, ?_,
    fun Z hZ G R w hw => ?_⟩
  · have h := Proof.gauss_embeds hd U hε hε1
    unfold Measure.real at h
    exact (ENNReal.le_ofReal_iff_toReal_le (measure_ne_top _ _) (by positivity)).2 h
  · refine ⟨√(1 / d) • Proof.drawMat Z, ?_, fun x hx => ?_⟩
    · rw [(C55_gaussian_result R d m w).1 (by omega), show (R.standardNormal d m w.rng).1 = _ from hw,
        Nat.min_eq_left hdm]
      rfl
    · have := abs_le.1 (not_not.1 hZ x hx)
      constructor <;> linarith [this.1, this.2]

/-- **C68** (the range of `A`).  Except for draws of probability at most `2 · 9^rank(A) · exp(-d ε²/32)`, the `d × m`
Gaussian operator embeds the range of `A` up to `1 ± ε`. -/
theorem C68_gaussian_embeds (A : Matrix (Fin m) (Fin n) ℝ) (hd : 0 < d) (hdm : d ≤ m) (ε : ℝ) (hε : 0 ≤ ε)
    (hε1 : ε ≤ 1) :
    ∃ E : Set (Fin d × Fin m → ℝ),
      normals d m E ≤ ENNReal.ofReal (2 * 9 ^ A.rank * Real.exp (-(d * ε ^ 2 / 32))) ∧
      ∀ Z ∉ E, ∀ (G : Type) (R : NpRng G) (w : World G), NextNormal R w d m Z →
        ∃ S, gaussianOperator R true d m w = .ok (S, { w with rng := (R.standardNormal d m w.rng).2 }) ∧
          Embeds S A ε := by
  obtain ⟨E, h1, h2⟩ := C68_gaussian_subspace (colSpace A) hd hdm ε hε hε1
  rw [finrank_colSpace] at h1
  refine ⟨E, h1, fun Z hZ G R w hw => ?_⟩
  obtain ⟨S, hS, he⟩ := h2 Z hZ G R w hw
  exact ⟨S, hS, fun x => he _ (mem_colSpace.2 ⟨x, rfl⟩)⟩

/-- **C68** (how many rows).  `d ≥ (32/ε²)(r log 9 + log(2/p))` rows make the failure probability at most `p`:
a constant multiple of the rank, whatever the number of rows of `A`. -/
theorem C68_rows (r : ℕ) (ε p : ℝ) (hε : 0 < ε) (hp : 0 < p)
    (hd : 32 / ε ^ 2 * (r * Real.log 9 + Real.log (2 / p)) ≤ d) :
    2 * 9 ^ r * Real.exp (-(d * ε ^ 2 / 32)) ≤ p := by
  have h1 : r * Real.log 9 + Real.log (2 / p) ≤ d * ε ^ 2 / 32 := by
    rw [div_mul_eq_mul_div, div_le_iff₀ (by positivity)] at hd
    linarith
  have h2 : Real.exp (-(d * ε ^ 2 / 32)) ≤ Real.exp (-(r * Real.log 9 + Real.log (2 / p))) :=
    Real.exp_le_exp.2 (by linarith)
  have h3 : Real.exp (-(r * Real.log 9 + Real.log (2 / p))) = (9 ^ r)⁻¹ * (p / 2) := by
    rw [neg_add, Real.exp_add, Real.exp_neg, Real.exp_nat_mul, Real.exp_log (by norm_num), Real.exp_neg,
      Real.exp_log (by positivity), inv_div]
  rw [h3] at h2
  calc 2 * 9 ^ r * Real.exp (-(d * ε ^ 2 / 32)) ≤ 2 * 9 ^ r * ((9 ^ r)⁻¹ * (p / 2)) :=
        mul_le_mul_of_nonneg_left h2 (by positivity)
    _ = p := by field_simp

/-- the sketch keeps the rank of the lifted matrix -/
theorem lift_full_of_embeds {S : Matrix (Fin d) (Fin m) ℝ} {A : Matrix (Fin m) (Fin n) ℝ} {δ ε : ℝ} (hδ : 0 ≤ δ)
    (hε : 0 ≤ ε) (hε1 : ε < 1) (hA : FullColRank A) (h : Embeds S A ε) : FullColRank (aLift (S * A) (Real.sqrt δ)) := by
  refine aLift_full_of_full _ _ (fullColRank_iff_inj.2 fun x hx => ?_)
  have h1 := (h x).1
  rw [mulVec_mulVec, hx, sqNorm_zero'] at h1
  have h2 := sqNorm_nonneg (A *ᵥ x)
  exact fullColRank_iff_inj.1 hA x (sqNorm_eq_zero.1 (by nlinarith))

/-- **C68** (`SPO` with a Gaussian sketch).  Let `A` have full column rank, `d = min(int(sampling_factor * n), m) ≥ n`,
`0 ≤ ε < 1` and `n √((1+ε)/(1-ε)) < 10^8 - eps`.  Except for draws of probability at most
`2 · 9^n · exp(-d ε²/32)`: for every `b`, `δ ≥ 0`, limit `L` and QR or Cholesky mode, `SPO` with `tol = 0` and without
logging succeeds, and whatever it returns (with or without logging) is an `x` with
`f(x) - min f ≤ (2 ε^L)² (‖b‖² - min f)`, where `f(x) = ‖Ax - b‖² + δ‖x‖²`. -/
theorem C68_spo (A : Matrix (Fin m) (Fin n) ℝ) (hA : FullColRank A) (hn : 0 < n) (sf : ℝ)
    (hd : n ≤ sketchRows sf m n) (ε : ℝ) (hε : 0 ≤ ε) (hε1 : ε < 1) (hc : n * √((1 + ε) / (1 - ε)) < 10 ^ 8 - eps) :
    ∃ E : Set (Fin (sketchRows sf m n) × Fin m → ℝ),
      normals _ m E ≤ ENNReal.ofReal (2 * 9 ^ n * Real.exp (-(sketchRows sf m n * ε ^ 2 / 32))) ∧
      ∀ Z ∉ E, ∀ (G : Type) (la : LinAlg) (R : NpRng G) (w : World G) (b : Fin m → ℝ) (δ : ℝ) (L : ℕ)
        (clock : LogTimes) (mode : SPOMode) (xs : Fin n → ℝ), 0 ≤ δ → mode = .qr ∨ mode = .chol →
        NextNormal R w _ _ Z → IsRidgeMin A b δ xs →
        (∃ out w', spoCall la (gaussianOperator R true) sf mode A b δ 0 L false clock w = .ok (out, w')) ∧
        ∀ logging out w', spoCall la (gaussianOperator R true) sf mode A b δ 0 L logging clock w = .ok (out, w') →
          ∃ x, out.x = some x ∧
            (sqNorm (A *ᵥ x - b) + δ * sqNorm x) - (sqNorm (A *ᵥ xs - b) + δ * sqNorm xs) ≤
              (2 * ε ^ L) ^ 2 * (sqNorm b - (sqNorm (A *ᵥ xs - b) + δ * sqNorm xs)) := by
  have hmn : n ≤ m := by unfold sketchRows at hd; omega
  have hsf : (n : ℤ) ≤ pyInt (sf * n) := by unfold sketchRows at hd; omega
  have hdm : sketchRows sf m n ≤ m := by unfold sketchRows; omega
  obtain ⟨E, h1, h2⟩ := C68_gaussian_embeds A (d := sketchRows sf m n) (by omega) hdm ε hε hε1.le
  rw [show A.rank = n from hA] at h1
  refine ⟨E, h1, fun Z hZ G la R w b δ L clock mode xs hδ hm hw hxs => ?_⟩
  obtain ⟨dd, hdd, e1, e2, e3⟩ := (C35_dim_checks sf m n w).2 hmn hsf
  obtain rfl : dd = sketchRows sf m n := by unfold sketchRows; omega
  have hw' : NextNormal R { w with warns := w.warns + if (m : ℤ) < pyInt (sf * n) then 1 else 0 } _ _ Z := hw
  obtain ⟨S, hgen, hS⟩ := h2 Z hZ G R _ hw'
  have hm' : mode ≠ .svd := by rcases hm with rfl | rfl <;> simp
  constructor
  · obtain ⟨out, x, g1, -⟩ := spo_unlogged la _ sf A b δ 0 hδ L (by omega) clock w _ _ hn _ hdd hgen e1 mode hm
      (lift_full_of_embeds hδ hε hε1 hA hS)
    exact ⟨_, _, g1⟩
  · intro logging out w' h
    have hw1 : ∀ d w₁ S, (dimChecks sf m n : Py G ℕ) w = .ok (d, w₁) →
        gaussianOperator R true d m w₁ = .ok (S, w') →
        Embeds S A ε ∧ (mode = .svd → WellCond (aLift (S * A) (Real.sqrt δ))) := by
      intro d w₁ S' k1 k2
      rw [hdd] at k1
      cases k1
      rw [hgen] at k2
      cases k2
      exact ⟨hS, fun h => absurd h hm'⟩
    obtain ⟨x, out0, x0, g1, g2, g3, g4, -, g5⟩ := C67_spo_apriori la _ sf mode A b δ 0 hδ le_rfl L logging clock w w'
      out h ε hε hε1 hw1 hc xs hxs _ rfl
    refine ⟨x, g1, (g5 rfl).trans (mul_le_mul_of_nonneg_left ?_ (sq_nonneg _))⟩
    linarith

/-- a point that solves the sketched problem, when the sketch embeds the range of `[A b]` -/
theorem sketched_near_opt {S : Matrix (Fin d) (Fin m) ℝ} {A : Matrix (Fin m) (Fin n) ℝ} {b : Fin m → ℝ} {δ ε : ℝ}
    (hδ : 0 ≤ δ) (hε : 0 ≤ ε) (hε1 : ε < 1)
    (hS : ∀ x, (1 - ε) * sqNorm (A *ᵥ x - b) ≤ sqNorm (S *ᵥ (A *ᵥ x - b)) ∧
      sqNorm (S *ᵥ (A *ᵥ x - b)) ≤ (1 + ε) * sqNorm (A *ᵥ x - b))
    {z : Fin n → ℝ} (hz : IsRidgeMin (S * A) (S *ᵥ b) δ z) (xs : Fin n → ℝ) :
    sqNorm (A *ᵥ z - b) + δ * sqNorm z ≤ (1 + ε) / (1 - ε) * (sqNorm (A *ᵥ xs - b) + δ * sqNorm xs) := by
  have h1 := hz xs
  rw [← mulVec_mulVec, ← mulVec_mulVec, ← mulVec_sub, ← mulVec_sub] at h1
  have h2 := (hS z).1
  have h3 := (hS xs).2
  have h4 := mul_nonneg hε (mul_nonneg hδ (sqNorm_nonneg z))
  have h5 := mul_nonneg hε (mul_nonneg hδ (sqNorm_nonneg xs))
  rw [div_mul_eq_mul_div, le_div_iff₀ (by linarith)]
  nlinarith

/-- the range of `[A b]` -/
theorem finrank_with_vector (A : Matrix (Fin m) (Fin n) ℝ) (b : Fin m → ℝ) :
    Module.finrank ℝ ↥(colSpace A ⊔ Submodule.span ℝ {b}) ≤ n + 1 := by
  refine (Submodule.finrank_add_le_finrank_add_finrank _ _).trans ?_
  have h1 : Module.finrank ℝ (Submodule.span ℝ {b}) ≤ 1 := (finrank_span_le_card ({b} : Set _)).trans (by simp)
  have h2 : Module.finrank ℝ (colSpace A) ≤ n := by rw [finrank_colSpace]; exact A.rank_le_width
  omega

theorem mem_with_vector (A : Matrix (Fin m) (Fin n) ℝ) (b : Fin m → ℝ) (x : Fin n → ℝ) :
    A *ᵥ x - b ∈ colSpace A ⊔ Submodule.span ℝ {b} :=
  Submodule.sub_mem _ (Submodule.mem_sup_left (mem_colSpace.2 ⟨x, rfl⟩))
    (Submodule.mem_sup_right (Submodule.mem_span_singleton_self b))

/-- **C68** (`SSO1` with a Gaussian sketch).  For any `A`, `b`, `d = min(int(sampling_factor * n), m) ≥ n > 0` and
`0 ≤ ε < 1`, except for draws of probability at most `2 · 9^(n+1) · exp(-d ε²/32)`: for every `δ ≥ 0`, `SSO1` returns
an `x` with `f(x) ≤ (1+ε)/(1-ε) f(z)` for every `z`, where `f(x) = ‖Ax - b‖² + δ‖x‖²`. -/
theorem C68_sso1 (A : Matrix (Fin m) (Fin n) ℝ) (hn : 0 < n) (b : Fin m → ℝ) (sf : ℝ)
    (hd : n ≤ sketchRows sf m n) (ε : ℝ) (hε : 0 ≤ ε) (hε1 : ε < 1) :
    ∃ E : Set (Fin (sketchRows sf m n) × Fin m → ℝ),
      normals _ m E ≤ ENNReal.ofReal (2 * 9 ^ (n + 1) * Real.exp (-(sketchRows sf m n * ε ^ 2 / 32))) ∧
      ∀ Z ∉ E, ∀ (G : Type) (la : LinAlg) (R : NpRng G) (w : World G) (δ : ℝ) (tol : Tol) (L : ℤ), 0 ≤ δ →
        NextNormal R w _ _ Z →
        ∃ x w', sso1Call la (gaussianOperator R true) sf A b δ tol L w = .ok (x, w') ∧
          ∀ z, sqNorm (A *ᵥ x - b) + δ * sqNorm x ≤
            (1 + ε) / (1 - ε) * (sqNorm (A *ᵥ z - b) + δ * sqNorm z) := by
  have hmn : n ≤ m := by unfold sketchRows at hd; omega
  have hsf : (n : ℤ) ≤ pyInt (sf * n) := by unfold sketchRows at hd; omega
  have hdm : sketchRows sf m n ≤ m := by unfold sketchRows; omega
  obtain ⟨E, h1, h2⟩ := C68_gaussian_subspace (d := sketchRows sf m n) (colSpace A ⊔ Submodule.span ℝ {b}) (by omega)
    hdm ε hε hε1.le
  refine ⟨E, h1.trans (ENNReal.ofReal_le_ofReal (mul_le_mul_of_nonneg_right (mul_le_mul_of_nonneg_left
    (pow_le_pow_right₀ (by norm_num) (finrank_with_vector A b)) two_pos.le) (Real.exp_pos _).le)),
    fun Z hZ G la R w δ tol L hδ hw => ?_⟩
  have key : ∃ x w', sso1Call la (gaussianOperator R true) sf A b δ tol L w = .ok (x, w') := by
    rw [sso1_eq]
    obtain ⟨dd, hdd, e1, e2, e3⟩ := (C35_dim_checks sf m n { w with warns := w.warns + sso1Warns tol L }).2 hmn hsf
    obtain rfl : dd = sketchRows sf m n := by unfold sketchRows; omega
    have hw' : NextNormal R { w with warns := w.warns + sso1Warns tol L + if (m : ℤ) < pyInt (sf * n) then 1 else 0 }
      _ _ Z := hw
    obtain ⟨S, hgen, -⟩ := h2 Z hZ G R _ hw'
    rw [Py.bind_eq_of_ok hdd, Py.bind_eq_of_ok hgen]
    exact ⟨_, _, rfl⟩
  obtain ⟨x, w', hx⟩ := key
  refine ⟨x, w', hx, fun z => ?_⟩
  obtain ⟨dd, S, -, -, e3, hg, hmin, -⟩ := C36_sso1 la _ sf A b δ hδ tol L w w' x hx
  obtain rfl : dd = sketchRows sf m n := by unfold sketchRows; omega
  obtain ⟨w2, hg, hw2⟩ : ∃ w2 : World G, gaussianOperator R true _ m w2 = .ok (S, w') ∧ w2.rng = w.rng :=
    ⟨_, hg, rfl⟩
  have hw3 : NextNormal R w2 _ _ Z := by unfold NextNormal at hw ⊢; rw [hw2]; exact hw
  obtain ⟨S', hgen, hS⟩ := h2 Z hZ G R _ hw3
  rw [hgen] at hg
  cases hg
  exact sketched_near_opt hδ hε hε1 (fun x => hS _ (mem_with_vector A b x)) hmin z

/-- **C68** (`SPO`, relative to the optimum).  In the setting of `C68_spo` but for one right-hand side `b`, except for
draws of probability at most `2 · 9^(n+1) · exp(-d ε²/32)`, whatever `SPO` with `tol = 0` and limit `L` returns has
`f(x) ≤ (1 + 8 ε^(2L+1)/(1-ε)) min f`. -/
theorem C68_spo_relative (A : Matrix (Fin m) (Fin n) ℝ) (hA : FullColRank A) (hn : 0 < n) (b : Fin m → ℝ) (sf : ℝ)
    (hd : n ≤ sketchRows sf m n) (ε : ℝ) (hε : 0 ≤ ε) (hε1 : ε < 1) (hc : n * √((1 + ε) / (1 - ε)) < 10 ^ 8 - eps) :
    ∃ E : Set (Fin (sketchRows sf m n) × Fin m → ℝ),
      normals _ m E ≤ ENNReal.ofReal (2 * 9 ^ (n + 1) * Real.exp (-(sketchRows sf m n * ε ^ 2 / 32))) ∧
      ∀ Z ∉ E, ∀ (G : Type) (la : LinAlg) (R : NpRng G) (w : World G) (δ : ℝ) (L : ℕ)
        (clock : LogTimes) (mode : SPOMode) (xs : Fin n → ℝ), 0 ≤ δ → mode = .qr ∨ mode = .chol →
        NextNormal R w _ _ Z → IsRidgeMin A b δ xs →
        (∃ out w', spoCall la (gaussianOperator R true) sf mode A b δ 0 L false clock w = .ok (out, w')) ∧
        ∀ logging out w', spoCall la (gaussianOperator R true) sf mode A b δ 0 L logging clock w = .ok (out, w') →
          ∃ x, out.x = some x ∧ sqNorm (A *ᵥ x - b) + δ * sqNorm x ≤
            (1 + 8 * ε ^ (2 * L + 1) / (1 - ε)) * (sqNorm (A *ᵥ xs - b) + δ * sqNorm xs) := by
  have hmn : n ≤ m := by unfold sketchRows at hd; omega
  have hsf : (n : ℤ) ≤ pyInt (sf * n) := by unfold sketchRows at hd; omega
  have hdm : sketchRows sf m n ≤ m := by unfold sketchRows; omega
  obtain ⟨E, h1, h2⟩ := C68_gaussian_subspace (d := sketchRows sf m n) (colSpace A ⊔ Submodule.span ℝ {b}) (by omega)
    hdm ε hε hε1.le
  refine ⟨E, h1.trans (ENNReal.ofReal_le_ofReal (mul_le_mul_of_nonneg_right (mul_le_mul_of_nonneg_left
    (pow_le_pow_right₀ (by norm_num) (finrank_with_vector A b)) two_pos.le) (Real.exp_pos _).le)),
    fun Z hZ G la R w δ L clock mode xs hδ hm hw hxs => ?_⟩
  obtain ⟨dd, hdd, e1, e2, e3⟩ := (C35_dim_checks sf m n w).2 hmn hsf
  obtain rfl : dd = sketchRows sf m n := by unfold sketchRows; omega
  have hw' : NextNormal R { w with warns := w.warns + if (m : ℤ) < pyInt (sf * n) then 1 else 0 } _ _ Z := hw
  obtain ⟨S, hgen, hSU⟩ := h2 Z hZ G R _ hw'
  have hS : Embeds S A ε := fun x => hSU _ (Submodule.mem_sup_left (mem_colSpace.2 ⟨x, rfl⟩))
  have hfull := lift_full_of_embeds hδ hε hε1 hA hS
  have hm' : mode ≠ .svd := by rcases hm with rfl | rfl <;> simp
  constructor
  · obtain ⟨out, x, g1, -⟩ := spo_unlogged la _ sf A b δ 0 hδ L (by omega) clock w _ _ hn _ hdd hgen e1 mode hm hfull
    exact ⟨_, _, g1⟩
  · intro logging out w' h
    have hw1 : ∀ d w₁ S, (dimChecks sf m n : Py G ℕ) w = .ok (d, w₁) →
        gaussianOperator R true d m w₁ = .ok (S, w') →
        Embeds S A ε ∧ (mode = .svd → WellCond (aLift (S * A) (Real.sqrt δ))) := by
      intro d w₁ S' k1 k2
      rw [hdd] at k1
      cases k1
      rw [hgen] at k2
      cases k2
      exact ⟨hS, fun h => absurd h hm'⟩
    obtain ⟨f, hf⟩ : ∃ f : (Fin n → ℝ) → ℝ, f = fun x => sqNorm (A *ᵥ x - b) + δ * sqNorm x := ⟨_, rfl⟩
    have hfx : ∀ x, f x = sqNorm (A *ᵥ x - b) + δ * sqNorm x := fun x => by rw [hf]
    obtain ⟨x, out0, x0, g1, g2, g3, g4, -, g5⟩ := C67_spo_apriori la _ sf mode A b δ 0 hδ le_rfl L logging clock w w'
      out h ε hε hε1 hw1 hc xs hxs f hf
    refine ⟨x, g1, ?_⟩
    -- the start
    obtain ⟨out1, x1, k1, k2, -, k4⟩ := spo_unlogged la _ sf A b δ 0 hδ 0 le_rfl clock w _ _ hn _ hdd hgen e1 mode hm
      hfull
    rw [g2] at k1
    cases k1
    rw [g3] at k2
    cases k2
    obtain ⟨z, hz⟩ : ∃ z, IsRidgeMin (S * A) (S *ᵥ b) δ z :=
      ⟨_, ridge_of_normal hδ (lstsqv_lift la (S * A) (S *ᵥ b) hδ).1⟩
    have h0 := (k4 z hz).trans (sketched_near_opt hδ hε hε1 (fun x => hSU _ (mem_with_vector A b x)) hz xs)
    rw [← hfx, ← hfx] at h0 ⊢
    have hfs : 0 ≤ f xs := by
      rw [hfx]; exact add_nonneg (sqNorm_nonneg _) (mul_nonneg hδ (sqNorm_nonneg _))
    have p : (0 : ℝ) < 1 - ε := by linarith
    have h6 : f x0 - f xs ≤ 2 * ε / (1 - ε) * f xs := by
      have : (1 + ε) / (1 - ε) * f xs = f xs + 2 * ε / (1 - ε) * f xs := by field_simp; ring
      linarith
    have h7 := (g5 rfl).trans (mul_le_mul_of_nonneg_left h6 (sq_nonneg _))
    have h8 : (2 * ε ^ L) ^ 2 * (2 * ε / (1 - ε) * f xs) = 8 * ε ^ (2 * L + 1) / (1 - ε) * f xs := by
      rw [pow_succ ε (2 * L), mul_comm 2 L, pow_mul]; ring
    rw [h8] at h7
    rw [add_mul, one_mul]
    linarith

/-- the sketched matrix is well conditioned if `A` is, with some slack -/
theorem wellCond_of_embeds {S : Matrix (Fin d) (Fin m) ℝ} {A : Matrix (Fin m) (Fin n) ℝ} {ε lo hi : ℝ}
    (hε : 0 ≤ ε) (hε1 : ε < 1) (h : Embeds S A ε) (hlo : ∀ x, lo * norm2 x ≤ norm2 (A *ᵥ x))
    (hhi : ∀ x, norm2 (A *ᵥ x) ≤ hi * norm2 x) (h0 : 0 ≤ hi) (hs : √((1 + ε) / (1 - ε)) * hi * n * eps < lo) :
    WellCond (S * A) := by
  have p1 : 0 < √(1 + ε) := Real.sqrt_pos.2 (by linarith)
  have p2 : 0 < √(1 - ε) := Real.sqrt_pos.2 (by linarith)
  refine ⟨√(1 - ε) * lo, √(1 + ε) * hi, fun x => ?_, fun x => ?_, by positivity, ?_⟩
  · rw [mul_assoc]
    refine (mul_le_mul_of_nonneg_left (hlo x) p2.le).trans ?_
    unfold norm2
    rw [← Real.sqrt_mul (by linarith), ← mulVec_mulVec]
    exact Real.sqrt_le_sqrt (h x).1
  · rw [mul_assoc]
    refine le_trans ?_ (mul_le_mul_of_nonneg_left (hhi x) p1.le)
    unfold norm2
    rw [← Real.sqrt_mul (by linarith), ← mulVec_mulVec]
    exact Real.sqrt_le_sqrt (h x).2
  · rw [Real.sqrt_div (by linarith)] at hs
    have := mul_lt_mul_of_pos_left hs p2
    have e : √(1 - ε) * (√(1 + ε) / √(1 - ε) * hi * n * eps) = √(1 + ε) * hi * n * eps := by field_simp
    rwa [e] at this

/-- **C68** (`SPU1` with a Gaussian sketch).  Let `lo ‖x‖ ≤ ‖A x‖ ≤ hi ‖x‖` with `√((1+ε)/(1-ε)) hi n eps < lo`,
`d = min(int(sampling_factor * n), m) ≥ n` and `0 ≤ ε < 1`.  Except for draws of probability at most
`2 · 9^n · exp(-d ε²/32)`: for every `c ≠ 0`, tolerance and limit, if `SPU1` with logging made `k` iterations then its
squared distance to the minimum-norm solution `y*` of `A'y = c` is at most `(2 ε^k)² (1+ε)/(1-ε) ‖y*‖²`; and if also
`n √((1+ε)/(1-ε)) < 10^8 - eps`, then with `tol = 0` and limit `≥ n` it returns `y*`. -/
theorem C68_spu1 (A : Matrix (Fin m) (Fin n) ℝ) (hn : 0 < n) (sf : ℝ) (hd : n ≤ sketchRows sf m n) (ε lo hi : ℝ)
    (hε : 0 ≤ ε) (hε1 : ε < 1) (hlo : ∀ x, lo * norm2 x ≤ norm2 (A *ᵥ x))
    (hhi : ∀ x, norm2 (A *ᵥ x) ≤ hi * norm2 x) (h0 : 0 ≤ hi) (hs : √((1 + ε) / (1 - ε)) * hi * n * eps < lo) :
    ∃ E : Set (Fin (sketchRows sf m n) × Fin m → ℝ),
      normals _ m E ≤ ENNReal.ofReal (2 * 9 ^ n * Real.exp (-(sketchRows sf m n * ε ^ 2 / 32))) ∧
      ∀ Z ∉ E, ∀ (G : Type) (la : LinAlg) (R : NpRng G) (w : World G) (c : Fin n → ℝ) (L : ℤ) (clock : LogTimes)
        (ys : Fin m → ℝ), c ≠ 0 → NextNormal R w _ _ Z → IsMinNormSol A c ys →
        (∀ tol out w' lg k, spu1Call la (gaussianOperator R true) sf A c tol L true clock w = .ok (out, w') →
          out.log = some lg → lg.errors.length = k + 1 →
          sqNorm (out.y - ys) ≤ (2 * ε ^ k) ^ 2 * ((1 + ε) / (1 - ε)) * sqNorm ys) ∧
        (n * √((1 + ε) / (1 - ε)) < 10 ^ 8 - eps → (n : ℤ) ≤ L → ∀ logging,
          ∃ out w', spu1Call la (gaussianOperator R true) sf A c 0 L logging clock w = .ok (out, w') ∧ out.y = ys) := by
  have hmn : n ≤ m := by unfold sketchRows at hd; omega
  have hsf : (n : ℤ) ≤ pyInt (sf * n) := by unfold sketchRows at hd; omega
  have hdm : sketchRows sf m n ≤ m := by unfold sketchRows; omega
  have hlo0 : 0 < lo := lt_of_le_of_lt (by unfold eps; positivity) hs
  have hA : FullColRank A := fullColRank_iff_inj.2 fun x hx => by
    have h1 := hlo x
    rw [hx, show norm2 (0 : Fin m → ℝ) = 0 from norm2_eq_zero.2 rfl] at h1
    have h2 := norm2_nonneg x
    exact norm2_eq_zero.1 (by nlinarith)
  obtain ⟨E, h1, h2⟩ := C68_gaussian_embeds A (d := sketchRows sf m n) (by omega) hdm ε hε hε1.le
  rw [show A.rank = n from hA] at h1
  refine ⟨E, h1, fun Z hZ G la R w c L clock ys hc hw hys => ?_⟩
  obtain ⟨dd, hdd, e1, e2, e3⟩ := (C35_dim_checks sf m n w).2 hmn hsf
  obtain rfl : dd = sketchRows sf m n := by unfold sketchRows; omega
  have hw' : NextNormal R { w with warns := w.warns + if (m : ℤ) < pyInt (sf * n) then 1 else 0 } _ _ Z := hw
  obtain ⟨S, hgen, hS⟩ := h2 Z hZ G R _ hw'
  have hSw := wellCond_of_embeds hε hε1 hS hlo hhi h0 hs
  constructor
  · intro tol out w' lg k h hlg hk
    refine C67_spu1_rate la _ sf A c hc tol L clock w w' out h ε hε hε1 (fun d w₁ S' k1 k2 => ?_) lg hlg k hk ys hys
    rw [hdd] at k1
    cases k1
    rw [hgen] at k2
    cases k2
    exact ⟨hS, hSw⟩
  · intro hcond hL logging
    obtain ⟨out, g1, g2⟩ := spu1_exact_drawn la A hc hL logging clock hn hdd hgen hε hε1 hS hSw hcond
    refine ⟨out, _, g1, ?_⟩
    obtain ⟨u, hu⟩ := mem_colSpace.1 (minNorm_range hA g2)
    obtain ⟨v, hv⟩ := mem_colSpace.1 (minNorm_range hA hys)
    have e : Aᵀ *ᵥ (A *ᵥ (u - v)) = 0 := by rw [mulVec_sub, mulVec_sub, hu, hv, g2.1, hys.1, sub_self]
    have e2 : sqNorm (A *ᵥ (u - v)) = 0 := by
      rw [sqNorm_eq_dot, dot_mulVec, e, zero_dotProduct]
    have e3 := sqNorm_eq_zero.1 e2
    rw [mulVec_sub, hu, hv] at e3
    exact sub_eq_zero.1 e3

/-- The hypotheses of the theorems of this file are met, with a failure probability below `1/100`: one column of a
thousand ones, `ε = 1/2`, sampling factor 1000. -/
example : ∃ A : Matrix (Fin 1000) (Fin 1) ℝ, FullColRank A ∧ 1 ≤ sketchRows 1000 1000 1 ∧
    (1 : ℕ) * √((1 + 1 / 2) / (1 - 1 / 2)) < 10 ^ 8 - eps ∧
    2 * 9 ^ 1 * Real.exp (-(sketchRows 1000 1000 1 * (1 / 2) ^ 2 / 32)) ≤ 1 / 100 := by
  have hp : pyInt (1000 * (1 : ℕ)) = 1000 := by
    unfold pyInt; rw [if_pos (by norm_num), Int.floor_eq_iff]; norm_num
  have hr : sketchRows 1000 1000 1 = 1000 := by unfold sketchRows; rw [hp]; rfl
  refine ⟨fun _ _ => 1, demo31_full _ 0 (by norm_num), by rw [hr]; norm_num, ?_, ?_⟩
  · have h1 : eps ≤ 1 := by unfold eps; norm_num
    have h2 : √((1 + 1 / 2) / (1 - 1 / 2)) ≤ 2 := by
      rw [Real.sqrt_le_left (by norm_num)]; norm_num
    push_cast
    norm_num at h2 ⊢
    linarith
  · rw [hr]
    have h1 : Real.exp (-(((1000 : ℕ) : ℝ) * (1 / 2) ^ 2 / 32)) ≤ Real.exp (-(15 / 2)) :=
      Real.exp_le_exp.2 (by norm_num)
    have h2 : Real.exp (-(15 / 2)) ≤ 1 / 1800 := by
      rw [Real.exp_neg, ← one_div]
      refine one_div_le_one_div_of_le (by norm_num) ?_
      have h3 : (1800 : ℝ) ≤ (2.7182818283) ^ (15 / 2 : ℝ) := by
        have e : ((2.7182818283 : ℝ) ^ (15 / 2 : ℝ)) = √((2.7182818283) ^ 15) := by
          rw [Real.sqrt_eq_rpow, ← Real.rpow_natCast, ← Real.rpow_mul (by norm_num)]
          norm_num
        rw [e]
        exact Real.le_sqrt_of_sq_le (by norm_num)
      refine h3.trans ?_
      rw [← Real.exp_one_rpow]
      exact Real.rpow_le_rpow (by norm_num) (le_of_lt Real.exp_one_gt_d9) (by norm_num)
    linarith

end Parla.Props
