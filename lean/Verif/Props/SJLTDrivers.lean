import Verif.Props.SJLTEmbed

/-! # Property C70, drivers: `sso1`, `spo1`, `spo3`, `spu1` with their default (SJLT) sketch -/

namespace Parla.Props

open MeasureTheory ProbabilityTheory Matrix Parla Spec

variable {G : Type} {m n d s : ℕ}

/-- the lifted sketch is well conditioned if `A` is, with some slack -/
theorem wellCond_lift_of_embeds {S : Matrix (Fin d) (Fin m) ℝ} {A : Matrix (Fin m) (Fin n) ℝ} {δ ε lo hi : ℝ} (hn : 0 < n)
    (hδ : 0 ≤ δ) (hε : 0 ≤ ε) (hε1 : ε < 1) (h : Embeds S A ε) (hlo : ∀ x, lo * norm2 x ≤ norm2 (A *ᵥ x))
    (hhi : ∀ x, norm2 (A *ᵥ x) ≤ hi * norm2 x) (h0 : 0 ≤ hi) (hs : √((1 + ε) / (1 - ε)) * hi * n * eps < lo) :
    WellCond (aLift (S * A) (Real.sqrt δ)) := by
  have he : 0 < eps := by unfold eps; positivity
  have hn' : (0 : ℝ) < n := by exact_mod_cast hn
  have hlo0 : 0 < lo := lt_of_le_of_lt (by positivity) hs
  -- `n eps < 1`
  have hhl : lo ≤ hi := by
    have h1 := (hlo (Pi.single ⟨0, hn⟩ 1)).trans (hhi _)
    have h2 : norm2 (Pi.single (⟨0, hn⟩ : Fin n) (1 : ℝ)) = 1 := by
      unfold norm2 sqNorm
      rw [Finset.sum_eq_single ⟨0, hn⟩]
      · simp
      · intro b _ hb; simp [Pi.single_eq_of_ne hb]
      · intro h; exact absurd (Finset.mem_univ _) h
    rwa [h2, mul_one, mul_one] at h1
  have hk1 : 1 ≤ √((1 + ε) / (1 - ε)) := Real.one_le_sqrt.2 ((one_le_div (by linarith)).2 (by linarith))
  have hne : n * eps ≤ 1 := by
    by_contra hc
    push Not at hc
    have h1 : lo ≤ √((1 + ε) / (1 - ε)) * hi := hhl.trans (le_mul_of_one_le_left h0 hk1)
    have h2 : √((1 + ε) / (1 - ε)) * hi * 1 ≤ √((1 + ε) / (1 - ε)) * hi * (n * eps) :=
      mul_le_mul_of_nonneg_left hc.le (by positivity)
    rw [← mul_assoc] at h2
    linarith
  have hsq : (1 + ε) * hi ^ 2 * (n * eps) ^ 2 < (1 - ε) * lo ^ 2 := by
    have h1 := pow_lt_pow_left₀ hs (by positivity) two_ne_zero
    have e1 : (√((1 + ε) / (1 - ε)) * hi * n * eps) ^ 2 = (1 + ε) / (1 - ε) * (hi ^ 2 * (n * eps) ^ 2) := by
      rw [mul_assoc, mul_assoc, mul_pow, Real.sq_sqrt (div_nonneg (by linarith) (by linarith)), ← mul_pow]
    rw [e1, div_mul_eq_mul_div, div_lt_iff₀ (by linarith)] at h1
    linarith
  have key : ∀ x, ((1 - ε) * lo ^ 2 + δ) * sqNorm x ≤ sqNorm (aLift (S * A) (Real.sqrt δ) *ᵥ x) ∧
      sqNorm (aLift (S * A) (Real.sqrt δ) *ᵥ x) ≤ ((1 + ε) * hi ^ 2 + δ) * sqNorm x := fun x => by
    rw [sqNorm_aLift, Real.sq_sqrt hδ, ← mulVec_mulVec]
    have h1 := h x
    have h2 := pow_le_pow_left₀ (mul_nonneg hlo0.le (norm2_nonneg x)) (hlo x) 2
    have h3 := pow_le_pow_left₀ (norm2_nonneg _) (hhi x) 2
    rw [mul_pow, norm2_sq, norm2_sq] at h2 h3
    have h4 := mul_le_mul_of_nonneg_left h2 (by linarith : 0 ≤ 1 - ε)
    have h5 := mul_le_mul_of_nonneg_left h3 (by linarith : 0 ≤ 1 + ε)
    constructor
    · linarith [h1.1]
    · linarith [h1.2]
  have p1 : 0 ≤ (1 - ε) * lo ^ 2 + δ := add_nonneg (mul_nonneg (by linarith) (sq_nonneg _)) hδ
  have p2 : 0 ≤ (1 + ε) * hi ^ 2 + δ := add_nonneg (mul_nonneg (by linarith) (sq_nonneg _)) hδ
  refine ⟨√((1 - ε) * lo ^ 2 + δ), √((1 + ε) * hi ^ 2 + δ), fun x => ?_, fun x => ?_, Real.sqrt_nonneg _, ?_⟩
  · unfold norm2
    rw [← Real.sqrt_mul p1]
    exact Real.sqrt_le_sqrt (key x).1
  · unfold norm2
    rw [← Real.sqrt_mul p2]
    exact Real.sqrt_le_sqrt (key x).2
  · rw [mul_assoc]
    refine Real.lt_sqrt_of_sq_lt ?_
    rw [mul_pow, Real.sq_sqrt p2, add_mul]
    have : δ * (n * eps) ^ 2 ≤ δ := mul_le_of_le_one_right hδ (pow_le_one₀ (by positivity) hne)
    linarith

/-- `SPO` for a given sketch that embeds the range of `A`, with `tol = 0` -/
theorem spo_given (la : LinAlg) {gen : SkOpGen G} {sf : ℝ} (A : Matrix (Fin m) (Fin n) ℝ) (hA : FullColRank A)
    (b : Fin m → ℝ) {δ ε : ℝ} (hδ : 0 ≤ δ) (hn : 0 < n) {w w₁ w' : World G} {S : Matrix (Fin d) (Fin m) ℝ} (hnd : n ≤ d)
    (hdd : (dimChecks sf m n : Py G ℕ) w = .ok (d, w₁)) (hgen : gen d m w₁ = .ok (S, w')) (hε : 0 ≤ ε) (hε1 : ε < 1)
    (hS : Embeds S A ε) (hc : n * √((1 + ε) / (1 - ε)) < 10 ^ 8 - eps) (L : ℕ) (clock : LogTimes) (mode : SPOMode)
    (hm : mode ≠ .other) (hw : mode = .svd → WellCond (aLift (S * A) (Real.sqrt δ))) (xs : Fin n → ℝ)
    (hxs : IsRidgeMin A b δ xs) (f : (Fin n → ℝ) → ℝ) (hf : f = fun x => sqNorm (A *ᵥ x - b) + δ * sqNorm x) :
    ∃ x0 x, f x - f xs ≤ (2 * ε ^ L) ^ 2 * (f x0 - f xs) ∧ f x0 ≤ sqNorm b ∧
      (∀ z, IsRidgeMin (S * A) (S *ᵥ b) δ z → f x0 ≤ f z) ∧
      (IsRidgeMin A b δ x0 → spoCall la gen sf mode A b δ 0 L true clock w = .error .value) ∧
      (¬ IsRidgeMin A b δ x0 → ∃ lg, spoCall la gen sf mode A b δ 0 L true clock w = .ok (⟨some x, some lg⟩, w')) := by
  have hfx : ∀ x, f x = sqNorm (A *ᵥ x - b) + δ * sqNorm x := fun x => by rw [hf]
  have hfull := lift_full_of_embeds hδ hε hε1 hA hS
  have hm2 : mode = .svd ∨ (mode = .qr ∨ mode = .chol) ∧ FullColRank (aLift (S * A) (Real.sqrt δ)) := by
    cases mode with
    | qr => exact Or.inr ⟨Or.inl rfl, hfull⟩
    | chol => exact Or.inr ⟨Or.inr rfl, hfull⟩
    | svd => exact Or.inl rfl
    | other => exact absurd rfl hm
  obtain ⟨⟨o, ho⟩, -⟩ := spo_total la mode S A b δ 0 hδ L (by omega) clock hn hnd hm2
  have key := spoCall_eq (la := la) (gen := gen) mode A b δ 0 L false clock hdd hgen
  rw [ho] at key
  have hw1 : ∀ d w₁ S, (dimChecks sf m n : Py G ℕ) w = .ok (d, w₁) → gen d m w₁ = .ok (S, w') →
      Embeds S A ε ∧ (mode = .svd → WellCond (aLift (S * A) (Real.sqrt δ))) := by
    intro d w₁ S' k1 k2
    rw [hdd] at k1
    cases k1
    rw [hgen] at k2
    cases k2
    exact ⟨hS, hw⟩
  obtain ⟨x, out0, x0, g1, g2, g3, g4, -, g5⟩ := C67_spo_apriori la _ sf mode A b δ 0 hδ le_rfl L false clock w w'
    o key ε hε hε1 hw1 hc xs hxs f hf
  obtain ⟨c1, c2⟩ := C43_spo_logging la gen sf mode A b δ 0 hδ L clock w w' o out0 x0 key g2 g3
    (fun h d w₁ S k1 k2 => (hw1 d w₁ S k1 k2).2 h)
  refine ⟨x0, x, g5 rfl, g4, fun z hz => ?_, c1, fun h => ?_⟩
  · obtain ⟨d', S', w₁', k1, k2, k3⟩ := C37_spo_start la gen sf mode A b δ 0 hδ clock w w' out0 g2
    rw [hdd] at k1
    cases k1
    rw [hgen] at k2
    cases k2
    obtain ⟨-, k3⟩ := k3 hw
    have hzn := normal_of_ridge la hδ hz
    have hz' : ((S * A)ᵀ * (S * A) + δ • 1) *ᵥ z = (S * A)ᵀ *ᵥ (S *ᵥ b) := by
      rw [add_mulVec, smul_mulVec, one_mulVec, ← mulVec_mulVec]
      rw [mulVec_sub] at hzn
      have := sub_eq_zero.1 hzn
      rw [← this]
      abel
    rcases lt_or_ge (sqNorm (A *ᵥ z - b) + δ * sqNorm z) (sqNorm b) with hlt | hge
    · have := (k3 z hz').1 hlt
      rw [g3] at this
      cases this
      exact le_rfl
    · rw [hfx z]
      exact g4.trans hge
  · obtain ⟨lg, hlg⟩ := c2 h
    rw [g1] at hlg
    exact ⟨lg, hlg⟩

/-- the first steps of a driver that draws an SJLT -/
theorem sjlt_driver {sf : ℝ} (hmn : n ≤ m) (hsf : (n : ℤ) ≤ pyInt (sf * n)) (w : World G) :
    (dimChecks sf m n : Py G ℕ) w = .ok (sketchRows sf m n,
      { w with warns := w.warns + if (m : ℤ) < pyInt (sf * n) then 1 else 0 }) := by
  obtain ⟨dd, hdd, e1, e2, e3⟩ := (C35_dim_checks sf m n w).2 hmn hsf
  obtain rfl : dd = sketchRows sf m n := by unfold sketchRows; omega
  exact hdd

/-- **C70** (`spo1` and `spo3`).  Let `A` have full column rank, `d = min(int(sampling_factor * n), m) ≥ n > 0`,
`1 ≤ vec_nnz ≤ d`, `0 < ε < 1` and `n √((1+ε)/(1-ε)) < 10^8 - eps`.  Except for draws of probability at most
`(n² + n)/(d ε²)`: for every `b`, `δ ≥ 0` and limit `L`, `spo3(A, b, δ, 0, L, rng)` in mode `'qr'` or `'chol'` returns an
`x` with `f(x) - min f ≤ (2 ε^L)² (‖b‖² - min f)`, where `f(x) = ‖Ax - b‖² + δ‖x‖²`, or raises ValueError (exactly when the
point it starts from is already a minimiser: `C57_spo3_outcomes`).  If moreover `lo ‖x‖ ≤ ‖A x‖ ≤ hi ‖x‖` with
`√((1+ε)/(1-ε)) hi n eps < lo`, the same holds of `spo1`. -/
theorem C70_spo (A : Matrix (Fin m) (Fin n) ℝ) (hA : FullColRank A) (hn : 0 < n) (a : SketchArgs)
    (hd : n ≤ sketchRows a.samplingFactor m n) (hs : 0 < a.vecNnz) (hsd : a.vecNnz ≤ sketchRows a.samplingFactor m n)
    (ε : ℝ) (hε : 0 < ε) (hε1 : ε < 1) (hc : n * √((1 + ε) / (1 - ε)) < 10 ^ 8 - eps) :
    ∃ E : Set ((Fin m → (Fin a.vecNnz ↪ Fin (sketchRows a.samplingFactor m n))) × (Fin (m * a.vecNnz) → ℝ)),
      sjltDraws _ m _ E ≤ ENNReal.ofReal ((n ^ 2 + n) / (sketchRows a.samplingFactor m n * ε ^ 2)) ∧
      ∀ rv u, (rv, u) ∉ E → ∀ (G : Type) (la : LinAlg) (R : NpRng G) (w : World G) (b : Fin m → ℝ) (δ : ℝ) (L : ℕ)
        (clock : LogTimes) (xs : Fin n → ℝ), 0 ≤ δ → NextSJLT R w _ _ _ rv u → IsRidgeMin A b δ xs →
        (∀ mode, mode = .qr ∨ mode = .chol → 
          spo3Fn la R A b δ 0 L clock a mode w = .error .value ∨
          ∃ out w' x lg, spo3Fn la R A b δ 0 L clock a mode w = .ok (out, w') ∧ out.x = some x ∧ out.log = some lg ∧
            (sqNorm (A *ᵥ x - b) + δ * sqNorm x) - (sqNorm (A *ᵥ xs - b) + δ * sqNorm xs) ≤
              (2 * ε ^ L) ^ 2 * (sqNorm b - (sqNorm (A *ᵥ xs - b) + δ * sqNorm xs))) ∧
        (∀ lo hi, (∀ x, lo * norm2 x ≤ norm2 (A *ᵥ x)) → (∀ x, norm2 (A *ᵥ x) ≤ hi * norm2 x) → 0 ≤ hi →
          √((1 + ε) / (1 - ε)) * hi * n * eps < lo →
          spo1Fn la R A b δ 0 L clock a w = .error .value ∨
          ∃ out w' x lg, spo1Fn la R A b δ 0 L clock a w = .ok (out, w') ∧ out.x = some x ∧ out.log = some lg ∧
            (sqNorm (A *ᵥ x - b) + δ * sqNorm x) - (sqNorm (A *ᵥ xs - b) + δ * sqNorm xs) ≤
              (2 * ε ^ L) ^ 2 * (sqNorm b - (sqNorm (A *ᵥ xs - b) + δ * sqNorm xs))) := by
  have hmn : n ≤ m := by unfold sketchRows at hd; omega
  have hsf : (n : ℤ) ≤ pyInt (a.samplingFactor * n) := by unfold sketchRows at hd; omega
  have hdm : sketchRows a.samplingFactor m n ≤ m := by unfold sketchRows; omega
  obtain ⟨E, h1, h2⟩ := C70_sjlt_embeds A hs hsd hdm ε hε
  rw [show A.rank = n from hA] at h1
  refine ⟨E, h1, fun rv u hE G la R w b δ L clock xs hδ hw hxs => ?_⟩
  have hw' : NextSJLT R { w with warns := w.warns + if (m : ℤ) < pyInt (a.samplingFactor * n) then 1 else 0 } _ _ _ rv u :=
    hw
  obtain ⟨S, w', hgen, hS⟩ := h2 rv u hE G R _ hw'
  have main : ∀ mode : SPOMode, mode ≠ .other → (mode = .svd → WellCond (aLift (S * A) (Real.sqrt δ))) →
      spo3Fn la R A b δ 0 L clock a mode w = .error .value ∨
      ∃ out w' x lg, spo3Fn la R A b δ 0 L clock a mode w = .ok (out, w') ∧ out.x = some x ∧ out.log = some lg ∧
        (sqNorm (A *ᵥ x - b) + δ * sqNorm x) - (sqNorm (A *ᵥ xs - b) + δ * sqNorm xs) ≤
          (2 * ε ^ L) ^ 2 * (sqNorm b - (sqNorm (A *ᵥ xs - b) + δ * sqNorm xs)) := by
    intro mode hm hwc
    obtain ⟨x0, x, g1, g2, -, g4, g5⟩ := spo_given la (gen := a.skop R) A hA b hδ hn hd (sjlt_driver hmn hsf w) hgen hε.le
      hε1 hS hc L clock mode hm hwc xs hxs _ rfl
    by_cases hx0 : IsRidgeMin A b δ x0
    · exact Or.inl (g4 hx0)
    · obtain ⟨lg, hlg⟩ := g5 hx0
      refine Or.inr ⟨_, w', x, lg, hlg, rfl, rfl, g1.trans (mul_le_mul_of_nonneg_left ?_ (sq_nonneg _))⟩
      exact sub_le_sub_right g2 _
  refine ⟨fun mode hm => main mode (by rcases hm with rfl | rfl <;> simp) (by rcases hm with rfl | rfl <;> simp),
    fun lo hi k1 k2 k3 k4 => ?_⟩
  exact main .svd (by simp) fun _ => wellCond_lift_of_embeds hn hδ hε.le hε1 hS k1 k2 k3 k4

/-- **C70** (`spo3`, relative to the optimum).  In the same setting but for one right-hand side `b`, except for draws of
probability at most `((n+1)² + (n+1))/(d ε²)`: `spo3` in mode `'qr'` or `'chol'` with `tol = 0` and limit `L` returns an
`x` with `f(x) ≤ (1 + 8 ε^(2L+1)/(1-ε)) min f`, or raises ValueError. -/
theorem C70_spo_relative (A : Matrix (Fin m) (Fin n) ℝ) (hA : FullColRank A) (hn : 0 < n) (b : Fin m → ℝ) (a : SketchArgs)
    (hd : n ≤ sketchRows a.samplingFactor m n) (hs : 0 < a.vecNnz) (hsd : a.vecNnz ≤ sketchRows a.samplingFactor m n)
    (ε : ℝ) (hε : 0 < ε) (hε1 : ε < 1) (hc : n * √((1 + ε) / (1 - ε)) < 10 ^ 8 - eps) :
    ∃ E : Set ((Fin m → (Fin a.vecNnz ↪ Fin (sketchRows a.samplingFactor m n))) × (Fin (m * a.vecNnz) → ℝ)),
      sjltDraws _ m _ E ≤ ENNReal.ofReal (((n + 1) ^ 2 + (n + 1)) / (sketchRows a.samplingFactor m n * ε ^ 2)) ∧
      ∀ rv u, (rv, u) ∉ E → ∀ (G : Type) (la : LinAlg) (R : NpRng G) (w : World G) (δ : ℝ) (L : ℕ)
        (clock : LogTimes) (mode : SPOMode) (xs : Fin n → ℝ), 0 ≤ δ → mode = .qr ∨ mode = .chol →
        NextSJLT R w _ _ _ rv u → IsRidgeMin A b δ xs →
          spo3Fn la R A b δ 0 L clock a mode w = .error .value ∨
          ∃ out w' x lg, spo3Fn la R A b δ 0 L clock a mode w = .ok (out, w') ∧ out.x = some x ∧ out.log = some lg ∧
            sqNorm (A *ᵥ x - b) + δ * sqNorm x ≤
              (1 + 8 * ε ^ (2 * L + 1) / (1 - ε)) * (sqNorm (A *ᵥ xs - b) + δ * sqNorm xs) := by
  have hmn : n ≤ m := by unfold sketchRows at hd; omega
  have hsf : (n : ℤ) ≤ pyInt (a.samplingFactor * n) := by unfold sketchRows at hd; omega
  have hdm : sketchRows a.samplingFactor m n ≤ m := by unfold sketchRows; omega
  obtain ⟨E, h1, h2⟩ := C70_sjlt_subspace (colSpace A ⊔ Submodule.span ℝ {b}) hs hsd hdm ε hε
  have hfr : (Module.finrank ℝ ↥(colSpace A ⊔ Submodule.span ℝ {b}) : ℝ) ≤ n + 1 := by
    exact_mod_cast finrank_with_vector A b
  refine ⟨E, h1.trans (ENNReal.ofReal_le_ofReal (div_le_div_of_nonneg_right (add_le_add
    (pow_le_pow_left₀ (by positivity) hfr 2) hfr) (by positivity))),
    fun rv u hE G la R w δ L clock mode xs hδ hm hw hxs => ?_⟩
  have hw' : NextSJLT R { w with warns := w.warns + if (m : ℤ) < pyInt (a.samplingFactor * n) then 1 else 0 } _ _ _ rv u :=
    hw
  obtain ⟨S, w', hgen, hSU⟩ := h2 rv u hE G R _ hw'
  have hS : Embeds S A ε := fun x => hSU _ (Submodule.mem_sup_left (mem_colSpace.2 ⟨x, rfl⟩))
  obtain ⟨f, hf⟩ : ∃ f : (Fin n → ℝ) → ℝ, f = fun x => sqNorm (A *ᵥ x - b) + δ * sqNorm x := ⟨_, rfl⟩
  have hfx : ∀ x, f x = sqNorm (A *ᵥ x - b) + δ * sqNorm x := fun x => by rw [hf]
  obtain ⟨x0, x, g1, g2, g3, g4, g5⟩ := spo_given la (gen := a.skop R) A hA b hδ hn hd (sjlt_driver hmn hsf w) hgen hε.le
    hε1 hS hc L clock mode (by rcases hm with rfl | rfl <;> simp) (by rcases hm with rfl | rfl <;> simp) xs hxs f hf
  by_cases hx0 : IsRidgeMin A b δ x0
  · exact Or.inl (g4 hx0)
  obtain ⟨lg, hlg⟩ := g5 hx0
  refine Or.inr ⟨_, w', x, lg, hlg, rfl, rfl, ?_⟩
  obtain ⟨z, hz⟩ : ∃ z, IsRidgeMin (S * A) (S *ᵥ b) δ z :=
    ⟨_, ridge_of_normal hδ (lstsqv_lift la (S * A) (S *ᵥ b) hδ).1⟩
  have h0 := sketched_near_opt hδ hε.le hε1 (fun x => hSU _ (mem_with_vector A b x)) hz xs
  rw [← hfx, ← hfx] at h0 ⊢
  have h0 := (g3 z hz).trans h0
  have p : (0 : ℝ) < 1 - ε := by linarith
  have h6 : f x0 - f xs ≤ 2 * ε / (1 - ε) * f xs := by
    have : (1 + ε) / (1 - ε) * f xs = f xs + 2 * ε / (1 - ε) * f xs := by field_simp; ring
    linarith
  have h7 := g1.trans (mul_le_mul_of_nonneg_left h6 (sq_nonneg _))
  have h8 : (2 * ε ^ L) ^ 2 * (2 * ε / (1 - ε) * f xs) = 8 * ε ^ (2 * L + 1) / (1 - ε) * f xs := by
    rw [pow_succ ε (2 * L), mul_comm 2 L, pow_mul]; ring
  rw [h8] at h7
  rw [add_mul, one_mul]
  linarith

/-- **C70** (`sso1`).  For any `A`, `b`, `d = min(int(sampling_factor * n), m) ≥ n > 0`, `1 ≤ vec_nnz ≤ d` and
`0 < ε < 1`, except for draws of probability at most `((n+1)² + (n+1))/(d ε²)`: for every `δ ≥ 0`, `sso1(A, b, δ, rng)`
returns an `x` with `f(x) ≤ (1+ε)/(1-ε) f(z)` for every `z`, where `f(x) = ‖Ax - b‖² + δ‖x‖²`. -/
theorem C70_sso1 (A : Matrix (Fin m) (Fin n) ℝ) (hn : 0 < n) (b : Fin m → ℝ) (a : SketchArgs)
    (hd : n ≤ sketchRows a.samplingFactor m n) (hs : 0 < a.vecNnz) (hsd : a.vecNnz ≤ sketchRows a.samplingFactor m n)
    (ε : ℝ) (hε : 0 < ε) (hε1 : ε < 1) :
    ∃ E : Set ((Fin m → (Fin a.vecNnz ↪ Fin (sketchRows a.samplingFactor m n))) × (Fin (m * a.vecNnz) → ℝ)),
      sjltDraws _ m _ E ≤ ENNReal.ofReal (((n + 1) ^ 2 + (n + 1)) / (sketchRows a.samplingFactor m n * ε ^ 2)) ∧
      ∀ rv u, (rv, u) ∉ E → ∀ (G : Type) (la : LinAlg) (R : NpRng G) (w : World G) (δ : ℝ), 0 ≤ δ →
        NextSJLT R w _ _ _ rv u →
        ∃ x w', sso1Fn la R A b δ a w = .ok (x, w') ∧
          ∀ z, sqNorm (A *ᵥ x - b) + δ * sqNorm x ≤
            (1 + ε) / (1 - ε) * (sqNorm (A *ᵥ z - b) + δ * sqNorm z) := by
  have hmn : n ≤ m := by unfold sketchRows at hd; omega
  have hsf : (n : ℤ) ≤ pyInt (a.samplingFactor * n) := by unfold sketchRows at hd; omega
  have hdm : sketchRows a.samplingFactor m n ≤ m := by unfold sketchRows; omega
  obtain ⟨E, h1, h2⟩ := C70_sjlt_subspace (colSpace A ⊔ Submodule.span ℝ {b}) hs hsd hdm ε hε
  have hfr : (Module.finrank ℝ ↥(colSpace A ⊔ Submodule.span ℝ {b}) : ℝ) ≤ n + 1 := by
    exact_mod_cast finrank_with_vector A b
  refine ⟨E, h1.trans (ENNReal.ofReal_le_ofReal (div_le_div_of_nonneg_right (add_le_add
    (pow_le_pow_left₀ (by positivity) hfr 2) hfr) (by positivity))), fun rv u hE G la R w δ hδ hw => ?_⟩
  have key : ∃ x w', sso1Fn la R A b δ a w = .ok (x, w') := by
    unfold sso1Fn
    rw [sso1_eq]
    have hw' : NextSJLT R { w with warns := w.warns + sso1Warns .nan 1 +
        (if (m : ℤ) < pyInt (a.samplingFactor * n) then 1 else 0) } _ _ _ rv u := hw
    obtain ⟨S, w', hgen, -⟩ := h2 rv u hE G R _ hw'
    rw [Py.bind_eq_of_ok (sjlt_driver hmn hsf { w with warns := w.warns + sso1Warns .nan 1 })]
    unfold SketchArgs.skop
    rw [Py.bind_eq_of_ok hgen]
    exact ⟨_, _, rfl⟩
  obtain ⟨x, w', hx⟩ := key
  refine ⟨x, w', hx, fun z => ?_⟩
  obtain ⟨dd, S, -, -, e3, hg, hmin, -⟩ := C36_sso1 la _ _ A b δ hδ _ _ w w' x hx
  obtain rfl : dd = sketchRows a.samplingFactor m n := by unfold sketchRows; omega
  obtain ⟨w2, hg, hw2⟩ : ∃ w2 : World G, sjltOperator R a.vecNnz _ m w2 = .ok (S, w') ∧ w2.rng = w.rng :=
    ⟨_, hg, rfl⟩
  have hw3 : NextSJLT R w2 _ _ _ rv u := by unfold NextSJLT at hw ⊢; rw [hw2]; exact hw
  obtain ⟨S', w3, hgen, hS⟩ := h2 rv u hE G R _ hw3
  rw [hgen] at hg
  cases hg
  exact sketched_near_opt hδ hε.le hε1 (fun x => hS _ (mem_with_vector A b x)) hmin z

/-- **C70** (`spu1`).  Let `lo ‖x‖ ≤ ‖A x‖ ≤ hi ‖x‖` with `√((1+ε)/(1-ε)) hi n eps < lo`,
`d = min(int(sampling_factor * n), m) ≥ n`, `1 ≤ vec_nnz ≤ d` and `0 < ε < 1`.  Except for draws of probability at most
`(n² + n)/(d ε²)`: for every `c ≠ 0`, tolerance and limit `≥ 0`, `spu1` returns a `y` with a log, and if it made `k`
iterations its squared distance to the minimum-norm solution `y*` of `A'y = c` is at most
`(2 ε^k)² (1+ε)/(1-ε) ‖y*‖²`; if also `n √((1+ε)/(1-ε)) < 10^8 - eps`, then with `tol = 0` and limit `≥ n` it returns
`y*`. -/
theorem C70_spu1 (A : Matrix (Fin m) (Fin n) ℝ) (hn : 0 < n) (a : SketchArgs)
    (hd : n ≤ sketchRows a.samplingFactor m n) (hs : 0 < a.vecNnz) (hsd : a.vecNnz ≤ sketchRows a.samplingFactor m n)
    (ε lo hi : ℝ) (hε : 0 < ε) (hε1 : ε < 1) (hlo : ∀ x, lo * norm2 x ≤ norm2 (A *ᵥ x))
    (hhi : ∀ x, norm2 (A *ᵥ x) ≤ hi * norm2 x) (h0 : 0 ≤ hi) (hls : √((1 + ε) / (1 - ε)) * hi * n * eps < lo) :
    ∃ E : Set ((Fin m → (Fin a.vecNnz ↪ Fin (sketchRows a.samplingFactor m n))) × (Fin (m * a.vecNnz) → ℝ)),
      sjltDraws _ m _ E ≤ ENNReal.ofReal ((n ^ 2 + n) / (sketchRows a.samplingFactor m n * ε ^ 2)) ∧
      ∀ rv u, (rv, u) ∉ E → ∀ (G : Type) (la : LinAlg) (R : NpRng G) (w : World G) (c : Fin n → ℝ) (tol : ℝ) (L : ℤ)
        (clock : LogTimes) (ys : Fin m → ℝ), c ≠ 0 → 0 ≤ L → NextSJLT R w _ _ _ rv u → IsMinNormSol A c ys →
        ∃ out lg w', spu1Fn la R A c tol L clock a w = .ok (out, w') ∧ out.log = some lg ∧
          (∀ k, lg.errors.length = k + 1 →
            sqNorm (out.y - ys) ≤ (2 * ε ^ k) ^ 2 * ((1 + ε) / (1 - ε)) * sqNorm ys) ∧
          (tol = 0 → n * √((1 + ε) / (1 - ε)) < 10 ^ 8 - eps → (n : ℤ) ≤ L → out.y = ys) := by
  have hmn : n ≤ m := by unfold sketchRows at hd; omega
  have hsf : (n : ℤ) ≤ pyInt (a.samplingFactor * n) := by unfold sketchRows at hd; omega
  have hdm : sketchRows a.samplingFactor m n ≤ m := by unfold sketchRows; omega
  have hlo0 : 0 < lo := lt_of_le_of_lt (by unfold eps; positivity) hls
  have hA : FullColRank A := fullColRank_iff_inj.2 fun x hx => by
    have h1 := hlo x
    rw [hx, show norm2 (0 : Fin m → ℝ) = 0 from norm2_eq_zero.2 rfl] at h1
    have h2 := norm2_nonneg x
    exact norm2_eq_zero.1 (by nlinarith)
  obtain ⟨E, h1, h2⟩ := C70_sjlt_embeds A hs hsd hdm ε hε
  rw [show A.rank = n from hA] at h1
  refine ⟨E, h1, fun rv u hE G la R w c tol L clock ys hc hL hw hys => ?_⟩
  have hw' : NextSJLT R { w with warns := w.warns + if (m : ℤ) < pyInt (a.samplingFactor * n) then 1 else 0 } _ _ _ rv u :=
    hw
  obtain ⟨S, w', hgen, hS⟩ := h2 rv u hE G R _ hw'
  have hSw := wellCond_of_embeds hε.le hε1 hS hlo hhi h0 hls
  have hdd := sjlt_driver (n := n) (m := m) hmn hsf w
  rcases spu1_given la (gen := a.skop R) A c hc tol L hL clock hn hd hdd hgen with ⟨out, lg, g1, g2, g3, g4⟩ | ⟨-, g⟩
  swap
  · exact absurd hSw g
  refine ⟨out, lg, w', g1, g2, fun k hk => ?_, fun ht hcond hL' => ?_⟩
  · refine C67_spu1_rate la _ _ A c hc tol L clock w w' out g1 ε hε.le hε1 (fun d w₁ S' k1 k2 => ?_) lg g2 k hk ys hys
    rw [hdd] at k1
    cases k1
    unfold SketchArgs.skop at k2
    rw [hgen] at k2
    cases k2
    exact ⟨hS, hSw⟩
  · subst ht
    obtain ⟨out', k1, k2⟩ := spu1_exact_drawn la (gen := a.skop R) A hc hL' true clock hn hdd hgen hε.le hε1 hS hSw hcond
    rw [g1] at k1
    cases k1
    obtain ⟨u, hu⟩ := mem_colSpace.1 (minNorm_range hA k2)
    obtain ⟨v, hv⟩ := mem_colSpace.1 (minNorm_range hA hys)
    have e : Aᵀ *ᵥ (A *ᵥ (u - v)) = 0 := by rw [mulVec_sub, mulVec_sub, hu, hv, k2.1, hys.1, sub_self]
    have e2 : sqNorm (A *ᵥ (u - v)) = 0 := by
      rw [sqNorm_eq_dot, dot_mulVec, e, zero_dotProduct]
    have e3 := sqNorm_eq_zero.1 e2
    rw [mulVec_sub, hu, hv] at e3
    exact sub_eq_zero.1 e3

/-- **C70** (how many rows).  `d ≥ (r² + r)/(ε² p)` rows make the failure probability at most `p`. -/
theorem C70_rows (r : ℕ) (ε p : ℝ) (hε : 0 < ε) (hp : 0 < p) (hd0 : 0 < d) (hd : (r ^ 2 + r) / (ε ^ 2 * p) ≤ d) :
    ((r : ℝ) ^ 2 + r) / (d * ε ^ 2) ≤ p := by
  have : (0 : ℝ) < d := by exact_mod_cast hd0
  rw [div_le_iff₀ (by positivity)] at hd ⊢
  linarith

/-- a generator whose rows are always `0, ..., s-1` and whose uniforms are always `0` -/
theorem demo_next (w : World ℕ) (hsd : s ≤ d) : ∃ rv u, NextSJLT demoRng w d m s rv u := by
  obtain ⟨g, h0, hg⟩ : ∃ g : ℕ → ℕ, g 0 = w.rng ∧ ∀ j, g (j + 1) = (demoRng.choiceNoRepl d s hsd (g j)).2 :=
    ⟨fun j => Nat.rec w.rng (fun _ x => (demoRng.choiceNoRepl d s hsd x).2) j, rfl, fun _ => rfl⟩
  exact ⟨fun j => (demoRng.choiceNoRepl d s hsd (g j)).1, _, hsd, g, h0, fun j => Prod.ext rfl (hg j).symm, rfl⟩

/-- The hypotheses of the theorems of this file are met, with a failure probability below `1/100`: one column of a
thousand ones, `ε = 1/2`, sampling factor 1000, the default `vec_nnz = 8`. -/
example : ∃ A : Matrix (Fin 1000) (Fin 1) ℝ, FullColRank A ∧ 1 ≤ sketchRows 1000 1000 1 ∧ 8 ≤ sketchRows 1000 1000 1 ∧
    (1 : ℕ) * √((1 + 1 / 2) / (1 - 1 / 2)) < 10 ^ 8 - eps ∧
    ((1 : ℕ) ^ 2 + (1 : ℕ)) / (sketchRows 1000 1000 1 * (1 / 2) ^ 2) ≤ (1 / 100 : ℝ) ∧
    ∀ w, ∃ rv u, NextSJLT demoRng w (sketchRows 1000 1000 1) 1000 8 rv u := by
  have hp : pyInt (1000 * (1 : ℕ)) = 1000 := by
    unfold pyInt; rw [if_pos (by norm_num), Int.floor_eq_iff]; norm_num
  have hr : sketchRows 1000 1000 1 = 1000 := by unfold sketchRows; rw [hp]; rfl
  refine ⟨fun _ _ => 1, demo31_full _ 0 (by norm_num), by rw [hr]; norm_num, by rw [hr]; norm_num, ?_, ?_,
    fun w => demo_next w (by rw [hr]; norm_num)⟩
  · have h1 : eps ≤ 1 := by unfold eps; norm_num
    have h2 : √((1 + 1 / 2) / (1 - 1 / 2)) ≤ 2 := by
      rw [Real.sqrt_le_left (by norm_num)]; norm_num
    push_cast
    norm_num at h2 ⊢
    linarith
  · rw [hr]; norm_num

end Parla.Props
