import Verif.Props.SSO1
import Verif.Props.SPOExact
import Verif.Props.Drivers

/-!
# C107: what a larger regularisation parameter does to the results of the ridge solvers
-/

namespace Parla.Props
open Matrix Parla Spec

variable {G : Type} {m n d : ℕ}

/-- If `(T'T + δ')(x - x') = (δ' - δ) x`, then `|T (x - x')|² + δ' |x - x'|² = (δ' - δ) ⟨x - x', x⟩`. -/
theorem shift_energy {T : Matrix (Fin d) (Fin n) ℝ} {δ δ' : ℝ} {x x' : Fin n → ℝ}
    (n3 : Tᵀ *ᵥ (T *ᵥ (x - x')) + δ' • (x - x') = (δ' - δ) • x) :
    sqNorm (T *ᵥ (x - x')) + δ' * sqNorm (x - x') = (δ' - δ) * ((x - x') ⬝ᵥ x) := by
  have := congrArg (fun v => (x - x') ⬝ᵥ v) n3
  simp only [dotProduct_add, dotProduct_smul, smul_eq_mul] at this
  rw [dotProduct_mulVec, vecMul_transpose, ← sqNorm_eq_dot, ← sqNorm_eq_dot] at this
  exact this

theorem shift_shorter {T : Matrix (Fin d) (Fin n) ℝ} {δ δ' : ℝ} (hδ : 0 ≤ δ) (hlt : δ < δ') {x x' : Fin n → ℝ}
    (n3 : Tᵀ *ᵥ (T *ᵥ (x - x')) + δ' • (x - x') = (δ' - δ) • x) : norm2 x' ≤ norm2 x := by
  have hpos : 0 < δ' := lt_of_le_of_lt hδ hlt
  have n4 := shift_energy n3
  have n6 := sqNorm_nonneg (T *ᵥ (x - x'))
  have n7 := sqNorm_nonneg (x - x')
  have e1 : 0 ≤ (x - x') ⬝ᵥ x := by
    have : 0 ≤ (δ' - δ) * ((x - x') ⬝ᵥ x) := by rw [← n4]; have := mul_nonneg hpos.le n7; linarith
    exact nonneg_of_mul_nonneg_right this (by linarith)
  have e2 : sqNorm (x - x') ≤ (x - x') ⬝ᵥ x := by
    have : δ' * sqNorm (x - x') ≤ δ' * ((x - x') ⬝ᵥ x) := by nlinarith
    exact le_of_mul_le_mul_left this hpos
  have e3 : sqNorm x' = sqNorm x - 2 * ((x - x') ⬝ᵥ x) + sqNorm (x - x') := by
    simp only [sqNorm_eq_dot, sub_dotProduct, dotProduct_sub]
    rw [dotProduct_comm x' x]; ring
  exact norm2_le_norm2.2 (by linarith)

theorem shift_close {T : Matrix (Fin d) (Fin n) ℝ} {δ δ' : ℝ} (hδ : 0 ≤ δ) (hlt : δ < δ') {x x' : Fin n → ℝ}
    (n3 : Tᵀ *ᵥ (T *ᵥ (x - x')) + δ' • (x - x') = (δ' - δ) • x) :
    norm2 (x - x') ≤ (δ' - δ) / δ' * norm2 x := by
  have hpos : 0 < δ' := lt_of_le_of_lt hδ hlt
  have n4 := shift_energy n3
  have n5 : (x - x') ⬝ᵥ x ≤ norm2 (x - x') * norm2 x :=
    by
      refine (le_abs_self _).trans (abs_le_of_sq_le_sq ?_ (mul_nonneg (norm2_nonneg _) (norm2_nonneg _)))
      rw [mul_pow, norm2_sq, norm2_sq]
      exact dot_sq_le _ _
  rw [div_mul_eq_mul_div, le_div_iff₀ hpos]
  rcases (norm2_nonneg (x - x')).eq_or_lt with h0 | h0
  · rw [← h0, zero_mul]; exact mul_nonneg (by linarith) (norm2_nonneg x)
  · have n6 := sqNorm_nonneg (T *ᵥ (x - x'))
    have n7 : norm2 (x - x') * (norm2 (x - x') * δ') ≤ norm2 (x - x') * ((δ' - δ) * norm2 x) := by
      have := mul_le_mul_of_nonneg_left n5 (by linarith : 0 ≤ δ' - δ)
      have k := norm2_sq (x - x')
      nlinarith
    exact le_of_mul_le_mul_left n7 h0

/-- Two ridge minimisers of the same problem, `0 ≤ δ < δ'`: the one for the larger parameter is no longer than
the other, fits no better, and moves by at most the fraction `(δ' - δ)/δ'` of the other's length. -/
theorem C107_ridge_path (T : Matrix (Fin d) (Fin n) ℝ) (c : Fin d → ℝ) {δ δ' : ℝ} (hδ : 0 ≤ δ) (hlt : δ < δ')
    (x x' : Fin n → ℝ) (h : IsRidgeMin T c δ x) (h' : IsRidgeMin T c δ' x') :
    norm2 x' ≤ norm2 x ∧ norm2 (T *ᵥ x - c) ≤ norm2 (T *ᵥ x' - c) ∧
      norm2 (x - x') ≤ (δ' - δ) / δ' * norm2 x := by
  have hpos : 0 < δ' := lt_of_le_of_lt hδ hlt
  have e1 := h x'
  have e2 := h' x
  have e3 : sqNorm x' ≤ sqNorm x := by nlinarith
  refine ⟨norm2_le_norm2.2 e3, norm2_le_norm2.2 (by nlinarith), ?_⟩
  have n1 := normal_of_ridge LinAlg.ref hδ h
  have n2 := normal_of_ridge LinAlg.ref hpos.le h'
  have n3 : Tᵀ *ᵥ (T *ᵥ (x - x')) + δ' • (x - x') = (δ' - δ) • x := by
    rw [mulVec_sub] at n1 n2
    rw [mulVec_sub, mulVec_sub]
    have := congrArg₂ (· - ·) n2 n1
    funext i
    have k1 := congrFun n1 i
    have k2 := congrFun n2 i
    simp only [Pi.sub_apply, Pi.add_apply, Pi.smul_apply, Pi.zero_apply, smul_eq_mul] at k1 k2 ⊢
    linarith
  exact shift_close hδ hlt n3

/-- **C107** (SSO1).  Two calls from the same state of the generator that differ only in `0 ≤ delta < delta'`
leave the same state and draw the same sketch `S`; the result for `delta'` is no longer than that for `delta`, its
sketched residual is no smaller, and it moves by at most the fraction `(delta' - delta)/delta'`. -/
theorem C107_sso1_path (la : LinAlg) (gen : SkOpGen G) (sf : ℝ) (A : Matrix (Fin m) (Fin n) ℝ)
    (b : Fin m → ℝ) {δ δ' : ℝ} (hδ : 0 ≤ δ) (hlt : δ < δ') (tol : Tol) (L : ℤ) (w w₁ w₂ : World G)
    (x x' : Fin n → ℝ) (h : sso1Call la gen sf A b δ tol L w = .ok (x, w₁))
    (h' : sso1Call la gen sf A b δ' tol L w = .ok (x', w₂)) :
    w₁ = w₂ ∧ norm2 x' ≤ norm2 x ∧ norm2 (x - x') ≤ (δ' - δ) / δ' * norm2 x ∧
      ∃ (d : ℕ) (S : Matrix (Fin d) (Fin m) ℝ) (v : World G), (d : ℤ) = min (pyInt (sf * n)) m ∧ v.rng = w.rng ∧
        gen d m v = .ok (S, w₁) ∧ norm2 (S *ᵥ (A *ᵥ x - b)) ≤ norm2 (S *ᵥ (A *ᵥ x' - b)) := by
  obtain ⟨d, S, -, -, h1, h2, h3, -⟩ := C36_sso1 la gen sf A b δ hδ tol L w w₁ x h
  obtain ⟨d', S', -, -, k1, k2, k3, -⟩ := C36_sso1 la gen sf A b δ' (hδ.trans hlt.le) tol L w w₂ x' h'
  have hd : d = d' := by exact_mod_cast h1.trans k1.symm
  subst hd
  rw [h2] at k2
  cases k2
  obtain ⟨e1, e2, e3⟩ := C107_ridge_path (S * A) (S *ᵥ b) hδ hlt x x' h3 k3
  refine ⟨rfl, e1, e3, d, S, _, h1, ?_, h2, ?_⟩
  · rfl
  · simpa only [← mulVec_mulVec, ← mulVec_sub] using e2

/-- **C107** (SSO1, subspace embedding).  If moreover the sketches drawn distort the squared norms of the
residuals by at most `1 ± ε`, the true residual can shrink by at most `sqrt ((1+ε)/(1-ε))` when `delta` grows. -/
theorem C107_sso1_embedding (la : LinAlg) (gen : SkOpGen G) (sf : ℝ) (A : Matrix (Fin m) (Fin n) ℝ)
    (b : Fin m → ℝ) {δ δ' : ℝ} (hδ : 0 ≤ δ) (hlt : δ < δ') (tol : Tol) (L : ℤ) (w w₁ w₂ : World G)
    (x x' : Fin n → ℝ) (h : sso1Call la gen sf A b δ tol L w = .ok (x, w₁))
    (h' : sso1Call la gen sf A b δ' tol L w = .ok (x', w₂)) (ε : ℝ)
    (hS : ∀ d : ℕ, (d : ℤ) = min (pyInt (sf * n)) m → ∀ v S w', v.rng = w.rng → gen d m v = .ok (S, w') → ∀ z,
      (1 - ε) * sqNorm (A *ᵥ z - b) ≤ sqNorm (S *ᵥ (A *ᵥ z - b)) ∧
      sqNorm (S *ᵥ (A *ᵥ z - b)) ≤ (1 + ε) * sqNorm (A *ᵥ z - b)) :
    (1 - ε) * sqNorm (A *ᵥ x - b) ≤ (1 + ε) * sqNorm (A *ᵥ x' - b) := by
  obtain ⟨-, -, -, d, S, v, h1, h2, h3, h4⟩ := C107_sso1_path la gen sf A b hδ hlt tol L w w₁ w₂ x x' h h'
  exact (hS d h1 v S _ h2 h3 x).1.trans ((norm2_le_norm2.1 h4).trans (hS d h1 v S _ h2 h3 x').2)

/-- **C107** (SPO run to the end, `tol = 0` and `n` iterations).  Two calls from the same state with parameters
`0 ≤ delta < delta'` whose sketches embed the range of `A`: the result for `delta'` is no longer, its residual
`|A x - b|` is no smaller, and it moves by at most the fraction `(delta' - delta)/delta'`. -/
theorem C107_spo_path (la : LinAlg) (gen : SkOpGen G) (sf : ℝ) (mode : SPOMode)
    (A : Matrix (Fin m) (Fin n) ℝ) (b : Fin m → ℝ) {δ δ' : ℝ} (hδ : 0 ≤ δ) (hlt : δ < δ') (L : ℤ)
    (hL : (n : ℤ) ≤ L) (clock : LogTimes) (w : World G)
    (hA : FullColRank (aLift A (Real.sqrt δ))) (hA' : FullColRank (aLift A (Real.sqrt δ')))
    (hmn : n ≤ m) (hsf : (n : ℤ) ≤ pyInt (sf * n))
    (hgen : ∀ d w, n ≤ d → d ≤ m → ∃ S w', gen d m w = .ok (S, w'))
    (ε : ℝ) (hε : 0 ≤ ε) (hε1 : ε < 1)
    (hS : ∀ d : ℕ, (d : ℤ) = min (pyInt (sf * n)) m → ∀ v S w', v.rng = w.rng → gen d m v = .ok (S, w') →
      Embeds S A ε ∧ (mode = .svd → n ≠ 0 ∧ WellCond (aLift (S * A) (Real.sqrt δ)) ∧
        WellCond (aLift (S * A) (Real.sqrt δ'))))
    (hmode : mode ≠ .other) (hc : n * Real.sqrt ((1 + ε) / (1 - ε)) < 10 ^ 8 - eps) :
    ∃ out out' w₁ w₂ x x', spoCall la gen sf mode A b δ 0 L false clock w = .ok (out, w₁) ∧
      spoCall la gen sf mode A b δ' 0 L false clock w = .ok (out', w₂) ∧ out.x = some x ∧ out'.x = some x' ∧
      norm2 x' ≤ norm2 x ∧ norm2 (A *ᵥ x - b) ≤ norm2 (A *ᵥ x' - b) ∧
      norm2 (x - x') ≤ (δ' - δ) / δ' * norm2 x := by
  obtain ⟨out, w₁, x, h1, h2, h3⟩ := C38_spo_exact la gen sf mode A b δ hδ L hL clock w hA hmn hsf hgen ε hε hε1
    (fun d hd v S w' hv hg => ⟨(hS d hd v S w' hv hg).1, fun hm =>
      ⟨((hS d hd v S w' hv hg).2 hm).1, ((hS d hd v S w' hv hg).2 hm).2.1⟩⟩) hmode hc
  obtain ⟨out', w₂, x', k1, k2, k3⟩ := C38_spo_exact la gen sf mode A b δ' (hδ.trans hlt.le) L hL clock w hA' hmn hsf
    hgen ε hε hε1 (fun d hd v S w' hv hg => ⟨(hS d hd v S w' hv hg).1, fun hm =>
      ⟨((hS d hd v S w' hv hg).2 hm).1, ((hS d hd v S w' hv hg).2 hm).2.2⟩⟩) hmode hc
  exact ⟨out, out', w₁, w₂, x, x', h1, k1, h2, k2, C107_ridge_path A b hδ hlt x x' h3 k3⟩

/-- A solution of the block system with a positive parameter always exists. -/
theorem saddle_exists (A : Matrix (Fin m) (Fin n) ℝ) (b : Fin m → ℝ) (c : Fin n → ℝ) {δ : ℝ} (hδ : 0 < δ) :
    ∃ x y, SolvesSaddle A b c δ x y := by
  have h1 : (aLift A (Real.sqrt δ))ᵀ * aLift A (Real.sqrt δ) = Aᵀ * A + δ • 1 := by
    rw [aLift_gram, Real.sq_sqrt hδ.le]
  have hd : IsUnit (Aᵀ * A + δ • (1 : Matrix (Fin n) (Fin n) ℝ)).det := by
    rw [← h1]
    exact (Matrix.isUnit_iff_isUnit_det _).1 ((gram_posDef_iff _).2 (aLift_full_of_pos A hδ)).isUnit
  have h2 : (Aᵀ * A + δ • (1 : Matrix (Fin n) (Fin n) ℝ)) *ᵥ ((Aᵀ * A + δ • 1)⁻¹ *ᵥ (Aᵀ *ᵥ b - c)) =
      Aᵀ *ᵥ b - c := by
    rw [mulVec_mulVec, mul_nonsing_inv _ hd, one_mulVec]
  refine ⟨(Aᵀ * A + δ • 1)⁻¹ *ᵥ (Aᵀ *ᵥ b - c), b - A *ᵥ ((Aᵀ * A + δ • 1)⁻¹ *ᵥ (Aᵀ *ᵥ b - c)), ?_, ?_⟩
  · simp
  · rw [add_mulVec, smul_mulVec, one_mulVec, ← mulVec_mulVec] at h2
    rw [mulVec_sub]
    generalize (Aᵀ * A + δ • (1 : Matrix (Fin n) (Fin n) ℝ))⁻¹ *ᵥ (Aᵀ *ᵥ b - c) = v at h2 ⊢
    rw [sub_sub, h2, sub_sub_cancel]

/-- **C107** (saddle-point systems).  The `x` parts of the solutions of the block system for `0 ≤ δ < δ'`, any `b`
and `c`: the one for the larger parameter is no longer, and the displacement is bounded as for ridge problems. -/
theorem C107_saddle_path (A : Matrix (Fin m) (Fin n) ℝ) (b : Fin m → ℝ) (c : Fin n → ℝ) {δ δ' : ℝ} (hδ : 0 ≤ δ)
    (hlt : δ < δ') (x x' : Fin n → ℝ) (y y' : Fin m → ℝ) (h : SolvesSaddle A b c δ x y)
    (h' : SolvesSaddle A b c δ' x' y') :
    norm2 x' ≤ norm2 x ∧ norm2 (x - x') ≤ (δ' - δ) / δ' * norm2 x := by
  have hpos : 0 < δ' := lt_of_le_of_lt hδ hlt
  have n3 : Aᵀ *ᵥ (A *ᵥ (x - x')) + δ' • (x - x') = (δ' - δ) • x := by
    have n1 := h.2
    have n2 := h'.2
    rw [eq_sub_of_add_eq h.1, mulVec_sub] at n1
    rw [eq_sub_of_add_eq h'.1, mulVec_sub] at n2
    rw [mulVec_sub, mulVec_sub]
    funext i
    have k1 := congrFun n1 i
    have k2 := congrFun n2 i
    simp only [Pi.sub_apply, Pi.add_apply, Pi.smul_apply, smul_eq_mul] at k1 k2 ⊢
    linarith
  exact ⟨shift_shorter hδ hlt n3, shift_close hδ hlt n3⟩

/-- **C107** (`sps` run to the end).  For `0 < delta < delta'`, `tol = 0` and at least `n` iterations, two calls of
`sps` from the same state return, leave the same state, and the `x` for `delta'` is no longer than the `x` for `delta`
and differs from it by at most the fraction `(delta' - delta)/delta'`; for every `b` and `c`. -/
theorem C107_sps_path (la : LinAlg) (R : NpRng G) (A : Matrix (Fin m) (Fin n) ℝ)
    (b : Option (Fin m → ℝ)) (c : Option (Fin n → ℝ)) {δ δ' : ℝ} (hδ : 0 < δ) (hlt : δ < δ') (L : ℤ)
    (hL : (n : ℤ) ≤ L) (clock : LogTimes) (a : SketchArgs) (w : World G) (hn : 0 < n) (hm : 0 < m)
    (hne : (n : ℝ) * eps < 1) (hsf : (n : ℤ) ≤ pyInt (a.samplingFactor * n)) :
    ∃ out out' w' x x', spsFn la R A b c δ 0 L clock a .pcg w = .ok (out, w') ∧
      spsFn la R A b c δ' 0 L clock a .pcg w = .ok (out', w') ∧ out.x = some x ∧ out'.x = some x' ∧
      norm2 x' ≤ norm2 x ∧ norm2 (x - x') ≤ (δ' - δ) / δ' * norm2 x := by
  have hδ' := hδ.trans hlt
  obtain ⟨d, S, w', hd, hS, h⟩ := C58_sps_pcg_converges la R A b c δ 0 hδ.le le_rfl L (by omega) clock a w hn hm
    hne hsf (saddle_exists A _ _ hδ)
  obtain ⟨d₂, S₂, w₂, hd₂, hS₂, h₂⟩ := C58_sps_pcg_converges la R A b c δ' 0 hδ'.le le_rfl L (by omega) clock a w hn
    hm hne hsf (saddle_exists A _ _ hδ')
  have hdd : d = d₂ := by exact_mod_cast hd.trans hd₂.symm
  subst hdd
  rw [hS] at hS₂
  cases hS₂
  obtain ⟨out, x, y, -, -, h1, h3, -, -, -, -, -, h8⟩ := h (Or.inr hδ)
  obtain ⟨out', x', y', -, -, k1, k3, -, -, -, -, -, k8⟩ := h₂ (Or.inr hδ')
  exact ⟨out, out', w', x, x', h1, k1, h3, k3,
    C107_saddle_path A _ _ hδ.le hlt x x' y y' (h8 hL rfl) (k8 hL rfl)⟩

/-- The hypotheses of `C107` are met: the mean of three numbers, shrunk. -/
example : ∃ x x' w', sso1Call (LinAlg.ref) (idGen (G := ℕ)) 3
      (!![1; 1; 1] : Matrix (Fin 3) (Fin 1) ℝ) ![1, 2, 3] 0 .nan 5 ⟨0, 0, []⟩ = .ok (x, w') ∧
    sso1Call (LinAlg.ref) (idGen (G := ℕ)) 3
      (!![1; 1; 1] : Matrix (Fin 3) (Fin 1) ℝ) ![1, 2, 3] 3 .nan 5 ⟨0, 0, []⟩ = .ok (x', w') ∧
    norm2 x' ≤ norm2 x ∧ norm2 (x - x') ≤ norm2 x := by
  have e1 : pyInt (3 * (1 : ℕ)) = 3 := by
    unfold pyInt; rw [if_pos (by norm_num), Int.floor_eq_iff]; norm_num
  obtain ⟨x, w', h⟩ := (C36_sso1_total LinAlg.ref (idGen (G := ℕ)) 3
    (!![1; 1; 1] : Matrix (Fin 3) (Fin 1) ℝ) ![1, 2, 3] 0 .nan 5 ⟨0, 0, []⟩).2 (by norm_num)
    (by rw [e1]; norm_num) (fun d w _ _ => ⟨_, _, rfl⟩)
  obtain ⟨x', w'', h'⟩ := (C36_sso1_total LinAlg.ref (idGen (G := ℕ)) 3
    (!![1; 1; 1] : Matrix (Fin 3) (Fin 1) ℝ) ![1, 2, 3] 3 .nan 5 ⟨0, 0, []⟩).2 (by norm_num)
    (by rw [e1]; norm_num) (fun d w _ _ => ⟨_, _, rfl⟩)
  obtain ⟨rfl, e2, e3, -⟩ := C107_sso1_path _ _ _ _ _ le_rfl (by norm_num : (0 : ℝ) < 3) _ _ _ _ _ x x' h h'
  refine ⟨x, x', w', h, h', e2, ?_⟩
  simpa using e3

/-- The hypotheses of `C107_sps_path` are met by every 9 x 3 system and every state of the generator. -/
example (A : Matrix (Fin 9) (Fin 3) ℝ) (b : Fin 9 → ℝ) (c : Fin 3 → ℝ) (g : ℕ) :
    ∃ out out' w' x x', spsFn LinAlg.ref demoRng A (some b) (some c) 1 0 3 ⟨0, 0, 0, 0, 0⟩ {} .pcg
        ⟨g, 0, []⟩ = .ok (out, w') ∧
      spsFn LinAlg.ref demoRng A (some b) (some c) 4 0 3 ⟨0, 0, 0, 0, 0⟩ {} .pcg ⟨g, 0, []⟩ = .ok (out', w') ∧
      out.x = some x ∧ out'.x = some x' ∧ norm2 x' ≤ norm2 x ∧ norm2 (x - x') ≤ (4 - 1) / 4 * norm2 x :=
  C107_sps_path LinAlg.ref demoRng A (some b) (some c) one_pos (by norm_num) 3 (by norm_num) _ _ _ (by norm_num)
    (by norm_num) (by unfold eps; norm_num) (by rw [pyInt_three]; norm_num)

end Parla.Props
