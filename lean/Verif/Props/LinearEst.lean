import Verif.Props.SparseSignDrivers
import Verif.Props.SRCTEmbed
import Verif.Props.SJLTDrivers
import Verif.Props.Embedding
import Verif.Props.LU
import Verif.Props.Rounding

/-! # C99: sketch-and-solve is a linear, stable function of the right-hand side -/

namespace Parla.Props

open Matrix Spec MeasureTheory

variable {G : Type} {m n : ℕ}

theorem lstsqv_mulVec (la : LinAlg) {p : ℕ} (F : Matrix (Fin p) (Fin n) ℝ) (b : Fin p → ℝ) : la.lstsqv F b = la.lstsq F 1 *ᵥ b := by
  have h : la.lstsq F (Matrix.of fun i (_ : Fin 1) => b i) = la.lstsq F 1 * Matrix.of fun i (_ : Fin 1) => b i := by
    refine ls_unique ?_ (la.lstsq_row _ _) ?_
    · rw [la.lstsq_normal, ← Matrix.mul_assoc F, ← Matrix.mul_assoc, la.lstsq_normal, Matrix.mul_one]
    · obtain ⟨W, hW⟩ := la.lstsq_row F (1 : Matrix (Fin p) (Fin p) ℝ)
      exact ⟨W * Matrix.of fun i (_ : Fin 1) => b i, by rw [← Matrix.mul_assoc, ← hW]⟩
  funext i
  unfold LinAlg.lstsqv
  rw [h]
  simp only [Matrix.mul_apply, mulVec, dotProduct, Matrix.of_apply]

/-- **C99** (linearity).  The matrix `A`, `δ`, the generator and its state determine the exception, or a matrix `M` and the state left behind;
`SSO1` then returns `M b`, for every `b`. -/
theorem C99_sso1_linear (la : LinAlg) (gen : SkOpGen G) (sf : ℝ) (A : Matrix (Fin m) (Fin n) ℝ) (δ : ℝ) (tol : Tol) (L : ℤ) :
    ∃ M : Py G (Matrix (Fin n) (Fin m) ℝ), ∀ b : Fin m → ℝ, sso1Call la gen sf A b δ tol L = (M >>= fun X => pure (X *ᵥ b)) := by
  refine ⟨fun w => (do
        let d ← dimChecks sf m n
        let S ← gen d m
        pure ((la.lstsq (aLift (S * A) (Real.sqrt δ)) 1).submatrix id (Fin.castAdd (liftRows n (Real.sqrt δ))) * S) : Py G (Matrix (Fin n) (Fin m) ℝ))
      { w with warns := w.warns + sso1Warns tol L }, fun b => ?_⟩
  funext w
  rw [sso1_eq]
  obtain ⟨w1, hw1⟩ : ∃ w1 : World G, w1 = { w with warns := w.warns + sso1Warns tol L } := ⟨_, rfl⟩
  rw [← hw1]
  have key : ∀ {d : ℕ} (S : Matrix (Fin d) (Fin m) ℝ), la.lstsqv (aLift (S * A) (Real.sqrt δ)) (catv (S *ᵥ b) 0) =
      ((la.lstsq (aLift (S * A) (Real.sqrt δ)) 1).submatrix id (Fin.castAdd (liftRows n (Real.sqrt δ))) * S) *ᵥ b := by
    intro d S
    rw [lstsqv_mulVec, ← mulVec_mulVec]
    funext i
    simp only [mulVec, dotProduct, Fin.sum_univ_add, catv_castAdd, catv_natAdd, Pi.zero_apply, mul_zero, Finset.sum_const_zero, add_zero,
      submatrix_apply, id]
  cases hd : dimChecks (G := G) sf m n w1 with
  | error e =>
    rw [Py.bind_eq_of_error hd]
    symm
    apply Py.bind_eq_of_error
    change _ = _
    rw [← hw1, Py.bind_eq_of_error hd]
  | ok r =>
    obtain ⟨d, w2⟩ := r
    rw [Py.bind_eq_of_ok hd]
    cases hg : gen d m w2 with
    | error e =>
      rw [Py.bind_eq_of_error hg]
      symm
      apply Py.bind_eq_of_error
      change _ = _
      rw [← hw1, Py.bind_eq_of_ok hd, Py.bind_eq_of_error hg]
    | ok r =>
      obtain ⟨S, w3⟩ := r
      rw [Py.bind_eq_of_ok hg]
      symm
      refine (Py.bind_eq_of_ok (a := (la.lstsq (aLift (S * A) (Real.sqrt δ)) 1).submatrix id (Fin.castAdd (liftRows n (Real.sqrt δ))) * S) (w₁ := w3) ?_).trans ?_
      · rw [← hw1, Py.bind_eq_of_ok hd, Py.bind_eq_of_ok hg]; rfl
      · rw [key]

/-- **C99** (linearity, run by run).  Two runs from the same state leave the same state, and so does the run on a combination of the right-hand sides,
which returns the combination of the results. -/
theorem C99_sso1_combine (la : LinAlg) (gen : SkOpGen G) (sf : ℝ) (A : Matrix (Fin m) (Fin n) ℝ) (δ : ℝ) (tol : Tol) (L : ℤ) (w w' : World G)
    (b b' : Fin m → ℝ) (x : Fin n → ℝ) (h : sso1Call la gen sf A b δ tol L w = .ok (x, w')) :
    ∃ x', sso1Call la gen sf A b' δ tol L w = .ok (x', w') ∧
      ∀ s t : ℝ, sso1Call la gen sf A (s • b + t • b') δ tol L w = .ok (s • x + t • x', w') := by
  obtain ⟨M, hM⟩ := C99_sso1_linear la gen sf A δ tol L
  rw [hM] at h
  rw [Py.bind_ok_iff] at h
  obtain ⟨X, w1, h1, h⟩ := h
  cases h
  refine ⟨X *ᵥ b', ?_, fun s t => ?_⟩
  · rw [hM, Py.bind_eq_of_ok h1]; rfl
  · rw [hM, Py.bind_eq_of_ok h1, mulVec_add, mulVec_smul, mulVec_smul]; rfl

/-- what one near-optimal run on `b' - b` says about the runs on `b` and `b'` -/
private theorem stable_of_run {la : LinAlg} {gen : SkOpGen G} {sf : ℝ} {A : Matrix (Fin m) (Fin n) ℝ} {δ : ℝ} {tol : Tol} {L : ℤ} {w w' : World G}
    {b b' : Fin m → ℝ} {y : Fin n → ℝ} {c : ℝ} (hδ : 0 ≤ δ) (h : sso1Call la gen sf A (b' - b) δ tol L w = .ok (y, w'))
    (hy : ∀ z, sqNorm (A *ᵥ y - (b' - b)) + δ * sqNorm y ≤ c * (sqNorm (A *ᵥ z - (b' - b)) + δ * sqNorm z)) :
    ∃ x x', sso1Call la gen sf A b δ tol L w = .ok (x, w') ∧ sso1Call la gen sf A b' δ tol L w = .ok (x', w') ∧
      norm2 (A *ᵥ x' - A *ᵥ x) ≤ (1 + √c) * norm2 (b' - b) ∧ δ * sqNorm (x' - x) ≤ c * sqNorm (b' - b) := by
  obtain ⟨x, hx, hc⟩ := C99_sso1_combine la gen sf A δ tol L w w' (b' - b) b y h
  have h2 := hc 1 1
  rw [one_smul, one_smul, one_smul, one_smul, sub_add_cancel] at h2
  refine ⟨x, y + x, hx, h2, ?_, ?_⟩
  · have h0 := hy 0
    rw [mulVec_zero, zero_sub, sqNorm_neg, show sqNorm (0 : Fin n → ℝ) = 0 by simp [sqNorm], mul_zero, add_zero] at h0
    have h1 : sqNorm (A *ᵥ y - (b' - b)) ≤ c * sqNorm (b' - b) := by linarith [mul_nonneg hδ (sqNorm_nonneg y)]
    have h3 : norm2 (A *ᵥ y - (b' - b)) ≤ √c * norm2 (b' - b) := by
      unfold norm2
      rw [← Real.sqrt_mul' _ (sqNorm_nonneg _)]
      exact Real.sqrt_le_sqrt h1
    rw [mulVec_add, add_sub_cancel_right, show A *ᵥ y = (A *ᵥ y - (b' - b)) + (b' - b) by abel]
    refine (norm2_add_le' _ _).trans ?_
    linarith
  · have h0 := hy 0
    rw [mulVec_zero, zero_sub, sqNorm_neg, show sqNorm (0 : Fin n → ℝ) = 0 by simp [sqNorm], mul_zero, add_zero] at h0
    rw [add_sub_cancel_right]
    linarith [sqNorm_nonneg (A *ᵥ y - (b' - b))]

/-- **C99** (stability) for the function `sso1` with its default sketch: for any two right-hand sides, except for draws of small probability, the runs from
the same state return, and `‖A(x' - x)‖ ≤ (1 + √((1+ε)/(1-ε))) ‖b' - b‖`. -/
theorem C99_sso1_sjlt (A : Matrix (Fin m) (Fin n) ℝ) (hn : 0 < n) (b b' : Fin m → ℝ) (a : SketchArgs)
    (hd : n ≤ sketchRows a.samplingFactor m n) (hs : 0 < a.vecNnz) (hsd : a.vecNnz ≤ sketchRows a.samplingFactor m n)
    (ε : ℝ) (hε : 0 < ε) (hε1 : ε < 1) :
    ∃ E : Set ((Fin m → (Fin a.vecNnz ↪ Fin (sketchRows a.samplingFactor m n))) × (Fin (m * a.vecNnz) → ℝ)),
      sjltDraws _ m _ E ≤ ENNReal.ofReal (((n + 1) ^ 2 + (n + 1)) / (sketchRows a.samplingFactor m n * ε ^ 2)) ∧
      ∀ rv u, (rv, u) ∉ E → ∀ (G : Type) (la : LinAlg) (R : NpRng G) (w : World G) (δ : ℝ), 0 ≤ δ →
        NextSJLT R w _ _ _ rv u →
        ∃ x x' w', sso1Fn la R A b δ a w = .ok (x, w') ∧ sso1Fn la R A b' δ a w = .ok (x', w') ∧
          norm2 (A *ᵥ x' - A *ᵥ x) ≤ (1 + √((1 + ε) / (1 - ε))) * norm2 (b' - b) ∧
          δ * sqNorm (x' - x) ≤ (1 + ε) / (1 - ε) * sqNorm (b' - b) := by
  obtain ⟨E, h1, h2⟩ := C70_sso1 A hn (b' - b) a hd hs hsd ε hε hε1
  refine ⟨E, h1, fun rv u hE G la R w δ hδ hw => ?_⟩
  obtain ⟨y, w', e1, e2⟩ := h2 rv u hE G la R w δ hδ hw
  obtain ⟨x, x', f⟩ := stable_of_run hδ e1 e2
  exact ⟨x, x', w', f⟩

/-- **C99** (stability) with a Gaussian sketch. -/
theorem C99_sso1_gaussian (A : Matrix (Fin m) (Fin n) ℝ) (hn : 0 < n) (b b' : Fin m → ℝ) (sf : ℝ)
    (hd : n ≤ sketchRows sf m n) (ε : ℝ) (hε : 0 ≤ ε) (hε1 : ε < 1) :
    ∃ E : Set (Fin (sketchRows sf m n) × Fin m → ℝ),
      normals _ m E ≤ ENNReal.ofReal (2 * 9 ^ (n + 1) * Real.exp (-(sketchRows sf m n * ε ^ 2 / 32))) ∧
      ∀ Z ∉ E, ∀ (G : Type) (la : LinAlg) (R : NpRng G) (w : World G) (δ : ℝ) (tol : Tol) (L : ℤ), 0 ≤ δ →
        NextNormal R w _ _ Z →
        ∃ x x' w', sso1Call la (gaussianOperator R true) sf A b δ tol L w = .ok (x, w') ∧
          sso1Call la (gaussianOperator R true) sf A b' δ tol L w = .ok (x', w') ∧
          norm2 (A *ᵥ x' - A *ᵥ x) ≤ (1 + √((1 + ε) / (1 - ε))) * norm2 (b' - b) ∧
          δ * sqNorm (x' - x) ≤ (1 + ε) / (1 - ε) * sqNorm (b' - b) := by
  obtain ⟨E, h1, h2⟩ := C68_sso1 A hn (b' - b) sf hd ε hε hε1
  refine ⟨E, h1, fun Z hE G la R w δ tol L hδ hw => ?_⟩
  obtain ⟨y, w', e1, e2⟩ := h2 Z hE G la R w δ tol L hδ hw
  obtain ⟨x, x', f⟩ := stable_of_run hδ e1 e2
  exact ⟨x, x', w', f⟩

/-- **C99** (stability) with a trigonometric sketch. -/
theorem C99_sso1_srct (A : Matrix (Fin m) (Fin n) ℝ) (hn : 0 < n) (b b' : Fin m → ℝ) (sf : ℝ)
    (hd : n ≤ sketchRows sf m n) (ε : ℝ) (hε : 0 < ε) (hε1 : ε < 1) :
    ∃ E : Set (Equiv.Perm (Fin m) × ((Fin (sketchRows sf m n) ↪ Fin m) × (Fin m → ℝ))),
      srctDraws _ m E ≤ ENNReal.ofReal (4 * ((n + 1) ^ 2 + 2 * (n + 1)) / (sketchRows sf m n * ε ^ 2)) ∧
      ∀ p f u, (p, f, u) ∉ E → ∀ (G : Type) (la : LinAlg) (R : NpRng G) (w : World G) (δ : ℝ) (tol : Tol) (L : ℤ),
        0 ≤ δ → NextSRCT R w _ _ p f u →
        ∃ x x' w', sso1Call la (skOpTCGen la R) sf A b δ tol L w = .ok (x, w') ∧ sso1Call la (skOpTCGen la R) sf A b' δ tol L w = .ok (x', w') ∧
          norm2 (A *ᵥ x' - A *ᵥ x) ≤ (1 + √((1 + ε) / (1 - ε))) * norm2 (b' - b) ∧
          δ * sqNorm (x' - x) ≤ (1 + ε) / (1 - ε) * sqNorm (b' - b) := by
  obtain ⟨E, h1, h2⟩ := C72_sso1 A hn (b' - b) sf hd ε hε hε1
  refine ⟨E, h1, fun p f u hE G la R w δ tol L hδ hw => ?_⟩
  obtain ⟨y, w', e1, e2⟩ := h2 p f u hE G la R w δ tol L hδ hw
  obtain ⟨x, x', f⟩ := stable_of_run hδ e1 e2
  exact ⟨x, x', w', f⟩

/-- runs that return, of every matrix: the combination of two of them -/
example (la : LinAlg) (A : Matrix (Fin 4) (Fin 2) ℝ) (b b' : Fin 4 → ℝ) (w : World G) :
    ∃ x x' w', sso1Call la idGen 2 A b 0 .nan 1 w = .ok (x, w') ∧ sso1Call la idGen 2 A b' 0 .nan 1 w = .ok (x', w') ∧
      sso1Call la idGen 2 A ((2 : ℝ) • b + (-3 : ℝ) • b') 0 .nan 1 w = .ok ((2 : ℝ) • x + (-3 : ℝ) • x', w') := by
  have hf : pyInt ((2 : ℝ) * ((2 : ℕ) : ℝ)) = 4 := by
    rw [show (2 : ℝ) * ((2 : ℕ) : ℝ) = ((4 : ℤ) : ℝ) by norm_num]; simp [pyInt]
  obtain ⟨x, w', h⟩ := (C36_sso1_total la idGen 2 A b 0 .nan 1 w).2 (by norm_num) (by rw [hf]; norm_num)
    (fun d w _ _ => ⟨_, w, rfl⟩)
  obtain ⟨x', h', h2⟩ := C99_sso1_combine la idGen 2 A 0 .nan 1 w w' b b' x h
  exact ⟨x, x', w', h, h', h2 2 (-3)⟩

end Parla.Props
