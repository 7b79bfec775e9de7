import Verif.Props.AlmostSure
import Verif.Props.Drivers

/-! # C60: least squares with a sketch that keeps the rank of `A`, and with a Gaussian sketch almost
surely

The rank condition is on the sketched matrix; a Gaussian operator (`SkOpGA`, `gaussian_operator`) meets
it for almost every draw. -/

namespace Parla.Proof

open MeasureTheory Matrix

/-- Sketching from the left with independent atomless entries loses no rank. -/
theorem ae_rank_mul_left {μ : Measure ℝ} [SigmaFinite μ] [NullSingletonClass μ] {a n : ℕ}
    (X : Matrix (Fin a) (Fin n) ℝ) (b : ℕ) :
    ∀ᵐ Z ∂(indep (Fin b × Fin a) μ), (drawMat Z * X).rank = min b X.rank := by
  have h := ae_rank_mul (μ := μ) Xᵀ b
  rw [rank_transpose] at h
  have hmp := measurePreserving_piCongrLeft (fun _ : Fin a × Fin b => μ) (Equiv.prodComm (Fin b) (Fin a))
  have h2 := hmp.quasiMeasurePreserving.ae h
  unfold indep
  filter_upwards [h2] with Z hZ
  rw [← hZ, ← rank_transpose, transpose_mul]
  congr 2

end Parla.Proof

namespace Parla.Props

open Matrix Parla Spec MeasureTheory

variable {G : Type} {m n d : ℕ}

theorem aLift_full_of_full (B : Matrix (Fin d) (Fin n) ℝ) (δ : ℝ) (hB : FullColRank B) :
    FullColRank (aLift B (Real.sqrt δ)) := by
  refine fullColRank_iff_inj.2 fun x hx => ?_
  have h := sqNorm_aLift B (Real.sqrt δ) x
  rw [hx, show sqNorm (0 : Fin (d + liftRows n (Real.sqrt δ)) → ℝ) = 0 by simp [sqNorm]] at h
  have h1 : 0 ≤ sqNorm (B *ᵥ x) := sqNorm_nonneg _
  have h2 : 0 ≤ sqNorm x := sqNorm_nonneg _
  exact fullColRank_iff_inj.1 hB x (sqNorm_eq_zero.1 (by nlinarith [sq_nonneg (Real.sqrt δ)]))

/-- on a consistent system a sketch that keeps the rank has the exact solution as its only minimiser -/
theorem consistent_ridge {S : Matrix (Fin d) (Fin m) ℝ} {A : Matrix (Fin m) (Fin n) ℝ} {xs z : Fin n → ℝ}
    (hf : FullColRank (S * A)) (hz : IsRidgeMin (S * A) (S *ᵥ (A *ᵥ xs)) 0 z) : z = xs := by
  have h := hz xs
  rw [mulVec_mulVec, sub_self, zero_mul, zero_mul, add_zero, add_zero, sqNorm_zero',
    ← mulVec_sub] at h
  exact sub_eq_zero.1 (fullColRank_iff_inj.1 hf _ (sqNorm_eq_zero.1 (le_antisymm h (sqNorm_nonneg _))))

/-- **C60** (`SSO1`, consistent systems).  If the sketched matrix has full column rank and `b = A xs`,
`SSO1` with `delta = 0` returns `xs`. -/
theorem C60_sso1_consistent (la : LinAlg) (gen : SkOpGen G) (sf : ℝ) (A : Matrix (Fin m) (Fin n) ℝ)
    (xs : Fin n → ℝ) (tol : Tol) (L : ℤ) (w w' : World G) (x : Fin n → ℝ)
    (h : sso1Call la gen sf A (A *ᵥ xs) 0 tol L w = .ok (x, w'))
    (hS : ∀ d : ℕ, (d : ℤ) = min (pyInt (sf * n)) m → ∀ v S w', v.rng = w.rng → gen d m v = .ok (S, w') →
      FullColRank (S * A)) : x = xs := by
  obtain ⟨d, S, -, -, hdim, hg, h1, -⟩ := C36_sso1 la gen sf A _ 0 le_rfl tol L w w' x h
  exact consistent_ridge (hS _ hdim _ _ _ (by rfl) hg) h1

/-- without logging `SPO` in the QR and Cholesky modes returns a point at least as good as its start -/
theorem spo_unlogged (la : LinAlg) (gen : SkOpGen G) (sf : ℝ) (A : Matrix (Fin m) (Fin n) ℝ)
    (b : Fin m → ℝ) (δ tol : ℝ) (hδ : 0 ≤ δ) (L : ℤ) (hL : 0 ≤ L) (clock : LogTimes) (w w₁ w' : World G)
    (hn : 0 < n) {dd : ℕ} (S : Matrix (Fin dd) (Fin m) ℝ)
    (hdd : (dimChecks sf m n : Py G ℕ) w = .ok (dd, w₁)) (hS : gen dd m w₁ = .ok (S, w'))
    (e1 : n ≤ dd) (mode : SPOMode) (hm : mode = .qr ∨ mode = .chol)
    (hr : FullColRank (aLift (S * A) (Real.sqrt δ))) :
    ∃ out x, spoCall la gen sf mode A b δ tol L false clock w = .ok (out, w') ∧ out.x = some x ∧
      sqNorm (A *ᵥ x - b) + δ * sqNorm x ≤ sqNorm b ∧
      ∀ z, IsRidgeMin (S * A) (S *ᵥ b) δ z →
        sqNorm (A *ᵥ x - b) + δ * sqNorm x ≤ sqNorm (A *ᵥ z - b) + δ * sqNorm z := by
  have hm' : mode ≠ .svd := by rcases hm with rfl | rfl <;> simp
  obtain ⟨⟨o, ho⟩, -⟩ := spo_total la mode S A b δ tol hδ L hL clock hn e1 (Or.inr ⟨hm, hr⟩)
  have key := spoCall_eq (la := la) (gen := gen) mode A b δ tol L false clock hdd hS
  rw [ho] at key
  obtain ⟨x, x0, out0, hx, hc0, hx0, hle⟩ :=
    C37_spo_vs_start la _ _ mode A b δ tol hδ L false clock w w' o key
  obtain ⟨x', hx', hle'⟩ := C37_spo_never_worse la _ _ mode A b δ tol hδ L false clock w w' o key
  obtain rfl : x' = x := by rw [hx] at hx'; cases hx'; rfl
  refine ⟨o, x', key, hx, hle', fun z hz => ?_⟩
  obtain ⟨d', S', w₁', g1, g2, g3⟩ := C37_spo_start la _ _ mode A b δ tol hδ clock w w' out0 hc0
  rw [hdd] at g1
  cases g1
  rw [hS] at g2
  cases g2
  obtain ⟨-, g3⟩ := g3 (fun h => absurd h hm')
  have hzn := normal_of_ridge la hδ hz
  have hz' : ((S * A)ᵀ * (S * A) + δ • 1) *ᵥ z = (S * A)ᵀ *ᵥ (S *ᵥ b) := by
    rw [add_mulVec, smul_mulVec, one_mulVec, ← mulVec_mulVec]
    rw [mulVec_sub] at hzn
    have := sub_eq_zero.1 hzn
    rw [← this]
    abel
  by_cases hlt : sqNorm (A *ᵥ z - b) + δ * sqNorm z < sqNorm b
  · have := (g3 z hz').1 hlt
    rw [hx0] at this
    cases this
    exact hle
  · exact hle'.trans (not_lt.1 hlt)

/-- **C60** (`SPO`, consistent systems).  If the sketched matrix has full column rank and `b = A xs`, then
`SPO` in the QR or Cholesky mode with `delta = 0` returns `xs` when not logging, for every `iter_lim`; when
logging it raises ValueError (there is no iteration to log). -/
theorem C60_spo_consistent (la : LinAlg) (gen : SkOpGen G) (sf : ℝ) (A : Matrix (Fin m) (Fin n) ℝ)
    (xs : Fin n → ℝ) (tol : ℝ) (L : ℤ) (hL : 0 ≤ L) (clock : LogTimes) (w : World G)
    (hn : 0 < n) (hmn : n ≤ m) (hsf : (n : ℤ) ≤ pyInt (sf * n)) (mode : SPOMode)
    (hm : mode = .qr ∨ mode = .chol)
    (hS : ∀ d : ℕ, (d : ℤ) = min (pyInt (sf * n)) m → ∀ w₁ : World G, w₁.rng = w.rng →
      ∃ S w', gen d m w₁ = .ok (S, w') ∧ FullColRank (S * A)) :
    (∃ out w', spoCall la gen sf mode A (A *ᵥ xs) 0 tol L false clock w = .ok (out, w') ∧
      out.x = some xs) ∧
    spoCall la gen sf mode A (A *ᵥ xs) 0 tol L true clock w = .error .value := by
  obtain ⟨dd, hdd, e1, e2, e3⟩ := (C35_dim_checks sf m n w).2 hmn hsf
  obtain ⟨S, w', hg, hf⟩ := hS dd e3
    { w with warns := w.warns + if (m : ℤ) < pyInt (sf * n) then 1 else 0 } rfl
  have hfl := aLift_full_of_full (S * A) 0 hf
  have hmin : IsRidgeMin (S * A) (S *ᵥ (A *ᵥ xs)) 0 xs := by
    intro z
    rw [mulVec_mulVec, sub_self, sqNorm_zero', zero_mul, zero_mul, add_zero, add_zero]
    exact sqNorm_nonneg _
  have hmin' : ∀ x0, sqNorm (A *ᵥ x0 - A *ᵥ xs) + 0 * sqNorm x0 ≤ 0 → IsRidgeMin A (A *ᵥ xs) 0 x0 := by
    intro x0 h z
    refine h.trans ?_
    rw [zero_mul, add_zero]; exact sqNorm_nonneg _
  have hinj : ∀ x, sqNorm (A *ᵥ x - A *ᵥ xs) + 0 * sqNorm x ≤ 0 → x = xs := by
    intro x h
    rw [zero_mul, add_zero] at h
    have h0 := sqNorm_eq_zero.1 (le_antisymm h (sqNorm_nonneg _))
    rw [← mulVec_sub] at h0
    refine sub_eq_zero.1 (fullColRank_iff_inj.1 hf _ ?_)
    rw [← mulVec_mulVec, h0, mulVec_zero]
  have hxs : sqNorm (A *ᵥ xs - A *ᵥ xs) + 0 * sqNorm xs = 0 := by
    rw [sub_self, sqNorm_zero', zero_mul, add_zero]
  constructor
  · obtain ⟨out, x, g1, g2, -, g4⟩ := spo_unlogged la gen sf A (A *ᵥ xs) 0 tol le_rfl L hL clock w _ w' hn S
      hdd hg e1 mode hm hfl
    refine ⟨out, w', g1, ?_⟩
    rw [g2, hinj x ((g4 xs hmin).trans hxs.le)]
  · obtain ⟨x0, g1, g2, -⟩ := spo_outcomes la gen sf A (A *ᵥ xs) 0 tol le_rfl L hL clock w _ w' hn S
      hdd hg e1 mode hm hfl
    apply g2
    rcases g1 with ⟨g1, -⟩ | ⟨rfl, g1⟩
    · rw [consistent_ridge hf g1]; exact hmin' _ hxs.le
    · have := (g1 xs hmin).trans hxs.le
      refine hmin' 0 ?_
      rw [mulVec_zero, zero_sub, zero_mul, add_zero]
      have e : sqNorm (-(A *ᵥ xs)) = sqNorm (A *ᵥ xs) := by simp [sqNorm]
      rw [e]; exact this

/-! ### Gaussian sketches -/

/-- `d = min(int(sampling_factor * n), m)`, the number of rows of the sketch -/
noncomputable def sketchRows (sf : ℝ) (m n : ℕ) : ℕ := (min (pyInt (sf * n)) m).toNat

theorem gaussian_full_ae (A : Matrix (Fin m) (Fin n) ℝ) (hA : FullColRank A) (hn : 0 < n) (hmn : n ≤ m)
    (d : ℕ) (hd : n ≤ d) :
    ∀ᵐ Z ∂(normals d m), ∀ (G : Type) (R : NpRng G) (w w₁ : World G), NextNormal R w d m Z →
      w₁.rng = w.rng →
      ∃ S w', gaussianOperator R true d m w₁ = .ok (S, w') ∧ FullColRank (S * A) := by
  filter_upwards [Proof.ae_rank_mul_left (μ := stdNormal) A d] with Z hZ G R w w₁ hw hrng
  have hw' : NextNormal R w₁ d m Z := by
    unfold NextNormal at hw ⊢
    rw [hrng]; exact hw
  obtain ⟨t, ht, hgen⟩ := gaussian_next R (by omega) hw'
  refine ⟨_, _, hgen, ?_⟩
  unfold FullColRank at hA ⊢
  rw [smul_mul, rank_smul_ne ht, hZ, hA]
  omega

/-- **C60** (`SPO`, Gaussian sketch).  Let `1 ≤ n ≤ m`, `n ≤ int(sampling_factor * n)`, `A` of full column
rank and `iter_lim ≥ 0`.  For almost every draw, `SPO` with a Gaussian sketch in the QR or Cholesky mode
never raises LinAlgError: without logging it returns a point whose objective is at most those of 0 and of
the sketch-and-solve point; with logging it does the same or raises ValueError. -/
theorem C60_spo_gaussian (A : Matrix (Fin m) (Fin n) ℝ) (hA : FullColRank A) (hn : 0 < n) (hmn : n ≤ m)
    (sf : ℝ) (hsf : (n : ℤ) ≤ pyInt (sf * n)) :
    ∀ᵐ Z ∂(normals (sketchRows sf m n) m), ∀ (G : Type) (la : LinAlg) (R : NpRng G) (w : World G)
      (b : Fin m → ℝ) (δ tol : ℝ) (L : ℤ) (clock : LogTimes) (mode : SPOMode), 0 ≤ δ → 0 ≤ L →
      mode = .qr ∨ mode = .chol → NextNormal R w _ _ Z →
      (∃ out w' x, spoCall la (gaussianOperator R true) sf mode A b δ tol L false clock w = .ok (out, w') ∧
        out.x = some x ∧ sqNorm (A *ᵥ x - b) + δ * sqNorm x ≤ sqNorm b) ∧
      ((∃ out w' x lg, spoCall la (gaussianOperator R true) sf mode A b δ tol L true clock w =
          .ok (out, w') ∧ out.x = some x ∧ out.log = some lg ∧
          sqNorm (A *ᵥ x - b) + δ * sqNorm x ≤ sqNorm b) ∨
        spoCall la (gaussianOperator R true) sf mode A b δ tol L true clock w = .error .value) := by
  have hd : n ≤ sketchRows sf m n := by unfold sketchRows; omega
  filter_upwards [gaussian_full_ae A hA hn hmn _ hd] with Z hZ G la R w b δ tol L clock mode hδ hL hm hw
  obtain ⟨dd, hdd, e1, e2, e3⟩ := (C35_dim_checks sf m n w).2 hmn hsf
  obtain rfl : dd = sketchRows sf m n := by unfold sketchRows; omega
  obtain ⟨S, w', hg, hf⟩ := hZ G R w
    { w with warns := w.warns + if (m : ℤ) < pyInt (sf * n) then 1 else 0 } hw rfl
  have hfl := aLift_full_of_full (S * A) δ hf
  constructor
  · obtain ⟨out, x, g1, g2, g3, -⟩ := spo_unlogged la _ sf A b δ tol hδ L hL clock w _ w' hn S
      hdd hg e1 mode hm hfl
    exact ⟨out, w', x, g1, g2, g3⟩
  · obtain ⟨x0, g1, g2, g3⟩ := spo_outcomes la _ sf A b δ tol hδ L hL clock w _ w' hn S
      hdd hg e1 mode hm hfl
    by_cases h0 : IsRidgeMin A b δ x0
    · exact Or.inr (g2 h0)
    · obtain ⟨out, x, lg, k1, k2, k3, k4⟩ := g3 h0
      refine Or.inl ⟨out, w', x, lg, k1, k2, k3, k4.trans ?_⟩
      rcases g1 with ⟨-, g1⟩ | ⟨rfl, -⟩
      · exact g1.le
      · have e : sqNorm (A *ᵥ (0 : Fin n → ℝ) - b) = sqNorm b := by simp [sqNorm]
        rw [e, sqNorm_zero', mul_zero, add_zero]

/-- **C60** (consistent systems, Gaussian sketch).  Under the same conditions, for almost every draw and
every `xs`: `SSO1` on `b = A xs`, `delta = 0`, returns `xs`; `SPO` in the QR or Cholesky mode returns `xs`
without logging and raises ValueError with logging. -/
theorem C60_gaussian_consistent (A : Matrix (Fin m) (Fin n) ℝ) (hA : FullColRank A) (hn : 0 < n)
    (hmn : n ≤ m) (sf : ℝ) (hsf : (n : ℤ) ≤ pyInt (sf * n)) :
    ∀ᵐ Z ∂(normals (sketchRows sf m n) m), ∀ (G : Type) (la : LinAlg) (R : NpRng G) (w : World G)
      (xs : Fin n → ℝ), NextNormal R w _ _ Z →
      (∀ (tol : Tol) (L : ℤ), ∃ w', sso1Call la (gaussianOperator R true) sf A (A *ᵥ xs) 0 tol L w =
        .ok (xs, w')) ∧
      ∀ (tol : ℝ) (L : ℤ) (clock : LogTimes) (mode : SPOMode), 0 ≤ L → mode = .qr ∨ mode = .chol →
        (∃ out w', spoCall la (gaussianOperator R true) sf mode A (A *ᵥ xs) 0 tol L false clock w =
          .ok (out, w') ∧ out.x = some xs) ∧
        spoCall la (gaussianOperator R true) sf mode A (A *ᵥ xs) 0 tol L true clock w = .error .value := by
  have hd : n ≤ sketchRows sf m n := by unfold sketchRows; omega
  filter_upwards [gaussian_full_ae A hA hn hmn _ hd] with Z hZ G la R w xs hw
  refine ⟨fun tol L => ?_, fun tol L clock mode hL hm => ?_⟩
  · rw [sso1_eq]
    obtain ⟨dd, hdd, e1, e2, e3⟩ := (C35_dim_checks sf m n
      { w with warns := w.warns + sso1Warns tol L }).2 hmn hsf
    obtain rfl : dd = sketchRows sf m n := by unfold sketchRows; omega
    obtain ⟨S, w', hg, hf⟩ := hZ G R w
      { w with warns := w.warns + sso1Warns tol L + if (m : ℤ) < pyInt (sf * n) then 1 else 0 } hw rfl
    rw [Py.bind_eq_of_ok hdd, Py.bind_eq_of_ok hg]
    obtain ⟨k1, -⟩ := lstsqv_lift la (S * A) (S *ᵥ (A *ᵥ xs)) le_rfl
    have := consistent_ridge hf (ridge_of_normal le_rfl k1)
    refine ⟨w', ?_⟩
    conv_rhs => rw [← this]
    rfl
  · refine C60_spo_consistent la _ sf A xs tol L hL clock w hn hmn hsf mode hm fun dd hdd w₁ hr => ?_
    obtain rfl : dd = sketchRows sf m n := by unfold sketchRows; omega
    exact hZ G R w w₁ hw hr

-- non-vacuity: the identity sketch keeps the rank of a 3 × 1 matrix, and `sampling_factor = 3` is admissible
example : FullColRank (Matrix.of ![![1], ![0], ![0]] : Matrix (Fin 3) (Fin 1) ℝ) ∧
    ((1 : ℕ) : ℤ) ≤ pyInt (((3 : ℕ) : ℝ) * ((1 : ℕ) : ℝ)) := by
  constructor
  · refine fullColRank_iff_inj.2 fun x hx => ?_
    have := congrFun hx 0
    funext i
    fin_cases i
    simpa [Matrix.mulVec, dotProduct] using this
  · rw [← Nat.cast_mul, pyInt_natCast]; norm_num

end Parla.Props
