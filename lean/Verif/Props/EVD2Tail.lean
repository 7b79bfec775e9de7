import Verif.Props.LowRankTail
import Verif.Props.EVD2Error
import Mathlib.Analysis.Complex.ExponentialBounds

/-! # Property C78 for `evd2`: exponentially small failure probability -/

namespace Parla.Props

open Matrix Parla Spec MeasureTheory

variable {G : Type} {n : ℕ}

theorem sketchBound_shift {a r : ℕ} {s : Fin r → ℝ} (hs : ∀ i, 0 ≤ s i) {nu : ℝ} (hnu : 0 ≤ nu) (t k : ℕ) (ht : t ≤ r)
    (X : Matrix (Fin a) (Fin r) ℝ) (Z : Fin a × Fin k → ℝ) :
    sketchBound (fun i => √(s i + nu)) t k ht X Z =
      sketchBound (fun i => √(s i)) t k ht X Z + nu * sketchBound (fun _ => (1 : ℝ)) t k ht X Z := by
  unfold sketchBound
  simp only [Proof.froSq_diag_mul, Finset.mul_sum, ← Finset.sum_add_distrib]
  refine Finset.sum_congr rfl fun i _ => ?_
  unfold tail
  split
  · simp
  · rw [Real.sq_sqrt (hs i), Real.sq_sqrt (by linarith [hs i])]; ring_nf

theorem tailSq_sqrt {r : ℕ} {s : Fin r → ℝ} (hs : ∀ i, 0 ≤ s i) (t : ℕ) :
    tailSq (fun i => √(s i)) t = tailSum s t := by
  unfold tailSq tailSum tail
  refine Finset.sum_congr rfl fun i _ => ?_
  split
  · norm_num
  · exact Real.sq_sqrt (hs i)

/-- one run of `evd2` on a given array of normals -/
theorem evd2_pointwise (A : Matrix (Fin n) (Fin n) ℝ) (hA : IsPSD A) {V : Matrix (Fin n) (Fin n) ℝ}
    {lam : Fin n → ℝ} (hV : IsSVD A V lam V) (k over : ℕ) (hk : 0 < k) (ho : k + over ≤ n)
    (t : ℕ) (ht : t ≤ n) (htr : t ≤ A.rank) (τ : ℝ)
    (hτ : ∀ (i : Fin n) (j : Fin t), t ≤ i.1 → lam i ≤ τ * lam (Fin.castLE ht j)) (p : ℤ) (hp : 1 ≤ p)
    {Z : Fin n × Fin (k + over) → ℝ}
    (hZ : firstRows ht (Vᵀ * Proof.drawMat Z) * Proof.rpinv (firstRows ht (Vᵀ * Proof.drawMat Z)) = 1)
    {nu0 : ℝ} (hq1 : p = 1 → √n * eps * √((1 / ((k + over : ℕ) : ℝ)) * froSq (A * Proof.drawMat Z)) ≤ nu0)
    (hq2 : √n * eps * fro A ≤ nu0)
    (la : LinAlg) (R : NpRng G) (w w' : World G) (hw : NextNormal R w n (k + over) Z) {out : EVDOut n}
    (e1 : evd2 la (gaussianOperator R true) A k over p w = .ok (out, w')) (hrk : out.r = k) :
    OrthoCols out.V ∧ √(tailSq lam k) ≤ fro (A - out.V * diagonal out.lamb * out.Vᵀ) ∧
    fro (A - out.V * diagonal out.lamb * out.Vᵀ) ≤
      tailSum (fun i => lam i + nu0) k + (tailSum (fun i => lam i + nu0) t + τ ^ (2 * (p - 1).toNat) *
        sketchBound (fun i => √(lam i + nu0)) t (k + over) ht V Z) + nu0 * √n := by
  have hpos := evd_pos hV ht htr
  obtain ⟨T, hT⟩ : ∃ T, T = τ ^ (2 * (p - 1).toNat) := ⟨_, rfl⟩
  have hT0 : 0 ≤ T := by rw [hT, pow_mul]; positivity
  rw [← hT]
  obtain ⟨l, hl⟩ : ∃ l, l = k + over := ⟨_, rfl⟩
  have hl0 : (0 : ℝ) < l := by exact_mod_cast (by omega : 0 < l)
  unfold evd2 at e1
  rw [Py.assert_pos_bind hp] at e1
  obtain ⟨-, -, -, -, -, -, ho', -⟩ := C16_evd2_psd la _ A hA k .nan over w w' out e1
  obtain ⟨hlow, S, w1, hS, hb⟩ := C75_evd2_error la _ A hA hV k .nan over w w' out e1
  refine ⟨ho', by simpa using hlow, ?_⟩
  have hS' : rs1Call (gaussianOperator R true) (p - 1) (orth la) 1 A (k + over) w = .ok (S, w1) := by
    rw [show ((k : ℤ) + over).toNat = k + over by omega] at hS; exact hS
  obtain ⟨S0, w2, hg, hcol, hzero, horth⟩ := rs1_symm la hA.1 hS'
  have hgen : gaussianOperator R true n (k + over) w = .ok (√(1 / (min n (k + over) : ℕ)) • Proof.drawMat Z,
      { w with rng := (R.standardNormal n (k + over) w.rng).2 }) := by
    rw [(C55_gaussian_result R n (k + over) w).1 (by omega), show (R.standardNormal n (k + over) w.rng).1 = _ from hw]
    rfl
  rw [hgen] at hg
  obtain ⟨u, hu⟩ : ∃ u : ℝ, u = √(1 / (min n (k + over) : ℕ)) := ⟨_, rfl⟩
  have hu2 : u ^ 2 = 1 / l := by
    rw [hu, Real.sq_sqrt (by positivity), min_eq_right (by omega), hl]
  have hu3 : u ^ 2 = 1 / ((k + over : ℕ) : ℝ) := by rw [hu2, hl]
  have hu0 : u ≠ 0 := by
    intro h0
    rw [h0] at hu2
    have : (0 : ℝ) < 1 / l := by positivity
    rw [← hu2] at this
    norm_num at this
  rw [← hu] at hg
  cases hg
  obtain ⟨nu, hnu⟩ : ∃ nu, nu = Real.sqrt n * eps * fro (A * S.mat) := ⟨_, rfl⟩
  have he : (0 : ℝ) ≤ √n * eps := by unfold eps; positivity
  have hnu0 : 0 ≤ nu := by rw [hnu]; exact mul_nonneg he (fro_nonneg _)
  have hW0 : firstRows ht (Vᵀ * (u • Proof.drawMat Z)) *
      (u⁻¹ • Proof.rpinv (firstRows ht (Vᵀ * Proof.drawMat Z))) = 1 := by
    rw [Matrix.mul_smul Vᵀ]
    have : firstRows ht (u • (Vᵀ * Proof.drawMat Z)) = u • firstRows ht (Vᵀ * Proof.drawMat Z) := rfl
    rw [this]
    simp only [Matrix.smul_mul, Matrix.mul_smul, smul_smul, inv_mul_cancel₀ hu0, one_smul]
    exact hZ
  obtain ⟨W, hW, hWle⟩ := power_weights hV ht hpos τ hτ (p - 1).toNat _ _ hW0
  have hfin := hb nu hnu t (k + over) ht _ hcol W hW
  rw [← hT] at hWle
  have hwe := weights_le hV.nonneg hnu0 T _ _ hWle
  have ebase : Vᵀ * (u • Proof.drawMat Z) * (u⁻¹ • Proof.rpinv (firstRows ht (Vᵀ * Proof.drawMat Z))) =
      Vᵀ * Proof.drawMat Z * Proof.rpinv (firstRows ht (Vᵀ * Proof.drawMat Z)) := by
    simp only [Matrix.smul_mul, Matrix.mul_smul, smul_smul, inv_mul_cancel₀ hu0, one_smul]
  rw [ebase, ← Proof.froSq_diag_mul, ← Proof.froSq_diag_mul] at hwe
  have hq : nu ≤ nu0 := by
    by_cases h1 : p = 1
    · refine le_trans (le_of_eq ?_) (hq1 h1)
      rw [hnu, hzero (by omega)]
      change _ * fro (A * (u • Proof.drawMat Z)) = _
      rw [Matrix.mul_smul, fro_smul_le, ← hu3, Real.sqrt_mul (sq_nonneg _), Real.sqrt_sq_eq_abs, fro]
    · refine le_trans ?_ hq2
      rw [hnu]
      refine mul_le_mul_of_nonneg_left ?_ he
      have hS0 := horth (by omega)
      unfold fro
      refine Real.sqrt_le_sqrt ?_
      rw [← froSq_transpose, transpose_mul]
      exact (Proof.froSq_orth_transpose_mul_le hS0 _).trans (le_of_eq (froSq_transpose _))
  have htl : ∀ j : ℕ, 0 ≤ tailSum (fun _ : Fin n => (1 : ℝ)) j := by
    intro j
    refine Finset.sum_nonneg fun i _ => ?_
    unfold tail
    split <;> norm_num
  have hh0 : 0 ≤ tailSum (fun _ : Fin n => (1 : ℝ)) k + (tailSum (fun _ : Fin n => (1 : ℝ)) t +
    T * sketchBound (fun _ : Fin n => (1 : ℝ)) t (k + over) ht V Z) + √n := by
    have h3 := mul_nonneg hT0 (show 0 ≤ sketchBound (fun _ : Fin n => (1 : ℝ)) t (k + over) ht V Z from froSq_nonneg _)
    have h4 := Real.sqrt_nonneg (n : ℝ)
    linarith [htl k, htl t]
  have hmul := mul_le_mul_of_nonneg_right hq hh0
  have hts : tailSum (fun i => lam i + nu) out.r =
      tailSum lam k + nu * tailSum (fun _ : Fin n => (1 : ℝ)) k := by rw [hrk, tailSum_shift]
  rw [hts] at hfin
  change _ ≤ (_ + T * sketchBound (fun i => √(lam i)) t (k + over) ht V Z) +
    nu * (_ + T * sketchBound (fun _ : Fin n => (1 : ℝ)) t (k + over) ht V Z) at hwe
  rw [sketchBound_shift hV.nonneg (hnu0.trans hq), tailSum_shift, tailSum_shift]
  linarith

/-- **C78** for `evd2(A, k, over, p, rng)` on a positive semidefinite `A` with eigenvalues `λ`, of rank at least `k`.
With `k + over` columns in the sketch, outside a set of arrays of probability at most
`4 * 9^t exp(-(k + over) ε² / 32)`, every run returns `k` components and its error is at most
`∑_{i>k} (λ_i + ν) + (1 + τ^(2(p-1)) (1 + ε/2) / (1 - ε)) ∑_{i>t} (λ_i + ν) + ν sqrt(n)`, where
`ν = sqrt(n (1 + ε/2)) eps ‖A‖_F` bounds the regularisation added by the function. -/
theorem C78_evd2 (A : Matrix (Fin n) (Fin n) ℝ) (hA : IsPSD A) {V : Matrix (Fin n) (Fin n) ℝ}
    {lam : Fin n → ℝ} (hV : IsSVD A V lam V) (k over : ℕ) (hk : 0 < k) (hk' : k < n) (ho : k + over ≤ n)
    (hr : k ≤ A.rank) (t : ℕ) (ht : t ≤ n) (htr : t ≤ A.rank) (τ : ℝ)
    (hτ : ∀ (i : Fin n) (j : Fin t), t ≤ i.1 → lam i ≤ τ * lam (Fin.castLE ht j)) (p : ℤ) (hp : 1 ≤ p)
    (ε : ℝ) (h0 : 0 ≤ ε) (h1 : ε < 1) (ν : ℝ) (hν : ν = √(n * (1 + ε / 2)) * eps * fro A) :
    ∃ E : Set (Fin n × Fin (k + over) → ℝ),
      normals n (k + over) E ≤ ENNReal.ofReal (4 * 9 ^ t * Real.exp (-(((k + over : ℕ) : ℝ) * ε ^ 2 / 32))) ∧
      ∀ Z ∉ E, ∀ (G : Type) (la : LinAlg) (R : NpRng G) (w : World G), NextNormal R w n (k + over) Z →
        ∃ out w', evd2 la (gaussianOperator R true) A k over p w = .ok (out, w') ∧ out.r = k ∧ OrthoCols out.V ∧
          √(tailSq lam k) ≤ fro (A - out.V * diagonal out.lamb * out.Vᵀ) ∧
          fro (A - out.V * diagonal out.lamb * out.Vᵀ) ≤
            tailSum lam k + ((n : ℝ) - k) * ν +
            (tailSum lam t + ((n : ℝ) - t) * ν) * (1 + τ ^ (2 * (p - 1).toNat) * ((1 + ε / 2) / (1 - ε))) +
            ν * √n := by
  obtain ⟨l, hl⟩ : ∃ l, l = k + over := ⟨_, rfl⟩
  have hl0 : 0 < l := by omega
  have hlR : (0 : ℝ) < l := Nat.cast_pos.2 hl0
  have hν0 : 0 ≤ ν := by
    have := fro_nonneg A
    rw [hν]; unfold eps; positivity
  have hT0 : 0 ≤ τ ^ (2 * (p - 1).toNat) := by rw [pow_mul]; positivity
  have hln : ∀ i, 0 ≤ lam i + ν := fun i => by linarith [hV.nonneg i]
  have ht1 := tame_probability (fun i => √(lam i + ν)) t l ht hl0 hV.left h0 h1.le
  have hadd := (Proof.real_preimage_le (Proof.gauss_map_rows (k := l) hV.left) _).trans
    (Proof.chiSq_mix (k := l) lam (η := ε / 2) (by linarith) (by linarith))
  obtain ⟨E2, hE2⟩ : ∃ E2 : Set (Fin n × Fin l → ℝ), E2 =
    (fun Z => Proof.entries (Vᵀ * Proof.drawMat Z)) ⁻¹'
        {H | ¬ froSq (diagonal lam * Proof.drawMat H) ≤ (1 + ε / 2) * l * ∑ i, lam i ^ 2} := ⟨_, rfl⟩
  rw [← hE2] at hadd
  have hadd' : normals n l E2 ≤ ENNReal.ofReal (Real.exp (-((l : ℝ) * ε ^ 2 / 32))) := by
    refine ENNReal.le_ofReal_iff_toReal_le (measure_ne_top _ _) (Real.exp_pos _).le |>.2 (hadd.trans (le_of_eq ?_))
    congr 1; ring
  have hae2 := C59_evd2 A hA (by rintro rfl; rw [rank_zero] at hr; omega) k hk hk' over ho p hp
  rw [show startRows (p - 1) n n = n by unfold startRows; split <;> rfl] at hae2
  rw [← hl] at hae2
  have hun := (measure_union_le (μ := normals n l) _ _).trans (add_le_add ht1 hadd')
  obtain ⟨E, hE, hEs⟩ := except_ae hun hae2
  rw [← hl]
  refine ⟨E, hE.trans ?_, fun Z hZ G la R w hw => ?_⟩
  · rw [← ENNReal.ofReal_add (by unfold sketchRisk; positivity) (Real.exp_pos _).le]
    refine ENNReal.ofReal_le_ofReal ?_
    unfold sketchRisk
    have h9 : (1 : ℝ) ≤ 9 ^ t := one_le_pow₀ (by norm_num)
    nlinarith [Real.exp_pos (-((l : ℝ) * ε ^ 2 / 32))]
  · obtain ⟨z1, z2⟩ := hEs Z hZ
    rw [Set.mem_union, not_or] at z1
    obtain ⟨c1, c2⟩ := z1
    obtain ⟨t1, t2, -⟩ := tame_bound hl0 h1 (not_not.1 c1)
    rw [hE2] at c2
    have c3 := not_not.1 c2
    obtain ⟨out, w', e1, e2, -⟩ := z2 G la R w hw
    have hrk := e2 hr
    have hfroA : fro A ^ 2 = ∑ i, lam i ^ 2 := by
      have := Proof.svd_froSq hV
      rw [fro_sq, this]
    have hZA : froSq (A * Proof.drawMat Z) ≤ (1 + ε / 2) * l * fro A ^ 2 := by
      rw [hfroA]
      rw [Proof.drawMat_entries] at c3
      refine le_trans (le_of_eq ?_) c3
      conv_lhs => rw [hV.eq]
      rw [Matrix.mul_assoc, Matrix.mul_assoc, froSq_orth_mul hV.left]
    have hsn : √(n * (1 + ε / 2)) = √n * √(1 + ε / 2) := Real.sqrt_mul (by positivity) _
    have he : (0 : ℝ) ≤ √n * eps := by unfold eps; positivity
    have hq1 : √n * eps * √((1 / (l : ℝ)) * froSq (A * Proof.drawMat Z)) ≤ ν := by
      rw [hν, hsn, mul_right_comm (√n) (√(1 + ε / 2)), mul_assoc (√n * eps)]
      refine mul_le_mul_of_nonneg_left ?_ he
      have : (1 / (l : ℝ)) * froSq (A * Proof.drawMat Z) ≤ (1 + ε / 2) * fro A ^ 2 := by
        rw [one_div, inv_mul_le_iff₀ hlR]; linarith
      refine (Real.sqrt_le_sqrt this).trans (le_of_eq ?_)
      rw [Real.sqrt_mul (by linarith), Real.sqrt_sq (fro_nonneg _)]
    have hq2 : √n * eps * fro A ≤ ν := by
      rw [hν, hsn, mul_right_comm (√n) (√(1 + ε / 2)), mul_assoc (√n * eps)]
      refine mul_le_mul_of_nonneg_left ?_ he
      have : 1 ≤ √(1 + ε / 2) := Real.one_le_sqrt.2 (by linarith)
      nlinarith [fro_nonneg A]
    subst hl
    obtain ⟨b1, b2, b3⟩ := evd2_pointwise A hA hV k over hk ho t ht htr τ hτ p hp t1 (fun _ => hq1) hq2 la R w w' hw
      e1 hrk
    refine ⟨out, w', e1, hrk, b1, b2, b3.trans ?_⟩
    rw [tailSq_sqrt hln, tailSum_shift, tailSum_ones t ht] at t2
    rw [tailSum_shift, tailSum_shift, tailSum_ones k hk'.le, tailSum_ones t ht]
    have := mul_le_mul_of_nonneg_left t2 hT0
    change _ ≤ _ * (_ * ((1 + ε / 2) / (1 - ε))) at this
    linarith

/-- the hypotheses of `C78_evd2` for `diag(100, 1, ..., 1)` of order 400, `k = 250`, `over = 50`: the exceptional draws
have probability less than 1/2 -/
example : IsPSD (diagonal demoTailS) ∧ 250 ≤ (diagonal demoTailS).rank ∧ 250 + 50 ≤ 400 ∧
    (∀ (i : Fin 400) (j : Fin 1), 1 ≤ i.1 → demoTailS i ≤ 1 / 100 * demoTailS (Fin.castLE (by omega) j)) ∧
    4 * 9 ^ 1 * Real.exp (-(((250 + 50 : ℕ) : ℝ) * (3 / 4) ^ 2 / 32)) < 1 / 2 := by
  have hp : ∀ i, 0 < demoTailS i := by intro i; unfold demoTailS; split <;> norm_num
  refine ⟨⟨diagonal_transpose _, fun x => ?_⟩, ?_, by omega, ?_, ?_⟩
  · refine Finset.sum_nonneg fun i _ => ?_
    rw [mulVec_diagonal]
    nlinarith [hp i, mul_self_nonneg (x i)]
  · rw [rank_diagonal]
    have : Fintype.card {i // demoTailS i ≠ 0} = 400 := by
      rw [Fintype.card_subtype, Finset.filter_true_of_mem fun i _ => (hp i).ne']
      simp
    omega
  · intro i j h
    unfold demoTailS
    have hj : (Fin.castLE (by omega : 1 ≤ 400) j).1 = 0 := by simp
    rw [if_neg (by omega), if_pos hj]
    norm_num
  · have h1 : Real.exp (-(((250 + 50 : ℕ) : ℝ) * (3 / 4) ^ 2 / 32)) ≤ Real.exp (-5) :=
      Real.exp_le_exp.2 (by norm_num)
    have h2 : Real.exp (-5) < 1 / 72 := by
      rw [Real.exp_neg, ← one_div]
      refine one_div_lt_one_div_of_lt (by norm_num) ?_
      have h3 : (2.7 : ℝ) ≤ Real.exp 1 := by have := Real.exp_one_gt_d9; linarith
      have h4 : Real.exp 5 = Real.exp 1 ^ 5 := by rw [← Real.exp_nat_mul]; norm_num
      rw [h4]
      refine lt_of_lt_of_le ?_ (pow_le_pow_left₀ (by norm_num) h3 5)
      norm_num
    linarith

end Parla.Props
