import Verif.Proof.Chaos
import Verif.Proof.Mat
import Verif.Props.SJLTExpect

/-! # Second moments of matrices with independent random sparse signs -/

namespace Parla.Proof

open MeasureTheory Matrix Parla Spec Props

variable {d m : ℕ}

/-- the sign of `sparse_sign_operator` for a uniform number -/
noncomputable def spSign (t : ℝ) : ℝ := if t < 1 / 2 then -1 else 1

/-- the indicator of a nonzero -/
noncomputable def spXi (q t : ℝ) : ℝ := if t < q then 1 else 0

theorem measurable_spXi (q : ℝ) : Measurable (spXi q) := by
  unfold spXi
  exact Measurable.ite measurableSet_Iio measurable_const measurable_const

theorem spXi_sq (q t : ℝ) : spXi q t * spXi q t = spXi q t := by unfold spXi; split <;> norm_num

theorem spXi_norm (q t : ℝ) : ‖spXi q t‖ ≤ 1 := by unfold spXi; split <;> norm_num

theorem spXi_nonneg (q t : ℝ) : 0 ≤ spXi q t := by unfold spXi; split <;> norm_num

theorem integrable_spXi (q : ℝ) : Integrable (spXi q) unif01 :=
  Integrable.of_bound (measurable_spXi q).aestronglyMeasurable 1 (Filter.Eventually.of_forall (spXi_norm q))

theorem unif01_lt {q : ℝ} (h0 : 0 ≤ q) (h1 : q ≤ 1) : unif01 (Set.Iio q) = ENNReal.ofReal q := by
  unfold unif01
  rw [Measure.restrict_apply measurableSet_Iio]
  have : Set.Iio q ∩ Set.Ico 0 1 = Set.Ico 0 q := by
    ext x
    simp only [Set.mem_inter_iff, Set.mem_Iio, Set.mem_Ico]
    constructor
    · rintro ⟨a, b, -⟩; exact ⟨b, a⟩
    · rintro ⟨a, b⟩; exact ⟨b, a, by linarith⟩
  rw [this, Real.volume_Ico, sub_zero]

theorem integral_spXi {q : ℝ} (h0 : 0 ≤ q) (h1 : q ≤ 1) : ∫ t, spXi q t ∂unif01 = q := by
  have e : spXi q = Set.indicator (Set.Iio q) 1 := by
    funext t
    unfold spXi
    by_cases h : t < q
    · rw [if_pos h, Set.indicator_of_mem (show t ∈ Set.Iio q from h)]; rfl
    · rw [if_neg h, Set.indicator_of_notMem (show t ∉ Set.Iio q from h)]
  rw [e, integral_indicator_one measurableSet_Iio, Measure.real, unif01_lt h0 h1, ENNReal.toReal_ofReal h0]

theorem spSign_isSign : IsSign spSign unif01 := by
  have e : spSign = fun t => 1 - 2 * spXi (1 / 2) t := by
    funext t
    unfold spSign spXi
    split <;> norm_num
  refine ⟨?_, fun t => ?_, ?_⟩
  · rw [e]; exact measurable_const.sub ((measurable_spXi _).const_mul 2)
  · unfold spSign; split <;> norm_num
  · rw [e, integral_sub (integrable_const _) ((integrable_spXi _).const_mul 2), integral_const_mul,
      integral_spXi (by norm_num) (by norm_num)]
    simp

variable {ι : Type} [Fintype ι] [DecidableEq ι]

theorem spXi_centred {q : ℝ} (h0 : 0 ≤ q) (h1 : q ≤ 1) :
    Integrable (fun t => spXi q t - q) unif01 ∧ Integrable (fun t => (spXi q t - q) * (spXi q t - q)) unif01 ∧
    ∫ t, (spXi q t - q) ∂unif01 = 0 ∧ ∫ t, (spXi q t - q) * (spXi q t - q) ∂unif01 = q * (1 - q) := by
  have i1 := integrable_spXi q
  have e : (fun t => (spXi q t - q) * (spXi q t - q)) = fun t => (1 - 2 * q) * spXi q t + q ^ 2 := by
    funext t
    linear_combination spXi_sq q t
  refine ⟨i1.sub (integrable_const _), ?_, ?_, ?_⟩
  · rw [e]; exact (i1.const_mul _).add (integrable_const _)
  · rw [integral_sub i1 (integrable_const _), integral_spXi h0 h1]; simp
  · rw [e, integral_add (i1.const_mul _) (integrable_const _), integral_const_mul, integral_spXi h0 h1]
    simp
    ring

theorem spXi_one {q : ℝ} (h0 : 0 ≤ q) (h1 : q ≤ 1) (p : ι) :
    Integrable (fun x : ι → ℝ => spXi q (x p)) (indep ι unif01) ∧ ∫ x, spXi q (x p) ∂(indep ι unif01) = q := by
  have hm := measurePreserving_eval (fun _ : ι => unif01) p
  constructor
  · exact Integrable.of_bound ((measurable_spXi q).comp (measurable_pi_apply p)).aestronglyMeasurable 1
      (Filter.Eventually.of_forall fun x => spXi_norm q _)
  · have := integral_map (μ := indep ι unif01) (φ := Function.eval p) (f := spXi q)
      (measurable_pi_apply p).aemeasurable (measurable_spXi q).aestronglyMeasurable
    rw [show (indep ι unif01).map (Function.eval p) = unif01 from hm.map_eq, integral_spXi h0 h1] at this
    exact this.symm

theorem spXi_two {q : ℝ} (h0 : 0 ≤ q) (h1 : q ≤ 1) {p p' : ι} (h : p ≠ p') :
    Integrable (fun x : ι → ℝ => spXi q (x p) * spXi q (x p')) (indep ι unif01) ∧
    ∫ x, spXi q (x p) * spXi q (x p') ∂(indep ι unif01) = q ^ 2 := by
  obtain ⟨c1, c2, c3, c4⟩ := spXi_centred h0 h1
  obtain ⟨g1, g2⟩ := indep_pair c1 c2 c3 c4 p p'
  rw [if_neg h] at g2
  have e : (fun x : ι → ℝ => spXi q (x p) * spXi q (x p')) = fun x =>
      ((spXi q (x p) - q) * (spXi q (x p') - q) + q * spXi q (x p)) + (q * spXi q (x p') - q ^ 2) := by
    funext x; ring
  obtain ⟨a1, a2⟩ := spXi_one (ι := ι) h0 h1 p
  obtain ⟨b1, b2⟩ := spXi_one (ι := ι) h0 h1 p'
  have j1 := g1.add (a1.const_mul q)
  have j2 := (b1.const_mul q).sub (integrable_const (q ^ 2))
  rw [e]
  refine ⟨j1.add j2, ?_⟩
  have k1 := integral_add g1 (a1.const_mul q)
  have k2 := integral_sub (b1.const_mul q) (integrable_const (μ := indep ι unif01) (q ^ 2))
  refine (integral_add j1 j2).trans ((congrArg₂ (· + ·) k1 k2).trans ?_)
  rw [integral_const_mul, integral_const_mul, g2, a2, b2]
  simp
  ring

/-- a centred linear form in the indicators -/
theorem spXi_linear_sq {q : ℝ} (h0 : 0 ≤ q) (h1 : q ≤ 1) (a : ι → ℝ) :
    Integrable (fun x : ι → ℝ => (∑ p, a p * (spXi q (x p) - q)) ^ 2) (indep ι unif01) ∧
    ∫ x, (∑ p, a p * (spXi q (x p) - q)) ^ 2 ∂(indep ι unif01) = q * (1 - q) * ∑ p, a p ^ 2 := by
  obtain ⟨c1, c2, c3, c4⟩ := spXi_centred h0 h1
  have hp := fun p p' : ι => indep_pair c1 c2 c3 c4 p p'
  have e : ∀ x : ι → ℝ, (∑ p, a p * (spXi q (x p) - q)) ^ 2 =
      ∑ p, ∑ p', a p * a p' * ((spXi q (x p) - q) * (spXi q (x p') - q)) := fun x => by
    rw [sq, Finset.sum_mul_sum]
    exact Finset.sum_congr rfl fun p _ => Finset.sum_congr rfl fun p' _ => by ring
  simp only [e]
  have i2 := fun p p' => (hp p p').1.const_mul (a p * a p')
  have i1 := fun p => integrable_finsetSum (μ := indep ι unif01) Finset.univ fun p' _ => i2 p p'
  refine ⟨integrable_finsetSum _ fun p _ => i1 p, ?_⟩
  rw [integral_finsetSum _ fun p _ => i1 p, Finset.mul_sum]
  refine Finset.sum_congr rfl fun p _ => ?_
  rw [integral_finsetSum _ fun p' _ => i2 p p', Finset.sum_eq_single p]
  · rw [integral_const_mul, (hp p p).2, if_pos rfl]; ring
  · intro b _ hb
    rw [integral_const_mul, (hp p b).2, if_neg (Ne.symm hb), mul_zero]
  · intro h; exact absurd (Finset.mem_univ p) h

/-! ### The matrix -/

/-- the matrix with entries `ξ σ / sqrt(d q)` -/
noncomputable def spMat (q : ℝ) (u v : Fin d × Fin m → ℝ) : Matrix (Fin d) (Fin m) ℝ :=
  Matrix.of fun i j => spXi q (u (i, j)) * spSign (v (i, j)) / √(d * q)

/-- coefficients of the off-diagonal part of `x'(S'S)y` -/
noncomputable def spCoef (q : ℝ) (u : Fin d × Fin m → ℝ) (x y : Fin m → ℝ) (p p' : Fin d × Fin m) : ℝ :=
  if p.1 = p'.1 ∧ p ≠ p' then spXi q (u p) * spXi q (u p') * (x p.2 * y p'.2) / (d * q) else 0

theorem sp_form {q : ℝ} (hq : 0 < q) (hd : 0 < d) (u v : Fin d × Fin m → ℝ) (x y : Fin m → ℝ) :
    (spMat q u v *ᵥ x) ⬝ᵥ (spMat q u v *ᵥ y) - x ⬝ᵥ y =
      ∑ p : Fin d × Fin m, x p.2 * y p.2 / (d * q) * (spXi q (u p) - q) + chaos spSign (spCoef q u x y) v := by
  have hdq : (0 : ℝ) < d * q := mul_pos (Nat.cast_pos.2 hd) hq
  have hs : √((d : ℝ) * q) * √(d * q) = d * q := Real.mul_self_sqrt hdq.le
  have e1 : (spMat q u v *ᵥ x) ⬝ᵥ (spMat q u v *ᵥ y) = ∑ i, ∑ j, ∑ k,
      spXi q (u (i, j)) * spXi q (u (i, k)) * (x j * y k) / (d * q) * (spSign (v (i, j)) * spSign (v (i, k))) := by
    simp only [dotProduct, mulVec, Finset.sum_mul_sum]
    refine Finset.sum_congr rfl fun i _ => Finset.sum_congr rfl fun j _ => Finset.sum_congr rfl fun k _ => ?_
    simp only [spMat, of_apply]
    have hne : √((d : ℝ) * q) ≠ 0 := (Real.sqrt_pos.2 hdq).ne'
    have hi : (√((d : ℝ) * q))⁻¹ * (√(d * q))⁻¹ = ((d : ℝ) * q)⁻¹ := by rw [← mul_inv, hs]
    simp only [div_eq_mul_inv]
    rw [← hi]
    ring
  have e2 : x ⬝ᵥ y = ∑ p : Fin d × Fin m, x p.2 * y p.2 / (d * q) * q := by
    rw [Fintype.sum_prod_type]
    simp only [Finset.sum_const, Finset.card_univ, Fintype.card_fin, nsmul_eq_mul, dotProduct, Finset.mul_sum]
    refine Finset.sum_congr rfl fun j _ => ?_
    have : (d : ℝ) ≠ 0 := (Nat.cast_pos.2 hd).ne'
    field_simp
  have e3 : ∀ i : Fin d, ∀ j : Fin m, ∑ k, spXi q (u (i, j)) * spXi q (u (i, k)) * (x j * y k) / (d * q) *
      (spSign (v (i, j)) * spSign (v (i, k))) = x j * y j / (d * q) * spXi q (u (i, j)) +
      ∑ p', spCoef q u x y (i, j) p' * (spSign (v (i, j)) * spSign (v p')) := by
    intro i j
    rw [Fintype.sum_prod_type, Finset.sum_eq_single i]
    · rw [← Finset.add_sum_erase _ _ (Finset.mem_univ j), ← Finset.add_sum_erase _ (fun k => spCoef q u x y (i, j) (i, k) *
        (spSign (v (i, j)) * spSign (v (i, k)))) (Finset.mem_univ j)]
      have : spCoef q u x y (i, j) (i, j) = 0 := by unfold spCoef; rw [if_neg (fun h => h.2 rfl)]
      rw [this, zero_mul, zero_add]
      congr 1
      · linear_combination (x j * y j / (d * q)) * (spXi q (u (i, j)) * spXi q (u (i, j)) * spSign_isSign.sq (v (i, j)) +
          spXi_sq q (u (i, j)))
      · refine Finset.sum_congr rfl fun k hk => ?_
        unfold spCoef
        rw [if_pos ⟨rfl, fun h => (Finset.ne_of_mem_erase hk) (congrArg Prod.snd h).symm⟩]
    · intro b _ hb
      refine Finset.sum_eq_zero fun k _ => ?_
      unfold spCoef
      rw [if_neg (fun h => hb h.1.symm), zero_mul]
    · intro h; exact absurd (Finset.mem_univ i) h
  rw [e1, e2]
  unfold chaos
  simp only [e3, Fintype.sum_prod_type (f := fun p : Fin d × Fin m => ∑ p', spCoef q u x y p p' * (spSign (v p) * spSign (v p'))),
    Finset.sum_add_distrib, mul_sub, Finset.sum_sub_distrib]
  rw [Fintype.sum_prod_type (f := fun p : Fin d × Fin m => x p.2 * y p.2 / (d * q) * spXi q (u p))]
  ring

/-- the second moment over the signs -/
noncomputable def spInner (q : ℝ) (u : Fin d × Fin m → ℝ) (x y : Fin m → ℝ) : ℝ :=
  (∑ p : Fin d × Fin m, x p.2 * y p.2 / (d * q) * (spXi q (u p) - q)) ^ 2 +
    ∑ p, ∑ p', spCoef q u x y p p' * (spCoef q u x y p p' + spCoef q u x y p' p)

theorem sp_second {q : ℝ} (hq : 0 < q) (hd : 0 < d) (u : Fin d × Fin m → ℝ) (x y : Fin m → ℝ) :
    Integrable (fun v => ((spMat q u v *ᵥ x) ⬝ᵥ (spMat q u v *ᵥ y) - x ⬝ᵥ y) ^ 2) (indep _ unif01) ∧
    ∫ v, ((spMat q u v *ᵥ x) ⬝ᵥ (spMat q u v *ᵥ y) - x ⬝ᵥ y) ^ 2 ∂(indep (Fin d × Fin m) unif01) =
      spInner q u x y := by
  simp only [sp_form hq hd]
  obtain ⟨D, hD⟩ : ∃ D, D = ∑ p : Fin d × Fin m, x p.2 * y p.2 / (d * q) * (spXi q (u p) - q) := ⟨_, rfl⟩
  have h0 : ∀ p, spCoef q u x y p p = 0 := fun p => by unfold spCoef; rw [if_neg (fun h => h.2 rfl)]
  obtain ⟨c1, c2⟩ := spSign_isSign.chaos_mean (spCoef q u x y) h0
  obtain ⟨s1, s2⟩ := spSign_isSign.chaos_sq (spCoef q u x y) h0
  rw [← hD]
  have e : ∀ v, (D + chaos spSign (spCoef q u x y) v) ^ 2 =
      D ^ 2 + 2 * D * chaos spSign (spCoef q u x y) v + chaos spSign (spCoef q u x y) v ^ 2 := fun v => by ring
  simp only [e]
  have j1 := (integrable_const (μ := indep (Fin d × Fin m) unif01) (D ^ 2)).add (c1.const_mul (2 * D))
  refine ⟨j1.add s1, ?_⟩
  have k1 := integral_add (integrable_const (μ := indep (Fin d × Fin m) unif01) (D ^ 2)) (c1.const_mul (2 * D))
  refine (integral_add j1 s1).trans ((congrArg (· + _) k1).trans ?_)
  rw [integral_const_mul, c2, s2]
  unfold spInner
  rw [← hD]
  simp

/-- ... and over the positions -/
theorem sp_second_mean {q : ℝ} (hq : 0 < q) (h1 : q ≤ 1) (hd : 0 < d) (x y : Fin m → ℝ) :
    Integrable (fun u : Fin d × Fin m → ℝ => spInner q u x y) (indep _ unif01) ∧
    ∫ u, spInner q u x y ∂(indep (Fin d × Fin m) unif01) ≤
      (sqNorm x * sqNorm y + (x ⬝ᵥ y) ^ 2) / d + (1 - q) / (d * q) * ∑ j, (x j * y j) ^ 2 := by
  have hdR : (0 : ℝ) < d := Nat.cast_pos.2 hd
  obtain ⟨a1, a2⟩ := spXi_linear_sq (ι := Fin d × Fin m) hq.le h1 (fun p => x p.2 * y p.2 / (d * q))
  have e : ∀ (u : Fin d × Fin m → ℝ) p p', spCoef q u x y p p' * (spCoef q u x y p p' + spCoef q u x y p' p) =
      (if p.1 = p'.1 ∧ p ≠ p' then (x p.2 ^ 2 * y p'.2 ^ 2 + x p.2 * y p.2 * (x p'.2 * y p'.2)) / (d * q) ^ 2 else 0) *
        (spXi q (u p) * spXi q (u p')) := by
    intro u p p'
    unfold spCoef
    by_cases h : p.1 = p'.1 ∧ p ≠ p'
    · rw [if_pos h, if_pos h, if_pos ⟨h.1.symm, h.2.symm⟩]
      have g1 := spXi_sq q (u p)
      have g2 := spXi_sq q (u p')
      field_simp
      have : (spXi q (u p) * spXi q (u p')) ^ 2 = spXi q (u p) * spXi q (u p') := by
        rw [mul_pow, sq, sq, g1, g2]
      linear_combination (x p.2 * y p'.2) * (x p.2 * y p'.2 + x p'.2 * y p.2) * this
    · rw [if_neg h, if_neg h, if_neg (fun h' => h ⟨h'.1.symm, h'.2.symm⟩)]; ring
  have i2 : ∀ p p' : Fin d × Fin m, Integrable (fun u : Fin d × Fin m → ℝ =>
      spCoef q u x y p p' * (spCoef q u x y p p' + spCoef q u x y p' p)) (indep _ unif01) ∧
      ∫ u, spCoef q u x y p p' * (spCoef q u x y p p' + spCoef q u x y p' p) ∂(indep (Fin d × Fin m) unif01) =
        if p.1 = p'.1 ∧ p ≠ p' then (x p.2 ^ 2 * y p'.2 ^ 2 + x p.2 * y p.2 * (x p'.2 * y p'.2)) / (d : ℝ) ^ 2 else 0 := by
    intro p p'
    simp only [e]
    by_cases h : p.1 = p'.1 ∧ p ≠ p'
    · simp only [if_pos h]
      obtain ⟨b1, b2⟩ := spXi_two (ι := Fin d × Fin m) hq.le h1 h.2
      refine ⟨b1.const_mul _, ?_⟩
      rw [integral_const_mul, b2]
      field_simp
    · simp only [if_neg h, zero_mul]
      simp
  have i1 := fun p => integrable_finsetSum (μ := indep (Fin d × Fin m) unif01) Finset.univ fun p' _ => (i2 p p').1
  have i0 := integrable_finsetSum (μ := indep (Fin d × Fin m) unif01) Finset.univ fun p _ => i1 p
  unfold spInner
  refine ⟨a1.add i0, ?_⟩
  rw [integral_add a1 i0, a2, integral_finsetSum _ fun p _ => i1 p, add_comm]
  simp only [fun p => integral_finsetSum Finset.univ fun p' (_ : p' ∈ Finset.univ) => (i2 p p').1, (i2 _ _).2]
  refine add_le_add ?_ (le_of_eq ?_)
  · have hrow : ∀ p : Fin d × Fin m, ∑ p' : Fin d × Fin m, (if p.1 = p'.1 ∧ p ≠ p' then
        (x p.2 ^ 2 * y p'.2 ^ 2 + x p.2 * y p.2 * (x p'.2 * y p'.2)) / (d : ℝ) ^ 2 else 0) ≤
        ∑ k : Fin m, (x p.2 ^ 2 * y k ^ 2 + x p.2 * y p.2 * (x k * y k)) / (d : ℝ) ^ 2 := by
      intro p
      rw [Fintype.sum_prod_type, Finset.sum_eq_single p.1]
      · refine Finset.sum_le_sum fun k _ => ?_
        split
        · exact le_rfl
        · rename_i h
          have hk : p = (p.1, k) := by
            by_contra hc
            exact h ⟨rfl, hc⟩
          have hk2 : k = p.2 := (congrArg Prod.snd hk).symm
          rw [hk2]
          have : x p.2 ^ 2 * y p.2 ^ 2 + x p.2 * y p.2 * (x p.2 * y p.2) = 2 * (x p.2 * y p.2) ^ 2 := by ring
          rw [this]
          positivity
      · intro b _ hb
        exact Finset.sum_eq_zero fun k _ => if_neg fun h => hb h.1.symm
      · intro h; exact absurd (Finset.mem_univ _) h
    refine (Finset.sum_le_sum fun p _ => hrow p).trans (le_of_eq ?_)
    rw [Fintype.sum_prod_type]
    have e1 : ∑ a, ∑ b, x a ^ 2 * y b ^ 2 = sqNorm x * sqNorm y := by
      unfold sqNorm; rw [Finset.sum_mul_sum]
    have e2 : ∑ a, ∑ b, x a * y a * (x b * y b) = (x ⬝ᵥ y) ^ 2 := by
      rw [sq, dotProduct, Finset.sum_mul_sum]
    simp only [Finset.sum_const, Finset.card_univ, Fintype.card_fin, nsmul_eq_mul, ← Finset.sum_div,
      Finset.sum_add_distrib, e1, e2]
    field_simp
  · rw [Fintype.sum_prod_type]
    simp only [Finset.sum_const, Finset.card_univ, Fintype.card_fin, nsmul_eq_mul, div_pow, ← Finset.sum_div]
    field_simp

end Parla.Proof
