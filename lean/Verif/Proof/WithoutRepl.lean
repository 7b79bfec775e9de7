import Verif.Props.SRCT

/-! # The variance of a sum over a sample without replacement -/

namespace Parla.Proof

open Parla.Props

variable {k n : ℕ}

/-- given the value at one position, the values at another are equally likely -/
theorem card_emb_pair (a b : Fin k) (i j j' : Fin n) (hj : j ≠ i) (hj' : j' ≠ i) :
    (Finset.univ.filter fun f : Fin k ↪ Fin n => f a = i ∧ f b = j).card =
      (Finset.univ.filter fun f : Fin k ↪ Fin n => f a = i ∧ f b = j').card := by
  refine Finset.card_bij' (fun r _ => r.trans (Equiv.swap j j').toEmbedding)
    (fun r _ => r.trans (Equiv.swap j j').toEmbedding) ?_ ?_ ?_ ?_
  · intro r hr
    simp only [Finset.mem_filter, Finset.mem_univ, true_and] at hr ⊢
    simp [hr, Equiv.swap_apply_of_ne_of_ne hj.symm hj'.symm]
  · intro r hr
    simp only [Finset.mem_filter, Finset.mem_univ, true_and] at hr ⊢
    simp [hr, Equiv.swap_apply_of_ne_of_ne hj.symm hj'.symm]
  · intro r _
    ext i; simp
  · intro r _
    ext i; simp

/-- centred values at two positions are negatively correlated -/
theorem emb_cov_nonpos {a b : Fin k} (hab : a ≠ b) (s : Fin n → ℝ) (hs : ∑ i, s i = 0) :
    ∑ f : Fin k ↪ Fin n, s (f a) * s (f b) ≤ 0 := by
  classical
  obtain ⟨c, hc⟩ : ∃ c : Fin n → Fin n → ℕ, c = fun i j =>
    (Finset.univ.filter fun f : Fin k ↪ Fin n => f a = i ∧ f b = j).card := ⟨_, rfl⟩
  have h1 : ∑ f : Fin k ↪ Fin n, s (f a) * s (f b) = ∑ i, ∑ j, (c i j : ℝ) * (s i * s j) := by
    rw [← Finset.sum_fiberwise_of_maps_to (s := Finset.univ) (t := Finset.univ)
      (g := fun f : Fin k ↪ Fin n => (f a, f b)) (fun _ _ => Finset.mem_univ _), ← Fintype.sum_prod_type'
      (f := fun i j => (c i j : ℝ) * (s i * s j))]
    refine Finset.sum_congr rfl fun t _ => ?_
    have h : ∀ f ∈ Finset.univ.filter (fun f : Fin k ↪ Fin n => (f a, f b) = t), s (f a) * s (f b) = s t.1 * s t.2 :=
      fun f hf => by rw [← (Finset.mem_filter.1 hf).2]
    rw [Finset.sum_congr rfl h, Finset.sum_const, nsmul_eq_mul, hc]
    simp only [Prod.ext_iff]
  have hcc : ∀ i, c i i = 0 := fun i => by
    rw [hc]
    refine Finset.card_eq_zero.2 (Finset.filter_eq_empty_iff.2 fun f _ h => hab (f.injective (h.1.trans h.2.symm)))
  rw [h1]
  refine Finset.sum_nonpos fun i _ => ?_
  by_cases hx : ∃ j₀, j₀ ≠ i
  · obtain ⟨j₀, hj₀⟩ := hx
    have h2 : ∀ j, (c i j : ℝ) * (s i * s j) = c i j₀ * s i * s j - if j = i then (c i j₀ : ℝ) * s i * s j else 0 := by
      intro j
      by_cases hj : j = i
      · subst hj; rw [hcc]; simp
      · rw [if_neg hj, show c i j = c i j₀ by rw [hc]; exact card_emb_pair a b i j j₀ hj hj₀]; ring
    simp only [h2, Finset.sum_sub_distrib, ← Finset.mul_sum, hs]
    simp only [Finset.sum_ite_eq', Finset.mem_univ, if_true]
    have : 0 ≤ (c i j₀ : ℝ) * (s i * s i) := mul_nonneg (Nat.cast_nonneg _) (mul_self_nonneg _)
    linarith
  · push Not at hx
    refine (Finset.sum_eq_zero fun j _ => ?_).le
    rw [hx j, hcc]; simp

/-- the variance of `(n/k)` times a sum over a sample without replacement -/
theorem emb_variance (hk : 0 < k) (hkn : k ≤ n) (t : Fin n → ℝ) :
    (1 / (Fintype.card (Fin k ↪ Fin n) : ℝ)) * ∑ f : Fin k ↪ Fin n, ((n : ℝ) / k * ∑ a, t (f a) - ∑ i, t i) ^ 2 ≤
      (n : ℝ) / k * ∑ i, t i ^ 2 := by
  have hn : (0 : ℝ) < n := by exact_mod_cast (show 0 < n by omega)
  have hk' : (0 : ℝ) < k := by exact_mod_cast hk
  have hc : (0 : ℝ) < Fintype.card (Fin k ↪ Fin n) := by
    exact_mod_cast Fintype.card_pos_iff.2 ⟨Fin.castLEEmb hkn⟩
  obtain ⟨T, hT⟩ : ∃ T, T = ∑ i, t i := ⟨_, rfl⟩
  obtain ⟨s, hs⟩ : ∃ s : Fin n → ℝ, s = fun i => t i - T / n := ⟨_, rfl⟩
  have hs0 : ∑ i, s i = 0 := by
    rw [hs, Finset.sum_sub_distrib, ← hT]
    simp
    field_simp
    simp
  have h1 : ∀ f : Fin k ↪ Fin n, (n : ℝ) / k * ∑ a, t (f a) - T = (n : ℝ) / k * ∑ a, s (f a) := fun f => by
    rw [hs, Finset.sum_sub_distrib]
    simp
    field_simp
  have h2 : ∑ f : Fin k ↪ Fin n, (∑ a, s (f a)) ^ 2 ≤ ∑ f : Fin k ↪ Fin n, ∑ a, s (f a) ^ 2 := by
    have e : ∀ f : Fin k ↪ Fin n, (∑ a, s (f a)) ^ 2 = ∑ a, ∑ b, s (f a) * s (f b) := fun f => by
      rw [sq, Finset.sum_mul_sum]
    simp only [e]
    rw [Finset.sum_comm]
    conv_rhs => rw [Finset.sum_comm]
    refine Finset.sum_le_sum fun a _ => ?_
    rw [Finset.sum_comm]
    rw [← Finset.add_sum_erase _ _ (Finset.mem_univ a)]
    have : ∑ b ∈ Finset.univ.erase a, ∑ f : Fin k ↪ Fin n, s (f a) * s (f b) ≤ 0 :=
      Finset.sum_nonpos fun b hb => emb_cov_nonpos (Finset.ne_of_mem_erase hb).symm s hs0
    have e2 : ∑ f : Fin k ↪ Fin n, s (f a) * s (f a) = ∑ f : Fin k ↪ Fin n, s (f a) ^ 2 :=
      Finset.sum_congr rfl fun f _ => (sq _).symm
    linarith
  have h3 : ∑ f : Fin k ↪ Fin n, ∑ a, s (f a) ^ 2 = k * (Fintype.card (Fin k ↪ Fin n) / n * ∑ i, s i ^ 2) := by
    rw [Finset.sum_comm]
    have : ∀ a : Fin k, ∑ f : Fin k ↪ Fin n, s (f a) ^ 2 = Fintype.card (Fin k ↪ Fin n) / n * ∑ i, s i ^ 2 := fun a => by
      have := sum_emb a (fun i => s i ^ 2)
      field_simp
      linarith
    simp [this]
  have h4 : ∑ i, s i ^ 2 ≤ ∑ i, t i ^ 2 := by
    have e : ∀ i, s i ^ 2 = t i ^ 2 - 2 * (T / n) * t i + (T / n) ^ 2 := fun i => by rw [hs]; ring
    simp only [e, Finset.sum_add_distrib, Finset.sum_sub_distrib, ← Finset.mul_sum, ← hT]
    simp
    have : (n : ℝ) * (T / n) ^ 2 = T / n * T := by field_simp
    have h5 : 0 ≤ T / n * T := by rw [div_mul_eq_mul_div]; exact div_nonneg (mul_self_nonneg _) hn.le
    linarith
  rw [← hT]
  simp only [h1, mul_pow, ← Finset.mul_sum]
  rw [h3] at h2
  calc (1 / (Fintype.card (Fin k ↪ Fin n) : ℝ)) * (((n : ℝ) / k) ^ 2 * ∑ f : Fin k ↪ Fin n, (∑ a, s (f a)) ^ 2)
      ≤ (1 / (Fintype.card (Fin k ↪ Fin n) : ℝ)) * (((n : ℝ) / k) ^ 2 *
          (k * (Fintype.card (Fin k ↪ Fin n) / n * ∑ i, s i ^ 2))) :=
        mul_le_mul_of_nonneg_left (mul_le_mul_of_nonneg_left h2 (sq_nonneg _)) (by positivity)
    _ = (n : ℝ) / k * ∑ i, s i ^ 2 := by field_simp
    _ ≤ _ := mul_le_mul_of_nonneg_left h4 (by positivity)

end Parla.Proof
