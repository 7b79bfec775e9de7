import Verif.Model.EVD
import Verif.Proof.SVD
import Mathlib.Tactic.LinearCombination

/-! Helper lemmas for the eigendecomposition drivers. -/

namespace Parla

open Matrix Spec

variable {G : Type} {m n c r : ℕ}

theorem sub_diag {f : Fin r → Fin c} (hf : Function.Injective f) (U : Matrix (Fin m) (Fin c) ℝ)
    (d : Fin c → ℝ) (V : Matrix (Fin c) (Fin n) ℝ) [DecidablePred (· ∈ Set.range f)] :
    U.submatrix id f * diagonal (d ∘ f) * V.submatrix f id =
      U * diagonal (fun i => if i ∈ Set.range f then d i else 0) * V := by
  ext i j
  rw [mul_apply, mul_apply]
  simp only [mul_diagonal, submatrix_apply, id, Function.comp]
  rw [← Finset.sum_image (f := fun l => U i l * d l * V l j) (g := f)
    (s := Finset.univ) (fun a _ b _ e => hf e)]
  symm
  rw [← Finset.sum_subset (Finset.subset_univ (Finset.univ.image f))]
  · refine Finset.sum_congr rfl fun l hl => ?_
    obtain ⟨a, -, rfl⟩ := Finset.mem_image.1 hl
    rw [if_pos ⟨a, rfl⟩]
  · intro l _ hl
    rw [if_neg, mul_zero, zero_mul]
    rintro ⟨a, rfl⟩
    exact hl (Finset.mem_image.2 ⟨a, Finset.mem_univ _, rfl⟩)

/-- Sorting by decreasing magnitude: the first `count` entries are exactly those above the cut. -/
theorem sorted_above {f : Fin c → ℝ} {σ : Equiv.Perm (Fin c)} (hσ : Monotone (fun i => -|f (σ i)|))
    (cut : ℝ) (i : Fin c) (hi : i.1 < countAbove f cut) : cut < |f (σ i)| := by
  classical
  by_contra hle
  have hall : ∀ j, cut < |f (σ j)| → j < i := by
    intro j hj
    by_contra hij
    have := hσ (not_lt.1 hij)
    simp only [neg_le_neg_iff] at this
    linarith [not_lt.1 hle]
  have hsub : (Finset.univ.filter fun i => |f i| > cut) ⊆ (Finset.univ.filter (· < i)).image σ := by
    intro j hj
    rw [Finset.mem_image]
    refine ⟨σ.symm j, ?_, by simp⟩
    simp only [Finset.mem_filter, Finset.mem_univ, true_and] at hj ⊢
    exact hall _ (by simpa using hj)
  have h1 := Finset.card_le_card hsub
  have h2 : ((Finset.univ.filter (· < i)).image σ).card ≤ i.1 := by
    refine Finset.card_image_le.trans ?_
    rw [prefix_card (r := i.1) i.2.le _ (fun j => by rw [Finset.mem_filter]; exact ⟨fun h => h.2, fun h => ⟨Finset.mem_univ _, h⟩⟩)]
  unfold countAbove at hi
  have h3 : (Finset.univ.filter fun i => |f i| > cut).card ≤ i.1 := h1.trans h2
  omega

theorem lower_prefix {p : Fin c → Prop} (hp : ∀ i j, i ≤ j → p j → p i) :
    ∃ r ≤ c, ∀ i : Fin c, p i ↔ i.1 < r := by
  classical
  obtain ⟨r, hr, h⟩ := antitone_prefix (s := fun i => if p i then (1 : ℝ) else 0)
    (fun i j hij => by
      by_cases hj : p j
      · simp [hj, hp i j hij hj]
      · simp only [hj, if_false]; split_ifs <;> norm_num) 1
  refine ⟨r, hr, fun i => ?_⟩
  rw [← h i]
  by_cases hi : p i <;> simp [hi]

theorem froSq_UdUt {U : Matrix (Fin m) (Fin c) ℝ} (hU : Uᵀ * U = 1) (d : Fin c → ℝ) :
    froSq (U * diagonal d * Uᵀ) = ∑ i, d i ^ 2 :=
  froSq_UsV hU (by simpa using hU) d

theorem quad_diag (W : Matrix (Fin n) (Fin r) ℝ) (d : Fin r → ℝ) (x : Fin n → ℝ) :
    x ⬝ᵥ ((W * diagonal d * Wᵀ) *ᵥ x) = ∑ i, d i * (Wᵀ *ᵥ x) i ^ 2 := by
  rw [← mulVec_mulVec, ← mulVec_mulVec, dot_mulVec]
  simp only [dotProduct]
  refine Finset.sum_congr rfl fun i _ => ?_
  rw [mulVec_diagonal]; ring

end Parla
