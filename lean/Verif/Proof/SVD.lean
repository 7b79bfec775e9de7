import Verif.Model.SVD
import Verif.Proof.Rank

/-! Truncation of an SVD (helper lemmas). -/

namespace Parla

open Matrix Spec

variable {G : Type} {m n : ℕ}

/-- the first `r` triplets -/
def SVDOut.pre (t : SVDOut m n) (r : ℕ) (h : r ≤ t.r) : SVDOut m n :=
  ⟨r, t.U.submatrix id (Fin.castLE h), t.s ∘ Fin.castLE h, t.Vh.submatrix (Fin.castLE h) id⟩

theorem SVDOut.take_eq (t : SVDOut m n) (k : ℕ) :
    t.take k = t.pre (min k t.r) (min_le_right _ _) := rfl

theorem orderEmbOfFin_prefix {c r : ℕ} (S : Finset (Fin c)) (hr : r ≤ c)
    (hS : ∀ i, i ∈ S ↔ i.1 < r) (h : S.card = r) (i : Fin r) :
    S.orderEmbOfFin h i = Fin.castLE hr i := by
  have := Finset.orderEmbOfFin_unique h (f := Fin.castLE hr)
    (fun x => (hS _).2 x.2) (fun a b hab => hab)
  rw [← this]

theorem prefix_card {c r : ℕ} (hr : r ≤ c) (S : Finset (Fin c)) (hS : ∀ i, i ∈ S ↔ i.1 < r) :
    S.card = r := by
  have : S = Finset.univ.map (Fin.castLEEmb hr) := by
    ext i; rw [hS]; simp only [Finset.mem_map, Finset.mem_univ, true_and]
    constructor
    · intro h; exact ⟨⟨i.1, h⟩, rfl⟩
    · rintro ⟨a, rfl⟩; exact a.2
  rw [this, Finset.card_map, Finset.card_univ, Fintype.card_fin]

theorem antitone_prefix {c : ℕ} {s : Fin c → ℝ} (hs : Antitone s) (cut : ℝ) :
    ∃ r ≤ c, ∀ i : Fin c, ¬ s i < cut ↔ i.1 < r := by
  by_cases h : ∃ i : Fin c, s i < cut
  · classical
    have hne : (Finset.univ.filter fun i : Fin c => s i < cut).Nonempty := by
      obtain ⟨i, hi⟩ := h; exact ⟨i, by simpa using hi⟩
    set i0 := (Finset.univ.filter fun i : Fin c => s i < cut).min' hne
    have hi0 : s i0 < cut := by
      have := Finset.min'_mem _ hne; simpa using this
    refine ⟨i0.1, i0.2.le, fun i => ⟨fun hi => ?_, fun hi hlt => ?_⟩⟩
    · by_contra hle
      exact hi (lt_of_le_of_lt (hs (show i0 ≤ i from not_lt.1 hle)) hi0)
    · have : i0 ≤ i := Finset.min'_le _ _ (by simpa using hlt)
      exact absurd hi (not_lt.2 this)
  · push Not at h
    exact ⟨c, le_rfl, fun i => ⟨fun _ => i.2, fun _ => not_lt.2 (h i)⟩⟩

theorem SVDOut.dropBelow_eq (t : SVDOut m n) (ht : Antitone t.s) (cut : ℝ) :
    ∃ (r : ℕ) (h : r ≤ t.r), t.dropBelow cut = t.pre r h ∧ ∀ i : Fin t.r, ¬ t.s i < cut ↔ i.1 < r := by
  obtain ⟨r, hr, hi⟩ := antitone_prefix ht cut
  have hcard : (Finset.univ.filter fun i => ¬ t.s i < cut).card = r :=
    prefix_card hr _ (fun i => by simpa using hi i)
  refine ⟨r, hr, ?_, hi⟩
  subst hcard
  have hm : (maskIdx fun i => ¬ t.s i < cut) = Fin.castLE hr := by
    funext i
    exact orderEmbOfFin_prefix _ hr (fun i => by simpa using hi i) rfl i
  unfold SVDOut.dropBelow SVDOut.pre
  rw [hm]

/-- the product of the full triple minus the product of its first `r` triplets -/
theorem pre_tail {c r : ℕ} (h : r ≤ c) (U : Matrix (Fin m) (Fin c) ℝ) (s : Fin c → ℝ)
    (V : Matrix (Fin c) (Fin n) ℝ) :
    U * diagonal s * V - U.submatrix id (Fin.castLE h) * diagonal (s ∘ Fin.castLE h) *
      V.submatrix (Fin.castLE h) id = U * diagonal (fun i => if i.1 < r then 0 else s i) * V := by
  have : U.submatrix id (Fin.castLE h) * diagonal (s ∘ Fin.castLE h) *
      V.submatrix (Fin.castLE h) id = U * diagonal (fun i => if i.1 < r then s i else 0) * V := by
    ext i j
    rw [mul_apply, mul_apply]
    simp only [mul_diagonal, submatrix_apply, id, Function.comp]
    rw [← Finset.sum_image (f := fun l => U i l * s l * V l j) (g := Fin.castLE h)
      (s := Finset.univ) (fun a _ b _ e => Fin.castLE_injective h e)]
    symm
    rw [← Finset.sum_subset (Finset.subset_univ (Finset.univ.image (Fin.castLE h)))]
    · refine Finset.sum_congr rfl fun l hl => ?_
      obtain ⟨a, -, rfl⟩ := Finset.mem_image.1 hl
      rw [if_pos (by simp)]
    · intro l _ hl
      rw [if_neg, mul_zero, zero_mul]
      intro hlt
      exact hl (Finset.mem_image.2 ⟨⟨l.1, hlt⟩, Finset.mem_univ _, rfl⟩)
  rw [this, ← Matrix.sub_mul, ← Matrix.mul_sub, diagonal_sub]
  congr 3
  funext i
  split_ifs <;> simp

theorem froSq_diagonal {c : ℕ} (s : Fin c → ℝ) : froSq (diagonal s) = ∑ i, s i ^ 2 := by
  unfold froSq
  refine Finset.sum_congr rfl fun i _ => ?_
  rw [Finset.sum_eq_single i]
  · simp
  · intro j _ hj; simp [diagonal_apply_ne _ hj.symm]
  · intro h; exact absurd (Finset.mem_univ _) h

theorem froSq_UsV {c : ℕ} {U : Matrix (Fin m) (Fin c) ℝ} {V : Matrix (Fin c) (Fin n) ℝ}
    (hU : Uᵀ * U = 1) (hV : V * Vᵀ = 1) (s : Fin c → ℝ) :
    froSq (U * diagonal s * V) = ∑ i, s i ^ 2 := by
  rw [froSq_mul_orth hV, froSq_orth_mul hU, froSq_diagonal]

end Parla
