import Verif.Props.Precond

/-! What an SVD determines (helper lemmas): the singular values, and every matrix
`∑ g(σ_i) v_i v_iᵀ` with `g 0 = 0`. -/

namespace Parla

open Matrix Spec

variable {m m' n p p' : ℕ}

/-- the Gram matrix in terms of an SVD -/
theorem svd_gram {A : Matrix (Fin m) (Fin n) ℝ} {U : Matrix (Fin m) (Fin p) ℝ} {s : Fin p → ℝ}
    {W : Matrix (Fin p) (Fin n) ℝ} (h : U * diagonal s * W = A) (hU : Uᵀ * U = 1) :
    Aᵀ * A = Wᵀ * diagonal (fun i => s i ^ 2) * W := by
  have e : diagonal s * diagonal s = diagonal fun i => s i ^ 2 := by
    rw [diagonal_mul_diagonal]; congr 1; funext i; ring
  rw [← h, transpose_mul, transpose_mul, diagonal_transpose, ← e]
  calc Wᵀ * (diagonal s * Uᵀ) * (U * diagonal s * W) = Wᵀ * diagonal s * (Uᵀ * U) * diagonal s * W := by
        simp only [Matrix.mul_assoc]
    _ = _ := by rw [hU, Matrix.mul_one]; simp only [Matrix.mul_assoc]

/-- half of the next lemma: the terms with `g(σ_i) ≠ 0` lie in the row space of the other factor -/
theorem diag_mul_proj {G : Matrix (Fin n) (Fin n) ℝ} {s : Fin p → ℝ} {W : Matrix (Fin p) (Fin n) ℝ}
    {P : Matrix (Fin n) (Fin n) ℝ} (hW : W * G = diagonal (fun i => s i ^ 2) * W) (hP : G * P = G)
    (g : ℝ → ℝ) (hg : g 0 = 0) : diagonal (fun i => g (s i)) * W * P = diagonal (fun i => g (s i)) * W := by
  have e : diagonal (fun i => s i ^ 2) * (W * P) = diagonal (fun i => s i ^ 2) * W := by
    rw [← Matrix.mul_assoc, ← hW, Matrix.mul_assoc, hP]
  rw [Matrix.mul_assoc]
  ext i j
  have := congrFun (congrFun e i) j
  rw [diagonal_mul, diagonal_mul] at this ⊢
  by_cases hs : s i = 0
  · rw [hs, hg]; ring
  · rw [mul_left_cancel₀ (pow_ne_zero 2 hs) this]

/-- Two eigendecompositions of the same Gram matrix give the same spectral functions. -/
theorem spectral_unique {s : Fin p → ℝ} {s' : Fin p' → ℝ} {W : Matrix (Fin p) (Fin n) ℝ}
    {W' : Matrix (Fin p') (Fin n) ℝ} (hs : ∀ i, 0 ≤ s i) (hs' : ∀ i, 0 ≤ s' i) (hW : W * Wᵀ = 1)
    (hW' : W' * W'ᵀ = 1)
    (h : Wᵀ * diagonal (fun i => s i ^ 2) * W = W'ᵀ * diagonal (fun i => s' i ^ 2) * W')
    (g : ℝ → ℝ) (hg : g 0 = 0) :
    Wᵀ * diagonal (fun i => g (s i)) * W = W'ᵀ * diagonal (fun i => g (s' i)) * W' := by
  obtain ⟨G, hG⟩ : ∃ G, G = Wᵀ * diagonal (fun i => s i ^ 2) * W := ⟨_, rfl⟩
  have hG' : G = W'ᵀ * diagonal (fun i => s' i ^ 2) * W' := hG.trans h
  have hGT : Gᵀ = G := by
    rw [hG]; simp only [transpose_mul, diagonal_transpose, transpose_transpose, Matrix.mul_assoc]
  have a1 : W * G = diagonal (fun i => s i ^ 2) * W := by
    rw [hG, Matrix.mul_assoc, ← Matrix.mul_assoc W, hW, Matrix.one_mul]
  have a2 : W' * G = diagonal (fun i => s' i ^ 2) * W' := by
    rw [hG', Matrix.mul_assoc, ← Matrix.mul_assoc W', hW', Matrix.one_mul]
  have p1 : G * (Wᵀ * W) = G := by
    conv_lhs => rw [hG]
    rw [Matrix.mul_assoc, ← Matrix.mul_assoc W, hW, Matrix.one_mul, hG]
  have p2 : G * (W'ᵀ * W') = G := by
    conv_lhs => rw [hG']
    rw [Matrix.mul_assoc, ← Matrix.mul_assoc W', hW', Matrix.one_mul, hG']
  -- the overlaps vanish between different values
  have hX : diagonal (fun i => s i ^ 2) * (W * W'ᵀ) = W * W'ᵀ * diagonal (fun i => s' i ^ 2) := by
    have b2 : G * W'ᵀ = W'ᵀ * diagonal (fun i => s' i ^ 2) := by
      have := congrArg transpose a2
      rwa [transpose_mul, transpose_mul, hGT, diagonal_transpose] at this
    rw [← Matrix.mul_assoc, ← a1, Matrix.mul_assoc, b2, Matrix.mul_assoc]
  have hg' : diagonal (fun i => g (s i)) * (W * W'ᵀ) = W * W'ᵀ * diagonal (fun i => g (s' i)) := by
    ext i j
    have := congrFun (congrFun hX i) j
    rw [diagonal_mul, mul_diagonal] at this ⊢
    by_cases hx : (W * W'ᵀ) i j = 0
    · rw [hx]; ring
    · have e : s i ^ 2 = s' j ^ 2 := by
        rw [mul_comm] at this
        exact mul_left_cancel₀ hx this
      have : s i = s' j := by
        rw [← abs_of_nonneg (hs i), ← abs_of_nonneg (hs' j)]; exact (sq_eq_sq_iff_abs_eq_abs _ _).1 e
      rw [this]; ring
  have c1 := diag_mul_proj a1 p2 g hg
  have c2 : Wᵀ * W * (W'ᵀ * diagonal (fun i => g (s' i))) = W'ᵀ * diagonal (fun i => g (s' i)) := by
    have := congrArg transpose (diag_mul_proj a2 p1 g hg)
    simpa only [transpose_mul, diagonal_transpose, transpose_transpose, Matrix.mul_assoc] using this
  calc Wᵀ * diagonal (fun i => g (s i)) * W = Wᵀ * (diagonal (fun i => g (s i)) * W * (W'ᵀ * W')) := by
        rw [c1, Matrix.mul_assoc]
    _ = Wᵀ * (diagonal (fun i => g (s i)) * (W * W'ᵀ)) * W' := by simp only [Matrix.mul_assoc]
    _ = Wᵀ * W * (W'ᵀ * diagonal (fun i => g (s' i))) * W' := by rw [hg']; simp only [Matrix.mul_assoc]
    _ = _ := by rw [c2]

/-- counting with the trace -/
theorem trace_indicator {W : Matrix (Fin p) (Fin n) ℝ} (hW : W * Wᵀ = 1) (d : Fin p → ℝ) :
    (Wᵀ * diagonal d * W).trace = ∑ i, d i := by
  rw [Matrix.mul_assoc, trace_mul_comm, Matrix.mul_assoc, hW, Matrix.mul_one, trace_diagonal]

theorem card_above_eq {s : Fin p → ℝ} {s' : Fin p' → ℝ} {W : Matrix (Fin p) (Fin n) ℝ}
    {W' : Matrix (Fin p') (Fin n) ℝ} (hs : ∀ i, 0 ≤ s i) (hs' : ∀ i, 0 ≤ s' i) (hW : W * Wᵀ = 1)
    (hW' : W' * W'ᵀ = 1)
    (h : Wᵀ * diagonal (fun i => s i ^ 2) * W = W'ᵀ * diagonal (fun i => s' i ^ 2) * W') {t : ℝ} (ht : 0 ≤ t) :
    (Finset.univ.filter fun i => t < s i).card = (Finset.univ.filter fun i => t < s' i).card := by
  have e := congrArg trace (spectral_unique hs hs' hW hW' h (fun x => if t < x then 1 else 0)
    (if_neg (not_lt.2 ht)))
  rw [trace_indicator hW, trace_indicator hW', Finset.sum_boole, Finset.sum_boole] at e
  exact_mod_cast e

theorem antitone_le_of_card {s s' : Fin p → ℝ} (hs : Antitone s) (hs' : Antitone s') (h0 : ∀ i, 0 ≤ s' i)
    (h : ∀ t, 0 ≤ t → (Finset.univ.filter fun i => t < s i).card = (Finset.univ.filter fun i => t < s' i).card)
    (i : Fin p) : s i ≤ s' i := by
  by_contra hlt
  push Not at hlt
  have e := h (s' i) (h0 i)
  have h1 : Finset.Iic i ⊆ Finset.univ.filter fun j => s' i < s j := fun j hj => by
    rw [Finset.mem_filter]
    exact ⟨Finset.mem_univ _, lt_of_lt_of_le hlt (hs (Finset.mem_Iic.1 hj))⟩
  have h2 : (Finset.univ.filter fun j => s' i < s' j) ⊆ Finset.Iio i := fun j hj => by
    rw [Finset.mem_filter] at hj
    rw [Finset.mem_Iio]
    by_contra hle
    exact absurd (hs' (not_lt.1 hle)) (not_le.2 hj.2)
  have := Finset.card_le_card h1
  have := Finset.card_le_card h2
  rw [Fin.card_Iic] at *
  rw [Fin.card_Iio] at *
  omega

/-- The singular values are determined by the Gram matrix. -/
theorem sv_unique {s s' : Fin p → ℝ} {W W' : Matrix (Fin p) (Fin n) ℝ} (hs : ∀ i, 0 ≤ s i)
    (hs' : ∀ i, 0 ≤ s' i) (ha : Antitone s) (ha' : Antitone s') (hW : W * Wᵀ = 1) (hW' : W' * W'ᵀ = 1)
    (h : Wᵀ * diagonal (fun i => s i ^ 2) * W = W'ᵀ * diagonal (fun i => s' i ^ 2) * W') : s = s' := by
  funext i
  exact le_antisymm
    (antitone_le_of_card ha ha' hs' (fun t ht => card_above_eq hs hs' hW hW' h ht) i)
    (antitone_le_of_card ha' ha hs (fun t ht => (card_above_eq hs hs' hW hW' h ht).symm) i)

/-- Two backends, two matrices of the same shape with the same Gram matrix: same singular values. -/
theorem svd_sv_eq (la la' : LinAlg) {A B : Matrix (Fin m) (Fin n) ℝ} (h : Aᵀ * A = Bᵀ * B) :
    (la.svd A).2.1 = (la'.svd B).2.1 :=
  sv_unique (la.svd_nonneg A) (la'.svd_nonneg B) (la.svd_anti A) (la'.svd_anti B) (la.svd_right A)
    (la'.svd_right B) (by
      rw [← svd_gram (la.svd_mul A) (la.svd_left A), ← svd_gram (la'.svd_mul B) (la'.svd_left B), h])

/-- ... and the same spectral functions. -/
theorem svd_fun_eq (la la' : LinAlg) {A B : Matrix (Fin m) (Fin n) ℝ} (h : Aᵀ * A = Bᵀ * B) (g : ℝ → ℝ)
    (hg : g 0 = 0) :
    (la.svd A).2.2ᵀ * diagonal (fun i => g ((la.svd A).2.1 i)) * (la.svd A).2.2 =
      (la'.svd B).2.2ᵀ * diagonal (fun i => g ((la'.svd B).2.1 i)) * (la'.svd B).2.2 :=
  spectral_unique (la.svd_nonneg A) (la'.svd_nonneg B) (la.svd_right A) (la'.svd_right B) (by
    rw [← svd_gram (la.svd_mul A) (la.svd_left A), ← svd_gram (la'.svd_mul B) (la'.svd_left B), h]) g hg

/-- sums over a prefix as sums over everything -/
theorem prefix_fun {r c : ℕ} (hr : r ≤ c) (W : Matrix (Fin c) (Fin n) ℝ) (d : Fin c → ℝ) (t : ℝ) (s : Fin c → ℝ)
    (hi : ∀ i : Fin c, i.1 < r ↔ t < s i) :
    (W.submatrix (Fin.castLE hr) id)ᵀ * diagonal (d ∘ Fin.castLE hr) * W.submatrix (Fin.castLE hr) id =
      Wᵀ * diagonal (fun i => if t < s i then d i else 0) * W := by
  ext i j
  rw [mul_apply, mul_apply]
  simp only [mul_diagonal, transpose_apply, submatrix_apply, id_eq, Function.comp]
  have e : ∀ k : Fin c, W k i * (if t < s k then d k else 0) * W k j =
      if k.1 < r then W k i * d k * W k j else 0 := by
    intro k
    by_cases h : k.1 < r
    · rw [if_pos h, if_pos ((hi k).1 h)]
    · rw [if_neg h, if_neg (fun h' => h ((hi k).2 h')), mul_zero, zero_mul]
  rw [Finset.sum_congr rfl fun k _ => e k, ← Finset.sum_filter]
  refine Finset.sum_bij (fun k _ => Fin.castLE hr k) (fun k _ => ?_) (fun a _ b _ h => Fin.castLE_injective hr h)
    (fun k hk => ?_) (fun k _ => rfl)
  · rw [Finset.mem_filter]; exact ⟨Finset.mem_univ _, k.2⟩
  · rw [Finset.mem_filter] at hk
    exact ⟨⟨k.1, hk.2⟩, Finset.mem_univ _, rfl⟩

/-- The preconditioner of `svd_right_precond`, two backends and two sketches with the same Gram
matrix: same number of columns, same `sigma`, same spectral functions. -/
theorem svdRightPrecond_unique (la la' : LinAlg) {A B : Matrix (Fin m) (Fin n) ℝ} (h : Aᵀ * A = Bᵀ * B)
    {o o' : PrecOut m n} (ho : svdRightPrecond la A = .ok o) (ho' : svdRightPrecond la' B = .ok o') :
    ∃ e : o.r = o'.r, (∀ j, o.sigma j = o'.sigma (Fin.cast e j)) ∧
      ∀ g : ℝ → ℝ, o.Vhᵀ * diagonal (fun i => g (o.sigma i)) * o.Vh =
        o'.Vhᵀ * diagonal (fun i => g (o'.sigma i)) * o'.Vh := by
  obtain ⟨h0, hr, -, hs, hV, -, hi⟩ := Props.svdRightPrecond_open la A o ho
  obtain ⟨h0', hr', -, hs', hV', -, hi'⟩ := Props.svdRightPrecond_open la' B o' ho'
  have hsv := svd_sv_eq la la' h
  rw [← hsv] at hi' hs'
  have e : o.r = o'.r := by
    rcases lt_trichotomy o.r o'.r with hlt | he | hlt
    · have := (hi ⟨o.r, lt_of_lt_of_le hlt hr'⟩).2 ((hi' ⟨o.r, lt_of_lt_of_le hlt hr'⟩).1 hlt)
      exact absurd this (lt_irrefl _)
    · exact he
    · have := (hi' ⟨o'.r, lt_of_lt_of_le hlt hr⟩).2 ((hi ⟨o'.r, lt_of_lt_of_le hlt hr⟩).1 hlt)
      exact absurd this (lt_irrefl _)
  refine ⟨e, fun j => ?_, fun g => ?_⟩
  · rw [hs, hs']; rfl
  · obtain ⟨t, ht⟩ : ∃ t, t = (la.svd A).2.1 ⟨0, h0⟩ * n * eps := ⟨_, rfl⟩
    rw [← ht] at hi hi'
    have ht0 : 0 ≤ t := by
      rw [ht]
      have h1 := la.svd_nonneg A ⟨0, h0⟩
      have : (0 : ℝ) ≤ eps := by unfold eps; positivity
      positivity
    have k1 := prefix_fun hr (la.svd A).2.2 (fun i => g ((la.svd A).2.1 i)) t (la.svd A).2.1 hi
    have k2 := prefix_fun hr' (la'.svd B).2.2 (fun i => g ((la.svd A).2.1 i)) t (la.svd A).2.1 hi'
    rw [hV, hV', hs, hs']
    refine k1.trans (Eq.trans ?_ k2.symm)
    have := svd_fun_eq la la' h (fun x => if t < x then g x else 0) (if_neg (not_lt.2 ht0))
    rw [← hsv] at this
    exact this

/-- In particular the same `M M'`. -/
theorem svdRightPrecond_MMT (la la' : LinAlg) {A B : Matrix (Fin m) (Fin n) ℝ} (h : Aᵀ * A = Bᵀ * B)
    {o o' : PrecOut m n} (ho : svdRightPrecond la A = .ok o) (ho' : svdRightPrecond la' B = .ok o') :
    o.M * o.Mᵀ = o'.M * o'.Mᵀ := by
  obtain ⟨-, -, hf⟩ := svdRightPrecond_unique la la' h ho ho'
  have key : ∀ (la : LinAlg) (A : Matrix (Fin m) (Fin n) ℝ) (o : PrecOut m n), svdRightPrecond la A = .ok o →
      o.M * o.Mᵀ = o.Vhᵀ * diagonal (fun i => (o.sigma i)⁻¹ ^ 2) * o.Vh := by
    intro la A o ho
    obtain ⟨h0, hr, -, hs, hV, hM, hi⟩ := Props.svdRightPrecond_open la A o ho
    ext i j
    rw [hM, mul_apply, mul_apply]
    refine Finset.sum_congr rfl fun k _ => ?_
    rw [mul_diagonal]
    simp only [of_apply, transpose_apply]
    ring
  rw [key la A o ho, key la' B o' ho']
  exact hf fun x => x⁻¹ ^ 2

end Parla
