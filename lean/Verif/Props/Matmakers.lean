import Verif.Model.Matmakers
import Verif.Props.AlmostSure
import Verif.SpecLowRank

/-! # Property C71: the generators of test problems (parla/tests/matmakers.py, notebooks/least_squares/helpers.py) -/

namespace Parla.Props

open Matrix Parla Spec MeasureTheory

variable {G : Type} {m n r : ℕ}

theorem rank_svd {A : Matrix (Fin m) (Fin n) ℝ} {U : Matrix (Fin m) (Fin r) ℝ} {s : Fin r → ℝ}
    {V : Matrix (Fin n) (Fin r) ℝ} (h : IsSVD A U s V) (hs : ∀ i, s i ≠ 0) : A.rank = r := by
  refine le_antisymm ?_ ?_
  · rw [h.eq, Matrix.mul_assoc]
    exact (rank_mul_le_left _ _).trans (U.rank_le_width)
  · have e : Uᵀ * A * V = diagonal s := by
      rw [h.eq, Matrix.mul_assoc, Matrix.mul_assoc, Matrix.mul_assoc, show Vᵀ * V = 1 from h.right, Matrix.mul_one,
        ← Matrix.mul_assoc, show Uᵀ * U = 1 from h.left, Matrix.one_mul]
    have h1 : (diagonal s).rank = r := by
      rw [rank_diagonal, Fintype.card_subtype]
      simp [hs]
    rw [← h1, ← e]
    exact (rank_mul_le_left _ _).trans (rank_mul_le_right _ _)

theorem orthonormal_cols (la : LinAlg) (R : NpRng G) (hr : 0 < r) (hm : r ≤ m) (w : World G)
    (hZ : FullColRank (R.standardNormal m r w.rng).1) :
    ∃ U, orthonormalOperator la R m r w = .ok (U, { w with rng := (R.standardNormal m r w.rng).2 }) ∧ OrthoCols U := by
  obtain ⟨S, h1, h2, -⟩ := C49_orthonormal_tall la R m r hm hr w
  exact ⟨S, h1, (h2 hZ).1⟩

theorem orthonormal_rows (la : LinAlg) (R : NpRng G) (hr : 0 < r) (hn : r ≤ n) (w : World G)
    (hZ : FullColRank (R.standardNormal n r w.rng).1) :
    ∃ V, orthonormalOperator la R r n w = .ok (V, { w with rng := (R.standardNormal n r w.rng).2 }) ∧ OrthoRows V := by
  rcases hn.lt_or_eq with h | rfl
  · obtain ⟨S, h1, h2, -⟩ := C49_orthonormal_wide la R r n h hr w
    exact ⟨S, h1, (h2 hZ).1⟩
  · obtain ⟨S, h1, h2⟩ := orthonormal_cols la R hr le_rfl w hZ
    exact ⟨S, h1, mul_eq_one_comm.1 h2⟩

theorem scale_cols (U : Matrix (Fin m) (Fin r) ℝ) (s : Fin r → ℝ) :
    (Matrix.of fun i j => U i j * s j) = U * diagonal s := by
  ext i j; rw [mul_diagonal]; rfl

theorem sorted_first (la : LinAlg) (s : Fin (r + 1) → ℝ) : IsGreatest (Set.range s) (s (la.argsort s (Fin.last r))) := by
  refine ⟨⟨_, rfl⟩, ?_⟩
  rintro _ ⟨i, rfl⟩
  have := la.argsort_mono s (Fin.le_last ((la.argsort s).symm i))
  simpa using this

/-- the sorted and scaled spectrum: decreasing, starting with 1, a reordering of the entries divided by the largest -/
theorem sortedSpectrum_spec (la : LinAlg) (s : Fin (r + 1) → ℝ) {μ : ℝ} (hμ : IsGreatest (Set.range s) μ) (h0 : 0 < μ) :
    (∃ σ : Equiv.Perm (Fin (r + 1)), ∀ i, sortedSpectrum la s i = s (σ i) / μ) ∧ Antitone (sortedSpectrum la s) ∧
      sortedSpectrum la s 0 = 1 := by
  have h1 : s (la.argsort s (Fin.rev 0)) = μ := by
    rw [Fin.rev_zero]; exact (sorted_first la s).unique hμ
  have h2 : ∀ i, sortedSpectrum la s i = s (la.argsort s i.rev) / μ := fun i => by
    unfold sortedSpectrum; simp only [h1]
  refine ⟨⟨Fin.revPerm.trans (la.argsort s), h2⟩, fun i j hij => ?_, ?_⟩
  · rw [h2, h2]
    exact div_le_div_of_nonneg_right (la.argsort_mono s (Fin.rev_le_rev.2 hij)) h0.le
  · rw [h2, h1, div_self h0.ne']

/-- the spectrum of an already decreasing array is that array divided by its first entry -/
theorem sortedSpectrum_anti (la : LinAlg) (s : Fin (r + 1) → ℝ) (hs : Antitone s) :
    sortedSpectrum la s = fun i => s i / s 0 := by
  have key : (fun i : Fin (r + 1) => s (la.argsort s i.rev)) = s := by
    have h1 : Monotone (s ∘ la.argsort s) := la.argsort_mono s
    have h2 : Monotone (s ∘ Fin.revPerm) := fun i j hij => hs (Fin.rev_le_rev.2 hij)
    have h3 : s ∘ la.argsort s = s ∘ Fin.revPerm := Tuple.unique_monotone h1 h2
    funext i
    have := congrFun h3 i.rev
    simpa using this
  unfold sortedSpectrum
  rw [key]

/-- and of an increasing array, the reversed array divided by its last entry -/
theorem sortedSpectrum_mono (la : LinAlg) (s : Fin (r + 1) → ℝ) (hs : Monotone s) :
    sortedSpectrum la s = fun i => s i.rev / s (Fin.last r) := by
  have h3 : s ∘ la.argsort s = s ∘ Equiv.refl _ := Tuple.unique_monotone (la.argsort_mono s) hs
  unfold sortedSpectrum
  have key : ∀ i, s (la.argsort s i) = s i := fun i => congrFun h3 i
  simp only [key, Fin.rev_zero]

theorem lowRankOf_ok (la : LinAlg) (R : NpRng G) (hr : 0 < r) (hm : r ≤ m) (hn : r ≤ n) (s : Fin r → ℝ) (w : World G)
    (h1 : FullColRank (R.standardNormal m r w.rng).1)
    (h2 : FullColRank (R.standardNormal n r (R.standardNormal m r w.rng).2).1) :
    ∃ (M : Matrix (Fin m) (Fin n) ℝ) (U : Matrix (Fin m) (Fin r) ℝ) (V : Matrix (Fin r) (Fin n) ℝ) (w' : World G),
      lowRankOf la R s w = .ok (⟨r, M, U, s, V⟩, w') ∧ OrthoCols U ∧ OrthoRows V ∧ M = U * diagonal s * V := by
  obtain ⟨U, g1, g2⟩ := orthonormal_cols la R hr hm w h1
  obtain ⟨V, g3, g4⟩ := orthonormal_rows la R hr hn { w with rng := (R.standardNormal m r w.rng).2 } h2
  refine ⟨_, U, V, { w with rng := (R.standardNormal n r (R.standardNormal m r w.rng).2).2 }, ?_, g2, g4, rfl⟩
  unfold lowRankOf
  rw [Py.bind_eq_of_ok g1, Py.bind_eq_of_ok g3, scale_cols]
  rfl

/-- **C71** (`rand_low_rank`, array).  Let the spectrum have `1 ≤ r ≤ min(n_rows, n_cols)` nonnegative entries with
largest entry `μ > 0`, and let the two Gaussian matrices drawn have full column rank.  Then `rand_low_rank` returns
`(M, U, s, V)` where `M = U diag(s) V` is a singular value decomposition of `M`, the singular values are the entries of
the spectrum divided by `μ` in decreasing order (so that the largest is 1), and `M` has rank `r` if all entries are
positive. -/
theorem C71_low_rank (la : LinAlg) (R : NpRng G) (s : Fin r → ℝ) (hr : 0 < r) (hm : r ≤ m) (hn : r ≤ n)
    (hs : ∀ i, 0 ≤ s i) (μ : ℝ) (hμ : IsGreatest (Set.range s) μ) (h0 : 0 < μ) (w : World G)
    (h1 : FullColRank (R.standardNormal m r w.rng).1)
    (h2 : FullColRank (R.standardNormal n r (R.standardNormal m r w.rng).2).1) :
    ∃ (M : Matrix (Fin m) (Fin n) ℝ) (U : Matrix (Fin m) (Fin r) ℝ) (t : Fin r → ℝ) (V : Matrix (Fin r) (Fin n) ℝ)
      (w' : World G),
      randLowRank la R m n (.arr r s) w = .ok (⟨r, M, U, t, V⟩, w') ∧ IsSVD M U t Vᵀ ∧
      (∃ σ : Equiv.Perm (Fin r), ∀ i, t i = s (σ i) / μ) ∧ t ⟨0, hr⟩ = 1 ∧ ((∀ i, 0 < s i) → M.rank = r) := by
  obtain ⟨r, rfl⟩ : ∃ q, r = q + 1 := ⟨r - 1, by omega⟩
  obtain ⟨⟨σ, e1⟩, e2, e3⟩ := sortedSpectrum_spec la s hμ h0
  obtain ⟨M, U, V, w', g1, g2, g3, g4⟩ := lowRankOf_ok la R hr hm hn (sortedSpectrum la s) w h1 h2
  have hsvd : IsSVD M U (sortedSpectrum la s) Vᵀ :=
    ⟨g2, by unfold OrthoCols; rw [transpose_transpose]; exact g3, fun i => by rw [e1]; exact div_nonneg (hs _) h0.le,
      e2, by rw [transpose_transpose]; exact g4⟩
  exact ⟨M, U, _, V, w', g1, hsvd, ⟨σ, e1⟩, e3, fun hp => rank_svd hsvd fun i => by
    rw [e1]; exact (div_pos (hp _) h0).ne'⟩

/-- **C71** (`rand_low_rank`, int).  For an int `k ≥ 0` the spectrum is the draw of `k` uniforms; a negative one raises
ValueError. -/
theorem C71_low_rank_int (la : LinAlg) (R : NpRng G) (k : ℤ) (w : World G) :
    (k < 0 → randLowRank la R m n (.int k) w = .error .value) ∧
    (0 ≤ k → randLowRank la R m n (.int k) w =
      randLowRank la R m n (.arr k.toNat (R.random k.toNat w.rng).1)
        { w with rng := (R.random k.toNat w.rng).2 }) := by
  refine ⟨fun h => ?_, fun h => ?_⟩
  · exact Py.bind_eq_of_error (by show (if k < 0 then _ else _ : Py G _) w = _; rw [if_pos h]; rfl)
  · have e : spectrumOf R (.int k) w =
        .ok (⟨k.toNat, (R.random k.toNat w.rng).1⟩, { w with rng := (R.random k.toNat w.rng).2 }) := by
      show (if k < 0 then _ else _ : Py G _) w = _
      rw [if_neg (by omega)]; rfl
    unfold randLowRank
    rw [Py.bind_eq_of_ok e]
    rfl

/-- **C71** (`rand_low_rank`, degenerate).  An empty spectrum raises IndexError; no rows or no columns,
ZeroDivisionError. -/
theorem C71_low_rank_empty (la : LinAlg) (R : NpRng G) (s : Fin r → ℝ) (w : World G) :
    (r = 0 → randLowRank la R m n (.arr r s) w = .error .index) ∧
    (r ≠ 0 → m = 0 → randLowRank la R m n (.arr r s) w = .error .zeroDivision) := by
  refine ⟨?_, fun hr hm => ?_⟩
  · rintro rfl; rfl
  · obtain ⟨r, rfl⟩ := Nat.exists_eq_succ_of_ne_zero hr
    show lowRankOf la R (sortedSpectrum la s) w = _
    exact Py.bind_eq_of_error (C49_orthonormal_empty la R m _ (by omega) w)

/-- **C71** (`rand_low_rank`, too many entries; the documented shape fails).  If the spectrum has more than
`min(n_rows, n_cols)` entries, the factors returned are never both orthonormal, so `s` is not the list of singular
values. -/
theorem C71_low_rank_too_many (la : LinAlg) (R : NpRng G) (s : Fin r → ℝ) (hr : min m n < r) (w w' : World G)
    (M : Matrix (Fin m) (Fin n) ℝ) (q : ℕ) (U : Matrix (Fin m) (Fin q) ℝ) (t : Fin q → ℝ) (V : Matrix (Fin q) (Fin n) ℝ)
    (h : randLowRank la R m n (.arr r s) w = .ok (⟨q, M, U, t, V⟩, w')) : q = r ∧ ¬ (OrthoCols U ∧ OrthoRows V) := by
  have hq : q = r := by
    cases r with
    | zero => omega
    | succ r =>
      change lowRankOf la R (sortedSpectrum la s) w = _ at h
      unfold lowRankOf at h
      rw [Py.bind_ok_iff] at h
      obtain ⟨U', w₁, -, h⟩ := h
      rw [Py.bind_ok_iff] at h
      obtain ⟨V', w₂, -, h⟩ := h
      cases h
      rfl
  subst hq
  refine ⟨rfl, fun ⟨h1, h2⟩ => ?_⟩
  have a1 := orthoCols_rank h1
  have a2 := U.rank_le_height
  have a3 := orthoCols_rank (Q := Vᵀ) (by rw [transpose_transpose]; exact h2)
  have a4 := Vᵀ.rank_le_height
  omega

/-- **C71** (almost surely).  The rank conditions on the draws hold for almost every pair of Gaussian matrices. -/
theorem C71_low_rank_ae (s : Fin r → ℝ) (hr : 0 < r) (hm : r ≤ m) (hn : r ≤ n)
    (hs : ∀ i, 0 ≤ s i) (μ : ℝ) (hμ : IsGreatest (Set.range s) μ) (h0 : 0 < μ) :
    ∀ᵐ Z₁ ∂(normals m r), ∀ᵐ Z₂ ∂(normals n r), ∀ (G : Type) (la : LinAlg) (R : NpRng G) (w : World G),
      NextNormal R w m r Z₁ → NextNormal R { w with rng := (R.standardNormal m r w.rng).2 } n r Z₂ →
      ∃ (M : Matrix (Fin m) (Fin n) ℝ) (U : Matrix (Fin m) (Fin r) ℝ) (t : Fin r → ℝ) (V : Matrix (Fin r) (Fin n) ℝ)
        (w' : World G),
        randLowRank la R m n (.arr r s) w = .ok (⟨r, M, U, t, V⟩, w') ∧ IsSVD M U t Vᵀ ∧
        (∃ σ : Equiv.Perm (Fin r), ∀ i, t i = s (σ i) / μ) ∧ t ⟨0, hr⟩ = 1 ∧ ((∀ i, 0 < s i) → M.rank = r) := by
  have h3 : ∀ a b : ℕ, b ≤ a → ∀ᵐ Z ∂(normals a b), FullColRank (Proof.drawMat Z) := by
    intro a b hab
    filter_upwards [Proof.ae_rank_mul (μ := stdNormal) (1 : Matrix (Fin a) (Fin a) ℝ) b] with Z hZ
    rw [Matrix.one_mul, rank_one, Fintype.card_fin] at hZ
    unfold FullColRank; omega
  filter_upwards [h3 m r hm] with Z₁ hZ₁
  filter_upwards [h3 n r hn] with Z₂ hZ₂ G la R w hw₁ hw₂
  exact C71_low_rank la R s hr hm hn hs μ hμ h0 w
    (by rw [show (R.standardNormal m r w.rng).1 = _ from hw₁]; exact hZ₁)
    (by rw [show (R.standardNormal n r (R.standardNormal m r w.rng).2).1 = _ from hw₂]; exact hZ₂)

/-- a strictly positive spectrum in decreasing order -/
theorem low_rank_anti (la : LinAlg) (R : NpRng G) (s : Fin r → ℝ) (hr : 0 < r) (hm : r ≤ m) (hn : r ≤ n)
    (hs : ∀ i, 0 < s i) (t : Fin r → ℝ) (ht0 : ∀ i, 0 ≤ t i) (hta : Antitone t)
    (ht : ∀ q (h : r = q + 1), sortedSpectrum la (fun i => s (Fin.cast h.symm i)) = fun i => t (Fin.cast h.symm i))
    (w : World G) (h1 : FullColRank (R.standardNormal m r w.rng).1)
    (h2 : FullColRank (R.standardNormal n r (R.standardNormal m r w.rng).2).1) :
    ∃ (M : Matrix (Fin m) (Fin n) ℝ) (U : Matrix (Fin m) (Fin r) ℝ) (V : Matrix (Fin r) (Fin n) ℝ) (w' : World G),
      randLowRank la R m n (.arr r s) w = .ok (⟨r, M, U, t, V⟩, w') ∧ IsSVD M U t Vᵀ := by
  obtain ⟨r, rfl⟩ : ∃ q, r = q + 1 := ⟨r - 1, by omega⟩
  have e : sortedSpectrum la s = t := ht r rfl
  obtain ⟨M, U, V, w', g1, g2, g3, g4⟩ := lowRankOf_ok la R hr hm hn t w h1 h2
  refine ⟨M, U, V, w', ?_, g2, by unfold OrthoCols; rw [transpose_transpose]; exact g3, ht0, hta,
    by rw [transpose_transpose]; exact g4⟩
  rw [← g1, ← e]
  rfl

/-- **C71** (`exponent_spectrum`).  For `rank ≤ 1` the call raises IndexError.  For `2 ≤ rank ≤ min(n_rows, n_cols) + 1`,
`spectrum_param ≠ 0` and full-rank draws it returns a matrix of rank `rank - 1`, not `rank`, whose singular values are
`exp(-i / |spectrum_param|)`, `i = 0, ..., rank - 2`. -/
theorem C71_exponent (la : LinAlg) (R : NpRng G) (rank : ℤ) (param : ℝ) (w : World G) :
    (rank ≤ 1 → exponentSpectrum la R m n rank param w = .error .index) ∧
    ∀ r : ℕ, rank = r + 1 → 0 < r → r ≤ m → r ≤ n → param ≠ 0 →
      FullColRank (R.standardNormal m r w.rng).1 →
      FullColRank (R.standardNormal n r (R.standardNormal m r w.rng).2).1 →
      ∃ (M : Matrix (Fin m) (Fin n) ℝ) (U : Matrix (Fin m) (Fin r) ℝ) (t : Fin r → ℝ) (V : Matrix (Fin r) (Fin n) ℝ)
        (w' : World G), exponentSpectrum la R m n rank param w = .ok (⟨r, M, U, t, V⟩, w') ∧ IsSVD M U t Vᵀ ∧
        (∀ i, t i = Real.exp (-(i : ℝ) / |param|)) ∧ M.rank = r := by
  refine ⟨fun h => ?_, fun r hrank hr hm hn hp h1 h2 => ?_⟩
  · exact (C71_low_rank_empty la R _ w).1 (by omega)
  · obtain rfl : (rank - 1).toNat = r := by omega
    have hsort : ∀ q (h : (rank - 1).toNat = q + 1), sortedSpectrum la (fun i : Fin (q + 1) =>
        Real.exp ((-(1 + ((Fin.cast h.symm i : Fin (rank - 1).toNat) : ℝ)) + 1) / param)) =
        fun i => Real.exp (-((Fin.cast h.symm i : Fin (rank - 1).toNat) : ℝ) / |param|) := by
      intro q hq
      rcases lt_or_gt_of_ne hp with hp | hp
      · rw [sortedSpectrum_mono la _ fun i j hij => Real.exp_le_exp.2 ?_]
        · funext i
          rw [← Real.exp_sub, abs_of_neg hp]
          congr 1
          have : ((i.rev : ℕ) : ℝ) = q - i := by
            rw [Fin.val_rev, Nat.cast_sub (by omega)]; push_cast; ring
          simp only [Fin.val_cast, Fin.val_last, this]
          field_simp
          ring
        · have : ((i : ℕ) : ℝ) ≤ (j : ℕ) := by exact_mod_cast hij
          exact div_le_div_of_nonpos_of_le hp.le (by simp only [Fin.val_cast]; linarith)
      · rw [sortedSpectrum_anti la _ fun i j hij => Real.exp_le_exp.2 ?_]
        · funext i
          rw [← Real.exp_sub, abs_of_pos hp]
          congr 1
          simp only [Fin.val_cast, Fin.val_zero, Nat.cast_zero]
          ring
        · have : ((i : ℕ) : ℝ) ≤ (j : ℕ) := by exact_mod_cast hij
          exact div_le_div_of_nonneg_right (by simp only [Fin.val_cast]; linarith) hp.le
    obtain ⟨M, U, V, w', g1, g2⟩ := low_rank_anti la R
      (fun i : Fin (rank - 1).toNat => Real.exp ((-(1 + (i : ℝ)) + 1) / param)) hr hm hn (fun i => Real.exp_pos _)
      (fun i => Real.exp (-(i : ℝ) / |param|)) (fun i => (Real.exp_pos _).le) (fun i j hij => by
        refine Real.exp_le_exp.2 (div_le_div_of_nonneg_right (neg_le_neg ?_) (abs_nonneg _))
        exact_mod_cast hij) hsort w h1 h2
    exact ⟨M, U, _, V, w', g1, g2, fun i => rfl, rank_svd g2 fun i => (Real.exp_pos _).ne'⟩

/-- **C71** (`s_shaped_spectrum`).  For `rank ≤ 1` the call raises IndexError.  For `2 ≤ rank ≤ min(n_rows, n_cols) + 1`
and full-rank draws it returns a matrix of rank `rank - 1` whose singular values are `σ_i / σ_0`,
`σ_i = 10⁻⁴ + 1/(1 + exp(i - 28))`, `i = 0, ..., rank - 2`. -/
theorem C71_s_shaped (la : LinAlg) (R : NpRng G) (rank : ℤ) (w : World G) :
    (rank ≤ 1 → sShapedSpectrum la R m n rank w = .error .index) ∧
    ∀ r : ℕ, rank = r + 1 → 0 < r → r ≤ m → r ≤ n →
      FullColRank (R.standardNormal m r w.rng).1 →
      FullColRank (R.standardNormal n r (R.standardNormal m r w.rng).2).1 →
      ∃ (M : Matrix (Fin m) (Fin n) ℝ) (U : Matrix (Fin m) (Fin r) ℝ) (t : Fin r → ℝ) (V : Matrix (Fin r) (Fin n) ℝ)
        (w' : World G), sShapedSpectrum la R m n rank w = .ok (⟨r, M, U, t, V⟩, w') ∧ IsSVD M U t Vᵀ ∧
        (∀ i, t i = (1 / 10 ^ 4 + 1 / (1 + Real.exp (i - 28))) / (1 / 10 ^ 4 + 1 / (1 + Real.exp (-28)))) ∧
        M.rank = r := by
  have hpos : ∀ x : ℝ, 0 < 1 / 10 ^ 4 + 1 / (1 + Real.exp x) := fun x => by have := Real.exp_pos x; positivity
  have hanti : ∀ x y : ℝ, x ≤ y → 1 / 10 ^ 4 + 1 / (1 + Real.exp y) ≤ 1 / 10 ^ 4 + 1 / (1 + Real.exp x) := fun x y h => by
    have := Real.exp_pos x
    exact add_le_add le_rfl (one_div_le_one_div_of_le (by positivity) (add_le_add le_rfl (Real.exp_le_exp.2 h)))
  refine ⟨fun h => ?_, fun r hrank hr hm hn h1 h2 => ?_⟩
  · exact (C71_low_rank_empty la R _ w).1 (by omega)
  · obtain rfl : (rank - 1).toNat = r := by omega
    have e : (fun i : Fin (rank - 1).toNat => 1 / 10000 + 1 / (1 + Real.exp ((1 + (i : ℝ)) - 29))) =
        fun i : Fin (rank - 1).toNat => 1 / 10 ^ 4 + 1 / (1 + Real.exp ((i : ℝ) - 28)) := by
      funext i
      rw [show (1 + (i : ℝ)) - 29 = i - 28 by ring]
      norm_num
    have hc : ∀ {q : ℕ} (i j : Fin q), i ≤ j → ((i : ℕ) : ℝ) - 28 ≤ (j : ℕ) - 28 := fun i j hij => by
      have : ((i : ℕ) : ℝ) ≤ (j : ℕ) := by exact_mod_cast hij
      linarith
    have hsort : ∀ q (h : (rank - 1).toNat = q + 1), sortedSpectrum la (fun i : Fin (q + 1) =>
        1 / 10 ^ 4 + 1 / (1 + Real.exp (((Fin.cast h.symm i : Fin (rank - 1).toNat) : ℝ) - 28))) =
        fun i => (1 / 10 ^ 4 + 1 / (1 + Real.exp (((Fin.cast h.symm i : Fin (rank - 1).toNat) : ℝ) - 28))) /
          (1 / 10 ^ 4 + 1 / (1 + Real.exp (-28))) := by
      intro q hq
      simp only [Fin.val_cast]
      rw [sortedSpectrum_anti la _ fun i j hij => hanti _ _ (hc i j hij)]
      funext i
      simp only [Fin.val_zero, Nat.cast_zero, zero_sub]
    obtain ⟨M, U, V, w', g1, g2⟩ := low_rank_anti la R
      (fun i : Fin (rank - 1).toNat => 1 / 10 ^ 4 + 1 / (1 + Real.exp ((i : ℝ) - 28))) hr hm hn (fun i => hpos _)
      (fun i => (1 / 10 ^ 4 + 1 / (1 + Real.exp (i - 28))) / (1 / 10 ^ 4 + 1 / (1 + Real.exp (-28))))
      (fun i => (div_pos (hpos _) (hpos _)).le) (fun i j hij => div_le_div_of_nonneg_right (hanti _ _ (hc i j hij))
        (hpos _).le) hsort w h1 h2
    refine ⟨M, U, _, V, w', ?_, g2, fun i => rfl, rank_svd g2 fun i => (div_pos (hpos _) (hpos _)).ne'⟩
    unfold sShapedSpectrum
    rw [e, g1]

/-- **C71** (`simple_mat`).  The matrix is the Gaussian draw with column `j` divided by `√(1 + scale j)`; for
`scale ≥ 0` it has full column rank exactly if the draw has. -/
theorem C71_simple_mat (la : LinAlg) (R : NpRng G) (scale : ℝ) (hs : 0 ≤ scale) (w : World G) :
    ∃ A : Matrix (Fin m) (Fin n) ℝ,
      simpleMat la R m n scale w = .ok (A, { w with rng := (R.standardNormal m n w.rng).2 }) ∧
      (∀ i (j : Fin n), A i j = (R.standardNormal m n w.rng).1 i j / Real.sqrt (1 + scale * j)) ∧
      (FullColRank A ↔ FullColRank (R.standardNormal m n w.rng).1) := by
  obtain ⟨Z, hZ⟩ : ∃ Z, Z = (R.standardNormal m n w.rng).1 := ⟨_, rfl⟩
  have e1 : (la.qr Z).1 * (Matrix.of fun i (j : Fin n) => (la.qr Z).2 i j * (1 / Real.sqrt (1 + scale * j))) =
      Z * diagonal fun j : Fin n => 1 / Real.sqrt (1 + scale * j) := by
    rw [scale_cols, ← Matrix.mul_assoc, la.qr_mul]
  have hp : ∀ j : Fin n, 0 < Real.sqrt (1 + scale * j) := fun j => Real.sqrt_pos.2 (by positivity)
  refine ⟨Z * diagonal fun j : Fin n => 1 / Real.sqrt (1 + scale * j), ?_, fun i j => ?_, ?_⟩
  · unfold simpleMat
    rw [← e1, hZ]
    rfl
  · rw [mul_diagonal, hZ]; ring
  · rw [← hZ]
    unfold FullColRank
    rw [rank_mul_eq_left_of_isUnit_det]
    rw [det_diagonal, isUnit_iff_ne_zero, Finset.prod_ne_zero_iff]
    exact fun j _ => (one_div_pos.2 (hp j)).ne'

/-! ### The demo problems of the notebooks -/

theorem norm2_smul' {k : ℕ} (a : ℝ) (v : Fin k → ℝ) : norm2 (a • v) = |a| * norm2 v := by
  unfold norm2
  rw [show sqNorm (a • v) = a ^ 2 * sqNorm v by
    simp only [sqNorm, Pi.smul_apply, smul_eq_mul, mul_pow, Finset.mul_sum], Real.sqrt_mul (sq_nonneg _), Real.sqrt_sq_eq_abs]

theorem norm2_neg' {k : ℕ} (v : Fin k → ℝ) : norm2 (-v) = norm2 v := by unfold norm2; rw [sqNorm_neg]

/-- what the right-hand side and the solution of the notebooks' helper are, for orthonormal factors -/
theorem demo_spec {U : Matrix (Fin m) (Fin r) ℝ} {s : Fin r → ℝ} {Vt : Matrix (Fin r) (Fin n) ℝ} (hU : OrthoCols U)
    (hV : OrthoRows Vt) (hs : ∀ i, s i ≠ 0) (p : ℝ) (b0 : Fin m → ℝ) (h1 : Uᵀ *ᵥ b0 ≠ 0) (h2 : U *ᵥ (Uᵀ *ᵥ b0) ≠ b0) :
    let A := (Matrix.of fun i j => U i j * s j) * Vt
    let b := demoRhs U s p b0
    let x := demoSolve U s Vt b
    IsRidgeMin A b 0 x ∧ (∀ z, IsRidgeMin A b 0 z → norm2 x ≤ norm2 z) ∧
      norm2 (A *ᵥ x) = |p| * |npMean s| ∧ norm2 (A *ᵥ x - b) = |1 - p| * |npMean s| := by
  intro A b x
  have hA : A = U * diagonal s * Vt := by rw [← scale_cols]
  have hx : x = Vtᵀ *ᵥ (diagonal (fun j => (s j)⁻¹) *ᵥ (Uᵀ *ᵥ b)) := by
    show demoSolve U s Vt b = _
    unfold demoSolve
    rw [show (Matrix.of fun i j => Vtᵀ i j / s j) = Vtᵀ * diagonal (fun j => (s j)⁻¹) by
      ext i j; rw [mul_diagonal]; rfl, ← mulVec_mulVec]
  have hAx : A *ᵥ x = U *ᵥ (Uᵀ *ᵥ b) := by
    rw [hx, hA, mulVec_mulVec, Matrix.mul_assoc, show Vt * Vtᵀ = 1 from hV, Matrix.mul_one, mulVec_mulVec,
      Matrix.mul_assoc, diagonal_mul_diagonal,
      show (diagonal fun i => s i * (s i)⁻¹) = (1 : Matrix (Fin r) (Fin r) ℝ) by
        rw [← diagonal_one]; congr 1; funext i; exact mul_inv_cancel₀ (hs i), Matrix.mul_one]
  have hUU : ∀ v : Fin r → ℝ, Uᵀ *ᵥ (U *ᵥ v) = v := fun v => by
    rw [mulVec_mulVec, show Uᵀ * U = 1 from hU, one_mulVec]
  have hn1 : norm2 (U *ᵥ (Uᵀ *ᵥ b0)) ≠ 0 := fun h => h1 (by
    rw [← hUU (Uᵀ *ᵥ b0), norm2_eq_zero.1 h, mulVec_zero])
  have hn2 : norm2 (b0 - U *ᵥ (Uᵀ *ᵥ b0)) ≠ 0 := fun h => h2 (sub_eq_zero.1 (norm2_eq_zero.1 h)).symm
  have hb : b = p • ((npMean s / norm2 (U *ᵥ (Uᵀ *ᵥ b0))) • (U *ᵥ (Uᵀ *ᵥ b0))) +
      (1 - p) • ((npMean s / norm2 (b0 - U *ᵥ (Uᵀ *ᵥ b0))) • (b0 - U *ᵥ (Uᵀ *ᵥ b0))) := rfl
  have hPb : U *ᵥ (Uᵀ *ᵥ b) = p • ((npMean s / norm2 (U *ᵥ (Uᵀ *ᵥ b0))) • (U *ᵥ (Uᵀ *ᵥ b0))) := by
    rw [hb]
    simp only [mulVec_add, mulVec_smul, mulVec_sub, hUU, sub_self, smul_zero, add_zero]
  have hn : Aᵀ *ᵥ (b - A *ᵥ x) = 0 := by
    rw [hAx, hA, transpose_mul, transpose_mul, ← mulVec_mulVec, ← mulVec_mulVec, mulVec_sub, hUU, sub_self, mulVec_zero,
      mulVec_zero]
  have hmin : ∀ z, sqNorm (A *ᵥ z - b) = sqNorm (A *ᵥ x - b) + sqNorm (A *ᵥ (x - z)) := fun z => by
    have := lsq_of_normal hn z
    rwa [← neg_sub, sqNorm_neg, ← neg_sub b, sqNorm_neg] 
  refine ⟨fun z => ?_, fun z hz => ?_, ?_, ?_⟩
  · have := sqNorm_nonneg (A *ᵥ (x - z))
    rw [hmin z]; linarith
  · have h3 := hz x
    rw [hmin z] at h3
    have h4 : A *ᵥ (x - z) = 0 := sqNorm_eq_zero.1 (le_antisymm (by linarith) (sqNorm_nonneg _))
    have h5 : Vt *ᵥ (x - z) = 0 := by
      have h6 : diagonal (fun j => (s j)⁻¹) *ᵥ (Uᵀ *ᵥ (A *ᵥ (x - z))) = Vt *ᵥ (x - z) := by
        rw [hA, Matrix.mul_assoc, ← mulVec_mulVec, hUU, mulVec_mulVec, ← Matrix.mul_assoc, diagonal_mul_diagonal,
          show (diagonal fun i => (s i)⁻¹ * s i) = (1 : Matrix (Fin r) (Fin r) ℝ) by
            rw [← diagonal_one]; congr 1; funext i; exact inv_mul_cancel₀ (hs i), Matrix.one_mul]
      rw [← h6, h4, mulVec_zero, mulVec_zero]
    refine norm2_le_norm2.2 ?_
    have h7 : (z - x) ⬝ᵥ x = 0 := by
      conv_lhs => rw [hx]
      rw [dot_mulVec, transpose_transpose]
      have : Vt *ᵥ (z - x) = 0 := by rw [← neg_sub, mulVec_neg, h5, neg_zero]
      rw [hx] at this
      rw [this, zero_dotProduct]
    have h8 : sqNorm z = sqNorm (z - x) + 2 * ((z - x) ⬝ᵥ x) + sqNorm x := by
      conv_lhs => rw [show z = (z - x) + x by abel]
      rw [sqNorm_add]
    have := sqNorm_nonneg (z - x)
    rw [h8, h7]; linarith
  · rw [hAx, hPb, norm2_smul', norm2_smul', abs_div, abs_of_nonneg (norm2_nonneg _), div_mul_cancel₀ _ hn1]
  · rw [hAx, hPb, hb, ← sub_sub, sub_self, zero_sub, norm2_neg', norm2_smul', norm2_smul', abs_div,
      abs_of_nonneg (norm2_nonneg _), div_mul_cancel₀ _ hn2]

/-- **C71** (`make_demo_helper`).  Let the spectrum have `1 ≤ r ≤ min(m, n)` nonzero entries, let the two Gaussian matrices
drawn have full column rank and let the Gaussian vector `b0` drawn after them be neither in nor orthogonal to the range of
`A`.  Then the helper's `x_opt` is the least-squares solution of minimum norm of `A x = b`; the part of `b` in the range of
`A` has norm `|prop_range|` times the absolute mean of the spectrum, and the optimal residual `|1 - prop_range|` times. -/
theorem C71_demo_helper (la : LinAlg) (R : NpRng G) (s : Fin r → ℝ) (hr : 0 < r) (hm : r ≤ m) (hn : r ≤ n)
    (hs : ∀ i, s i ≠ 0) (p : ℝ) (w : World G) (h1 : FullColRank (R.standardNormal m r w.rng).1)
    (h2 : FullColRank (R.standardNormal n r (R.standardNormal m r w.rng).2).1) :
    ∃ h w', makeDemoHelper la R m n s p w = .ok (h, w') ∧
      (∃ (U : Matrix (Fin m) (Fin r) ℝ) (V : Matrix (Fin r) (Fin n) ℝ), OrthoCols U ∧ OrthoRows V ∧
        h.A = U * diagonal s * V ∧ h = ⟨r, h.A, h.b, h.xOpt, U, s, V⟩) ∧
      let b0 := fun i => (R.standardNormal m 1 (R.standardNormal n r (R.standardNormal m r w.rng).2).2).1 i 0
      (h.Aᵀ *ᵥ b0 ≠ 0 → b0 ∉ colSpace h.A →
        IsRidgeMin h.A h.b 0 h.xOpt ∧ (∀ z, IsRidgeMin h.A h.b 0 z → norm2 h.xOpt ≤ norm2 z) ∧
        norm2 (h.A *ᵥ h.xOpt) = |p| * |(∑ i, s i) / r| ∧ norm2 (h.A *ᵥ h.xOpt - h.b) = |1 - p| * |(∑ i, s i) / r|) := by
  obtain ⟨U, g1, g2⟩ := orthonormal_cols la R hr hm w h1
  obtain ⟨V, g3, g4⟩ := orthonormal_rows la R hr hn { w with rng := (R.standardNormal m r w.rng).2 } h2
  obtain ⟨b0, hb0⟩ : ∃ b0 : Fin m → ℝ, b0 = fun i =>
    (R.standardNormal m 1 (R.standardNormal n r (R.standardNormal m r w.rng).2).2).1 i 0 := ⟨_, rfl⟩
  refine ⟨⟨r, (Matrix.of fun i j => U i j * s j) * V, demoRhs U s p b0, demoSolve U s V (demoRhs U s p b0), U, s, V⟩,
    { w with rng := (R.standardNormal m 1 (R.standardNormal n r (R.standardNormal m r w.rng).2).2).2 }, ?_,
    ⟨U, V, g2, g4, by rw [← scale_cols], rfl⟩, ?_⟩
  · unfold makeDemoHelper
    rw [Py.bind_eq_of_ok g1, Py.bind_eq_of_ok g3, hb0]
    rfl
  · rw [← hb0]
    intro _ k1 k2
    refine demo_spec g2 g4 hs p b0 (fun h => k1 ?_) (fun h => k2 ?_)
    · show ((Matrix.of fun i j => U i j * s j) * V)ᵀ *ᵥ b0 = 0
      rw [scale_cols, transpose_mul, transpose_mul, ← mulVec_mulVec, ← mulVec_mulVec, h, mulVec_zero, mulVec_zero]
    · show b0 ∈ colSpace ((Matrix.of fun i j => U i j * s j) * V)
      rw [scale_cols]
      refine mem_colSpace.2 ⟨Vᵀ *ᵥ (diagonal (fun j => (s j)⁻¹) *ᵥ (Uᵀ *ᵥ b0)), ?_⟩
      rw [mulVec_mulVec, Matrix.mul_assoc, show V * Vᵀ = 1 from g4, Matrix.mul_one, mulVec_mulVec,
        Matrix.mul_assoc, diagonal_mul_diagonal,
        show (diagonal fun i => s i * (s i)⁻¹) = (1 : Matrix (Fin r) (Fin r) ℝ) by
          rw [← diagonal_one]; congr 1; funext i; exact mul_inv_cancel₀ (hs i), Matrix.mul_one, h]

/-- **C71** (`resample_b`).  For a helper with orthonormal factors and nonzero spectrum the new right-hand side and
solution have the same properties, and the matrix is unchanged. -/
theorem C71_resample (R : NpRng G) (h : DemoHelper m n) (hU : OrthoCols h.U) (hV : OrthoRows h.Vt) (hs : ∀ i, h.s i ≠ 0)
    (hA : h.A = h.U * diagonal h.s * h.Vt) (p : ℝ) (w : World G) :
    ∃ h' w', resampleB R h p w = .ok (h', w') ∧ h' = { h with b := h'.b, xOpt := h'.xOpt } ∧
      let b0 := fun i => (R.standardNormal m 1 w.rng).1 i 0
      (h.Uᵀ *ᵥ b0 ≠ 0 → h.U *ᵥ (h.Uᵀ *ᵥ b0) ≠ b0 →
        IsRidgeMin h.A h'.b 0 h'.xOpt ∧ (∀ z, IsRidgeMin h.A h'.b 0 z → norm2 h'.xOpt ≤ norm2 z) ∧
        norm2 (h.A *ᵥ h'.xOpt) = |p| * |(∑ i, h.s i) / h.r| ∧
        norm2 (h.A *ᵥ h'.xOpt - h'.b) = |1 - p| * |(∑ i, h.s i) / h.r|) := by
  refine ⟨_, _, rfl, rfl, fun h1 h2 => ?_⟩
  have := demo_spec hU hV hs p _ h1 h2
  rw [scale_cols, ← hA] at this
  exact this

/-! ### The hypotheses are met -/

theorem demo_full (a b : ℕ) (hab : b ≤ a) (g : ℕ) : FullColRank (demoRng.standardNormal a b g).1 := by
  apply fullColRank_of_orth
  ext i j
  simp only [demoRng, mul_apply, transpose_apply, of_apply, one_apply, ite_mul, one_mul, zero_mul]
  rw [Finset.sum_eq_single (Fin.castLE hab i)]
  · simp [Fin.ext_iff]
  · intro k _ hk
    rw [if_neg]
    intro h
    exact hk (Fin.ext h)
  · simp

/-- A 4 x 3 matrix with the spectrum `(1, 4)`: singular values 1 and 1/4. -/
example : ∃ (M : Matrix (Fin 4) (Fin 3) ℝ) (U : Matrix (Fin 4) (Fin 2) ℝ) (t : Fin 2 → ℝ) (V : Matrix (Fin 2) (Fin 3) ℝ)
    (w' : World ℕ), randLowRank LinAlg.ref demoRng 4 3 (.arr 2 ![1, 4]) ⟨0, 0, []⟩ = .ok (⟨2, M, U, t, V⟩, w') ∧
    IsSVD M U t Vᵀ ∧ t = ![1, 1 / 4] ∧ M.rank = 2 := by
  have hg : IsGreatest (Set.range (![1, 4] : Fin 2 → ℝ)) 4 := by
    refine ⟨⟨1, rfl⟩, ?_⟩
    rintro _ ⟨i, rfl⟩
    fin_cases i <;> norm_num
  obtain ⟨M, U, t, V, w', h1, h2, ⟨σ, h3⟩, h4, h5⟩ := C71_low_rank (m := 4) (n := 3) LinAlg.ref demoRng ![1, 4]
    (by norm_num) (by norm_num) (by norm_num) (fun i => by fin_cases i <;> norm_num) 4 hg (by norm_num) ⟨0, 0, []⟩
    (demo_full _ _ (by norm_num) _) (demo_full _ _ (by norm_num) _)
  refine ⟨M, U, t, V, w', h1, h2, ?_, h5 fun i => by fin_cases i <;> norm_num⟩
  have h4 : t 0 = 1 := h4
  have e0 : σ 0 = 1 := by
    rcases Fin.exists_fin_two.1 ⟨σ 0, rfl⟩ with h | h
    · rw [h3, h] at h4; norm_num at h4
    · exact h
  have e1 : σ 1 = 0 := by
    rcases Fin.exists_fin_two.1 ⟨σ 1, rfl⟩ with h | h
    · exact h
    · have := σ.injective (e0.trans h.symm); simp at this
  funext i
  fin_cases i
  · exact h4
  · show t 1 = _
    rw [h3, e1]; norm_num

/-- The `exponent_spectrum` of `rank = 3`. -/
example : ∃ (M : Matrix (Fin 4) (Fin 3) ℝ) (U : Matrix (Fin 4) (Fin 2) ℝ) (t : Fin 2 → ℝ) (V : Matrix (Fin 2) (Fin 3) ℝ)
    (w' : World ℕ), exponentSpectrum LinAlg.ref demoRng 4 3 3 5 ⟨0, 0, []⟩ = .ok (⟨2, M, U, t, V⟩, w') ∧ M.rank = 2 := by
  obtain ⟨M, U, t, V, w', h1, -, -, h2⟩ := (C71_exponent (m := 4) (n := 3) LinAlg.ref demoRng 3 5 ⟨0, 0, []⟩).2 2
    (by norm_num) (by norm_num) (by norm_num) (by norm_num) (by norm_num) (demo_full _ _ (by norm_num) _)
    (demo_full _ _ (by norm_num) _)
  exact ⟨M, U, t, V, w', h1, h2⟩

/-- The hypotheses of `C71_resample` are met: `U = (1, 0)'`, `b0 = (1, 1)`. -/
example : ∃ (U : Matrix (Fin 2) (Fin 1) ℝ) (b0 : Fin 2 → ℝ), OrthoCols U ∧ Uᵀ *ᵥ b0 ≠ 0 ∧ U *ᵥ (Uᵀ *ᵥ b0) ≠ b0 := by
  refine ⟨!![1; 0], ![1, 1], ?_, fun h => ?_, fun h => ?_⟩
  · unfold OrthoCols; ext i j; fin_cases i; fin_cases j; simp [Matrix.mul_apply]
  · have := congrFun h 0; simp [Matrix.mulVec, dotProduct] at this
  · have := congrFun h 1; simp [Matrix.mulVec, dotProduct] at this

end Parla.Props
