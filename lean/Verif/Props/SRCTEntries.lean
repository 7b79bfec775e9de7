import Verif.Props.SRCT
import Verif.Props.SJLTExpect

/-! # Property C47: the entries of an SRCT -/

namespace Parla.Props

open Matrix Parla Spec MeasureTheory

variable {G : Type}

/-- an SRCT entry by entry: for the row indices `f`, the uniform numbers `u` and the permutation `p` that were drawn,
`√(n/k)` times a row of the orthonormal cosine transform, with the sign `+1` for `u > 1/2` and `-1` otherwise, columns
permuted -/
noncomputable def srctEntries {k n : ℕ} (f : Fin k → Fin n) (u : Fin n → ℝ) (p : Equiv.Perm (Fin n)) :
    Matrix (Fin k) (Fin n) ℝ :=
  Matrix.of fun a b => √((n : ℝ) / k) * (if 1 / 2 < u (p.symm b) then 1 else -1) *
    ((if (f a : ℕ) = 0 then √(1 / n) else √(2 / n)) *
      Real.cos (Real.pi * (f a : ℕ) * (2 * (p.symm b : ℕ) + 1) / (2 * n)))

theorem srctSign_eq (u : ℝ) (hu : u < 1) : srctSign u = if 1 / 2 < u then 1 else -1 := by
  unfold srctSign
  by_cases h : 1 / 2 < u
  · simp only [gt_iff_lt, if_pos h, ne_eq, not_true_eq_false, if_false]
  · simp only [gt_iff_lt, if_neg h]
    rw [if_pos hu.ne]

/-- what `generate_srct` returns -/
theorem generate_value (R : NpRng G) {a b k n : ℕ} (h1 : min a b = k) (h2 : max a b = n) (hk : k ≤ n) (h0 : 0 < k)
    (w : World G) :
    ∃ d, generateSrct R a b w = .ok (d, { w with rng :=
        (R.permutation n (R.random n (R.choiceNoRepl n k hk w.rng).2).2).2 }) ∧
      srctMat (d.cast h1 h2).r (d.cast h1 h2).e (d.cast h1 h2).perm = srctEntries
        (R.choiceNoRepl n k hk w.rng).1 (R.random n (R.choiceNoRepl n k hk w.rng).2).1
        (R.permutation n (R.random n (R.choiceNoRepl n k hk w.rng).2).2).1 ∧
      Function.Injective (d.cast h1 h2).r := by
  subst h1
  subst h2
  have e : generateSrct R a b w = .ok (⟨(R.choiceNoRepl (max a b) (min a b) hk w.rng).1,
      fun i => srctSign ((R.random (max a b) (R.choiceNoRepl (max a b) (min a b) hk w.rng).2).1 i) *
        Real.sqrt ((max a b : ℕ) / (min a b : ℕ)),
      (R.permutation (max a b) (R.random (max a b) (R.choiceNoRepl (max a b) (min a b) hk w.rng).2).2).1⟩,
      { w with rng := (R.permutation (max a b)
        (R.random (max a b) (R.choiceNoRepl (max a b) (min a b) hk w.rng).2).2).2 }) := by
    unfold generateSrct
    rw [Py.bind_eq_of_ok (show R.choice (max a b) (min a b) false w =
      .ok (⇑(R.choiceNoRepl (max a b) (min a b) hk w.rng).1,
        { w with rng := (R.choiceNoRepl (max a b) (min a b) hk w.rng).2 }) by
      unfold NpRng.choice; rw [if_neg (by simp), dif_pos hk]; rfl)]
    rw [Py.bind_eq_of_ok (Py.draw_apply _ _), decide_eq_false (by omega), raiseIf_false_bind]
    rfl
  refine ⟨_, e, ?_, Function.Embedding.injective _⟩
  ext i j
  simp only [Srct.cast, srctMat, srctEntries, dctMat, of_apply]
  rw [srctSign_eq _ (R.random_lt_one _ _ _)]
  ring

/-- **C47** (the entries).  For `0 < n_rows ≤ n_cols` `srct_operator` succeeds and its products are those of the matrix
`srctEntries f u p`, where `f`, `u` and `p` are what `rng.choice`, `rng.random` and `rng.permutation` return, in this
order; the generator is left in the state after the third draw. -/
theorem C47_srct_entries (la : LinAlg) (R : NpRng G) (r c : ℕ) (h0 : 0 < r) (hrc : r ≤ c) (w : World G)
    (f : Fin r ↪ Fin c) (u : Fin c → ℝ) (p : Equiv.Perm (Fin c)) (g₁ g₂ g₃ : G)
    (hf : R.choiceNoRepl c r hrc w.rng = (f, g₁)) (hu : R.random c g₁ = (u, g₂))
    (hp : R.permutation c g₂ = (p, g₃)) :
    srctOperator la R r c w = .ok (.ofMat (srctEntries f u p), { w with rng := g₃ }) := by
  obtain ⟨d, e1, e2, e3⟩ := generate_value R (a := r) (b := c) (Nat.min_eq_left hrc) (Nat.max_eq_right hrc) hrc h0 w
  rw [hf, hu, hp] at e1 e2
  unfold srctOperator
  rw [Py.bind_eq_of_ok e1, dif_pos hrc, ← e2, ← srctLinOp_eq la _ e3]
  rfl

/-- **C47** (the entries, tall operators).  For `0 < n_cols < n_rows` it is the transpose of the same matrix, for draws
made after the three discarded ones of the outer call. -/
theorem C47_srct_entries_tall (la : LinAlg) (R : NpRng G) (r c : ℕ) (h0 : 0 < c) (hrc : c < r) (w : World G)
    (g₁ g₂ g₃ : G) (f : Fin c ↪ Fin r) (u : Fin r → ℝ) (p : Equiv.Perm (Fin r)) (g₄ g₅ g₆ : G)
    (h1 : (R.choiceNoRepl r c hrc.le w.rng).2 = g₁) (h2 : (R.random r g₁).2 = g₂) (h3 : (R.permutation r g₂).2 = g₃)
    (hf : R.choiceNoRepl r c hrc.le g₃ = (f, g₄)) (hu : R.random r g₄ = (u, g₅))
    (hp : R.permutation r g₅ = (p, g₆)) :
    srctOperator la R r c w = .ok (.ofMat (srctEntries f u p)ᵀ, { w with rng := g₆ }) := by
  obtain ⟨d₀, e0, -, -⟩ := generate_value R (a := r) (b := c) (Nat.min_eq_right hrc.le) (Nat.max_eq_left hrc.le)
    hrc.le h0 w
  rw [h1, h2, h3] at e0
  obtain ⟨d, e1, e2, e3⟩ := generate_value R (a := c) (b := r) (Nat.min_eq_left hrc.le) (Nat.max_eq_right hrc.le)
    hrc.le h0 { w with rng := g₃ }
  simp only at e1 e2
  rw [hf, hu, hp] at e1 e2
  unfold srctOperator
  rw [Py.bind_eq_of_ok e0, dif_neg (by omega), Py.bind_eq_of_ok e1, ← e2, ← SkLinOp.ofMat_T, ← srctLinOp_eq la _ e3]
  rfl

/-- the sign as a function of the uniform number has mean zero and variance one, and different columns are
uncorrelated -/
theorem srct_sign_pair {n : ℕ} (i j : Fin n) :
    Integrable (fun u : Fin n → ℝ => (if 1 / 2 < u i then (1 : ℝ) else -1) * (if 1 / 2 < u j then (1 : ℝ) else -1))
      (Proof.indep (Fin n) unif01) ∧
    ∫ u, (if 1 / 2 < u i then (1 : ℝ) else -1) * (if 1 / 2 < u j then (1 : ℝ) else -1)
      ∂(Proof.indep (Fin n) unif01) = if i = j then 1 else 0 := by
  have e : ∀ t : ℝ, (if 1 / 2 < t then (1 : ℝ) else -1) = sjltSign t := by
    intro t
    unfold sjltSign
    by_cases h : t ≤ 1 / 2
    · rw [if_pos h, if_neg (not_lt.2 h)]
    · rw [if_neg h, if_pos (not_le.1 h)]
  simp only [e]
  exact sjltSign_pair i j

/-- **C47** (columns are uncorrelated).  Over independent uniform numbers `u`, for every restriction `f` and
permutation `p`, two entries in different columns are uncorrelated, and two in the same column have covariance `n/k`
times the product of the cosine transform's entries: in particular every column has mean square norm
`(n/k) ∑_a dct(f a, ·)²`. -/
theorem C47_srct_uncorrelated {k n : ℕ} (f : Fin k → Fin n) (p : Equiv.Perm (Fin n)) (a a' : Fin k) (b b' : Fin n) :
    ∫ u, srctEntries f u p a b * srctEntries f u p a' b' ∂(Proof.indep (Fin n) unif01) =
      if b = b' then (n : ℝ) / k * (dctMat n (f a) (p.symm b) * dctMat n (f a') (p.symm b)) else 0 := by
  have e : ∀ u : Fin n → ℝ, srctEntries f u p a b * srctEntries f u p a' b' =
      ((n : ℝ) / k * (dctMat n (f a) (p.symm b) * dctMat n (f a') (p.symm b'))) *
        ((if 1 / 2 < u (p.symm b) then (1 : ℝ) else -1) * (if 1 / 2 < u (p.symm b') then (1 : ℝ) else -1)) := by
    intro u
    have h : (n : ℝ) / k = √((n : ℝ) / k) * √((n : ℝ) / k) := (Real.mul_self_sqrt (by positivity)).symm
    rw [h]
    simp only [srctEntries, dctMat, of_apply]
    ring
  simp only [e]
  rw [integral_const_mul, (srct_sign_pair _ _).2]
  simp only [p.symm.injective.eq_iff]
  by_cases hb : b = b'
  · subst hb; simp
  · simp [hb]

/-- The hypotheses of `C47_srct_entries` are met. -/
example : ∃ (f : Fin 2 ↪ Fin 3) (u : Fin 3 → ℝ) (p : Equiv.Perm (Fin 3)) (g : ℕ),
    srctOperator LinAlg.ref demoRng 2 3 ⟨0, 0, []⟩ = .ok (.ofMat (srctEntries f u p), ⟨g, 0, []⟩) :=
  ⟨_, _, _, _, C47_srct_entries LinAlg.ref demoRng 2 3 (by norm_num) (by norm_num) ⟨0, 0, []⟩ _ _ _ _ _ _ rfl rfl rfl⟩

end Parla.Props
