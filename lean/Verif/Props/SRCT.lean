import Verif.Proof.DCT
import Verif.Props.SJLT
import Verif.Base.LinAlgExists
import Mathlib.Data.Fintype.CardEmbedding
import Mathlib.Order.Fin.Basic

/-! # Property C47: `generate_srct`, `apply_srct`, `srct_operator` -/

namespace Parla.Props

open Matrix Parla Spec

variable {G : Type}

/-! ### Scatter and argsort -/

theorem foldl_update_ne {k n : ℕ} (idx : Fin k → Fin n) (v : Fin k → ℝ) (i : Fin n) :
    ∀ (l : List (Fin k)) (f : Fin n → ℝ), (∀ j ∈ l, idx j ≠ i) →
      l.foldl (fun out j => Function.update out (idx j) (v j)) f i = f i
  | [], _, _ => rfl
  | a :: l, f, h => by
    rw [List.foldl_cons, foldl_update_ne idx v i l _ fun j hj => h j (List.mem_cons_of_mem _ hj),
      Function.update_of_ne (h a List.mem_cons_self).symm]

theorem foldl_update_at {k n : ℕ} {idx : Fin k → Fin n} (hi : Function.Injective idx) (v : Fin k → ℝ)
    (j : Fin k) : ∀ (l : List (Fin k)) (f : Fin n → ℝ), (f (idx j) = v j ∨ j ∈ l) →
      l.foldl (fun out j => Function.update out (idx j) (v j)) f (idx j) = v j
  | [], _, h => h.resolve_right (List.not_mem_nil)
  | a :: l, f, h => by
    rw [List.foldl_cons]
    apply foldl_update_at hi v j l
    by_cases ha : a = j
    · subst ha
      exact Or.inl (Function.update_self _ _ _)
    · rcases h with h | h
      · refine Or.inl ?_
        rw [Function.update_of_ne fun h' => ha (hi h').symm, h]
      · exact Or.inr ((List.mem_cons.1 h).resolve_left (Ne.symm ha))

theorem scatter_eq_sum {k n : ℕ} {idx : Fin k → Fin n} (hi : Function.Injective idx) (v : Fin k → ℝ)
    (i : Fin n) : scatter idx v i = ∑ j, if idx j = i then v j else 0 := by
  by_cases h : ∃ j, idx j = i
  · obtain ⟨j, rfl⟩ := h
    unfold scatter
    rw [foldl_update_at hi v j _ _ (Or.inr (List.mem_finRange j)), Finset.sum_eq_single j]
    · rw [if_pos rfl]
    · intro l _ hl
      rw [if_neg fun h => hl (hi h)]
    · intro h; exact absurd (Finset.mem_univ _) h
  · push Not at h
    unfold scatter
    rw [foldl_update_ne idx v i _ _ fun j _ => h j]
    exact (Finset.sum_eq_zero fun j _ => if_neg (h j)).symm

/-- `np.argsort(perm)` is the inverse permutation. -/
theorem argsort_perm (la : LinAlg) {n : ℕ} (p : Equiv.Perm (Fin n)) :
    la.argsort (fun i => ((p i).1 : ℝ)) = p.symm := by
  set σ := la.argsort (fun i => ((p i).1 : ℝ)) with hσ
  have hm : Monotone (fun i => p (σ i)) := by
    intro a b hab
    have := la.argsort_mono (fun i => ((p i).1 : ℝ)) hab
    simp only [Function.comp_apply] at this
    exact_mod_cast this
  have hs : StrictMono (fun i => p (σ i)) :=
    hm.strictMono_of_injective (p.injective.comp σ.injective)
  have hid : (fun i => p (σ i)) = id := by
    have e := Subsingleton.elim
      (StrictMono.orderIsoOfSurjective _ hs (p.surjective.comp σ.surjective)) (OrderIso.refl (Fin n))
    funext i
    exact congrArg (fun f : Fin n ≃o Fin n => f i) e
  ext i
  have := congrFun hid i
  simp only [id_eq] at this
  rw [← this, Equiv.symm_apply_apply, this]

/-! ### The matrix of an SRCT -/

/-- the matrix of the SRCT with data `(r, e, perm)`: a row of the cosine transform per sampled
index, columns scaled by `e` and permuted -/
noncomputable def srctMat {k n : ℕ} (r : Fin k → Fin n) (e : Fin n → ℝ) (p : Equiv.Perm (Fin n)) :
    Matrix (Fin k) (Fin n) ℝ :=
  Matrix.of fun j i => dctMat n (r j) (p.symm i) * e (p.symm i)

theorem applySrct_eq {k n : ℕ} (r : Fin k → Fin n) (e : Fin n → ℝ) (p : Equiv.Perm (Fin n))
    (x : Fin n → ℝ) : applySrct r e (some p) x = srctMat r e p *ᵥ x := by
  funext j
  simp only [applySrct, dct, mulVec, dotProduct, srctMat, of_apply]
  rw [← Equiv.sum_comp p (fun i => dctMat n (r j) (p.symm i) * e (p.symm i) * x i)]
  refine Finset.sum_congr rfl fun i _ => ?_
  rw [Equiv.symm_apply_apply]
  ring

theorem applySrctAdj_eq (la : LinAlg) {k n : ℕ} {r : Fin k → Fin n} (hr : Function.Injective r)
    (e : Fin n → ℝ) (p : Equiv.Perm (Fin n)) (y : Fin k → ℝ) :
    applySrctAdj la r e (some p) y = (srctMat r e p)ᵀ *ᵥ y := by
  funext i
  simp only [applySrctAdj, idct, mulVec, dotProduct, srctMat, of_apply, transpose_apply, argsort_perm,
    scatter_eq_sum hr]
  simp only [Finset.mul_sum, Finset.sum_mul]
  rw [Finset.sum_comm]
  refine Finset.sum_congr rfl fun j _ => ?_
  rw [Finset.sum_eq_single (r j)]
  · rw [if_pos rfl]; ring
  · intro l _ hl
    rw [if_neg (fun h => hl h.symm)]; ring
  · intro h; exact absurd (Finset.mem_univ _) h

/-- products with arrays are column by column -/
theorem applySrctM_col {k n l : ℕ} (r : Fin k → Fin n) (e : Fin n → ℝ) (p : Option (Equiv.Perm (Fin n)))
    (X : Matrix (Fin n) (Fin l) ℝ) (i : Fin k) (j : Fin l) :
    applySrctM r e p X i j = applySrct r e p (fun a => X a j) i := by
  cases p <;> rfl

theorem applySrctAdjM_col (la : LinAlg) {k n l : ℕ} (r : Fin k → Fin n) (e : Fin n → ℝ)
    (p : Option (Equiv.Perm (Fin n))) (Y : Matrix (Fin k) (Fin l) ℝ) (i : Fin n) (j : Fin l) :
    applySrctAdjM la r e p Y i j = applySrctAdj la r e p (fun a => Y a j) i := by
  cases p <;> rfl

/-- the linear operator is the one of the matrix, in all four products -/
theorem srctLinOp_eq (la : LinAlg) {k n : ℕ} (d : Srct k n) (hr : Function.Injective d.r) :
    srctLinOp la d = .ofMat (srctMat d.r d.e d.perm) := by
  unfold srctLinOp SkLinOp.ofMat
  congr
  · funext x; rw [applySrct_eq]
  · funext y; rw [applySrctAdj_eq la hr]
  · funext l X
    congr
    ext i j
    rw [applySrctM_col, applySrct_eq]
    rfl
  · funext l Y
    congr
    ext i j
    rw [applySrctAdjM_col, applySrctAdj_eq la hr]
    rfl

theorem srctMat_gram {k n : ℕ} {r : Fin k → Fin n} (hr : Function.Injective r) {e : Fin n → ℝ}
    {v : ℝ} (he : ∀ i, e i ^ 2 = v) (p : Equiv.Perm (Fin n)) :
    srctMat r e p * (srctMat r e p)ᵀ = v • (1 : Matrix (Fin k) (Fin k) ℝ) := by
  ext a b
  rw [mul_apply]
  simp only [srctMat, transpose_apply, of_apply]
  rw [Equiv.sum_comp p.symm (fun i => dctMat n (r a) i * e i * (dctMat n (r b) i * e i))]
  have h1 : ∀ i, dctMat n (r a) i * e i * (dctMat n (r b) i * e i) =
      v * (dctMat n (r a) i * dctMat n (r b) i) := fun i => by rw [← he i]; ring
  simp only [h1, ← Finset.mul_sum]
  have h2 := congrFun (congrFun (Proof.dctMat_orth n) (r a)) (r b)
  rw [mul_apply] at h2
  simp only [transpose_apply] at h2
  rw [h2, Matrix.smul_apply, one_apply, one_apply, smul_eq_mul]
  simp only [hr.eq_iff]

theorem srctSign_sq (u : ℝ) : srctSign u ^ 2 = 1 := by
  unfold srctSign
  simp only
  generalize (if u > 1 / 2 then (1 : ℝ) else u) = e
  by_cases h : e = 1
  · rw [if_neg (not_not.2 h), h]; norm_num
  · rw [if_pos h]; norm_num

/-! ### The operator -/

/-- what `generate_srct` draws -/
theorem generate_ok {R : NpRng G} {a b : ℕ} {w w' : World G} {d : Srct (min a b) (max a b)}
    (h : generateSrct R a b w = .ok (d, w')) :
    Function.Injective d.r ∧ min a b ≠ 0 ∧
      (∀ i, d.e i ^ 2 = (max a b : ℕ) / (min a b : ℕ)) ∧ w'.warns = w.warns ∧ w'.trace = w.trace := by
  unfold generateSrct at h
  rw [Py.bind_ok_iff] at h
  obtain ⟨r, w₁, h1, h⟩ := h
  rw [Py.bind_ok_iff] at h
  obtain ⟨u, w₂, h2, h⟩ := h
  rw [raiseIf_bind_ok] at h
  obtain ⟨hm, h⟩ := h
  have hm := of_decide_eq_false hm
  cases h2
  cases h
  obtain ⟨e1, -, e3, e4⟩ := choice_noRepl_ok h1
  refine ⟨e1, hm, fun i => ?_, e3, e4⟩
  show (srctSign _ * Real.sqrt _) ^ 2 = _
  rw [mul_pow, srctSign_sq, one_mul, Real.sq_sqrt (by positivity)]

theorem generate_total (R : NpRng G) (a b : ℕ) (w : World G) :
    (min a b ≠ 0 → ∃ d w', generateSrct R a b w = .ok (d, w')) ∧
    (min a b = 0 → generateSrct R a b w = .error .zeroDivision) := by
  obtain ⟨r, w₁, h1⟩ := choice_total R (pop := max a b) (k := min a b) (b := false)
    (by rw [if_neg (by simp)]; omega) w
  unfold generateSrct
  rw [Py.bind_eq_of_ok h1]
  constructor
  · intro h
    rw [Py.bind_eq_of_ok (Py.draw_apply _ _), decide_eq_false h, raiseIf_false_bind]
    exact ⟨_, _, rfl⟩
  · intro h
    rw [Py.bind_eq_of_ok (Py.draw_apply _ _), decide_eq_true h, raiseIf_true_bind]
    rfl

theorem srct_cast {a b a' b' : ℕ} (h₁ : a = a') (h₂ : b = b') (d : Srct a b)
    (hr : Function.Injective d.r) {v : ℝ} (he : ∀ i, d.e i ^ 2 = v) :
    Function.Injective (d.cast h₁ h₂).r ∧ ∀ i, (d.cast h₁ h₂).e i ^ 2 = v := by
  subst h₁; subst h₂
  exact ⟨hr, he⟩

theorem SkLinOp.ofMat_T {p q : ℕ} (M : Matrix (Fin p) (Fin q) ℝ) :
    (SkLinOp.ofMat M).T = .ofMat Mᵀ := by
  unfold SkLinOp.ofMat SkLinOp.T
  rw [transpose_transpose]

/-- **C47** (tight frame).  A successful call of `srct_operator` returns an operator all of whose
products (with vectors or arrays, forward or adjoint) never raise and are those of one matrix `M` and
its transpose; `M M' = (n_cols/n_rows) I` for `n_cols ≥ n_rows` and `M' M = (n_rows/n_cols) I`
otherwise.  No warnings are issued. -/
theorem C47_srct_operator (la : LinAlg) (R : NpRng G) (r c : ℕ) (w w' : World G) (S : SkLinOp r c)
    (h : srctOperator la R r c w = .ok (S, w')) :
    ∃ M : Matrix (Fin r) (Fin c) ℝ, (∀ x, S.mv x = .ok (M *ᵥ x)) ∧ (∀ y, S.rmv y = .ok (Mᵀ *ᵥ y)) ∧
      (∀ l (X : Matrix (Fin c) (Fin l) ℝ), S.mm l X = .ok (M * X)) ∧
      (∀ l (Y : Matrix (Fin r) (Fin l) ℝ), S.rmm l Y = .ok (Mᵀ * Y)) ∧
      (r ≤ c → M * Mᵀ = ((c : ℝ) / r) • (1 : Matrix (Fin r) (Fin r) ℝ)) ∧
      (c < r → Mᵀ * M = ((r : ℝ) / c) • (1 : Matrix (Fin c) (Fin c) ℝ)) ∧
      0 < min r c ∧ w'.warns = w.warns := by
  unfold srctOperator at h
  rw [Py.bind_ok_iff] at h
  obtain ⟨d, w₁, h1, h⟩ := h
  obtain ⟨e1, e2, e3, e4, -⟩ := generate_ok h1
  by_cases hc : c ≥ r
  · rw [dif_pos hc] at h
    cases h
    have e3' : ∀ i, d.e i ^ 2 = (c : ℝ) / r := by
      intro i; rw [e3 i, Nat.min_eq_left hc, Nat.max_eq_right hc]
    obtain ⟨g1, g2⟩ := srct_cast (Nat.min_eq_left hc) (Nat.max_eq_right hc) d e1 e3'
    rw [srctLinOp_eq la _ g1]
    refine ⟨_, fun _ => rfl, fun _ => rfl, fun _ _ => rfl, fun _ _ => rfl,
      fun _ => srctMat_gram g1 g2 _, fun h => absurd h (by omega), by omega, e4⟩
  · rw [dif_neg hc] at h
    have hc' : c ≤ r := by omega
    rw [Py.bind_ok_iff] at h
    obtain ⟨d, w₂, h2, h⟩ := h
    obtain ⟨e1, -, e3, e5, -⟩ := generate_ok h2
    cases h
    have e3' : ∀ i, d.e i ^ 2 = (r : ℝ) / c := by
      intro i; rw [e3 i, Nat.min_eq_left hc', Nat.max_eq_right hc']
    obtain ⟨g1, g2⟩ := srct_cast (Nat.min_eq_left hc') (Nat.max_eq_right hc') d e1 e3'
    rw [srctLinOp_eq la _ g1, SkLinOp.ofMat_T]
    refine ⟨_, fun _ => rfl, fun _ => rfl, fun _ _ => rfl, fun _ _ => rfl,
      fun h => absurd h (by omega), fun _ => ?_, by omega, e5.trans e4⟩
    rw [transpose_transpose]
    exact srctMat_gram g1 g2 _

/-- **C47** (totality).  `srct_operator` succeeds for every nonempty shape and raises
`ZeroDivisionError` for an empty one. -/
theorem C47_srct_total (la : LinAlg) (R : NpRng G) (r c : ℕ) (w : World G) :
    (0 < min r c → ∃ S w', srctOperator la R r c w = .ok (S, w')) ∧
    (min r c = 0 → srctOperator la R r c w = .error .zeroDivision) := by
  unfold srctOperator
  constructor
  · intro h
    obtain ⟨d, w₁, h1⟩ := (generate_total R r c w).1 (by omega)
    rw [Py.bind_eq_of_ok h1]
    by_cases hc : c ≥ r
    · rw [dif_pos hc]; exact ⟨_, _, rfl⟩
    · rw [dif_neg hc]
      obtain ⟨d, w₂, h2⟩ := (generate_total R c r w₁).1 (by omega)
      rw [Py.bind_eq_of_ok h2]
      exact ⟨_, _, rfl⟩
  · intro h
    rw [Py.bind_eq_of_error ((generate_total R r c w).2 h)]

/-- **C47** (adjointness of `apply_srct`).  For distinct indices `r`, with or without a permutation,
`⟨apply_srct(x), y⟩ = ⟨x, apply_srct(y, forward=False)⟩`. -/
theorem C47_apply_srct_adjoint (la : LinAlg) {k n : ℕ} {r : Fin k → Fin n} (hr : Function.Injective r)
    (e : Fin n → ℝ) (p : Option (Equiv.Perm (Fin n))) (x : Fin n → ℝ) (y : Fin k → ℝ) :
    applySrct r e p x ⬝ᵥ y = x ⬝ᵥ applySrctAdj la r e p y := by
  have key : ∀ p : Equiv.Perm (Fin n),
      applySrct r e (some p) x ⬝ᵥ y = x ⬝ᵥ applySrctAdj la r e (some p) y := by
    intro p
    rw [applySrct_eq, applySrctAdj_eq la hr, dotProduct_mulVec, vecMul_transpose]
  cases p with
  | some p => exact key p
  | none =>
    have h1 : applySrct r e none x = applySrct r e (some 1) x := rfl
    have h2 : applySrctAdj la r e none y = applySrctAdj la r e (some 1) y := by
      unfold applySrctAdj
      simp only
      rw [argsort_perm]
      rfl
    rw [h1, h2]
    exact key 1

/-- **C47** (permutations are undone).  For a square SRCT with signs only (`e = ± 1`), the adjoint
inverts the transform. -/
theorem C47_apply_srct_inverse (la : LinAlg) {n : ℕ} (r : Equiv.Perm (Fin n)) (e : Fin n → ℝ)
    (he : ∀ i, e i ^ 2 = 1) (p : Equiv.Perm (Fin n)) (x : Fin n → ℝ) :
    applySrctAdj la r e (some p) (applySrct r e (some p) x) = x := by
  rw [applySrct_eq, applySrctAdj_eq la r.injective, mulVec_mulVec]
  have h := srctMat_gram r.injective he p
  rw [one_smul, mul_eq_one_comm] at h
  rw [h, one_mulVec]

/-- the number of ways to put a given value at a given position does not depend on the value -/
theorem card_emb_at {k n : ℕ} (j : Fin k) (a b : Fin n) :
    (Finset.univ.filter fun r : Fin k ↪ Fin n => r j = a).card =
      (Finset.univ.filter fun r : Fin k ↪ Fin n => r j = b).card := by
  refine Finset.card_bij' (fun r _ => r.trans (Equiv.swap a b).toEmbedding)
    (fun r _ => r.trans (Equiv.swap a b).toEmbedding) ?_ ?_ ?_ ?_
  · intro r hr
    simp only [Finset.mem_filter, Finset.mem_univ, true_and] at hr ⊢
    simp [hr]
  · intro r hr
    simp only [Finset.mem_filter, Finset.mem_univ, true_and] at hr ⊢
    simp [hr]
  · intro r _
    ext i; simp
  · intro r _
    ext i; simp

/-- one position of a uniformly random injection is uniform -/
theorem sum_emb {k n : ℕ} (j : Fin k) (f : Fin n → ℝ) :
    (n : ℝ) * ∑ r : Fin k ↪ Fin n, f (r j) = Fintype.card (Fin k ↪ Fin n) * ∑ a, f a := by
  have h1 : ∑ r : Fin k ↪ Fin n, f (r j) =
      ∑ a, ((Finset.univ.filter fun r : Fin k ↪ Fin n => r j = a).card : ℝ) * f a := by
    rw [← Finset.sum_fiberwise_of_maps_to (s := Finset.univ) (t := Finset.univ)
      (g := fun r : Fin k ↪ Fin n => r j) (fun _ _ => Finset.mem_univ _)]
    refine Finset.sum_congr rfl fun a _ => ?_
    rw [Finset.sum_congr rfl fun r hr => by rw [(Finset.mem_filter.1 hr).2], Finset.sum_const,
      nsmul_eq_mul]
  have h2 : ∀ a, (n : ℝ) * ((Finset.univ.filter fun r : Fin k ↪ Fin n => r j = a).card : ℝ) =
      Fintype.card (Fin k ↪ Fin n) := by
    intro a
    have := Finset.card_eq_sum_card_fiberwise (s := (Finset.univ : Finset (Fin k ↪ Fin n)))
      (t := Finset.univ) (f := fun r => r j) (fun _ _ => Finset.mem_univ _)
    rw [Finset.sum_congr rfl fun b _ => card_emb_at j b a, Finset.sum_const, Finset.card_univ,
      Finset.card_univ, Fintype.card_fin, smul_eq_mul] at this
    rw [this]; push_cast; rfl
  rw [h1, Finset.mul_sum, Finset.mul_sum]
  refine Finset.sum_congr rfl fun a _ => ?_
  rw [← mul_assoc, h2]

/-- **C47** (isometry in expectation).  For every sign vector and permutation, the average of `S' S`
over all restrictions `r` (ordered samples without replacement) is the identity, if
`e_i^2 = n_cols/n_rows` as in `generate_srct`. -/
theorem C47_srct_expectation {k n : ℕ} (hk : 0 < k) (hkn : k ≤ n) (e : Fin n → ℝ)
    (he : ∀ i, e i ^ 2 = (n : ℝ) / k) (p : Equiv.Perm (Fin n)) :
    (1 / (Fintype.card (Fin k ↪ Fin n) : ℝ)) •
      ∑ r : Fin k ↪ Fin n, (srctMat r e p)ᵀ * srctMat r e p = 1 := by
  have hn : (n : ℝ) ≠ 0 := by
    have : n ≠ 0 := by omega
    exact_mod_cast this
  have hk' : (k : ℝ) ≠ 0 := by exact_mod_cast hk.ne'
  have hc : (Fintype.card (Fin k ↪ Fin n) : ℝ) ≠ 0 := by
    have : 0 < Fintype.card (Fin k ↪ Fin n) := by
      rw [Fintype.card_pos_iff]
      exact ⟨Fin.castLEEmb hkn⟩
    exact_mod_cast this.ne'
  ext a b
  rw [Matrix.smul_apply, Matrix.sum_apply, smul_eq_mul]
  simp only [mul_apply, transpose_apply, srctMat, of_apply]
  rw [Finset.sum_comm]
  set F : Fin n → ℝ := fun q => dctMat n q (p.symm a) * e (p.symm a) *
    (dctMat n q (p.symm b) * e (p.symm b)) with hF
  have h1 : ∀ j : Fin k, ∑ r : Fin k ↪ Fin n, F (r j) =
      Fintype.card (Fin k ↪ Fin n) / n * ∑ q, F q := by
    intro j
    have := sum_emb j F
    field_simp
    linarith
  show _ * ∑ j : Fin k, ∑ r : Fin k ↪ Fin n, F (r j) = _
  simp only [h1, Finset.sum_const, Finset.card_univ, Fintype.card_fin, nsmul_eq_mul]
  have h2 : ∑ q, F q = if a = b then (n : ℝ) / k else 0 := by
    have h3 := congrFun (congrFun (Proof.dctMat_orth' n) (p.symm a)) (p.symm b)
    rw [mul_apply] at h3
    simp only [transpose_apply] at h3
    have : ∀ q, F q = e (p.symm a) * e (p.symm b) *
        (dctMat n q (p.symm a) * dctMat n q (p.symm b)) := fun q => by rw [hF]; ring
    simp only [this, ← Finset.mul_sum, h3, one_apply, p.symm.injective.eq_iff]
    by_cases hab : a = b
    · subst hab
      rw [if_pos rfl, if_pos rfl, mul_one, ← sq, he]
    · rw [if_neg hab, if_neg hab, mul_zero]
  rw [h2, one_apply]
  split
  · field_simp
  · ring

/-- **C47** is not vacuous. -/
example : ∃ S w', srctOperator LinAlg.ref demoRng 2 3 ⟨0, 0, []⟩ = .ok (S, w') ∧
    ∃ M : Matrix (Fin 2) (Fin 3) ℝ, (∀ x, S.mv x = .ok (M *ᵥ x)) ∧
      M * Mᵀ = ((3 : ℕ) / (2 : ℕ) : ℝ) • (1 : Matrix (Fin 2) (Fin 2) ℝ) := by
  obtain ⟨S, w', h⟩ := (C47_srct_total LinAlg.ref demoRng 2 3 ⟨0, 0, []⟩).1 (by norm_num)
  obtain ⟨M, h1, -, -, -, h2, -⟩ := C47_srct_operator LinAlg.ref demoRng 2 3 _ w' S h
  exact ⟨S, w', h, M, h1, h2 (by norm_num)⟩

end Parla.Props
