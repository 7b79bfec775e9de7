import Verif.Model.Sketching
import Verif.Spec

/-! # Property C44: `sjlt_operator` -/

namespace Parla.Props

open Matrix Parla Spec

variable {G : Type}

/-! ### Draws -/

theorem drawMany_ok {α : Type} {x : Py G α} : ∀ {n : ℕ} {w w' : World G} {xs : Fin n → α},
    drawMany x n w = .ok (xs, w') → ∀ i, ∃ v v', x v = .ok (xs i, v')
  | 0, _, _, _, _, i => i.elim0
  | n + 1, w, w', xs, h, i => by
    unfold drawMany at h
    rw [Py.bind_ok_iff] at h
    obtain ⟨ys, w₁, h1, h⟩ := h
    rw [Py.bind_ok_iff] at h
    obtain ⟨a, w₂, h2, h⟩ := h
    cases h
    refine Fin.lastCases ?_ (fun i => ?_) i
    · exact ⟨w₁, w', by rw [Fin.snoc_last]; exact h2⟩
    · obtain ⟨v, v', h3⟩ := drawMany_ok h1 i
      exact ⟨v, v', by rw [Fin.snoc_castSucc]; exact h3⟩

theorem drawMany_warns {α : Type} {x : Py G α} (hx : ∀ a v v', x v = .ok (a, v') → v'.warns = v.warns) :
    ∀ {n : ℕ} {w w' : World G} {xs : Fin n → α}, drawMany x n w = .ok (xs, w') → w'.warns = w.warns
  | 0, w, w', xs, h => by cases h; rfl
  | n + 1, w, w', xs, h => by
    unfold drawMany at h
    rw [Py.bind_ok_iff] at h
    obtain ⟨ys, w₁, h1, h⟩ := h
    rw [Py.bind_ok_iff] at h
    obtain ⟨a, w₂, h2, h⟩ := h
    cases h
    rw [hx _ _ _ h2, drawMany_warns hx h1]

theorem drawMany_total {α : Type} {x : Py G α} (hx : ∀ v, ∃ a v', x v = .ok (a, v')) :
    ∀ (n : ℕ) (w : World G), ∃ xs w', drawMany x n w = .ok (xs, w')
  | 0, w => ⟨_, w, rfl⟩
  | n + 1, w => by
    obtain ⟨ys, w₁, h1⟩ := drawMany_total hx n w
    obtain ⟨a, w₂, h2⟩ := hx w₁
    refine ⟨Fin.snoc ys a, w₂, ?_⟩
    unfold drawMany
    rw [Py.bind_eq_of_ok h1, Py.bind_eq_of_ok h2]
    rfl

theorem drawMany_error {α : Type} {x : Py G α} {e : PyErr} (hx : ∀ v, x v = .error e) (n : ℕ) (hn : 0 < n)
    (w : World G) : drawMany x n w = .error e := by
  obtain ⟨n, rfl⟩ : ∃ k, n = k + 1 := ⟨n - 1, by omega⟩
  clear hn
  induction n generalizing w with
  | zero =>
    unfold drawMany drawMany
    rw [Py.pure_bind', Py.bind_eq_of_error (hx w)]
  | succ n ih =>
    unfold drawMany
    rw [Py.bind_eq_of_error (ih w)]

theorem choice_noRepl_ok {R : NpRng G} {pop k : ℕ} {w w' : World G} {f : Fin k → Fin pop}
    (h : R.choice pop k false w = .ok (f, w')) :
    Function.Injective f ∧ k ≤ pop ∧ w'.warns = w.warns ∧ w'.trace = w.trace := by
  unfold NpRng.choice at h
  rw [if_neg (by simp)] at h
  by_cases hk : k ≤ pop
  · rw [dif_pos hk] at h
    cases h
    exact ⟨Function.Embedding.injective _, hk, rfl, rfl⟩
  · rw [dif_neg hk] at h; cases h

theorem choice_warns {R : NpRng G} {pop k : ℕ} {b : Bool} {w w' : World G} {f : Fin k → Fin pop}
    (h : R.choice pop k b w = .ok (f, w')) : w'.warns = w.warns := by
  unfold NpRng.choice at h
  cases b with
  | true =>
    rw [if_pos rfl] at h
    by_cases h1 : 0 < pop
    · rw [dif_pos h1] at h; cases h; rfl
    · rw [dif_neg h1] at h
      by_cases h2 : k = 0
      · rw [dif_pos h2] at h; cases h; rfl
      · rw [dif_neg h2] at h; cases h
  | false => exact (choice_noRepl_ok h).2.2.1

theorem choice_total (R : NpRng G) {pop k : ℕ} {b : Bool}
    (h : if b then 0 < pop ∨ k = 0 else k ≤ pop) (w : World G) :
    ∃ f w', R.choice pop k b w = .ok (f, w') := by
  unfold NpRng.choice
  cases b with
  | true =>
    simp only [if_true] at h
    by_cases h1 : 0 < pop
    · rw [if_pos rfl, dif_pos h1]; exact ⟨_, _, rfl⟩
    · rw [if_pos rfl, dif_neg h1, dif_pos (h.resolve_left h1)]; exact ⟨_, _, rfl⟩
  | false =>
    simp only [Bool.false_eq_true, if_false] at h
    rw [if_neg (by simp), dif_pos h]; exact ⟨_, _, rfl⟩

theorem raiseIf_bind_ok {α : Type} {b : Bool} {e : PyErr} {f : Unit → Py G α} {w w' : World G} {a : α} :
    ((Py.raiseIf b e : Py G Unit) >>= f) w = .ok (a, w') ↔ b = false ∧ f () w = .ok (a, w') := by
  cases b with
  | true => exact ⟨fun h => (nomatch h), fun h => (nomatch h.1)⟩
  | false => exact ⟨fun h => ⟨rfl, h⟩, fun h => h.2⟩

theorem raiseIf_false_bind {α : Type} (e : PyErr) (f : Unit → Py G α) :
    ((Py.raiseIf false e : Py G Unit) >>= f) = f () := rfl

theorem raiseIf_true_bind {α : Type} (e : PyErr) (f : Unit → Py G α) :
    ((Py.raiseIf true e : Py G Unit) >>= f) = Py.raise e := rfl

/-! ### The entries -/

theorem sjltMat_apply {nRows nCols nnz : ℕ} (rowVecs : Fin nCols → Fin nnz → Fin nRows)
    (u : Fin (nCols * nnz) → ℝ) (i : Fin nRows) (j : Fin nCols) :
    sjltMat rowVecs u i j =
      ∑ s, if rowVecs j s = i then sjltSign (u (finProdFinEquiv (j, s))) / Real.sqrt nnz else 0 := by
  unfold sjltMat coo
  rw [of_apply, ← Equiv.sum_comp finProdFinEquiv, Fintype.sum_prod_type, Finset.sum_eq_single j]
  · refine Finset.sum_congr rfl fun s _ => ?_
    simp only [Equiv.symm_apply_apply, and_true]
  · intro b _ hb
    refine Finset.sum_eq_zero fun s _ => ?_
    simp only [Equiv.symm_apply_apply, hb, and_false, if_false]
  · intro h; exact absurd (Finset.mem_univ j) h

theorem sjltSign_cases (u : ℝ) : sjltSign u = 1 ∨ sjltSign u = -1 := by
  unfold sjltSign; split <;> simp

theorem sjltSign_sq (u : ℝ) : sjltSign u ^ 2 = 1 := by
  rcases sjltSign_cases u with h | h <;> rw [h] <;> norm_num

/-- a column with distinct rows -/
theorem sjltMat_at {nRows nCols nnz : ℕ} {rowVecs : Fin nCols → Fin nnz → Fin nRows}
    (u : Fin (nCols * nnz) → ℝ) (j : Fin nCols) (hj : Function.Injective (rowVecs j)) (s : Fin nnz) :
    sjltMat rowVecs u (rowVecs j s) j = sjltSign (u (finProdFinEquiv (j, s))) / Real.sqrt nnz := by
  rw [sjltMat_apply, Finset.sum_eq_single s]
  · rw [if_pos rfl]
  · intro t _ ht
    rw [if_neg fun h => ht (hj h)]
  · intro h; exact absurd (Finset.mem_univ s) h

theorem sjltMat_off {nRows nCols nnz : ℕ} {rowVecs : Fin nCols → Fin nnz → Fin nRows}
    (u : Fin (nCols * nnz) → ℝ) (j : Fin nCols) (i : Fin nRows) (hi : ∀ s, rowVecs j s ≠ i) :
    sjltMat rowVecs u i j = 0 := by
  rw [sjltMat_apply]
  exact Finset.sum_eq_zero fun s _ => if_neg (hi s)

/-- The columns of a matrix have exactly `s` nonzeros, all `± 1/sqrt s`. -/
def SparseCols {r c : ℕ} (S : Matrix (Fin r) (Fin c) ℝ) (s : ℕ) : Prop :=
  ∀ j, (∃ I : Finset (Fin r), I.card = s ∧ ∀ i, S i j ≠ 0 ↔ i ∈ I) ∧
    ∀ i, S i j = 0 ∨ S i j = 1 / Real.sqrt s ∨ S i j = -(1 / Real.sqrt s)

theorem SparseCols.unit {r c : ℕ} {S : Matrix (Fin r) (Fin c) ℝ} {s : ℕ} (h : SparseCols S s) (hs : 0 < s)
    (j : Fin c) : sqNorm (fun i => S i j) = 1 := by
  obtain ⟨⟨I, hI, hS⟩, hv⟩ := h j
  have hs' : (0 : ℝ) < s := by exact_mod_cast hs
  have h1 : ∀ i, S i j ^ 2 = if i ∈ I then 1 / (s : ℝ) else 0 := by
    intro i
    by_cases hi : i ∈ I
    · rw [if_pos hi]
      rcases hv i with h0 | h0 | h0
      · exact absurd h0 ((hS i).2 hi)
      · rw [h0, div_pow, Real.sq_sqrt hs'.le, one_pow]
      · rw [h0, neg_sq, div_pow, Real.sq_sqrt hs'.le, one_pow]
    · rw [if_neg hi]
      have : S i j = 0 := by
        by_contra hne
        exact hi ((hS i).1 hne)
      rw [this]; norm_num
  unfold sqNorm
  simp only [h1]
  rw [Finset.sum_ite_mem, Finset.univ_inter, Finset.sum_const, hI, nsmul_eq_mul]
  field_simp

theorem sjltMat_sparse {nRows nCols nnz : ℕ} {rowVecs : Fin nCols → Fin nnz → Fin nRows}
    (u : Fin (nCols * nnz) → ℝ) (h : ∀ j, Function.Injective (rowVecs j)) :
    SparseCols (sjltMat rowVecs u) nnz := by
  intro j
  have hcase : ∀ i, (∃ s, rowVecs j s = i) ∨ ∀ s, rowVecs j s ≠ i := by
    intro i
    by_cases hi : ∃ s, rowVecs j s = i
    · exact Or.inl hi
    · push Not at hi; exact Or.inr hi
  refine ⟨⟨Finset.univ.map ⟨rowVecs j, h j⟩, by rw [Finset.card_map, Finset.card_univ, Fintype.card_fin],
    fun i => ?_⟩, fun i => ?_⟩
  · rw [Finset.mem_map]
    simp only [Finset.mem_univ, Function.Embedding.coeFn_mk, true_and]
    rcases hcase i with ⟨s, hs⟩ | hs
    · refine ⟨fun _ => ⟨s, hs⟩, fun _ => ?_⟩
      rw [← hs, sjltMat_at u j (h j)]
      have h0 : 0 < nnz := by have := s.2; omega
      have h1 : Real.sqrt nnz ≠ 0 := by
        rw [Real.sqrt_ne_zero (by positivity)]; exact_mod_cast h0.ne'
      rcases sjltSign_cases (u (finProdFinEquiv (j, s))) with e | e <;> rw [e]
      · exact div_ne_zero one_ne_zero h1
      · exact div_ne_zero (by norm_num) h1
    · refine ⟨fun hne => absurd (sjltMat_off u j i hs) hne, fun ⟨s, hs'⟩ => absurd hs' (hs s)⟩
  · rcases hcase i with ⟨s, hs⟩ | hs
    · rw [← hs, sjltMat_at u j (h j)]
      rcases sjltSign_cases (u (finProdFinEquiv (j, s))) with e | e <;> rw [e]
      · exact Or.inr (Or.inl rfl)
      · exact Or.inr (Or.inr (neg_div _ _))
    · exact Or.inl (sjltMat_off u j i hs)

/-! ### The operator -/

/-- what a successful call of the wide branch does -/
theorem sjltWide_ok {R : NpRng G} {s r c : ℕ} {w w' : World G} {S : Matrix (Fin r) (Fin c) ℝ}
    (h : sjltWide R s r c w = .ok (S, w')) :
    ∃ (rv : Fin c → Fin (min c s) → Fin r) (g : G),
      S = sjltMat rv (R.random (c * min c s) g).1 ∧
      (min c s ≤ r → ∀ j, Function.Injective (rv j)) ∧ 0 < c ∧
      w'.warns = w.warns + (if r < min c s then 1 else 0) := by
  unfold sjltWide at h
  rw [Py.bind_ok_iff] at h
  obtain ⟨⟨⟩, w₁, h1, h⟩ := h
  rw [Py.bind_ok_iff] at h
  obtain ⟨rv, w₂, h2, h⟩ := h
  rw [raiseIf_bind_ok] at h
  obtain ⟨hc, h⟩ := h
  have hc := of_decide_eq_false hc
  cases h
  refine ⟨rv, w₂.rng, rfl, fun hs j => ?_, by omega, ?_⟩
  · obtain ⟨v, v', h3⟩ := drawMany_ok h2 j
    rw [decide_eq_false (by omega)] at h3
    exact (choice_noRepl_ok h3).1
  · have e2 := drawMany_warns (fun _ _ _ h => choice_warns h) h2
    show w₂.warns = _
    rw [e2]
    by_cases hb : r < min c s
    · rw [decide_eq_true hb] at h1
      cases h1
      rw [if_pos hb]
    · rw [decide_eq_false hb] at h1
      cases h1
      rw [if_neg hb]; rfl

theorem sjltWide_total (R : NpRng G) (s r c : ℕ) (w : World G) :
    ((0 < c ∧ (0 < r ∨ s = 0)) → ∃ S w', sjltWide R s r c w = .ok (S, w')) ∧
    (¬ (0 < c ∧ (0 < r ∨ s = 0)) → sjltWide R s r c w = .error .value) := by
  unfold sjltWide
  constructor
  · rintro ⟨hc, hr⟩
    obtain ⟨w₁, h1⟩ : ∃ w₁, (Py.warnIf (decide (r < min c s)) : Py G Unit) w = .ok ((), w₁) := by
      cases decide (r < min c s) <;> exact ⟨_, rfl⟩
    rw [Py.bind_eq_of_ok h1]
    obtain ⟨rv, w₂, h2⟩ := drawMany_total (x := R.choice r (min c s) (decide (r < min c s)))
      (fun v => choice_total R (by
        by_cases hb : r < min c s
        · rw [decide_eq_true hb, if_pos rfl]; omega
        · rw [decide_eq_false hb, if_neg (by simp)]; omega) v) c w₁
    rw [Py.bind_eq_of_ok h2, decide_eq_false (by omega : ¬ c = 0), raiseIf_false_bind]
    exact ⟨_, _, rfl⟩
  · intro h
    by_cases hc : c = 0
    · subst hc
      have hb : ¬ r < min 0 s := by omega
      rw [decide_eq_false hb]
      rfl
    · have hb : r < min c s := by omega
      have hr : r = 0 := by omega
      rw [decide_eq_true hb]
      show (drawMany _ c >>= _) _ = _
      rw [Py.bind_eq_of_error (drawMany_error (fun v => ?_) c (by omega) _)]
      unfold NpRng.choice
      rw [if_pos rfl, dif_neg (by omega), dif_neg (by omega)]
      rfl

/-- **C44** (structure).  For `vec_nnz ≤ min(n_rows, n_cols)`, whatever the generator does, a call
of `sjlt_operator` does not warn; for `n_cols ≥ n_rows` every column of the result has exactly
`vec_nnz` nonzeros, all `± 1/sqrt(vec_nnz)`, and for `n_rows > n_cols` every row.  In particular those
columns (rows) have norm one if `vec_nnz > 0`. -/
theorem C44_sjlt_structure (R : NpRng G) (s r c : ℕ) (hs : s ≤ min r c) (w w' : World G)
    (S : Matrix (Fin r) (Fin c) ℝ) (h : sjltOperator R s r c w = .ok (S, w')) :
    (r ≤ c → SparseCols S s) ∧ (c < r → SparseCols Sᵀ s) ∧
    (0 < s → (r ≤ c → ∀ j, sqNorm (fun i => S i j) = 1) ∧ (c < r → ∀ i, sqNorm (fun j => S i j) = 1)) ∧
    w'.warns = w.warns := by
  have key : ∀ {p q : ℕ} {T : Matrix (Fin p) (Fin q) ℝ}, s ≤ p → p ≤ q →
      sjltWide R s p q w = .ok (T, w') → SparseCols T s ∧ w'.warns = w.warns := by
    intro p q T h1 h2 h
    obtain ⟨rv, g, hT, hinj, -, hw⟩ := sjltWide_ok h
    have e : min q s = s := by omega
    rw [if_neg (by omega)] at hw
    refine ⟨?_, hw⟩
    have : SparseCols T (min q s) :=
      hT ▸ sjltMat_sparse (R.random (q * min q s) g).1 (hinj (by omega))
    rwa [e] at this
  unfold sjltOperator at h
  by_cases hc : r ≤ c
  · rw [if_pos hc] at h
    obtain ⟨h1, h2⟩ := key (by omega) hc h
    exact ⟨fun _ => h1, fun h => absurd h (by omega),
      fun h0 => ⟨fun _ j => h1.unit h0 j, fun h => absurd h (by omega)⟩, h2⟩
  · rw [if_neg hc, Py.bind_ok_iff] at h
    obtain ⟨T, w₁, h, h'⟩ := h
    cases h'
    obtain ⟨h1, h2⟩ := key (by omega) (by omega) h
    exact ⟨fun h => absurd h hc, fun _ => by rw [transpose_transpose]; exact h1,
      fun h0 => ⟨fun h => absurd h hc, fun _ j => h1.unit h0 j⟩, h2⟩

/-- **C44** (warnings).  A successful call warns, once, exactly if the short dimension is smaller
than the number of nonzeros requested, clamped by the long dimension. -/
theorem C44_sjlt_warns (R : NpRng G) (s r c : ℕ) (w w' : World G) (S : Matrix (Fin r) (Fin c) ℝ)
    (h : sjltOperator R s r c w = .ok (S, w')) :
    w'.warns = w.warns + if min r c < min (max r c) s then 1 else 0 := by
  unfold sjltOperator at h
  by_cases hc : r ≤ c
  · rw [if_pos hc] at h
    obtain ⟨-, -, -, -, -, hw⟩ := sjltWide_ok h
    rw [hw, Nat.min_eq_left hc, Nat.max_eq_right hc]
  · rw [if_neg hc, Py.bind_ok_iff] at h
    obtain ⟨T, w₁, h, h'⟩ := h
    cases h'
    obtain ⟨-, -, -, -, -, hw⟩ := sjltWide_ok h
    rw [hw, Nat.min_eq_right (by omega : c ≤ r), Nat.max_eq_left (by omega : c ≤ r)]

/-- **C44** (totality).  The call succeeds for every nonempty shape (for `vec_nnz = 0` even if only
the short dimension is empty) and raises `ValueError` otherwise. -/
theorem C44_sjlt_total (R : NpRng G) (s r c : ℕ) (w : World G) :
    ((0 < max r c ∧ (0 < min r c ∨ s = 0)) → ∃ S w', sjltOperator R s r c w = .ok (S, w')) ∧
    (¬ (0 < max r c ∧ (0 < min r c ∨ s = 0)) → sjltOperator R s r c w = .error .value) := by
  unfold sjltOperator
  by_cases hc : r ≤ c
  · rw [if_pos hc, Nat.min_eq_left hc, Nat.max_eq_right hc]
    exact sjltWide_total R s r c w
  · rw [if_neg hc, Nat.min_eq_right (by omega : c ≤ r), Nat.max_eq_left (by omega : c ≤ r)]
    obtain ⟨h1, h2⟩ := sjltWide_total R s c r w
    refine ⟨fun h => ?_, fun h => ?_⟩
    · obtain ⟨S, w', h⟩ := h1 h
      exact ⟨Sᵀ, w', by rw [Py.bind_eq_of_ok h]; rfl⟩
    · rw [Py.bind_eq_of_error (h2 h)]

/-- **C44** (with replacement).  Whatever `vec_nnz`, the vectors along the long dimension have at
most `vec_nnz` nonzeros and 1-norm at most `sqrt(vec_nnz)`. -/
theorem C44_sjlt_replacement (R : NpRng G) (s r c : ℕ) (hrc : r ≤ c) (w w' : World G)
    (S : Matrix (Fin r) (Fin c) ℝ) (h : sjltOperator R s r c w = .ok (S, w')) (j : Fin c) :
    (∃ I : Finset (Fin r), I.card ≤ s ∧ ∀ i, S i j ≠ 0 → i ∈ I) ∧ ∑ i, |S i j| ≤ Real.sqrt s := by
  unfold sjltOperator at h
  rw [if_pos hrc] at h
  obtain ⟨rv, g, rfl, -⟩ := sjltWide_ok h
  refine ⟨⟨Finset.univ.image (rv j), ?_, fun i hi => ?_⟩, ?_⟩
  · refine Finset.card_image_le.trans ?_
    rw [Finset.card_univ, Fintype.card_fin]; omega
  · by_contra hn
    refine hi (sjltMat_off _ j i fun t ht => hn ?_)
    exact Finset.mem_image.2 ⟨t, Finset.mem_univ _, ht⟩
  · have h1 : ∀ i, |sjltMat rv (R.random (c * min c s) g).1 i j| ≤
        ∑ t, if rv j t = i then 1 / Real.sqrt (min c s : ℕ) else 0 := by
      intro i
      rw [sjltMat_apply]
      refine (Finset.abs_sum_le_sum_abs _ _).trans (Finset.sum_le_sum fun t _ => ?_)
      by_cases ht : rv j t = i
      · rw [if_pos ht, if_pos ht, abs_div, abs_of_nonneg (Real.sqrt_nonneg _)]
        rcases sjltSign_cases ((R.random (c * min c s) g).1 (finProdFinEquiv (j, t))) with e | e <;>
          rw [e] <;> norm_num
      · rw [if_neg ht, if_neg ht, abs_zero]
    refine (Finset.sum_le_sum fun i _ => h1 i).trans ?_
    rw [Finset.sum_comm]
    simp only [Finset.sum_ite_eq, Finset.mem_univ, if_true, Finset.sum_const, Finset.card_univ,
      Fintype.card_fin, nsmul_eq_mul]
    rw [mul_one_div, Real.div_sqrt]
    exact Real.sqrt_le_sqrt (by exact_mod_cast Nat.min_le_right c s)

/-- A generator for examples: uniforms are all `1/4`, normals are `1` on the diagonal, choices are
the first integers, the permutation reverses. -/
noncomputable def demoRng : NpRng ℕ where
  random _ g := (fun _ => 1 / 4, g + 1)
  random_nonneg _ _ _ := by norm_num
  random_lt_one _ _ _ := by norm_num
  standardNormal _ _ g := (Matrix.of fun i j => if i.1 = j.1 then 1 else 0, g + 1)
  choiceNoRepl _ _ h g := (Fin.castLEEmb h, g + 1)
  choiceRepl _ _ h g := (fun _ => ⟨0, h⟩, g + 1)
  permutation _ g := (Fin.revPerm, g + 1)
  seed _ := 0

/-- The hypotheses of `C44_sjlt_structure` are met. -/
example : ∃ S w', sjltOperator demoRng 2 3 5 ⟨0, 0, []⟩ = .ok (S, w') ∧ SparseCols S 2 ∧
    (∀ j, sqNorm (fun i => S i j) = 1) := by
  obtain ⟨S, w', h⟩ := (C44_sjlt_total demoRng 2 3 5 ⟨0, 0, []⟩).1 (by norm_num)
  obtain ⟨h1, -, h3, -⟩ := C44_sjlt_structure demoRng 2 3 5 (by norm_num) _ _ _ h
  exact ⟨S, w', h, h1 (by norm_num), (h3 (by norm_num)).1 (by norm_num)⟩

/-- ... and the warning does occur. -/
example : ∃ S w', sjltOperator demoRng 8 3 5 ⟨0, 0, []⟩ = .ok (S, w') ∧ w'.warns = 1 := by
  obtain ⟨S, w', h⟩ := (C44_sjlt_total demoRng 8 3 5 ⟨0, 0, []⟩).1 (by norm_num)
  exact ⟨S, w', h, by simpa using C44_sjlt_warns demoRng 8 3 5 _ _ _ h⟩

end Parla.Props
