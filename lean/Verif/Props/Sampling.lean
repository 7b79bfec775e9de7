import Verif.Props.SRCT

/-! # Property C48: `sampling_operator` -/

namespace Parla.Props

open Matrix Parla Spec

variable {G : Type}

/-! ### Specification -/

/-- The matrix whose row `j` is row `f j` of the identity. -/
def selMat {k n : ℕ} (f : Fin k → Fin n) : Matrix (Fin k) (Fin n) ℝ :=
  (1 : Matrix (Fin n) (Fin n) ℝ).submatrix f id

/-- All products of `S` are those of `M`, except that the adjoint product with an array raises
`TypeError`. -/
def ActsAs {p q : ℕ} (S : SkLinOp p q) (M : Matrix (Fin p) (Fin q) ℝ) : Prop :=
  (∀ x, S.mv x = .ok (M *ᵥ x)) ∧ (∀ y, S.rmv y = .ok (Mᵀ *ᵥ y)) ∧
  (∀ l (X : Matrix (Fin q) (Fin l) ℝ), S.mm l X = .ok (M * X)) ∧
  ∀ l (Y : Matrix (Fin p) (Fin l) ℝ), S.rmm l Y = .error .type

/-! ### Lemmas -/

theorem selMat_mulVec {k n : ℕ} (f : Fin k → Fin n) (x : Fin n → ℝ) : selMat f *ᵥ x = x ∘ f := by
  unfold selMat
  funext j
  simp only [mulVec, dotProduct, submatrix_apply, one_apply, id_eq, ite_mul, one_mul, zero_mul,
    Finset.sum_ite_eq, Finset.mem_univ, if_true, Function.comp]

theorem selMat_mul {k n l : ℕ} (f : Fin k → Fin n) (X : Matrix (Fin n) (Fin l) ℝ) :
    selMat f * X = X.submatrix f id := by
  unfold selMat
  rw [← Matrix.submatrix_id_id X, ← Matrix.submatrix_mul _ _ _ _ _ Function.bijective_id, Matrix.one_mul]
  rfl

theorem selMat_transpose_mulVec {k n : ℕ} {f : Fin k → Fin n} (hf : Function.Injective f)
    (y : Fin k → ℝ) : (selMat f)ᵀ *ᵥ y = scatter f y := by
  funext i
  rw [scatter_eq_sum hf]
  unfold selMat
  simp only [mulVec, dotProduct, transpose_apply, submatrix_apply, one_apply, id_eq, ite_mul, one_mul,
    zero_mul]

theorem selMat_gram {k n : ℕ} {f : Fin k → Fin n} (hf : Function.Injective f) :
    selMat f * (selMat f)ᵀ = 1 := by
  rw [selMat_mul]
  ext i j
  simp only [selMat, submatrix_apply, transpose_apply, one_apply, id_eq]
  by_cases h : i = j
  · subst h; simp
  · rw [if_neg h, if_neg fun h' => h (hf h'.symm)]

theorem samplingLinOp_acts {k n : ℕ} {f : Fin k → Fin n} (hf : Function.Injective f) :
    ActsAs (samplingLinOp f) (selMat f) := by
  refine ⟨fun x => ?_, fun y => ?_, fun l X => ?_, fun l Y => rfl⟩
  · rw [selMat_mulVec]; rfl
  · rw [selMat_transpose_mulVec hf]; rfl
  · rw [selMat_mul]; rfl

theorem sampleSorted_ok {R : NpRng G} {pop k : ℕ} {w w' : World G} {f : Fin k → Fin pop}
    (h : sampleSorted R pop k w = .ok (f, w')) :
    StrictMono f ∧ w'.warns = w.warns ∧ w'.trace = w.trace ∧
      ∃ (hk : k ≤ pop), Set.range f = Set.range (R.choiceNoRepl pop k hk w.rng).1 ∧
        w'.rng = (R.choiceNoRepl pop k hk w.rng).2 := by
  unfold sampleSorted at h
  rw [Py.bind_ok_iff] at h
  obtain ⟨g, w₁, h1, h⟩ := h
  obtain ⟨e1, e2, e3, e4⟩ := choice_noRepl_ok h1
  cases h
  refine ⟨?_, e3, e4, e2, ?_⟩
  · exact (Tuple.monotone_sort g).strictMono_of_injective (e1.comp (Equiv.injective _))
  · rw [Set.range_comp, Equiv.range_eq_univ, Set.image_univ]
    unfold NpRng.choice at h1
    rw [if_neg (by simp), dif_pos e2] at h1
    cases h1
    exact ⟨rfl, rfl⟩

theorem sampleSorted_total (R : NpRng G) {pop k : ℕ} (h : k ≤ pop) (w : World G) :
    ∃ f w', sampleSorted R pop k w = .ok (f, w') := by
  obtain ⟨f, w', h⟩ := choice_total R (b := false) (pop := pop) (k := k) (by simpa using h) w
  refine ⟨f ∘ Tuple.sort f, w', ?_⟩
  unfold sampleSorted
  rw [Py.bind_eq_of_ok h]
  rfl

theorem samplingBuild_ok {k n : ℕ} (f : Fin k → Fin n) :
    samplingBuild (fun j => (f j).1) = .ok (samplingLinOp f) := by
  unfold samplingBuild
  rw [dif_pos fun j => (f j).2]

/-! ### Theorems -/

/-- **C48** (wide operators, given indices).  For `n_rows ≤ n_cols` and a list of `n_rows` indices in
`range(n_cols)`, `sampling_operator` returns an operator and does not touch the generator.  Its product
with a vector or an array takes the entries/rows at exactly the given indices, in the given order. -/
theorem C48_sampling_wide_given (R : NpRng G) (l : List ℕ) (r c : ℕ) (hrc : r ≤ c) (hl : l.length = r)
    (hc : ∀ i ∈ l, i < c) (w : World G) :
    ∃ S, samplingOperator R (some l) r c w = .ok (S, w) ∧
      (∀ x : Fin c → ℝ, ∃ y, S.mv x = .ok y ∧
        ∀ (j : ℕ) (hj : j < r), y ⟨j, hj⟩ = x ⟨l[j], hc _ (List.getElem_mem _)⟩) ∧
      (∀ k (X : Matrix (Fin c) (Fin k) ℝ), ∃ Y, S.mm k X = .ok Y ∧
        ∀ (j : ℕ) (hj : j < r) (t : Fin k), Y ⟨j, hj⟩ t = X ⟨l[j], hc _ (List.getElem_mem _)⟩ t) ∧
      (l.Nodup → ∃ M : Matrix (Fin r) (Fin c) ℝ, ActsAs S M ∧ M * Mᵀ = 1) := by
  have hget : ∀ j : Fin r, l.getD j.1 0 = l[j.1]'(by omega) := fun j => by
    rw [List.getD_eq_getElem?_getD, List.getElem?_eq_getElem (by omega), Option.getD_some]
  have hlt : ∀ j : Fin r, l.getD j.1 0 < c := fun j => by
    rw [hget]; exact hc _ (List.getElem_mem _)
  refine ⟨samplingLinOp fun j => ⟨l.getD j.1 0, hlt j⟩, ?_, ?_, ?_, ?_⟩
  · unfold samplingOperator
    simp only [Py.assert_pos_bind (show l.length = min r c by omega), Py.pure_bind']
    rw [dif_pos hrc]
    exact congrFun (congrArg Py.lift (samplingBuild_ok fun j : Fin r => (⟨l.getD j.1 0, hlt j⟩ : Fin c))) w
  · refine fun x => ⟨_, rfl, fun j hj => ?_⟩
    simp only [hget ⟨j, hj⟩]
  · refine fun k X => ⟨_, rfl, fun j hj t => ?_⟩
    simp only [submatrix_apply, hget ⟨j, hj⟩, id_eq]
  · intro hd
    have hinj : Function.Injective fun j : Fin r => (⟨l.getD j.1 0, hlt j⟩ : Fin c) := by
      intro a b hab
      have hab : l.getD a.1 0 = l.getD b.1 0 := Fin.mk.inj hab
      rw [hget, hget] at hab
      exact Fin.ext (hd.getElem_inj_iff.1 hab)
    exact ⟨_, samplingLinOp_acts hinj, selMat_gram hinj⟩

/-- **C48** (argument errors).  With a wrong number of indices `sampling_operator` raises
`AssertionError` in either orientation; for `n_rows ≤ n_cols` an index outside `range(n_cols)` raises
`IndexError`. -/
theorem C48_sampling_errors (R : NpRng G) (l : List ℕ) (r c : ℕ) (w : World G) :
    (l.length ≠ min r c → samplingOperator R (some l) r c w = .error .assertion) ∧
    (r ≤ c → l.length = r → (∃ i ∈ l, c ≤ i) → samplingOperator R (some l) r c w = .error .index) := by
  constructor
  · intro h
    unfold samplingOperator
    simp only [Py.assert_neg_bind h, Py.raise_bind]
    rfl
  · rintro hrc hl ⟨i, hi, hci⟩
    unfold samplingOperator
    simp only [Py.assert_pos_bind (show l.length = min r c by omega), Py.pure_bind']
    rw [dif_pos hrc]
    unfold samplingBuild
    rw [dif_neg]
    · rfl
    · intro h
      obtain ⟨j, hj, rfl⟩ := List.getElem_of_mem hi
      have := h ⟨j, by omega⟩
      simp only [Fin.val_cast] at this
      rw [List.getD_eq_getElem?_getD, List.getElem?_eq_getElem (by omega), Option.getD_some] at this
      omega

/-- **C48** (wide operators, no indices).  For `n_rows ≤ n_cols` and `indices = None` the operator
selects distinct coordinates, in increasing order, that are one draw without replacement from the
caller's generator. -/
theorem C48_sampling_wide_drawn (R : NpRng G) (r c : ℕ) (hrc : r ≤ c) (w : World G) :
    ∃ S w', samplingOperator R none r c w = .ok (S, w') ∧ w'.warns = w.warns ∧
      w'.rng = (R.choiceNoRepl c r hrc w.rng).2 ∧
      ∃ f : Fin r → Fin c, StrictMono f ∧ Set.range f = Set.range (R.choiceNoRepl c r hrc w.rng).1 ∧
        ActsAs S (selMat f) ∧ selMat f * (selMat f)ᵀ = 1 := by
  have key : ∀ (a b : ℕ) (ha : b = r) (hb : a = c), ∃ f : Fin b → Fin a, ∃ w',
      sampleSorted R a b w = .ok (f, w') ∧ ∀ x : Fin b → ℕ, (∀ j, x j = (f j).1) →
        w'.warns = w.warns ∧ w'.rng = (R.choiceNoRepl c r hrc w.rng).2 ∧ ∃ S : SkLinOp r c,
        samplingBuild (fun j : Fin r => x (j.cast ha.symm)) = .ok S ∧ 
        ∃ f : Fin r → Fin c, StrictMono f ∧
          Set.range f = Set.range (R.choiceNoRepl c r hrc w.rng).1 ∧
          ActsAs S (selMat f) ∧ selMat f * (selMat f)ᵀ = 1 := by
    rintro a b rfl rfl
    obtain ⟨f, w', h⟩ := sampleSorted_total R hrc w
    obtain ⟨e1, e2, e3, hk, e4, e5⟩ := sampleSorted_ok h
    refine ⟨f, w', h, fun x hx => ⟨e2, e5, samplingLinOp f, ?_, f, e1, e4,
      samplingLinOp_acts e1.injective, selMat_gram e1.injective⟩⟩
    obtain rfl : x = fun j => (f j).1 := funext hx
    exact samplingBuild_ok f
  obtain ⟨f, w', h1, h2⟩ := key (max r c) (min r c) (by omega) (by omega)
  obtain ⟨e1, e2, S, e3, e4⟩ := h2 _ (fun _ => rfl)
  refine ⟨S, w', ?_, e1, e2, e4⟩
  unfold samplingOperator
  simp only []
  rw [Py.bind_eq_of_ok (Py.bind_eq_of_ok h1), dif_pos hrc, e3]
  rfl

/-- **C48** (tall operators).  For `n_rows > n_cols` and `n_cols` given indices the call leaves the
caller's generator alone and returns the transpose of a selection of `n_cols` distinct coordinates in
increasing order; these are drawn from a fresh generator seeded with the indices.  The adjoint product
with a vector picks the coordinates, and it is now the forward product with an array that raises
`TypeError`. -/
theorem C48_sampling_tall_given (R : NpRng G) (l : List ℕ) (r c : ℕ) (hrc : c < r) (hl : l.length = c)
    (w : World G) :
    ∃ S, samplingOperator R (some l) r c w = .ok (S, w) ∧
      ∃ f : Fin c → Fin r, StrictMono f ∧
        Set.range f = Set.range (R.choiceNoRepl r c hrc.le (R.seed l)).1 ∧
        ActsAs S.T (selMat f) ∧ selMat f * (selMat f)ᵀ = 1 := by
  obtain ⟨f, w', h⟩ := sampleSorted_total R hrc.le ⟨R.seed l, 0, []⟩
  obtain ⟨e1, e2, e3, hk, e4, e5⟩ := sampleSorted_ok h
  refine ⟨(samplingLinOp f).T, ?_, f, e1, e4, samplingLinOp_acts e1.injective, selMat_gram e1.injective⟩
  have hidx : List.ofFn (fun j : Fin (min r c) => l.getD j.1 0) = l := by
    apply List.ext_getElem
    · rw [List.length_ofFn]; omega
    · intro i h1 h2
      rw [List.getElem_ofFn, List.getD_eq_getElem?_getD, List.getElem?_eq_getElem h2, Option.getD_some]
  unfold samplingOperator
  simp only [Py.assert_pos_bind (show l.length = min r c by omega), Py.pure_bind']
  rw [dif_neg (by omega)]
  simp only [hidx, h, samplingBuild_ok]
  rfl

/-- **C48** (tall operators, no indices).  One draw is made from the caller's generator; the result is
again the transpose of an increasing selection, drawn from a generator seeded with that draw. -/
theorem C48_sampling_tall_drawn (R : NpRng G) (r c : ℕ) (hrc : c < r) (w : World G) :
    ∃ S w', samplingOperator R none r c w = .ok (S, w') ∧ w'.warns = w.warns ∧
      ∃ f : Fin c → Fin r, StrictMono f ∧ ActsAs S.T (selMat f) ∧ selMat f * (selMat f)ᵀ = 1 := by
  obtain ⟨g, w₁, h1⟩ := sampleSorted_total R (show min r c ≤ max r c by omega) w
  obtain ⟨-, e2, -⟩ := sampleSorted_ok h1
  obtain ⟨f, w', h⟩ := sampleSorted_total R hrc.le ⟨R.seed (List.ofFn fun j => (g j).1), 0, []⟩
  obtain ⟨e1, -, -⟩ := sampleSorted_ok h
  refine ⟨(samplingLinOp f).T, w₁, ?_, e2, f, e1, samplingLinOp_acts e1.injective,
    selMat_gram e1.injective⟩
  unfold samplingOperator
  simp only []
  rw [Py.bind_eq_of_ok (Py.bind_eq_of_ok h1), dif_neg (by omega)]
  simp only [h, samplingBuild_ok]
  rfl

/-- **C48** (the selected indices are not honoured by tall operators).  There is a generator for which
`sampling_operator(2, 1, rng, indices=[1])` selects coordinate 0: its adjoint maps `(x0, x1)` to `x0`. -/
theorem C48_sampling_tall_ignores_indices :
    ∃ S w', samplingOperator demoRng (some [1]) 2 1 ⟨0, 0, []⟩ = .ok (S, w') ∧
      ∀ x : Fin 2 → ℝ, S.rmv x = .ok (fun _ => x 0) := by
  obtain ⟨S, h, f, h1, h2, h3, -⟩ :=
    C48_sampling_tall_given demoRng [1] 2 1 (by norm_num) rfl ⟨0, 0, []⟩
  refine ⟨S, _, h, fun x => ?_⟩
  have hf : f 0 = 0 := by
    have : f 0 ∈ Set.range f := ⟨0, rfl⟩
    rw [h2] at this
    obtain ⟨j, hj⟩ := this
    rw [← hj]
    obtain rfl : j = 0 := Subsingleton.elim _ _
    rfl
  have := h3.1 x
  rw [selMat_mulVec] at this
  rw [show S.rmv x = S.T.mv x from rfl, this]
  congr 1
  funext j
  rw [Function.comp, Subsingleton.elim j 0, hf]

/-- **C48** (repeated indices).  With repeated indices the adjoint product is wrong: for
`sampling_operator(2, 2, rng, [0, 0])` the forward product is that of `M = [1 0; 1 0]` but the adjoint
product is not that of `M'`. -/
theorem C48_sampling_repeated (R : NpRng G) (w : World G) :
    ∃ S, samplingOperator R (some [0, 0]) 2 2 w = .ok (S, w) ∧
      (∀ x, S.mv x = .ok (!![1, 0; 1, 0] *ᵥ x)) ∧ S.rmv ![1, 0] = .ok ![0, 0] ∧
      !![(1 : ℝ), 0; 1, 0]ᵀ *ᵥ ![1, 0] = ![1, 0] := by
  refine ⟨samplingLinOp fun _ => 0, ?_, fun x => ?_, ?_, ?_⟩
  · unfold samplingOperator
    simp only [Py.assert_pos_bind (show [0, 0].length = min 2 2 by rfl), Py.pure_bind']
    rw [dif_pos le_rfl]
    have : (fun j : Fin 2 => [0, 0].getD (j.cast (Nat.min_eq_left (le_refl 2)).symm).1 0) =
        fun _ => 0 := by
      funext j; fin_cases j <;> rfl
    rw [this]
    exact congrFun (congrArg Py.lift (samplingBuild_ok fun _ : Fin 2 => (0 : Fin 2))) w
  · show Except.ok _ = _
    congr 1
    funext j
    fin_cases j <;> simp [mulVec, dotProduct, Fin.sum_univ_two]
  · show Except.ok (scatter _ _) = _
    congr 1
    unfold scatter
    rw [show List.finRange 2 = [0, 1] from rfl]
    funext j
    fin_cases j <;> simp [Function.update]
  · funext j
    fin_cases j <;> simp [mulVec, dotProduct, Fin.sum_univ_two]

/-- The hypotheses of `C48_sampling_wide_given` are met: `sampling_operator(2, 4, rng, [3, 1])`. -/
example : ∃ S, samplingOperator demoRng (some [3, 1]) 2 4 ⟨0, 0, []⟩ = .ok (S, ⟨0, 0, []⟩) ∧
    S.mv ![10, 11, 12, 13] = .ok ![13, 11] := by
  obtain ⟨S, h, h1, -⟩ := C48_sampling_wide_given demoRng [3, 1] 2 4 (by norm_num) rfl (by simp)
    ⟨0, 0, []⟩
  refine ⟨S, h, ?_⟩
  obtain ⟨y, hy, hv⟩ := h1 ![10, 11, 12, 13]
  rw [hy]
  congr 1
  funext j
  fin_cases j
  · exact hv 0 (by norm_num)
  · exact hv 1 (by norm_num)

end Parla.Props
