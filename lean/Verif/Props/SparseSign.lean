import Verif.Props.SJLTExpect

/-! # Property C46: `sparse_sign_operator` -/

namespace Parla.Props

open Matrix Parla Spec MeasureTheory

variable {G : Type}

/-- the generator state before the `k`-th mask is drawn -/
def maskState (R : NpRng G) (N : ℕ) (g : G) : ℕ → G
  | 0 => g
  | k + 1 => (R.random N (maskState R N g k)).2

/-- position `t` (row-major) is in the `k`-th mask drawn from state `g` -/
def inMask (R : NpRng G) (N : ℕ) (density : ℝ) (g : G) (k : ℕ) (t : Fin N) : Prop :=
  (R.random N (maskState R N g k)).1 t < density

theorem maskState_shift (R : NpRng G) (N : ℕ) (g : G) (k : ℕ) :
    maskState R N (R.random N g).2 k = maskState R N g (k + 1) := by
  induction k with
  | zero => rfl
  | succ k ih => show (R.random N _).2 = _; rw [ih]; rfl

theorem inMask_shift (R : NpRng G) (N : ℕ) (density : ℝ) (g : G) (k : ℕ) :
    inMask R N density (R.random N g).2 k = inMask R N density g (k + 1) := by
  unfold inMask; rw [maskState_shift]

/-- the loop, started after a mask was drawn from `g` -/
theorem maskLoop_spec (R : NpRng G) (N : ℕ) (density : ℝ) (g : G) (w : World G) (left : ℕ)
    (hw : w.rng = (R.random N g).2) :
    ((∀ k ≤ left, ∀ t, ¬ inMask R N density g k t) →
      maskLoop R N density left (inMask R N density g 0) w = .error .runtime) ∧
    ∀ k ≤ left, (∀ l < k, ∀ t, ¬ inMask R N density g l t) → (∃ t, inMask R N density g k t) →
      maskLoop R N density left (inMask R N density g 0) w =
        .ok (inMask R N density g k, { w with rng := maskState R N g (k + 1) }) := by
  induction left generalizing g w with
  | zero =>
    constructor
    · intro h
      unfold maskLoop
      rw [if_pos (h 0 le_rfl)]
      rfl
    · intro k hk h1 h2
      obtain rfl : k = 0 := by omega
      unfold maskLoop
      rw [if_neg (by push Not; exact h2), show maskState R N g (0 + 1) = (R.random N g).2 from rfl, ← hw]
      rfl
  | succ left ih =>
    have hdraw : (drawMask R N density : Py G _) w =
        .ok (inMask R N density (R.random N g).2 0,
          { w with rng := (R.random N (R.random N g).2).2 }) := by
      unfold drawMask inMask
      rw [← hw]
      rfl
    obtain ⟨ih1, ih2⟩ := ih (R.random N g).2 { w with rng := (R.random N (R.random N g).2).2 } rfl
    constructor
    · intro h
      unfold maskLoop
      rw [if_pos (h 0 (Nat.zero_le _))]
      show ((drawMask R N density) >>= fun mask => maskLoop R N density left mask) w = _
      rw [Py.bind_eq_of_ok hdraw]
      exact ih1 fun k hk t => by rw [inMask_shift]; exact h (k + 1) (by omega) t
    · intro k hk h1 h2
      cases k with
      | zero =>
        unfold maskLoop
        rw [if_neg (by push Not; exact h2), show maskState R N g (0 + 1) = (R.random N g).2 from rfl, ← hw]
        rfl
      | succ k =>
        unfold maskLoop
        rw [if_pos (h1 0 (by omega))]
        show ((drawMask R N density) >>= fun mask => maskLoop R N density left mask) w = _
        rw [Py.bind_eq_of_ok hdraw, ih2 k (by omega)
          (fun l hl t => by rw [inMask_shift]; exact h1 (l + 1) (by omega) t)
          (by rw [inMask_shift]; exact h2), inMask_shift, maskState_shift]

theorem mem_whereIdx {N : ℕ} {mask : Fin N → Prop} {t : Fin N} : t ∈ whereIdx mask ↔ mask t := by
  unfold whereIdx
  simp

theorem whereIdx_nodup {N : ℕ} (mask : Fin N → Prop) : (whereIdx mask).Nodup := by
  unfold whereIdx
  exact (List.nodup_finRange N).filter _

/-- distinct positions: no entries are added up -/
theorem coo_at {N r c : ℕ} {rows : Fin N → Fin r} {cols : Fin N → Fin c} (vals : Fin N → ℝ)
    (h : Function.Injective fun t => (rows t, cols t)) (t : Fin N) :
    coo rows cols vals (rows t) (cols t) = vals t := by
  unfold coo
  rw [of_apply, Finset.sum_eq_single t]
  · simp
  · intro s _ hs
    rw [if_neg]
    rintro ⟨h1, h2⟩
    exact hs (h (Prod.ext h1 h2))
  · intro h; exact absurd (Finset.mem_univ _) h

theorem coo_off {N r c : ℕ} {rows : Fin N → Fin r} {cols : Fin N → Fin c} (vals : Fin N → ℝ)
    {i : Fin r} {j : Fin c} (h : ∀ t, ¬ (rows t = i ∧ cols t = j)) : coo rows cols vals i j = 0 := by
  unfold coo
  rw [of_apply]
  exact Finset.sum_eq_zero fun t _ => if_neg (h t)

theorem whereIdx_pos_inj {r c : ℕ} (mask : Fin (r * c) → Prop) :
    Function.Injective fun t => ((finProdFinEquiv.symm ((whereIdx mask).get t)).1,
      (finProdFinEquiv.symm ((whereIdx mask).get t)).2) := by
  intro s t h
  have : finProdFinEquiv.symm ((whereIdx mask).get s) = finProdFinEquiv.symm ((whereIdx mask).get t) := h
  exact List.nodup_iff_injective_get.1 (whereIdx_nodup mask) (finProdFinEquiv.symm.injective this)

/-- entries of the assembled matrix -/
theorem sparseSignMat_entry {r c : ℕ} (density : ℝ) (mask : Fin (r * c) → Prop)
    (u : Fin (whereIdx mask).length → ℝ) (i : Fin r) (j : Fin c) :
    (¬ mask (finProdFinEquiv (i, j)) → sparseSignMat density mask u i j = 0) ∧
    (mask (finProdFinEquiv (i, j)) →
      ∃ t, (whereIdx mask).get t = finProdFinEquiv (i, j) ∧ sparseSignMat density mask u i j =
        (if u t < 1 / 2 then -1 else 1) / Real.sqrt ((min r c : ℕ) * density)) := by
  constructor
  · intro h
    refine coo_off _ fun t ht => h ?_
    have : finProdFinEquiv.symm ((whereIdx mask).get t) = (i, j) := Prod.ext ht.1 ht.2
    rw [← this, Equiv.apply_symm_apply]
    exact mem_whereIdx.1 (List.get_mem _ _)
  · intro h
    obtain ⟨t, ht⟩ := List.mem_iff_get.1 (mem_whereIdx.2 h)
    refine ⟨t, ht, ?_⟩
    have e := coo_at (fun t => (if u t < 1 / 2 then -1 else 1) / Real.sqrt ((min r c : ℕ) * density))
      (whereIdx_pos_inj mask) t
    rw [ht, Equiv.symm_apply_apply] at e
    convert e using 1
    unfold sparseSignMat
    congr!

theorem sparseSign_eq (R : NpRng G) (density : ℝ) (r c : ℕ) (w : World G) :
    ((∀ k ≤ 10, ∀ t, ¬ inMask R (r * c) density w.rng k t) →
      sparseSignOperator R density r c w = .error .runtime) ∧
    ∀ k ≤ 10, (∀ l < k, ∀ t, ¬ inMask R (r * c) density w.rng l t) →
      (∃ t, inMask R (r * c) density w.rng k t) →
      sparseSignOperator R density r c w =
        .ok (sparseSignMat density (inMask R (r * c) density w.rng k)
            (R.random _ (maskState R (r * c) w.rng (k + 1))).1,
          { w with rng := (R.random (whereIdx (inMask R (r * c) density w.rng k)).length
            (maskState R (r * c) w.rng (k + 1))).2 }) := by
  have hdraw : (drawMask R (r * c) density : Py G _) w =
      .ok (inMask R (r * c) density w.rng 0, { w with rng := (R.random (r * c) w.rng).2 }) := rfl
  obtain ⟨h1, h2⟩ := maskLoop_spec R (r * c) density w.rng { w with rng := (R.random (r * c) w.rng).2 } 10 rfl
  constructor
  · intro h
    unfold sparseSignOperator
    rw [Py.bind_eq_of_ok hdraw, Py.bind_eq_of_error (h1 h)]
  · intro k hk hl ht
    unfold sparseSignOperator
    rw [Py.bind_eq_of_ok hdraw, Py.bind_eq_of_ok (h2 k hk hl ht)]
    rfl

theorem first_mask (R : NpRng G) (N : ℕ) (density : ℝ) (g : G) :
    (∀ k ≤ 10, ∀ t, ¬ inMask R N density g k t) ∨
    ∃ k ≤ 10, (∀ l < k, ∀ t, ¬ inMask R N density g l t) ∧ ∃ t, inMask R N density g k t := by
  classical
  by_cases h : ∃ k, k ≤ 10 ∧ ∃ t, inMask R N density g k t
  · obtain ⟨hk, ht⟩ := Nat.find_spec h
    refine Or.inr ⟨Nat.find h, hk, fun l hl t hlt => ?_, ht⟩
    exact Nat.find_min h hl ⟨by omega, t, hlt⟩
  · push Not at h
    exact Or.inl h

/-- **C46** (retry bound).  The call raises `RuntimeError` exactly if the first eleven masks drawn
are all empty, and otherwise succeeds. -/
theorem C46_sparse_sign_retry (R : NpRng G) (density : ℝ) (r c : ℕ) (w : World G) :
    (sparseSignOperator R density r c w = .error .runtime ↔
      ∀ k ≤ 10, ∀ t, ¬ inMask R (r * c) density w.rng k t) ∧
    ((∃ k ≤ 10, ∃ t, inMask R (r * c) density w.rng k t) →
      ∃ S w', sparseSignOperator R density r c w = .ok (S, w')) := by
  obtain ⟨h1, h2⟩ := sparseSign_eq R density r c w
  rcases first_mask R (r * c) density w.rng with h | ⟨k, hk, hl, ht⟩
  · refine ⟨⟨fun _ => h, h1⟩, fun ⟨k, hk, t, ht⟩ => absurd ht (h k hk t)⟩
  · rw [h2 k hk hl ht]
    refine ⟨⟨(nomatch ·), fun h => ?_⟩, fun _ => ⟨_, _, rfl⟩⟩
    obtain ⟨t, ht⟩ := ht
    exact absurd ht (h k hk t)

/-- **C46** (structure).  A successful call uses the first nonempty mask among the first eleven:
entry `(i, j)` is nonzero exactly if the uniform at flat (row-major) position `i * n_cols + j` of
that mask is below the density, and then it is `± 1/sqrt(min(n_rows, n_cols) * density)`.  The
generator is advanced by the masks drawn and one further draw of as many uniforms as there are
nonzeros; nothing else is observable. -/
theorem C46_sparse_sign_structure (R : NpRng G) (density : ℝ) (r c : ℕ) (w w' : World G)
    (S : Matrix (Fin r) (Fin c) ℝ) (h : sparseSignOperator R density r c w = .ok (S, w')) :
    ∃ k ≤ 10, (∀ l < k, ∀ t, ¬ inMask R (r * c) density w.rng l t) ∧
      (∃ t, inMask R (r * c) density w.rng k t) ∧
      (∀ (i : Fin r) (j : Fin c) (t : Fin (r * c)), t.1 = i.1 * c + j.1 →
        (S i j ≠ 0 ↔ inMask R (r * c) density w.rng k t)) ∧
      (∀ i j, S i j = 0 ∨ S i j = 1 / Real.sqrt ((min r c : ℕ) * density) ∨
        S i j = -(1 / Real.sqrt ((min r c : ℕ) * density))) ∧
      (∃ nnz, w' = { w with rng := (R.random nnz (maskState R (r * c) w.rng (k + 1))).2 }) := by
  obtain ⟨h1, h2⟩ := sparseSign_eq R density r c w
  rcases first_mask R (r * c) density w.rng with h' | ⟨k, hk, hl, ht⟩
  · rw [h1 h'] at h; cases h
  · rw [h2 k hk hl ht] at h
    cases h
    have hpos : 0 < Real.sqrt ((min r c : ℕ) * density) := by
      obtain ⟨t, ht⟩ := ht
      have h0 := R.random_nonneg (r * c) (maskState R (r * c) w.rng k) t
      have hd : 0 < density := lt_of_le_of_lt h0 ht
      have hrc : 0 < r * c := by have := t.2; omega
      have hm : 0 < min r c := by
        rw [Nat.lt_min]; exact ⟨Nat.pos_of_mul_pos_right hrc, Nat.pos_of_mul_pos_left hrc⟩
      have : (0 : ℝ) < (min r c : ℕ) := by exact_mod_cast hm
      positivity
    have ent := sparseSignMat_entry density (inMask R (r * c) density w.rng k)
      (R.random _ (maskState R (r * c) w.rng (k + 1))).1
    refine ⟨k, hk, hl, ht, fun i j t hij => ?_, fun i j => ?_, _, rfl⟩
    · have e : t = finProdFinEquiv (i, j) := by
        apply Fin.ext
        rw [hij]
        simp only [finProdFinEquiv_apply_val]
        ring
      rw [e]
      by_cases hm : inMask R (r * c) density w.rng k (finProdFinEquiv (i, j))
      · obtain ⟨s, -, hs⟩ := (ent i j).2 hm
        refine ⟨fun _ => hm, fun _ => ?_⟩
        rw [hs]
        refine div_ne_zero ?_ hpos.ne'
        split <;> norm_num
      · exact ⟨fun h => absurd ((ent i j).1 hm) h, fun h => absurd h hm⟩
    · by_cases hm : inMask R (r * c) density w.rng k (finProdFinEquiv (i, j))
      · obtain ⟨s, -, hs⟩ := (ent i j).2 hm
        rw [hs]
        split
        · exact Or.inr (Or.inr (neg_div _ _))
        · exact Or.inr (Or.inl rfl)
      · exact Or.inl ((ent i j).1 hm)

/-- **C46** (low density): a density that is not positive always raises `RuntimeError`. -/
theorem C46_sparse_sign_nonpos (R : NpRng G) (density : ℝ) (hd : density ≤ 0) (r c : ℕ) (w : World G) :
    sparseSignOperator R density r c w = .error .runtime := by
  refine (C46_sparse_sign_retry R density r c w).1.2 fun k _ t => ?_
  have := R.random_nonneg (r * c) (maskState R (r * c) w.rng k) t
  unfold inMask
  linarith

/-- **C46** (density one): every uniform is below one, so the operator is dense and the first mask
is used. -/
theorem C46_sparse_sign_dense (R : NpRng G) (density : ℝ) (hd : 1 ≤ density) (r c : ℕ) (hr : 0 < r)
    (hc : 0 < c) (w : World G) : ∃ S w', sparseSignOperator R density r c w = .ok (S, w') ∧
      ∀ i j, S i j ≠ 0 := by
  have hm : ∀ k t, inMask R (r * c) density w.rng k t := fun k t => by
    have := R.random_lt_one (r * c) (maskState R (r * c) w.rng k) t
    unfold inMask; linarith
  obtain ⟨S, w', h⟩ := (C46_sparse_sign_retry R density r c w).2
    ⟨0, by norm_num, ⟨0, Nat.mul_pos hr hc⟩, hm _ _⟩
  refine ⟨S, w', h, fun i j => ?_⟩
  obtain ⟨k, -, -, -, h4, -⟩ := C46_sparse_sign_structure R density r c w w' S h
  have hlt : i.1 * c + j.1 < r * c := by
    have := (finProdFinEquiv (i, j)).2
    rw [finProdFinEquiv_apply_val] at this
    linarith
  exact (h4 i j ⟨_, hlt⟩ rfl).2 (hm _ _)

/-- **C46** is not vacuous: with `demoRng` (uniforms `1/4`), density `1/2` gives a dense operator. -/
example : ∃ S w', sparseSignOperator demoRng (1 / 2) 2 3 ⟨0, 0, []⟩ = .ok (S, w') ∧ ∀ i j, S i j ≠ 0 := by
  have hm : ∀ k t, inMask demoRng (2 * 3) (1 / 2) 0 k t := fun k t => by
    unfold inMask; show (1 / 4 : ℝ) < 1 / 2; norm_num
  obtain ⟨S, w', h⟩ := (C46_sparse_sign_retry demoRng (1 / 2) 2 3 ⟨0, 0, []⟩).2
    ⟨0, by norm_num, 0, hm _ _⟩
  refine ⟨S, w', h, fun i j => ?_⟩
  obtain ⟨k, -, -, -, h4, -⟩ := C46_sparse_sign_structure demoRng (1 / 2) 2 3 _ w' S h
  exact (h4 i j ⟨i.1 * 3 + j.1, by omega⟩ rfl).2 (hm _ _)

/-- ... and density `1/8` raises. -/
example : sparseSignOperator demoRng (1 / 8) 2 3 ⟨0, 0, []⟩ = .error .runtime :=
  (C46_sparse_sign_retry demoRng (1 / 8) 2 3 ⟨0, 0, []⟩).1.2 fun k _ t => by
    unfold inMask; show ¬ (1 / 4 : ℝ) < 1 / 8; norm_num

end Parla.Props
