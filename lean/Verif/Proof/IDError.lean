import Verif.Proof.ID
import Mathlib.Tactic.Positivity
import Mathlib.Tactic.Linarith

/-! Error bounds for interpolative decompositions (helper lemmas): growth of the coefficients produced
by back substitution with a greedily pivoted triangular factor, and its rank-revealing quality. -/

namespace Parla.Proof

open Matrix Spec Parla

variable {m n k c d : ℕ}

/-- Back substitution with unit-bounded multipliers grows at most by powers of two. -/
theorem backsub_bound {a : ℝ} (ha : 0 ≤ a) (k : ℕ) (f : Fin k → ℝ)
    (h : ∀ i, |f i| ≤ a + ∑ l, if i < l then |f l| else 0) :
    (∑ i, |f i| ≤ a * (2 ^ k - 1)) ∧ (∑ i, f i ^ 2 ≤ a ^ 2 * ((4 ^ k - 1) / 3)) ∧
      ∀ i : Fin k, |f i| ≤ a * 2 ^ (k - 1 - i.1) := by
  induction k with
  | zero => simp
  | succ k ih =>
    obtain ⟨h1, h2, h3⟩ := ih (fun i => f i.succ) (fun i => by
      have := h i.succ
      rw [Fin.sum_univ_succ] at this
      rw [if_neg (by simp), zero_add] at this
      simpa only [Fin.succ_lt_succ_iff] using this)
    have h0 : |f 0| ≤ a * 2 ^ k := by
      have := h 0
      rw [Fin.sum_univ_succ] at this
      simp only [lt_irrefl, if_false, zero_add, Fin.succ_pos, if_true] at this
      nlinarith
    have h0s : f 0 ^ 2 ≤ a ^ 2 * 4 ^ k := by
      have e : a ^ 2 * 4 ^ k = (a * 2 ^ k) ^ 2 := by
        rw [mul_pow, ← pow_mul, mul_comm k 2, pow_mul]; norm_num
      rw [e, ← sq_abs]
      exact pow_le_pow_left₀ (abs_nonneg _) h0 2
    refine ⟨?_, ?_, ?_⟩
    · rw [Fin.sum_univ_succ]
      calc |f 0| + ∑ i : Fin k, |f i.succ| ≤ a * 2 ^ k + a * (2 ^ k - 1) := add_le_add h0 h1
        _ = a * (2 ^ (k + 1) - 1) := by ring
    · rw [Fin.sum_univ_succ]
      calc f 0 ^ 2 + ∑ i : Fin k, f i.succ ^ 2 ≤ a ^ 2 * 4 ^ k + a ^ 2 * ((4 ^ k - 1) / 3) :=
            add_le_add h0s h2
        _ = a ^ 2 * ((4 ^ (k + 1) - 1) / 3) := by ring
    · intro i
      refine Fin.cases ?_ (fun i => ?_) i
      · simpa using h0
      · have := h3 i
        have e : k + 1 - 1 - (i.succ).1 = k - 1 - i.1 := by simp; omega
        rwa [e]

/-- pivoting: entries to the right of a pivot are no larger than it -/
theorem qrp_entry_le (la : LinAlg) (Y : Matrix (Fin m) (Fin n) ℝ) (i l : Fin (min m n)) (j : Fin n)
    (hij : i.1 ≤ j.1) (hil : i ≤ l) : |(la.qrp Y).2.1 l j| ≤ |(la.qrp Y).2.1 i (minR i)| := by
  apply sq_le_sq.1
  refine le_trans ?_ (la.qrp_pivot Y i j hij)
  exact Finset.single_le_sum (f := fun l => (la.qrp Y).2.1 l j ^ 2) (fun _ _ => sq_nonneg _)
    (Finset.mem_filter.2 ⟨Finset.mem_univ l, hil⟩)

/-- Solving with a leading block of the pivoted triangular factor. -/
theorem lead_solve_le (la : LinAlg) (Y : Matrix (Fin m) (Fin n) ℝ) (hk : k ≤ min m n) {a : ℝ} (ha : 0 ≤ a)
    (v w : Fin k → ℝ)
    (hne : ∀ i : Fin k, (la.qrp Y).2.1 (Fin.castLE hk i) (minR (Fin.castLE hk i)) ≠ 0)
    (hw : ∀ i : Fin k, |w i| ≤ a * |(la.qrp Y).2.1 (Fin.castLE hk i) (minR (Fin.castLE hk i))|)
    (hv : (la.qrp Y).2.1.submatrix (Fin.castLE hk) (Fin.castLE (hk.trans (min_le_right m n))) *ᵥ v = w) :
    (∑ i, v i ^ 2 ≤ a ^ 2 * ((4 ^ k - 1) / 3)) ∧ ∀ i : Fin k, |v i| ≤ a * 2 ^ (k - 1 - i.1) := by
  refine (backsub_bound ha k v fun i => ?_).2
  obtain ⟨R, hR⟩ : ∃ R, R = (la.qrp Y).2.1 := ⟨_, rfl⟩
  rw [← hR] at hv
  have hni := hne i
  have hwi := hw i
  rw [← hR] at hni hwi
  obtain ⟨ρ, hρ⟩ : ∃ ρ, ρ = R (Fin.castLE hk i) (minR (Fin.castLE hk i)) := ⟨_, rfl⟩
  rw [← hρ] at hni hwi
  have hpos : 0 < |ρ| := abs_pos.2 hni
  have hrow : ρ * v i = w i - ∑ l, if i < l then R (Fin.castLE hk i) (Fin.castLE (hk.trans (min_le_right m n)) l) * v l else 0 := by
    have e := congrFun hv i
    simp only [mulVec, dotProduct, submatrix_apply] at e
    rw [← e, eq_sub_iff_add_eq]
    have : ρ * v i = ∑ l, if l = i then ρ * v i else 0 := by simp
    rw [this, ← Finset.sum_add_distrib]
    refine Finset.sum_congr rfl fun l _ => ?_
    rcases lt_trichotomy l i with hl | hl | hl
    · rw [if_neg hl.ne, if_neg hl.not_gt, hR, la.qrp_upper Y _ _ (by exact hl)]; ring
    · subst hl; rw [if_pos rfl, if_neg (lt_irrefl _), hρ, add_zero]; rfl
    · rw [if_neg hl.ne', if_pos hl, zero_add]
  have habs : |ρ| * |v i| ≤ |ρ| * (a + ∑ l, if i < l then |v l| else 0) := by
    rw [← abs_mul, hrow]
    refine (abs_sub _ _).trans ?_
    rw [mul_add, mul_comm |ρ| a]
    refine add_le_add hwi ?_
    refine (Finset.abs_sum_le_sum_abs _ _).trans ?_
    rw [Finset.mul_sum]
    refine Finset.sum_le_sum fun l _ => ?_
    by_cases hl : i < l
    · rw [if_pos hl, if_pos hl, abs_mul]
      refine mul_le_mul_of_nonneg_right ?_ (abs_nonneg _)
      rw [hR, hρ, hR]
      exact qrp_entry_le la Y _ _ _ (by exact hl.le) le_rfl
    · rw [if_neg hl, if_neg hl]; simp
  exact le_of_mul_le_mul_left habs hpos

theorem sum_ite_lt (hk : k ≤ n) (a b : ℝ) :
    ∑ j : Fin n, (if j.1 < k then a else b) = k * a + (n - k) * b := by
  have e : ∀ j : Fin n, (if j.1 < k then a else b) = b + if j.1 < k then a - b else 0 := by
    intro j; split <;> ring
  simp only [e]
  rw [Finset.sum_add_distrib, Finset.sum_const, Finset.card_univ, Fintype.card_fin, ← Finset.sum_filter,
    Finset.sum_const]
  have hc : (Finset.univ.filter fun j : Fin n => j.1 < k).card = k := by
    rw [Fin.card_filter_val_lt, min_eq_right hk]
  rw [hc, nsmul_eq_mul, nsmul_eq_mul]
  ring

/-- The coefficients of `qrcp_osid` grow at most by powers of two. -/
theorem qrcpCol_growth (la : LinAlg) {Y : Matrix (Fin m) (Fin n) ℝ} {o : ColID n}
    (h : qrcpCol la Y k = .ok o) :
    (∀ (i : Fin o.c) (j : Fin n), |o.X i j| ≤ 2 ^ (k - 1 - i.1)) ∧
      froSq o.X ≤ k + (n - k) * ((4 ^ k - 1) / 3) := by
  unfold qrcpCol at h
  by_cases hk : k ≤ min m n
  swap
  · rw [dif_neg hk] at h; cases h
  rw [dif_pos hk] at h
  simp only [bind, Except.bind] at h
  have hkn : k ≤ n := hk.trans (min_le_right m n)
  cases hs : solveUpper ((la.qrp Y).2.1.submatrix (Fin.castLE hk) (Fin.castLE hkn))
      ((la.qrp Y).2.1.submatrix (Fin.castLE hk) (fun j : Fin (n - k) => (⟨k + j.1, by omega⟩ : Fin n))) with
  | error e => rw [hs] at h; cases h
  | ok T =>
    rw [hs] at h
    simp only at h
    cases h
    obtain ⟨hd, hT⟩ := solveUpper_ok hs
    have hlu : triu ((la.qrp Y).2.1.submatrix (Fin.castLE hk) (Fin.castLE hkn)) =
        (la.qrp Y).2.1.submatrix (Fin.castLE hk) (Fin.castLE hkn) :=
      triu_eq_self fun i j hij => la.qrp_upper Y _ _ hij
    rw [hlu] at hT
    have hne : ∀ i : Fin k, (la.qrp Y).2.1 (Fin.castLE hk i) (minR (Fin.castLE hk i)) ≠ 0 :=
      fun i e => hd ⟨i, e⟩
    have hcol : ∀ j : Fin (n - k), (∑ i, T i j ^ 2 ≤ (4 ^ k - 1) / 3) ∧
        ∀ i : Fin k, |T i j| ≤ 2 ^ (k - 1 - i.1) := by
      intro j
      have := lead_solve_le la Y hk zero_le_one (fun i => T i j)
        (fun i => (la.qrp Y).2.1 (Fin.castLE hk i) ⟨k + j.1, by omega⟩) hne (fun i => by
          rw [one_mul]
          exact qrp_entry_le la Y _ _ _ (by show i.1 ≤ k + j.1; omega) le_rfl) (by
          ext i
          exact congrFun (congrFun hT i) j)
      simpa using this
    have hH : ∀ j : Fin n, (∑ i, eyeStack T i j ^ 2 ≤ if j.1 < k then 1 else (4 ^ k - 1) / 3) ∧
        ∀ i : Fin k, |eyeStack T i j| ≤ 2 ^ (k - 1 - i.1) := by
      intro j
      by_cases hj : j.1 < k
      · rw [if_pos hj]
        constructor
        · refine le_of_eq ?_
          rw [Finset.sum_eq_single ⟨j.1, hj⟩]
          · simp [eyeStack, hj]
          · intro b _ hb
            simp only [eyeStack, of_apply, dif_pos hj]
            rw [if_neg (fun e => hb (Fin.ext e))]; norm_num
          · simp
        · intro i
          simp only [eyeStack, of_apply, dif_pos hj]
          split
          · rw [abs_one]; exact one_le_pow₀ one_le_two
          · rw [abs_zero]; positivity
      · rw [if_neg hj]
        simp only [eyeStack, of_apply, dif_neg hj]
        exact hcol ⟨j.1 - k, by omega⟩
    refine ⟨fun i j => (hH _).2 i, ?_⟩
    show froSq ((eyeStack T).submatrix id (la.qrp Y).2.2.symm) ≤ _
    have e : froSq ((eyeStack T).submatrix id (la.qrp Y).2.2.symm) = ∑ j, ∑ i, eyeStack T i j ^ 2 := by
      unfold froSq
      rw [Finset.sum_comm]
      simp only [submatrix_apply, id]
      exact Equiv.sum_comp (la.qrp Y).2.2.symm (fun j => ∑ i, eyeStack T i j ^ 2)
    rw [e]
    refine (Finset.sum_le_sum fun j _ => (hH j).1).trans ?_
    rw [sum_ite_lt hkn, mul_one]

theorem exists_null (B : Matrix (Fin m) (Fin (k + 1)) ℝ) (hB : B.rank ≤ k) : ∃ v, v ≠ 0 ∧ B *ᵥ v = 0 := by
  by_contra hcon
  push Not at hcon
  have : FullColRank B := fullColRank_iff_inj.2 fun x hx => by
    by_contra hne
    exact hcon x hne hx
  have h2 : B.rank = k + 1 := this
  omega

/-- Rank-revealing quality of greedy pivoting: the pivot after `k` steps is bounded by the distance to
the matrices of rank at most `k`. -/
theorem qrp_pivot_le_dist (la : LinAlg) (Y B : Matrix (Fin m) (Fin n) ℝ) (hB : B.rank ≤ k) (hk : k < min m n) :
    (la.qrp Y).2.1 ⟨k, hk⟩ (minR ⟨k, hk⟩) ^ 2 ≤ (4 ^ (k + 1) - 1) / 3 * froSq (Y - B) := by
  obtain ⟨R, hR⟩ : ∃ R, R = (la.qrp Y).2.1 := ⟨_, rfl⟩
  obtain ⟨ρ, hρ⟩ : ∃ ρ, ρ = R ⟨k, hk⟩ (minR ⟨k, hk⟩) := ⟨_, rfl⟩
  rw [← hR, ← hρ]
  have h4 : (1 : ℝ) ≤ 4 ^ (k + 1) := one_le_pow₀ (by norm_num)
  have hg : (0 : ℝ) ≤ (4 ^ (k + 1) - 1) / 3 := by linarith
  by_cases h0 : ρ = 0
  · rw [h0]
    have := mul_nonneg hg (froSq_nonneg (Y - B))
    linarith
  have hk1 : k + 1 ≤ min m n := hk
  have hkn : k + 1 ≤ n := hk1.trans (min_le_right m n)
  have hpiv : ∀ i : Fin (k + 1), |ρ| ≤ |R (Fin.castLE hk1 i) (minR (Fin.castLE hk1 i))| := by
    intro i
    rw [hρ, hR]
    exact qrp_entry_le la Y _ _ _ (by show i.1 ≤ k; omega) (by show i.1 ≤ k; omega)
  have hne : ∀ i : Fin (k + 1), R (Fin.castLE hk1 i) (minR (Fin.castLE hk1 i)) ≠ 0 := by
    intro i e
    have := hpiv i
    rw [e, abs_zero] at this
    exact h0 (abs_eq_zero.1 (le_antisymm this (abs_nonneg _)))
  obtain ⟨f, hf⟩ : ∃ f : Fin (k + 1) → Fin n, f = (la.qrp Y).2.2 ∘ Fin.castLE hkn := ⟨_, rfl⟩
  have hfi : Function.Injective f := by
    rw [hf]; exact (la.qrp Y).2.2.injective.comp (Fin.castLE_injective hkn)
  obtain ⟨v, hv0, hv⟩ := exists_null (B.submatrix id f) ((rank_submatrix_cols_le B f).trans hB)
  have hM : Y.submatrix id f = (la.qrp Y).1 * R.submatrix id (Fin.castLE hkn) := by
    have hmul := la.qrp_mul Y
    ext i j
    have := congrFun (congrFun hmul i) (Fin.castLE hkn j)
    rw [hf, hR]
    simp only [submatrix_apply, id, Function.comp, Matrix.mul_apply] at this ⊢
    exact this.symm
  -- the residual vector
  have hsq : sqNorm (Y.submatrix id f *ᵥ v) ≤ froSq (Y - B) * sqNorm v := by
    have e : Y.submatrix id f *ᵥ v = ((Y - B).submatrix id f) *ᵥ v := by
      have : (Y - B).submatrix id f = Y.submatrix id f - B.submatrix id f := rfl
      rw [this, sub_mulVec, hv, sub_zero]
    rw [e]
    have h1 : sqNorm ((Y - B).submatrix id f *ᵥ v) ≤ froSq ((Y - B).submatrix id f) * sqNorm v := by
      unfold sqNorm froSq
      rw [Finset.sum_mul]
      refine Finset.sum_le_sum fun i _ => ?_
      simp only [mulVec, dotProduct]
      exact Finset.sum_mul_sq_le_sq_mul_sq _ _ _
    refine h1.trans (mul_le_mul_of_nonneg_right ?_ (sqNorm_nonneg v))
    unfold froSq
    refine Finset.sum_le_sum fun i _ => ?_
    simp only [submatrix_apply, id]
    have := Finset.sum_image (s := Finset.univ) (g := f) (f := fun j => (Y - B) i j ^ 2) (fun a _ b _ e => hfi e)
    rw [← this]
    exact Finset.sum_le_sum_of_subset_of_nonneg (Finset.subset_univ _) (fun _ _ _ => sq_nonneg _)
  have hnorm : sqNorm (Y.submatrix id f *ᵥ v) = sqNorm (R.submatrix id (Fin.castLE hkn) *ᵥ v) := by
    rw [hM, ← mulVec_mulVec, sqNorm_orth_mulVec (la.qrp_orth Y)]
  obtain ⟨w, hw⟩ : ∃ w, w = R.submatrix (Fin.castLE hk1) (Fin.castLE hkn) *ᵥ v := ⟨_, rfl⟩
  have hwle : ∀ i, w i ^ 2 ≤ froSq (Y - B) * sqNorm v := by
    intro i
    refine le_trans ?_ (hnorm ▸ hsq)
    have : w i = (R.submatrix id (Fin.castLE hkn) *ᵥ v) (Fin.castLE hk1 i) := by rw [hw]; rfl
    rw [this]
    exact Finset.single_le_sum (f := fun l => (R.submatrix id (Fin.castLE hkn) *ᵥ v) l ^ 2)
      (fun _ _ => sq_nonneg _) (Finset.mem_univ _)
  obtain ⟨ω, hω⟩ : ∃ ω, ω = Real.sqrt (froSq (Y - B) * sqNorm v) := ⟨_, rfl⟩
  have hω0 : 0 ≤ ω := hω ▸ Real.sqrt_nonneg _
  have hω2 : ω ^ 2 = froSq (Y - B) * sqNorm v := by
    rw [hω, Real.sq_sqrt (mul_nonneg (froSq_nonneg _) (sqNorm_nonneg _))]
  have hρp : 0 < |ρ| := abs_pos.2 h0
  have hsol := (lead_solve_le la Y hk1 (a := ω / |ρ|) (div_nonneg hω0 hρp.le) v w
    (fun i => hR ▸ hne i) (fun i => by
      rw [← hR]
      have h1 : |w i| ≤ ω := by
        rw [hω]; exact Real.abs_le_sqrt (hwle i)
      refine h1.trans ?_
      rw [div_mul_eq_mul_div, le_div_iff₀ hρp]
      exact mul_le_mul_of_nonneg_left (hpiv i) hω0) (by rw [← hR, hw])).1
  have hs : sqNorm v ≤ (ω / |ρ|) ^ 2 * ((4 ^ (k + 1) - 1) / 3) := hsol
  have hvp : 0 < sqNorm v := lt_of_le_of_ne (sqNorm_nonneg v) (fun e => hv0 (sqNorm_eq_zero.1 e.symm))
  rw [div_pow, sq_abs, hω2, div_mul_eq_mul_div, le_div_iff₀ (by positivity)] at hs
  nlinarith

/-- A greedily pivoted column ID is within a dimensional factor of the best matrix of rank `k`. -/
theorem qrcpCol_quality (la : LinAlg) {Y : Matrix (Fin m) (Fin n) ℝ} {o : ColID n}
    (h : qrcpCol la Y k = .ok o) (B : Matrix (Fin m) (Fin n) ℝ) (hB : B.rank ≤ k) :
    froSq (Y - Y.submatrix id o.Js * o.X) ≤ (n - k) * ((4 ^ (k + 1) - 1) / 3) * froSq (Y - B) := by
  obtain ⟨-, hkm, -, -, -, -, -, he⟩ := qrcpCol_facts la h
  rw [he]
  have hkn : k ≤ n := hkm.trans (min_le_right m n)
  have h4 : (1 : ℝ) ≤ 4 ^ (k + 1) := one_le_pow₀ (by norm_num)
  have hnk : (0 : ℝ) ≤ (n : ℝ) - k := by rw [sub_nonneg]; exact_mod_cast hkn
  by_cases hk : k < min m n
  · have hp := qrp_pivot_le_dist la Y B hB hk
    rw [Finset.sum_comm]
    refine (Finset.sum_le_sum (g := fun j : Fin n => if j.1 < k then 0 else
      (la.qrp Y).2.1 ⟨k, hk⟩ (minR ⟨k, hk⟩) ^ 2) fun j _ => ?_).trans ?_
    · by_cases hj : j.1 < k
      · rw [if_pos hj]
        exact (Finset.sum_eq_zero fun i _ => by rw [if_neg (by omega)]).le
      · rw [if_neg hj]
        refine le_trans (le_of_eq ?_) (la.qrp_pivot Y ⟨k, hk⟩ j (not_lt.1 hj))
        rw [Finset.sum_filter]
        refine Finset.sum_congr rfl fun i _ => ?_
        have : (k ≤ i.1 ∧ k ≤ j.1) ↔ (⟨k, hk⟩ : Fin (min m n)) ≤ i :=
          ⟨fun h => h.1, fun h => ⟨h, not_lt.1 hj⟩⟩
        simp only [this]
    · rw [sum_ite_lt hkn, mul_zero, zero_add, mul_assoc]
      exact mul_le_mul_of_nonneg_left hp hnk
  · have : ∀ i : Fin (min m n), ¬ k ≤ i.1 := fun i => by have := i.2; omega
    rw [Finset.sum_eq_zero fun i _ => Finset.sum_eq_zero fun j _ => if_neg fun h => this i h.1]
    exact mul_nonneg (mul_nonneg hnk (by linarith)) (froSq_nonneg _)

theorem select_orth {Js : Fin c → Fin n} (hJ : Function.Injective Js) :
    ((1 : Matrix (Fin n) (Fin n) ℝ).submatrix id Js)ᵀ * (1 : Matrix (Fin n) (Fin n) ℝ).submatrix id Js = 1 :=
  orth_submatrix (Q := 1) (by simp) hJ

theorem froSq_submatrix_cols_le (E : Matrix (Fin m) (Fin n) ℝ) {Js : Fin c → Fin n} (hJ : Function.Injective Js) :
    froSq (E.submatrix id Js) ≤ froSq E := by
  have := froSq_sub_proj (select_orth hJ) Eᵀ
  have h0 := froSq_nonneg (Eᵀ - (1 : Matrix (Fin n) (Fin n) ℝ).submatrix id Js *
    (((1 : Matrix (Fin n) (Fin n) ℝ).submatrix id Js)ᵀ * Eᵀ))
  rw [← transpose_mul, froSq_transpose, froSq_transpose, ← submatrix_cols] at this
  rw [← transpose_mul, ← submatrix_cols] at h0
  linarith

/-- Interpolating `E` at the columns `Js` costs at most the norm of `[T; I]`. -/
theorem interp_froSq_le (E : Matrix (Fin m) (Fin n) ℝ) {X : Matrix (Fin c) (Fin n) ℝ} {Js : Fin c → Fin n}
    (hX : IsColInterp X Js) :
    froSq (E - E.submatrix id Js * X) ≤ (1 + (froSq X - c)) * froSq E := by
  obtain ⟨hJ, hXJ⟩ := hX
  obtain ⟨P, hP⟩ : ∃ P, P = (1 : Matrix (Fin n) (Fin n) ℝ).submatrix id Js := ⟨_, rfl⟩
  have hPP : Pᵀ * P = 1 := hP ▸ select_orth hJ
  have hEJ : E.submatrix id Js = E * P := by rw [hP]; exact submatrix_cols _ _
  have hXP : X * P = 1 := by rw [hP, ← submatrix_cols, hXJ]
  have hsplit : ∀ {q : ℕ} (M : Matrix (Fin q) (Fin n) ℝ),
      froSq (M - M * P * Pᵀ) = froSq M - froSq (M * P) := by
    intro q M
    have := froSq_sub_proj hPP Mᵀ
    rw [← transpose_mul, froSq_transpose, froSq_transpose, ← froSq_transpose (Mᵀ - _), transpose_sub,
      transpose_mul, transpose_transpose, transpose_transpose] at this
    exact this
  have hE0 := hsplit E
  have hX0 := hsplit X
  rw [hXP] at hX0
  have h1 : froSq (1 : Matrix (Fin c) (Fin c) ℝ) = c := by
    rw [froSq_eq_trace]; simp
  rw [h1, Matrix.one_mul] at hX0
  rw [hEJ]
  have e : E - E * P * X = (E - E * P * Pᵀ) + -(E * P * (X - Pᵀ)) := by
    rw [Matrix.mul_sub]; abel
  have htri := fro_triangle (E - E * P * Pᵀ) (-(E * P * (X - Pᵀ)))
  rw [← e] at htri
  have hneg : fro (-(E * P * (X - Pᵀ))) ≤ fro (E * P) * fro (X - Pᵀ) := by
    rw [fro_le_iff_sq (mul_nonneg (fro_nonneg _) (fro_nonneg _)), froSq_neg, mul_pow, fro_sq, fro_sq]
    exact froSq_mul_le _ _
  have ha := fro_sq (E - E * P * Pᵀ)
  have hb := fro_sq (E * P)
  have ht := fro_sq (X - Pᵀ)
  rw [hE0] at ha
  rw [hX0] at ht
  have hab : froSq E = fro (E - E * P * Pᵀ) ^ 2 + fro (E * P) ^ 2 := by linarith
  rw [hab, ← ht, ← fro_sq]
  have h3 : fro (E - E * P * X) ≤ fro (E - E * P * Pᵀ) + fro (E * P) * fro (X - Pᵀ) := by linarith
  refine (pow_le_pow_left₀ (fro_nonneg _) h3 2).trans ?_
  nlinarith [sq_nonneg (fro (E - E * P * Pᵀ) * fro (X - Pᵀ) - fro (E * P))]

/-- the error of interpolating `A` with coefficients computed from a sketch `Y` -/
theorem interp_split (A : Matrix (Fin m) (Fin n) ℝ) (Y : Matrix (Fin d) (Fin n) ℝ) (C : Matrix (Fin m) (Fin d) ℝ)
    (X : Matrix (Fin c) (Fin n) ℝ) (Js : Fin c → Fin n) :
    A - A.submatrix id Js * X =
      ((A - C * Y) - (A - C * Y).submatrix id Js * X) + C * (Y - Y.submatrix id Js * X) := by
  rw [submatrix_cols A, submatrix_cols (A - C * Y), submatrix_cols Y]
  simp only [Matrix.sub_mul, Matrix.mul_sub, Matrix.mul_assoc]
  abel

/-- with an orthonormal sketch the two parts of the error are orthogonal -/
theorem interp_split_orth (A : Matrix (Fin m) (Fin n) ℝ) {S : Matrix (Fin m) (Fin d) ℝ} (hS : Sᵀ * S = 1)
    (X : Matrix (Fin c) (Fin n) ℝ) (Js : Fin c → Fin n) :
    froSq (A - A.submatrix id Js * X) =
      froSq ((A - S * (Sᵀ * A)) - (A - S * (Sᵀ * A)).submatrix id Js * X) +
        froSq (Sᵀ * A - (Sᵀ * A).submatrix id Js * X) := by
  rw [interp_split A (Sᵀ * A) S X Js, froSq_add_of_orth, froSq_orth_mul hS]
  rw [transpose_sub, Matrix.sub_mul]
  have h0 : (A - S * (Sᵀ * A))ᵀ * S = 0 := by
    rw [transpose_sub, Matrix.sub_mul, transpose_mul, transpose_mul, transpose_transpose, Matrix.mul_assoc,
      hS, Matrix.mul_one, sub_self]
  have h1 : ((A - S * (Sᵀ * A)).submatrix id Js * X)ᵀ * S = 0 := by
    rw [submatrix_cols, Matrix.mul_assoc, transpose_mul, Matrix.mul_assoc, h0, Matrix.mul_zero]
  obtain ⟨E, hE⟩ : ∃ E, E = A - S * (Sᵀ * A) := ⟨_, rfl⟩
  rw [← hE] at h0 h1 ⊢
  rw [← Matrix.mul_assoc, ← Matrix.mul_assoc, h0, h1]
  simp

/-- The CUR error in terms of the column ID error and the row coefficients of the column skeleton. -/
theorem cur_error {a b : ℕ} (A : Matrix (Fin m) (Fin n) ℝ) (Js : Fin a → Fin n) (X : Matrix (Fin a) (Fin n) ℝ)
    {Is : Fin b → Fin m} (hI : Function.Injective Is) (U : Matrix (Fin a) (Fin b) ℝ)
    (hU : (A.submatrix Is id) * (X - U * A.submatrix Is id)ᵀ = 0) (Z : Matrix (Fin m) (Fin b) ℝ)
    (hZ : Z * A.submatrix Is Js = A.submatrix id Js) :
    fro (A - A.submatrix id Js * U * A.submatrix Is id) ≤ (1 + fro Z) * fro (A - A.submatrix id Js * X) := by
  obtain ⟨R, hR⟩ : ∃ R, R = A.submatrix Is id := ⟨_, rfl⟩
  obtain ⟨W, hW⟩ : ∃ W, W = X - U * R := ⟨_, rfl⟩
  obtain ⟨D, hD⟩ : ∃ D, D = A - A.submatrix id Js * X := ⟨_, rfl⟩
  rw [← hR, ← hW] at hU
  rw [← hR, ← hD]
  have hDI : D.submatrix Is id = R - A.submatrix Is Js * X := by
    rw [hD, hR]
    ext i j
    simp [Matrix.mul_apply]
  have hE : A.submatrix Is Js * W = (R - A.submatrix Is Js * U * R) - D.submatrix Is id := by
    rw [hDI, hW, Matrix.mul_sub, Matrix.mul_assoc]; abel
  have hle : froSq (A.submatrix Is Js * W) ≤ froSq (D.submatrix Is id) := by
    obtain ⟨N, hN⟩ : ∃ N, N = 1 - A.submatrix Is Js * U := ⟨_, rfl⟩
    have e1 : -(D.submatrix Is id)ᵀ = (A.submatrix Is Js * W)ᵀ + -(N * R)ᵀ := by
      rw [hE, hN, Matrix.sub_mul, Matrix.one_mul, transpose_sub (R - _)]; abel
    have := froSq_add_of_orth (X := (A.submatrix Is Js * W)ᵀ) (Y := -(N * R)ᵀ) (by
      rw [transpose_transpose, Matrix.mul_neg, transpose_mul, ← Matrix.mul_assoc, Matrix.mul_assoc (A.submatrix Is Js)]
      have h2 := congrArg Matrix.transpose hU
      rw [transpose_mul, transpose_transpose, transpose_zero] at h2
      rw [h2, Matrix.mul_zero, Matrix.zero_mul, neg_zero])
    rw [← e1, froSq_neg, froSq_neg, froSq_transpose, froSq_transpose, froSq_transpose] at this
    linarith [froSq_nonneg (N * R)]
  have hle2 : froSq (D.submatrix Is id) ≤ froSq D := by
    have := froSq_submatrix_cols_le Dᵀ hI
    rw [froSq_transpose] at this
    rw [← froSq_transpose]
    exact this
  have hdec : A - A.submatrix id Js * U * R = D + Z * (A.submatrix Is Js * W) := by
    rw [hD, ← Matrix.mul_assoc, hZ, hW, Matrix.mul_sub, Matrix.mul_assoc]; abel
  rw [hdec, add_mul, one_mul]
  refine (fro_triangle _ _).trans (add_le_add le_rfl ?_)
  rw [fro_le_iff_sq (mul_nonneg (fro_nonneg _) (fro_nonneg _)), mul_pow, fro_sq, fro_sq]
  exact (froSq_mul_le _ _).trans (mul_le_mul_of_nonneg_left (hle.trans hle2) (froSq_nonneg _))

end Parla.Proof
