import Verif.Model.Interpolative
import Verif.Proof.Rank

/-! Interpolative decompositions (helper lemmas). -/

namespace Parla

open Matrix Spec

variable {m n k c : ℕ}

theorem submatrix_cols (Y : Matrix (Fin m) (Fin n) ℝ) (f : Fin k → Fin n) :
    Y.submatrix id f = Y * (1 : Matrix (Fin n) (Fin n) ℝ).submatrix id f := by
  rw [← Matrix.submatrix_id_id Y]
  ext i j
  simp [Matrix.mul_apply, Matrix.one_apply]

theorem submatrix_rows (Y : Matrix (Fin m) (Fin n) ℝ) (f : Fin k → Fin m) :
    Y.submatrix f id = (1 : Matrix (Fin m) (Fin m) ℝ).submatrix f id * Y := by
  ext i j
  simp [Matrix.mul_apply, Matrix.one_apply]

theorem rank_submatrix_cols_le (Y : Matrix (Fin m) (Fin n) ℝ) (f : Fin k → Fin n) :
    (Y.submatrix id f).rank ≤ Y.rank := by
  rw [submatrix_cols]; exact Matrix.rank_mul_le_left _ _

theorem colSpace_submatrix_le (Y : Matrix (Fin m) (Fin n) ℝ) (f : Fin k → Fin n) :
    colSpace (Y.submatrix id f) ≤ colSpace Y := by
  rw [submatrix_cols]; exact colSpace_mul_le _ _

theorem rank_perm_cols (Y : Matrix (Fin m) (Fin n) ℝ) (σ : Equiv.Perm (Fin n)) :
    (Y.submatrix id σ).rank = Y.rank := by
  apply le_antisymm (rank_submatrix_cols_le Y σ)
  have : Y = (Y.submatrix id σ).submatrix id σ.symm := by ext i j; simp
  conv_lhs => rw [this]
  exact rank_submatrix_cols_le _ _

theorem qrp_rank (la : LinAlg) (Y : Matrix (Fin m) (Fin n) ℝ) : (la.qrp Y).2.1.rank = Y.rank := by
  rw [← rank_perm_cols Y (la.qrp Y).2.2, ← la.qrp_mul]
  apply le_antisymm _ (Matrix.rank_mul_le_right _ _)
  have : (la.qrp Y).2.1 = (la.qrp Y).1ᵀ * ((la.qrp Y).1 * (la.qrp Y).2.1) := by
    rw [← Matrix.mul_assoc, la.qrp_orth, Matrix.one_mul]
  conv_lhs => rw [this]
  exact Matrix.rank_mul_le_right _ _

/-- If the `i`-th pivot is zero then the rank is at most `i`. -/
theorem qrp_pivot_zero (la : LinAlg) (Y : Matrix (Fin m) (Fin n) ℝ) (i : Fin (min m n))
    (h : (la.qrp Y).2.1 i (minR i) = 0) : Y.rank ≤ i.1 := by
  rw [← qrp_rank la Y]
  set R := (la.qrp Y).2.1 with hR
  have hz : ∀ (l : Fin (min m n)) (j : Fin n), i ≤ l → R l j = 0 := by
    intro l j hl
    by_cases hj : j.1 < i.1
    · exact la.qrp_upper Y l j (lt_of_lt_of_le hj hl)
    · have := la.qrp_pivot Y i j (not_lt.1 hj)
      rw [← hR, h] at this
      have h2 : R l j ^ 2 ≤ 0 := by
        refine le_trans ?_ (le_trans this (by norm_num))
        exact Finset.single_le_sum (f := fun l => R l j ^ 2) (fun _ _ => sq_nonneg _)
          (Finset.mem_filter.2 ⟨Finset.mem_univ l, hl⟩)
      exact pow_eq_zero_iff two_ne_zero |>.1 (le_antisymm h2 (sq_nonneg _))
  have hfac : R = (Matrix.of fun (l : Fin (min m n)) (a : Fin i.1) => if l.1 = a.1 then (1 : ℝ) else 0) *
      R.submatrix (Fin.castLE i.2.le) id := by
    ext l j
    rw [Matrix.mul_apply]
    by_cases hl : l.1 < i.1
    · rw [Finset.sum_eq_single ⟨l.1, hl⟩]
      · simp
      · intro b _ hb
        rw [Matrix.of_apply, if_neg (fun e => hb (Fin.ext e.symm)), zero_mul]
      · simp
    · rw [hz l j (not_lt.1 hl)]
      refine (Finset.sum_eq_zero fun b _ => ?_).symm
      rw [Matrix.of_apply, if_neg (fun e : l.1 = b.1 => hl (e ▸ b.2)), zero_mul]
  rw [hfac]
  refine (Matrix.rank_mul_le_left _ _).trans (rank_le_width' _)

/-- everything `qrcp_osid(Y, k, axis=1)` guarantees -/
theorem qrcpCol_facts (la : LinAlg) {Y : Matrix (Fin m) (Fin n) ℝ} {o : ColID n}
    (h : qrcpCol la Y k = .ok o) :
    o.c = k ∧ k ≤ min m n ∧ k ≤ Y.rank ∧ Function.Injective o.Js ∧ o.X.submatrix id o.Js = 1 ∧
      FullColRank (Y.submatrix id o.Js) ∧
      (Y.submatrix id o.Js)ᵀ * (Y - Y.submatrix id o.Js * o.X) = 0 ∧
      froSq (Y - Y.submatrix id o.Js * o.X) =
        ∑ i : Fin (min m n), ∑ j : Fin n,
          if k ≤ i.1 ∧ k ≤ j.1 then (la.qrp Y).2.1 i j ^ 2 else 0 := by
  unfold qrcpCol at h
  by_cases hk : k ≤ min m n
  swap
  · rw [dif_neg hk] at h; cases h
  rw [dif_pos hk] at h
  simp only [bind, Except.bind] at h
  set Q := (la.qrp Y).1 with hQ
  set R := (la.qrp Y).2.1 with hR
  set J := (la.qrp Y).2.2 with hJ
  have hkn : k ≤ n := hk.trans (min_le_right m n)
  set lead : Matrix (Fin k) (Fin k) ℝ := R.submatrix (Fin.castLE hk) (Fin.castLE hkn) with hlead
  cases hs : solveUpper lead
      (R.submatrix (Fin.castLE hk) (fun j : Fin (n - k) => (⟨k + j.1, by omega⟩ : Fin n))) with
  | error e => rw [hs] at h; cases h
  | ok T =>
    rw [hs] at h
    simp only at h
    cases h
    obtain ⟨hd, hT⟩ := solveUpper_ok hs
    have hlu : triu lead = lead := triu_eq_self fun i j hij => la.qrp_upper Y _ _ hij
    rw [hlu] at hT
    have hunit : IsUnit lead.det := by have := isUnit_det_triu hd; rwa [hlu] at this
    have hY : Y = (Q * R).submatrix id J.symm := by
      rw [la.qrp_mul Y]; ext i j; simp [← hJ]
    set f : Fin k → Fin n := Fin.castLE hkn with hf
    have hM : Y.submatrix id (J ∘ f) = Q * R.submatrix id f := by
      conv_lhs => rw [hY]
      ext i j; simp [Matrix.mul_apply]
    have hup : ∀ (i : Fin (min m n)) (l : Fin k), k ≤ i.1 → R i (f l) = 0 := by
      intro i l hi
      exact la.qrp_upper Y i _ (lt_of_lt_of_le l.2 hi)
    have hhead : R.submatrix id f * eyeStack T =
        Matrix.of fun (i : Fin (min m n)) j => if i.1 < k then R i j else 0 := by
      ext i j
      rw [Matrix.mul_apply, Matrix.of_apply]
      by_cases hj : j.1 < k
      · rw [Finset.sum_eq_single ⟨j.1, hj⟩]
        · simp only [submatrix_apply, id, eyeStack, of_apply, dif_pos hj, if_true, mul_one]
          split
          · rfl
          · rename_i hi
            exact la.qrp_upper Y i _ (lt_of_lt_of_le hj (not_lt.1 hi))
        · intro b _ hb
          simp only [eyeStack, of_apply, dif_pos hj]
          rw [if_neg (fun e => hb (Fin.ext e)), mul_zero]
        · simp
      · simp only [submatrix_apply, id, eyeStack, of_apply, dif_neg hj]
        split
        · rename_i hi
          have := congrFun (congrFun hT ⟨i.1, hi⟩) ⟨j.1 - k, by omega⟩
          rw [Matrix.mul_apply] at this
          simp only [hlead, submatrix_apply] at this
          refine Eq.trans this ?_
          congr 1
          apply Fin.ext
          show k + (j.1 - k) = j.1
          omega
        · rename_i hi
          exact Finset.sum_eq_zero fun l _ => by rw [hup i l (not_lt.1 hi), zero_mul]
    set tail : Matrix (Fin (min m n)) (Fin n) ℝ :=
      Matrix.of fun (i : Fin (min m n)) j => if i.1 < k then 0 else R i j with htail
    have herr : Y - Y.submatrix id (J ∘ f) * (eyeStack T).submatrix id J.symm =
        (Q * tail).submatrix id J.symm := by
      have e1 : Y.submatrix id (J ∘ f) * (eyeStack T).submatrix id J.symm =
          (Q * (R.submatrix id f * eyeStack T)).submatrix id J.symm := by
        rw [hM, ← Matrix.mul_assoc]; ext i j; simp [Matrix.mul_apply]
      rw [e1]
      conv_lhs => rw [hY]
      rw [hhead]
      ext i j
      simp only [Matrix.sub_apply, submatrix_apply, id, Matrix.mul_apply, of_apply, htail]
      rw [← Finset.sum_sub_distrib]
      refine Finset.sum_congr rfl fun l _ => ?_
      split <;> simp
    have hfr : FullColRank (Y.submatrix id (J ∘ f)) := by
      rw [fullColRank_iff_inj]
      intro x hx
      rw [hM, ← mulVec_mulVec] at hx
      have h1 : R.submatrix id f *ᵥ x = 0 := by
        have := congrArg (Qᵀ *ᵥ ·) hx
        simpa [mulVec_mulVec, hQ, ← Matrix.mul_assoc, la.qrp_orth] using this
      have h2 : lead *ᵥ x = 0 := by
        ext i
        exact congrFun h1 (Fin.castLE hk i)
      have := congrArg (lead⁻¹ *ᵥ ·) h2
      simpa [mulVec_mulVec, nonsing_inv_mul _ hunit] using this
    refine ⟨rfl, hk, ?_, J.injective.comp (Fin.castLE_injective hkn), ?_, hfr, ?_, ?_⟩
    · have h1 := rank_submatrix_cols_le Y (J ∘ f)
      have h2 : (Y.submatrix id (J ∘ f)).rank = k := hfr
      omega
    · ext i j
      have hj : (f j).1 < k := j.2
      simp [eyeStack, Matrix.one_apply, Fin.ext_iff, hj]
      rfl
    · show (Y.submatrix id (J ∘ f))ᵀ * (Y - Y.submatrix id (J ∘ f) *
        (eyeStack T).submatrix id J.symm) = 0
      rw [herr, hM]
      have e : (Q * tail).submatrix id J.symm = Q * tail.submatrix id J.symm := by
        ext i j; simp [Matrix.mul_apply]
      rw [e, transpose_mul, Matrix.mul_assoc, ← Matrix.mul_assoc Qᵀ, la.qrp_orth, Matrix.one_mul]
      ext l j
      rw [Matrix.mul_apply]
      refine Finset.sum_eq_zero fun i _ => ?_
      simp only [transpose_apply, submatrix_apply, id, htail, of_apply]
      by_cases hi : i.1 < k
      · rw [if_pos hi, mul_zero]
      · rw [hup i l (not_lt.1 hi), zero_mul]
    · show froSq (Y - Y.submatrix id (J ∘ f) * (eyeStack T).submatrix id J.symm) = _
      rw [herr]
      have hperm : froSq ((Q * tail).submatrix id J.symm) = froSq (Q * tail) := by
        unfold froSq
        refine Finset.sum_congr rfl fun i _ => ?_
        simp only [submatrix_apply, id]
        exact Equiv.sum_comp J.symm (fun j => (Q * tail) i j ^ 2)
      rw [hperm, froSq_orth_mul (la.qrp_orth Y)]
      unfold froSq
      refine Finset.sum_congr rfl fun i _ => Finset.sum_congr rfl fun j _ => ?_
      simp only [htail, of_apply]
      by_cases hi : i.1 < k
      · rw [if_pos hi, if_neg (by omega)]; norm_num
      · rw [if_neg hi]
        by_cases hj : k ≤ j.1
        · rw [if_pos ⟨not_lt.1 hi, hj⟩]
        · rw [if_neg (fun h => hj h.2)]
          have : R i j = 0 := la.qrp_upper Y i j (by omega)
          rw [this]; norm_num

/-- when `qrcp_osid` returns / raises -/
theorem qrcpCol_cases (la : LinAlg) (Y : Matrix (Fin m) (Fin n) ℝ) (k : ℕ) :
    (k ≤ Y.rank → ∃ o, qrcpCol la Y k = .ok o) ∧
    (Y.rank < k → k ≤ min m n → qrcpCol la Y k = .error .linAlg) ∧
    (min m n < k → qrcpCol la Y k = .error .value) := by
  have hbad : min m n < k → qrcpCol la Y k = .error .value := by
    intro h; unfold qrcpCol; rw [dif_neg (not_le.2 h)]
  refine ⟨fun hr => ?_, fun hr hk => ?_, hbad⟩
  · have hk : k ≤ min m n := le_min (hr.trans (Matrix.rank_le_height Y)) (hr.trans (rank_le_width' Y))
    unfold qrcpCol
    rw [dif_pos hk]
    simp only [bind, Except.bind]
    rw [solveUpper, if_neg]
    · exact ⟨_, rfl⟩
    · rintro ⟨i, hi⟩
      have := qrp_pivot_zero la Y (Fin.castLE hk i) hi
      have h2 : (Fin.castLE hk i).1 = i.1 := rfl
      have := i.2
      omega
  · cases hc : qrcpCol la Y k with
    | ok o =>
      have := (qrcpCol_facts la hc).2.2.1
      omega
    | error e =>
      unfold qrcpCol at hc
      rw [dif_pos hk] at hc
      simp only [bind, Except.bind] at hc
      rw [solveUpper] at hc
      split at hc
      · rename_i h1; split_ifs at h1; cases h1; cases hc; rfl
      · cases hc

/-- Normal equations give optimality. -/
theorem fro_opt_of_normal {M : Matrix (Fin m) (Fin k) ℝ} {Y : Matrix (Fin m) (Fin n) ℝ}
    {X : Matrix (Fin k) (Fin n) ℝ} (h : Mᵀ * (Y - M * X) = 0) (X' : Matrix (Fin k) (Fin n) ℝ) :
    fro (Y - M * X) ≤ fro (Y - M * X') := by
  apply Real.sqrt_le_sqrt
  have e : Y - M * X' = (Y - M * X) + M * (X - X') := by rw [Matrix.mul_sub]; abel
  rw [e, froSq_add_of_orth]
  · linarith [froSq_nonneg (M * (X - X'))]
  · have h2 : (Y - M * X)ᵀ * M = 0 := by
      have := congrArg Matrix.transpose h
      simpa [transpose_mul] using this
    rw [← Matrix.mul_assoc, h2, Matrix.zero_mul]

theorem mul_eq_zero_of_gram {M : Matrix (Fin m) (Fin k) ℝ} {W : Matrix (Fin k) (Fin n) ℝ}
    (h : Mᵀ * (M * W) = 0) : M * W = 0 := by
  rw [← froSq_eq_zero, froSq_eq_trace, transpose_mul, Matrix.mul_assoc, h, Matrix.mul_zero]
  simp

/-- A solution of the normal equations reproduces whatever is in the range. -/
theorem exact_of_normal {M : Matrix (Fin m) (Fin k) ℝ} {Y : Matrix (Fin m) (Fin n) ℝ}
    {X : Matrix (Fin k) (Fin n) ℝ} (h : Mᵀ * (Y - M * X) = 0) (hle : colSpace Y ≤ colSpace M) :
    M * X = Y := by
  obtain ⟨W, rfl⟩ := colSpace_le_iff.1 hle
  rw [← Matrix.mul_sub] at h
  have := mul_eq_zero_of_gram h
  rw [Matrix.mul_sub, sub_eq_zero] at this
  exact this.symm

theorem qrcpCol_exact (la : LinAlg) {Y : Matrix (Fin m) (Fin n) ℝ} {o : ColID n}
    (h : qrcpCol la Y k = .ok o) (hr : Y.rank ≤ k) : Y.submatrix id o.Js * o.X = Y := by
  obtain ⟨hc, -, -, -, -, hfr, hn, -⟩ := qrcpCol_facts la h
  refine exact_of_normal hn (le_of_eq ?_)
  symm
  apply Submodule.eq_of_le_of_finrank_le (colSpace_submatrix_le _ _)
  rw [finrank_colSpace, finrank_colSpace]
  have : (Y.submatrix id o.Js).rank = o.c := hfr
  omega

end Parla
