import Verif.Proof.SVD
import Verif.Props.QB2
import Verif.Base.LinAlgExists

/-! # Properties C12 – C13: `SVD1` and `svd1` -/

namespace Parla.Props

open Matrix Parla Spec

variable {G : Type} {m n : ℕ}

/-- Result of `SVD1` in terms of the QB step's output. -/
theorem svd1_open (la : LinAlg) (qb : QBDecomposer G) (A : Matrix (Fin m) (Fin n) ℝ) (k : ℕ)
    (tol : Tol) (over : ℕ) (w w' : World G) (qbo : QBOut m n)
    (hqb : qb m n A ((k + over : ℕ) : ℤ) tol w = .ok (qbo, w')) :
    ∃ (r : ℕ) (hr : r ≤ min qbo.c n), svd1Call la qb A k tol over w =
        .ok (⟨r, qbo.Q * (la.svd qbo.B).1.submatrix id (Fin.castLE hr),
          (la.svd qbo.B).2.1 ∘ Fin.castLE hr, (la.svd qbo.B).2.2.submatrix (Fin.castLE hr) id⟩, w') ∧
      ∀ i : Fin (min qbo.c n), i.1 < r ↔
        (0 < over → i.1 < k) ∧ 10 * eps ≤ (la.svd qbo.B).2.1 i := by
  set t : SVDOut qbo.c n := ⟨_, (la.svd qbo.B).1, (la.svd qbo.B).2.1, (la.svd qbo.B).2.2⟩
  have hanti : Antitone t.s := la.svd_anti _
  have hcall : svd1Call la qb A k tol over w =
      .ok ((fun t' : SVDOut qbo.c n => (⟨t'.r, qbo.Q * t'.U, t'.s, t'.Vh⟩ : SVDOut m n))
        ((if over > 0 then t.take k else t).dropBelow (10 * eps)), w') := by
    unfold svd1Call
    rw [Py.bind_eq_of_ok hqb]; rfl
  by_cases ho : over > 0
  · rw [if_pos ho, SVDOut.take_eq] at hcall
    have hanti' : Antitone (t.pre (min k t.r) (min_le_right _ _)).s := fun a b h =>
      hanti (show Fin.castLE _ a ≤ Fin.castLE _ b from h)
    obtain ⟨r, hr, he, hi⟩ := SVDOut.dropBelow_eq _ hanti' (10 * eps)
    have hr' : r ≤ min k (min qbo.c n) := hr
    refine ⟨r, hr'.trans (min_le_right _ _), ?_, ?_⟩
    · rw [hcall, he]; rfl
    · intro i
      constructor
      · intro hlt
        have := (hi ⟨i.1, lt_of_lt_of_le hlt hr⟩).2 hlt
        exact ⟨fun _ => by omega, not_lt.1 this⟩
      · rintro ⟨h1, h2⟩
        have h1 := h1 ho
        exact (hi ⟨i.1, lt_min h1 i.2⟩).1 (not_lt.2 h2)
  · rw [if_neg ho] at hcall
    obtain ⟨r, hr, he, hi⟩ := SVDOut.dropBelow_eq t hanti (10 * eps)
    refine ⟨r, hr, ?_, ?_⟩
    · rw [hcall, he]; rfl
    · intro i
      rw [← hi i, not_lt]
      exact ⟨fun h => ⟨fun h' => absurd h' ho, h⟩, fun h => h.2⟩

/-- **C12**.  Whatever QB step is used: if it returned orthonormal `Q` and `B` with at most
`k + over` rows, `SVD1` returns `(U, s, Vh)` of common length `ell ≤ k`, `U` with orthonormal
columns, `Vh` with orthonormal rows, `s` non-increasing with entries `≥ 10*eps`.  The kept values
are the `ell` largest singular values of `B`; a discarded one is below `10*eps` or (when
`over > 0`) beyond the first `k`.  If moreover `B = Q'A`, the squared error is that of the QB step
plus the sum of squares of the discarded singular values. -/
theorem C12_svd1_valid (la : LinAlg) (qb : QBDecomposer G) (A : Matrix (Fin m) (Fin n) ℝ) (k : ℕ)
    (tol : Tol) (over : ℕ) (w w' : World G) (qbo : QBOut m n)
    (hqb : qb m n A ((k + over : ℕ) : ℤ) tol w = .ok (qbo, w'))
    (hQ : OrthoCols qbo.Q) (hB : qbo.c ≤ k + over) :
    ∃ out : SVDOut m n, svd1Call la qb A k tol over w = .ok (out, w') ∧
      out.r ≤ k ∧ OrthoCols out.U ∧ OrthoRows out.Vh ∧ Antitone out.s ∧ (∀ i, 10 * eps ≤ out.s i) ∧
      (out.r ≤ min qbo.c n) ∧
      (∀ (i : Fin out.r) (j : Fin (min qbo.c n)), i.1 = j.1 → out.s i = (la.svd qbo.B).2.1 j) ∧
      (∀ j : Fin (min qbo.c n), out.r ≤ j.1 →
        (0 < over ∧ k ≤ j.1) ∨ (la.svd qbo.B).2.1 j < 10 * eps) ∧
      (qbo.B = qbo.Qᵀ * A →
        fro (A - out.U * diagonal out.s * out.Vh) ^ 2 = fro (A - qbo.Q * qbo.B) ^ 2 +
          ∑ j ∈ Finset.univ.filter (fun j : Fin (min qbo.c n) => out.r ≤ j.1),
            (la.svd qbo.B).2.1 j ^ 2) := by
  obtain ⟨r, hr, hcall, hi⟩ := svd1_open la qb A k tol over w w' qbo hqb
  refine ⟨_, hcall, ?_, ?_, ?_, ?_, ?_, hr, ?_, ?_, ?_⟩
  · show r ≤ k
    by_contra hlt
    push Not at hlt
    by_cases ho : 0 < over
    · have := ((hi ⟨k, by omega⟩).1 hlt).1 ho
      simp at this
    · omega
  · show (qbo.Q * _)ᵀ * (qbo.Q * _) = 1
    have hQ' : qbo.Qᵀ * qbo.Q = 1 := hQ
    rw [transpose_mul, Matrix.mul_assoc, ← Matrix.mul_assoc qbo.Qᵀ, hQ', Matrix.one_mul]
    exact orth_submatrix (la.svd_left _) (Fin.castLE_injective hr)
  · show (_ : Matrix _ _ ℝ) * _ᵀ = 1
    have := orth_submatrix (Q := (la.svd qbo.B).2.2ᵀ) (by simpa using la.svd_right qbo.B)
      (Fin.castLE_injective hr)
    simpa using this
  · intro a b h; exact la.svd_anti _ (show Fin.castLE hr a ≤ Fin.castLE hr b from h)
  · intro i; exact ((hi (Fin.castLE hr i)).1 i.2).2
  · intro i j hij
    have : Fin.castLE hr i = j := Fin.ext hij
    exact congrArg (la.svd qbo.B).2.1 this
  · intro j hj
    by_contra hcon
    push Not at hcon
    have hj' : r ≤ j.1 := hj
    have := (hi j).2 ⟨fun ho => by have := hcon.1 ho; omega, hcon.2⟩
    omega
  · intro hBA
    show fro (A - qbo.Q * _ * _ * _) ^ 2 = _
    rw [fro_sq, fro_sq]
    have hd := pre_tail hr (la.svd qbo.B).1 (la.svd qbo.B).2.1 (la.svd qbo.B).2.2
    rw [la.svd_mul] at hd
    have hsplit : A - qbo.Q * (la.svd qbo.B).1.submatrix id (Fin.castLE hr) *
        diagonal ((la.svd qbo.B).2.1 ∘ Fin.castLE hr) *
        (la.svd qbo.B).2.2.submatrix (Fin.castLE hr) id =
        (A - qbo.Q * qbo.B) + qbo.Q * ((la.svd qbo.B).1 *
          diagonal (fun i => if i.1 < r then 0 else (la.svd qbo.B).2.1 i) * (la.svd qbo.B).2.2) := by
      rw [← hd, Matrix.mul_sub]; simp only [Matrix.mul_assoc]; abel
    rw [hsplit, froSq_add_of_orth, froSq_orth_mul hQ, froSq_UsV (la.svd_left _) (la.svd_right _)]
    · congr 1
      rw [Finset.sum_filter]
      refine Finset.sum_congr rfl fun j _ => ?_
      by_cases hj : j.1 < r
      · rw [if_pos hj, if_neg (by simpa using hj)]; simp
      · rw [if_neg hj, if_pos (by simpa using hj)]
    · have hQ' : qbo.Qᵀ * qbo.Q = 1 := hQ
      rw [← Matrix.mul_assoc, transpose_sub, Matrix.sub_mul, transpose_mul, Matrix.mul_assoc, hQ',
        Matrix.mul_one, hBA, transpose_mul, transpose_transpose, sub_self, Matrix.zero_mul]

/-! ## C13 -/

/-- **C13** (no small singular value).  With `over = 0`, if every singular value of `B` is zero or at least
`10*eps`, SVD1 returns exactly the QB step's approximation, so it meets any tolerance the QB step
met (no orthonormality needed). -/
theorem C13_svd1_no_truncation (la : LinAlg) (qb : QBDecomposer G)
    (A : Matrix (Fin m) (Fin n) ℝ) (k : ℕ) (tol : Tol) (w w' : World G) (qbo : QBOut m n)
    (hqb : qb m n A ((k + 0 : ℕ) : ℤ) tol w = .ok (qbo, w'))
    (hσ : ∀ i, (la.svd qbo.B).2.1 i = 0 ∨ 10 * eps ≤ (la.svd qbo.B).2.1 i) :
    ∃ out : SVDOut m n, svd1Call la qb A k tol 0 w = .ok (out, w') ∧
      out.U * diagonal out.s * out.Vh = qbo.Q * qbo.B ∧
      ∀ t : ℝ, fro (A - qbo.Q * qbo.B) ≤ t * fro A →
        fro (A - out.U * diagonal out.s * out.Vh) ≤ t * fro A := by
  obtain ⟨r, hr, hcall, hi⟩ := svd1_open la qb A k tol 0 w w' qbo hqb
  have hprod : qbo.Q * (la.svd qbo.B).1.submatrix id (Fin.castLE hr) *
      diagonal ((la.svd qbo.B).2.1 ∘ Fin.castLE hr) *
      (la.svd qbo.B).2.2.submatrix (Fin.castLE hr) id = qbo.Q * qbo.B := by
    have hd := pre_tail hr (la.svd qbo.B).1 (la.svd qbo.B).2.1 (la.svd qbo.B).2.2
    have hz : (fun i : Fin (min qbo.c n) => if i.1 < r then 0 else (la.svd qbo.B).2.1 i) = 0 := by
      funext i
      by_cases h : i.1 < r
      · simp [h]
      · have : ¬ 10 * eps ≤ (la.svd qbo.B).2.1 i := fun h' =>
          h ((hi i).2 ⟨fun h0 => absurd h0 (lt_irrefl 0), h'⟩)
        simp [h, (hσ i).resolve_right this]
    rw [hz, la.svd_mul, sub_eq_iff_eq_add] at hd
    have hz2 : diagonal (0 : Fin (min qbo.c n) → ℝ) = 0 := by ext; simp [diagonal_apply]
    rw [hz2, Matrix.mul_zero, Matrix.zero_mul, zero_add] at hd
    conv_rhs => rw [hd]
    simp only [Matrix.mul_assoc]
  refine ⟨_, hcall, hprod, fun t ht => ?_⟩
  change fro (A - qbo.Q * _ * _ * _) ≤ _
  rw [hprod]; exact ht

theorem eps_pos : (0 : ℝ) < eps := by unfold eps; positivity

/-- What the truncation at `10*eps` can cost: with `over = 0` SVD1's error exceeds the QB step's by
at most `‖Q E‖` for some `E` with `‖E‖_F ≤ 10*eps*sqrt(min(c, n))`. -/
theorem svd1_truncation (la : LinAlg) (qb : QBDecomposer G) (A : Matrix (Fin m) (Fin n) ℝ) (k : ℕ)
    (tol : Tol) (w w' : World G) (qbo : QBOut m n)
    (hqb : qb m n A ((k + 0 : ℕ) : ℤ) tol w = .ok (qbo, w')) :
    ∃ (out : SVDOut m n) (E : Matrix (Fin qbo.c) (Fin n) ℝ),
      svd1Call la qb A k tol 0 w = .ok (out, w') ∧
      A - out.U * diagonal out.s * out.Vh = (A - qbo.Q * qbo.B) + qbo.Q * E ∧
      froSq E ≤ (min qbo.c n : ℕ) * (10 * eps) ^ 2 := by
  obtain ⟨r, hr, hcall, hi⟩ := svd1_open la qb A k tol 0 w w' qbo hqb
  refine ⟨_, (la.svd qbo.B).1 * diagonal (fun i => if i.1 < r then 0 else (la.svd qbo.B).2.1 i) *
    (la.svd qbo.B).2.2, hcall, ?_, ?_⟩
  · have hd := pre_tail hr (la.svd qbo.B).1 (la.svd qbo.B).2.1 (la.svd qbo.B).2.2
    rw [la.svd_mul] at hd
    change A - qbo.Q * _ * _ * _ = _
    rw [← hd, Matrix.mul_sub]; simp only [Matrix.mul_assoc]; abel
  · rw [froSq_UsV (la.svd_left _) (la.svd_right _)]
    have hb : ∀ i : Fin (min qbo.c n),
        (if i.1 < r then 0 else (la.svd qbo.B).2.1 i) ^ 2 ≤ (10 * eps) ^ 2 := by
      intro i
      have := eps_pos
      by_cases h : i.1 < r
      · rw [if_pos h, zero_pow two_ne_zero]; positivity
      · rw [if_neg h]
        have h1 : (la.svd qbo.B).2.1 i < 10 * eps := by
          by_contra h'
          exact h ((hi i).2 ⟨fun h0 => absurd h0 (lt_irrefl 0), not_lt.1 h'⟩)
        have h2 := la.svd_nonneg qbo.B i
        exact pow_le_pow_left₀ h2 h1.le 2
    refine (Finset.sum_le_sum fun i _ => hb i).trans ?_
    rw [Finset.sum_const, Finset.card_univ, Fintype.card_fin, nsmul_eq_mul]

/-- **C13** (SVD1).  With `over = 0`, SVD1's error exceeds that of its QB step by at most
`10*eps*sqrt(min(c, n))` if `Q` is orthonormal, and by at most `10*eps*c` if `Q` merely has columns
of norm one (`c` is the number of columns of `Q`). -/
theorem C13_svd1_tolerance (la : LinAlg) (qb : QBDecomposer G)
    (A : Matrix (Fin m) (Fin n) ℝ) (k : ℕ) (tol : Tol) (w w' : World G) (qbo : QBOut m n)
    (hqb : qb m n A ((k + 0 : ℕ) : ℤ) tol w = .ok (qbo, w')) :
    ∃ out : SVDOut m n, svd1Call la qb A k tol 0 w = .ok (out, w') ∧
      (OrthoCols qbo.Q → fro (A - out.U * diagonal out.s * out.Vh) ≤
        fro (A - qbo.Q * qbo.B) + 10 * eps * √(min qbo.c n : ℕ)) ∧
      ((∀ j, ∑ i, qbo.Q i j ^ 2 = 1) → fro (A - out.U * diagonal out.s * out.Vh) ≤
        fro (A - qbo.Q * qbo.B) + 10 * eps * qbo.c) := by
  obtain ⟨out, E, hcall, he, hE⟩ := svd1_truncation la qb A k tol w w' qbo hqb
  have hp := eps_pos
  refine ⟨out, hcall, fun hQ => ?_, fun hQ => ?_⟩
  · rw [he]
    refine (fro_triangle _ _).trans (add_le_add le_rfl ?_)
    rw [fro_le_iff_sq (by positivity), froSq_orth_mul hQ, mul_pow, Real.sq_sqrt (by positivity)]
    linarith
  · rw [he]
    refine (fro_triangle _ _).trans (add_le_add le_rfl ?_)
    rw [fro_le_iff_sq (by positivity)]
    refine (froSq_mul_le _ _).trans ?_
    have hQc : froSq qbo.Q = qbo.c := by
      unfold froSq
      rw [Finset.sum_comm, Finset.sum_congr rfl fun j _ => hQ j]
      simp
    rw [hQc]
    have h1 : ((min qbo.c n : ℕ) : ℝ) ≤ qbo.c := by exact_mod_cast min_le_left _ _
    have h2 : (0 : ℝ) ≤ qbo.c := by positivity
    calc (qbo.c : ℝ) * froSq E ≤ qbo.c * (qbo.c * (10 * eps) ^ 2) := by
          apply mul_le_mul_of_nonneg_left _ h2
          exact hE.trans (mul_le_mul_of_nonneg_right h1 (sq_nonneg _))
      _ = (10 * eps * qbo.c) ^ 2 := by ring

/-- **C13** (`svd1`).  With `over = 0` and `k ≥ min(A.shape)`, if every rangefinder call captured as
much of the residual as its block size allows (see `C07_rf1_captures`), then
`‖A - U diag(s) Vh‖ ≤ tol ‖A‖ + 10*eps*min(m, n)`: the documented bound up to an absolute term
that `C13_svd1_tolerance_false` shows cannot be dropped. -/
theorem C13_svd1_driver_tolerance (la : LinAlg) (gauss : SkOpGen G)
    (A : Matrix (Fin m) (Fin n) ℝ) (hmn : 0 < min m n) (k : ℕ) (hk : min m n ≤ k) (t : ℝ)
    (ht : 0 ≤ t) (p : ℤ) (blk : ℕ) (hblk : 0 < blk) (w w' : World G) (st : QB2St m n)
    (hrun : qb2Run la (RF1 la (RS1 gauss (p - 2) (orth la) 1)) blk A k (.val t) w = .ok (st, w'))
    (hcap : ∀ x ∈ st.calls, Captures x) :
    ∃ out : SVDOut m n, svd1 la gauss A k 0 (.val t) p blk w = .ok (out, w') ∧
      fro (A - out.U * diagonal out.s * out.Vh) ≤ t * fro A + 10 * eps * (min m n : ℕ) ∧
      ((∀ i, (la.svd st.B).2.1 i = 0 ∨ 10 * eps ≤ (la.svd st.B).2.1 i) →
        fro (A - out.U * diagonal out.s * out.Vh) ≤ t * fro A) := by
  have hrf : RFShape (RF1 la (RS1 gauss (p - 2) (orth la) 1)) m n :=
    C05_rf1_shape la gauss _ _ (Or.inl rfl) _
  have hqb : QB2 la (RF1 la (RS1 gauss (p - 2) (orth la) 1)) blk false m n A ((k + 0 : ℕ) : ℤ)
      (.val t) w = .ok (⟨st.c, st.Q, st.B⟩, w') := by
    unfold QB2 qb2Call
    rw [Py.bind_eq_of_ok (Py.bind_eq_of_ok hrun)]; rfl
  have htol := C07_qb2_tolerance_met la _ hrf blk hblk A hmn k (by exact_mod_cast hk) t ht
    w w' st hrun hcap
  obtain ⟨out, h1, -, h3⟩ := C13_svd1_tolerance la _ A k (.val t) w w' _ hqb
  have hcall : qb2Call la (RF1 la (RS1 gauss (p - 2) (orth la) 1)) blk false A k
      (.val t) w = .ok ((⟨st.c, st.Q, st.B⟩, A), w') := by
    unfold qb2Call; rw [Py.bind_eq_of_ok hrun]; rfl
  have hc : (st.c : ℤ) ≤ min (k : ℤ) (min m n : ℕ) :=
    (C05_qb2_exit la _ hrf blk hblk false A hmn k _ w w' _ _ hcall).1
  refine ⟨out, h1, ?_, fun hσ => ?_⟩
  · refine (h3 (C06_qb2_unconditional la _ blk A hmn k _ w w' st hrun).1).trans
      (add_le_add htol ?_)
    have h4 : (st.c : ℝ) ≤ (min m n : ℕ) := by exact_mod_cast (by omega : st.c ≤ min m n)
    exact mul_le_mul_of_nonneg_left h4 (by have := eps_pos; positivity)
  · obtain ⟨out', h1', -, h3'⟩ := C13_svd1_no_truncation la _ A k (.val t) w w' _ hqb hσ
    rw [h1] at h1'; cases h1'
    exact h3' t htol

theorem svd_le_fro (la : LinAlg) {c : ℕ} (B : Matrix (Fin c) (Fin n) ℝ) (i) :
    (la.svd B).2.1 i ≤ fro B := by
  have : (la.svd B).2.1 i ^ 2 ≤ froSq B := by
    conv_rhs => rw [← la.svd_mul B, froSq_UsV (la.svd_left _) (la.svd_right _)]
    exact Finset.single_le_sum (f := fun i => (la.svd B).2.1 i ^ 2) (fun _ _ => sq_nonneg _)
      (Finset.mem_univ i)
  exact Real.le_sqrt_of_sq_le this

/-- **C13** (refutation).  For *every* nonzero `A` with `‖A‖_F < 10*eps`, every backend and every
QB step that did its job perfectly (`Q` orthonormal, `B = Q'A`), SVD1 returns no components at all:
the relative error is 1, above any `tol < 1`, even if `QB = A`. -/
theorem C13_svd1_tolerance_false (la : LinAlg) (qb : QBDecomposer G)
    (A : Matrix (Fin m) (Fin n) ℝ) (hA : A ≠ 0) (hsmall : fro A < 10 * eps) (k : ℕ) (tol : Tol)
    (over : ℕ) (w w' : World G) (qbo : QBOut m n)
    (hqb : qb m n A ((k + over : ℕ) : ℤ) tol w = .ok (qbo, w'))
    (hQ : OrthoCols qbo.Q) (hB : qbo.B = qbo.Qᵀ * A) :
    ∃ out : SVDOut m n, svd1Call la qb A k tol over w = .ok (out, w') ∧ out.r = 0 ∧
      ∀ t < 1, ¬ fro (A - out.U * diagonal out.s * out.Vh) ≤ t * fro A := by
  obtain ⟨r, hr, hcall, hi⟩ := svd1_open la qb A k tol over w w' qbo hqb
  have hBA : fro qbo.B ≤ fro A := by
    have h1 := froSq_sub_proj hQ A
    have h2 := froSq_nonneg (A - qbo.Q * (qbo.Qᵀ * A))
    rw [hB]; exact Real.sqrt_le_sqrt (by linarith)
  have hr0 : r = 0 := by
    by_contra hne
    have hlt : 0 < min qbo.c n := by omega
    have := ((hi ⟨0, hlt⟩).1 (by simpa using Nat.pos_of_ne_zero hne)).2
    have := svd_le_fro la qbo.B ⟨0, hlt⟩
    linarith
  subst hr0
  refine ⟨_, hcall, rfl, fun t ht => ?_⟩
  have hz : (A - (qbo.Q * (la.svd qbo.B).1.submatrix id (Fin.castLE hr)) *
      diagonal ((la.svd qbo.B).2.1 ∘ Fin.castLE hr) *
      (la.svd qbo.B).2.2.submatrix (Fin.castLE hr) id) = A := by
    rw [sub_eq_self]; ext i j; simp [mul_apply]
  change ¬ fro (A - _) ≤ _
  rw [hz, not_le]
  have : 0 < fro A := lt_of_le_of_ne (fro_nonneg A) (fun h => hA (fro_eq_zero.1 h.symm))
  nlinarith

/-- A QB step that returns the trivial factorisation `A = I A`; used in the examples. -/
def trivialQB : QBDecomposer G := fun m _ A _ _ => pure ⟨m, 1, A⟩

-- the hypotheses of C12 are met by a 2×3 example with k = 1, over = 1
example (w : World G) : ∃ (A : Matrix (Fin 2) (Fin 3) ℝ) (qbo : QBOut 2 3),
    trivialQB 2 3 A ((1 + 1 : ℕ) : ℤ) .nan w = .ok (qbo, w) ∧ OrthoCols qbo.Q ∧ qbo.c ≤ 1 + 1 ∧
    qbo.B = qbo.Qᵀ * A :=
  ⟨Matrix.of ![![1, 2, 3], ![4, 5, 6]], _, rfl, by simp [OrthoCols], le_rfl, by simp⟩

-- the hypotheses of C13_svd1_tolerance_false are met by the 1×1 matrix [eps]
example (w : World G) : ∃ (A : Matrix (Fin 1) (Fin 1) ℝ) (qbo : QBOut 1 1),
    A ≠ 0 ∧ fro A < 10 * eps ∧ trivialQB 1 1 A ((1 + 0 : ℕ) : ℤ) .nan w = .ok (qbo, w) ∧
    OrthoCols qbo.Q ∧ qbo.B = qbo.Qᵀ * A := by
  have he : (0 : ℝ) < eps := by unfold eps; positivity
  refine ⟨Matrix.of fun _ _ => eps, _, ?_, ?_, rfl, by simp [OrthoCols], by simp⟩
  · intro h; have := congrFun (congrFun h 0) 0; simp at this; exact he.ne' this
  · have : fro (Matrix.of fun _ _ : Fin 1 => eps) = eps := by
      simp [fro, froSq, Real.sqrt_sq he.le]
    rw [this]; linarith

end Parla.Props
