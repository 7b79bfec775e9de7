import Verif.Proof.IDError
import Verif.Props.ID2
import Verif.SpecLowRank
import Verif.Proof.LowRank

/-! # Property C76: error of interpolative decompositions

Greedy column pivoting makes the coefficients of `qrcp_osid` grow at most like powers of two, and its
skeleton is within a dimensional factor of the best matrix of rank `k`.  The sketched decompositions inherit
both. -/

namespace Parla.Props

open Matrix Parla Spec

variable {G : Type} {m n k : ℕ}

theorem pivotGrowth_nonneg (h : k ≤ n) : 0 ≤ pivotGrowth n k := by
  unfold pivotGrowth
  have h4 : (1 : ℝ) ≤ 4 ^ k := one_le_pow₀ (by norm_num)
  have hn : (k : ℝ) ≤ n := by exact_mod_cast h
  exact mul_nonneg (by linarith) (by linarith)

theorem pivotLoss_nonneg (h : k ≤ n) : 0 ≤ pivotLoss n k := by
  unfold pivotLoss
  have h4 : (1 : ℝ) ≤ 4 ^ (k + 1) := one_le_pow₀ (by norm_num)
  have hn : (k : ℝ) ≤ n := by exact_mod_cast h
  exact mul_nonneg (by linarith) (by linarith)

theorem fro_transpose' (M : Matrix (Fin m) (Fin n) ℝ) : fro Mᵀ = fro M := by
  unfold fro; rw [froSq_transpose]

/-- **C76** (`qrcp_osid`, columns).  The coefficients satisfy `|X[i, j]| ≤ 2^(k-1-i)` and
`‖X‖_F² ≤ k + (n-k)(4^k-1)/3`, and the error is within `√((n-k)(4^(k+1)-1)/3)` of that of *every* matrix of
rank at most `k`. -/
theorem C76_qrcp_column (la : LinAlg) (Y : Matrix (Fin m) (Fin n) ℝ) (k : ℕ) (out : IDOut m n)
    (h : qrcpOsid la Y k 1 = .ok out) :
    ∃ o : ColID n, out = .col o ∧ (∀ i j, |o.X i j| ≤ 2 ^ (k - 1 - i.1)) ∧
      fro o.X ^ 2 ≤ k + pivotGrowth n k ∧
      ∀ B : Matrix (Fin m) (Fin n) ℝ, B.rank ≤ k →
        fro (Y - Y.submatrix id o.Js * o.X) ^ 2 ≤ pivotLoss n k * fro (Y - B) ^ 2 := by
  unfold qrcpOsid at h
  rw [if_pos rfl] at h
  simp only [bind, Except.bind] at h
  cases hc : qrcpCol la Y k with
  | error e => rw [hc] at h; cases h
  | ok o =>
    rw [hc] at h; cases h
    obtain ⟨h1, h2⟩ := Proof.qrcpCol_growth la hc
    simp only [fro_sq]
    exact ⟨o, rfl, h1, h2, fun B hB => Proof.qrcpCol_quality la hc B hB⟩

/-- **C76** (`qrcp_osid`, rows). -/
theorem C76_qrcp_row (la : LinAlg) (Y : Matrix (Fin m) (Fin n) ℝ) (k : ℕ) (out : IDOut m n)
    (h : qrcpOsid la Y k 0 = .ok out) :
    ∃ o : RowID m, out = .row o ∧ (∀ i j, |o.Z i j| ≤ 2 ^ (k - 1 - j.1)) ∧
      fro o.Z ^ 2 ≤ k + pivotGrowth m k ∧
      ∀ B : Matrix (Fin m) (Fin n) ℝ, B.rank ≤ k →
        fro (Y - o.Z * Y.submatrix o.Is id) ^ 2 ≤ pivotLoss m k * fro (Y - B) ^ 2 := by
  unfold qrcpOsid at h
  rw [if_neg (by norm_num), if_pos rfl] at h
  simp only [bind, Except.bind] at h
  cases hc : qrcpRow la Y k with
  | error e => rw [hc] at h; cases h
  | ok o =>
    rw [hc] at h; cases h
    obtain ⟨o', hc', rfl⟩ := qrcpRow_ok.1 hc
    obtain ⟨h1, h2⟩ := Proof.qrcpCol_growth la hc'
    simp only [fro_sq]
    refine ⟨_, rfl, fun i j => h1 j i, ?_, fun B hB => ?_⟩
    · show froSq o'.Xᵀ ≤ _
      rw [froSq_transpose]; exact h2
    · have := Proof.qrcpCol_quality la hc' Bᵀ (by rwa [rank_transpose])
      rw [← transpose_sub, froSq_transpose] at this
      have e : (Yᵀ - Yᵀ.submatrix id o'.Js * o'.X) = (Y - o'.Xᵀ * Y.submatrix o'.Js id)ᵀ := by
        rw [transpose_sub, transpose_mul, transpose_submatrix, transpose_transpose]
      rw [e, froSq_transpose] at this
      exact this

/-- everything the error of a sketched column ID depends on -/
theorem osid1_col_error {la : LinAlg} {skOp : RowSketcher G} {A : Matrix (Fin m) (Fin n) ℝ} {over : ℕ}
    {w w' : World G} {o : ColID n} (h : (OSID1 la skOp).col m n A k over w = .ok (o, w')) :
    ∃ S w1, skOp n m Aᵀ (k + over) w = .ok (S, w1) ∧ k ≤ n ∧ FullColRank (A.submatrix id o.Js) ∧
      (∀ (C : Matrix (Fin m) (Fin S.c) ℝ) (B : Matrix (Fin S.c) (Fin n) ℝ), B.rank ≤ k →
        fro (A - A.submatrix id o.Js * o.X) ≤ √(1 + pivotGrowth n k) * fro (A - C * (S.matᵀ * A)) +
          fro C * (√(pivotLoss n k) * fro (S.matᵀ * A - B))) ∧
      (OrthoCols S.mat → ∀ B : Matrix (Fin m) (Fin n) ℝ, B.rank ≤ k →
        fro (A - A.submatrix id o.Js * o.X) ^ 2 ≤
          (1 + pivotGrowth n k) * fro (A - S.mat * (S.matᵀ * A)) ^ 2 + pivotLoss n k * fro (A - B) ^ 2) ∧
      (S.c ≤ k → ∀ C : Matrix (Fin m) (Fin S.c) ℝ,
        fro (A - A.submatrix id o.Js * o.X) ^ 2 ≤ (1 + pivotGrowth n k) * fro (A - C * (S.matᵀ * A)) ^ 2) := by
  obtain ⟨Yt, hY, hq⟩ := osid1_col_ok.1 h
  rw [sketchCols_eq, sketchRows_ok] at hY
  obtain ⟨S, w1, hS, rfl, -⟩ := hY
  have eY : (Aᵀ * S.mat)ᵀ = S.matᵀ * A := by rw [transpose_mul, transpose_transpose]
  rw [show (⟨S.c, Aᵀ * S.mat⟩ : Cols n).mat = Aᵀ * S.mat from rfl, eY] at hq
  obtain ⟨f1, f2, f3, f4, f5, f6, -⟩ := qrcpCol_facts la hq
  have hkn : k ≤ n := f2.trans (min_le_right _ _)
  obtain ⟨-, hg⟩ := Proof.qrcpCol_growth la hq
  have hqual := Proof.qrcpCol_quality la hq
  have hg0 := pivotGrowth_nonneg hkn
  have hl0 := pivotLoss_nonneg hkn
  have hint : ∀ E : Matrix (Fin m) (Fin n) ℝ,
      froSq (E - E.submatrix id o.Js * o.X) ≤ (1 + pivotGrowth n k) * froSq E := by
    intro E
    refine (Proof.interp_froSq_le E ⟨f4, f5⟩).trans (mul_le_mul_of_nonneg_right ?_ (froSq_nonneg _))
    have h1 : froSq o.X ≤ k + pivotGrowth n k := hg
    have h2 : (o.c : ℝ) = k := by exact_mod_cast f1
    linarith
  refine ⟨S, w1, hS, hkn, ?_, ?_, ?_, ?_⟩
  · rw [fullColRank_iff_inj] at f6 ⊢
    intro x hx
    refine f6 x ?_
    have e : (S.matᵀ * A).submatrix id o.Js = S.matᵀ * A.submatrix id o.Js := by
      rw [submatrix_cols, submatrix_cols A, Matrix.mul_assoc]
    rw [e, ← mulVec_mulVec, hx, mulVec_zero]
  · intro C B hB
    conv_lhs => rw [Proof.interp_split A (S.matᵀ * A) C o.X o.Js]
    refine (fro_triangle _ _).trans (add_le_add ?_ ?_)
    · rw [fro_le_iff_sq (mul_nonneg (Real.sqrt_nonneg _) (fro_nonneg _)), mul_pow,
        Real.sq_sqrt (by linarith), fro_sq]
      exact hint _
    · rw [fro_le_iff_sq (mul_nonneg (fro_nonneg _) (mul_nonneg (Real.sqrt_nonneg _) (fro_nonneg _))), mul_pow,
        mul_pow, Real.sq_sqrt hl0, fro_sq, fro_sq]
      exact (froSq_mul_le _ _).trans (mul_le_mul_of_nonneg_left (hqual B hB) (froSq_nonneg _))
  · intro ho B hB
    rw [fro_sq, fro_sq, fro_sq, Proof.interp_split_orth A ho]
    refine add_le_add (hint _) ((hqual (S.matᵀ * B) ((Matrix.rank_mul_le_right _ _).trans hB)).trans ?_)
    rw [← Matrix.mul_sub]
    exact mul_le_mul_of_nonneg_left (Proof.froSq_orth_transpose_mul_le ho _) hl0
  · intro hc C
    rw [fro_sq, fro_sq]
    have hex := qrcpCol_exact la hq ((Matrix.rank_mul_le_left _ _).trans
      ((rank_transpose S.mat).le.trans ((rank_le_width' _).trans hc)))
    rw [Proof.interp_split A (S.matᵀ * A) C o.X o.Js, hex, sub_self, Matrix.mul_zero, add_zero]
    exact hint _

/-- **C76** (`OSID1`, columns), for every sketching object.  With `S` the sketching matrix it returned for
`A'`:
* for every `C` and every `B` of rank at most `k`, the error is at most
  `√(1 + (n-k)(4^k-1)/3) ‖A - C S'A‖_F + ‖C‖_F √((n-k)(4^(k+1)-1)/3) ‖S'A - B‖_F`;
* if `S` has orthonormal columns, the squared error is at most
  `(1 + (n-k)(4^k-1)/3) ‖A - S S'A‖_F² + (n-k)(4^(k+1)-1)/3 ‖A - B‖_F²` for every `B` of rank at most `k`;
* if `S` has at most `k` columns, it is at most `(1 + (n-k)(4^k-1)/3) ‖A - C S'A‖_F²` for every `C`. -/
theorem C76_osid1_column (la : LinAlg) (skOp : RowSketcher G) (A : Matrix (Fin m) (Fin n) ℝ)
    (k over : ℕ) (w w' : World G) (out : IDOut m n)
    (h : (OSID1 la skOp).call A k over 1 w = .ok (out, w')) :
    ∃ o S w1, out = .col o ∧ skOp n m Aᵀ (k + over) w = .ok (S, w1) ∧
      (∀ (C : Matrix (Fin m) (Fin S.c) ℝ) (B : Matrix (Fin S.c) (Fin n) ℝ), B.rank ≤ k →
        fro (A - A.submatrix id o.Js * o.X) ≤ √(1 + pivotGrowth n k) * fro (A - C * (S.matᵀ * A)) +
          fro C * (√(pivotLoss n k) * fro (S.matᵀ * A - B))) ∧
      (OrthoCols S.mat → ∀ B : Matrix (Fin m) (Fin n) ℝ, B.rank ≤ k →
        fro (A - A.submatrix id o.Js * o.X) ^ 2 ≤
          (1 + pivotGrowth n k) * fro (A - S.mat * (S.matᵀ * A)) ^ 2 + pivotLoss n k * fro (A - B) ^ 2) ∧
      (S.c ≤ k → ∀ C : Matrix (Fin m) (Fin S.c) ℝ,
        fro (A - A.submatrix id o.Js * o.X) ^ 2 ≤ (1 + pivotGrowth n k) * fro (A - C * (S.matᵀ * A)) ^ 2) := by
  obtain ⟨o, h1, rfl⟩ := call_col.1 h
  obtain ⟨S, w1, hS, -, -, h2⟩ := osid1_col_error h1
  exact ⟨o, S, w1, rfl, hS, h2⟩

/-- **C76** (`OSID1`, rows): the same with the roles of rows and columns exchanged. -/
theorem C76_osid1_row (la : LinAlg) (skOp : RowSketcher G) (A : Matrix (Fin m) (Fin n) ℝ)
    (k over : ℕ) (w w' : World G) (out : IDOut m n)
    (h : (OSID1 la skOp).call A k over 0 w = .ok (out, w')) :
    ∃ o S w1, out = .row o ∧ skOp m n A (k + over) w = .ok (S, w1) ∧
      (∀ (C : Matrix (Fin S.c) (Fin n) ℝ) (B : Matrix (Fin m) (Fin S.c) ℝ), B.rank ≤ k →
        fro (A - o.Z * A.submatrix o.Is id) ≤ √(1 + pivotGrowth m k) * fro (A - A * S.mat * C) +
          fro C * (√(pivotLoss m k) * fro (A * S.mat - B))) ∧
      (OrthoCols S.mat → ∀ B : Matrix (Fin m) (Fin n) ℝ, B.rank ≤ k →
        fro (A - o.Z * A.submatrix o.Is id) ^ 2 ≤
          (1 + pivotGrowth m k) * fro (A - A * S.mat * S.matᵀ) ^ 2 + pivotLoss m k * fro (A - B) ^ 2) ∧
      (S.c ≤ k → ∀ C : Matrix (Fin S.c) (Fin n) ℝ,
        fro (A - o.Z * A.submatrix o.Is id) ^ 2 ≤ (1 + pivotGrowth m k) * fro (A - A * S.mat * C) ^ 2) := by
  obtain ⟨o, h1, rfl⟩ := call_row.1 h
  obtain ⟨o', h2, rfl⟩ := osid1_row_ok.1 h1
  obtain ⟨S, w1, hS, -, -, g1, g2, g3⟩ := osid1_col_error h2
  rw [transpose_transpose] at hS
  have e0 : fro (Aᵀ - Aᵀ.submatrix id o'.Js * o'.X) = fro (A - o'.Xᵀ * A.submatrix o'.Js id) := by
    rw [← fro_transpose', transpose_sub, transpose_mul, transpose_submatrix, transpose_transpose]
  have e1 : ∀ C : Matrix (Fin S.c) (Fin n) ℝ, fro (Aᵀ - Cᵀ * (S.matᵀ * Aᵀ)) = fro (A - A * S.mat * C) := by
    intro C
    rw [← fro_transpose', transpose_sub, ← transpose_mul, ← transpose_mul, transpose_transpose,
      transpose_transpose]
  have e2 : ∀ B : Matrix (Fin m) (Fin S.c) ℝ, fro (S.matᵀ * Aᵀ - Bᵀ) = fro (A * S.mat - B) := by
    intro B
    rw [← transpose_mul, ← transpose_sub, fro_transpose']
  have e3 : ∀ B : Matrix (Fin m) (Fin n) ℝ, fro (Aᵀ - Bᵀ) = fro (A - B) := by
    intro B
    rw [← transpose_sub, fro_transpose']
  refine ⟨_, S, w1, rfl, hS, fun C B hB => ?_, fun ho B hB => ?_, fun hc C => ?_⟩
  · have := g1 Cᵀ Bᵀ (by rwa [rank_transpose])
    rw [e0, e1, e2, fro_transpose'] at this
    exact this
  · have := g2 ho Bᵀ (by rwa [rank_transpose])
    rw [e0, e3] at this
    have e4 := e1 S.matᵀ
    rw [transpose_transpose] at e4
    rw [e4] at this
    exact this
  · have := g3 hc Cᵀ
    rw [e0, e1] at this
    exact this

theorem skel_eq {a b : Skel n} (h : a.c = b.c) (h' : ∀ i, a.idx i = b.idx (Fin.cast h i)) : a = b := by
  obtain ⟨ca, fa⟩ := a
  obtain ⟨cb, fb⟩ := b
  simp only at h
  subst h
  congr 1
  funext i
  exact h' i

/-- the pivots are the skeleton of the pivoted column ID -/
theorem pivots_eq {la : LinAlg} {r : ℕ} {Y : Cols r} {k : ℕ} {o : ColID r} (ho : qrcpCol la Y.matᵀ k = .ok o) :
    pivots la Y k = ⟨o.c, o.Js⟩ := by
  obtain ⟨h1, h2, -⟩ := qrcpCol_facts la ho
  have hkr : k ≤ r := h2.trans (min_le_right _ _)
  have hc : (pivots la Y k).c = k := min_eq_left hkr
  refine skel_eq (hc.trans h1.symm) fun i => ?_
  unfold qrcpCol at ho
  rw [dif_pos h2] at ho
  simp only [bind, Except.bind] at ho
  split at ho
  · cases ho
  · cases ho; rfl

/-- OSID2 returns the best coefficients for the skeleton OSID1 returns -/
theorem osid2_of_osid1 {la : LinAlg} {skOp : RowSketcher G} {A : Matrix (Fin m) (Fin n) ℝ} {over : ℕ}
    {w w' : World G} {o : ColID n} (h : (OSID1 la skOp).col m n A k over w = .ok (o, w')) :
    ∃ X2 : Matrix (Fin o.c) (Fin n) ℝ, (OSID2 la skOp).col m n A k over w = .ok (⟨o.c, X2, o.Js⟩, w') ∧
      fro (A - A.submatrix id o.Js * X2) ≤ fro (A - A.submatrix id o.Js * o.X) := by
  obtain ⟨Yt, hY, hq⟩ := osid1_col_ok.1 h
  have hp := pivots_eq hq
  refine ⟨la.lstsq (A.submatrix id o.Js) A, osid2_col_ok.2 ⟨Yt, hY, ?_⟩,
    fro_opt_of_normal (lstsq_resid la _ _) _⟩
  rw [hp]

/-- **C76** (`OSID2` against `OSID1`, columns).  Run from the same state, `OSID2` chooses the same columns as
`OSID1`, makes the same calls, and its error is never larger. -/
theorem C76_osid2_column (la : LinAlg) (skOp : RowSketcher G) (A : Matrix (Fin m) (Fin n) ℝ)
    (k over : ℕ) (w w' : World G) (o : ColID n)
    (h : (OSID1 la skOp).call A k over 1 w = .ok (.col o, w')) :
    ∃ X2 : Matrix (Fin o.c) (Fin n) ℝ, (OSID2 la skOp).call A k over 1 w = .ok (.col ⟨o.c, X2, o.Js⟩, w') ∧
      fro (A - A.submatrix id o.Js * X2) ≤ fro (A - A.submatrix id o.Js * o.X) := by
  obtain ⟨o', h1, h2⟩ := call_col.1 h
  cases h2
  obtain ⟨X2, g1, g2⟩ := osid2_of_osid1 h1
  exact ⟨X2, call_col.2 ⟨_, g1, rfl⟩, g2⟩

/-- **C76** (`OSID2` against `OSID1`, rows). -/
theorem C76_osid2_row (la : LinAlg) (skOp : RowSketcher G) (A : Matrix (Fin m) (Fin n) ℝ)
    (k over : ℕ) (w w' : World G) (o : RowID m)
    (h : (OSID1 la skOp).call A k over 0 w = .ok (.row o, w')) :
    ∃ Z2 : Matrix (Fin m) (Fin o.c) ℝ, (OSID2 la skOp).call A k over 0 w = .ok (.row ⟨o.c, Z2, o.Is⟩, w') ∧
      fro (A - Z2 * A.submatrix o.Is id) ≤ fro (A - o.Z * A.submatrix o.Is id) := by
  obtain ⟨o1, h1, h2⟩ := call_row.1 h
  cases h2
  obtain ⟨o', h3, rfl⟩ := osid1_row_ok.1 h1
  obtain ⟨X2, g1, g2⟩ := osid2_of_osid1 h3
  refine ⟨X2ᵀ, call_row.2 ⟨_, osid2_row_ok.2 ⟨_, g1, rfl⟩, rfl⟩, ?_⟩
  have e : ∀ X : Matrix (Fin o'.c) (Fin m) ℝ, fro (Aᵀ - Aᵀ.submatrix id o'.Js * X) =
      fro (A - Xᵀ * A.submatrix o'.Js id) := by
    intro X
    rw [← fro_transpose', transpose_sub, transpose_mul, transpose_submatrix, transpose_transpose]
  rw [e, e] at g2
  exact g2

/-- the CUR error, in column form -/
theorem cur_core (la : LinAlg) (A : Matrix (Fin m) (Fin n) ℝ) (k : ℕ) (X : ColID n) (hc : X.c = k)
    (hf : FullColRank (A.submatrix id X.Js)) (b : ℕ) (Is : Fin b → Fin m)
    (hI : (⟨b, Is⟩ : Skel m) = pivots la ⟨X.c, A.submatrix id X.Js⟩ k) (U : Matrix (Fin X.c) (Fin b) ℝ)
    (hU : (A.submatrix Is id) * (X.X - U * A.submatrix Is id)ᵀ = 0) :
    fro (A - A.submatrix id X.Js * U * A.submatrix Is id) ≤
      (1 + √(k + pivotGrowth m k)) * fro (A - A.submatrix id X.Js * X.X) := by
  have hr : (A.submatrix id X.Js).rank = k := by rw [← hc]; exact hf
  obtain ⟨o, ho⟩ := (qrcpCol_cases la (A.submatrix id X.Js)ᵀ k).1 (by rw [rank_transpose, hr])
  have hp := pivots_eq (Y := ⟨X.c, A.submatrix id X.Js⟩) ho
  rw [hp] at hI
  cases hI
  obtain ⟨-, f2, -, f4, -⟩ := qrcpCol_facts la ho
  have hkm : k ≤ m := f2.trans (min_le_right _ _)
  have hex := qrcpCol_exact la ho (by rw [rank_transpose, hr])
  have hZ : o.Xᵀ * A.submatrix o.Js X.Js = A.submatrix id X.Js := by
    have := congrArg Matrix.transpose hex
    rw [transpose_mul, transpose_submatrix, transpose_transpose] at this
    exact this
  refine (Proof.cur_error A X.Js X.X f4 U hU o.Xᵀ hZ).trans (mul_le_mul_of_nonneg_right ?_ (fro_nonneg _))
  rw [fro_transpose']
  refine add_le_add le_rfl (Real.le_sqrt_of_sq_le ?_)
  rw [fro_sq]
  exact (Proof.qrcpCol_growth la ho).2

/-- **C76** (`CUR1`, tall), for every one-sided ID object: if the `k` columns `Js` it chose are independent,
the error of `A[:, Js] U A[Is, :]` is at most `1 + √(k + (m-k)(4^k-1)/3)` times that of the column ID. -/
theorem C76_cur1_tall (la : LinAlg) (osid : OneSidedID G) (A : Matrix (Fin m) (Fin n) ℝ) (hmn : m > n)
    (k over : ℕ) (w w' : World G) (X : ColID n) (hX : osid.col m n A k over w = .ok (X, w')) (hc : X.c = k)
    (hf : FullColRank (A.submatrix id X.Js)) :
    ∃ out, cur1Call la osid A k over w = .ok (out, w') ∧
      fro (A - A.submatrix id out.Js * out.U * A.submatrix out.Is id) ≤
        (1 + √(k + pivotGrowth m k)) * fro (A - A.submatrix id X.Js * X.X) := by
  refine ⟨_, (cur1_tall hmn).2 ⟨X, hX, rfl⟩, cur_core la A k X hc hf _ _ rfl _ ?_⟩
  have := lstsq_resid la (A.submatrix (pivots la ⟨X.c, A.submatrix id X.Js⟩ k).idx id)ᵀ X.Xᵀ
  rw [transpose_transpose] at this
  show (A.submatrix (pivots la ⟨X.c, A.submatrix id X.Js⟩ k).idx id) *
    (X.X - (la.lstsq (A.submatrix (pivots la ⟨X.c, A.submatrix id X.Js⟩ k).idx id)ᵀ X.Xᵀ)ᵀ *
      (A.submatrix (pivots la ⟨X.c, A.submatrix id X.Js⟩ k).idx id))ᵀ = 0
  rw [transpose_sub, transpose_mul, transpose_transpose]
  exact this

/-- **C76** (`CUR1`, square or wide). -/
theorem C76_cur1_wide (la : LinAlg) (osid : OneSidedID G) (A : Matrix (Fin m) (Fin n) ℝ) (hmn : m ≤ n)
    (k over : ℕ) (w w' : World G) (Z : RowID m) (hZ : osid.row m n A k over w = .ok (Z, w')) (hc : Z.c = k)
    (hf : FullColRank (A.submatrix Z.Is id)ᵀ) :
    ∃ out, cur1Call la osid A k over w = .ok (out, w') ∧
      fro (A - A.submatrix id out.Js * out.U * A.submatrix out.Is id) ≤
        (1 + √(k + pivotGrowth n k)) * fro (A - Z.Z * A.submatrix Z.Is id) := by
  refine ⟨_, (cur1_wide (by omega)).2 ⟨Z, hZ, rfl⟩, ?_⟩
  obtain ⟨J, hJ⟩ : ∃ J : Fin (pivots la ⟨Z.c, (A.submatrix Z.Is id)ᵀ⟩ k).c → Fin n,
    J = (pivots la ⟨Z.c, (A.submatrix Z.Is id)ᵀ⟩ k).idx := ⟨_, rfl⟩
  have := cur_core la Aᵀ k ⟨Z.c, Z.Zᵀ, Z.Is⟩ hc hf _ J (by rw [hJ]; rfl)
    (la.lstsq (A.submatrix id J) Z.Z)ᵀ (by
      have := lstsq_resid la (A.submatrix id J) Z.Z
      show Aᵀ.submatrix J id * (Z.Zᵀ - (la.lstsq (A.submatrix id J) Z.Z)ᵀ * Aᵀ.submatrix J id)ᵀ = 0
      rw [transpose_sub, transpose_mul, transpose_transpose, transpose_transpose,
        ← transpose_submatrix, transpose_transpose]
      exact this)
  rw [← fro_transpose', transpose_sub, transpose_mul, transpose_mul, transpose_transpose, transpose_transpose,
    transpose_submatrix, transpose_submatrix, transpose_transpose, ← Matrix.mul_assoc,
    ← fro_transpose' (Aᵀ - _), transpose_sub, transpose_mul, transpose_submatrix, transpose_transpose] at this
  rw [hJ] at this
  exact this

/-! ### Non-vacuity -/

/-- a matrix of rank two -/
def demo32 : Matrix (Fin 3) (Fin 2) ℝ := !![1, 0; 0, 1; 1, 1]

theorem demo32_sketch (w : World G) :
    ∃ S w1, (coordSketcher (G := G)) 2 3 demo32ᵀ (1 + 1) w =
      .ok (S, w1) ∧ OrthoCols S.mat ∧ S.matᵀ * demo32 ≠ 0 ∧ S.c = 2 := by
  refine ⟨_, _, rfl, ?_, ?_, rfl⟩
  · unfold OrthoCols
    ext i j
    fin_cases i <;> fin_cases j <;> simp [Matrix.mul_apply, Fin.sum_univ_three, Matrix.one_apply]
  · intro h
    have := congrFun (congrFun h (0 : Fin 2)) 0
    simp [demo32, Matrix.mul_apply, Fin.sum_univ_three] at this

/-- `OSID1` returns a column of a matrix of rank two, so that none of the errors above is zero -/
theorem demo32_osid1 (la : LinAlg) (w : World G) :
    ∃ o w', (OSID1 la (coordSketcher (G := G))).col 3 2 demo32 1 1 w = .ok (o, w') := by
  obtain ⟨S, w1, h, ho, hne, hc⟩ := demo32_sketch w
  have hr : 1 ≤ (S.matᵀ * demo32).rank := by
    rw [Nat.one_le_iff_ne_zero]
    intro h0
    exact hne (rank_eq_zero_iff'.1 h0)
  obtain ⟨o, ho⟩ := (qrcpCol_cases la (S.matᵀ * demo32) 1).1 hr
  refine ⟨o, { w1 with trace := w1.trace ++ [.mulA] }, osid1_col_ok.2 ⟨⟨S.c, demo32ᵀ * S.mat⟩, ?_, ?_⟩⟩
  · rw [sketchCols_eq, sketchRows_ok]
    exact ⟨S, w1, h, rfl, rfl⟩
  · rw [transpose_mul, transpose_transpose]
    exact ho

example (la : LinAlg) (w : World G) :
    ∃ o w' S w1, (OSID1 la (coordSketcher (G := G))).call demo32 1 1 1 w =
      .ok (.col o, w') ∧
      (coordSketcher (G := G)) 2 3 demo32ᵀ (1 + 1) w = .ok (S, w1) ∧
      OrthoCols S.mat := by
  obtain ⟨o, w', h⟩ := demo32_osid1 la w
  obtain ⟨S, w1, h1, h2, -⟩ := demo32_sketch w
  exact ⟨o, w', S, w1, call_col.2 ⟨o, h, rfl⟩, h1, h2⟩

/-- the hypotheses of `C76_cur1_tall` -/
example (la : LinAlg) (w : World G) :
    ∃ (X : ColID 2) (w' : World G), (OSID1 la (coordSketcher (G := G))).col 3 2 demo32 1 1 w =
      .ok (X, w') ∧ X.c = 1 ∧
      FullColRank (demo32.submatrix id X.Js) := by
  obtain ⟨o, w', h⟩ := demo32_osid1 la w
  obtain ⟨-, -, -, -, h2, -⟩ := osid1_col_error h
  obtain ⟨Yt, hY, hq⟩ := osid1_col_ok.1 h
  exact ⟨o, w', h, (qrcpCol_facts la hq).1, h2⟩

end Parla.Props
