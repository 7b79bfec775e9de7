import Verif.Model.RoundingCUR
import Verif.Props.RoundingID

/-! # C103: OSID2 and CUR1 with rounding errors -/

namespace Parla.Props

open Matrix Parla Spec Parla.Proof

variable {G : Type} {m n k : ℕ}

/-! ### Exact arithmetic -/

theorem OSID2Fl_exact (la : LinAlg) (skOp : RowSketcher G) : OSID2Fl (exactCUR la) skOp = OSID2 la skOp := rfl

/-- **C103** (exact arithmetic is a special case): with exact operations the routines with rounding are `osid2` and `cur1`. -/
theorem C103_exact (la : LinAlg) (gen : SkOpGen G) (A : Matrix (Fin m) (Fin n) ℝ) (k over : ℕ) (p axis : ℤ) :
    osid2Fl (exactCUR la) gen A k over p axis = osid2 la gen A k over p axis ∧
    cur1Fl (exactCUR la) gen A k over p = cur1 la gen A k over p := by
  unfold osid2Fl osid2 cur1Fl cur1
  rw [show (exactCUR la).toFlAlg = exactFl la from rfl, show (exactCUR la).toFlID = exactID la from rfl, RS1Fl_exact, RS1Fl_exact,
    OSID2Fl_exact, OSID1Fl_exact]
  exact ⟨rfl, rfl⟩

/-! ### Least squares -/

theorem fro_eq_norm2_cols (M : Matrix (Fin m) (Fin n) ℝ) : fro M = norm2 fun j => norm2 (M.col j) := by
  unfold fro
  rw [norm2]
  congr 1
  unfold sqNorm
  simp only [norm2_sq]
  unfold froSq sqNorm
  rw [Finset.sum_comm]
  rfl

theorem norm2_mono {u v : Fin n → ℝ} (h : ∀ i, |u i| ≤ v i) : norm2 u ≤ norm2 v := by
  unfold norm2 sqNorm
  refine Real.sqrt_le_sqrt (Finset.sum_le_sum fun i _ => ?_)
  rw [← sq_abs (u i)]
  exact pow_le_pow_left₀ (abs_nonneg _) (h i) 2

theorem norm2_scale {t : ℝ} (ht : 0 ≤ t) (v : Fin n → ℝ) : norm2 (fun i => t * v i) = t * norm2 v := by
  unfold norm2 sqNorm
  simp only [mul_pow]
  rw [← Finset.mul_sum, Real.sqrt_mul (sq_nonneg t), Real.sqrt_sq ht]

/-- a computed least squares solution is optimal up to rounding -/
theorem lstsqFl_near {fl : FlCUR} {N : ℕ} {ε : ℝ} (hfl : fl.Accurate N ε) (hε : 0 ≤ ε) {p : ℕ} (hm : m ≤ N) (hn : n ≤ N) (hp : p ≤ N)
    (M : Matrix (Fin m) (Fin n) ℝ) (B : Matrix (Fin m) (Fin p) ℝ) (W : Matrix (Fin n) (Fin p) ℝ) :
    fro (B - M * fl.lstsq M B) ≤ fro (B - M * W) + ε * (fro M * (fro (fl.lstsq M B) + fro W) + 2 * fro B) := by
  obtain ⟨X, hX⟩ : ∃ X, X = fl.lstsq M B := ⟨_, rfl⟩
  rw [← hX, fro_sub_comm, fro_sub_comm B]
  have hcol : ∀ (Z : Matrix (Fin n) (Fin p) ℝ) (j : Fin p), (M * Z - B).col j = M *ᵥ Z.col j - B.col j := fun Z j => rfl
  have htri : ∀ u v : Fin m → ℝ, norm2 (u - v) ≤ norm2 u + norm2 v := by
    intro u v
    rw [sub_eq_add_neg]
    refine (norm2_add_le' u (-v)).trans (le_of_eq ?_)
    congr 1
    unfold norm2 sqNorm; simp
  have hj : ∀ j, norm2 ((M * X - B).col j) ≤ norm2 ((M * W - B).col j) + ε * fro M * norm2 (X.col j) +
      (ε * fro M * norm2 (W.col j) + 2 * ε * norm2 (B.col j)) := by
    intro j
    obtain ⟨E, e, hE, he, hmin⟩ := hfl.lstsq M B j hm hn hp
    rw [← hX] at hmin
    rw [hcol, hcol]
    have h1 := hmin (W.col j)
    have b : ∀ z : Fin n → ℝ, norm2 (E *ᵥ z - e) ≤ ε * fro M * norm2 z + ε * norm2 (B.col j) := by
      intro z
      have c1 := htri (E *ᵥ z) e
      have c2 := norm2_mulVec_fro E z
      have c3 := mul_le_mul_of_nonneg_right hE (norm2_nonneg z)
      linarith
    have e1 : ∀ z : Fin n → ℝ, (M + E) *ᵥ z - (B.col j + e) = (M *ᵥ z - B.col j) + (E *ᵥ z - e) := by
      intro z; rw [Matrix.add_mulVec]; abel
    rw [e1, e1] at h1
    have h2 := norm2_add_le' (M *ᵥ W.col j - B.col j) (E *ᵥ W.col j - e)
    have h3 := htri ((M *ᵥ X.col j - B.col j) + (E *ᵥ X.col j - e)) (E *ᵥ X.col j - e)
    rw [add_sub_cancel_right] at h3
    have h4 := b (W.col j)
    have h5 := b (X.col j)
    linarith
  have hεM : 0 ≤ ε * fro M := mul_nonneg hε (fro_nonneg _)
  rw [fro_eq_norm2_cols (M * X - B), fro_eq_norm2_cols (M * W - B), fro_eq_norm2_cols X, fro_eq_norm2_cols W, fro_eq_norm2_cols B]
  have k1 := norm2_mono (u := fun j => norm2 ((M * X - B).col j))
    (v := (fun j => norm2 ((M * W - B).col j)) + (fun j => ε * fro M * norm2 (X.col j)) +
      ((fun j => ε * fro M * norm2 (W.col j)) + fun j => 2 * ε * norm2 (B.col j)))
    (fun j => by rw [abs_of_nonneg (norm2_nonneg _)]; exact hj j)
  have k2 := norm2_add_le' ((fun j => norm2 ((M * W - B).col j)) + (fun j => ε * fro M * norm2 (X.col j)))
    ((fun j => ε * fro M * norm2 (W.col j)) + fun j => 2 * ε * norm2 (B.col j))
  have k3 := norm2_add_le' (fun j => norm2 ((M * W - B).col j)) (fun j => ε * fro M * norm2 (X.col j))
  have k4 := norm2_add_le' (fun j => ε * fro M * norm2 (W.col j)) (fun j => 2 * ε * norm2 (B.col j))
  rw [norm2_scale hεM] at k3 k4
  rw [norm2_scale (by linarith)] at k4
  linarith

theorem pinvRightFl_near {fl : FlCUR} {N : ℕ} {ε : ℝ} (hfl : fl.Accurate N ε) (hε : 0 ≤ ε) {p : ℕ} (hm : m ≤ N) (hn : n ≤ N)
    (hp : p ≤ N) (T : Matrix (Fin p) (Fin n) ℝ) (M : Matrix (Fin m) (Fin n) ℝ) (W : Matrix (Fin p) (Fin m) ℝ) :
    fro (T - applyPinvOnRightFl fl T M * M) ≤ fro (T - W * M) +
      ε * (fro M * (fro (applyPinvOnRightFl fl T M) + fro W) + 2 * fro T) := by
  have h := lstsqFl_near hfl hε hn hm hp Mᵀ Tᵀ Wᵀ
  rw [fro_tr M, fro_tr W, fro_tr T, ← fro_tr (Tᵀ - _), ← fro_tr (Tᵀ - Mᵀ * Wᵀ), transpose_sub, transpose_sub, transpose_mul, transpose_mul,
    transpose_transpose, transpose_transpose, transpose_transpose, ← fro_tr (fl.lstsq Mᵀ Tᵀ)] at h
  exact h

/-! ### OSID2 -/

/-- **C103** (OSID2 with rounding errors, columns): it returns `min k n` distinct column indices, and coefficients that are optimal
up to rounding: for every `W`, `‖A - A[:, Js] X‖ ≤ ‖A - A[:, Js] W‖ + ε (‖A[:, Js]‖ (‖X‖ + ‖W‖) + 2 ‖A‖)`. -/
theorem C103_osid2_column {fl : FlCUR} {N : ℕ} {ε : ℝ} (hfl : fl.Accurate N ε) (hε : 0 ≤ ε) (hm : m ≤ N) (hn : n ≤ N)
    (skOp : RowSketcher G) (A : Matrix (Fin m) (Fin n) ℝ) (k over : ℕ) (o : ColID n) (w w' : World G)
    (h : (OSID2Fl fl skOp).col m n A k over w = .ok (o, w')) :
    o.c = min k n ∧ Function.Injective o.Js ∧ ∀ W : Matrix (Fin o.c) (Fin n) ℝ,
      fro (A - A.submatrix id o.Js * o.X) ≤ fro (A - A.submatrix id o.Js * W) +
        ε * (fro (A.submatrix id o.Js) * (fro o.X + fro W) + 2 * fro A) := by
  have h' : (sketchColsFl fl.toFlID skOp A k over >>= fun Yt => (pure ⟨(pivotsFl fl Yt k).c,
    applyPinvOnLeftFl fl A (A.submatrix id (pivotsFl fl Yt k).idx), (pivotsFl fl Yt k).idx⟩ : Py G (ColID n))) w = .ok (o, w') := h
  rw [Py.bind_ok_iff] at h'
  obtain ⟨Yt, w1, -, h2⟩ := h'
  cases h2
  refine ⟨rfl, (fl.qrp Yt.matᵀ).2.2.injective.comp (takeIdx_injective _ _), fun W => ?_⟩
  exact lstsqFl_near hfl hε hm ((min_le_right k n).trans hn) hn _ A W

/-- **C103** (OSID2 with rounding errors, rows). -/
theorem C103_osid2_row {fl : FlCUR} {N : ℕ} {ε : ℝ} (hfl : fl.Accurate N ε) (hε : 0 ≤ ε) (hm : m ≤ N) (hn : n ≤ N)
    (skOp : RowSketcher G) (A : Matrix (Fin m) (Fin n) ℝ) (k over : ℕ) (o : RowID m) (w w' : World G)
    (h : (OSID2Fl fl skOp).row m n A k over w = .ok (o, w')) :
    o.c = min k m ∧ Function.Injective o.Is ∧ ∀ W : Matrix (Fin m) (Fin o.c) ℝ,
      fro (A - o.Z * A.submatrix o.Is id) ≤ fro (A - W * A.submatrix o.Is id) +
        ε * (fro (A.submatrix o.Is id) * (fro o.Z + fro W) + 2 * fro A) := by
  have h' : (sketchRowsFl fl.toFlID skOp A k over >>= fun Y => (pure ⟨(pivotsFl fl Y k).c,
    applyPinvOnRightFl fl A (A.submatrix (pivotsFl fl Y k).idx id), (pivotsFl fl Y k).idx⟩ : Py G (RowID m))) w = .ok (o, w') := h
  rw [Py.bind_ok_iff] at h'
  obtain ⟨Y, w1, -, h2⟩ := h'
  cases h2
  refine ⟨rfl, (fl.qrp Y.matᵀ).2.2.injective.comp (takeIdx_injective _ _), fun W => ?_⟩
  exact pinvRightFl_near hfl hε ((min_le_right k m).trans hm) hn hm A _ W

/-! ### CUR1 -/

theorem cur_round_right {fl : FlCUR} {N : ℕ} {ε : ℝ} (hfl : fl.Accurate N ε) (hε : 0 ≤ ε) {a b : ℕ} (hb : b ≤ N) (hn : n ≤ N)
    (ha : a ≤ N) (A : Matrix (Fin m) (Fin n) ℝ) (Js : Fin a → Fin n) (X : Matrix (Fin a) (Fin n) ℝ) (Is : Fin b → Fin m)
    (W : Matrix (Fin a) (Fin b) ℝ) :
    fro (A - A.submatrix id Js * applyPinvOnRightFl fl X (A.submatrix Is id) * A.submatrix Is id) ≤
      fro (A - A.submatrix id Js * X) + fro (A.submatrix id Js) * (fro (X - W * A.submatrix Is id) +
        ε * (fro (A.submatrix Is id) * (fro (applyPinvOnRightFl fl X (A.submatrix Is id)) + fro W) + 2 * fro X)) := by
  have hn1 := pinvRightFl_near hfl hε hb hn ha X (A.submatrix Is id) W
  obtain ⟨U, hU⟩ : ∃ U, U = applyPinvOnRightFl fl X (A.submatrix Is id) := ⟨_, rfl⟩
  rw [← hU] at hn1 ⊢
  have e1 : A - A.submatrix id Js * U * A.submatrix Is id = (A - A.submatrix id Js * X) +
      A.submatrix id Js * (X - U * A.submatrix Is id) := by
    rw [Matrix.mul_sub, Matrix.mul_assoc]; abel
  rw [e1]
  refine (fro_triangle _ _).trans (add_le_add le_rfl ((fro_mul_le _ _).trans ?_))
  exact mul_le_mul_of_nonneg_left hn1 (fro_nonneg _)

theorem cur_round_left {fl : FlCUR} {N : ℕ} {ε : ℝ} (hfl : fl.Accurate N ε) (hε : 0 ≤ ε) {a b : ℕ} (ha : a ≤ N) (hm : m ≤ N)
    (hb : b ≤ N) (A : Matrix (Fin m) (Fin n) ℝ) (Is : Fin b → Fin m) (Z : Matrix (Fin m) (Fin b) ℝ) (Js : Fin a → Fin n)
    (W : Matrix (Fin a) (Fin b) ℝ) :
    fro (A - A.submatrix id Js * applyPinvOnLeftFl fl Z (A.submatrix id Js) * A.submatrix Is id) ≤
      fro (A - Z * A.submatrix Is id) + (fro (Z - A.submatrix id Js * W) +
        ε * (fro (A.submatrix id Js) * (fro (applyPinvOnLeftFl fl Z (A.submatrix id Js)) + fro W) + 2 * fro Z)) *
          fro (A.submatrix Is id) := by
  have hn1 := lstsqFl_near hfl hε hm ha hb (A.submatrix id Js) Z W
  obtain ⟨U, hU⟩ : ∃ U, U = applyPinvOnLeftFl fl Z (A.submatrix id Js) := ⟨_, rfl⟩
  rw [show fl.lstsq (A.submatrix id Js) Z = U from hU.symm] at hn1
  rw [← hU]
  have e1 : A - A.submatrix id Js * U * A.submatrix Is id = (A - Z * A.submatrix Is id) +
      (Z - A.submatrix id Js * U) * A.submatrix Is id := by
    rw [Matrix.sub_mul]; abel
  rw [e1]
  refine (fro_triangle _ _).trans (add_le_add le_rfl ((fro_mul_le _ _).trans ?_))
  exact mul_le_mul_of_nonneg_right hn1 (fro_nonneg _)

/-- **C103** (CUR1 of a tall matrix with rounding errors): whatever the one-sided ID is, `CUR1` keeps its columns, chooses `min k m`
distinct rows, and for every `W` its error is at most
`‖A - A[:, Js] X‖ + ‖A[:, Js]‖ (‖X - W A[Is, :]‖ + ε (‖A[Is, :]‖ (‖U‖ + ‖W‖) + 2 ‖X‖))`. -/
theorem C103_cur1_tall {fl : FlCUR} {N : ℕ} {ε : ℝ} (hfl : fl.Accurate N ε) (hε : 0 ≤ ε) (hm : m ≤ N) (hn : n ≤ N)
    (osid : OneSidedID G) (A : Matrix (Fin m) (Fin n) ℝ) (hmn : n < m) (k over : ℕ) (out : CUROut m n) (w w' : World G)
    (h : cur1CallFl fl osid A k over w = .ok (out, w')) :
    ∃ X : ColID n, osid.col m n A k over w = .ok (X, w') ∧ out.b = min k m ∧ Function.Injective out.Is ∧
      ∃ hc : out.a = X.c, (∀ i, out.Js i = X.Js (Fin.cast hc i)) ∧ (X.c ≤ N → ∀ W : Matrix (Fin X.c) (Fin out.b) ℝ,
        fro (A - A.submatrix id out.Js * out.U * A.submatrix out.Is id) ≤ fro (A - A.submatrix id X.Js * X.X) +
          fro (A.submatrix id X.Js) * (fro (X.X - W * A.submatrix out.Is id) +
            ε * (fro (A.submatrix out.Is id) * (fro out.U + fro W) + 2 * fro X.X))) := by
  unfold cur1CallFl at h
  rw [if_pos hmn, Py.bind_ok_iff] at h
  obtain ⟨X, w1, h1, h⟩ := h
  cases h
  refine ⟨X, h1, rfl, (fl.qrp _).2.2.injective.comp (takeIdx_injective _ _), rfl, fun _ => rfl, fun hcN W => ?_⟩
  exact cur_round_right hfl hε ((min_le_right k m).trans hm) hn hcN A X.Js X.X _ W

/-- **C103** (CUR1 of a matrix that is not tall, with rounding errors). -/
theorem C103_cur1_wide {fl : FlCUR} {N : ℕ} {ε : ℝ} (hfl : fl.Accurate N ε) (hε : 0 ≤ ε) (hm : m ≤ N) (hn : n ≤ N)
    (osid : OneSidedID G) (A : Matrix (Fin m) (Fin n) ℝ) (hmn : m ≤ n) (k over : ℕ) (out : CUROut m n) (w w' : World G)
    (h : cur1CallFl fl osid A k over w = .ok (out, w')) :
    ∃ Z : RowID m, osid.row m n A k over w = .ok (Z, w') ∧ out.a = min k n ∧ Function.Injective out.Js ∧
      ∃ hc : out.b = Z.c, (∀ i, out.Is i = Z.Is (Fin.cast hc i)) ∧ (Z.c ≤ N → ∀ W : Matrix (Fin out.a) (Fin Z.c) ℝ,
        fro (A - A.submatrix id out.Js * out.U * A.submatrix out.Is id) ≤ fro (A - Z.Z * A.submatrix Z.Is id) +
          (fro (Z.Z - A.submatrix id out.Js * W) + ε * (fro (A.submatrix id out.Js) * (fro out.U + fro W) + 2 * fro Z.Z)) *
            fro (A.submatrix Z.Is id)) := by
  unfold cur1CallFl at h
  rw [if_neg (not_lt.2 hmn), Py.bind_ok_iff] at h
  obtain ⟨Z, w1, h1, h⟩ := h
  cases h
  refine ⟨Z, h1, rfl, (fl.qrp _).2.2.injective.comp (takeIdx_injective _ _), rfl, fun _ => rfl, fun hcN W => ?_⟩
  exact cur_round_left hfl hε ((min_le_right k n).trans hn) hm hcN A Z.Is Z.Z _ W

end Parla.Props
