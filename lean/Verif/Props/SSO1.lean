import Verif.Model.LeastSquares
import Verif.Props.PcSS2
import Verif.Base.LinAlgExists

/-! # Properties C35, C36 and C42: `dim_checks`, `SSO1` and `wrap_up` -/

namespace Parla.Props

open Matrix Parla Spec

variable {G : Type} {m n : ℕ}

/-! ## C35 -/

/-- **C35** (rounding).  `int(sampling_factor * n_cols)` truncates towards zero. -/
theorem C35_int_truncates (x : ℝ) : (0 ≤ x → (pyInt x : ℝ) ≤ x ∧ x < pyInt x + 1 ∧ 0 ≤ pyInt x) ∧
    (x < 0 → x ≤ pyInt x ∧ (pyInt x : ℝ) < x + 1 ∧ pyInt x ≤ 0) := by
  unfold pyInt
  refine ⟨fun h => ?_, fun h => ?_⟩
  · rw [if_pos h]
    exact ⟨Int.floor_le x, Int.lt_floor_add_one x, Int.floor_nonneg.2 h⟩
  · rw [if_neg (not_le.2 h)]
    exact ⟨Int.le_ceil x, Int.ceil_lt_add_one x, Int.ceil_nonpos.2 h.le⟩

/-- **C35**.  `dim_checks` raises `AssertionError` exactly when the matrix is wide or the requested
embedding dimension `int(sampling_factor * n_cols)` is smaller than `n_cols`; otherwise it returns
`min(int(sampling_factor * n_cols), n_rows)`, which lies between `n_cols` and `n_rows`, with one
warning exactly when the requested dimension exceeds `n_rows` and no other effect. -/
theorem C35_dim_checks (sf : ℝ) (nRows nCols : ℕ) (w : World G) :
    (nRows < nCols ∨ pyInt (sf * nCols) < nCols →
      (dimChecks sf nRows nCols : Py G ℕ) w = .error .assertion) ∧
    (nCols ≤ nRows → (nCols : ℤ) ≤ pyInt (sf * nCols) → ∃ d : ℕ,
      (dimChecks sf nRows nCols : Py G ℕ) w =
        .ok (d, { w with warns := w.warns + if (nRows : ℤ) < pyInt (sf * nCols) then 1 else 0 }) ∧
      nCols ≤ d ∧ d ≤ nRows ∧ (d : ℤ) = min (pyInt (sf * nCols)) nRows) := by
  unfold dimChecks
  constructor
  · intro h
    by_cases h1 : nRows ≥ nCols
    · rw [Py.assert_pos_bind h1]
      have h2 : pyInt (sf * nCols) < nCols := h.resolve_left (by omega)
      have h3 : ¬ pyInt (sf * nCols) > nRows := by omega
      simp only [if_neg h3, Py.pure_bind']
      rw [Py.assert_neg_bind (by omega)]
      rfl
    · rw [Py.assert_neg_bind h1]; rfl
  · intro h1 h2
    rw [Py.assert_pos_bind (by omega)]
    by_cases h3 : pyInt (sf * nCols) > nRows
    · refine ⟨nRows, ?_, h1, le_rfl, by omega⟩
      simp only [if_pos h3]
      rw [Py.bind_eq_of_ok (a := (nRows : ℤ)) (w₁ := { w with warns := w.warns + 1 }) rfl,
        Py.assert_pos_bind (by omega)]
      rfl
    · refine ⟨(pyInt (sf * nCols)).toNat, ?_, by omega, by omega, by omega⟩
      simp only [if_neg h3, Py.pure_bind']
      rw [Py.assert_pos_bind (by omega)]
      rfl

/-- a successful call of `dim_checks` -/
theorem dimChecks_ok {sf : ℝ} {nRows nCols d : ℕ} {w w' : World G}
    (h : (dimChecks sf nRows nCols : Py G ℕ) w = .ok (d, w')) :
    nCols ≤ nRows ∧ (nCols : ℤ) ≤ pyInt (sf * nCols) ∧ nCols ≤ d ∧ d ≤ nRows ∧
      (d : ℤ) = min (pyInt (sf * nCols)) nRows ∧
      w' = { w with warns := w.warns + if (nRows : ℤ) < pyInt (sf * nCols) then 1 else 0 } := by
  obtain ⟨h1, h2⟩ := C35_dim_checks sf nRows nCols w
  by_cases hc : nRows < nCols ∨ pyInt (sf * nCols) < nCols
  · rw [h1 hc] at h; cases h
  · push Not at hc
    obtain ⟨d', h3, h4, h5, h6⟩ := h2 hc.1 hc.2
    rw [h3] at h
    cases h
    exact ⟨hc.1, hc.2, h4, h5, h6, rfl⟩

/-- both outcomes of `dim_checks`, and the clamp -/
example : (dimChecks 3 10 2 : Py ℕ ℕ) ⟨0, 0, []⟩ = .ok (6, ⟨0, 0, []⟩) ∧
    (dimChecks 3 5 2 : Py ℕ ℕ) ⟨0, 0, []⟩ = .ok (5, ⟨0, 1, []⟩) ∧
    (dimChecks (1 / 2) 5 2 : Py ℕ ℕ) ⟨0, 0, []⟩ = .error .assertion := by
  have e1 : pyInt (3 * (2 : ℕ)) = 6 := by
    unfold pyInt; rw [if_pos (by norm_num), Int.floor_eq_iff]; norm_num
  have e2 : pyInt ((1 / 2) * (2 : ℕ)) = 1 := by
    unfold pyInt; rw [if_pos (by norm_num), Int.floor_eq_iff]; norm_num
  refine ⟨?_, ?_, ?_⟩
  · obtain ⟨d, h, -, -, h'⟩ := (C35_dim_checks 3 10 2 (⟨0, 0, []⟩ : World ℕ)).2 (by norm_num)
      (by rw [e1]; norm_num)
    rw [e1] at h h'
    have : d = 6 := by norm_num at h'; omega
    rw [h, this]; rfl
  · obtain ⟨d, h, -, -, h'⟩ := (C35_dim_checks 3 5 2 (⟨0, 0, []⟩ : World ℕ)).2 (by norm_num)
      (by rw [e1]; norm_num)
    rw [e1] at h h'
    have : d = 5 := by norm_num at h'; omega
    rw [h, this]; rfl
  · exact (C35_dim_checks (1 / 2) 5 2 (⟨0, 0, []⟩ : World ℕ)).1 (Or.inr (by rw [e2]; norm_num))

/-! ## C36 -/

theorem lstsqv_normal (la : LinAlg) (A : Matrix (Fin m) (Fin n) ℝ) (b : Fin m → ℝ) :
    Aᵀ *ᵥ (A *ᵥ la.lstsqv A b) = Aᵀ *ᵥ b := by
  have h := la.lstsq_normal A (Matrix.of fun i (_ : Fin 1) => b i)
  funext i
  exact congrFun (congrFun h i) 0

theorem lstsqv_row (la : LinAlg) (A : Matrix (Fin m) (Fin n) ℝ) (b : Fin m → ℝ) :
    ∃ w, la.lstsqv A b = Aᵀ *ᵥ w := by
  obtain ⟨W, h⟩ := la.lstsq_row A (Matrix.of fun i (_ : Fin 1) => b i)
  refine ⟨fun i => W i 0, ?_⟩
  funext i
  exact congrFun (congrFun h i) 0

/-- the ridge objective differs from its minimum by the squared (lifted) distance -/
theorem ridge_excess {A : Matrix (Fin m) (Fin n) ℝ} {b : Fin m → ℝ} {δ : ℝ} (hδ : 0 ≤ δ)
    {x : Fin n → ℝ} (h : Aᵀ *ᵥ (b - A *ᵥ x) - δ • x = 0) (z : Fin n → ℝ) :
    sqNorm (A *ᵥ z - b) + δ * sqNorm z =
      sqNorm (A *ᵥ x - b) + δ * sqNorm x + sqNorm (aLift A (Real.sqrt δ) *ᵥ (x - z)) := by
  have h' : (aLift A (Real.sqrt δ))ᵀ *ᵥ (catv b 0 - aLift A (Real.sqrt δ) *ᵥ x) = 0 := by
    rw [lift_normal A b hδ, h]
  have := lsq_of_normal h' z
  rw [lift_obj A b hδ, lift_obj A b hδ] at this
  exact this

/-- The least squares solution of the lifted system: normal equations and minimum norm. -/
theorem lstsqv_lift (la : LinAlg) (A : Matrix (Fin m) (Fin n) ℝ) (b : Fin m → ℝ) {δ : ℝ} (hδ : 0 ≤ δ) :
    Aᵀ *ᵥ (b - A *ᵥ la.lstsqv (aLift A (Real.sqrt δ)) (catv b 0)) -
      δ • la.lstsqv (aLift A (Real.sqrt δ)) (catv b 0) = 0 ∧
    ∀ z, IsRidgeMin A b δ z → sqNorm (la.lstsqv (aLift A (Real.sqrt δ)) (catv b 0)) ≤ sqNorm z := by
  set x := la.lstsqv (aLift A (Real.sqrt δ)) (catv b 0) with hx
  have h1 : Aᵀ *ᵥ (b - A *ᵥ x) - δ • x = 0 := by
    rw [← lift_normal A b hδ, mulVec_sub, lstsqv_normal, sub_self]
  refine ⟨h1, fun z hz => ?_⟩
  obtain ⟨u, hu⟩ := lstsqv_row la (aLift A (Real.sqrt δ)) (catv b 0)
  have h2 := hz x
  rw [ridge_excess hδ h1 z] at h2
  have h3 : aLift A (Real.sqrt δ) *ᵥ (x - z) = 0 :=
    sqNorm_eq_zero.1 (le_antisymm (by linarith) (sqNorm_nonneg _))
  have h4 : (z - x) ⬝ᵥ x = 0 := by
    have hu' : x = (aLift A (Real.sqrt δ))ᵀ *ᵥ u := hu
    have : (z - x) ⬝ᵥ x = (z - x) ⬝ᵥ ((aLift A (Real.sqrt δ))ᵀ *ᵥ u) := congrArg _ hu'
    rw [this, dot_mulVec, transpose_transpose, ← neg_sub x z, mulVec_neg, h3, neg_zero, zero_dotProduct]
  have h5 : sqNorm z = sqNorm (z - x) + sqNorm x := by
    conv_lhs => rw [← sub_add_cancel z x]
    rw [sqNorm_add, h4]; ring
  linarith [sqNorm_nonneg (z - x)]

/-- the number of warnings SSO1 issues for its ignored arguments -/
def sso1Warns (tol : Tol) (L : ℤ) : ℕ := (if tol.isNaN then 0 else 1) + if L > 1 then 1 else 0

theorem sso1_eq (la : LinAlg) (gen : SkOpGen G) (sf : ℝ) (A : Matrix (Fin m) (Fin n) ℝ)
    (b : Fin m → ℝ) (δ : ℝ) (tol : Tol) (L : ℤ) (w : World G) :
    sso1Call la gen sf A b δ tol L w =
      (do
        let d ← dimChecks sf m n
        let S ← gen d m
        pure (la.lstsqv (aLift (S * A) (Real.sqrt δ)) (catv (S *ᵥ b) 0)) : Py G (Fin n → ℝ))
      { w with warns := w.warns + sso1Warns tol L } := by
  unfold sso1Call sso1Warns
  by_cases h1 : tol.isNaN <;> by_cases h2 : L > 1
  · simp only [h1, h2, not_true, if_true, if_false, Py.pure_bind', zero_add]
    rw [Py.bind_eq_of_ok (Py.warn_apply w)]
  · simp only [h1, h2, not_true, if_true, if_false, Py.pure_bind', zero_add, add_zero]
  · simp only [h1, h2, not_false_iff, if_true, if_false]
    rw [Py.bind_eq_of_ok (Py.warn_apply w), Py.bind_eq_of_ok (Py.warn_apply _)]
  · simp only [h1, h2, not_false_iff, if_true, if_false, Py.pure_bind', add_zero]
    rw [Py.bind_eq_of_ok (Py.warn_apply w)]

/-- **C36** (the result).  A successful call of `SSO1` drew one sketching operator `S` of the
dimension `dim_checks` computed; the result minimises `‖S(Ax - b)‖² + δ‖x‖²` and has minimum norm among
the minimisers.  The only other effects are one warning for a `tol` that is not NaN, one for
`iter_lim > 1`, and one if the embedding dimension was clamped; `tol` and `iter_lim` have no
influence on the result. -/
theorem C36_sso1 (la : LinAlg) (gen : SkOpGen G) (sf : ℝ) (A : Matrix (Fin m) (Fin n) ℝ)
    (b : Fin m → ℝ) (δ : ℝ) (hδ : 0 ≤ δ) (tol : Tol) (L : ℤ) (w w' : World G) (x : Fin n → ℝ)
    (h : sso1Call la gen sf A b δ tol L w = .ok (x, w')) :
    ∃ (d : ℕ) (S : Matrix (Fin d) (Fin m) ℝ), n ≤ d ∧ d ≤ m ∧ (d : ℤ) = min (pyInt (sf * n)) m ∧
      gen d m { w with warns := w.warns + (if tol.isNaN then 0 else 1) + (if L > 1 then 1 else 0) +
        (if (m : ℤ) < pyInt (sf * n) then 1 else 0) } = .ok (S, w') ∧
      IsRidgeMin (S * A) (S *ᵥ b) δ x ∧
      ∀ z, IsRidgeMin (S * A) (S *ᵥ b) δ z → norm2 x ≤ norm2 z := by
  rw [sso1_eq] at h
  rw [Py.bind_ok_iff] at h
  obtain ⟨d, w₁, h1, h⟩ := h
  rw [Py.bind_ok_iff] at h
  obtain ⟨S, w₂, h2, h⟩ := h
  cases h
  obtain ⟨-, -, h3, h4, h5, rfl⟩ := dimChecks_ok h1
  obtain ⟨g1, g2⟩ := lstsqv_lift la (S * A) (S *ᵥ b) hδ
  refine ⟨d, S, h3, h4, h5, ?_, ridge_of_normal hδ g1, fun z hz => norm2_le_norm2.2 (g2 z hz)⟩
  rw [← h2]
  unfold sso1Warns
  simp only [add_assoc]

/-- **C36** (totality): `SSO1` raises only if `dim_checks` or the sketching operator does. -/
theorem C36_sso1_total (la : LinAlg) (gen : SkOpGen G) (sf : ℝ) (A : Matrix (Fin m) (Fin n) ℝ)
    (b : Fin m → ℝ) (δ : ℝ) (tol : Tol) (L : ℤ) (w : World G) :
    (m < n ∨ pyInt (sf * n) < n → sso1Call la gen sf A b δ tol L w = .error .assertion) ∧
    (n ≤ m → (n : ℤ) ≤ pyInt (sf * n) →
      (∀ d w, n ≤ d → d ≤ m → ∃ S w', gen d m w = .ok (S, w')) →
      ∃ x w', sso1Call la gen sf A b δ tol L w = .ok (x, w')) := by
  rw [sso1_eq]
  refine ⟨fun h => ?_, fun h1 h2 h3 => ?_⟩
  · exact Py.bind_eq_of_error ((C35_dim_checks sf m n _).1 h)
  · obtain ⟨d, e1, e2, e3, -⟩ := (C35_dim_checks (G := G) sf m n
      { w with warns := w.warns + sso1Warns tol L }).2 h1 h2
    obtain ⟨S, w', e4⟩ := h3 d _ e2 e3
    rw [Py.bind_eq_of_ok e1, Py.bind_eq_of_ok e4]
    exact ⟨_, _, rfl⟩

/-- **C36** (isometric sketch).  If the sketch drawn (any the generator returns in the state of the call) preserves the
norm of the residuals `A z - b`, `SSO1` returns an exact minimiser of the unsketched problem. -/
theorem C36_sso1_isometry (la : LinAlg) (gen : SkOpGen G) (sf : ℝ) (A : Matrix (Fin m) (Fin n) ℝ)
    (b : Fin m → ℝ) (δ : ℝ) (hδ : 0 ≤ δ) (tol : Tol) (L : ℤ) (w w' : World G) (x : Fin n → ℝ)
    (h : sso1Call la gen sf A b δ tol L w = .ok (x, w'))
    (hS : ∀ d : ℕ, (d : ℤ) = min (pyInt (sf * n)) m → ∀ v S w', v.rng = w.rng → gen d m v = .ok (S, w') →
      ∀ z, norm2 (S *ᵥ (A *ᵥ z - b)) = norm2 (A *ᵥ z - b)) :
    IsRidgeMin A b δ x := by
  obtain ⟨d, S, -, -, hdim, hg, h1, -⟩ := C36_sso1 la gen sf A b δ hδ tol L w w' x h
  intro z
  have key : ∀ z, sqNorm ((S * A) *ᵥ z - S *ᵥ b) = sqNorm (A *ᵥ z - b) := by
    intro z
    rw [← mulVec_mulVec, ← mulVec_sub, ← norm2_sq, hS _ hdim _ _ _ (by rfl) hg, norm2_sq]
  have := h1 z
  rwa [key, key] at this

/-- **C36** (subspace embedding).  If the sketch distorts the squared norms of the residuals
`A z - b` by at most a factor `1 ± ε`, the objective at the result is at most `(1 + ε)/(1 - ε)` times
that at any other point, in particular at the optimum. -/
theorem C36_sso1_embedding (la : LinAlg) (gen : SkOpGen G) (sf : ℝ) (A : Matrix (Fin m) (Fin n) ℝ)
    (b : Fin m → ℝ) (δ : ℝ) (hδ : 0 ≤ δ) (tol : Tol) (L : ℤ) (w w' : World G) (x : Fin n → ℝ)
    (h : sso1Call la gen sf A b δ tol L w = .ok (x, w')) (ε : ℝ) (h0 : 0 ≤ ε) (h1 : ε < 1)
    (hS : ∀ d : ℕ, (d : ℤ) = min (pyInt (sf * n)) m → ∀ v S w', v.rng = w.rng → gen d m v = .ok (S, w') → ∀ z,
      (1 - ε) * sqNorm (A *ᵥ z - b) ≤ sqNorm (S *ᵥ (A *ᵥ z - b)) ∧
      sqNorm (S *ᵥ (A *ᵥ z - b)) ≤ (1 + ε) * sqNorm (A *ᵥ z - b)) (z : Fin n → ℝ) :
    sqNorm (A *ᵥ x - b) + δ * sqNorm x ≤
      (1 + ε) / (1 - ε) * (sqNorm (A *ᵥ z - b) + δ * sqNorm z) := by
  obtain ⟨d, S, -, -, hdim, hg, h2, -⟩ := C36_sso1 la gen sf A b δ hδ tol L w w' x h
  have e1 := (hS _ hdim _ _ _ (by rfl) hg x).1
  have e2 := (hS _ hdim _ _ _ (by rfl) hg z).2
  have e3 := h2 z
  rw [← mulVec_mulVec, ← mulVec_mulVec, ← mulVec_sub, ← mulVec_sub] at e3
  have e4 := mul_nonneg hδ (sqNorm_nonneg x)
  have e5 := mul_nonneg hδ (sqNorm_nonneg z)
  have e6 := mul_nonneg h0 e4
  have e7 := mul_nonneg h0 e5
  rw [div_mul_eq_mul_div, le_div_iff₀ (by linarith)]
  nlinarith

/-- A sketching operator generator for the examples: the identity (square) or a zero-padded
identity.  It leaves the generator alone. -/
def idGen : SkOpGen G := fun _ _ => pure (Matrix.of fun i j => if i.1 = j.1 then 1 else 0)

theorem idGen_ok (w : World G) :
    (idGen m m : Py G _) w = .ok (1, w) := by
  have : (Matrix.of fun i j => if i.1 = j.1 then 1 else 0 : Matrix (Fin m) (Fin m) ℝ) = 1 := by
    ext i j; simp [Matrix.one_apply, Fin.ext_iff]
  unfold idGen
  rw [this]; rfl

/-- The hypotheses of `C36` are met: a full-size sketch of a 3 x 1 problem. -/
example : ∃ x w', sso1Call (LinAlg.ref) (idGen (G := ℕ)) 3
      (!![1; 1; 1] : Matrix (Fin 3) (Fin 1) ℝ) ![1, 2, 3] 0 .nan 5 ⟨0, 0, []⟩ = .ok (x, w') ∧
    w'.warns = 1 ∧ x = ![2] := by
  have e1 : pyInt (3 * (1 : ℕ)) = 3 := by
    unfold pyInt; rw [if_pos (by norm_num), Int.floor_eq_iff]; norm_num
  obtain ⟨x, w', h⟩ := (C36_sso1_total LinAlg.ref (idGen (G := ℕ)) 3
    (!![1; 1; 1] : Matrix (Fin 3) (Fin 1) ℝ) ![1, 2, 3] 0 .nan 5 ⟨0, 0, []⟩).2 (by norm_num)
    (by rw [e1]; norm_num) (fun d w _ _ => ⟨_, _, rfl⟩)
  refine ⟨x, w', h, ?_⟩
  obtain ⟨d, S, -, -, h3, h4, h5, -⟩ := C36_sso1 _ _ _ _ _ 0 le_rfl _ _ _ _ _ h
  rw [e1] at h3 h4
  have hd : d = 3 := by norm_num at h3; omega
  subst hd
  rw [idGen_ok] at h4
  cases h4
  refine ⟨by simp, ?_⟩
  have h6 := h5 ![2]
  funext i
  fin_cases i
  simp [sqNorm, Fin.sum_univ_three, mulVec, dotProduct] at h6 ⊢
  nlinarith [sq_nonneg (x 0 - 2)]

/-! ## C42 -/

theorem linspace_length (T : ℝ) (k : ℕ) : (linspace T k).length = k := by simp [linspace]

theorem linspace_get (T : ℝ) (k i : ℕ) (h : i < (linspace T k).length) :
    (linspace T k)[i] = (i : ℝ) * (T / ((k : ℝ) - 1)) := by simp [linspace]

/-- **C42** (shape).  `wrap_up` with a 1-dimensional error array sets `errors` to the initial error
followed by that array, and `times` to an array of the same length that starts with
`time_sketch + time_factor + time_convert`; for at least two iterations the last entry is the total
of all recorded times. -/
theorem C42_wrap_up (t : LogTimes) (l : List ℝ) (e0 : ℝ) :
    ∃ log, wrapUp t (.arr l) e0 = .ok log ∧ log.errors = e0 :: l ∧
      log.times.length = l.length + 1 ∧ log.times.length = log.errors.length ∧
      log.times.head? = some (t.sketch + t.factor + t.convert) ∧
      (2 ≤ l.length → log.times.getLast? =
        some (t.sketch + t.factor + t.convert + t.presolve + t.iterate)) := by
  refine ⟨_, rfl, rfl, by simp [linspace_length], by simp [linspace_length], rfl, fun h => ?_⟩
  rw [List.getLast?_eq_getElem?]
  have h1 : (linspace t.iterate l.length).length = l.length := linspace_length _ _
  have h2 : l.length - 1 < (linspace t.iterate l.length).length := by omega
  obtain ⟨k, hk⟩ : ∃ k, l.length = k + 2 := ⟨l.length - 2, by omega⟩
  simp only [List.length_cons, List.length_map, h1, Nat.add_sub_cancel]
  rw [hk, List.getElem?_cons_succ, List.getElem?_map]
  have h3 : (linspace t.iterate (k + 2))[k + 1]? = some t.iterate := by
    rw [List.getElem?_eq_getElem (by rw [linspace_length]; omega), linspace_get]
    congr 1
    push_cast
    have : (k : ℝ) + 2 - 1 ≠ 0 := by have := Nat.cast_nonneg (α := ℝ) k; linarith
    field_simp
    ring
  rw [h3]
  rfl

/-- **C42** (monotone times).  If the recorded times are non-negative, the array `times` is
non-decreasing. -/
theorem C42_wrap_up_mono (t : LogTimes) (l : List ℝ) (e0 : ℝ) (h1 : 0 ≤ t.presolve)
    (h2 : 0 ≤ t.iterate) (log : SPLog) (h : wrapUp t (.arr l) e0 = .ok log) :
    log.times.Pairwise (· ≤ ·) := by
  cases h
  have h0 : ∀ i : ℕ, 0 ≤ (i : ℝ) * (t.iterate / ((l.length : ℝ) - 1)) ∨ l.length = 0 := by
    intro i
    rcases Nat.eq_zero_or_pos l.length with h | h
    · exact Or.inr h
    · have : (1 : ℝ) ≤ l.length := by exact_mod_cast h
      exact Or.inl (mul_nonneg (Nat.cast_nonneg _) (div_nonneg h2 (by linarith)))
  simp only [List.pairwise_cons, linspace, List.map_map, List.pairwise_map, List.mem_map,
    List.mem_range, Function.comp]
  constructor
  · rintro _ ⟨i, hi, rfl⟩
    rcases h0 i with h | h
    · linarith
    · omega
  · refine (List.pairwise_lt_range).imp_of_mem ?_
    intro a b ha hb hab
    rw [List.mem_range] at ha
    have : (1 : ℝ) ≤ l.length := by exact_mod_cast (by omega : 1 ≤ l.length)
    have h3 : 0 ≤ t.iterate / ((l.length : ℝ) - 1) := div_nonneg h2 (by linarith)
    have h4 : (a : ℝ) ≤ b := by exact_mod_cast hab.le
    have := mul_le_mul_of_nonneg_right h4 h3
    linarith

/-- **C42** (what the last entry is otherwise): with exactly one iteration the time spent iterating
is not included, and without iterations only the setup time is recorded. -/
theorem C42_wrap_up_short (t : LogTimes) (e e0 : ℝ) :
    wrapUp t (.arr [e]) e0 = .ok
      ⟨[t.sketch + t.factor + t.convert, t.sketch + t.factor + t.convert + t.presolve], [e0, e]⟩ ∧
    wrapUp t (.arr []) e0 = .ok ⟨[t.sketch + t.factor + t.convert], [e0]⟩ := by
  constructor <;> simp [wrapUp, linspace, LogTimes.setup, List.range_succ]

example : wrapUp ⟨1, 2, 3, 0, 4⟩ (.arr [7, 6, 5]) 8 = .ok ⟨[3, 6, 8, 10], [8, 7, 6, 5]⟩ := by
  simp [wrapUp, linspace, LogTimes.setup, List.range_succ]
  norm_num

end Parla.Props
