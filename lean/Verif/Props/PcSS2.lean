import Verif.Model.PcSS2
import Verif.Props.LSQR
import Verif.Props.PcSS1

/-! # Property C34: `PcSS2`

`P.mat` is the preconditioner `M` a caller means: the inverse of the upper triangle of `R` if
`upper_tri`, and `R` otherwise.  `P.Ok` says that `R` has no zero diagonal entry if `upper_tri`. -/

namespace Parla.Props

open Matrix Parla Spec

variable {m n : ℕ}

theorem topv_catv {a b : ℕ} (u : Fin a → ℝ) (v : Fin b → ℝ) : topv (catv u v) = u := by
  funext i; simp [topv, catv]

theorem botv_catv {a b : ℕ} (u : Fin a → ℝ) (v : Fin b → ℝ) : botv (catv u v) = v := by
  funext i; simp [botv, catv]

theorem padv_zero {e : ℕ} : padv n (0 : Fin e → ℝ) = 0 := by
  funext j; simp [padv]

theorem padv_sub {e : ℕ} (u v : Fin e → ℝ) : padv n (u - v) = padv n u - padv n v := by
  funext j
  simp only [padv, Pi.sub_apply]
  split <;> simp

theorem sqNorm_zero' {k : ℕ} : sqNorm (0 : Fin k → ℝ) = 0 := by simp [sqNorm]

theorem scaleEye_T_scaleEye (s : ℝ) (x : Fin n → ℝ) :
    (scaleEye (liftRows n s) n s)ᵀ *ᵥ (scaleEye (liftRows n s) n s *ᵥ x) = s ^ 2 • x := by
  rw [mulVec_mulVec, scaleEye_gram, smul_mulVec, one_mulVec]

/-- the lifted normal-equation residual at `x` -/
theorem lift_normal (A : Matrix (Fin m) (Fin n) ℝ) (b : Fin m → ℝ) {δ : ℝ} (hδ : 0 ≤ δ) (x : Fin n → ℝ) :
    (aLift A (Real.sqrt δ))ᵀ *ᵥ (catv b 0 - aLift A (Real.sqrt δ) *ᵥ x) =
      Aᵀ *ᵥ (b - A *ᵥ x) - δ • x := by
  rw [mulVec_sub, mulVec_mulVec, aLift_gram_sqrt A hδ, aLift_T_mulVec, topv_catv, botv_catv,
    padv_zero, smul_zero, add_zero, add_mulVec, smul_mulVec, one_mulVec, ← mulVec_mulVec, mulVec_sub]
  abel

/-- the lifted objective at `x` -/
theorem lift_obj (A : Matrix (Fin m) (Fin n) ℝ) (b : Fin m → ℝ) {δ : ℝ} (hδ : 0 ≤ δ) (x : Fin n → ℝ) :
    sqNorm (catv b 0 - aLift A (Real.sqrt δ) *ᵥ x) = sqNorm (A *ᵥ x - b) + δ * sqNorm x := by
  rw [aLift_mulVec, catv_sub, sqNorm_catv, zero_sub, sqNorm_neg, sqNorm_scaleEye, Real.sq_sqrt hδ,
    ← neg_sub, sqNorm_neg]

/-- PcSS2 in the overdetermined case, in terms of `lsqr`. -/
theorem pcss2_over_eq (A : Matrix (Fin m) (Fin n) ℝ) (b : Fin m → ℝ) (c : Option (Fin n → ℝ)) {δ : ℝ}
    (hδ : 0 ≤ δ) (tol : ℝ) (L : ℤ) {P : Precond n} (hP : P.Ok) (z0 : Option (Fin P.dim → ℝ))
    (hc : cIsZero c) :
    pcss2 A (.vec b) c δ tol L P z0 =
      match lsqr (LinOp.ofMat (aLift A (Real.sqrt δ) * P.mat)) (catv b 0) 0 ⟨tol, tol, 10 ^ 8⟩
        (some L) z0 with
      | .error e => .error e
      | .ok res => .ok ⟨some (P.mat *ᵥ res.x), b - A *ᵥ (P.mat *ᵥ res.x), res.arnorms⟩ := by
  obtain ⟨o, ho, -, -, h3, -⟩ := aLiftPrecond_spec A hδ hP
  have hop := aLiftPrecond_op A hδ hP ho
  unfold pcss2
  rw [show (BArg.vec b).k = 1 from rfl, ho]
  simp only [if_pos hc]
  unfold pcss2Over pcss2Tol
  simp only [hop, topv_catv, h3]
  generalize lsqr (LinOp.ofMat (aLift A (Real.sqrt δ) * P.mat)) _ _ _ _ _ = e
  cases e <;> rfl

/-- PcSS2 in the underdetermined case, in terms of `lsqr`. -/
theorem pcss2_under_eq (A : Matrix (Fin m) (Fin n) ℝ) (b : BArg m) (c : Fin n → ℝ) {δ : ℝ}
    (hδ : 0 ≤ δ) (tol : ℝ) (L : ℤ) {P : Precond n} (hP : P.Ok) (z0 : Option (Fin P.dim → ℝ))
    (hb : b.isZero) (hc : c ≠ 0) :
    pcss2 A b (some c) δ tol L P z0 =
      match lsqr (LinOp.ofMat (aLift A (Real.sqrt δ) * P.mat)ᵀ) (P.matᵀ *ᵥ c) 0 ⟨tol, tol, 10 ^ 8⟩
        (some L) none with
      | .error e => .error e
      | .ok res => .ok ⟨if 0 < δ then some ((1 / δ) • (Aᵀ *ᵥ topv res.x - c)) else none,
          topv res.x, res.arnorms⟩ := by
  obtain ⟨o, ho, -, -, -, h4⟩ := aLiftPrecond_spec A hδ hP
  have hop := aLiftPrecond_op A hδ hP ho
  have hk : b.k = 1 := by
    cases b with
    | none => rfl
    | vec b => rfl
    | multi k hk => exact absurd hb id
  have hc' : ¬ cIsZero (some c) := fun h => hc (norm2_eq_zero.1 h)
  have hT : (LinOp.ofMat (aLift A (Real.sqrt δ) * P.mat)).T =
      LinOp.ofMat (aLift A (Real.sqrt δ) * P.mat)ᵀ := by
    unfold LinOp.T LinOp.ofMat
    rw [transpose_transpose]
  unfold pcss2
  rw [hk, ho]
  simp only [if_neg hc', if_pos hb]
  unfold pcss2Under pcss2Tol
  simp only [h4, hop, hT]
  rfl

theorem lsqr_itn_le {p q : ℕ} {F : Matrix (Fin p) (Fin q) ℝ} {b : Fin p → ℝ} {damp : ℝ} {T : LsqrTol}
    {lim : Option ℤ} {x0 : Option (Fin q → ℝ)} {out : LsqrOut q}
    (h : lsqr (LinOp.ofMat F) b damp T lim x0 = .ok out) (h0 : Fᵀ *ᵥ (b - F *ᵥ x0.getD 0) ≠ 0) :
    (out.itn : ℤ) ≤ lim.getD (2 * q) := by
  rcases lsqr_ok h with ⟨hg, -⟩ | ⟨-, L, hL, K, hK, -, rfl, -⟩
  · exact absurd hg h0
  · rw [hL]; exact_mod_cast hK

/-- **C34** (overdetermined branch: what is returned).  With `c` absent or zero, a successful call
returns `x = M z`, `y = b - A x`, and either `x = M z0` (with `z0 = 0` if absent) already solved the
preconditioned normal equations, or the log holds, for every iteration `i`, the norm of
`M'(A'(b - A x_i) - δ x_i)` at the iterate `x_i`, which is what PcSS2 returns under
`iter_lim = i`. -/
theorem C34_pcss2_over (A : Matrix (Fin m) (Fin n) ℝ) (b : Fin m → ℝ) (c : Option (Fin n → ℝ))
    (δ : ℝ) (hδ : 0 ≤ δ) (tol : ℝ) (L : ℤ) (P : Precond n) (hP : P.Ok) (z0 : Option (Fin P.dim → ℝ))
    (hc : cVec c = 0) (out : SaddleOut m n) (h : pcss2 A (.vec b) c δ tol L P z0 = .ok out) :
    ∃ x, out.x = some x ∧ out.y = b - A *ᵥ x ∧ x ∈ colSpace P.mat ∧
      ((out.errs = .scalar 0 ∧ x = P.mat *ᵥ z0.getD 0 ∧
          P.matᵀ *ᵥ (Aᵀ *ᵥ (b - A *ᵥ x) - δ • x) = 0) ∨
       (∃ l, out.errs = .arr l ∧ (l.length : ℤ) ≤ L ∧
          (∃ oi, pcss2 A (.vec b) c δ tol l.length P z0 = .ok oi ∧ oi.x = some x) ∧
          ∀ i (hi : i < l.length), ∃ oi xi, pcss2 A (.vec b) c δ tol i P z0 = .ok oi ∧
            oi.x = some xi ∧ l[i] = norm2 (P.matᵀ *ᵥ (Aᵀ *ᵥ (b - A *ᵥ xi) - δ • xi)) ∧ l[i] ≠ 0)) := by
  have hc' : cIsZero c := by
    cases c with
    | none => trivial
    | some c => exact norm2_eq_zero.2 hc
  have key : ∀ z : Fin P.dim → ℝ, (aLift A (Real.sqrt δ) * P.mat)ᵀ *ᵥ
      (catv b 0 - (aLift A (Real.sqrt δ) * P.mat) *ᵥ z) =
      P.matᵀ *ᵥ (Aᵀ *ᵥ (b - A *ᵥ (P.mat *ᵥ z)) - δ • (P.mat *ᵥ z)) := by
    intro z
    rw [mul_T_mulVec, ← mulVec_mulVec, lift_normal A b hδ]
  rw [pcss2_over_eq A b c hδ tol L hP z0 hc'] at h
  cases hl : lsqr (LinOp.ofMat (aLift A (Real.sqrt δ) * P.mat)) (catv b 0) 0 ⟨tol, tol, 10 ^ 8⟩
      (some L) z0 with
  | error e => rw [hl] at h; cases h
  | ok res =>
    rw [hl] at h
    cases h
    refine ⟨_, rfl, rfl, mem_colSpace.2 ⟨_, rfl⟩, ?_⟩
    rcases C30_lsqr_arnorms _ _ _ _ _ _ hl with ⟨h0, h1, h2, -⟩ | ⟨h0, l, h1, h2, ⟨o, ho, hx⟩, h3⟩
    · refine Or.inl ⟨h2, by simp only [h1], ?_⟩
      simp only [h1]
      rw [← key]
      exact h0
    · refine Or.inr ⟨l, h1, ?_, ⟨_, by
          rw [h2, pcss2_over_eq A b c hδ tol _ hP z0 hc', ho], by simp only [hx]⟩, fun i hi => ?_⟩
      · rw [h2]
        exact lsqr_itn_le hl h0
      · obtain ⟨oi, g1, g2, g3⟩ := h3 i hi
        refine ⟨_, P.mat *ᵥ oi.x, by rw [pcss2_over_eq A b c hδ tol _ hP z0 hc', g1], rfl, ?_, g3⟩
        rw [g2, key]

/-- **C34** (overdetermined branch: never worse than its start).  The returned `x` has a ridge
objective at most that of the starting point `M z0`. -/
theorem C34_pcss2_never_worse (A : Matrix (Fin m) (Fin n) ℝ) (b : Fin m → ℝ) (c : Option (Fin n → ℝ))
    (δ : ℝ) (hδ : 0 ≤ δ) (tol : ℝ) (L : ℤ) (P : Precond n) (hP : P.Ok) (z0 : Option (Fin P.dim → ℝ))
    (hc : cVec c = 0) (out : SaddleOut m n) (h : pcss2 A (.vec b) c δ tol L P z0 = .ok out)
    (x : Fin n → ℝ) (hx : out.x = some x) :
    sqNorm (A *ᵥ x - b) + δ * sqNorm x ≤
      sqNorm (A *ᵥ (P.mat *ᵥ z0.getD 0) - b) + δ * sqNorm (P.mat *ᵥ z0.getD 0) := by
  have hc' : cIsZero c := by
    cases c with
    | none => trivial
    | some c => exact norm2_eq_zero.2 hc
  rw [pcss2_over_eq A b c hδ tol L hP z0 hc'] at h
  cases hl : lsqr (LinOp.ofMat (aLift A (Real.sqrt δ) * P.mat)) (catv b 0) 0 ⟨tol, tol, 10 ^ 8⟩
      (some L) z0 with
  | error e => rw [hl] at h; cases h
  | ok res =>
    rw [hl] at h
    cases h
    cases hx
    have := norm2_le_norm2.1 (C31_lsqr_never_worse _ _ _ _ _ _ hl).1
    rw [← mulVec_mulVec, ← mulVec_mulVec, lift_obj A b hδ, lift_obj A b hδ] at this
    exact this

/-- the transpose of a matrix of full row rank is injective -/
theorem T_inj_of_top {k : ℕ} {M : Matrix (Fin n) (Fin k) ℝ} (h : colSpace M = ⊤) {v : Fin n → ℝ}
    (hv : Mᵀ *ᵥ v = 0) : v = 0 := by
  obtain ⟨z, hz⟩ := mem_colSpace.1 (h ▸ Submodule.mem_top : v ∈ colSpace M)
  have : sqNorm v = 0 := by
    rw [sqNorm_eq_dot]
    conv_lhs => rw [← hz]
    rw [dot_mulVec, hz, hv, zero_dotProduct]
  exact sqNorm_eq_zero.1 this

/-- a stationary point of the ridge objective is its minimiser -/
theorem ridge_of_normal {A : Matrix (Fin m) (Fin n) ℝ} {b : Fin m → ℝ} {δ : ℝ} (hδ : 0 ≤ δ)
    {x : Fin n → ℝ} (h : Aᵀ *ᵥ (b - A *ᵥ x) - δ • x = 0) : IsRidgeMin A b δ x := by
  intro z
  have h' : (aLift A (Real.sqrt δ))ᵀ *ᵥ (catv b 0 - aLift A (Real.sqrt δ) *ᵥ x) = 0 := by
    rw [lift_normal A b hδ, h]
  have := lsq_of_normal h' z
  rw [lift_obj A b hδ, lift_obj A b hδ] at this
  linarith [sqNorm_nonneg (aLift A (Real.sqrt δ) *ᵥ (x - z))]

/-- **C34** (overdetermined branch: solution).  If `M` is nonsingular and the preconditioned
normal-equation residual at the returned `x` is zero, then `(x, y)` solves the block system with
`c = 0`, and `x` minimises `‖A x - b‖² + δ ‖x‖²`. -/
theorem C34_pcss2_over_solves (A : Matrix (Fin m) (Fin n) ℝ) (b : Fin m → ℝ) (c : Option (Fin n → ℝ))
    (δ : ℝ) (hδ : 0 ≤ δ) (tol : ℝ) (L : ℤ) (P : Precond n) (hP : P.Ok) (hM : colSpace P.mat = ⊤)
    (z0 : Option (Fin P.dim → ℝ)) (hc : cVec c = 0) (out : SaddleOut m n)
    (h : pcss2 A (.vec b) c δ tol L P z0 = .ok out) (x : Fin n → ℝ) (hx : out.x = some x)
    (h0 : P.matᵀ *ᵥ (Aᵀ *ᵥ (b - A *ᵥ x) - δ • x) = 0) :
    SolvesSaddle A b (cVec c) δ x out.y ∧ IsRidgeMin A b δ x := by
  obtain ⟨x', h1, h2, -⟩ := C34_pcss2_over A b c δ hδ tol L P hP z0 hc out h
  rw [hx] at h1; cases h1
  have h3 := T_inj_of_top hM h0
  refine ⟨⟨by rw [h2]; abel, by rw [h2, h3, hc]⟩, ridge_of_normal hδ h3⟩

/-- **C34** (overdetermined branch: convergence).  With `tol = 0`, `iter_lim ≥ rank` and a
preconditioned operator whose condition number respects LSQR's default limit `10^8`, PcSS2 with a
nonsingular `M` returns the exact solution. -/
theorem C34_pcss2_over_exact (A : Matrix (Fin m) (Fin n) ℝ) (b : Fin m → ℝ) (c : Option (Fin n → ℝ))
    (δ : ℝ) (hδ : 0 ≤ δ) (L : ℤ) (P : Precond n) (hP : P.Ok) (hM : colSpace P.mat = ⊤)
    (z0 : Option (Fin P.dim → ℝ)) (hc : cVec c = 0)
    (hL : ((aLift A (Real.sqrt δ) * P.mat).rank : ℤ) ≤ L) (σ : ℝ) (hσ : 0 < σ)
    (hlow : ∀ z ∈ colSpace (aLift A (Real.sqrt δ) * P.mat)ᵀ,
      σ * norm2 z ≤ norm2 ((aLift A (Real.sqrt δ) * P.mat) *ᵥ z))
    (hcond : fro (aLift A (Real.sqrt δ) * P.mat) *
      Real.sqrt (aLift A (Real.sqrt δ) * P.mat).rank < σ * (10 ^ 8 - eps)) :
    ∃ out x, pcss2 A (.vec b) c δ 0 L P z0 = .ok out ∧ out.x = some x ∧
      SolvesSaddle A b (cVec c) δ x out.y ∧ IsRidgeMin A b δ x := by
  have hc' : cIsZero c := by
    cases c with
    | none => trivial
    | some c => exact norm2_eq_zero.2 hc
  obtain ⟨res, h1, h2, -⟩ := C32_lsqr_wellcond (aLift A (Real.sqrt δ) * P.mat) (catv b 0) (10 ^ 8)
    (some L) z0 hL σ hσ hlow hcond
  have h3 : pcss2 A (.vec b) c δ 0 L P z0 =
      .ok ⟨some (P.mat *ᵥ res.x), b - A *ᵥ (P.mat *ᵥ res.x), res.arnorms⟩ := by
    rw [pcss2_over_eq A b c hδ 0 L hP z0 hc', h1]
  refine ⟨_, _, h3, rfl, C34_pcss2_over_solves A b c δ hδ 0 L P hP hM z0 hc _ h3 _ rfl ?_⟩
  rw [← h2, mul_T_mulVec, ← mulVec_mulVec, lift_normal A b hδ]

/-- **C34** (underdetermined branch: second block equation).  With `b` absent or zero and
`c ≠ 0`: for `δ > 0` the returned pair satisfies `A'y - δ x = c` exactly, however inaccurate `y` is;
for `δ = 0` all entries of `x` are NaN. -/
theorem C34_pcss2_under (A : Matrix (Fin m) (Fin n) ℝ) (b : BArg m) (c : Fin n → ℝ)
    (δ : ℝ) (hδ : 0 ≤ δ) (tol : ℝ) (L : ℤ) (P : Precond n) (hP : P.Ok) (z0 : Option (Fin P.dim → ℝ))
    (hb : b = .none ∨ b = .vec 0) (hc : c ≠ 0) (out : SaddleOut m n)
    (h : pcss2 A b (some c) δ tol L P z0 = .ok out) :
    (0 < δ → ∃ x, out.x = some x ∧ Aᵀ *ᵥ out.y - δ • x = c) ∧ (δ = 0 → out.x = none) ∧
    out.y ∈ colSpace A := by
  have hb' : b.isZero := by
    rcases hb with rfl | rfl
    · trivial
    · exact norm2_eq_zero.2 rfl
  rw [pcss2_under_eq A b c hδ tol L hP z0 hb' hc] at h
  cases hl : lsqr (LinOp.ofMat (aLift A (Real.sqrt δ) * P.mat)ᵀ) (P.matᵀ *ᵥ c) 0
      ⟨tol, tol, 10 ^ 8⟩ (some L) none with
  | error e => rw [hl] at h; cases h
  | ok res =>
    rw [hl] at h
    cases h
    refine ⟨fun h => ?_, fun h => ?_, ?_⟩
    · refine ⟨_, if_pos h, ?_⟩
      rw [smul_smul, mul_one_div_cancel h.ne', one_smul]; abel
    · exact if_neg (by rw [h]; exact lt_irrefl _)
    · obtain ⟨u, hu⟩ := C33_lsqr_row_space _ _ _ _ _ _ _ hl
      rw [Option.getD_none, zero_add, transpose_transpose, ← mulVec_mulVec, aLift_mulVec] at hu
      simp only [hu, topv_catv]
      exact mem_colSpace.2 ⟨_, rfl⟩

/-- **C34** (underdetermined branch: the log).  Its entries are
`‖(A_lift M)(M'(c - A_lift' y_i))‖` for LSQR's iterates `y_i`; in particular a call that needed no
iteration had `A_lift M M' c = 0` and returns `y = 0`. -/
theorem C34_pcss2_under_log (A : Matrix (Fin m) (Fin n) ℝ) (b : BArg m) (c : Fin n → ℝ)
    (δ : ℝ) (hδ : 0 ≤ δ) (tol : ℝ) (L : ℤ) (P : Precond n) (hP : P.Ok) (z0 : Option (Fin P.dim → ℝ))
    (hb : b = .none ∨ b = .vec 0) (hc : c ≠ 0) (out : SaddleOut m n)
    (h : pcss2 A b (some c) δ tol L P z0 = .ok out) :
    (out.errs = .scalar 0 ∧ out.y = 0 ∧ aLift A (Real.sqrt δ) *ᵥ (P.mat *ᵥ (P.matᵀ *ᵥ c)) = 0) ∨
    (∃ l, out.errs = .arr l ∧ (l.length : ℤ) ≤ L ∧
      ∀ i (hi : i < l.length), ∃ oi w, pcss2 A b (some c) δ tol i P z0 = .ok oi ∧ oi.y = topv w ∧
        l[i] = norm2 (aLift A (Real.sqrt δ) *ᵥ (P.mat *ᵥ (P.matᵀ *ᵥ
          (c - (aLift A (Real.sqrt δ))ᵀ *ᵥ w)))) ∧ l[i] ≠ 0) := by
  have hb' : b.isZero := by
    rcases hb with rfl | rfl
    · trivial
    · exact norm2_eq_zero.2 rfl
  have key : ∀ w, (aLift A (Real.sqrt δ) * P.mat)ᵀᵀ *ᵥ
      (P.matᵀ *ᵥ c - (aLift A (Real.sqrt δ) * P.mat)ᵀ *ᵥ w) =
      aLift A (Real.sqrt δ) *ᵥ (P.mat *ᵥ (P.matᵀ *ᵥ (c - (aLift A (Real.sqrt δ))ᵀ *ᵥ w))) := by
    intro w
    rw [transpose_transpose, mul_T_mulVec, ← mulVec_sub, ← mulVec_mulVec]
  rw [pcss2_under_eq A b c hδ tol L hP z0 hb' hc] at h
  cases hl : lsqr (LinOp.ofMat (aLift A (Real.sqrt δ) * P.mat)ᵀ) (P.matᵀ *ᵥ c) 0
      ⟨tol, tol, 10 ^ 8⟩ (some L) none with
  | error e => rw [hl] at h; cases h
  | ok res =>
    rw [hl] at h
    cases h
    rcases C30_lsqr_arnorms _ _ _ _ _ _ hl with ⟨h0, h1, h2, -⟩ | ⟨h0, l, h1, h2, -, h3⟩
    · rw [Option.getD_none] at h0 h1
      refine Or.inl ⟨h2, ?_, ?_⟩
      · simp only [h1]; rfl
      · rw [key, mulVec_zero, sub_zero] at h0; exact h0
    · refine Or.inr ⟨l, h1, by rw [h2]; exact lsqr_itn_le hl h0, fun i hi => ?_⟩
      obtain ⟨oi, g1, g2, g3⟩ := h3 i hi
      refine ⟨_, oi.x, by rw [pcss2_under_eq A b c hδ tol _ hP z0 hb' hc, g1], rfl, ?_, g3⟩
      rw [g2, key]

/-- the lifted matrix is injective for `δ > 0` -/
theorem aLift_inj (A : Matrix (Fin m) (Fin n) ℝ) {δ : ℝ} (hδ : 0 < δ) {x : Fin n → ℝ}
    (h : aLift A (Real.sqrt δ) *ᵥ x = 0) : x = 0 := by
  have := sqNorm_aLift A (Real.sqrt δ) x
  rw [h, sqNorm_zero', Real.sq_sqrt hδ.le] at this
  have h1 := sqNorm_nonneg (A *ᵥ x)
  have h2 := sqNorm_nonneg x
  have h3 : δ * sqNorm x = 0 := by nlinarith
  exact sqNorm_eq_zero.1 ((mul_eq_zero.1 h3).resolve_left hδ.ne')

/-- **C34** (underdetermined branch: solution).  If `M` is nonsingular and LSQR ended with a zero
normal-equation residual, then for `δ > 0` the returned pair solves the block system with `b = 0`,
and for `δ = 0` the returned `y` is the minimum-norm solution of `A'y = c`, if there is one.

The residual is that of the problem handed to LSQR: `w` is LSQR's solution, of which `y` is the
leading part. -/
theorem C34_pcss2_under_solves (A : Matrix (Fin m) (Fin n) ℝ) (b : BArg m) (c : Fin n → ℝ)
    (δ : ℝ) (hδ : 0 ≤ δ) (tol : ℝ) (L : ℤ) (P : Precond n) (hP : P.Ok) (hM : colSpace P.mat = ⊤)
    (z0 : Option (Fin P.dim → ℝ)) (hb : b = .none ∨ b = .vec 0) (hc : c ≠ 0) (res : LsqrOut _)
    (hl : lsqr (LinOp.ofMat (aLift A (Real.sqrt δ) * P.mat)ᵀ) (P.matᵀ *ᵥ c) 0 ⟨tol, tol, 10 ^ 8⟩
      (some L) none = .ok res)
    (h0 : (aLift A (Real.sqrt δ) * P.mat) *ᵥ
      (P.matᵀ *ᵥ c - (aLift A (Real.sqrt δ) * P.mat)ᵀ *ᵥ res.x) = 0) :
    ∃ out, pcss2 A b (some c) δ tol L P z0 = .ok out ∧
      (0 < δ → ∃ x, out.x = some x ∧ SolvesSaddle A 0 c δ x out.y) ∧
      (δ = 0 → (∃ y, Aᵀ *ᵥ y = c) → IsMinNormSol A c out.y) := by
  have hb' : b.isZero := by
    rcases hb with rfl | rfl
    · trivial
    · exact norm2_eq_zero.2 rfl
  obtain ⟨u, hu⟩ := C33_lsqr_row_space _ _ _ _ _ _ _ hl
  rw [Option.getD_none, zero_add, transpose_transpose, ← mulVec_mulVec] at hu
  set x' := P.mat *ᵥ u with hx'
  have hy : topv res.x = A *ᵥ x' := by rw [hu, aLift_mulVec, topv_catv]
  have hF : (aLift A (Real.sqrt δ))ᵀ *ᵥ res.x = Aᵀ *ᵥ (A *ᵥ x') + δ • x' := by
    rw [hu, mulVec_mulVec, aLift_gram_sqrt A hδ, add_mulVec, smul_mulVec, one_mulVec, ← mulVec_mulVec]
  have h0' : aLift A (Real.sqrt δ) *ᵥ (P.mat *ᵥ (P.matᵀ *ᵥ (c - (aLift A (Real.sqrt δ))ᵀ *ᵥ res.x))) = 0 := by
    rw [← h0, mul_T_mulVec, ← mulVec_sub, mulVec_mulVec]
  rw [hF] at h0'
  refine ⟨_, by rw [pcss2_under_eq A b c hδ tol L hP z0 hb' hc, hl], fun hpos => ?_, fun hz hsol => ?_⟩
  · have h1 := aLift_inj A hpos h0'
    have h2 : P.matᵀ *ᵥ (c - (Aᵀ *ᵥ (A *ᵥ x') + δ • x')) = 0 := by
      refine sqNorm_eq_zero.1 ?_
      rw [sqNorm_eq_dot, dot_mulVec, transpose_transpose, h1, zero_dotProduct]
    have h3 := sub_eq_zero.1 (T_inj_of_top hM h2)
    have hx : (1 / δ) • (Aᵀ *ᵥ topv res.x - c) = -x' := by
      rw [hy, h3, sub_add_cancel_left, smul_neg, smul_smul, one_div_mul_cancel hpos.ne', one_smul]
    refine ⟨-x', by simp only [if_pos hpos, hx], ?_, ?_⟩
    · simp only [hy, mulVec_neg]; abel
    · simp only [hy]; rw [h3, smul_neg]; abel
  · subst hz
    obtain ⟨y0, rfl⟩ := hsol
    rw [zero_smul, add_zero, ← mulVec_sub] at h0'
    set v := y0 - A *ᵥ x' with hv
    have h1 : P.matᵀ *ᵥ (Aᵀ *ᵥ v) = 0 := by
      have h2 := congrArg topv h0'
      rw [aLift_mulVec, topv_catv] at h2
      have h3 : A *ᵥ (P.mat *ᵥ (P.matᵀ *ᵥ (Aᵀ *ᵥ v))) = 0 := h2
      refine sqNorm_eq_zero.1 ?_
      rw [sqNorm_eq_dot, dot_mulVec, transpose_transpose, dotProduct_comm, dotProduct_comm,
        dot_mulVec, transpose_transpose, h3, zero_dotProduct]
    have h2 := T_inj_of_top hM h1
    rw [hv, mulVec_sub, sub_eq_zero] at h2
    refine ⟨by simp only [hy]; exact h2.symm, fun z hz => ?_⟩
    simp only [hy]
    -- `A x'` is orthogonal to the kernel of `A'`
    have h3 : (z - A *ᵥ x') ⬝ᵥ (A *ᵥ x') = 0 := by
      rw [dot_mulVec, mulVec_sub, hz, ← h2, sub_self, zero_dotProduct]
    have h4 : sqNorm z = sqNorm (z - A *ᵥ x') + sqNorm (A *ᵥ x') := by
      conv_lhs => rw [← sub_add_cancel z (A *ᵥ x')]
      rw [sqNorm_add, h3]; ring
    rw [norm2_le_norm2, h4]
    linarith [sqNorm_nonneg (z - A *ᵥ x')]

/-- **C34** (underdetermined branch: convergence). -/
theorem C34_pcss2_under_exact (A : Matrix (Fin m) (Fin n) ℝ) (b : BArg m) (c : Fin n → ℝ)
    (δ : ℝ) (hδ : 0 ≤ δ) (L : ℤ) (P : Precond n) (hP : P.Ok) (hM : colSpace P.mat = ⊤)
    (z0 : Option (Fin P.dim → ℝ)) (hb : b = .none ∨ b = .vec 0) (hc : c ≠ 0)
    (hL : ((aLift A (Real.sqrt δ) * P.mat).rank : ℤ) ≤ L) (σ : ℝ) (hσ : 0 < σ)
    (hlow : ∀ z ∈ colSpace (aLift A (Real.sqrt δ) * P.mat),
      σ * norm2 z ≤ norm2 ((aLift A (Real.sqrt δ) * P.mat)ᵀ *ᵥ z))
    (hcond : fro (aLift A (Real.sqrt δ) * P.mat) *
      Real.sqrt (aLift A (Real.sqrt δ) * P.mat).rank < σ * (10 ^ 8 - eps)) :
    ∃ out, pcss2 A b (some c) δ 0 L P z0 = .ok out ∧
      (0 < δ → ∃ x, out.x = some x ∧ SolvesSaddle A 0 c δ x out.y) ∧
      (δ = 0 → (∃ y, Aᵀ *ᵥ y = c) → IsMinNormSol A c out.y) := by
  obtain ⟨res, h1, h2, -⟩ := C32_lsqr_wellcond (aLift A (Real.sqrt δ) * P.mat)ᵀ (P.matᵀ *ᵥ c) (10 ^ 8)
    (some L) none (by rw [rank_transpose]; exact hL) σ hσ (by rw [transpose_transpose]; exact hlow)
    (by rw [froSq_transpose, rank_transpose]; exact hcond)
  rw [transpose_transpose] at h2
  exact C34_pcss2_under_solves A b c δ hδ 0 L P hP hM z0 hb hc res h1 h2

/-- **C34** (dispatch).  PcSS2 rejects a matrix `b` with `NotImplementedError`, and raises
`ValueError` if neither `b` nor `c` is zero.  With `b = None` and `c` absent or zero it does not
return the zero solution but raises. -/
theorem C34_pcss2_rejects (A : Matrix (Fin m) (Fin n) ℝ) (c : Option (Fin n → ℝ)) (δ tol : ℝ) (L : ℤ)
    (P : Precond n) (z0 : Option (Fin P.dim → ℝ)) :
    (∀ k hk, pcss2 A (.multi k hk) c δ tol L P z0 = .error .notImplemented) ∧
    (∀ b, b ≠ 0 → cVec c ≠ 0 → pcss2 A (.vec b) c δ tol L P z0 = .error .value) ∧
    (cVec c = 0 → 0 < δ → pcss2 A .none c δ tol L P z0 = .error .value) ∧
    (cVec c = 0 → δ = 0 → pcss2 A .none c δ tol L P z0 = .error .type) := by
  have hpc : ∃ pc, aLiftPrecond A δ P 1 = .ok pc := by
    unfold aLiftPrecond
    rw [if_neg (by simp)]
    cases P <;> exact ⟨_, rfl⟩
  obtain ⟨pc, hpc⟩ := hpc
  have hz : cIsZero c ↔ cVec c = 0 := by
    cases c with
    | none => exact ⟨fun _ => rfl, fun _ => trivial⟩
    | some c => exact norm2_eq_zero
  refine ⟨fun k hk => ?_, fun b hb hc => ?_, fun hc hδ => ?_, fun hc hδ => ?_⟩
  · unfold pcss2 aLiftPrecond
    rw [show (BArg.multi (m := m) k hk).k = k from rfl, if_pos hk]
  · unfold pcss2
    rw [show (BArg.vec b).k = 1 from rfl, hpc]
    simp only [if_neg (fun h => hc (hz.1 h)), if_neg (show ¬ (BArg.vec b).isZero from
      fun h => hb (norm2_eq_zero.1 h))]
  · unfold pcss2
    rw [show (BArg.none (m := m)).k = 1 from rfl, hpc]
    simp only [if_pos (hz.2 hc), if_pos hδ]
  · unfold pcss2
    rw [show (BArg.none (m := m)).k = 1 from rfl, hpc]
    simp only [if_pos (hz.2 hc), if_neg (show ¬ δ > 0 by rw [hδ]; exact lt_irrefl _)]

/-- **C34** (totality): otherwise, for `iter_lim ≥ 0`, PcSS2 returns. -/
theorem C34_pcss2_total (A : Matrix (Fin m) (Fin n) ℝ) (b : BArg m) (c : Option (Fin n → ℝ)) (δ : ℝ)
    (hδ : 0 ≤ δ) (tol : ℝ) (L : ℤ) (hL : 0 ≤ L) (P : Precond n) (hP : P.Ok) (z0 : Option (Fin P.dim → ℝ))
    (h : (cVec c = 0 ∧ ∃ b', b = .vec b') ∨ (cVec c ≠ 0 ∧ (b = .none ∨ b = .vec 0))) :
    ∃ out, pcss2 A b c δ tol L P z0 = .ok out := by
  rcases h with ⟨hc, b, rfl⟩ | ⟨hc, hb⟩
  · have hc' : cIsZero c := by
      cases c with
      | none => trivial
      | some c => exact norm2_eq_zero.2 hc
    rw [pcss2_over_eq A b c hδ tol L hP z0 hc']
    rcases C30_lsqr_total (aLift A (Real.sqrt δ) * P.mat) (catv b 0) 0 ⟨tol, tol, 10 ^ 8⟩ (some L) z0
      with ⟨out, h⟩ | ⟨-, ⟨l, hl, hl'⟩, -⟩
    · rw [h]; exact ⟨_, rfl⟩
    · cases hl'; omega
  · cases c with
    | none => exact absurd rfl hc
    | some c =>
      have hb' : b.isZero := by
        rcases hb with rfl | rfl
        · trivial
        · exact norm2_eq_zero.2 rfl
      rw [pcss2_under_eq A b c hδ tol L hP z0 hb' hc]
      rcases C30_lsqr_total (aLift A (Real.sqrt δ) * P.mat)ᵀ (P.matᵀ *ᵥ c) 0 ⟨tol, tol, 10 ^ 8⟩
        (some L) none with ⟨out, h⟩ | ⟨-, ⟨l, hl, hl'⟩, -⟩
      · rw [h]; exact ⟨_, rfl⟩
      · cases hl'; omega

/-- `lsqr` with an operator whose products all raise: it raises, or returns without a product. -/
theorem lsqr_raises {p q : ℕ} {op : LinOp p q} {e : PyErr} (h1 : ∀ x, op.mv x = .error e)
    (h2 : ∀ y, op.rmv y = .error e) (b : Fin p → ℝ) (damp : ℝ) (T : LsqrTol) (lim : Option ℤ)
    (x0 : Option (Fin q → ℝ)) :
    lsqr op b damp T lim x0 = .error e ∨ ∃ o, lsqr op b damp T lim x0 = .ok o := by
  cases x0 with
  | some x0 =>
    left
    have : lsqrInit op b (some x0) = .error e := by
      unfold lsqrInit; simp only [h1]; rfl
    unfold lsqr
    rw [this]
  | none =>
    by_cases hb : 0 < norm2 b
    · left
      have : lsqrInit op b none = .error e := by
        unfold lsqrInit
        simp only [bind, Except.bind, pure, Except.pure, if_pos hb, h2]
      unfold lsqr
      rw [this]
    · right
      have : ∃ s, lsqrInit op b none = .ok s ∧ s.arnorm = 0 := by
        unfold lsqrInit
        simp only [bind, Except.bind, pure, Except.pure, if_neg hb]
        exact ⟨_, rfl, zero_mul _⟩
      obtain ⟨s, hs, h0⟩ := this
      unfold lsqr
      rw [hs]
      simp only [if_pos h0]
      exact ⟨_, rfl⟩

/-- **C34** (singular preconditioner): a triangular `R` with a zero on its diagonal is reported as
`LinAlgError` in both branches. -/
theorem C34_pcss2_singular (A : Matrix (Fin m) (Fin n) ℝ) (δ tol : ℝ) (L : ℤ)
    (R : Matrix (Fin n) (Fin n) ℝ) (hR : ∃ i, R i i = 0) (z0 : Option (Fin n → ℝ)) :
    (∀ b c, cVec c = 0 → pcss2 A (.vec b) c δ tol L (.tri R) z0 = .error .linAlg) ∧
    (∀ b c, b = .none ∨ b = .vec 0 → c ≠ 0 →
      pcss2 A b (some c) δ tol L (.tri R) z0 = .error .linAlg) := by
  refine ⟨fun b c hc => ?_, fun b c hb hc => ?_⟩
  · have hc' : cIsZero c := by
      cases c with
      | none => trivial
      | some c => exact norm2_eq_zero.2 hc
    unfold pcss2
    rw [show (BArg.vec b).k = 1 from rfl]
    unfold aLiftPrecond
    rw [if_neg (by simp)]
    simp only [if_pos hc']
    unfold pcss2Over
    simp only [solveUpperv_err hR]
    have hmv : ∀ x, (LiftPrecond.op ({
        fwd := fun arg work => forwardTri A δ R arg work
        adj := fun arg work => adjointTri A δ R arg work
        mFwd := fun z => solveUpperv R z
        mAdj := fun w => solveUpperTv R w } : LiftPrecond m n n δ)).mv x = .error .linAlg := by
      intro x
      simp only [LiftPrecond.op, forwardTri, solveUpperv_err hR]
      rfl
    have hrmv : ∀ y, (LiftPrecond.op ({
        fwd := fun arg work => forwardTri A δ R arg work
        adj := fun arg work => adjointTri A δ R arg work
        mFwd := fun z => solveUpperv R z
        mAdj := fun w => solveUpperTv R w } : LiftPrecond m n n δ)).rmv y = .error .linAlg := by
      intro y
      simp only [LiftPrecond.op, adjointTri, solveUpperTv_err hR]
      rfl
    simp only [solveUpperv_err hR] at hmv hrmv
    rcases lsqr_raises hmv hrmv (catv b 0) 0 (pcss2Tol tol) (some L) z0 with h | ⟨o, h⟩ <;>
      simp only [h]
  · have hb' : b.isZero := by
      rcases hb with rfl | rfl
      · trivial
      · exact norm2_eq_zero.2 rfl
    have hk : b.k = 1 := by rcases hb with rfl | rfl <;> rfl
    have hc' : ¬ cIsZero (some c) := fun h => hc (norm2_eq_zero.1 h)
    unfold pcss2 aLiftPrecond
    rw [if_neg (by rw [hk]; simp)]
    simp only [if_neg hc', if_pos hb']
    unfold pcss2Under
    simp only [solveUpperTv_err hR]

/-! ### Non-vacuity: a 2 x 2 problem with `δ = 1`, `M = I`, on which both branches converge -/

theorem demo_low : ∀ z : Fin 2 → ℝ, (1 : ℝ) * norm2 z ≤
    norm2 ((aLift (!![1, 0; 0, 2] : Matrix (Fin 2) (Fin 2) ℝ) (Real.sqrt 1) *
      (Precond.gen 2 (1 : Matrix (Fin 2) (Fin 2) ℝ)).mat) *ᵥ z) := by
  intro z
  rw [one_mul, norm2_le_norm2, ← mulVec_mulVec, sqNorm_aLift]
  have : (Precond.gen 2 (1 : Matrix (Fin 2) (Fin 2) ℝ)).mat *ᵥ z = z := one_mulVec z
  rw [this, Real.sqrt_one]
  linarith [sqNorm_nonneg (!![1, 0; 0, 2] *ᵥ z)]

theorem demo_cond : fro (aLift (!![1, 0; 0, 2] : Matrix (Fin 2) (Fin 2) ℝ) (Real.sqrt 1) *
      (Precond.gen 2 (1 : Matrix (Fin 2) (Fin 2) ℝ)).mat) *
    Real.sqrt (aLift (!![1, 0; 0, 2] : Matrix (Fin 2) (Fin 2) ℝ) (Real.sqrt 1) *
      (Precond.gen 2 (1 : Matrix (Fin 2) (Fin 2) ℝ)).mat).rank < 1 * (10 ^ 8 - eps) := by
  set F := aLift (!![1, 0; 0, 2] : Matrix (Fin 2) (Fin 2) ℝ) (Real.sqrt 1) *
      (Precond.gen 2 (1 : Matrix (Fin 2) (Fin 2) ℝ)).mat with hF
  have h1 : froSq F = 7 := by
    have e : F = aLift (!![1, 0; 0, 2] : Matrix (Fin 2) (Fin 2) ℝ) (Real.sqrt 1) := Matrix.mul_one _
    rw [froSq_eq_trace, e, aLift_gram_sqrt _ zero_le_one]
    simp [Matrix.trace, Fin.sum_univ_two, Matrix.mul_apply]
    norm_num
  have h2 : (F.rank : ℝ) ≤ 2 := by exact_mod_cast F.rank_le_width
  have h3 : fro F ≤ 3 := by
    unfold fro; rw [h1, Real.sqrt_le_left (by norm_num)]; norm_num
  have h4 : Real.sqrt F.rank ≤ 2 := by
    rw [Real.sqrt_le_left (by norm_num)]; linarith
  have h5 : fro F * Real.sqrt F.rank ≤ 3 * 2 := mul_le_mul h3 h4 (Real.sqrt_nonneg _) (by norm_num)
  have h6 : eps < 1 := by
    unfold eps; norm_num
  linarith

theorem demo_top : colSpace (Precond.gen 2 (1 : Matrix (Fin 2) (Fin 2) ℝ)).mat = ⊤ :=
  eq_top_iff.2 fun z _ => mem_colSpace.2 ⟨z, one_mulVec z⟩

/-- the overdetermined branch -/
example : ∃ out, pcss2 (!![1, 0; 0, 2] : Matrix (Fin 2) (Fin 2) ℝ) (.vec ![1, 1]) none 1 0 2
    (.gen 2 1) none = .ok out ∧ out.x = some ![1 / 2, 2 / 5] := by
  obtain ⟨out, x, h1, h2, h3, -⟩ := C34_pcss2_over_exact (!![1, 0; 0, 2] : Matrix (Fin 2) (Fin 2) ℝ)
    ![1, 1] none 1 zero_le_one 2 (.gen 2 1) trivial demo_top none rfl
    (by exact_mod_cast rank_le_width _) 1 one_pos (fun z _ => demo_low z) demo_cond
  refine ⟨out, h1, ?_⟩
  rw [h2]
  obtain ⟨e1, e2⟩ := h3
  have a0 := congrFun e1 0
  have a1 := congrFun e1 1
  have b0 := congrFun e2 0
  have b1 := congrFun e2 1
  simp [mulVec, dotProduct, Fin.sum_univ_two, cVec] at a0 a1 b0 b1
  congr 1
  funext i
  fin_cases i
  · show x 0 = 1 / 2
    linarith
  · show x 1 = 2 / 5
    linarith

theorem dot_sq_le (u v : Fin n → ℝ) : (u ⬝ᵥ v) ^ 2 ≤ sqNorm u * sqNorm v :=
  Finset.sum_mul_sq_le_sq_mul_sq Finset.univ u v

/-- A lower bound for an injective `F` is one for `F'` on the range of `F`. -/
theorem low_transpose {p q : ℕ} {F : Matrix (Fin p) (Fin q) ℝ} {σ : ℝ} (hσ : 0 < σ)
    (h : ∀ z, σ * norm2 z ≤ norm2 (F *ᵥ z)) {w : Fin p → ℝ} (hw : w ∈ colSpace F) :
    σ * norm2 w ≤ norm2 (Fᵀ *ᵥ w) := by
  obtain ⟨x, rfl⟩ := mem_colSpace.1 hw
  have h1 : sqNorm (F *ᵥ x) = x ⬝ᵥ (Fᵀ *ᵥ (F *ᵥ x)) := by
    rw [sqNorm_eq_dot, dot_mulVec, dotProduct_comm]
  have h2 := dot_sq_le x (Fᵀ *ᵥ (F *ᵥ x))
  rw [← h1, ← norm2_sq, ← norm2_sq, ← norm2_sq, ← mul_pow] at h2
  have h3 : norm2 (F *ᵥ x) ^ 2 ≤ norm2 x * norm2 (Fᵀ *ᵥ (F *ᵥ x)) :=
    le_of_sq_le_sq h2 (mul_nonneg (norm2_nonneg _) (norm2_nonneg _))
  rcases eq_or_lt_of_le (norm2_nonneg (F *ᵥ x)) with h0 | h0
  · rw [← h0, mul_zero]; exact norm2_nonneg _
  · have h4 := mul_le_mul_of_nonneg_right (h x) (norm2_nonneg (Fᵀ *ᵥ (F *ᵥ x)))
    have h5 := mul_le_mul_of_nonneg_left h3 hσ.le
    have h6 : norm2 (F *ᵥ x) * (σ * norm2 (F *ᵥ x)) ≤ norm2 (F *ᵥ x) * norm2 (Fᵀ *ᵥ (F *ᵥ x)) := by
      nlinarith
    exact le_of_mul_le_mul_left h6 h0

/-- the underdetermined branch -/
example : ∃ out, pcss2 (!![1, 0; 0, 2] : Matrix (Fin 2) (Fin 2) ℝ) .none (some ![2, 5]) 1 0 2
    (.gen 2 1) none = .ok out ∧ out.x = some ![-1, -1] ∧ out.y = ![1, 2] := by
  obtain ⟨out, h1, h2, -⟩ := C34_pcss2_under_exact (!![1, 0; 0, 2] : Matrix (Fin 2) (Fin 2) ℝ)
    .none ![2, 5] 1 zero_le_one 2 (.gen 2 1) trivial demo_top none (Or.inl rfl)
    (fun h => by have := congrFun h 0; norm_num at this)
    (by exact_mod_cast rank_le_width _) 1 one_pos (fun z hz => low_transpose one_pos demo_low hz) demo_cond
  obtain ⟨x, h2, e1, e2⟩ := h2 one_pos
  refine ⟨out, h1, ?_⟩
  have a0 := congrFun e1 0
  have a1 := congrFun e1 1
  have b0 := congrFun e2 0
  have b1 := congrFun e2 1
  simp [mulVec, dotProduct, Fin.sum_univ_two] at a0 a1 b0 b1
  refine ⟨?_, ?_⟩
  · rw [h2]
    congr 1
    funext i
    fin_cases i
    · show x 0 = -1
      linarith
    · show x 1 = -1
      linarith
  · funext i
    fin_cases i
    · show out.y 0 = 1
      linarith
    · show out.y 1 = 2
      linarith

end Parla.Props
