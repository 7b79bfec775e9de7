import Verif.Proof.LSQR
import Mathlib.LinearAlgebra.Matrix.Notation
import Mathlib.Tactic.NormNum.Basic
import Mathlib.Tactic.FinCases

/-! # Properties C30 – C33, C53, C54: `lsqr` -/

namespace Parla.Props

open Matrix Parla Spec

variable {p q : ℕ}

/-! ## C53 -/

/-- **C53**.  `_sym_ortho(a, b)` returns `(c, s, r)` with `c a + s b = r`, `s a - c b = 0`,
`r = sqrt(a^2 + b^2)`, and `c^2 + s^2 = 1` unless `a = b = 0`. -/
theorem C53_symOrtho (a b : ℝ) : ∃ c s r, symOrtho a b = (c, s, r) ∧ c * a + s * b = r ∧
    s * a - c * b = 0 ∧ r ^ 2 = a ^ 2 + b ^ 2 ∧ 0 ≤ r ∧ ((a ≠ 0 ∨ b ≠ 0) → c ^ 2 + s ^ 2 = 1) := by
  refine ⟨_, _, _, symOrtho_eq a b, ?_, by ring, Real.sq_sqrt (by positivity), Real.sqrt_nonneg _,
    fun h => ?_⟩
  · have h2 := Real.sq_sqrt (show 0 ≤ a ^ 2 + b ^ 2 by positivity)
    by_cases h : Real.sqrt (a ^ 2 + b ^ 2) = 0
    · rw [h]; simp
    · field_simp
      rw [h2]
  · have hpos : 0 < a ^ 2 + b ^ 2 := by
      rcases h with h | h <;> positivity
    rw [div_pow, div_pow, ← add_div, Real.sq_sqrt hpos.le, div_self hpos.ne']

example : (symOrtho 3 4).2.2 = 5 := by
  rw [symOrtho_eq]
  show Real.sqrt (3 ^ 2 + 4 ^ 2) = 5
  rw [show (3 : ℝ) ^ 2 + 4 ^ 2 = 5 ^ 2 by norm_num, Real.sqrt_sq (by norm_num)]

/-! ## C30 -/

/-- **C30** (with damping).  If `lsqr(F, b, damp, ..., x0)` returns `out`, then either it returned
before its main loop, at a starting point with zero normal-equation residual and with the scalar `0`
as its error value; or its error history has one entry per iteration, and entry `i` is the norm of
`F'(b - F x_i) - damp^2 (x_i - x0)`, the gradient at the `i`-th iterate (the point `lsqr` returns under
`iter_lim = i`). -/
theorem C30_lsqr_arnorms_damped (F : Matrix (Fin p) (Fin q) ℝ) (b : Fin p → ℝ) (damp : ℝ) (T : LsqrTol)
    (lim : Option ℤ) (x0 : Option (Fin q → ℝ)) (out : LsqrOut q)
    (h : lsqr (LinOp.ofMat F) b damp T lim x0 = .ok out) :
    (Fᵀ *ᵥ (b - F *ᵥ x0.getD 0) = 0 ∧ out.x = x0.getD 0 ∧ out.arnorms = .scalar 0 ∧ out.itn = 0) ∨
    (Fᵀ *ᵥ (b - F *ᵥ x0.getD 0) ≠ 0 ∧ ∃ l, out.arnorms = .arr l ∧ l.length = out.itn ∧
      (∃ o, lsqr (LinOp.ofMat F) b damp T (some (out.itn : ℤ)) x0 = .ok o ∧ o.x = out.x) ∧
      ∀ i (hi : i < l.length), ∃ oi, lsqr (LinOp.ofMat F) b damp T (some (i : ℤ)) x0 = .ok oi ∧
        l[i] = norm2 (Fᵀ *ᵥ (b - F *ᵥ oi.x) - damp ^ 2 • (oi.x - x0.getD 0)) ∧ l[i] ≠ 0) := by
  rcases lsqr_ok h with ⟨hg, rfl⟩ | ⟨hg, L, hL, K, hK, hK0, rfl, h4, h5, h6⟩
  · exact Or.inl ⟨hg, rfl, rfl, rfl⟩
  · refine Or.inr ⟨hg, _, rfl, ?_, ⟨_, lsqr_prefix hg h5 (i := K) le_rfl, rfl⟩, fun i hi => ?_⟩
    · rw [List.length_map, List.length_range]; rfl
    · rw [List.length_map, List.length_range] at hi
      refine ⟨_, lsqr_prefix hg h5 hi.le, ?_, ?_⟩
      · rw [List.getElem_map, List.getElem_range]
        exact (seqP_facts fun j hj => h6 j (by omega)).arnorm
      · rw [List.getElem_map, List.getElem_range]
        exact h6 i hi

/-- **C30**.  Without damping, entry `i` of the error history is `||F'(b - F x_i)||`. -/
theorem C30_lsqr_arnorms (F : Matrix (Fin p) (Fin q) ℝ) (b : Fin p → ℝ) (T : LsqrTol)
    (lim : Option ℤ) (x0 : Option (Fin q → ℝ)) (out : LsqrOut q)
    (h : lsqr (LinOp.ofMat F) b 0 T lim x0 = .ok out) :
    (Fᵀ *ᵥ (b - F *ᵥ x0.getD 0) = 0 ∧ out.x = x0.getD 0 ∧ out.arnorms = .scalar 0 ∧ out.itn = 0) ∨
    (Fᵀ *ᵥ (b - F *ᵥ x0.getD 0) ≠ 0 ∧ ∃ l, out.arnorms = .arr l ∧ l.length = out.itn ∧
      (∃ o, lsqr (LinOp.ofMat F) b 0 T (some (out.itn : ℤ)) x0 = .ok o ∧ o.x = out.x) ∧
      ∀ i (hi : i < l.length), ∃ oi, lsqr (LinOp.ofMat F) b 0 T (some (i : ℤ)) x0 = .ok oi ∧
        l[i] = norm2 (Fᵀ *ᵥ (b - F *ᵥ oi.x)) ∧ l[i] ≠ 0) := by
  rcases C30_lsqr_arnorms_damped F b 0 T lim x0 out h with h | ⟨h0, l, h1, h2, h3, h4⟩
  · exact Or.inl h
  · refine Or.inr ⟨h0, l, h1, h2, h3, fun i hi => ?_⟩
    obtain ⟨oi, g1, g2, g3⟩ := h4 i hi
    refine ⟨oi, g1, ?_, g3⟩
    rw [g2]
    simp

/-- **C30** (the 0-th iterate is the starting point, by default 0). -/
theorem C30_lsqr_start (F : Matrix (Fin p) (Fin q) ℝ) (b : Fin p → ℝ) (damp : ℝ) (T : LsqrTol)
    (x0 : Option (Fin q → ℝ)) : ∃ o, lsqr (LinOp.ofMat F) b damp T (some 0) x0 = .ok o ∧
      o.x = x0.getD 0 ∧ o.itn = 0 ∧ o.istop = 0 := by
  by_cases hg : Fᵀ *ᵥ (b - F *ᵥ x0.getD 0) = 0
  · exact ⟨_, lsqr_early F b x0 damp T _ hg, rfl, rfl, rfl⟩
  · obtain ⟨K, h1, -, h3, -⟩ := lsqr_run F b x0 damp T (some 0) 0 hg rfl
    have : K = 0 := by omega
    subst this
    exact ⟨_, h3, rfl, rfl, rfl⟩

/-- **C30** (totality): `lsqr` on a matrix operator raises only for a negative `iter_lim`, and then
only if the starting point is not already optimal. -/
theorem C30_lsqr_total (F : Matrix (Fin p) (Fin q) ℝ) (b : Fin p → ℝ) (damp : ℝ) (T : LsqrTol)
    (lim : Option ℤ) (x0 : Option (Fin q → ℝ)) :
    (∃ out, lsqr (LinOp.ofMat F) b damp T lim x0 = .ok out) ∨
    (Fᵀ *ᵥ (b - F *ᵥ x0.getD 0) ≠ 0 ∧ (∃ l < 0, lim = some l) ∧
      lsqr (LinOp.ofMat F) b damp T lim x0 = .error .value) := by
  by_cases hg : Fᵀ *ᵥ (b - F *ᵥ x0.getD 0) = 0
  · exact Or.inl ⟨_, lsqr_early F b x0 damp T _ hg⟩
  · rcases lt_or_ge (lim.getD (2 * q)) 0 with hL | hL
    · right
      refine ⟨hg, ?_, lsqr_neg F b x0 damp T lim hg hL⟩
      cases lim with
      | none => rw [Option.getD_none] at hL; omega
      | some l => exact ⟨l, hL, rfl⟩
    · obtain ⟨L, hL⟩ := Int.eq_ofNat_of_zero_le hL
      obtain ⟨K, -, -, h3, -⟩ := lsqr_run F b x0 damp T lim L hg hL
      exact Or.inl ⟨_, h3⟩

/-! ## C31 -/

/-- The residual facts at the returned point. -/
theorem lsqr_facts {F : Matrix (Fin p) (Fin q) ℝ} {b : Fin p → ℝ} {damp : ℝ} {T : LsqrTol}
    {lim : Option ℤ} {x0 : Option (Fin q → ℝ)} {out : LsqrOut q}
    (h : lsqr (LinOp.ofMat F) b damp T lim x0 = .ok out) :
    out.r2norm = Real.sqrt (sqNorm (b - F *ᵥ out.x) + damp ^ 2 * sqNorm (out.x - x0.getD 0)) ∧
    out.xnorm = norm2 (out.x - x0.getD 0) ∧ out.x - x0.getD 0 ∈ colSpace Fᵀ ∧ 0 ≤ out.anorm ∧
    out.anorm ^ 2 ≤ froSq F + out.itn * damp ^ 2 ∧ 0 ≤ out.acond := by
  rcases lsqr_ok h with ⟨hg, rfl⟩ | ⟨hg, L, hL, K, hK, hK0, rfl, h4, h5, h6⟩
  · have f := (initP_spec F b (x0.getD 0) damp).1
    exact ⟨f.r2norm, f.xnorm, f.range, f.anorm0, f.anorm, le_rfl⟩
  · have f := seqP_facts h6
    refine ⟨f.r2norm, f.xnorm, f.range, f.anorm0, ?_, seqP_acond h6⟩
    have := f.anorm
    rw [seqP_itn] at this
    exact this

/-- **C31** (with damping): the returned `r2norm` is the residual norm of the damped problem. -/
theorem C31_lsqr_r2norm_damped (F : Matrix (Fin p) (Fin q) ℝ) (b : Fin p → ℝ) (damp : ℝ) (T : LsqrTol)
    (lim : Option ℤ) (x0 : Option (Fin q → ℝ)) (out : LsqrOut q)
    (h : lsqr (LinOp.ofMat F) b damp T lim x0 = .ok out) :
    out.r2norm = Real.sqrt (sqNorm (b - F *ᵥ out.x) + damp ^ 2 * sqNorm (out.x - x0.getD 0)) :=
  (lsqr_facts h).1

/-- **C31**.  Without damping the returned `r1norm` and `r2norm` are `||b - F x||`. -/
theorem C31_lsqr_rnorm (F : Matrix (Fin p) (Fin q) ℝ) (b : Fin p → ℝ) (T : LsqrTol)
    (lim : Option ℤ) (x0 : Option (Fin q → ℝ)) (out : LsqrOut q)
    (h : lsqr (LinOp.ofMat F) b 0 T lim x0 = .ok out) :
    out.r1norm = norm2 (b - F *ᵥ out.x) ∧ out.r2norm = norm2 (b - F *ᵥ out.x) := by
  have h2 : out.r2norm = norm2 (b - F *ᵥ out.x) := by
    rw [(lsqr_facts h).1]; simp [norm2]
  refine ⟨?_, h2⟩
  rw [← h2]
  have hn : 0 ≤ out.r2norm := by rw [h2]; exact norm2_nonneg _
  have key : ∀ k, 0 ≤ (seqP F b (x0.getD 0) 0 k).r2norm →
      (seqP F b (x0.getD 0) 0 k).r1norm = (seqP F b (x0.getD 0) 0 k).r2norm := by
    intro k hk
    cases k with
    | zero => rfl
    | succ k =>
      rw [seqP_succ] at hk ⊢
      have e : (stepP F 0 (seqP F b (x0.getD 0) 0 k)).r1norm =
          if (stepP F 0 (seqP F b (x0.getD 0) 0 k)).r2norm ^ 2 -
            (0 : ℝ) ^ 2 * (stepP F 0 (seqP F b (x0.getD 0) 0 k)).xxnorm < 0 then
          -Real.sqrt |(stepP F 0 (seqP F b (x0.getD 0) 0 k)).r2norm ^ 2 -
            (0 : ℝ) ^ 2 * (stepP F 0 (seqP F b (x0.getD 0) 0 k)).xxnorm|
          else Real.sqrt |(stepP F 0 (seqP F b (x0.getD 0) 0 k)).r2norm ^ 2 -
            (0 : ℝ) ^ 2 * (stepP F 0 (seqP F b (x0.getD 0) 0 k)).xxnorm| := rfl
      rw [e]
      generalize (stepP F 0 (seqP F b (x0.getD 0) 0 k)).r2norm = r at *
      simp only [ne_eq, OfNat.ofNat_ne_zero, not_false_eq_true, zero_pow, zero_mul, sub_zero]
      rw [if_neg (not_lt.2 (sq_nonneg r)), abs_of_nonneg (sq_nonneg r), Real.sqrt_sq hk]
  rcases lsqr_ok h with ⟨hg, rfl⟩ | ⟨hg, L, hL, K, hK, hK0, rfl, h4, h5, h6⟩
  · rfl
  · exact key K hn

/-- **C31** (monotone): the residual norm strictly decreases from each iterate to the next. -/
theorem C31_lsqr_monotone (F : Matrix (Fin p) (Fin q) ℝ) (b : Fin p → ℝ) (T : LsqrTol)
    (lim : Option ℤ) (x0 : Option (Fin q → ℝ)) (out : LsqrOut q)
    (h : lsqr (LinOp.ofMat F) b 0 T lim x0 = .ok out) (i j : ℕ) (hij : i < j) (hj : j ≤ out.itn)
    (oi oj : LsqrOut q) (hi' : lsqr (LinOp.ofMat F) b 0 T (some (i : ℤ)) x0 = .ok oi)
    (hj' : lsqr (LinOp.ofMat F) b 0 T (some (j : ℤ)) x0 = .ok oj) :
    norm2 (b - F *ᵥ oj.x) < norm2 (b - F *ᵥ oi.x) := by
  rcases lsqr_ok h with ⟨hg, rfl⟩ | ⟨hg, L, hL, K, hK, hK0, rfl, h4, h5, h6⟩
  · have : j ≤ 0 := hj
    omega
  · have hjK : j ≤ K := hj
    rw [← (C31_lsqr_rnorm F b T _ x0 oi hi').2, ← (C31_lsqr_rnorm F b T _ x0 oj hj').2]
    rw [lsqr_prefix hg h5 hjK] at hj'
    rw [lsqr_prefix hg h5 (hij.le.trans hjK)] at hi'
    cases hi'; cases hj'
    show (seqP F b (x0.getD 0) 0 j).r2norm < (seqP F b (x0.getD 0) 0 i).r2norm
    clear hj
    induction j with
    | zero => omega
    | succ j ih =>
      have d := seqP_dec (F := F) (b := b) (x0 := x0.getD 0) (damp := 0) (k := j)
        fun l hl => h6 l (by omega)
      rcases Nat.lt_succ_iff_lt_or_eq.1 hij with h' | rfl
      · exact d.trans (ih h' (by omega))
      · exact d

/-- **C31** (never worse than the start). -/
theorem C31_lsqr_never_worse (F : Matrix (Fin p) (Fin q) ℝ) (b : Fin p → ℝ) (T : LsqrTol)
    (lim : Option ℤ) (x0 : Option (Fin q → ℝ)) (out : LsqrOut q)
    (h : lsqr (LinOp.ofMat F) b 0 T lim x0 = .ok out) :
    norm2 (b - F *ᵥ out.x) ≤ norm2 (b - F *ᵥ x0.getD 0) ∧
    (0 < out.itn → norm2 (b - F *ᵥ out.x) < norm2 (b - F *ᵥ x0.getD 0)) := by
  have key : 0 < out.itn → norm2 (b - F *ᵥ out.x) < norm2 (b - F *ᵥ x0.getD 0) := by
    intro hpos
    rcases C30_lsqr_arnorms F b T lim x0 out h with ⟨-, -, -, h0⟩ | ⟨-, l, -, -, ⟨o, ho, hx⟩, -⟩
    · omega
    · obtain ⟨o0, ho0, hx0, -, -⟩ := C30_lsqr_start F b 0 T x0
      have := C31_lsqr_monotone F b T lim x0 out h 0 out.itn hpos le_rfl o0 o ho0 ho
      rwa [hx, hx0] at this
  refine ⟨?_, key⟩
  rcases Nat.eq_zero_or_pos out.itn with h0 | h0
  · have : out.x = x0.getD 0 := by
      rcases C30_lsqr_arnorms F b T lim x0 out h with ⟨-, h1, -, -⟩ | ⟨-, l, -, -, ⟨o, ho, hx⟩, -⟩
      · exact h1
      · obtain ⟨o0, ho0, hx0, -, -⟩ := C30_lsqr_start F b 0 T x0
        rw [h0] at ho
        have e : o = o0 := Except.ok.inj (ho.symm.trans ho0)
        rw [← hx, e, hx0]
    rw [this]
  · exact (key h0).le

/-! ## C32 -/

/-- **C32** (stop codes).  `lsqr` makes at most `iter_lim` iterations and its stop code is
truthful about the returned point. -/
theorem C32_lsqr_codes (F : Matrix (Fin p) (Fin q) ℝ) (b : Fin p → ℝ) (T : LsqrTol)
    (lim : Option ℤ) (x0 : Option (Fin q → ℝ)) (out : LsqrOut q)
    (h : lsqr (LinOp.ofMat F) b 0 T lim x0 = .ok out) :
    ((out.itn : ℤ) ≤ lim.getD (2 * q) ∨ out.itn = 0) ∧
    out.istop ∈ ({0, 1, 2, 3, 4, 5, 7} : Set ℕ) ∧
    (out.istop = 0 → out.x = x0.getD 0 ∧ out.itn = 0 ∧
      (Fᵀ *ᵥ (b - F *ᵥ x0.getD 0) = 0 ∨ lim.getD (2 * q) = 0)) ∧
    (out.istop = 1 → b ≠ 0 → norm2 (b - F *ᵥ out.x) ≤
      T.btol * norm2 b + T.atol * out.anorm * norm2 (out.x - x0.getD 0)) ∧
    (out.istop = 2 → norm2 (Fᵀ *ᵥ (b - F *ᵥ out.x)) ≤
      T.atol * (out.anorm * norm2 (b - F *ᵥ out.x) + eps)) ∧
    (out.istop = 3 → 0 < T.conlim ∧ T.conlim ≤ out.acond + eps) ∧
    (out.istop = 4 → F *ᵥ out.x = b) ∧
    (out.istop = 5 → Fᵀ *ᵥ (b - F *ᵥ out.x) = 0) ∧
    (out.istop = 7 → (out.itn : ℤ) = lim.getD (2 * q)) := by
  have hf := lsqr_facts h
  have hr := (C31_lsqr_rnorm F b T lim x0 out h).2
  rcases lsqr_ok h with ⟨hg, rfl⟩ | ⟨hg, L, hL, K, hK, hK0, rfl, h4, h5, h6⟩
  · refine ⟨Or.inr rfl, Or.inl rfl, fun _ => ⟨rfl, rfl, Or.inl hg⟩, ?_, ?_, ?_, ?_, ?_, ?_⟩ <;>
      (intro h; cases h)
  · have hK' : ((lsqrOutP F b (x0.getD 0) 0 T L K).itn : ℤ) ≤ lim.getD (2 * q) := by
      rw [hL]; exact_mod_cast hK
    refine ⟨Or.inl hK', ?_⟩
    rcases Nat.eq_zero_or_pos K with rfl | hpos
    · refine ⟨Or.inl rfl, fun _ => ⟨rfl, rfl, Or.inr ?_⟩, ?_, ?_, ?_, ?_, ?_, ?_⟩
      · rw [hL]
        have : L = 0 := by
          by_contra h
          exact absurd (hK0 (Nat.pos_of_ne_zero h)) (lt_irrefl _)
        rw [this]; rfl
      all_goals (intro h; cases h)
    · have f := seqP_facts h6
      have har := f.arnorm
      have hS : (lsqrOutP F b (x0.getD 0) 0 T L K).istop =
          lsqrStop T (norm2 b) L (seqP F b (x0.getD 0) 0 K) := if_neg hpos.ne'
      have hne := h4 hpos
      have hac := seqP_acond h6
      set s := seqP F b (x0.getD 0) 0 K with hs
      have hx : (lsqrOutP F b (x0.getD 0) 0 T L K).x = s.x := rfl
      have han : (lsqrOutP F b (x0.getD 0) 0 T L K).anorm = s.anorm := rfl
      have hacd : (lsqrOutP F b (x0.getD 0) 0 T L K).acond = s.acond := rfl
      have hitn : (lsqrOutP F b (x0.getD 0) 0 T L K).itn = K := rfl
      have hr' : s.r2norm = norm2 (b - F *ᵥ s.x) := hr
      rw [zero_pow two_ne_zero, zero_smul, sub_zero] at har
      have hden : 0 < s.anorm * s.r2norm + eps := by
        have := mul_nonneg f.anorm0 (hr' ▸ norm2_nonneg _ : 0 ≤ s.r2norm)
        linarith [eps_pos']
      have h2iff : ∀ t, s.arnorm / (s.anorm * s.r2norm + eps) ≤ t ↔
          s.arnorm ≤ t * (s.anorm * s.r2norm + eps) := fun t => div_le_iff₀ hden
      have htest3 : 0 < 1 / (s.acond + eps) := by
        have := eps_pos'
        positivity
      rw [hS, hx, han, hacd, hitn, ← har, ← hr']
      rcases lsqrStop_cases T (norm2 b) L s with c | ⟨-, c | ⟨-, c | ⟨-, c | ⟨-, c | ⟨-, c | ⟨-, c | c⟩⟩⟩⟩⟩⟩
      · obtain ⟨c1, c2⟩ := c
        rw [c1]
        refine ⟨Or.inr (Or.inl rfl), by simp, ?_, by simp, by simp, by simp, by simp, by simp⟩
        intro _ hb
        have hbn : 0 < norm2 b := norm2_pos.2 hb
        rw [if_neg hbn.ne', div_le_iff₀ hbn, add_mul, div_mul_cancel₀ _ hbn.ne'] at c2
        rw [← f.xnorm]; exact c2
      · obtain ⟨c1, c2⟩ := c
        rw [c1]
        refine ⟨by simp, by simp, by simp, fun _ => (h2iff _).1 c2, by simp, by simp, by simp, by simp⟩
      · obtain ⟨c1, c2⟩ := c
        rw [c1]
        refine ⟨by simp, by simp, by simp, by simp, fun _ => ?_, by simp, by simp, by simp⟩
        by_cases hcl : T.conlim > 0
        · rw [if_pos hcl, one_div_le_one_div (by linarith [eps_pos']) hcl] at c2
          exact ⟨hcl, c2⟩
        · rw [if_neg hcl] at c2
          exact absurd c2 (not_le.2 htest3)
      · obtain ⟨c1, cb, c2⟩ := c
        rw [c1]
        refine ⟨by simp, by simp, by simp, by simp, by simp, fun _ => ?_, by simp, by simp⟩
        have hbn : 0 < norm2 b := lt_of_le_of_ne (norm2_nonneg _) (Ne.symm cb)
        have hd : 0 < 1 + s.anorm * s.xnorm / norm2 b := by
          have : 0 ≤ s.xnorm := by rw [f.xnorm]; exact norm2_nonneg _
          have := mul_nonneg f.anorm0 this
          positivity
        have h0 : s.r2norm ≤ 0 := by
          have := (div_le_iff₀ hd).1 c2
          rw [zero_mul] at this
          have := (div_le_iff₀ hbn).1 this
          rwa [zero_mul] at this
        rw [hr'] at h0
        have := norm2_eq_zero.1 (le_antisymm h0 (norm2_nonneg _))
        exact (sub_eq_zero.1 this).symm
      · obtain ⟨c1, c2⟩ := c
        rw [c1]
        refine ⟨by simp, by simp, by simp, by simp, by simp, by simp, fun _ => ?_, by simp⟩
        have := (h2iff 0).1 c2
        rw [zero_mul, har] at this
        exact norm2_eq_zero.1 (le_antisymm this (norm2_nonneg _))
      · exact absurd c.2 (not_le.2 htest3)
      · obtain ⟨c1, c2⟩ := c
        rw [c1]
        refine ⟨by simp, by simp, by simp, by simp, by simp, by simp, by simp, fun _ => ?_⟩
        rw [seqP_itn] at c2
        rw [hL]
        exact_mod_cast le_antisymm hK c2
      · exact absurd c.1 hne

/-- **C32** (first stop): all earlier iterates were rejected — under a limit `i` below the number of
iterations made, only the limit stops `lsqr`. -/
theorem C32_lsqr_first_stop (F : Matrix (Fin p) (Fin q) ℝ) (b : Fin p → ℝ) (damp : ℝ) (T : LsqrTol)
    (lim : Option ℤ) (x0 : Option (Fin q → ℝ)) (out : LsqrOut q)
    (h : lsqr (LinOp.ofMat F) b damp T lim x0 = .ok out) (i : ℕ) (h0 : 0 < i) (hi : i < out.itn) :
    ∃ oi, lsqr (LinOp.ofMat F) b damp T (some (i : ℤ)) x0 = .ok oi ∧ oi.istop = 7 ∧ oi.itn = i := by
  rcases lsqr_ok h with ⟨hg, rfl⟩ | ⟨hg, L, hL, K, hK, hK0, rfl, h4, h5, h6⟩
  · exact absurd hi (Nat.not_lt_zero _)
  · have hi : i < K := hi
    refine ⟨_, lsqr_prefix hg h5 hi.le, ?_, rfl⟩
    show (if i = 0 then 0 else lsqrStop T (norm2 b) i _) = 7
    rw [if_neg h0.ne']
    have hz := h5 i h0 hi
    have := lsqrStop_cases T (norm2 b) L (seqP F b (x0.getD 0) damp i)
    simp only [hz] at this
    simp only [OfNat.zero_ne_ofNat, false_and, false_or, zero_ne_one] at this
    obtain ⟨a1, a2, a3, a4, a5, a6, -, -⟩ := this
    rcases lsqrStop_cases T (norm2 b) i (seqP F b (x0.getD 0) damp i) with
      c | ⟨-, c | ⟨-, c | ⟨-, c | ⟨-, c | ⟨-, c | ⟨-, c | c⟩⟩⟩⟩⟩⟩
    · exact absurd c.2 a1
    · exact absurd c.2 a2
    · exact absurd c.2 a3
    · exact absurd c.2 a4
    · exact absurd c.2 a5
    · exact absurd c.2 a6
    · exact c.1
    · have := c.2
      rw [seqP_itn] at this
      exact absurd this (lt_irrefl _)

/-- **C32** (termination): with `iter_lim >= rank(F)` (in particular with the default
`2n`), the iteration limit is never what stops `lsqr`. -/
theorem C32_lsqr_rank (F : Matrix (Fin p) (Fin q) ℝ) (b : Fin p → ℝ) (damp : ℝ) (T : LsqrTol)
    (lim : Option ℤ) (x0 : Option (Fin q → ℝ)) (hlim : (F.rank : ℤ) ≤ lim.getD (2 * q)) :
    ∃ out, lsqr (LinOp.ofMat F) b damp T lim x0 = .ok out ∧ out.istop ≠ 7 ∧
      out.itn ≤ F.rank := by
  by_cases hg : Fᵀ *ᵥ (b - F *ᵥ x0.getD 0) = 0
  · exact ⟨_, lsqr_early F b x0 damp T _ hg, by simp [lsqrOut0], Nat.zero_le _⟩
  · obtain ⟨L, hL⟩ := Int.eq_ofNat_of_zero_le ((Int.natCast_nonneg _).trans hlim)
    obtain ⟨K, h1, h2, h3, h4, h5, h6⟩ := lsqr_run F b x0 damp T lim L hg hL
    refine ⟨_, h3, ?_, ?_⟩
    · show (if K = 0 then 0 else _) ≠ 7
      by_cases hK : K = 0
      · rw [if_pos hK]; simp
      · rw [if_neg hK]
        intro h7
        have := lsqrStop_cases T (norm2 b) L (seqP F b (x0.getD 0) damp K)
        simp only [h7] at this
        norm_num at this
        obtain ⟨-, -, -, -, a5, -, a7⟩ := this
        rw [seqP_itn] at a7
        have har : (seqP F b (x0.getD 0) damp K).arnorm ≠ 0 := by
          intro h0
          rw [h0, zero_div] at a5
          exact lt_irrefl _ a5
        have := seqP_rank (F := F) (b := b) (x0 := x0.getD 0) (damp := damp) (k := K) fun j hj => by
          rcases Nat.lt_or_eq_of_le hj with h | rfl
          · exact h6 j h
          · exact har
        rw [hL] at hlim
        have : F.rank ≤ L := by exact_mod_cast hlim
        omega
    · show K ≤ F.rank
      cases K with
      | zero => exact Nat.zero_le _
      | succ K => exact seqP_rank fun j hj => h6 j (by omega)

theorem rank_le_default (F : Matrix (Fin p) (Fin q) ℝ) :
    (F.rank : ℤ) ≤ (none : Option ℤ).getD (2 * q) := by
  have := F.rank_le_width
  rw [Option.getD_none]
  omega

/-- **C54** (condition estimate): the reported `acond` of a run with `damp = 0` never exceeds
`‖F‖_F √itn / σ`, for every lower bound `σ` of `‖F z‖ / ‖z‖` on the row space of `F`. -/
theorem C54_lsqr_acond (F : Matrix (Fin p) (Fin q) ℝ) (b : Fin p → ℝ) (T : LsqrTol)
    (lim : Option ℤ) (x0 : Option (Fin q → ℝ)) (out : LsqrOut q)
    (h : lsqr (LinOp.ofMat F) b 0 T lim x0 = .ok out) (σ : ℝ)
    (hσ : ∀ z ∈ colSpace Fᵀ, σ * norm2 z ≤ norm2 (F *ᵥ z)) (hσ0 : 0 < σ) :
    0 ≤ out.acond ∧ σ * out.acond ≤ Real.sqrt (froSq F) * Real.sqrt out.itn := by
  have hσ' : ∀ z ∈ colSpace Fᵀ, σ ^ 2 * sqNorm z ≤ sqNorm (F *ᵥ z) + 0 ^ 2 * sqNorm z := by
    intro z hz
    have h1 := hσ z hz
    have h2 : (σ * norm2 z) ^ 2 ≤ norm2 (F *ᵥ z) ^ 2 :=
      pow_le_pow_left₀ (mul_nonneg hσ0.le (norm2_nonneg _)) h1 2
    rw [mul_pow, norm2_sq, norm2_sq] at h2
    linarith
  rcases lsqr_ok h with ⟨hg, rfl⟩ | ⟨hg, L, hL, K, hK, hK0, rfl, h4, h5, h6⟩
  · refine ⟨le_rfl, ?_⟩
    show σ * (0 : ℝ) ≤ _
    rw [mul_zero]; positivity
  · refine ⟨seqP_acond h6, ?_⟩
    show σ * (seqP F b (x0.getD 0) 0 K).acond ≤ Real.sqrt (froSq F) * Real.sqrt (K : ℕ)
    cases K with
    | zero =>
      show σ * (0 : ℝ) ≤ _
      rw [mul_zero]; positivity
    | succ K =>
      have f := seqP_facts h6
      have e : (seqP F b (x0.getD 0) 0 (K + 1)).acond =
          (seqP F b (x0.getD 0) 0 (K + 1)).anorm *
            Real.sqrt (seqP F b (x0.getD 0) 0 (K + 1)).ddnorm := by
        rw [seqP_succ]; rfl
      have ha := f.anorm
      have hd := f.dd σ hσ'
      rw [zero_pow two_ne_zero, mul_zero, add_zero] at ha
      rw [seqP_itn] at hd
      have h1 : (seqP F b (x0.getD 0) 0 (K + 1)).anorm ≤ Real.sqrt (froSq F) :=
        Real.le_sqrt_of_sq_le ha
      have h2 : σ * Real.sqrt (seqP F b (x0.getD 0) 0 (K + 1)).ddnorm ≤ Real.sqrt ((K + 1 : ℕ) : ℝ) := by
        refine Real.le_sqrt_of_sq_le ?_
        rw [mul_pow, Real.sq_sqrt f.dd0]; exact hd
      rw [e, show ∀ a b c : ℝ, a * (b * c) = b * (a * c) from fun a b c => by ring]
      exact mul_le_mul h1 h2 (mul_nonneg hσ0.le (Real.sqrt_nonneg _)) (Real.sqrt_nonneg _)

/-- With zero tolerances, only the limits `conlim` and `iter_lim` stop `lsqr` short of a solution. -/
theorem lsqr_exact_of (F : Matrix (Fin p) (Fin q) ℝ) (b : Fin p → ℝ) (c : ℝ) (lim : Option ℤ)
    (x0 : Option (Fin q → ℝ)) (hlim : (F.rank : ℤ) ≤ lim.getD (2 * q))
    (h3 : ∀ out, lsqr (LinOp.ofMat F) b 0 ⟨0, 0, c⟩ lim x0 = .ok out → out.itn ≤ F.rank →
      out.istop ≠ 3) :
    ∃ out, lsqr (LinOp.ofMat F) b 0 ⟨0, 0, c⟩ lim x0 = .ok out ∧ Fᵀ *ᵥ (b - F *ᵥ out.x) = 0 ∧
      ∀ z, norm2 (b - F *ᵥ out.x) ≤ norm2 (b - F *ᵥ z) := by
  obtain ⟨out, h1, h2, h3'⟩ := C32_lsqr_rank F b 0 ⟨0, 0, c⟩ lim x0 hlim
  have hn : Fᵀ *ᵥ (b - F *ᵥ out.x) = 0 := by
    obtain ⟨c0, cc, e0, e1, e2, e3, e4, e5, -⟩ := C32_lsqr_codes F b ⟨0, 0, c⟩ lim x0 out h1
    simp only [zero_mul, add_zero] at e1 e2 e3
    rcases cc with cd | cd | cd | cd | cd | cd | cd
    · obtain ⟨g1, -, g2 | g2⟩ := e0 cd
      · rw [g1]; exact g2
      · have hr : F.rank = 0 := by omega
        have hF : Fᵀ = 0 := by
          rw [← rank_transpose, rank_eq_finrank_range_toLin Fᵀ (Pi.basisFun ℝ _) (Pi.basisFun ℝ _)] at hr
          have hr := Submodule.finrank_eq_zero.1 hr
          rw [LinearMap.range_eq_bot] at hr
          exact (LinearEquiv.map_eq_zero_iff _).1 hr
        rw [hF, zero_mulVec]
    · by_cases hb : b = 0
      · -- with `atol = 0` code 1 is not returned for `b = 0`
        exfalso
        rcases lsqr_ok h1 with ⟨hg, rfl⟩ | ⟨hg, L, hL, K, hK, hK0, rfl, h4, h5, h6⟩
        · cases cd
        · have cd : (if K = 0 then 0 else lsqrStop ⟨0, 0, c⟩ (norm2 b) L
            (seqP F b (x0.getD 0) 0 K)) = 1 := cd
          by_cases hK : K = 0
          · rw [if_pos hK] at cd; cases cd
          · rw [if_neg hK] at cd
            rcases lsqrStop_cases ⟨0, 0, c⟩ (norm2 b) L (seqP F b (x0.getD 0) 0 K) with g | ⟨-, g⟩
            · have := g.2
              rw [if_pos (norm2_eq_zero.2 hb)] at this
              simp at this
            · simp only [cd] at g
              norm_num at g
      · have := norm2_eq_zero.1 (le_antisymm (e1 cd hb) (norm2_nonneg _))
        rw [this, mulVec_zero]
    · exact norm2_eq_zero.1 (le_antisymm (e2 cd) (norm2_nonneg _))
    · exact absurd cd (h3 out h1 h3')
    · rw [e4 cd, sub_self, mulVec_zero]
    · exact e5 cd
    · exact absurd cd h2
  refine ⟨out, h1, hn, fun z => ?_⟩
  rw [norm2_le_norm2, lsq_of_normal hn z]
  linarith [sqNorm_nonneg (F *ᵥ (out.x - z))]

/-- **C32** (exactness): with zero tolerances, `conlim = 0` and `iter_lim >= rank(F)`, `lsqr`
returns an exact solution of the least squares problem. -/
theorem C32_lsqr_exact (F : Matrix (Fin p) (Fin q) ℝ) (b : Fin p → ℝ) (lim : Option ℤ)
    (x0 : Option (Fin q → ℝ)) (hlim : (F.rank : ℤ) ≤ lim.getD (2 * q)) :
    ∃ out, lsqr (LinOp.ofMat F) b 0 ⟨0, 0, 0⟩ lim x0 = .ok out ∧ Fᵀ *ᵥ (b - F *ᵥ out.x) = 0 ∧
      ∀ z, norm2 (b - F *ᵥ out.x) ≤ norm2 (b - F *ᵥ z) :=
  lsqr_exact_of F b 0 lim x0 hlim fun out h1 _ c =>
    absurd ((C32_lsqr_codes F b ⟨0, 0, 0⟩ lim x0 out h1).2.2.2.2.2.1 c).1 (lt_irrefl _)

/-- **C32** (exactness for well conditioned problems): with zero tolerances, `iter_lim >= rank(F)`
and a condition limit that the problem respects, `‖F‖_F √rank(F) / σ < conlim - eps`, the condition
test does not stop `lsqr` either, and it returns an exact solution. -/
theorem C32_lsqr_wellcond (F : Matrix (Fin p) (Fin q) ℝ) (b : Fin p → ℝ) (c : ℝ) (lim : Option ℤ)
    (x0 : Option (Fin q → ℝ)) (hlim : (F.rank : ℤ) ≤ lim.getD (2 * q)) (σ : ℝ) (hσ0 : 0 < σ)
    (hσ : ∀ z ∈ colSpace Fᵀ, σ * norm2 z ≤ norm2 (F *ᵥ z))
    (hc : Real.sqrt (froSq F) * Real.sqrt F.rank < σ * (c - eps)) :
    ∃ out, lsqr (LinOp.ofMat F) b 0 ⟨0, 0, c⟩ lim x0 = .ok out ∧ Fᵀ *ᵥ (b - F *ᵥ out.x) = 0 ∧
      ∀ z, norm2 (b - F *ᵥ out.x) ≤ norm2 (b - F *ᵥ z) := by
  refine lsqr_exact_of F b c lim x0 hlim fun out h1 h2 c3 => ?_
  have h3 := ((C32_lsqr_codes F b ⟨0, 0, c⟩ lim x0 out h1).2.2.2.2.2.1 c3).2
  have h4 := (C54_lsqr_acond F b ⟨0, 0, c⟩ lim x0 out h1 σ hσ hσ0).2
  have h5 : Real.sqrt out.itn ≤ Real.sqrt F.rank := Real.sqrt_le_sqrt (by exact_mod_cast h2)
  have h6 := mul_le_mul_of_nonneg_left h5 (Real.sqrt_nonneg (froSq F))
  have h7 : c - eps ≤ out.acond := by
    have : c ≤ out.acond + eps := h3
    linarith
  have h8 := mul_le_mul_of_nonneg_left h7 hσ0.le
  linarith

/-! ## C33 -/

/-- **C33**.  The update `x - x0` lies in the row space. -/
theorem C33_lsqr_row_space (F : Matrix (Fin p) (Fin q) ℝ) (b : Fin p → ℝ) (damp : ℝ) (T : LsqrTol)
    (lim : Option ℤ) (x0 : Option (Fin q → ℝ)) (out : LsqrOut q)
    (h : lsqr (LinOp.ofMat F) b damp T lim x0 = .ok out) : ∃ y, out.x = x0.getD 0 + Fᵀ *ᵥ y := by
  obtain ⟨y, hy⟩ := mem_colSpace.1 (lsqr_facts h).2.2.1
  exact ⟨y, by rw [hy]; abel⟩

theorem min_norm_of_range {F : Matrix (Fin p) (Fin q) ℝ} {b : Fin p → ℝ} {y : Fin p → ℝ} {z : Fin q → ℝ}
    (h1 : Fᵀ *ᵥ (b - F *ᵥ (Fᵀ *ᵥ y)) = 0) (h2 : Fᵀ *ᵥ (b - F *ᵥ z) = 0) :
    norm2 (Fᵀ *ᵥ y) ≤ norm2 z := by
  have h3 : Fᵀ *ᵥ (F *ᵥ (z - Fᵀ *ᵥ y)) = 0 := by
    have : Fᵀ *ᵥ (F *ᵥ (z - Fᵀ *ᵥ y)) =
        Fᵀ *ᵥ (b - F *ᵥ (Fᵀ *ᵥ y)) - Fᵀ *ᵥ (b - F *ᵥ z) := by
      rw [← mulVec_sub]; congr 1; rw [mulVec_sub]; abel
    rw [this, h1, h2, sub_zero]
  have h4 : F *ᵥ (z - Fᵀ *ᵥ y) = 0 := by
    rw [← sqNorm_eq_zero, sqNorm_eq_dot, dot_mulVec, h3, zero_dotProduct]
  have h5 : z = Fᵀ *ᵥ y + (z - Fᵀ *ᵥ y) := by abel
  rw [norm2_le_norm2]
  have h6 : (Fᵀ *ᵥ y) ⬝ᵥ (z - Fᵀ *ᵥ y) = 0 := by
    rw [dotProduct_comm, dot_mulVec, transpose_transpose, h4, zero_dotProduct]
  rw [h5, sqNorm_add, h6]
  linarith [sqNorm_nonneg (z - Fᵀ *ᵥ y)]

/-- **C33** (minimum norm): without a starting point, a returned point with zero normal-equation
residual has minimum norm among all least squares solutions. -/
theorem C33_lsqr_min_norm (F : Matrix (Fin p) (Fin q) ℝ) (b : Fin p → ℝ) (T : LsqrTol)
    (lim : Option ℤ) (out : LsqrOut q) (h : lsqr (LinOp.ofMat F) b 0 T lim none = .ok out)
    (h0 : Fᵀ *ᵥ (b - F *ᵥ out.x) = 0) (z : Fin q → ℝ)
    (hz : ∀ z', norm2 (b - F *ᵥ z) ≤ norm2 (b - F *ᵥ z')) : norm2 out.x ≤ norm2 z := by
  obtain ⟨y, hy⟩ := C33_lsqr_row_space F b 0 T lim none out h
  rw [Option.getD_none, zero_add] at hy
  rw [hy] at h0 ⊢
  refine min_norm_of_range h0 ?_
  -- a minimiser satisfies the normal equations
  have e := lsq_of_normal h0 z
  have hle := norm2_le_norm2.1 (hz (Fᵀ *ᵥ y))
  have hz0 : F *ᵥ (Fᵀ *ᵥ y - z) = 0 := sqNorm_eq_zero.1
    (le_antisymm (by linarith) (sqNorm_nonneg _))
  have : b - F *ᵥ z = b - F *ᵥ (Fᵀ *ᵥ y) := by
    rw [mulVec_sub, sub_eq_zero] at hz0
    rw [hz0]
  rw [this, h0]

/-! ## C54 -/

/-- **C54** (norm estimates).  The returned `xnorm` is `||x - x0||` (not `||x||`, as the documentation
says, when a starting point is given), and the returned `anorm` never exceeds the Frobenius norm of
the (lifted) operator. -/
theorem C54_lsqr_estimates (F : Matrix (Fin p) (Fin q) ℝ) (b : Fin p → ℝ) (damp : ℝ) (T : LsqrTol)
    (lim : Option ℤ) (x0 : Option (Fin q → ℝ)) (out : LsqrOut q)
    (h : lsqr (LinOp.ofMat F) b damp T lim x0 = .ok out) :
    out.xnorm = norm2 (out.x - x0.getD 0) ∧ 0 ≤ out.anorm ∧
    out.anorm ^ 2 ≤ fro F ^ 2 + out.itn * damp ^ 2 ∧ 0 ≤ out.acond := by
  obtain ⟨-, h2, -, h4, h5, h6⟩ := lsqr_facts h
  exact ⟨h2, h4, by rw [fro_sq]; exact h5, h6⟩

/-- **C54** (user-level meaning of codes 1 and 2 for non-negative tolerances). -/
theorem C54_lsqr_tolerances (F : Matrix (Fin p) (Fin q) ℝ) (b : Fin p → ℝ) (T : LsqrTol)
    (lim : Option ℤ) (x0 : Option (Fin q → ℝ)) (out : LsqrOut q) (hT : 0 ≤ T.atol)
    (h : lsqr (LinOp.ofMat F) b 0 T lim x0 = .ok out) :
    (out.istop = 1 → b ≠ 0 → norm2 (b - F *ᵥ out.x) ≤
      T.btol * norm2 b + T.atol * fro F * norm2 (out.x - x0.getD 0)) ∧
    (out.istop = 2 → norm2 (Fᵀ *ᵥ (b - F *ᵥ out.x)) ≤
      T.atol * (fro F * norm2 (b - F *ᵥ out.x) + eps)) := by
  obtain ⟨-, -, -, e1, e2, -⟩ := C32_lsqr_codes F b T lim x0 out h
  obtain ⟨-, h4, h5, -⟩ := C54_lsqr_estimates F b 0 T lim x0 out h
  have han : out.anorm ≤ fro F := by
    rw [zero_pow two_ne_zero, mul_zero, add_zero] at h5
    exact (pow_le_pow_iff_left₀ h4 (fro_nonneg F) two_ne_zero).1 h5
  refine ⟨fun h hb => (e1 h hb).trans ?_, fun h => (e2 h).trans ?_⟩
  · have := mul_le_mul_of_nonneg_right (mul_le_mul_of_nonneg_left han hT)
      (norm2_nonneg (out.x - x0.getD 0))
    linarith
  · have := mul_le_mul_of_nonneg_right han (norm2_nonneg (b - F *ᵥ out.x))
    exact mul_le_mul_of_nonneg_left (by linarith) hT

/-! ## Divisors, and the case `b = 0` -/

/-- No divisor in the loop vanishes in an iteration `lsqr` performs. -/
theorem lsqr_divisors {F : Matrix (Fin p) (Fin q) ℝ} {b : Fin p → ℝ} {x0 : Fin q → ℝ} {damp : ℝ}
    {K : ℕ} (h : ∀ j < K, (seqP F b x0 damp j).arnorm ≠ 0) (j : ℕ) (hj : j < K) :
    let s := seqP F b x0 damp j
    let β := norm2 (F *ᵥ s.v - s.alfa • s.u)
    let rhobar1 := Real.sqrt (s.rhobar ^ 2 + damp ^ 2)
    let rho := (symOrtho rhobar1 β).2.2
    rhobar1 ≠ 0 ∧ rho ≠ 0 ∧ -s.cs2 * rho ≠ 0 ∧ Real.sqrt ((-s.cs2 * rho) ^ 2 +
      ((symOrtho rhobar1 β).2.1 * (bidP F damp s).alfa) ^ 2) ≠ 0 := by
  obtain ⟨t1, g1, t2, g2, y, SU, SV, I⟩ := seqP_inv (k := j) fun i hi => h i (by omega)
  intro s β rhobar1 rho
  have h1 : 0 < rhobar1 := Real.sqrt_pos.2 (by
    have := I.rhobar
    positivity)
  have h2 : 0 < rho := by
    show 0 < (symOrtho rhobar1 β).2.2
    rw [symOrtho_eq]
    exact Real.sqrt_pos.2 (by positivity)
  have h3 : -s.cs2 * rho ≠ 0 := mul_ne_zero (neg_ne_zero.2 I.cs2) h2.ne'
  exact ⟨h1.ne', h2.ne', h3, (Real.sqrt_pos.2 (by positivity)).ne'⟩

theorem first_step {F : Matrix (Fin p) (Fin q) ℝ} {b : Fin p → ℝ} {x0 : Fin q → ℝ}
    (h0 : (seqP F b x0 0 0).arnorm ≠ 0) (h1 : F *ᵥ (seqP F b x0 0 1).x ≠ b) :
    0 < (seqP F b x0 0 1).r2norm ∧ 0 < (seqP F b x0 0 1).anorm * (seqP F b x0 0 1).xnorm := by
  have h0' : ∀ j < 1, (seqP F b x0 0 j).arnorm ≠ 0 := fun j hj => by
    rw [show j = 0 by omega]; exact h0
  have f := seqP_facts h0'
  have f0 := seqP_facts (F := F) (b := b) (x0 := x0) (damp := 0) (k := 0) fun j hj => by omega
  have hd := seqP_dec (F := F) (b := b) (x0 := x0) (damp := 0) (k := 0)
    fun j hj => by rw [show j = 0 by omega]; exact h0
  have e1 : (seqP F b x0 0 1).r2norm = norm2 (b - F *ᵥ (seqP F b x0 0 1).x) := by
    rw [f.r2norm]; simp [norm2]
  have e0 : (seqP F b x0 0 0).r2norm = norm2 (b - F *ᵥ (seqP F b x0 0 0).x) := by
    rw [f0.r2norm]; simp [norm2]
  refine ⟨?_, mul_pos ?_ ?_⟩
  · rw [e1, norm2_pos, sub_ne_zero]; exact h1.symm
  · obtain ⟨t1, g1, t2, g2, y, SU, SV, I⟩ := seqP_inv (k := 0) fun j hj => by
      rw [show j = 0 by omega]; exact h0
    have hS : seqP F b x0 0 1 = stepP F 0 (seqP F b x0 0 0) := seqP_succ F b x0 0 0
    have ha : (stepP F 0 (seqP F b x0 0 0)).anorm = (bidP F 0 (seqP F b x0 0 0)).anorm := rfl
    obtain ⟨-, -, -, -, -, -, -, -, -, -, -, -, bpos, bzero⟩ := bidP_spec F 0 (seqP F b x0 0 0)
    by_cases hβ : norm2 (F *ᵥ (seqP F b x0 0 0).v - (seqP F b x0 0 0).alfa • (seqP F b x0 0 0).u) = 0
    · -- then one step solves the system
      exfalso
      have hp : (seqP F b x0 0 1).r2norm = 0 := by
        have f1 := (stepP_inv I).1
        obtain ⟨ρ1, c1, s1, ρ, c, sn, gb, γ, zb, hρ1, hρ, hγ, hgb, e1, e2, e3, e4, e5, e6, e7, e8, e9,
          fx, fw, fu, fv, falfa, fitn, fanorm, frho, fphi, fres, fr2, -⟩ :=
          rotate_spec 0 (bidP F 0 (seqP F b x0 0 0)) (norm2 (F *ᵥ (seqP F b x0 0 0).v -
            (seqP F b x0 0 0).alfa • (seqP F b x0 0 0).u)) I.rhobar' I.cs2'
        have hs1 : s1 = 0 := (mul_eq_zero.1 e2).resolve_right hρ1.ne'
        have hsn : sn = 0 := (mul_eq_zero.1 (e5.trans hβ)).resolve_right hρ.ne'
        rw [hS]
        have hr0 : (bidP F 0 (seqP F b x0 0 0)).res2 = 0 := by
          rw [(bidP_spec F 0 (seqP F b x0 0 0)).2.2.2.2.1]; rfl
        refine Eq.trans fr2 ?_
        rw [hs1, hsn, hr0]
        simp
      rw [e1] at hp
      exact h1 (sub_eq_zero.1 (norm2_eq_zero.1 hp)).symm
    · rw [hS, ha, (bpos hβ).2.2.2.2]
      have := I.alfa
      exact Real.sqrt_pos.2 (by positivity)
  · rw [f.xnorm, norm2_pos]
    intro h
    have hx : (seqP F b x0 0 1).x = x0 := sub_eq_zero.1 h
    rw [zero_add, e1, e0, hx] at hd
    exact lt_irrefl _ hd

/-- **C32** (the case `b = 0`).  With a zero right-hand side and `atol > 0`, `lsqr` started from any
`x0` makes at most one iteration: the test for code 1 then compares two infinities. -/
theorem C32_lsqr_zero_rhs (F : Matrix (Fin p) (Fin q) ℝ) (T : LsqrTol) (hT : 0 < T.atol)
    (lim : Option ℤ) (x0 : Option (Fin q → ℝ)) (out : LsqrOut q)
    (h : lsqr (LinOp.ofMat F) 0 0 T lim x0 = .ok out) : out.itn ≤ 1 := by
  rcases lsqr_ok h with ⟨hg, rfl⟩ | ⟨hg, L, hL, K, hK, hK0, rfl, h4, h5, h6⟩
  · exact Nat.zero_le _
  · show K ≤ 1
    by_contra hne
    have hz := h5 1 one_pos (by omega)
    have := lsqrStop_cases T (norm2 (0 : Fin p → ℝ)) L (seqP F 0 (x0.getD 0) 0 1)
    simp only [hz] at this
    simp only [OfNat.zero_ne_ofNat, false_and, false_or, zero_ne_one] at this
    obtain ⟨a1, -⟩ := this
    rw [if_pos norm2_zero] at a1
    have h1 : F *ᵥ (seqP F 0 (x0.getD 0) 0 1).x ≠ 0 := by
      intro h1
      have f := seqP_facts (F := F) (b := 0) (x0 := x0.getD 0) (damp := 0) (k := 1)
        fun j hj => h6 j (by omega)
      refine h6 1 (by omega) ?_
      rw [f.arnorm, h1]
      simp
    obtain ⟨g1, g2⟩ := first_step (h6 0 (by omega)) h1
    exact a1 ⟨g1, by rw [mul_assoc]; exact mul_pos hT g2⟩

/-- **C32** (refutation of code 1 for `b = 0`): with `b = 0`, code 1 can be returned although
`||b - F x|| > btol ||b|| + atol anorm ||x - x0||`. -/
theorem C32_lsqr_zero_rhs_false : ∃ (F : Matrix (Fin 2) (Fin 2) ℝ) (x0 : Fin 2 → ℝ) (T : LsqrTol)
    (out : LsqrOut 2), 0 < T.atol ∧ lsqr (LinOp.ofMat F) 0 0 T none (some x0) = .ok out ∧
      out.istop = 1 ∧ T.btol * norm2 (0 : Fin 2 → ℝ) + T.atol * out.anorm * norm2 (out.x - x0) <
        norm2 (0 - F *ᵥ out.x) := by
  let F : Matrix (Fin 2) (Fin 2) ℝ := !![1, 0; 0, 2]
  let x0 : Fin 2 → ℝ := ![1, 1]
  have hg : Fᵀ *ᵥ (0 - F *ᵥ x0) ≠ 0 := by
    intro h
    have := congrFun h 0
    simp [F, x0, mulVec, dotProduct, Fin.sum_univ_two] at this
  have h0 : (seqP F 0 x0 0 0).arnorm ≠ 0 := fun h => hg ((arnorm0_iff F 0 x0 0).1 h)
  have h1 : F *ᵥ (seqP F 0 x0 0 1).x ≠ 0 := by
    -- `x1 = x0 + t F'F x0`
    have hrange : ∃ t : ℝ, (seqP F 0 x0 0 1).x = x0 + t • (Fᵀ *ᵥ (0 - F *ᵥ x0)) := by
      obtain ⟨t1, g1, t2, g2, y, SU, SV, I⟩ := seqP_inv (k := 0) fun j hj => by
        rw [show j = 0 by omega]; exact h0
      obtain ⟨ρ1, c1, s1, ρ, c, sn, gb, γ, zb, -, -, -, -, -, -, -, -, -, -, -, -, -, fx, -⟩ :=
        rotate_spec 0 (bidP F 0 (seqP F 0 x0 0 0)) (norm2 (F *ᵥ (seqP F 0 x0 0 0).v -
            (seqP F 0 x0 0 0).alfa • (seqP F 0 x0 0 0).u)) I.rhobar' I.cs2'
      have hS : seqP F 0 x0 0 1 = stepP F 0 (seqP F 0 x0 0 0) := seqP_succ F 0 x0 0 0
      obtain ⟨bx, bw, -⟩ := bidP_spec F 0 (seqP F 0 x0 0 0)
      have hw : (seqP F 0 x0 0 0).w = (seqP F 0 x0 0 0).v := rfl
      have hx : (seqP F 0 x0 0 0).x = x0 := rfl
      have hv : ∃ t : ℝ, (seqP F 0 x0 0 0).v = t • (Fᵀ *ᵥ (0 - F *ᵥ x0)) := by
        have hβ : 0 < norm2 (0 - F *ᵥ x0) := by
          rw [norm2_pos]; intro h; rw [h, mulVec_zero] at hg; exact hg rfl
        have hv : (seqP F 0 x0 0 0).v = if 0 < (seqP F 0 x0 0 0).alfa then
            (1 / (seqP F 0 x0 0 0).alfa) • (if 0 < norm2 (0 - F *ᵥ x0) then
              Fᵀ *ᵥ ((1 / norm2 (0 - F *ᵥ x0)) • (0 - F *ᵥ x0)) else x0)
            else (if 0 < norm2 (0 - F *ᵥ x0) then
              Fᵀ *ᵥ ((1 / norm2 (0 - F *ᵥ x0)) • (0 - F *ᵥ x0)) else x0) := rfl
        rw [hv, if_pos I.alfa, if_pos hβ, mulVec_smul, smul_smul]
        exact ⟨_, rfl⟩
      obtain ⟨t, ht⟩ := hv
      have hfx := (congrArg LsqrState.x hS).trans fx
      rw [bx, bw, hw, hx, ht, smul_smul] at hfx
      exact ⟨_, hfx⟩
    obtain ⟨t, ht⟩ := hrange
    rw [ht]
    intro h
    have e0 := congrFun h 0
    have e1 := congrFun h 1
    simp [F, x0, mulVec, dotProduct, Fin.sum_univ_two] at e0 e1
    linarith
  obtain ⟨g1, g2⟩ := first_step h0 h1
  set s := seqP F 0 x0 0 1 with hs
  let T : LsqrTol := ⟨s.r2norm / (2 * (s.anorm * s.xnorm)), 0, 0⟩
  have hT : 0 < T.atol := div_pos g1 (by positivity)
  have hTv : T.atol * s.anorm * s.xnorm = s.r2norm / 2 := by
    show s.r2norm / (2 * (s.anorm * s.xnorm)) * s.anorm * s.xnorm = _
    rw [mul_assoc, div_mul_eq_mul_div, mul_comm (2 : ℝ), ← div_div, mul_div_assoc, div_self g2.ne',
      mul_one]
  obtain ⟨K, k1, k2, k3, k4, k5, k6⟩ := lsqr_run F 0 (some x0) 0 T none 4 hg rfl
  have hK : K ≤ 1 := C32_lsqr_zero_rhs F T hT none (some x0) _ k3
  have hK1 : K = 1 := by
    have := k2 (by norm_num)
    omega
  subst hK1
  have f := seqP_facts (F := F) (b := 0) (x0 := x0) (damp := 0) (k := 1) k6
  have hstop : lsqrStop T (norm2 (0 : Fin 2 → ℝ)) 4 s = 1 := by
    rcases lsqrStop_cases T (norm2 (0 : Fin 2 → ℝ)) 4 s with g | ⟨g, -⟩
    · exact g.1
    · rw [if_pos norm2_zero] at g
      exact absurd ⟨g1, by rw [hTv]; linarith⟩ g
  refine ⟨F, x0, T, _, hT, k3, ?_, ?_⟩
  · show (if 1 = 0 then 0 else lsqrStop T (norm2 (0 : Fin 2 → ℝ)) 4 s) = 1
    rw [if_neg one_ne_zero, hstop]
  · show T.btol * norm2 (0 : Fin 2 → ℝ) + T.atol * s.anorm * norm2 (s.x - x0) < norm2 (0 - F *ᵥ s.x)
    have e1 : s.r2norm = norm2 (0 - F *ᵥ s.x) := by
      rw [hs, f.r2norm]; simp [norm2]
    rw [← f.xnorm, hTv, ← e1, norm2_zero, mul_zero, zero_add]
    linarith

/-- non-vacuity: a 2 x 2 system that needs iterations -/
example : ∃ out, lsqr (LinOp.ofMat !![1, 0; 0, 2]) ![1, 1] 0 ⟨0, 0, 0⟩ none none = .ok out ∧
    0 < out.itn ∧ out.x = ![1, 1 / 2] := by
  obtain ⟨out, h1, h2, -⟩ := C32_lsqr_exact !![1, 0; 0, 2] ![1, 1] none none (rank_le_default _)
  have hx : out.x = ![1, 1 / 2] := by
    have e0 := congrFun h2 0
    have e1 := congrFun h2 1
    simp [mulVec, dotProduct, Fin.sum_univ_two] at e0 e1
    funext i
    fin_cases i
    · show out.x 0 = 1
      linarith
    · show out.x 1 = 1 / 2
      linarith
  refine ⟨out, h1, Nat.pos_of_ne_zero fun h => ?_, hx⟩
  rcases C30_lsqr_arnorms _ _ _ _ _ _ h1 with ⟨-, h3, -, -⟩ | ⟨-, l, -, -, ⟨o, ho, hox⟩, -⟩
  · have := congrFun (h3.symm.trans hx) 0
    simp at this
  · obtain ⟨o0, ho0, hx0, -, -⟩ := C30_lsqr_start !![1, 0; 0, 2] ![1, 1] 0 ⟨0, 0, 0⟩ none
    rw [h] at ho
    have e : o = o0 := Except.ok.inj (ho.symm.trans ho0)
    have := congrFun ((hx0.symm.trans (e ▸ hox)).trans hx) 0
    simp at this

end Parla.Props
