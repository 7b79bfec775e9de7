import Verif.SpecExtend
import Verif.Props.PcSS2
import Verif.Props.PcSS1
import Verif.Props.SPO
import Verif.Props.SPU1
import Verif.Props.SPS1
import Verif.Props.SPS2

/-! # C90: asking for more extends the answer - the iterative solvers

Raising the iteration limit or lowering the tolerance does not change what happened so far: the log of the shorter run
is an initial part of the log of the longer one, and the longer run ends at a point at least as good. -/

namespace Parla.Props

open Matrix Parla Spec

variable {G : Type} {m n p q r d : ℕ}

/-! ## LSQR -/

theorem lsqrStop_tighter {T T' : LsqrTol} (hT : Tighter T' T) {bn : ℝ} (hbn : 0 ≤ bn) {L L' : ℕ} {s : LsqrState p q}
    (ha : 0 ≤ s.anorm) (hx : 0 ≤ s.xnorm) (h : lsqrStop T bn L s = 0) (h' : s.itn < L') : lsqrStop T' bn L' s = 0 := by
  have := lsqrStop_cases T bn L s
  simp only [h] at this
  simp only [OfNat.zero_ne_ofNat, false_and, false_or, zero_ne_one] at this
  obtain ⟨a1, a2, a3, a4, a5, a6, -, -⟩ := this
  have hax := mul_nonneg ha hx
  have hct : (if T'.conlim > 0 then 1 / T'.conlim else 0) ≤ if T.conlim > 0 then 1 / T.conlim else 0 := by
    by_cases h1 : 0 < T.conlim
    · rw [if_pos h1]
      rcases hT.conlim with h2 | h2
      · rw [if_neg (not_lt.2 h2)]; positivity
      · rw [if_pos (h1.trans_le h2.2)]; exact one_div_le_one_div_of_le h1 h2.2
    · rw [if_neg h1]
      rcases hT.conlim with h2 | h2
      · rw [if_neg (not_lt.2 h2)]
      · exact absurd h2.1 h1
  rcases lsqrStop_cases T' bn L' s with b | ⟨-, b | ⟨-, b | ⟨-, b | ⟨-, b | ⟨-, b | ⟨-, b | b⟩⟩⟩⟩⟩⟩
  · refine absurd b.2 fun h => a1 ?_
    by_cases h0 : bn = 0
    · simp only [if_pos h0] at h ⊢
      refine ⟨h.1, h.2.trans_le ?_⟩
      rw [mul_assoc, mul_assoc]
      exact mul_le_mul_of_nonneg_right hT.atol hax
    · simp only [if_neg h0] at h ⊢
      refine h.trans (add_le_add hT.btol ?_)
      rw [mul_assoc, mul_assoc]
      exact div_le_div_of_nonneg_right (mul_le_mul_of_nonneg_right hT.atol hax) hbn
  · exact absurd (b.2.trans hT.atol) a2
  · exact absurd (b.2.trans hct) a3
  · exact absurd b.2 a4
  · exact absurd b.2 a5
  · exact absurd b.2 a6
  · exact absurd b.2 (not_le.2 h')
  · exact b.1

theorem range_map_prefix (f : ℕ → ℝ) {K K' : ℕ} (h : K ≤ K') : (List.range K).map f <+: (List.range K').map f := by
  obtain ⟨e, rfl⟩ := Nat.exists_eq_add_of_le h
  rw [List.range_add, List.map_append]
  exact List.prefix_append _ _

/-- **C90** (`lsqr`).  Two runs on the same system from the same starting point, the second with tolerances at least as
tight and a limit at least as high: the second makes at least as many iterations, its log starts with the whole log of
the first, its residual is at most the first one's (and strictly smaller if it made more iterations). -/
theorem C90_lsqr (F : Matrix (Fin p) (Fin q) ℝ) (b : Fin p → ℝ) (damp : ℝ) (T T' : LsqrTol) (hT : Tighter T' T)
    (lim lim' : Option ℤ) (hlim : lim.getD (2 * q) ≤ lim'.getD (2 * q)) (x0 : Option (Fin q → ℝ)) (out out' : LsqrOut q)
    (h : lsqr (LinOp.ofMat F) b damp T lim x0 = .ok out) (h' : lsqr (LinOp.ofMat F) b damp T' lim' x0 = .ok out') :
    out.itn ≤ out'.itn ∧ LogPrefix out.arnorms out'.arnorms ∧ out'.r2norm ≤ out.r2norm ∧
    (out.itn < out'.itn → out'.r2norm < out.r2norm) ∧ (out.itn = out'.itn → out'.x = out.x) ∧
    (T' = T → (out.itn : ℤ) < lim.getD (2 * q) → out' = out) := by
  rcases lsqr_ok h with ⟨hg, rfl⟩ | ⟨hg, L, hL, K, hK, hK0, rfl, h4, h5, h6⟩
  · rcases lsqr_ok h' with ⟨hg', rfl⟩ | ⟨hg', -⟩
    · exact ⟨le_rfl, rfl, le_rfl, fun h => absurd h (lt_irrefl _), fun _ => rfl, fun _ _ => rfl⟩
    · exact absurd hg hg'
  · rcases lsqr_ok h' with ⟨hg', -⟩ | ⟨hg', L', hL', K', hK', hK0', rfl, h4', h5', h6'⟩
    · exact absurd hg' hg
    have hLL : L ≤ L' := by omega
    have hKK : K ≤ K' := by
      by_contra hne
      have hlt : K' < K := not_le.1 hne
      rcases Nat.eq_zero_or_pos K' with h0 | h0
      · have := hK0'; omega
      · have hf := seqP_facts (F := F) (b := b) (x0 := x0.getD 0) (damp := damp) (k := K') fun j hj => h6 j (by omega)
        exact h4' h0 (lsqrStop_tighter hT (norm2_nonneg _) hf.anorm0 (by rw [hf.xnorm]; exact norm2_nonneg _)
          (h5 K' h0 hlt) (by rw [seqP_itn]; omega))
    have hdec : ∀ j, K ≤ j → j ≤ K' → (seqP F b (x0.getD 0) damp j).r2norm ≤ (seqP F b (x0.getD 0) damp K).r2norm ∧
        (K < j → (seqP F b (x0.getD 0) damp j).r2norm < (seqP F b (x0.getD 0) damp K).r2norm) := by
      intro j hj
      induction j, hj using Nat.le_induction with
      | base => exact fun _ => ⟨le_rfl, fun h => absurd h (lt_irrefl _)⟩
      | succ j hj ih =>
        intro hj'
        have d := seqP_dec (F := F) (b := b) (x0 := x0.getD 0) (damp := damp) (k := j) fun l hl => h6' l (by omega)
        have := d.trans_le (ih (by omega)).1
        exact ⟨this.le, fun _ => this⟩
    refine ⟨hKK, range_map_prefix _ hKK, (hdec K' hKK le_rfl).1, (hdec K' hKK le_rfl).2, fun e => ?_, fun hTT hlt => ?_⟩
    · have e : K = K' := e
      subst e; rfl
    · subst hTT
      have hlt : K < L := by
        have : ((lsqrOutP F b (x0.getD 0) damp T' L K).itn : ℤ) = K := rfl
        omega
      have hpos : 0 < K := hK0 (by omega)
      have hKe : K = K' := by
        by_contra hne
        exact h4 hpos (lsqrStop_limit (h5' K hpos (by omega)) (by rw [seqP_itn]; exact hlt))
      subst hKe
      have hs : lsqrStop T' (norm2 b) L (seqP F b (x0.getD 0) damp K) = lsqrStop T' (norm2 b) L' (seqP F b (x0.getD 0) damp K) := by
        have i1 : (seqP F b (x0.getD 0) damp K).itn < L := by rw [seqP_itn]; exact hlt
        have i2 : (seqP F b (x0.getD 0) damp K).itn < L' := by rw [seqP_itn]; omega
        unfold lsqrStop
        simp only [if_neg (not_le.2 i1), if_neg (not_le.2 i2), ge_iff_le]
      unfold lsqrOutP
      simp only [hs]

/-! ## PCG -/

theorem pcgLoop_extend {mvMat mvPre : (Fin n → ℝ) → Fin n → ℝ} {rhs : Fin n → ℝ} {t t' : ℝ} (ht : t' ≤ t) (k : ℕ) :
    ∀ (k' : ℕ) (s s1' : PCGState n), k ≤ k' → pcgLoop mvMat mvPre rhs t' k' s = .ok s1' →
    ∃ s1, pcgLoop mvMat mvPre rhs t k s = .ok s1 ∧ s1.log <+: s1'.log ∧
      (t' = t → s1.log.length < s.log.length + k → s1' = s1) := by
  have pre : ∀ (k : ℕ) (s s1 : PCGState n), pcgLoop mvMat mvPre rhs t' k s = .ok s1 → s.log <+: s1.log := by
    intro k s s1 h
    obtain ⟨new, e, -⟩ := pcgLoop_spec k s s1 h
    rw [e]; exact List.prefix_append _ _
  induction k with
  | zero => intro k' s s1' _ h; exact ⟨s, rfl, pre _ _ _ h, fun _ h => by omega⟩
  | succ k ih =>
    intro k' s s1' hk h
    obtain ⟨k', rfl⟩ : ∃ j, k' = j + 1 := ⟨k' - 1, by omega⟩
    by_cases hc : s.curErr > t
    · have hc' : s.curErr > t' := lt_of_le_of_lt ht hc
      cases hs : pcgStep mvMat mvPre rhs s with
      | error e =>
        unfold pcgLoop at h
        rw [if_pos hc', hs] at h
        cases h
      | ok s2 =>
        rw [pcgLoop_step hc' hs] at h
        obtain ⟨s1, g1, g2, g3⟩ := ih k' s2 s1' (by omega) h
        refine ⟨s1, by rw [pcgLoop_step hc hs]; exact g1, g2, fun e hl => g3 e ?_⟩
        rw [(pcgStep_log hs).1, List.length_append, List.length_singleton]
        omega
    · refine ⟨s, pcgLoop_stop hc _, pre _ _ _ h, fun e _ => ?_⟩
      subst e
      rw [pcgLoop_stop hc] at h
      cases h; rfl

/-- **C90** (`pcg`).  If the run with the higher limit and the smaller tolerance returns then so does the other, its log
is an initial part, and the two return the same if the tolerances agree and the shorter run stopped before its limit. -/
theorem C90_pcg (mvMat mvPre : (Fin n → ℝ) → Fin n → ℝ) (rhs x0 x' : Fin n → ℝ) (L L' : ℤ) (hL : 0 ≤ L) (hLL : L ≤ L')
    (tol tol' : ℝ) (ht : tol' ≤ tol) (log' : List ℝ) (h' : pcg mvMat rhs mvPre L' tol' x0 = .ok (x', log')) :
    ∃ x log, pcg mvMat rhs mvPre L tol x0 = .ok (x, log) ∧ log <+: log' ∧
      (tol' = tol → (log.length : ℤ) < L → x' = x ∧ log' = log) := by
  obtain ⟨-, t', h1, rfl, rfl⟩ := pcg_ok_iff.1 h'
  obtain ⟨t, g1, g2, g3⟩ := pcgLoop_extend (mul_le_mul_of_nonneg_right ht (norm2_nonneg (rhs - mvMat x0))) L.toNat L'.toNat _ _
    (by omega) h1
  refine ⟨t.x, t.log, pcg_ok_iff.2 ⟨hL, t, g1, rfl, rfl⟩, g2, fun e hl => ?_⟩
  have := g3 (by rw [e]) (by
    have : (pcgInit mvMat mvPre rhs x0).log.length = 0 := rfl
    omega)
  subst this
  exact ⟨rfl, rfl⟩

/-- **C90** (`pcg`, definite case).  And then the longer run's energy error is at most the shorter one's. -/
theorem C90_pcg_energy (K N : Matrix (Fin n) (Fin n) ℝ) (hK : IsPSD K) (hN : IsPD N)
    (rhs x0 xs x x' : Fin n → ℝ) (hx : K *ᵥ xs = rhs) (L L' : ℤ) (hLL : L ≤ L') (tol tol' : ℝ) (ht0 : 0 ≤ tol') (ht : tol' ≤ tol)
    (log log' : List ℝ) (h : pcg (K *ᵥ ·) rhs (N *ᵥ ·) L tol x0 = .ok (x, log))
    (h' : pcg (K *ᵥ ·) rhs (N *ᵥ ·) L' tol' x0 = .ok (x', log')) :
    (x' - xs) ⬝ᵥ (K *ᵥ (x' - xs)) ≤ (x - xs) ⬝ᵥ (K *ᵥ (x - xs)) ∧
    (log.length < log'.length → (x' - xs) ⬝ᵥ (K *ᵥ (x' - xs)) < (x - xs) ⬝ᵥ (K *ᵥ (x - xs))) := by
  obtain ⟨hL, -⟩ := pcg_ok_iff.1 h
  obtain ⟨x1, l1, g1, g2, -⟩ := C90_pcg _ _ rhs x0 x' L L' hL hLL tol tol' ht log' h'
  rw [h] at g1
  cases g1
  obtain ⟨X, hX, -, hXl, hdec, -⟩ := C28_pcg_monotone K N hK hN rhs x0 xs x' hx L' tol' ht0 log' h'
  have hle : log.length ≤ log'.length := g2.length_le
  obtain ⟨Y, hY, -, hYl, -⟩ := C28_pcg_monotone K N hK hN rhs x0 xs x hx L tol (ht0.trans ht) log h
  have hlenL : (log.length : ℤ) ≤ L := by
    obtain ⟨-, t, ht1, -, ht2⟩ := pcg_ok_iff.1 h
    obtain ⟨new, e, e2, -⟩ := pcgLoop_spec _ _ _ ht1
    rw [← ht2, e, show (pcgInit (K *ᵥ ·) (N *ᵥ ·) rhs x0).log = [] from rfl, List.nil_append]
    omega
  have hXx : X log.length = x := by
    have e1 := hX log.length hle
    have e2 := hY log.length le_rfl
    rw [hYl] at e2
    obtain ⟨x2, l2, k1, k2, -⟩ := C90_pcg _ _ rhs x0 _ log.length log.length (by omega) le_rfl tol tol' ht _ e1
    rw [e2] at k1
    cases k1
    obtain ⟨-, t, a1, a2, a3⟩ := pcg_ok_iff.1 e1
    obtain ⟨-, t2, b1, b2, b3⟩ := pcg_ok_iff.1 e2
    have key : ∀ (k : ℕ) (s s1 s2 : PCGState n) (u u' : ℝ), u' ≤ u → pcgLoop (K *ᵥ ·) (N *ᵥ ·) rhs u' k s = .ok s1 →
        pcgLoop (K *ᵥ ·) (N *ᵥ ·) rhs u k s = .ok s2 → s2.log.length = s.log.length + k → s1 = s2 := by
      intro k
      induction k with
      | zero => intro s s1 s2 u u' _ c1 c2 _; cases c1; cases c2; rfl
      | succ k ih =>
        intro s s1 s2 u u' hu c1 c2 hl
        by_cases hc : s.curErr > u
        · cases hs : pcgStep (K *ᵥ ·) (N *ᵥ ·) rhs s with
          | error e => unfold pcgLoop at c2; rw [if_pos hc, hs] at c2; cases c2
          | ok s3 =>
            rw [pcgLoop_step hc hs] at c2
            rw [pcgLoop_step (lt_of_le_of_lt hu hc) hs] at c1
            refine ih s3 s1 s2 u u' hu c1 c2 ?_
            rw [(pcgStep_log hs).1, List.length_append, List.length_singleton]
            omega
        · rw [pcgLoop_stop hc] at c2
          cases c2
          omega
    have hh := key _ _ _ _ _ _ (mul_le_mul_of_nonneg_right ht (norm2_nonneg (rhs - K *ᵥ x0))) a1 b1 (by
      rw [b3, List.length_take, min_self]
      change log.length = 0 + _
      omega)
    rw [← a2, ← b2, hh]
  have mono : ∀ j, log.length ≤ j → j ≤ log'.length →
      (X j - xs) ⬝ᵥ (K *ᵥ (X j - xs)) ≤ (X log.length - xs) ⬝ᵥ (K *ᵥ (X log.length - xs)) ∧
      (log.length < j → (X j - xs) ⬝ᵥ (K *ᵥ (X j - xs)) < (X log.length - xs) ⬝ᵥ (K *ᵥ (X log.length - xs))) := by
    intro j hj
    induction j, hj using Nat.le_induction with
    | base => exact fun _ => ⟨le_rfl, fun h => absurd h (lt_irrefl _)⟩
    | succ j hj ih =>
      intro hj'
      have := (hdec j (by omega)).trans_le (ih (by omega)).1
      exact ⟨this.le, fun _ => this⟩
  have := mono log'.length hle le_rfl
  rwa [hXl, hXx] at this

/-! ## PcSS1, PcSS2 -/

theorem tighter_pcss2 {tol tol' : ℝ} (ht : tol' ≤ tol) : Tighter ⟨tol', tol', 10 ^ 8⟩ ⟨tol, tol, 10 ^ 8⟩ :=
  ⟨ht, ht, Or.inr ⟨by norm_num, le_rfl⟩⟩

/-- **C90** (`PcSS2`, overdetermined).  The log of the shorter run is an initial part of the other's, and the longer run's
objective is at most the shorter one's. -/
theorem C90_pcss2_over (A : Matrix (Fin m) (Fin n) ℝ) (b : Fin m → ℝ) (c : Option (Fin n → ℝ)) (δ : ℝ) (hδ : 0 ≤ δ)
    (tol tol' : ℝ) (ht : tol' ≤ tol) (L L' : ℤ) (hL : L ≤ L') (P : Precond n) (hP : P.Ok) (z0 : Option (Fin P.dim → ℝ))
    (hc : cVec c = 0) (out out' : SaddleOut m n) (h : pcss2 A (.vec b) c δ tol L P z0 = .ok out)
    (h' : pcss2 A (.vec b) c δ tol' L' P z0 = .ok out') :
    LogPrefix out.errs out'.errs ∧ ∃ x x', out.x = some x ∧ out'.x = some x' ∧
      sqNorm (A *ᵥ x' - b) + δ * sqNorm x' ≤ sqNorm (A *ᵥ x - b) + δ * sqNorm x := by
  have hc' : cIsZero c := by
    cases c with
    | none => trivial
    | some c => exact norm2_eq_zero.2 hc
  rw [pcss2_over_eq A b c hδ tol L hP z0 hc'] at h
  rw [pcss2_over_eq A b c hδ tol' L' hP z0 hc'] at h'
  cases hl : lsqr (LinOp.ofMat (aLift A (Real.sqrt δ) * P.mat)) (catv b 0) 0 ⟨tol, tol, 10 ^ 8⟩ (some L) z0 with
  | error e => rw [hl] at h; cases h
  | ok res =>
    cases hl' : lsqr (LinOp.ofMat (aLift A (Real.sqrt δ) * P.mat)) (catv b 0) 0 ⟨tol', tol', 10 ^ 8⟩ (some L') z0 with
    | error e => rw [hl'] at h'; cases h'
    | ok res' =>
      rw [hl] at h
      rw [hl'] at h'
      cases h
      cases h'
      obtain ⟨-, h2, h3, -⟩ := C90_lsqr _ _ 0 _ _ (tighter_pcss2 ht) (some L) (some L') hL z0 res res' hl hl'
      refine ⟨h2, _, _, rfl, rfl, ?_⟩
      rw [(C31_lsqr_rnorm _ _ _ _ _ _ hl).2, (C31_lsqr_rnorm _ _ _ _ _ _ hl').2] at h3
      have := norm2_le_norm2.1 h3
      rw [← mulVec_mulVec, ← mulVec_mulVec, lift_obj A b hδ, lift_obj A b hδ] at this
      exact this

/-- **C90** (`PcSS2`, all cases). -/
theorem C90_pcss2 (A : Matrix (Fin m) (Fin n) ℝ) (b : BArg m) (c : Option (Fin n → ℝ)) (δ : ℝ) (hδ : 0 ≤ δ)
    (tol tol' : ℝ) (ht : tol' ≤ tol) (L L' : ℤ) (hL : L ≤ L') (P : Precond n) (hP : P.Ok) (z0 : Option (Fin P.dim → ℝ))
    (out out' : SaddleOut m n) (h : pcss2 A b c δ tol L P z0 = .ok out) (h' : pcss2 A b c δ tol' L' P z0 = .ok out') :
    LogPrefix out.errs out'.errs := by
  by_cases hc : cVec c = 0
  · have hc' : cIsZero c := by
      cases c with
      | none => trivial
      | some c => exact norm2_eq_zero.2 hc
    have bad : (∀ v, b ≠ .vec v) → False := by
      intro hb
      unfold pcss2 at h
      cases ha : aLiftPrecond A δ P b.k with
      | error e => rw [ha] at h; cases h
      | ok pc =>
        rw [ha] at h
        simp only [if_pos hc'] at h
        cases b with
        | vec v => exact hb v rfl
        | none =>
          split at h <;> cases h
        | multi k hk =>
          split at h <;> cases h
    cases b with
    | vec b => exact (C90_pcss2_over A b c δ hδ tol tol' ht L L' hL P hP z0 hc out out' h h').1
    | none => exact (bad fun v h => by cases h).elim
    | multi k hk => exact (bad fun v h => by cases h).elim
  · cases c with
    | none => exact absurd rfl hc
    | some c =>
      have hb : b.isZero := by
        by_contra hb
        unfold pcss2 at h
        cases ha : aLiftPrecond A δ P b.k with
        | error e => rw [ha] at h; cases h
        | ok pc =>
          rw [ha] at h
          simp only [if_neg (show ¬ cIsZero (some c) from fun h => hc (norm2_eq_zero.1 h)), if_neg hb] at h
          cases h
      rw [pcss2_under_eq A b c hδ tol L hP z0 hb hc] at h
      rw [pcss2_under_eq A b c hδ tol' L' hP z0 hb hc] at h'
      cases hl : lsqr (LinOp.ofMat (aLift A (Real.sqrt δ) * P.mat)ᵀ) (P.matᵀ *ᵥ c) 0 ⟨tol, tol, 10 ^ 8⟩ (some L) none with
      | error e => rw [hl] at h; cases h
      | ok res =>
        cases hl' : lsqr (LinOp.ofMat (aLift A (Real.sqrt δ) * P.mat)ᵀ) (P.matᵀ *ᵥ c) 0 ⟨tol', tol', 10 ^ 8⟩ (some L') none with
        | error e => rw [hl'] at h'; cases h'
        | ok res' =>
          rw [hl] at h
          rw [hl'] at h'
          cases h
          cases h'
          exact (C90_lsqr _ _ 0 _ _ (tighter_pcss2 ht) (some L) (some L') hL none res res' hl hl').2.1

/-- **C90** (`PcSS1`).  If the longer run returns so does the shorter, with a log that is an initial part. -/
theorem C90_pcss1 (A : Matrix (Fin m) (Fin n) ℝ) (b : BArg m) (c : Option (Fin n → ℝ)) (δ : ℝ)
    (tol tol' : ℝ) (ht : tol' ≤ tol) (L L' : ℤ) (hL0 : 0 ≤ L) (hL : L ≤ L') (P : Precond n) (z0 : Option (Fin P.dim → ℝ))
    (out' : SaddleOut m n) (h' : pcss1 A b c δ tol' L' P z0 = .ok out') :
    ∃ out, pcss1 A b c δ tol L P z0 = .ok out ∧ LogPrefix out.errs out'.errs := by
  obtain ⟨hb, r, R, e, mvPre, R', x', log', h1, h2, rfl⟩ := pcss1_ok_iff.1 h'
  obtain ⟨x, log, g1, g2, -⟩ := C90_pcg _ _ _ _ _ L L' hL0 hL tol tol' ht _ h2
  exact ⟨_, pcss1_ok_iff.2 ⟨hb, r, R, e, mvPre, R', x, log, h1, g1, rfl⟩, g2⟩

/-! ## The drivers -/

theorem finishLog_prefix {clock clock' : LogTimes} {e e' : ErrLog} {init : ℝ} {lg lg' : Option SPLog} (he : LogPrefix e e')
    (h : finishLog true clock e init = .ok lg) (h' : finishLog true clock' e' init = .ok lg') :
    ∃ l l', lg = some l ∧ lg' = some l' ∧ l.errors <+: l'.errors := by
  cases e with
  | scalar e => cases h
  | arr l =>
    cases e' with
    | scalar e => exact he.elim
    | arr l' =>
      cases h
      cases h'
      refine ⟨_, _, rfl, rfl, ?_⟩
      have he : l <+: l' := he
      exact (List.cons_prefix_cons).2 ⟨rfl, he⟩

/-- **C90** (`SPO`).  Two calls from the same random state, the second with a higher limit or a smaller tolerance: both
leave the same random state, the error log of the first is an initial part of the other's, and the longer run's
objective is at most the shorter one's. -/
theorem C90_spo (la : LinAlg) (gen : SkOpGen G) (sf : ℝ) (mode : SPOMode) (A : Matrix (Fin m) (Fin n) ℝ) (b : Fin m → ℝ)
    (δ : ℝ) (hδ : 0 ≤ δ) (tol tol' : ℝ) (ht : tol' ≤ tol) (L L' : ℤ) (hL : L ≤ L') (logging : Bool) (clock clock' : LogTimes)
    (w w1 w1' : World G) (out out' : SPOOut n)
    (h : spoCall la gen sf mode A b δ tol L logging clock w = .ok (out, w1))
    (h' : spoCall la gen sf mode A b δ tol' L' logging clock' w = .ok (out', w1')) :
    w1' = w1 ∧
    (∃ x x', out.x = some x ∧ out'.x = some x' ∧
      sqNorm (A *ᵥ x' - b) + δ * sqNorm x' ≤ sqNorm (A *ᵥ x - b) + δ * sqNorm x) ∧
    (logging = true → ∃ l l', out.log = some l ∧ out'.log = some l' ∧ l.errors <+: l'.errors) := by
  obtain ⟨d, S, w₁, hd, hd', g1, g2, g3⟩ := spoCall_ok h
  rw [spoCall_eq mode A b δ tol' L' logging clock' g1 g2] at h'
  cases hp : spoPost la mode S A b δ tol' L' logging clock' with
  | error e => rw [hp] at h'; cases h'
  | ok o =>
    rw [hp] at h'
    cases h'
    obtain ⟨f, res, a1, a2, a3, -, a5⟩ := spoPost_ok hδ hd g3
    obtain ⟨f', res', b1, b2, b3, -, b5⟩ := spoPost_ok hδ hd hp
    rw [a1] at b1
    cases b1
    obtain ⟨hg, -⟩ := spoFactor_ok la hδ hd a1
    obtain ⟨c1, x, x', c2, c3, c4⟩ := C90_pcss2_over A b none δ hδ tol tol' ht L L' hL f.P hg.ok _ rfl res res' a2 b2
    refine ⟨rfl, ⟨x, x', a3.trans c2, b3.trans c3, c4⟩, fun hl => ?_⟩
    obtain ⟨l, lg, e1, e2, e3⟩ := a5 hl
    obtain ⟨l', lg', e1', e2', e3'⟩ := b5 hl
    rw [e1, e1'] at c1
    obtain ⟨k, k', f1, f2, f3⟩ := finishLog_prefix (clock := clock) (clock' := clock')
      (init := norm2 (f.P.matᵀ *ᵥ (Aᵀ *ᵥ b))) (lg := some lg) (lg' := some lg') c1
      (by unfold finishLog; rw [if_pos rfl, e2]; rfl) (by unfold finishLog; rw [if_pos rfl, e2']; rfl)
    exact ⟨k, k', e3.trans f1, e3'.trans f2, f3⟩

/-- **C90** (`SPU1`). -/
theorem C90_spu1 (la : LinAlg) (gen : SkOpGen G) (sf : ℝ) (A : Matrix (Fin m) (Fin n) ℝ) (c : Fin n → ℝ)
    (tol tol' : ℝ) (ht : tol' ≤ tol) (L L' : ℤ) (hL : L ≤ L') (clock clock' : LogTimes)
    (w w1 w1' : World G) (out out' : SPUOut m)
    (h : spu1Call la gen sf A c tol L true clock w = .ok (out, w1))
    (h' : spu1Call la gen sf A c tol' L' true clock' w = .ok (out', w1')) :
    w1' = w1 ∧ ∃ l l', out.log = some l ∧ out'.log = some l' ∧ l.errors <+: l'.errors := by
  obtain ⟨d, S, w₁, o, res, -, -, g1, g2, g3, g4, -, g6⟩ := spu1_ok h
  obtain ⟨d', S', w₁', o', res', -, -, g1', g2', g3', g4', -, g6'⟩ := spu1_ok h'
  rw [g1] at g1'
  cases g1'
  rw [g2] at g2'
  cases g2'
  rw [g3] at g3'
  cases g3'
  exact ⟨rfl, finishLog_prefix (C90_pcss2 A .none (some c) 0 le_rfl tol tol' ht L L' hL (.gen o.r o.M) (by trivial) none res res' g4 g4') g6 g6'⟩

/-- a saddle solver for which a higher limit or smaller tolerance extends the log -/
def ExtendsLog (solver : SaddleSolver) : Prop :=
  ∀ (m n : ℕ) (A : Matrix (Fin m) (Fin n) ℝ) (b : BArg m) (c : Option (Fin n → ℝ)) (δ tol tol' : ℝ) (L L' : ℤ) (r : ℕ)
    (M : Matrix (Fin n) (Fin r) ℝ) (z0 : Option (Fin r → ℝ)) (res res' : SaddleOut m n), 0 ≤ δ → tol' ≤ tol → L ≤ L' →
    solver m n A b c δ tol L (.gen r M) z0 = .ok res → solver m n A b c δ tol' L' (.gen r M) z0 = .ok res' →
    LogPrefix res.errs res'.errs

theorem extendsLog_pcss2 : ExtendsLog PcSS2 := fun _ _ A b c δ tol tol' L L' r M z0 res res' hδ ht hL h h' =>
  C90_pcss2 A b c δ hδ tol tol' ht L L' hL (.gen r M) (by trivial) z0 res res' h h'

theorem extendsLog_pcss1 : ExtendsLog PcSS1 := by
  intro m n A b c δ tol tol' L L' r M z0 res res' _ ht hL h h'
  have hL0 : 0 ≤ L := by
    obtain ⟨-, r, R, e, mvPre, R', x, log, -, h2, -⟩ := pcss1_ok_iff.1 h
    exact (pcg_ok_iff.1 h2).1
  obtain ⟨out, g1, g2⟩ := C90_pcss1 A b c δ tol tol' ht L L' hL0 hL (.gen r M) z0 res' h'
  have : res = out := Except.ok.inj (h.symm.trans g1)
  rw [this]; exact g2

/-- **C90** (`SPS1` with `PcSS1` or `PcSS2`). -/
theorem C90_sps1 (la : LinAlg) (gen : SkOpGen G) (sf : ℝ) (solver : SaddleSolver) (hs : solver = PcSS1 ∨ solver = PcSS2)
    (strategy : NystromStrategy) (A : Matrix (Fin m) (Fin n) ℝ) (b : Option (Fin m → ℝ)) (c : Option (Fin n → ℝ))
    (δ : ℝ) (hδ : 0 ≤ δ) (tol tol' : ℝ) (ht : tol' ≤ tol) (L L' : ℤ) (hL : L ≤ L') (clock clock' : LogTimes)
    (w w1 w1' : World G) (out out' : SPSOut m n)
    (h : sps1Call la gen sf solver strategy A b c δ tol L true clock w = .ok (out, w1))
    (h' : sps1Call la gen sf solver strategy A b c δ tol' L' true clock' w = .ok (out', w1')) :
    w1' = w1 ∧ ∃ l l', out.log = some l ∧ out'.log = some l' ∧ l.errors <+: l'.errors := by
  have hs' : ExtendsLog solver := by
    rcases hs with rfl | rfl
    · exact extendsLog_pcss1
    · exact extendsLog_pcss2
  obtain ⟨p, hp, hq⟩ := sps1_ok h
  rw [sps1_eq solver tol' L' true clock' hp] at h'
  cases hr : sps1Post solver A (b.getD 0) c δ tol' L' p true clock' with
  | error e => rw [hr] at h'; cases h'
  | ok o =>
    rw [hr] at h'
    cases h'
    obtain ⟨res, a1, -, -, a4⟩ := sps1Post_ok hq
    obtain ⟨res', b1, -, -, b4⟩ := sps1Post_ok hr
    exact ⟨rfl, finishLog_prefix (hs' _ _ A _ _ _ _ _ _ _ _ _ _ _ _ hδ ht hL a1 b1) a4 b4⟩

/-- **C90** (`SPS2` with `PcSS1` or `PcSS2`). -/
theorem C90_sps2 (la : LinAlg) (gen : SkOpGen G) (sf : ℝ) (solver : SaddleSolver) (hs : solver = PcSS1 ∨ solver = PcSS2)
    (A : Matrix (Fin m) (Fin n) ℝ) (b : Option (Fin m → ℝ)) (c : Option (Fin n → ℝ))
    (δ tol tol' : ℝ) (ht : tol' ≤ tol) (L L' : ℤ) (hL : L ≤ L') (clock clock' : LogTimes)
    (w w1 w1' : World G) (out out' : SPSOut m n)
    (h : sps2Call la gen sf solver A b c δ tol L true clock w = .ok (out, w1))
    (h' : sps2Call la gen sf solver A b c δ tol' L' true clock' w = .ok (out', w1')) :
    w1' = w1 ∧ ∃ l l', out.log = some l ∧ out'.log = some l' ∧ l.errors <+: l'.errors := by
  have hs' : ExtendsLog solver := by
    rcases hs with rfl | rfl
    · exact extendsLog_pcss1
    · exact extendsLog_pcss2
  obtain ⟨d, S, w₁, o, res, -, -, g1, g2, g3, g4, -, -, g7⟩ := sps2_ok h
  obtain ⟨d', S', w₁', o', res', -, -, g1', g2', g3', g4', -, -, g7'⟩ := sps2_ok h'
  rw [g1] at g1'
  cases g1'
  rw [g2] at g2'
  cases g2'
  rw [g3] at g3'
  cases g3'
  exact ⟨rfl, finishLog_prefix (hs' _ _ _ _ _ _ _ _ _ _ _ _ _ _ _ le_rfl ht hL g4 g4') g7 g7'⟩

/-! ## The hypotheses are met -/

/-- `lsqr`: no iterations, and as many as it takes -/
example : ∃ o o', lsqr (LinOp.ofMat !![1, 0; 0, 2]) ![1, 1] 0 ⟨0, 0, 0⟩ (some 0) none = .ok o ∧
    lsqr (LinOp.ofMat !![1, 0; 0, 2]) ![1, 1] 0 ⟨0, 0, 0⟩ none none = .ok o' ∧ o.itn = 0 ∧ o'.r2norm ≤ o.r2norm := by
  obtain ⟨o, h, -, h2, -⟩ := C30_lsqr_start !![1, 0; 0, 2] ![1, 1] 0 ⟨0, 0, 0⟩ none
  obtain ⟨o', h', -⟩ := C32_lsqr_exact !![1, 0; 0, 2] ![1, 1] none none (rank_le_default _)
  exact ⟨o, o', h, h', h2, (C90_lsqr _ _ _ _ _ ⟨le_rfl, le_rfl, Or.inl le_rfl⟩ _ _ (by simp) _ _ _ h h').2.2.1⟩

/-- `pcg`: one iteration, and two -/
example : ∃ x log x' log', pcg (n := 2) ((!![2, 1; 1, 2] : Matrix (Fin 2) (Fin 2) ℝ) *ᵥ ·) ![1, -1]
      ((!![1, 0; 0, 1] : Matrix (Fin 2) (Fin 2) ℝ) *ᵥ ·) 1 0 ![5, 7] = .ok (x, log) ∧
    pcg (n := 2) ((!![2, 1; 1, 2] : Matrix (Fin 2) (Fin 2) ℝ) *ᵥ ·) ![1, -1]
      ((!![1, 0; 0, 1] : Matrix (Fin 2) (Fin 2) ℝ) *ᵥ ·) 2 0 ![5, 7] = .ok (x', log') ∧ log <+: log' := by
  obtain ⟨x', log', h', -⟩ := C28_pcg_exact (!![2, 1; 1, 2] : Matrix (Fin 2) (Fin 2) ℝ) (!![1, 0; 0, 1] : Matrix (Fin 2) (Fin 2) ℝ)
    ⟨by ext i j; fin_cases i <;> fin_cases j <;> rfl, by
      intro x
      simp [Matrix.mulVec, dotProduct, Fin.sum_univ_two]
      nlinarith [sq_nonneg (x 0 + x 1), sq_nonneg (x 0), sq_nonneg (x 1)]⟩
    ⟨by ext i j; fin_cases i <;> fin_cases j <;> rfl, by
      intro x hx
      simp [Matrix.mulVec, dotProduct, Fin.sum_univ_two]
      have : x 0 ≠ 0 ∨ x 1 ≠ 0 := by
        by_contra hc
        push Not at hc
        exact hx (funext fun i => by fin_cases i <;> simp [hc.1, hc.2])
      rcases this with h | h
      · have := mul_self_pos.2 h; nlinarith [mul_self_nonneg (x 1)]
      · have := mul_self_pos.2 h; nlinarith [mul_self_nonneg (x 0)]⟩ ![1, -1] ![5, 7]
    ⟨![1, -1], by ext i; fin_cases i <;> simp [Matrix.mulVec, dotProduct, Fin.sum_univ_two] <;> norm_num⟩ 2 (by norm_num)
  obtain ⟨x, log, h, h2, -⟩ := C90_pcg _ _ _ _ _ 1 2 (by norm_num) (by norm_num) 0 0 le_rfl _ h'
  exact ⟨x, log, x', log', h, h', h2⟩

/-- `PcSS1`: one iteration, and two -/
example : ∃ out out', pcss1 (!![1, 0; 0, 2] : Matrix (Fin 2) (Fin 2) ℝ) (.vec ![1, 1]) (some ![0, 3]) 1 0 1
      (.gen 2 !![1, 0; 0, 2]) (some ![1, 1]) = .ok out ∧
    pcss1 (!![1, 0; 0, 2] : Matrix (Fin 2) (Fin 2) ℝ) (.vec ![1, 1]) (some ![0, 3]) 1 0 2
      (.gen 2 !![1, 0; 0, 2]) (some ![1, 1]) = .ok out' ∧ LogPrefix out.errs out'.errs := by
  obtain ⟨out', -, h', -⟩ := C29_pcss1_solves (!![1, 0; 0, 2] : Matrix (Fin 2) (Fin 2) ℝ) (.vec ![1, 1])
    (fun k hk h => nomatch h) (some ![0, 3]) 1 one_pos 2 (by norm_num) !![1, 0; 0, 2] (Or.inl ⟨rfl, by
      refine fullColRank_of_left_inv (L := !![1, 0; 0, 1/2]) ?_
      ext i j; fin_cases i <;> fin_cases j <;> simp [mul_apply, Fin.sum_univ_two]⟩) (some ![1, 1])
  obtain ⟨out, h, h2⟩ := C90_pcss1 _ _ _ _ 0 0 le_rfl 1 2 (by norm_num) (by norm_num) _ _ _ h'
  exact ⟨out, out', h, h', h2⟩

/-- `PcSS2`, `SPU1`, with limits 1 and 2: the minimum-norm `y` with `y₁ + y₂ + y₃ = 6` -/
example : ∃ out w1 out' w1', spu1Call LinAlg.ref (idGen (G := ℕ)) 3
      (!![1; 1; 1] : Matrix (Fin 3) (Fin 1) ℝ) ![6] 0 1 true ⟨0, 0, 0, 0, 0⟩ ⟨0, 0, []⟩ = .ok (out, w1) ∧
    spu1Call LinAlg.ref (idGen (G := ℕ)) 3
      (!![1; 1; 1] : Matrix (Fin 3) (Fin 1) ℝ) ![6] 0 2 true ⟨0, 0, 0, 0, 0⟩ ⟨0, 0, []⟩ = .ok (out', w1') ∧ w1' = w1 := by
  have hw : WellCond (!![1; 1; 1] : Matrix (Fin 3) (Fin 1) ℝ) := by
    have e : ∀ x : Fin 1 → ℝ, norm2 ((!![1; 1; 1] : Matrix (Fin 3) (Fin 1) ℝ) *ᵥ x) =
        Real.sqrt 3 * norm2 x := by
      intro x
      unfold norm2
      rw [← Real.sqrt_mul (by norm_num)]
      congr 1
      simp [sqNorm, Fin.sum_univ_three, mulVec, dotProduct]
      ring
    refine ⟨Real.sqrt 3, Real.sqrt 3, fun x => (e x).ge, fun x => (e x).le, Real.sqrt_nonneg _, ?_⟩
    have h3 : (0 : ℝ) < Real.sqrt 3 := Real.sqrt_pos.2 (by norm_num)
    have : eps < 1 := by unfold eps; norm_num
    push_cast
    nlinarith
  have key : ∀ L : ℤ, 1 ≤ L → ∃ out w', spu1Call LinAlg.ref (idGen (G := ℕ)) 3
      (!![1; 1; 1] : Matrix (Fin 3) (Fin 1) ℝ) ![6] 0 L true ⟨0, 0, 0, 0, 0⟩ ⟨0, 0, []⟩ = .ok (out, w') := by
    intro L hL
    obtain ⟨out, w', h1, -⟩ := C39_spu1_exact LinAlg.ref (idGen (G := ℕ)) 3
      (!![1; 1; 1] : Matrix (Fin 3) (Fin 1) ℝ) ![6] (fun h => by simpa using congrFun h 0) L (by exact_mod_cast hL) true
      ⟨0, 0, 0, 0, 0⟩ ⟨0, 0, []⟩ (by norm_num) (by rw [demo31_pyInt]; norm_num)
      (fun d w _ _ => ⟨_, _, rfl⟩) 0 le_rfl (by norm_num) (by
        intro d hd v S w' _ h
        rw [demo31_pyInt] at hd
        have : d = 3 := by norm_num at hd; omega
        subst this
        rw [idGen_ok] at h
        cases h
        refine ⟨fun z => ?_, ?_⟩
        · simp
        · rw [Matrix.one_mul]; exact hw) (by
        have : eps ≤ 1 := by unfold eps; norm_num
        norm_num; linarith)
    exact ⟨out, w', h1⟩
  obtain ⟨out, w1, h⟩ := key 1 le_rfl
  obtain ⟨out', w1', h'⟩ := key 2 (by norm_num)
  exact ⟨out, w1, out', w1', h, h', (C90_spu1 _ _ _ _ _ _ _ le_rfl _ _ (by norm_num) _ _ _ _ _ _ _ h h').1⟩

end Parla.Props
