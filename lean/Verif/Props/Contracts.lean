import Verif.Props.AlmostSure
import Verif.Props.Seeds

/-! # C86: when the low-rank routines return, raise and warn

For every input — legal or not — the outcome of the procedural low-rank functions is classified: which of
`AssertionError`, `ValueError`, `ZeroDivisionError` and `LinAlgError` is raised, when the call returns, and how many
warnings it issues. -/

namespace Parla.Spec

variable {G α : Type}

/-- The call returns, having issued exactly `d` warnings. -/
def Returns (x : Py G α) (w : World G) (d : ℕ) : Prop := ∃ a w', x w = .ok (a, w') ∧ w'.warns = w.warns + d

/-- The call raises `e`. -/
def Raises (x : Py G α) (w : World G) (e : PyErr) : Prop := x w = .error e

/-- A sketching operator that, asked for a non-empty array, always returns one and never warns. -/
def Dependable (gen : SkOpGen G) : Prop :=
  ∀ r c w, 0 < r → 0 < c → ∃ S w', gen r c w = .ok (S, w') ∧ w'.warns = w.warns

end Parla.Spec

namespace Parla.Props

open Matrix Parla Spec

variable {G : Type} {m n : ℕ}

/-- `gaussian_operator` is dependable -/
theorem dependable_gaussian (R : NpRng G) (b : Bool) : Dependable (gaussianOperator R b) := by
  intro r c w hr hc
  unfold gaussianOperator
  cases b with
  | false => exact ⟨_, _, rfl, rfl⟩
  | true =>
    rw [if_pos rfl, if_neg (by omega)]
    exact ⟨_, _, rfl, rfl⟩

/-! ### the power iteration -/

theorem rs1Loop_runs (la : LinAlg) (A : Matrix (Fin m) (Fin n) ℝ) (q done : ℕ) (S : Cols n) (w : World G) :
    ∃ T w', rs1Loop (orth la) 1 A q done S w = .ok (T, w') ∧ w'.warns = w.warns ∧ min (min m n) S.c ≤ T.c := by
  induction q generalizing done S w with
  | zero => exact ⟨S, w, rfl, rfl, min_le_right _ _⟩
  | succ q ih =>
    unfold rs1Loop
    simp only [passA, passAT, Py.bind_apply, maybeStab_one, Py.emit_apply, Py.pure_apply]
    obtain ⟨T, w', h, hr, hc⟩ := ih (done + 2) _ _
    refine ⟨T, w', h, hr, le_trans ?_ hc⟩
    change _ ≤ min (min m n) (min n (min m S.c))
    omega

theorem rs1Call_runs (la : LinAlg) {gen : SkOpGen G} (hg : Dependable gen) (p : ℤ) (hp : 0 ≤ p)
    (A : Matrix (Fin m) (Fin n) ℝ) (k : ℕ) (w : World G) (hm : 0 < m) (hn : 0 < n) (hk : 0 < k) :
    ∃ S w', rs1Call gen p (orth la) 1 A k w = .ok (S, w') ∧ w'.warns = w.warns ∧ min (min m n) k ≤ S.c := by
  unfold rs1Call
  rw [Py.assert_pos_bind hp]
  by_cases h : p % 2 = 0
  · rw [if_pos h]
    obtain ⟨S0, w1, h1, hw⟩ := hg n k w hn hk
    rw [Py.bind_eq_of_ok h1]
    obtain ⟨T, w', h2, hr, hc⟩ := rs1Loop_runs la A ((p - 0) / 2).toNat 0 ⟨k, S0⟩ w1
    exact ⟨T, w', h2, hr.trans hw, hc⟩
  · rw [if_neg h]
    obtain ⟨S0, w1, h1, hw⟩ := hg m k w hm hk
    rw [Py.bind_eq_of_ok h1]
    simp only [passAT, Py.bind_apply, Py.emit_apply, Py.pure_apply, if_true, callStab]
    obtain ⟨T, w', h2, hr, hc⟩ := rs1Loop_runs la A ((p - 1) / 2).toNat 1
      (orth la n ⟨k, Aᵀ * S0⟩) { w1 with trace := (w1.trace ++ [Ev.mulAT]) ++ [Ev.stab] }
    refine ⟨T, w', h2, hr.trans hw, le_trans ?_ hc⟩
    change _ ≤ min (min m n) (min n k)
    omega

theorem rs1Call_rejects (gen : SkOpGen G) (p : ℤ) (hp : p < 0) (stab : Stab) (pps : ℕ) (A : Matrix (Fin m) (Fin n) ℝ)
    (k : ℕ) (w : World G) : rs1Call gen p stab pps A k w = .error .assertion := by
  unfold rs1Call
  rw [Py.assert_neg_bind (by omega)]
  rfl

/-- **C86** (`rs1`).  Returns silently exactly for `num_pass ≥ 0` and `1 ≤ k ≤ min(A.shape)`; anything else is an
`AssertionError`. -/
theorem C86_rs1 (la : LinAlg) (gauss : SkOpGen G) (hg : Dependable gauss) (A : Matrix (Fin m) (Fin n) ℝ)
    (k p : ℤ) (w : World G) :
    ((0 ≤ p ∧ 1 ≤ k ∧ k ≤ (min m n : ℕ)) → Returns (rs1 la gauss A k p) w 0) ∧
    (¬ (0 ≤ p ∧ 1 ≤ k ∧ k ≤ (min m n : ℕ)) → Raises (rs1 la gauss A k p) w .assertion) := by
  unfold rs1 Returns Raises
  constructor
  · rintro ⟨hp, hk, hk'⟩
    rw [Py.assert_pos_bind hp, Py.assert_pos_bind hk, Py.assert_pos_bind hk']
    obtain ⟨S, w', h, hw, -⟩ := rs1Call_runs la hg p hp A k.toNat w (by omega) (by omega) (by omega)
    exact ⟨S, w', h, hw⟩
  · intro h
    by_cases hp : 0 ≤ p
    · rw [Py.assert_pos_bind hp]
      by_cases hk : 1 ≤ k
      · rw [Py.assert_pos_bind hk, Py.assert_neg_bind (fun hk' => h ⟨hp, hk, hk'⟩)]; rfl
      · rw [Py.assert_neg_bind hk]; rfl
    · rw [Py.assert_neg_bind hp]; rfl

/-! ### the rangefinder -/

theorem rf1Call_runs (la : LinAlg) {gen : SkOpGen G} (hg : Dependable gen) (p : ℤ) (hp : 0 ≤ p)
    (A : Matrix (Fin m) (Fin n) ℝ) (k : ℤ) (hk : 0 < k) (hk' : k ≤ (min m n : ℕ)) (tol : Tol) (w : World G) :
    ∃ Q w', rf1Call la (RS1 gen p (orth la) 1) A k tol w = .ok (Q, w') ∧
      w'.warns = w.warns + (if tol.isNaN then 0 else 1) ∧ (Q.c : ℤ) = k := by
  have hsh := C05_rf1_shape la gen p (orth la) (Or.inl rfl) 1 (m := m) (n := n)
  have key : ∃ Q w', rf1Call la (RS1 gen p (orth la) 1) A k tol w = .ok (Q, w') ∧
      w'.warns = w.warns + (if tol.isNaN then 0 else 1) := by
    unfold rf1Call
    rw [Py.assert_pos_bind hk, Py.assert_pos_bind hk']
    cases tol with
    | nan =>
      obtain ⟨S, w', h, hw, -⟩ := rs1Call_runs la hg p hp A k.toNat w (by omega) (by omega) (by omega)
      have h' : RS1 gen p (orth la) 1 m n A k.toNat w = .ok (S, w') := h
      rw [if_neg (by simp)]
      change ∃ Q w', (RS1 gen p (orth la) 1 m n A k.toNat >>= _) w = .ok (Q, w') ∧ _
      rw [Py.bind_eq_of_ok h']
      exact ⟨_, _, rfl, hw⟩
    | val t =>
      obtain ⟨S, w', h, hw, -⟩ := rs1Call_runs la hg p hp A k.toNat { w with warns := w.warns + 1 } (by omega) (by omega)
        (by omega)
      have h' : RS1 gen p (orth la) 1 m n A k.toNat { w with warns := w.warns + 1 } = .ok (S, w') := h
      rw [if_pos (by simp), Py.bind_eq_of_ok (Py.warn_apply _)]
      change ∃ Q w', (RS1 gen p (orth la) 1 m n A k.toNat >>= _) _ = .ok (Q, w') ∧ _
      rw [Py.bind_eq_of_ok h']
      exact ⟨_, _, rfl, hw⟩
  obtain ⟨Q, w', h, hw⟩ := key
  refine ⟨Q, w', h, hw, ?_⟩
  have := hsh A k tol w Q w' h
  omega

theorem rf1Call_rejects (la : LinAlg) {gen : SkOpGen G} (p : ℤ)
    (A : Matrix (Fin m) (Fin n) ℝ) (k : ℤ) (tol : Tol) (w : World G) (h : ¬ (0 ≤ p ∧ 0 < k ∧ k ≤ (min m n : ℕ))) :
    rf1Call la (RS1 gen p (orth la) 1) A k tol w = .error .assertion := by
  unfold rf1Call
  by_cases hk : 0 < k
  · rw [Py.assert_pos_bind hk]
    by_cases hk' : k ≤ (min m n : ℕ)
    · rw [Py.assert_pos_bind hk']
      have hr : ∀ w, RS1 gen p (orth la) 1 m n A k.toNat w = .error .assertion := fun w =>
        rs1Call_rejects gen p (by by_contra hp; exact h ⟨by omega, hk, hk'⟩) _ _ A _ w
      cases tol with
      | nan =>
        rw [if_neg (by simp)]
        change (RS1 gen p (orth la) 1 m n A k.toNat >>= _) _ = _
        rw [Py.bind_eq_of_error (hr _)]
      | val t =>
        rw [if_pos (by simp), Py.bind_eq_of_ok (Py.warn_apply _)]
        change (RS1 gen p (orth la) 1 m n A k.toNat >>= _) _ = _
        rw [Py.bind_eq_of_error (hr _)]
    · rw [Py.assert_neg_bind hk']; rfl
  · rw [Py.assert_neg_bind hk]; rfl

/-- **C86** (`rf1`).  Returns exactly for `num_pass ≥ 1` and `1 ≤ k ≤ min(A.shape)`, and then *always* issues exactly
one warning (it hands its rangefinder the tolerance `0.0`, which is not NaN); anything else is an `AssertionError`. -/
theorem C86_rf1 (la : LinAlg) (gauss : SkOpGen G) (hg : Dependable gauss) (A : Matrix (Fin m) (Fin n) ℝ)
    (k p : ℤ) (w : World G) :
    ((1 ≤ p ∧ 1 ≤ k ∧ k ≤ (min m n : ℕ)) → Returns (rf1 la gauss A k p) w 1) ∧
    (¬ (1 ≤ p ∧ 1 ≤ k ∧ k ≤ (min m n : ℕ)) → Raises (rf1 la gauss A k p) w .assertion) := by
  constructor
  · rintro ⟨hp, hk, hk'⟩
    obtain ⟨Q, w', h, hw, -⟩ := rf1Call_runs la hg (p - 1) (by omega) A k (by omega) hk' (.val 0) w
    exact ⟨Q, w', h, by simpa using hw⟩
  · intro h
    exact rf1Call_rejects la (p - 1) A k _ w (by omega)

/-! ### QB -/

/-- **C86** (`qb`).  Returns silently exactly for `num_passes ≥ 2` and `1 ≤ k ≤ min(A.shape)`; anything else is an
`AssertionError`. -/
theorem C86_qb (la : LinAlg) (gauss : SkOpGen G) (hg : Dependable gauss) (p : ℤ) (A : Matrix (Fin m) (Fin n) ℝ)
    (k : ℤ) (w : World G) :
    ((2 ≤ p ∧ 1 ≤ k ∧ k ≤ (min m n : ℕ)) → Returns (qb la gauss p A k) w 0) ∧
    (¬ (2 ≤ p ∧ 1 ≤ k ∧ k ≤ (min m n : ℕ)) → Raises (qb la gauss p A k) w .assertion) := by
  unfold Returns Raises qb qb1Call
  constructor
  · rintro ⟨hp, hk, hk'⟩
    rw [Py.assert_pos_bind (by omega), Py.assert_pos_bind hk']
    obtain ⟨Q, w', h, hw, -⟩ := rf1Call_runs la hg (p - 2) (by omega) A k (by omega) hk' .nan w
    have h' : RF1 la (RS1 gauss (p - 2) (orth la) 1) m n A k .nan w = .ok (Q, w') := h
    unfold assertTol
    simp only [Py.pure_bind']
    rw [Py.bind_eq_of_ok h']
    exact ⟨_, _, rfl, by simpa using hw⟩
  · intro h
    by_cases hk : k > 0
    · rw [Py.assert_pos_bind hk]
      by_cases hk' : k ≤ (min m n : ℕ)
      · rw [Py.assert_pos_bind hk']
        have h' : RF1 la (RS1 gauss (p - 2) (orth la) 1) m n A k .nan w = .error .assertion :=
          rf1Call_rejects la (p - 2) A k _ w (by omega)
        unfold assertTol
        simp only [Py.pure_bind']
        rw [Py.bind_eq_of_error h']
      · rw [Py.assert_neg_bind hk']; rfl
    · rw [Py.assert_neg_bind hk]; rfl

/-- what a legal `qb_b` needs -/
def QBBLegal (innerNumPass : ℤ) (blk : ℕ) (m n : ℕ) (k : ℤ) : Prop :=
  2 ≤ innerNumPass ∧ 1 ≤ blk ∧ 1 ≤ min m n ∧ 1 ≤ k

theorem qb2Loop_rejects (la : LinAlg) (rf : RangeFinder G) (k : ℕ) (u : Prop) (t : ℝ) (fuel : ℕ) (st : QB2St m n)
    (w : World G) (h : rf m n st.A (qb2Blk k st.c st.blk : ℕ) .nan w = .error .assertion) :
    qb2Loop la rf k u t (fuel + 1) st w = .error .assertion := by
  unfold qb2Loop
  rw [Py.bind_eq_of_error (qb2Draw_of_error h)]

theorem qbB_outcome (la : LinAlg) (gauss : SkOpGen G) (hg : Dependable gauss) (p : ℤ) (blk : ℕ) (ow : Bool)
    (A : Matrix (Fin m) (Fin n) ℝ) (k : ℤ) (tol : Tol) (w : World G) :
    (QBBLegal p blk m n k → Returns (qbB la gauss p blk ow A k tol) w (if k ≤ (min m n : ℕ) then 0 else 1)) ∧
    (¬ QBBLegal p blk m n k → Raises (qbB la gauss p blk ow A k tol) w .assertion) := by
  unfold QBBLegal Returns Raises qbB
  constructor
  · rintro ⟨hp, hb, hmn, hk⟩
    have hrf : ∀ (A' : Matrix (Fin m) (Fin n) ℝ) (b : ℤ) (w : World G), 0 < b → b ≤ (min m n : ℕ) →
        ∃ Q w', RF1 la (RS1 gauss (p - 2) (orth la) 1) m n A' b .nan w = .ok (Q, w') ∧ (Q.c : ℤ) = b := by
      intro A' b w h1 h2
      obtain ⟨Q, w', h, -, hc⟩ := rf1Call_runs la hg (p - 2) (by omega) A' b h1 h2 .nan w
      exact ⟨Q, w', h, hc⟩
    have hq : ∀ A' b w Q w', RF1 la (RS1 gauss (p - 2) (orth la) 1) m n A' b .nan w = .ok (Q, w') →
        w'.warns = w.warns := by
      intro A' b w Q w' h
      by_cases hl : 0 ≤ p - 2 ∧ 0 < b ∧ b ≤ (min m n : ℕ)
      · obtain ⟨Q2, w2, h2, hw, -⟩ := rf1Call_runs la hg (p - 2) hl.1 A' b hl.2.1 hl.2.2 .nan w
        have h' : rf1Call la (RS1 gauss (p - 2) (orth la) 1) A' b .nan w = .ok (Q, w') := h
        rw [h2] at h'
        cases h'
        simpa using hw
      · have h' : rf1Call la (RS1 gauss (p - 2) (orth la) 1) A' b .nan w = .ok (Q, w') := h
        rw [rf1Call_rejects la (p - 2) A' b .nan w hl] at h'
        cases h'
    by_cases hk' : k ≤ (min m n : ℕ)
    · rw [if_pos hk']
      obtain ⟨r, w', h⟩ := C05_qb2_terminates la _ blk hb ow A hmn k hk tol hrf w
      exact ⟨r, w', h, C09_qb2_silent la _ blk ow A k tol w w' hk hk' hq r h⟩
    · rw [if_neg hk', C09_qb2_clamps la _ blk ow A hmn k tol w (by omega)]
      obtain ⟨r, w', h⟩ := C05_qb2_terminates la _ blk hb ow A hmn (min m n : ℕ) (by omega) tol hrf
        { w with warns := w.warns + 1 }
      exact ⟨r, w', h, C09_qb2_silent la _ blk ow A _ tol _ w' (by omega) le_rfl hq r h⟩
  · intro h
    by_cases hk : 0 < k
    · have : qb2Run la (RF1 la (RS1 gauss (p - 2) (orth la) 1)) blk A k tol w = .error .assertion := by
        rw [qb2Run_open w hk]
        apply qb2Loop_rejects
        refine rf1Call_rejects la (p - 2) _ _ _ _ ?_
        rintro ⟨h1, h2, h3⟩
        have e : qb2Blk (clampK k m n) (qb2Init A blk).c (qb2Init A blk).blk =
            if 0 + blk > clampK k m n then clampK k m n - 0 else blk := rfl
        rw [e] at h2 h3
        apply h
        unfold clampK at h2 h3
        split at h2 <;> omega
      unfold qb2Call
      rw [Py.bind_eq_of_error this]
    · exact C09_qb2_rejects la _ blk ow A k tol w (by omega)

/-- **C86** (`qb_b`).  Returns exactly for `inner_num_pass ≥ 2`, `blk ≥ 1`, a non-empty `A` and `k ≥ 1` (one warning if
`k > min(A.shape)`, none otherwise); anything else is an `AssertionError`. -/
theorem C86_qb_b (la : LinAlg) (gauss : SkOpGen G) (hg : Dependable gauss) (p : ℤ) (blk : ℕ) (ow : Bool)
    (A : Matrix (Fin m) (Fin n) ℝ) (k : ℤ) (tol : Tol) (w : World G) :
    ((2 ≤ p ∧ 1 ≤ blk ∧ 1 ≤ min m n ∧ 1 ≤ k) →
      Returns (qbB la gauss p blk ow A k tol) w (if k ≤ (min m n : ℕ) then 0 else 1)) ∧
    (¬ (2 ≤ p ∧ 1 ≤ blk ∧ 1 ≤ min m n ∧ 1 ≤ k) → Raises (qbB la gauss p blk ow A k tol) w .assertion) :=
  qbB_outcome la gauss hg p blk ow A k tol w

/-- **C86** (`qb_b_pe`).  `num_passes ≥ 1` and `1 ≤ k < min(A.shape)` are asserted; then `blk = 0` is a
`ZeroDivisionError`; otherwise the call returns silently or raises `LinAlgError`. -/
theorem C86_qb_b_pe (la : LinAlg) (gauss : SkOpGen G) (hg : Dependable gauss) (p : ℤ) (blk : ℕ)
    (A : Matrix (Fin m) (Fin n) ℝ) (k : ℤ) (tol : Tol) (w : World G) :
    (¬ (1 ≤ p ∧ 1 ≤ k ∧ k < (min m n : ℕ)) → Raises (qbBPe la gauss p blk A k tol) w .assertion) ∧
    ((1 ≤ p ∧ 1 ≤ k ∧ k < (min m n : ℕ)) →
      (blk = 0 → Raises (qbBPe la gauss p blk A k tol) w .zeroDivision) ∧
      (1 ≤ blk → Returns (qbBPe la gauss p blk A k tol) w 0 ∨ Raises (qbBPe la gauss p blk A k tol) w .linAlg)) := by
  unfold Returns Raises qbBPe
  constructor
  · intro h
    unfold qb3Call
    by_cases hk : k > 0
    · rw [Py.assert_pos_bind hk]
      by_cases hk' : k < (min m n : ℕ)
      · have h' : RS1 gauss (p - 1) (orth la) 1 m n A k.toNat w = .error .assertion :=
          rs1Call_rejects gauss (p - 1) (by omega) _ _ A _ w
        rw [Py.assert_pos_bind hk', Py.bind_eq_of_error h']
      · rw [Py.assert_neg_bind hk']; rfl
    · rw [Py.assert_neg_bind hk]; rfl
  · rintro ⟨hp, hk, hk'⟩
    obtain ⟨S, w', h, hw, -⟩ := rs1Call_runs la hg (p - 1) (by omega) A k.toNat w (by omega) (by omega) (by omega)
    have h' : RS1 gauss (p - 1) (orth la) 1 m n A k.toNat w = .ok (S, w') := h
    constructor
    · rintro rfl
      unfold qb3Call
      rw [Py.assert_pos_bind (by omega), Py.assert_pos_bind hk', Py.bind_eq_of_ok h']
      rfl
    · intro hb
      have hc : S.c = k.toNat := rs1Call_width_eq (fun _ _ => rfl) (by omega) h
      rcases C10_qb3_raises_only_if_dependent la (RS1 gauss (p - 1) (orth la) 1) blk hb A k tol w w' S (by omega) hk' h'
        (by omega) with ⟨out, w2, h2⟩ | ⟨h2, -⟩
      · refine Or.inl ⟨out, w2, h2, ?_⟩
        unfold qb3Call at h2
        rw [Py.assert_pos_bind (by omega), Py.assert_pos_bind hk', Py.bind_eq_of_ok h',
          Py.bind_eq_of_ok (Py.emit_apply _ _)] at h2
        dsimp only at h2
        rw [Py.bind_eq_of_ok (Py.emit_apply _ _), if_neg (by omega), Py.bind_ok_iff] at h2
        obtain ⟨st, w3, h3, h4⟩ := h2
        cases h4
        unfold Py.lift at h3
        split at h3
        · cases h3; exact hw
        · cases h3
      · exact Or.inr h2

/-! ### SVD and EVD -/

/-- **C86** (`svd1`).  Returns exactly for `inner_num_pass ≥ 2`, `block_size ≥ 1`, a non-empty `A` and `k + over ≥ 1`
(one warning if `k + over > min(A.shape)`, none otherwise); anything else is an `AssertionError`. -/
theorem C86_svd1 (la : LinAlg) (gauss : SkOpGen G) (hg : Dependable gauss) (A : Matrix (Fin m) (Fin n) ℝ)
    (k over : ℕ) (tol : Tol) (p : ℤ) (blk : ℕ) (w : World G) :
    ((2 ≤ p ∧ 1 ≤ blk ∧ 1 ≤ min m n ∧ 1 ≤ k + over) →
      Returns (svd1 la gauss A k over tol p blk) w (if k + over ≤ min m n then 0 else 1)) ∧
    (¬ (2 ≤ p ∧ 1 ≤ blk ∧ 1 ≤ min m n ∧ 1 ≤ k + over) →
      Raises (svd1 la gauss A k over tol p blk) w .assertion) := by
  obtain ⟨h1, h2⟩ := qbB_outcome la gauss hg p blk false A ((k + over : ℕ) : ℤ) tol w
  unfold Returns Raises svd1 svd1Call
  constructor
  · intro hl
    obtain ⟨r, w', h, hw⟩ := h1 ⟨hl.1, hl.2.1, hl.2.2.1, by have := hl.2.2.2; omega⟩
    have h' : QB2 la (RF1 la (RS1 gauss (p - 2) (orth la) 1)) blk false m n A ((k + over : ℕ) : ℤ) tol w =
        .ok (r.1, w') := by
      have : qb2Call la (RF1 la (RS1 gauss (p - 2) (orth la) 1)) blk false A ((k + over : ℕ) : ℤ) tol w = .ok (r, w') := h
      unfold QB2
      rw [Py.bind_eq_of_ok this]
      rfl
    rw [Py.bind_eq_of_ok h']
    refine ⟨_, _, rfl, ?_⟩
    rw [hw]
    congr 1
    by_cases hc : k + over ≤ min m n
    · rw [if_pos hc, if_pos (by exact_mod_cast hc)]
    · rw [if_neg hc, if_neg (by exact_mod_cast hc)]
  · intro hl
    have h := h2 (fun hq => hl ⟨hq.1, hq.2.1, hq.2.2.1, by have := hq.2.2.2; omega⟩)
    have h' : QB2 la (RF1 la (RS1 gauss (p - 2) (orth la) 1)) blk false m n A ((k + over : ℕ) : ℤ) tol w =
        .error .assertion := by
      have : qb2Call la (RF1 la (RS1 gauss (p - 2) (orth la) 1)) blk false A ((k + over : ℕ) : ℤ) tol w =
        .error .assertion := h
      unfold QB2
      rw [Py.bind_eq_of_error this]
    rw [Py.bind_eq_of_error h']

/-- the tolerances `evd1` accepts -/
def TolOk (tol : Tol) : Prop := tol = .nan ∨ ∃ t, tol = .val t ∧ 0 ≤ t

/-- **C86** (`evd1`).  Returns exactly for `inner_num_pass ≥ 2`, `block_size ≥ 1`, `1 ≤ k ≤ n` and a tolerance that is
NaN or non-negative (one warning if `k + over > n`, none otherwise); anything else is an `AssertionError`. -/
theorem C86_evd1 (la : LinAlg) (gauss : SkOpGen G) (hg : Dependable gauss) (A : Matrix (Fin n) (Fin n) ℝ)
    (k : ℤ) (tol : Tol) (over : ℕ) (p : ℤ) (blk : ℕ) (w : World G) :
    ((2 ≤ p ∧ 1 ≤ blk ∧ 1 ≤ k ∧ k ≤ n ∧ TolOk tol) →
      Returns (evd1 la gauss A k tol over p blk) w (if k + over ≤ n then 0 else 1)) ∧
    (¬ (2 ≤ p ∧ 1 ≤ blk ∧ 1 ≤ k ∧ k ≤ n ∧ TolOk tol) →
      Raises (evd1 la gauss A k tol over p blk) w .assertion) := by
  obtain ⟨h1, h2⟩ := qbB_outcome la gauss hg p blk false A (k + over) tol.half.half w
  have htol : TolOk tol → ∀ w : World G, (assertTolNonneg tol.half : Py G Unit) w = .ok ((), w) := by
    rintro (rfl | ⟨t, rfl, ht⟩) w
    · rfl
    · change (Py.assert (t / 2 ≥ 0) : Py G Unit) w = _
      rw [Py.assert_apply, if_pos (by positivity)]
  have htol' : ¬ TolOk tol → ∀ w : World G, (assertTolNonneg tol.half : Py G Unit) w = .error .assertion := by
    intro h w
    cases tol with
    | nan => exact absurd (Or.inl rfl) h
    | val t =>
      change (Py.assert (t / 2 ≥ 0) : Py G Unit) w = _
      rw [Py.assert_apply, if_neg]
      intro ht
      exact h (Or.inr ⟨t, rfl, by linarith⟩)
  unfold Returns Raises evd1 evd1Call
  constructor
  · rintro ⟨hp, hb, hk, hk', ht⟩
    obtain ⟨r, w', h, hw⟩ := h1 ⟨hp, hb, by omega, by omega⟩
    have h' : QB2 la (RF1 la (RS1 gauss (p - 2) (orth la) 1)) blk false n n A (k + over) tol.half.half w =
        .ok (r.1, w') := by
      have : qb2Call la (RF1 la (RS1 gauss (p - 2) (orth la) 1)) blk false A (k + over) tol.half.half w = .ok (r, w') := h
      unfold QB2
      rw [Py.bind_eq_of_ok this]
      rfl
    rw [Py.assert_pos_bind hp, Py.assert_pos_bind (by omega), Py.assert_pos_bind (by omega),
      Py.bind_eq_of_ok (htol ht w), Py.bind_eq_of_ok h']
    refine ⟨_, _, rfl, ?_⟩
    rw [hw]
    congr 1
    by_cases hc : k + over ≤ n
    · rw [if_pos hc, if_pos (by omega)]
    · rw [if_neg hc, if_neg (by omega)]
  · intro hl
    by_cases hp : p ≥ 2
    · rw [Py.assert_pos_bind hp]
      by_cases hk : k > 0
      · rw [Py.assert_pos_bind hk]
        by_cases hk' : k ≤ (min n n : ℕ)
        · rw [Py.assert_pos_bind hk']
          by_cases ht : TolOk tol
          · rw [Py.bind_eq_of_ok (htol ht w)]
            have h := h2 (fun hq => hl ⟨hp, hq.2.1, hk, by omega, ht⟩)
            have h' : QB2 la (RF1 la (RS1 gauss (p - 2) (orth la) 1)) blk false n n A (k + over) tol.half.half w =
                .error .assertion := by
              have : qb2Call la (RF1 la (RS1 gauss (p - 2) (orth la) 1)) blk false A (k + over) tol.half.half w =
                .error .assertion := h
              unfold QB2
              rw [Py.bind_eq_of_error this]
            rw [Py.bind_eq_of_error h']
          · rw [Py.bind_eq_of_error (htol' ht w)]
        · rw [Py.assert_neg_bind hk']; rfl
      · rw [Py.assert_neg_bind hk]; rfl
    · rw [Py.assert_neg_bind hp]; rfl

theorem evd2Post_outcome (la : LinAlg) (A : Matrix (Fin n) (Fin n) ℝ) (hA : Aᵀ = A) (k : ℕ) (hk : 1 ≤ k) (hkn : k < n)
    (S : Cols n) (hc : k ≤ S.c) :
    (∃ out, evd2Post la A k S = .ok out) ∨ evd2Post la A k S = .error .linAlg := by
  obtain ⟨nu, hnu⟩ : ∃ nu, nu = evd2Nu A S.mat := ⟨_, rfl⟩
  have hsym := nystrom_gram_symm hA nu S.mat
  by_cases hpd : (S.matᵀ * (A * S.mat + nu • S.mat)).PosDef
  · obtain ⟨R, hR, -, hup, hpos⟩ := la.chol_posDef _ hpd
    have hd : ¬ ∃ i, R i i = 0 := by rintro ⟨i, hi⟩; exact (hpos i).ne' hi
    left
    unfold evd2Post
    simp only [bind, Except.bind]
    rw [← hnu, hR]
    simp only
    rw [solveUpperT, if_neg hd]
    simp only
    obtain ⟨comps, hcomps⟩ := evd2Comps_total
      (la.svdFull (((triu R)ᵀ)⁻¹ * (A * S.mat + nu • S.mat)ᵀ)ᵀ).2.1 nu (List.range (k - 1))
      [k] (by intro i hi; have := List.mem_range.1 hi; omega)
    rw [hcomps]
    exact ⟨_, rfl⟩
  · right
    unfold evd2Post
    simp only [bind, Except.bind]
    rw [← hnu, la.chol_fail _ hsym hpd]

/-- **C86** (`evd2`, symmetric `A`).  `num_passes ≥ 1` and `1 ≤ k < n` are asserted; otherwise the call returns
silently or raises `LinAlgError`. -/
theorem C86_evd2 (la : LinAlg) (gauss : SkOpGen G) (hg : Dependable gauss) (A : Matrix (Fin n) (Fin n) ℝ) (hA : Aᵀ = A)
    (k : ℤ) (over : ℕ) (p : ℤ) (w : World G) :
    (¬ (1 ≤ p ∧ 1 ≤ k ∧ k < n) → Raises (evd2 la gauss A k over p) w .assertion) ∧
    ((1 ≤ p ∧ 1 ≤ k ∧ k < n) →
      Returns (evd2 la gauss A k over p) w 0 ∨ Raises (evd2 la gauss A k over p) w .linAlg) := by
  unfold Returns Raises evd2 evd2Call
  constructor
  · intro h
    by_cases hp : p ≥ 1
    · rw [Py.assert_pos_bind hp]
      by_cases hk : k > 0
      · rw [Py.assert_pos_bind hk, Py.assert_neg_bind (fun hk' => h ⟨hp, hk, hk'⟩)]; rfl
      · rw [Py.assert_neg_bind hk]; rfl
    · rw [Py.assert_neg_bind hp]; rfl
  · rintro ⟨hp, hk, hk'⟩
    obtain ⟨S, w', h, hw, hc⟩ := rs1Call_runs la hg (p - 1) (by omega) A (k + over).toNat w (by omega) (by omega) (by omega)
    have h' : RS1 gauss (p - 1) (orth la) 1 n n A (k + over).toNat w = .ok (S, w') := h
    rw [Py.assert_pos_bind hp, Py.assert_pos_bind (by omega), Py.assert_pos_bind hk']
    rw [if_neg (by simp)]
    change (∃ a w', (RS1 gauss (p - 1) (orth la) 1 n n A (k + over).toNat >>= _) w = .ok (a, w') ∧ _) ∨
      (RS1 gauss (p - 1) (orth la) 1 n n A (k + over).toNat >>= _) w = _
    rw [Py.bind_eq_of_ok h', Py.bind_eq_of_ok (Py.emit_apply _ _)]
    rcases evd2Post_outcome la A hA k.toNat (by omega) (by omega) S (by omega) with ⟨out, ho⟩ | ho
    · rw [ho]; exact Or.inl ⟨out, _, rfl, hw⟩
    · rw [ho]; exact Or.inr rfl

/-! ### interpolative decompositions -/

theorem qrcpCol_outcome (la : LinAlg) (Y : Matrix (Fin m) (Fin n) ℝ) (k : ℕ) :
    (k ≤ min m n → (∃ o, qrcpCol la Y k = .ok o) ∨ qrcpCol la Y k = .error .linAlg) ∧
    (Y.rank < k → qrcpCol la Y k = .error .value ∨ qrcpCol la Y k = .error .linAlg) := by
  obtain ⟨h1, h2, h3⟩ := qrcpCol_cases la Y k
  constructor
  · intro hk
    by_cases hr : k ≤ Y.rank
    · exact Or.inl (h1 hr)
    · exact Or.inr (h2 (by omega) hk)
  · intro hr
    by_cases hk : k ≤ min m n
    · exact Or.inr (h2 hr hk)
    · exact Or.inl (h3 (by omega))

theorem qrcpRow_outcome (la : LinAlg) (Y : Matrix (Fin m) (Fin n) ℝ) (k : ℕ) :
    (k ≤ min m n → (∃ o, qrcpRow la Y k = .ok o) ∨ qrcpRow la Y k = .error .linAlg) ∧
    (Y.rank < k → qrcpRow la Y k = .error .value ∨ qrcpRow la Y k = .error .linAlg) := by
  obtain ⟨h1, h2⟩ := qrcpCol_outcome la Yᵀ k
  constructor
  · intro hk
    rcases h1 (by omega) with ⟨o, ho⟩ | ho
    · left
      unfold qrcpRow
      simp only [bind, Except.bind]
      rw [ho]
      exact ⟨_, rfl⟩
    · exact Or.inr (qrcpRow_error ho)
  · intro hr
    rcases h2 (by rwa [rank_transpose]) with ho | ho
    · exact Or.inl (qrcpRow_error ho)
    · exact Or.inr (qrcpRow_error ho)

theorem rank_mul_lt {c k : ℕ} (A : Matrix (Fin m) (Fin n) ℝ) (S : Matrix (Fin n) (Fin c) ℝ) (hk : min m n < k) :
    (A * S).rank < k := by
  have h1 := Matrix.rank_mul_le_left A S
  have h2 := Matrix.rank_le_height A
  have h3 := rank_le_width' A
  omega

theorem sketchRows_runs (la : LinAlg) {gen : SkOpGen G} (hg : Dependable gen) (p : ℤ) (hp : 0 ≤ p)
    (A : Matrix (Fin m) (Fin n) ℝ) (k over : ℕ) (w : World G) (hm : 0 < m) (hn : 0 < n) (hk : 0 < k) :
    ∃ (S : Cols n) (w' : World G), sketchRows (RS1 gen p (orth la) 1) A k over w = .ok (⟨S.c, A * S.mat⟩, w') ∧
      w'.warns = w.warns ∧ min (min m n) k ≤ S.c := by
  obtain ⟨S, w', h, hw, hc⟩ := rs1Call_runs la hg p hp A (k + over) w hm hn (by omega)
  exact ⟨S, _, sketchRows_ok.2 ⟨S, w', h, rfl, rfl⟩, hw, by omega⟩

theorem sketchRows_rejects (la : LinAlg) (gen : SkOpGen G) (p : ℤ) (hp : p < 0)
    (A : Matrix (Fin m) (Fin n) ℝ) (k over : ℕ) (w : World G) :
    sketchRows (RS1 gen p (orth la) 1) A k over w = .error .assertion := by
  have h : RS1 gen p (orth la) 1 m n A (k + over) w = .error .assertion :=
    rs1Call_rejects gen p hp _ _ A _ w
  unfold sketchRows
  rw [Py.bind_eq_of_error h]

/-- a call made with `A` transposed has the same sketch as `sketchRows` of the transpose -/
theorem sketchCols_rows (skOp : RowSketcher G) (A : Matrix (Fin m) (Fin n) ℝ) (k over : ℕ) :
    sketchCols skOp A k over = sketchRows skOp Aᵀ k over := rfl

/-- how a one-sided ID with `OSID1` ends -/
theorem osid1_row_outcome (la : LinAlg) {gen : SkOpGen G} (hg : Dependable gen) (p : ℤ)
    (A : Matrix (Fin m) (Fin n) ℝ) (k over : ℕ) (w : World G) (hm : 0 < m) (hn : 0 < n) (hk : 0 < k) :
    (p < 0 → (OSID1 la (RS1 gen p (orth la) 1)).row m n A k over w = .error .assertion) ∧
    (0 ≤ p → k ≤ min m n →
      (∃ o w', (OSID1 la (RS1 gen p (orth la) 1)).row m n A k over w = .ok (o, w') ∧ w'.warns = w.warns) ∨
      (OSID1 la (RS1 gen p (orth la) 1)).row m n A k over w = .error .linAlg) ∧
    (0 ≤ p → min m n < k → (OSID1 la (RS1 gen p (orth la) 1)).row m n A k over w = .error .value ∨
      (OSID1 la (RS1 gen p (orth la) 1)).row m n A k over w = .error .linAlg) := by
  refine ⟨fun hp => ?_, fun hp hkm => ?_, fun hp hkm => ?_⟩
  · change (sketchRows _ A k over >>= _) w = _
    rw [Py.bind_eq_of_error (sketchRows_rejects la gen p hp A k over w)]
  · obtain ⟨S, w', h, hw, hc⟩ := sketchRows_runs la hg p hp A k over w hm hn hk
    change (∃ o w', (sketchRows _ A k over >>= _) w = .ok (o, w') ∧ _) ∨ (sketchRows _ A k over >>= _) w = _
    rw [Py.bind_eq_of_ok h]
    rcases (qrcpRow_outcome la (A * S.mat) k).1 (by omega) with ⟨o, ho⟩ | ho
    · left
      refine ⟨o, w', ?_, hw⟩
      change Py.lift (qrcpRow la (A * S.mat) k) w' = _
      rw [ho]; rfl
    · right
      change Py.lift (qrcpRow la (A * S.mat) k) w' = _
      rw [ho]; rfl
  · obtain ⟨S, w', h, hw, hc⟩ := sketchRows_runs la hg p hp A k over w hm hn hk
    change (sketchRows _ A k over >>= _) w = _ ∨ (sketchRows _ A k over >>= _) w = _
    rw [Py.bind_eq_of_ok h]
    change Py.lift (qrcpRow la (A * S.mat) k) w' = _ ∨ Py.lift (qrcpRow la (A * S.mat) k) w' = _
    rcases (qrcpRow_outcome la (A * S.mat) k).2 (rank_mul_lt A S.mat hkm) with ho | ho
    · left; rw [ho]; rfl
    · right; rw [ho]; rfl

theorem osid1_col_outcome (la : LinAlg) {gen : SkOpGen G} (hg : Dependable gen) (p : ℤ)
    (A : Matrix (Fin m) (Fin n) ℝ) (k over : ℕ) (w : World G) (hm : 0 < m) (hn : 0 < n) (hk : 0 < k) :
    (p < 0 → (OSID1 la (RS1 gen p (orth la) 1)).col m n A k over w = .error .assertion) ∧
    (0 ≤ p → k ≤ min m n →
      (∃ o w', (OSID1 la (RS1 gen p (orth la) 1)).col m n A k over w = .ok (o, w') ∧ w'.warns = w.warns) ∨
      (OSID1 la (RS1 gen p (orth la) 1)).col m n A k over w = .error .linAlg) ∧
    (0 ≤ p → min m n < k → (OSID1 la (RS1 gen p (orth la) 1)).col m n A k over w = .error .value ∨
      (OSID1 la (RS1 gen p (orth la) 1)).col m n A k over w = .error .linAlg) := by
  refine ⟨fun hp => ?_, fun hp hkm => ?_, fun hp hkm => ?_⟩
  · change (sketchRows _ Aᵀ k over >>= _) w = _
    rw [Py.bind_eq_of_error (sketchRows_rejects la gen p hp Aᵀ k over w)]
  · obtain ⟨S, w', h, hw, hc⟩ := sketchRows_runs la hg p hp Aᵀ k over w hn hm hk
    change (∃ o w', (sketchRows _ Aᵀ k over >>= _) w = .ok (o, w') ∧ _) ∨ (sketchRows _ Aᵀ k over >>= _) w = _
    rw [Py.bind_eq_of_ok h]
    rcases (qrcpCol_outcome la (Aᵀ * S.mat)ᵀ k).1 (by omega) with ⟨o, ho⟩ | ho
    · left
      refine ⟨o, w', ?_, hw⟩
      change Py.lift (qrcpCol la (Aᵀ * S.mat)ᵀ k) w' = _
      rw [ho]; rfl
    · right
      change Py.lift (qrcpCol la (Aᵀ * S.mat)ᵀ k) w' = _
      rw [ho]; rfl
  · obtain ⟨S, w', h, hw, hc⟩ := sketchRows_runs la hg p hp Aᵀ k over w hn hm hk
    change (sketchRows _ Aᵀ k over >>= _) w = _ ∨ (sketchRows _ Aᵀ k over >>= _) w = _
    rw [Py.bind_eq_of_ok h]
    change Py.lift (qrcpCol la (Aᵀ * S.mat)ᵀ k) w' = _ ∨ Py.lift (qrcpCol la (Aᵀ * S.mat)ᵀ k) w' = _
    have hr : (Aᵀ * S.mat)ᵀ.rank < k := by
      rw [rank_transpose]
      exact rank_mul_lt Aᵀ S.mat (by omega)
    rcases (qrcpCol_outcome la (Aᵀ * S.mat)ᵀ k).2 hr with ho | ho
    · left; rw [ho]; rfl
    · right; rw [ho]; rfl

/-- **C86** (`osid1`).  An `axis` other than 0 and 1 is a `ValueError`, `p < 1` an `AssertionError`.  Otherwise a call
with `k ≤ min(A.shape)` returns silently or raises `LinAlgError`, and one with `k > min(A.shape)` never returns: it
raises `ValueError` or `LinAlgError`. -/
theorem C86_osid1 (la : LinAlg) (gauss : SkOpGen G) (hg : Dependable gauss) (A : Matrix (Fin m) (Fin n) ℝ)
    (hm : 0 < m) (hn : 0 < n) (k over : ℕ) (hk : 0 < k) (p axis : ℤ) (w : World G) :
    (axis ≠ 0 → axis ≠ 1 → Raises (osid1 la gauss A k over p axis) w .value) ∧
    ((axis = 0 ∨ axis = 1) →
      (p < 1 → Raises (osid1 la gauss A k over p axis) w .assertion) ∧
      (1 ≤ p → k ≤ min m n →
        Returns (osid1 la gauss A k over p axis) w 0 ∨ Raises (osid1 la gauss A k over p axis) w .linAlg) ∧
      (1 ≤ p → min m n < k →
        Raises (osid1 la gauss A k over p axis) w .value ∨ Raises (osid1 la gauss A k over p axis) w .linAlg)) := by
  unfold Returns Raises osid1 OneSidedID.call
  obtain ⟨r1, r2, r3⟩ := osid1_row_outcome la hg (p - 1) A k over w hm hn hk
  obtain ⟨c1, c2, c3⟩ := osid1_col_outcome la hg (p - 1) A k over w hm hn hk
  refine ⟨fun h0 h1 => by rw [if_neg h0, if_neg h1]; rfl, ?_⟩
  rintro (rfl | rfl)
  · rw [if_pos rfl]
    refine ⟨fun hp => ?_, fun hp hkm => ?_, fun hp hkm => ?_⟩
    · rw [Py.bind_eq_of_error (r1 (by omega))]
    · rcases r2 (by omega) hkm with ⟨o, w', h, hw⟩ | h
      · rw [Py.bind_eq_of_ok h]; exact Or.inl ⟨_, _, rfl, hw⟩
      · rw [Py.bind_eq_of_error h]; exact Or.inr rfl
    · rcases r3 (by omega) hkm with h | h
      · rw [Py.bind_eq_of_error h]; exact Or.inl rfl
      · rw [Py.bind_eq_of_error h]; exact Or.inr rfl
  · rw [if_neg one_ne_zero, if_pos rfl]
    refine ⟨fun hp => ?_, fun hp hkm => ?_, fun hp hkm => ?_⟩
    · rw [Py.bind_eq_of_error (c1 (by omega))]
    · rcases c2 (by omega) hkm with ⟨o, w', h, hw⟩ | h
      · rw [Py.bind_eq_of_ok h]; exact Or.inl ⟨_, _, rfl, hw⟩
      · rw [Py.bind_eq_of_error h]; exact Or.inr rfl
    · rcases c3 (by omega) hkm with h | h
      · rw [Py.bind_eq_of_error h]; exact Or.inl rfl
      · rw [Py.bind_eq_of_error h]; exact Or.inr rfl

/-- **C86** (`osid2`).  An `axis` other than 0 and 1 is a `ValueError`, `p < 1` an `AssertionError`; otherwise the call
always returns, silently — also for rank-deficient data and for `k > min(A.shape)`. -/
theorem C86_osid2 (la : LinAlg) (gauss : SkOpGen G) (hg : Dependable gauss) (A : Matrix (Fin m) (Fin n) ℝ)
    (hm : 0 < m) (hn : 0 < n) (k over : ℕ) (hk : 0 < k) (p axis : ℤ) (w : World G) :
    (axis ≠ 0 → axis ≠ 1 → Raises (osid2 la gauss A k over p axis) w .value) ∧
    ((axis = 0 ∨ axis = 1) →
      (p < 1 → Raises (osid2 la gauss A k over p axis) w .assertion) ∧
      (1 ≤ p → Returns (osid2 la gauss A k over p axis) w 0)) := by
  unfold Returns Raises osid2 OneSidedID.call
  refine ⟨fun h0 h1 => by rw [if_neg h0, if_neg h1]; rfl, ?_⟩
  rintro (rfl | rfl)
  · rw [if_pos rfl]
    constructor
    · intro hp
      change ((sketchRows _ A k over >>= _) >>= _) w = _
      rw [Py.bind_apply, Py.bind_eq_of_error (sketchRows_rejects la gauss (p - 1) (by omega) A k over w)]
    · intro hp
      obtain ⟨S, w', h, hw, -⟩ := sketchRows_runs la hg (p - 1) (by omega) A k over w hm hn hk
      change ∃ a w', ((sketchRows _ A k over >>= _) >>= _) w = .ok (a, w') ∧ _
      rw [Py.bind_apply, Py.bind_eq_of_ok h]
      exact ⟨_, _, rfl, hw⟩
  · rw [if_neg one_ne_zero, if_pos rfl]
    constructor
    · intro hp
      change ((sketchRows _ Aᵀ k over >>= _) >>= _) w = _
      rw [Py.bind_apply, Py.bind_eq_of_error (sketchRows_rejects la gauss (p - 1) (by omega) Aᵀ k over w)]
    · intro hp
      obtain ⟨S, w', h, hw, -⟩ := sketchRows_runs la hg (p - 1) (by omega) Aᵀ k over w hn hm hk
      change ∃ a w', ((sketchRows _ Aᵀ k over >>= _) >>= _) w = .ok (a, w') ∧ _
      rw [Py.bind_apply, Py.bind_eq_of_ok h]
      exact ⟨_, _, rfl, hw⟩

/-- **C86** (`rocs1`).  An `axis` other than 0 and 1 is a `ValueError`, `p < 1` an `AssertionError`; otherwise the call
always returns, silently. -/
theorem C86_rocs1 (la : LinAlg) (gauss : SkOpGen G) (hg : Dependable gauss) (A : Matrix (Fin m) (Fin n) ℝ)
    (hm : 0 < m) (hn : 0 < n) (k over : ℕ) (hk : 0 < k) (p axis : ℤ) (w : World G) :
    (axis ≠ 0 → axis ≠ 1 → Raises (rocs1 la gauss A k over p axis) w .value) ∧
    ((axis = 0 ∨ axis = 1) →
      (p < 1 → Raises (rocs1 la gauss A k over p axis) w .assertion) ∧
      (1 ≤ p → Returns (rocs1 la gauss A k over p axis) w 0)) := by
  unfold Returns Raises rocs1 rocs1Call
  refine ⟨fun h0 h1 => by rw [if_neg h0, if_neg h1]; rfl, ?_⟩
  rintro (rfl | rfl)
  · rw [if_pos rfl]
    constructor
    · intro hp
      rw [Py.bind_eq_of_error (sketchRows_rejects la gauss (p - 1) (by omega) A k over w)]
    · intro hp
      obtain ⟨S, w', h, hw, -⟩ := sketchRows_runs la hg (p - 1) (by omega) A k over w hm hn hk
      rw [Py.bind_eq_of_ok h]
      exact ⟨_, _, rfl, hw⟩
  · rw [if_neg one_ne_zero, if_pos rfl, sketchCols_rows]
    constructor
    · intro hp
      rw [Py.bind_eq_of_error (sketchRows_rejects la gauss (p - 1) (by omega) Aᵀ k over w)]
    · intro hp
      obtain ⟨S, w', h, hw, -⟩ := sketchRows_runs la hg (p - 1) (by omega) Aᵀ k over w hn hm hk
      rw [Py.bind_eq_of_ok h]
      exact ⟨_, _, rfl, hw⟩

theorem osid1_row_width {la : LinAlg} {skOp : RowSketcher G} {A : Matrix (Fin m) (Fin n) ℝ} {k over : ℕ}
    {w w' : World G} {o : RowID m} (h : (OSID1 la skOp).row m n A k over w = .ok (o, w')) : o.c = k := by
  change (sketchRows _ A k over >>= fun Y => Py.lift (qrcpRow la Y.mat k)) w = _ at h
  rw [Py.bind_ok_iff] at h
  obtain ⟨Y, w1, -, h⟩ := h
  unfold Py.lift at h
  split at h
  · rename_i a ha
    cases h
    unfold qrcpRow qrcpCol at ha
    simp only [bind, Except.bind] at ha
    split at ha
    · cases ha
    · rename_i hh
      split at hh
      · split at hh
        · cases hh
        · cases hh; cases ha; rfl
      · cases hh
  · cases h

theorem osid1_col_width {la : LinAlg} {skOp : RowSketcher G} {A : Matrix (Fin m) (Fin n) ℝ} {k over : ℕ}
    {w w' : World G} {o : ColID n} (h : (OSID1 la skOp).col m n A k over w = .ok (o, w')) : o.c = k := by
  change (sketchCols _ A k over >>= fun Y => Py.lift (qrcpCol la Y.matᵀ k)) w = _ at h
  rw [Py.bind_ok_iff] at h
  obtain ⟨Y, w1, -, h⟩ := h
  unfold Py.lift at h
  split at h
  · rename_i a ha
    cases h
    unfold qrcpCol at ha
    simp only [bind, Except.bind] at ha
    split at ha
    · split at ha
      · cases ha
      · cases ha; rfl
    · cases ha
  · cases h

/-- **C86** (`tsid1`).  `p < 1` is an `AssertionError`.  Otherwise a call with `k ≤ min(A.shape)` returns silently or
raises `LinAlgError`, and one with `k > min(A.shape)` never returns. -/
theorem C86_tsid1 (la : LinAlg) (gauss : SkOpGen G) (hg : Dependable gauss) (A : Matrix (Fin m) (Fin n) ℝ)
    (hm : 0 < m) (hn : 0 < n) (k over : ℕ) (hk : 0 < k) (p : ℤ) (w : World G) :
    (p < 1 → Raises (tsid1 la gauss A k over p) w .assertion) ∧
    (1 ≤ p → k ≤ min m n → Returns (tsid1 la gauss A k over p) w 0 ∨ Raises (tsid1 la gauss A k over p) w .linAlg) ∧
    (1 ≤ p → min m n < k →
      Raises (tsid1 la gauss A k over p) w .value ∨ Raises (tsid1 la gauss A k over p) w .linAlg) := by
  unfold Returns Raises tsid1 tsid1Call
  obtain ⟨r1, r2, r3⟩ := osid1_row_outcome la hg (p - 1) A k over w hm hn hk
  obtain ⟨c1, c2, c3⟩ := osid1_col_outcome la hg (p - 1) A k over w hm hn hk
  by_cases hmn : m > n
  · rw [if_pos hmn]
    refine ⟨fun hp => ?_, fun hp hkm => ?_, fun hp hkm => ?_⟩
    · rw [Py.bind_eq_of_error (c1 (by omega))]
    · rcases c2 (by omega) hkm with ⟨o, w', h, hw⟩ | h
      · rw [Py.bind_eq_of_ok h]
        have hc := osid1_col_width h
        rcases (qrcpRow_outcome la (A.submatrix id o.Js) k).1 (by omega) with ⟨z, hz⟩ | hz
        · rw [hz]; exact Or.inl ⟨_, _, rfl, hw⟩
        · rw [hz]; exact Or.inr rfl
      · rw [Py.bind_eq_of_error h]; exact Or.inr rfl
    · rcases c3 (by omega) hkm with h | h
      · rw [Py.bind_eq_of_error h]; exact Or.inl rfl
      · rw [Py.bind_eq_of_error h]; exact Or.inr rfl
  · rw [if_neg hmn]
    refine ⟨fun hp => ?_, fun hp hkm => ?_, fun hp hkm => ?_⟩
    · rw [Py.bind_eq_of_error (r1 (by omega))]
    · rcases r2 (by omega) hkm with ⟨o, w', h, hw⟩ | h
      · rw [Py.bind_eq_of_ok h]
        have hc := osid1_row_width h
        rcases (qrcpCol_outcome la (A.submatrix o.Is id) k).1 (by omega) with ⟨z, hz⟩ | hz
        · rw [hz]; exact Or.inl ⟨_, _, rfl, hw⟩
        · rw [hz]; exact Or.inr rfl
      · rw [Py.bind_eq_of_error h]; exact Or.inr rfl
    · rcases r3 (by omega) hkm with h | h
      · rw [Py.bind_eq_of_error h]; exact Or.inl rfl
      · rw [Py.bind_eq_of_error h]; exact Or.inr rfl

/-- **C86** (`cur1`).  `p < 2` is an `AssertionError`.  Otherwise a call with `k ≤ min(A.shape)` returns silently or
raises `LinAlgError`, and one with `k > min(A.shape)` never returns. -/
theorem C86_cur1 (la : LinAlg) (gauss : SkOpGen G) (hg : Dependable gauss) (A : Matrix (Fin m) (Fin n) ℝ)
    (hm : 0 < m) (hn : 0 < n) (k over : ℕ) (hk : 0 < k) (p : ℤ) (w : World G) :
    (p < 2 → Raises (cur1 la gauss A k over p) w .assertion) ∧
    (2 ≤ p → k ≤ min m n → Returns (cur1 la gauss A k over p) w 0 ∨ Raises (cur1 la gauss A k over p) w .linAlg) ∧
    (2 ≤ p → min m n < k →
      Raises (cur1 la gauss A k over p) w .value ∨ Raises (cur1 la gauss A k over p) w .linAlg) := by
  unfold Returns Raises cur1 cur1Call
  obtain ⟨r1, r2, r3⟩ := osid1_row_outcome la hg (p - 2) A k over w hm hn hk
  obtain ⟨c1, c2, c3⟩ := osid1_col_outcome la hg (p - 2) A k over w hm hn hk
  by_cases hmn : m > n
  · rw [if_pos hmn]
    refine ⟨fun hp => ?_, fun hp hkm => ?_, fun hp hkm => ?_⟩
    · rw [Py.bind_eq_of_error (c1 (by omega))]
    · rcases c2 (by omega) hkm with ⟨o, w', h, hw⟩ | h
      · rw [Py.bind_eq_of_ok h]; exact Or.inl ⟨_, _, rfl, hw⟩
      · rw [Py.bind_eq_of_error h]; exact Or.inr rfl
    · rcases c3 (by omega) hkm with h | h
      · rw [Py.bind_eq_of_error h]; exact Or.inl rfl
      · rw [Py.bind_eq_of_error h]; exact Or.inr rfl
  · rw [if_neg hmn]
    refine ⟨fun hp => ?_, fun hp hkm => ?_, fun hp hkm => ?_⟩
    · rw [Py.bind_eq_of_error (r1 (by omega))]
    · rcases r2 (by omega) hkm with ⟨o, w', h, hw⟩ | h
      · rw [Py.bind_eq_of_ok h]; exact Or.inl ⟨_, _, rfl, hw⟩
      · rw [Py.bind_eq_of_error h]; exact Or.inr rfl
    · rcases r3 (by omega) hkm with h | h
      · rw [Py.bind_eq_of_error h]; exact Or.inl rfl
      · rw [Py.bind_eq_of_error h]; exact Or.inr rfl

/-! ### the hypotheses are met -/

/-- NumPy's Gaussian arrays are dependable, so every theorem above applies to the functions as shipped; e.g. `rf1`
with one pass warns, and `qb` with one pass is rejected. -/
example (R : NpRng G) (la : LinAlg) (A : Matrix (Fin 3) (Fin 2) ℝ) (w : World G) :
    Returns (rf1 la (gaussianOperator R true) A 2 1) w 1 ∧ Raises (qb la (gaussianOperator R true) 1 A 2) w .assertion ∧
    Returns (qbB la (gaussianOperator R true) 2 1 false A 3 .nan) w 1 :=
  ⟨(C86_rf1 la _ (dependable_gaussian R true) A 2 1 w).1 (by norm_num),
    (C86_qb la _ (dependable_gaussian R true) 1 A 2 w).2 (by norm_num),
    by simpa using (C86_qb_b la _ (dependable_gaussian R true) 2 1 false A 3 .nan w).1 (by norm_num)⟩

end Parla.Props
