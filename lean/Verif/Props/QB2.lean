import Verif.Proof.QB
import Verif.Props.Rangefinder

/-! # Properties C04 – C09: QB1 and QB2 -/

namespace Parla.Props

open Matrix Parla Spec

variable {G : Type} {m n : ℕ}

/-! ## C04 -/

/-- the tolerances QB1 accepts -/
def TolInRange : Tol → Prop
  | .nan => True
  | .val t => 0 ≤ t ∧ t < 1

private theorem assertTol_ok {tol : Tol} (h : TolInRange tol) (w : World G) :
    assertTol tol w = .ok ((), w) := by
  cases tol with
  | nan => rfl
  | val t =>
    simp only [assertTol]
    rw [Py.assert_pos_bind (show t ≥ 0 from h.1), Py.assert_apply, if_pos h.2]

private theorem assertTol_error {tol : Tol} (h : ¬ TolInRange tol) (w : World G) :
    assertTol tol w = .error .assertion := by
  cases tol with
  | nan => exact absurd trivial h
  | val t =>
    simp only [assertTol]
    by_cases h3 : t ≥ 0
    · have h4 : ¬ t < 1 := fun h4 => h ⟨h3, h4⟩
      rw [Py.assert_pos_bind h3, Py.assert_apply, if_neg h4]
    · rw [Py.assert_neg_bind h3]; rfl

/-- **C04**.  QB1 returns the rangefinder's `Q` with `B = Q'A`; if that `Q` is orthonormal then
`‖A-QB‖² = ‖A‖² - ‖B‖²` and no other `B'` does better. -/
theorem C04_qb1 (rf : RangeFinder G) (A : Matrix (Fin m) (Fin n) ℝ) (k : ℤ) (tol : Tol)
    (w w' : World G) (Q : Cols m) (hk : 0 < k) (hk' : k ≤ (min m n : ℕ)) (ht : TolInRange tol)
    (hrf : rf m n A k tol w = .ok (Q, w')) :
    ∃ out, qb1Call rf A k tol w = .ok (out, { w' with trace := w'.trace ++ [.mulAT] }) ∧
      out = ⟨Q.c, Q.mat, Q.matᵀ * A⟩ ∧
      (OrthoCols out.Q →
        fro (A - out.Q * out.B) ^ 2 = fro A ^ 2 - fro out.B ^ 2 ∧
        ∀ B' : Matrix (Fin out.c) (Fin n) ℝ, fro (A - out.Q * out.B) ≤ fro (A - out.Q * B')) := by
  refine ⟨_, ?_, rfl, ?_⟩
  · unfold qb1Call
    rw [Py.assert_pos_bind hk, Py.assert_pos_bind hk', Py.bind_eq_of_ok (assertTol_ok ht w)]
    rw [Py.bind_eq_of_ok hrf]; rfl
  · intro hQ
    have hQ' : Q.matᵀ * Q.mat = 1 := hQ
    refine ⟨?_, ?_⟩
    · change fro (A - Q.mat * (Q.matᵀ * A)) ^ 2 = fro A ^ 2 - fro (Q.matᵀ * A) ^ 2
      rw [fro_sq, fro_sq, fro_sq, froSq_sub_proj hQ']
    · intro B'
      change fro (A - Q.mat * (Q.matᵀ * A)) ≤ fro (A - Q.mat * B')
      apply Real.sqrt_le_sqrt
      have e : A - Q.mat * B' = Q.mat * (Q.matᵀ * A - B') + (A - Q.mat * (Q.matᵀ * A)) := by
        rw [Matrix.mul_sub]; abel
      have ho : (Q.mat * (Q.matᵀ * A - B'))ᵀ * (A - Q.mat * (Q.matᵀ * A)) = 0 := by
        rw [Matrix.transpose_mul, Matrix.mul_assoc, Matrix.mul_sub Q.matᵀ, ← Matrix.mul_assoc Q.matᵀ Q.mat,
          hQ', Matrix.one_mul, sub_self, Matrix.mul_zero]
      rw [e, froSq_add_of_orth ho]
      have := froSq_nonneg (Q.mat * (Q.matᵀ * A - B'))
      linarith

/-- **C04** (rejection). -/
theorem C04_qb1_rejects (rf : RangeFinder G) (A : Matrix (Fin m) (Fin n) ℝ) (k : ℤ) (tol : Tol)
    (w : World G) (h : k ≤ 0 ∨ (min m n : ℕ) < k ∨ ¬ TolInRange tol) :
    qb1Call rf A k tol w = .error .assertion := by
  unfold qb1Call
  by_cases h1 : k > 0
  · rw [Py.assert_pos_bind h1]
    by_cases h2 : k ≤ (min m n : ℕ)
    · rw [Py.assert_pos_bind h2]
      rw [Py.bind_eq_of_error (assertTol_error (by
        rcases h with h | h | h
        · omega
        · omega
        · exact h) w)]
    · rw [Py.assert_neg_bind h2]; rfl
  · rw [Py.assert_neg_bind h1]; rfl

-- C04's hypotheses are met by RF1 with the coordinate sketcher
example (la : LinAlg) (w : World G) : ∃ Q w', (RF1 la (coordSketcher (G := G))) 3 2
    (Matrix.of ![![1, 2], ![3, 4], ![5, 6]]) 2 .nan w = .ok (Q, w') := by
  obtain ⟨Q, w', h, -⟩ := C01_rf1_basis la (coordSketcher (G := G))
    (Matrix.of ![![1, 2], ![3, 4], ![5, 6]] : Matrix (Fin 3) (Fin 2) ℝ) 2 .nan w w _ (by norm_num)
    (by simp) rfl rfl
  exact ⟨Q, w', h⟩

/-! ## C05 -/

/-- a rangefinder with the documented output shape: `Q.shape[1] == k` -/
def RFShape (rf : RangeFinder G) (m n : ℕ) : Prop :=
  ∀ A k tol w Q w', rf m n A k tol w = .ok (Q, w') → (Q.c : ℤ) = k

/-- RF1 over any power-iteration sketcher with PARLA's `orth` or `lu_stabilize` has the documented
shape. -/
theorem C05_rf1_shape (la : LinAlg) (gen : SkOpGen G) (p : ℤ) (stab : Stab)
    (hs : stab = orth la ∨ stab = luStabilize la) (pps : ℕ) :
    RFShape (RF1 la (RS1 gen p stab pps)) m n := by
  intro A k tol w Q w' h
  have hw : ∀ r (X : Cols r), (stab r X).c = min r X.c := by
    rcases hs with rfl | rfl <;> exact fun _ _ => rfl
  unfold RF1 rf1Call at h
  rw [Py.bind_ok_iff] at h
  obtain ⟨_, w1, h1, h⟩ := h
  rw [Py.assert_ok_iff] at h1
  obtain ⟨hk, rfl⟩ := h1
  rw [Py.bind_ok_iff] at h
  obtain ⟨_, w1, h1, h⟩ := h
  rw [Py.assert_ok_iff] at h1
  obtain ⟨hk', rfl⟩ := h1
  have key : ∀ w1 : World G, (RS1 gen p stab pps m n A k.toNat >>= fun S =>
      passA A S >>= fun Y => pure ⟨min m Y.c, (la.qr Y.mat).1⟩) w1 = .ok (Q, w') →
      (Q.c : ℤ) = k := by
    intro w1 h
    rw [Py.bind_ok_iff] at h
    obtain ⟨S, w3, h3, h⟩ := h
    simp [passA, Py.bind_apply] at h
    obtain ⟨rfl, rfl⟩ := h
    have := rs1Call_width_eq hw (by omega) h3
    show ((min m S.c : ℕ) : ℤ) = k
    omega
  by_cases ht : tol.isNaN
  · simp only [ht, not_true_eq_false, if_false] at h
    exact key _ h
  · simp only [ht, not_false_eq_true, if_true] at h
    rw [Py.bind_eq_of_ok (Py.warn_apply _)] at h
    exact key _ h

/-- shape bookkeeping of the loop -/
private def ShapeInv (k b : ℕ) (st : QB2St m n) : Prop :=
  st.c ≤ k ∧ st.c = (st.calls.map (·.blk)).sum ∧
  (st.c < k → st.blk = b ∧ ∀ x ∈ st.calls, x.blk = b) ∧
  (∀ x ∈ st.calls, 0 < x.blk ∧ x.blk ≤ b) ∧ (∀ x ∈ st.calls.dropLast, x.blk = b)

private theorem shape_step {la : LinAlg} {rf : RangeFinder G} (hrf : RFShape rf m n) {k b : ℕ}
    (hb : 0 < b) (hkm : k ≤ m) (st : QB2St m n) (out : Cols m) (w w' : World G)
    (hI : ShapeInv k b st) (hc : st.c < k)
    (h : rf m n st.A (qb2Blk k st.c st.blk : ℕ) .nan w = .ok (out, w')) :
    ShapeInv k b (qb2Update la (qb2Blk k st.c st.blk) st out) := by
  obtain ⟨-, hsum, h3, h4, h5⟩ := hI
  obtain ⟨hblk, hall⟩ := h3 hc
  have hout : out.c = qb2Blk k st.c st.blk := by have := hrf _ _ _ _ _ _ h; omega
  have hle : qb2Blk k st.c st.blk ≤ k - st.c := by unfold qb2Blk; split <;> omega
  have hle2 : qb2Blk k st.c st.blk ≤ b := by unfold qb2Blk; split <;> omega
  have hpos : 0 < qb2Blk k st.c st.blk := by unfold qb2Blk; split <;> omega
  have hor : qb2Blk k st.c st.blk = b ∨ st.c + qb2Blk k st.c st.blk = k := by
    unfold qb2Blk; split <;> omega
  refine ⟨?_, ?_, ?_, ?_, ?_⟩
  · change st.c + min m out.c ≤ k; omega
  · change st.c + min m out.c = ((st.calls ++ [_]).map _).sum
    simp only [List.map_append, List.sum_append, List.map_cons, List.map_nil, List.sum_cons,
      List.sum_nil]
    omega
  · intro hlt
    have hlt' : st.c + min m out.c < k := hlt
    have e : qb2Blk k st.c st.blk = b := by omega
    refine ⟨e, ?_⟩
    intro x hx
    change x ∈ st.calls ++ [_] at hx
    rcases List.mem_append.1 hx with hx | hx
    · exact hall x hx
    · rw [List.mem_singleton.1 hx]; exact e
  · intro x hx
    change x ∈ st.calls ++ [_] at hx
    rcases List.mem_append.1 hx with hx | hx
    · exact h4 x hx
    · rw [List.mem_singleton.1 hx]; exact ⟨hpos, hle2⟩
  · intro x hx
    change x ∈ (st.calls ++ [_]).dropLast at hx
    rw [List.dropLast_concat] at hx
    exact hall x hx

private theorem shape_init (A : Matrix (Fin m) (Fin n) ℝ) (k b : ℕ) :
    ShapeInv k b (qb2Init A b) := by
  refine ⟨Nat.zero_le _, rfl, fun _ => ⟨rfl, ?_⟩, ?_, ?_⟩ <;> intro x hx <;> simp [qb2Init] at hx

private theorem run_facts {la : LinAlg} {rf : RangeFinder G} (hrf : RFShape rf m n) {b : ℕ}
    (hb : 0 < b) {A : Matrix (Fin m) (Fin n) ℝ} {k : ℤ} {tol : Tol} {w w' : World G}
    {st : QB2St m n} (hmn : 0 < min m n) (h : qb2Run la rf b A k tol w = .ok (st, w')) :
    0 < k ∧ ShapeInv (clampK k m n) b st ∧ QB2Inv A st ∧
      ((tol.use ∧ st.sqn ≤ absSqTol tol A) ∨ clampK k m n ≤ st.c) := by
  have hk : 0 < k := by
    by_contra hk
    unfold qb2Run at h
    rw [Py.assert_neg_bind hk] at h; cases h
  rw [qb2Run_open w hk] at h
  have h0 : (qb2Init A b).c < clampK k m n := by
    change 0 < clampK k m n; unfold clampK; omega
  have hP := qb2Loop_ind (P := fun st => ShapeInv (clampK k m n) b st ∧ QB2Inv A st)
    (fun st out w w' hP hc hr =>
      ⟨shape_step hrf hb (by unfold clampK; omega) st out w w' hP.1 hc hr, qb2Inv_update la hP.2 _ _⟩)
    _ _ _ _ _ h h0 ⟨shape_init A _ b, qb2Inv_init A b⟩
  exact ⟨hk, hP.1.1, hP.1.2, hP.2⟩

theorem tol_exit {tol : Tol} {A : Matrix (Fin m) (Fin n) ℝ} {x : ℝ} (hx : 0 ≤ x)
    (h : tol.use ∧ x ^ 2 ≤ absSqTol tol A) :
    ∃ t, tol = .val t ∧ 0 < t ∧ x ≤ t * fro A := by
  cases tol with
  | nan => exact absurd h.1 (Tol.not_use_nan)
  | val t =>
    refine ⟨t, rfl, h.1, ?_⟩
    have h1 : x ^ 2 ≤ (t * fro A) ^ 2 := by
      have : absSqTol (.val t) A = (t * fro A) ^ 2 := by simp only [absSqTol]; ring
      rw [← this]; exact h.2
    have h2 : (0:ℝ) ≤ t * fro A := mul_nonneg (le_of_lt h.1) (fro_nonneg A)
    exact (sq_le_sq₀ hx h2).1 h1

/-- **C05** (truthful exit).  Whenever QB2 returns, `B` has as many rows as `Q` has columns, at
most `min(k, m, n)`; and either exactly that many, or `tol` is a positive number and
`‖A - QB‖ ≤ tol ‖A‖` for the original `A`. -/
theorem C05_qb2_exit (la : LinAlg) (rf : RangeFinder G) (hrf : RFShape rf m n) (blk : ℕ)
    (hblk : 0 < blk) (ow : Bool) (A : Matrix (Fin m) (Fin n) ℝ) (hmn : 0 < min m n) (k : ℤ)
    (tol : Tol) (w w' : World G) (out : QBOut m n) (A' : Matrix (Fin m) (Fin n) ℝ)
    (h : qb2Call la rf blk ow A k tol w = .ok ((out, A'), w')) :
    (out.c : ℤ) ≤ min k (min m n : ℕ) ∧
    ((out.c : ℤ) = min k (min m n : ℕ) ∨
      ∃ t, tol = .val t ∧ 0 < t ∧ fro (A - out.Q * out.B) ≤ t * fro A) := by
  unfold qb2Call at h
  rw [Py.bind_ok_iff] at h
  obtain ⟨st, w1, h1, h⟩ := h
  cases h
  obtain ⟨hk, hs, hI, hex⟩ := run_facts hrf hblk hmn h1
  have hcl := hs.1
  unfold clampK at hcl hex
  refine ⟨by change (st.c : ℤ) ≤ _; omega, ?_⟩
  rcases hex with hex | hex
  · right
    apply tol_exit (fro_nonneg _)
    change tol.use ∧ fro (A - st.Q * st.B) ^ 2 ≤ _
    rw [fro_sq, ← hI.1, ← hI.2]; exact hex
  · left
    change (st.c : ℤ) = _; omega

/-- **C05** (no tolerance).  With `tol = 0`, negative or NaN exactly `min(k, m, n)` columns. -/
theorem C05_qb2_no_tol (la : LinAlg) (rf : RangeFinder G) (hrf : RFShape rf m n) (blk : ℕ)
    (hblk : 0 < blk) (ow : Bool) (A : Matrix (Fin m) (Fin n) ℝ) (hmn : 0 < min m n) (k : ℤ)
    (tol : Tol) (htol : tol = .nan ∨ ∃ t, tol = .val t ∧ t ≤ 0) (w w' : World G)
    (out : QBOut m n) (A' : Matrix (Fin m) (Fin n) ℝ)
    (h : qb2Call la rf blk ow A k tol w = .ok ((out, A'), w')) :
    (out.c : ℤ) = min k (min m n : ℕ) := by
  rcases (C05_qb2_exit la rf hrf blk hblk ow A hmn k tol w w' out A' h).2 with h | ⟨t, ht, h0, -⟩
  · exact h
  · rcases htol with h' | ⟨t', h', h0'⟩
    · rw [h'] at ht; cases ht
    · rw [h'] at ht; cases ht; linarith

/-- **C05** (blocks).  In the run that produced the result, the rangefinder was asked for exactly
`blk` columns in every call except possibly the last, which asked for between 1 and `blk`; the
requests add up to the columns of `Q`. -/
theorem C05_qb2_blocks (la : LinAlg) (rf : RangeFinder G) (hrf : RFShape rf m n) (blk : ℕ)
    (hblk : 0 < blk) (A : Matrix (Fin m) (Fin n) ℝ) (hmn : 0 < min m n) (k : ℤ)
    (tol : Tol) (w w' : World G) (st : QB2St m n)
    (h : qb2Run la rf blk A k tol w = .ok (st, w')) :
    (∀ x ∈ st.calls.dropLast, x.blk = blk) ∧ (∀ x ∈ st.calls, 0 < x.blk ∧ x.blk ≤ blk) ∧
      (st.calls.map (·.blk)).sum = st.c := by
  obtain ⟨-, hs, -, -⟩ := run_facts hrf hblk hmn h
  exact ⟨hs.2.2.2.2, hs.2.2.2.1, hs.2.1.symm⟩

/-- **C05** (termination).  If every rangefinder call with a legal block size returns an array of
the documented shape, QB2 returns: the loop's fuel never runs out. -/
theorem C05_qb2_terminates (la : LinAlg) (rf : RangeFinder G) (blk : ℕ) (hblk : 0 < blk)
    (ow : Bool) (A : Matrix (Fin m) (Fin n) ℝ) (hmn : 0 < min m n) (k : ℤ) (hk : 0 < k) (tol : Tol)
    (hrf : ∀ (A' : Matrix (Fin m) (Fin n) ℝ) (b : ℤ) (w : World G), 0 < b → b ≤ (min m n : ℕ) →
      ∃ Q w', rf m n A' b .nan w = .ok (Q, w') ∧ (Q.c : ℤ) = b) (w : World G) :
    ∃ r w', qb2Call la rf blk ow A k tol w = .ok (r, w') := by
  have loop : ∀ (fuel : ℕ) (st : QB2St m n) (w : World G), st.c < clampK k m n → 0 < st.blk →
      clampK k m n - st.c < fuel →
      ∃ st' w', qb2Loop la rf (clampK k m n) tol.use (absSqTol tol A) fuel st w = .ok (st', w') := by
    intro fuel
    induction fuel with
    | zero => intro st w _ _ h; omega
    | succ fuel ih =>
      intro st w hc hb hf
      have hpos : 0 < qb2Blk (clampK k m n) st.c st.blk := by unfold qb2Blk; split <;> omega
      have hle : qb2Blk (clampK k m n) st.c st.blk ≤ clampK k m n := by
        unfold qb2Blk; split <;> omega
      have hcl : clampK k m n ≤ min m n := by unfold clampK; omega
      obtain ⟨Q, w1, h1, h2⟩ := hrf st.A (qb2Blk (clampK k m n) st.c st.blk : ℕ) w (by omega) (by omega)
      unfold qb2Loop
      rw [Py.bind_eq_of_ok (qb2Draw_of_ok h1)]
      split
      · exact ⟨_, _, rfl⟩
      · split
        · exact ⟨_, _, rfl⟩
        · rename_i hge
          apply ih
          · omega
          · exact hpos
          · have hge' : st.c + min m Q.c < clampK k m n := by
              simpa [qb2Update] using hge
            change clampK k m n - (st.c + min m Q.c) < fuel
            omega
  obtain ⟨st, w', h⟩ := loop (clampK k m n + 1) (qb2Init A blk)
    (if k ≤ (min m n : ℕ) then w else { w with warns := w.warns + 1 })
    (by change 0 < _; unfold clampK; omega) hblk (by change _ - 0 < _; omega)
  rw [← qb2Run_open w hk] at h
  exact ⟨_, _, by unfold qb2Call; rw [Py.bind_eq_of_ok h]; rfl⟩

/-- **C05** (termination, rangefinders that may raise).  QB2 never diverges unless the rangefinder
itself does. -/
theorem C05_qb2_never_diverges (la : LinAlg) (rf : RangeFinder G) (hrf : RFShape rf m n) (blk : ℕ)
    (hblk : 0 < blk) (ow : Bool) (A : Matrix (Fin m) (Fin n) ℝ) (hmn : 0 < min m n) (k : ℤ)
    (tol : Tol) (hdiv : ∀ A' b t w, rf m n A' b t w ≠ .error .nonTermination) (w : World G) :
    qb2Call la rf blk ow A k tol w ≠ .error .nonTermination := by
  intro h
  have h1 : qb2Run la rf blk A k tol w = .error .nonTermination := by
    unfold qb2Call at h
    rw [Py.bind_apply] at h
    cases hr : qb2Run la rf blk A k tol w with
    | ok p => rw [hr] at h; cases h
    | error e => rw [hr] at h; cases h; rfl
  by_cases hk : 0 < k
  · rw [qb2Run_open w hk] at h1
    revert h1
    have loop : ∀ (fuel : ℕ) (st : QB2St m n) (w : World G), st.c < clampK k m n → 0 < st.blk →
        clampK k m n - st.c < fuel →
        qb2Loop la rf (clampK k m n) tol.use (absSqTol tol A) fuel st w ≠ .error .nonTermination := by
      intro fuel
      induction fuel with
      | zero => intro st w _ _ h; omega
      | succ fuel ih =>
        intro st w hc hb hf
        have hpos : 0 < qb2Blk (clampK k m n) st.c st.blk := by unfold qb2Blk; split <;> omega
        unfold qb2Loop
        cases hr : rf m n st.A (qb2Blk (clampK k m n) st.c st.blk : ℕ) .nan w with
        | error e =>
          rw [Py.bind_eq_of_error (qb2Draw_of_error hr)]
          intro h
          cases h
          exact hdiv _ _ _ _ hr
        | ok p =>
          rw [Py.bind_eq_of_ok (qb2Draw_of_ok hr)]
          have hsh := hrf _ _ _ _ _ _ hr
          have hle : qb2Blk (clampK k m n) st.c st.blk ≤ clampK k m n := by
            unfold qb2Blk; split <;> omega
          have hcl : clampK k m n ≤ min m n := by unfold clampK; omega
          split
          · intro h; cases h
          · split
            · intro h; cases h
            · rename_i hge
              apply ih
              · omega
              · exact hpos
              · have hge' : st.c + min m p.1.c < clampK k m n := by
                  simpa [qb2Update] using hge
                change clampK k m n - (st.c + min m p.1.c) < fuel
                omega
    exact loop _ _ _ (by change 0 < _; unfold clampK; omega) hblk (by change _ - 0 < _; omega)
  · unfold qb2Run at h1
    rw [Py.assert_neg_bind hk] at h1; cases h1

/-! ## C06 -/

/-- The rangefinder call delivered a full-rank block inside the range of the current residual
(what RF1 delivers when its sketch `A S` has full column rank). -/
def FullBlock (x : RFCall m n) : Prop :=
  FullColRank x.out.mat ∧ colSpace x.out.mat ≤ colSpace x.A

private theorem full_run {la : LinAlg} {rf : RangeFinder G} {b : ℕ}
    {A : Matrix (Fin m) (Fin n) ℝ} {k : ℤ} {tol : Tol} {w w' : World G}
    {st : QB2St m n} (hmn : 0 < min m n) (h : qb2Run la rf b A k tol w = .ok (st, w'))
    (hfull : ∀ x ∈ st.calls, FullBlock x) : QB2Full A st ∧ QB2Inv A st := by
  have hk : 0 < k := by
    by_contra hk
    unfold qb2Run at h
    rw [Py.assert_neg_bind hk] at h; cases h
  rw [qb2Run_open w hk] at h
  have h0 : (qb2Init A b).c < clampK k m n := by
    change 0 < clampK k m n; unfold clampK; omega
  have hP := qb2Loop_ind
    (P := fun st => QB2Inv A st ∧ ((∀ x ∈ st.calls, FullBlock x) → QB2Full A st))
    (fun st out w w' hP hc hr => by
      refine ⟨qb2Inv_update la hP.1 _ _, fun hall => ?_⟩
      have hx := hall ⟨st.A, qb2Blk (clampK k m n) st.c st.blk, out⟩ (by
        change _ ∈ st.calls ++ [_]; simp)
      have hold : ∀ x ∈ st.calls, FullBlock x := fun x hx => hall x (by
        change _ ∈ st.calls ++ [_]; exact List.mem_append_left _ hx)
      exact qb2Full_update la hP.1 (hP.2 hold) _ out hx.1 hx.2)
    _ _ _ _ _ h h0 ⟨qb2Inv_init A b, fun _ => ⟨orth_empty _, by ext i; exact i.elim0, rfl⟩⟩
  exact ⟨hP.1.2 hfull, hP.1.1⟩

/-- **C06** (full blocks).  If every block was full rank inside the current residual, QB2 returns
an orthonormal `Q` and `B = Q'A`. -/
theorem C06_qb2_full_blocks (la : LinAlg) (rf : RangeFinder G) (blk : ℕ)
    (A : Matrix (Fin m) (Fin n) ℝ) (hmn : 0 < min m n) (k : ℤ) (tol : Tol) (w w' : World G)
    (st : QB2St m n) (h : qb2Run la rf blk A k tol w = .ok (st, w'))
    (hfull : ∀ x ∈ st.calls, FullBlock x) :
    OrthoCols st.Q ∧ st.B = st.Qᵀ * A := by
  have := (full_run hmn h hfull).1
  exact ⟨this.1, this.2.1⟩

/-- The rangefinder call captured as much of the residual's range as its block size allows:
either a full-rank block inside it, or all of it. -/
def Captures (x : RFCall m n) : Prop :=
  FullBlock x ∨ colSpace x.A ≤ colSpace x.out.mat

/-- **C06**.  If every rangefinder call captured what it could and QB2 returned no more columns
than `rank(A)`, then `Q` is orthonormal and `B = Q'A`. -/
theorem C06_qb2_orthonormal (la : LinAlg) (rf : RangeFinder G) (hrf : RFShape rf m n) (blk : ℕ)
    (A : Matrix (Fin m) (Fin n) ℝ) (hmn : 0 < min m n) (k : ℤ) (tol : Tol) (w w' : World G)
    (st : QB2St m n) (h : qb2Run la rf blk A k tol w = .ok (st, w'))
    (hcap : ∀ x ∈ st.calls, Captures x) (hc : st.c ≤ A.rank) :
    OrthoCols st.Q ∧ st.B = st.Qᵀ * A := by
  have hk : 0 < k := by
    by_contra hk
    unfold qb2Run at h
    rw [Py.assert_neg_bind hk] at h; cases h
  rw [qb2Run_open w hk] at h
  have h0 : (qb2Init A blk).c < clampK k m n := by
    change 0 < clampK k m n; unfold clampK; omega
  have hP := qb2Loop_ind
    (P := fun st => QB2Inv A st ∧
      ((∀ x ∈ st.calls, Captures x) → st.c ≤ A.rank → QB2Full A st))
    (fun st out w w' hP hc hr => by
      refine ⟨qb2Inv_update la hP.1 _ _, fun hall hle => ?_⟩
      have hle' : st.c + min m out.c ≤ A.rank := hle
      have hx := hall ⟨st.A, qb2Blk (clampK k m n) st.c st.blk, out⟩ (by
        change _ ∈ st.calls ++ [_]; simp)
      have hold : ∀ x ∈ st.calls, Captures x := fun x hx => hall x (by
        change _ ∈ st.calls ++ [_]; exact List.mem_append_left _ hx)
      have hF := hP.2 hold (by omega)
      have hoc : out.c ≤ m := by
        have h1 := hrf _ _ _ _ _ _ hr
        have h2 : qb2Blk (clampK k m n) st.c st.blk ≤ m := by
          unfold qb2Blk clampK; unfold clampK at hc; split <;> omega
        omega
      rcases hx with hx | hx
      · exact qb2Full_update la hP.1 hF _ out hx.1 hx.2
      · have hx' : colSpace st.A ≤ colSpace out.mat := hx
        have h1 : out.mat.rank ≤ out.c := rank_le_width' _
        have h2 := hF.2.2
        have h3 : st.A.rank ≤ out.mat.rank := Submodule.finrank_mono hx'
        have h4 : colSpace st.A = colSpace out.mat :=
          colSpace_eq_of_le_rank hx' (by omega)
        exact qb2Full_update la hP.1 hF _ out (by omega) h4.ge)
    _ _ _ _ _ h h0 ⟨qb2Inv_init A blk, fun _ _ => ⟨orth_empty _, by ext i; exact i.elim0, rfl⟩⟩
  have := hP.1.2 hcap hc
  exact ⟨this.1, this.2.1⟩

/-- **C06** in terms of the requested rank: `k ≤ rank(A)` suffices. -/
theorem C06_qb2_orthonormal_rank (la : LinAlg) (rf : RangeFinder G) (hrf : RFShape rf m n)
    (blk : ℕ) (hblk : 0 < blk) (A : Matrix (Fin m) (Fin n) ℝ) (hmn : 0 < min m n) (k : ℤ)
    (hkr : k ≤ A.rank) (tol : Tol) (w w' : World G) (st : QB2St m n)
    (h : qb2Run la rf blk A k tol w = .ok (st, w')) (hcap : ∀ x ∈ st.calls, Captures x) :
    OrthoCols st.Q ∧ st.B = st.Qᵀ * A := by
  refine C06_qb2_orthonormal la rf hrf blk A hmn k tol w w' st h hcap ?_
  have hcall : qb2Call la rf blk false A k tol w = .ok ((⟨st.c, st.Q, st.B⟩, A), w') := by
    unfold qb2Call; rw [Py.bind_eq_of_ok h]; rfl
  have := (C05_qb2_exit la rf hrf blk hblk false A hmn k tol w w' _ _ hcall).1
  have : (st.c : ℤ) ≤ min k (min m n : ℕ) := this
  omega

/-- **C06** (no hypothesis at all).  Whatever the rangefinder returned and whatever its rank, every
column of `Q` has norm one and `‖A - QB‖² = ‖A‖² - ‖B‖²`, the identity the stopping test uses. -/
theorem C06_qb2_unconditional (la : LinAlg) (rf : RangeFinder G) (blk : ℕ)
    (A : Matrix (Fin m) (Fin n) ℝ) (hmn : 0 < min m n) (k : ℤ) (tol : Tol) (w w' : World G)
    (st : QB2St m n) (h : qb2Run la rf blk A k tol w = .ok (st, w')) :
    (∀ j, ∑ i, st.Q i j ^ 2 = 1) ∧
      fro (A - st.Q * st.B) ^ 2 = fro A ^ 2 - fro st.B ^ 2 := by
  have hk : 0 < k := by
    by_contra hk
    unfold qb2Run at h
    rw [Py.assert_neg_bind hk] at h; cases h
  rw [qb2Run_open w hk] at h
  have h0 : (qb2Init A blk).c < clampK k m n := by
    change 0 < clampK k m n; unfold clampK; omega
  have hP := qb2Loop_ind
    (P := fun st => QB2Inv A st ∧ (∀ j, ∑ i, st.Q i j ^ 2 = 1) ∧
      st.sqn = froSq A - froSq st.B)
    (fun st out w w' hP hc hr => by
      refine ⟨qb2Inv_update la hP.1 _ _, ?_, ?_⟩
      · change ∀ j, ∑ i, hcat st.Q (la.qr (projectOut out.mat st.Q)).1 i j ^ 2 = 1
        intro j
        refine Fin.addCases (fun j => ?_) (fun j => ?_) j
        · simpa using hP.2.1 j
        · simp only [hcat_natAdd]
          have := congrFun (congrFun (la.qr_orth (projectOut out.mat st.Q)) j) j
          simpa [Matrix.mul_apply, sq] using this
      · change st.sqn - fro _ ^ 2 = froSq A - froSq (vcat st.B _)
        rw [froSq_vcat, hP.2.2, fro_sq]; ring)
    _ _ _ _ _ h h0 ⟨qb2Inv_init A blk, fun j => j.elim0, by
      change fro A ^ 2 = froSq A - froSq (0 : Matrix (Fin 0) (Fin n) ℝ)
      rw [fro_sq]; simp [froSq]⟩
  obtain ⟨⟨hI, hu, hs⟩, -⟩ := hP
  refine ⟨hu, ?_⟩
  rw [fro_sq, fro_sq, fro_sq, ← hI.1, ← hI.2, hs]

/-- RF1 delivers a full block whenever its sketch of the current residual has full column rank. -/
theorem C06_rf1_fullBlock (la : LinAlg) (rso : RowSketcher G) (A : Matrix (Fin m) (Fin n) ℝ)
    (b : ℕ) (w w' : World G) (Q : Cols m) (h : rf1Call la rso A b .nan w = .ok (Q, w'))
    (hS : ∀ S w₁, rso m n A b w = .ok (S, w₁) → FullColRank (A * S.mat)) :
    FullBlock ⟨A, b, Q⟩ := by
  unfold rf1Call at h
  by_cases h1 : (b : ℤ) > 0
  · rw [Py.assert_pos_bind h1] at h
    by_cases h2 : (b : ℤ) ≤ (min m n : ℕ)
    · rw [Py.assert_pos_bind h2] at h
      simp only [Tol.isNaN_nan, not_true_eq_false, if_false] at h
      rw [Py.bind_ok_iff] at h
      obtain ⟨S, w1, hS1, h⟩ := h
      simp [passA, Py.bind_apply] at h
      obtain ⟨rfl, rfl⟩ := h
      have hf := hS S w1 (by simpa using hS1)
      refine ⟨orthoCols_rank (la.qr_orth _), ?_⟩
      have hcs : colSpace (A * S.mat) = colSpace (la.qr (A * S.mat)).1 := by
        apply colSpace_eq_of_le_rank (qr_range la _)
        have : (A * S.mat).rank = S.c := hf
        omega
      change colSpace (la.qr (A * S.mat)).1 ≤ colSpace A
      rw [← hcs]; exact colSpace_mul_le _ _
    · rw [Py.assert_neg_bind h2] at h; cases h
  · rw [Py.assert_neg_bind h1] at h; cases h

/-! ## C07 -/

/-- **C07** (rank drop).  If every rangefinder call captured what it could, the residual's rank
after the run is `rank(A)` minus the number of columns, floored at 0. -/
theorem C07_qb2_rank_drop (la : LinAlg) (rf : RangeFinder G) (blk : ℕ)
    (A : Matrix (Fin m) (Fin n) ℝ) (hmn : 0 < min m n) (k : ℤ) (tol : Tol) (w w' : World G)
    (st : QB2St m n) (h : qb2Run la rf blk A k tol w = .ok (st, w'))
    (hcap : ∀ x ∈ st.calls, Captures x) :
    (A - st.Q * st.B).rank = A.rank - st.c := by
  have hk : 0 < k := by
    by_contra hk
    unfold qb2Run at h
    rw [Py.assert_neg_bind hk] at h; cases h
  rw [qb2Run_open w hk] at h
  have h0 : (qb2Init A blk).c < clampK k m n := by
    change 0 < clampK k m n; unfold clampK; omega
  have hP := qb2Loop_ind
    (P := fun st => QB2Inv A st ∧ ((∀ x ∈ st.calls, Captures x) → QB2Full A st ∨ st.A = 0))
    (fun st out w w' hP hc hr => by
      refine ⟨qb2Inv_update la hP.1 _ _, fun hall => ?_⟩
      have hx := hall ⟨st.A, qb2Blk (clampK k m n) st.c st.blk, out⟩ (by
        change _ ∈ st.calls ++ [_]; simp)
      have hold : ∀ x ∈ st.calls, Captures x := fun x hx => hall x (by
        change _ ∈ st.calls ++ [_]; exact List.mem_append_left _ hx)
      rcases hP.2 hold with hF | hZ
      · rcases hx with hx | hx
        · exact Or.inl (qb2Full_update la hP.1 hF _ out hx.1 hx.2)
        · exact Or.inr (qb2Zero_update la hP.1 hF.1 hF.2.1 _ out hx)
      · exact Or.inr (qb2Zero_stays la hZ _ out))
    _ _ _ _ _ h h0 ⟨qb2Inv_init A blk, fun _ => Or.inl ⟨orth_empty _, by ext i; exact i.elim0, rfl⟩⟩
  rw [← hP.1.1.1]
  rcases hP.1.2 hcap with hF | hZ
  · have := hF.2.2; omega
  · have hA : A = st.Q * st.B := by
      have := hP.1.1.1
      rw [hZ] at this
      exact (sub_eq_zero.1 this.symm)
    have : A.rank ≤ st.c := by
      rw [hA]; exact (Matrix.rank_mul_le_left _ _).trans (rank_le_width' _)
    rw [hZ, Matrix.rank_zero]; omega

/-- **C07** (exactness).  With `k ≥ rank(A)` and no tolerance, `QB = A`. -/
theorem C07_qb2_exact (la : LinAlg) (rf : RangeFinder G) (hrf : RFShape rf m n) (blk : ℕ)
    (hblk : 0 < blk) (A : Matrix (Fin m) (Fin n) ℝ) (hmn : 0 < min m n) (k : ℤ)
    (hk : (A.rank : ℤ) ≤ k) (tol : Tol) (htol : tol = .nan ∨ ∃ t, tol = .val t ∧ t ≤ 0)
    (w w' : World G) (st : QB2St m n) (h : qb2Run la rf blk A k tol w = .ok (st, w'))
    (hcap : ∀ x ∈ st.calls, Captures x) : st.Q * st.B = A := by
  have hr := C07_qb2_rank_drop la rf blk A hmn k tol w w' st h hcap
  have hcall : qb2Call la rf blk false A k tol w = .ok ((⟨st.c, st.Q, st.B⟩, A), w') := by
    unfold qb2Call; rw [Py.bind_eq_of_ok h]; rfl
  have hc := C05_qb2_no_tol la rf hrf blk hblk false A hmn k tol htol w w' _ _ hcall
  have hc' : (st.c : ℤ) = min k (min m n : ℕ) := hc
  have h1 := rank_le_width' A
  have h2 : A.rank ≤ m := by simpa using A.rank_le_height
  have : (A - st.Q * st.B).rank = 0 := by omega
  exact (sub_eq_zero.1 (rank_eq_zero_iff'.1 this)).symm

/-- **C07** (tolerance).  With `k ≥ min(A.shape)` the tolerance is always met on exit. -/
theorem C07_qb2_tolerance_met (la : LinAlg) (rf : RangeFinder G) (hrf : RFShape rf m n) (blk : ℕ)
    (hblk : 0 < blk) (A : Matrix (Fin m) (Fin n) ℝ) (hmn : 0 < min m n) (k : ℤ)
    (hk : ((min m n : ℕ) : ℤ) ≤ k) (t : ℝ) (ht : 0 ≤ t)
    (w w' : World G) (st : QB2St m n) (h : qb2Run la rf blk A k (.val t) w = .ok (st, w'))
    (hcap : ∀ x ∈ st.calls, Captures x) : fro (A - st.Q * st.B) ≤ t * fro A := by
  have hcall : qb2Call la rf blk false A k (.val t) w = .ok ((⟨st.c, st.Q, st.B⟩, A), w') := by
    unfold qb2Call; rw [Py.bind_eq_of_ok h]; rfl
  rcases (C05_qb2_exit la rf hrf blk hblk false A hmn k _ w w' _ _ hcall).2 with hc | ⟨t', h1, h2, h3⟩
  · have hr := C07_qb2_rank_drop la rf blk A hmn k _ w w' st h hcap
    have hc' : (st.c : ℤ) = min k (min m n : ℕ) := hc
    have h1 := rank_le_width' A
    have h2 : A.rank ≤ m := by simpa using A.rank_le_height
    have : (A - st.Q * st.B).rank = 0 := by omega
    rw [rank_eq_zero_iff'.1 this, fro_zero]
    exact mul_nonneg ht (fro_nonneg A)
  · cases h1; exact h3

/-! ## C08 -/

/-- **C08**.  What the caller's array holds after QB2: unchanged with `overwrite_a=False`, exactly
`A - QB` with `overwrite_a=True`. -/
theorem C08_qb2_overwrite (la : LinAlg) (rf : RangeFinder G) (blk : ℕ) (ow : Bool)
    (A : Matrix (Fin m) (Fin n) ℝ) (hmn : 0 < min m n) (k : ℤ) (tol : Tol) (w w' : World G)
    (out : QBOut m n) (A' : Matrix (Fin m) (Fin n) ℝ)
    (h : qb2Call la rf blk ow A k tol w = .ok ((out, A'), w')) :
    A' = if ow then A - out.Q * out.B else A := by
  unfold qb2Call at h
  rw [Py.bind_ok_iff] at h
  obtain ⟨st, w1, h1, h⟩ := h
  cases h
  have hk : 0 < k := by
    by_contra hk
    unfold qb2Run at h1
    rw [Py.assert_neg_bind hk] at h1; cases h1
  rw [qb2Run_open w hk] at h1
  have h0 : (qb2Init A blk).c < clampK k m n := by
    change 0 < clampK k m n; unfold clampK; omega
  have hP := qb2Loop_ind (P := fun st => QB2Inv A st)
    (fun st out w w' hP hc hr => qb2Inv_update la hP _ _) _ _ _ _ _ h1 h0 (qb2Inv_init A blk)
  cases ow
  · rfl
  · exact hP.1.1

/-- **C08**.  The returned pair does not depend on `overwrite_a`. -/
theorem C08_qb2_same_result (la : LinAlg) (rf : RangeFinder G) (blk : ℕ)
    (A : Matrix (Fin m) (Fin n) ℝ) (k : ℤ) (tol : Tol) (w : World G) :
    (qb2Call la rf blk true A k tol w).map (fun r => (r.1.1, r.2)) =
      (qb2Call la rf blk false A k tol w).map (fun r => (r.1.1, r.2)) := by
  unfold qb2Call
  rw [Py.bind_apply, Py.bind_apply]
  cases qb2Run la rf blk A k tol w <;> rfl

/-! ## C09 -/

/-- **C09** (rejection). -/
theorem C09_qb2_rejects (la : LinAlg) (rf : RangeFinder G) (blk : ℕ) (ow : Bool)
    (A : Matrix (Fin m) (Fin n) ℝ) (k : ℤ) (tol : Tol) (w : World G) (hk : k ≤ 0) :
    qb2Call la rf blk ow A k tol w = .error .assertion := by
  unfold qb2Call qb2Run
  rw [Py.assert_neg_bind (by omega)]; rfl

/-- **C09** (clamping).  A `k` above `min(A.shape)` costs exactly one warning and otherwise acts
like `k = min(A.shape)`. -/
theorem C09_qb2_clamps (la : LinAlg) (rf : RangeFinder G) (blk : ℕ) (ow : Bool)
    (A : Matrix (Fin m) (Fin n) ℝ) (hmn : 0 < min m n) (k : ℤ) (tol : Tol) (w : World G)
    (hk : (min m n : ℕ) < k) :
    qb2Call la rf blk ow A k tol w =
      qb2Call la rf blk ow A (min m n : ℕ) tol { w with warns := w.warns + 1 } := by
  have h : qb2Run la rf blk A k tol w =
      qb2Run la rf blk A (min m n : ℕ) tol { w with warns := w.warns + 1 } := by
    rw [qb2Run_open w (by omega), qb2Run_open _ (by omega)]
    have : clampK k m n = clampK ((min m n : ℕ) : ℤ) m n := by unfold clampK; omega
    rw [this, if_neg (by omega), if_pos le_rfl]
  unfold qb2Call
  rw [Py.bind_apply, Py.bind_apply, h]

/-- **C09** (silence).  With a legal `k`, QB2 itself never warns: the warning count changes only
if the rangefinder changes it. -/
theorem C09_qb2_silent (la : LinAlg) (rf : RangeFinder G) (blk : ℕ) (ow : Bool)
    (A : Matrix (Fin m) (Fin n) ℝ) (k : ℤ) (tol : Tol) (w w' : World G) (hk : 0 < k)
    (hk' : k ≤ (min m n : ℕ))
    (hrf : ∀ A' b w Q w', rf m n A' b .nan w = .ok (Q, w') → w'.warns = w.warns)
    (r : QBOut m n × Matrix (Fin m) (Fin n) ℝ)
    (h : qb2Call la rf blk ow A k tol w = .ok (r, w')) : w'.warns = w.warns := by
  unfold qb2Call at h
  rw [Py.bind_ok_iff] at h
  obtain ⟨st, w1, h1, h⟩ := h
  cases h
  rw [qb2Run_open w hk, if_pos hk'] at h1
  have loop : ∀ (fuel : ℕ) (st st' : QB2St m n) (w w' : World G),
      qb2Loop la rf (clampK k m n) tol.use (absSqTol tol A) fuel st w = .ok (st', w') →
      w'.warns = w.warns := by
    intro fuel
    induction fuel with
    | zero => intro st st' w w' h; cases h
    | succ fuel ih =>
      intro st st' w w' h
      unfold qb2Loop at h
      rw [Py.bind_ok_iff] at h
      obtain ⟨out, wd, hd, h⟩ := h
      obtain ⟨w2, h2, rfl⟩ := qb2Draw_ok_iff.1 hd
      have e := hrf _ _ _ _ _ h2
      split at h
      · cases h; exact e
      · split at h
        · cases h; exact e
        · rw [ih _ _ _ _ h, e]
  exact loop _ _ _ _ _ h1

end Parla.Props
