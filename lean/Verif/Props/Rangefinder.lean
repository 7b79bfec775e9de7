import Verif.Proof.RS1
import Verif.Model.Rangefinders

/-! # Properties C01 – C03: rangefinder and power-iteration sketcher -/

namespace Parla.Props

open Matrix Parla Spec

variable {G : Type} {m n : ℕ}

/-- Interpreter state after RF1's "tol is being ignored" warning (issued iff `tol` is not NaN). -/
def afterTolWarning (tol : Tol) (w : World G) : World G :=
  if tol.isNaN then w else { w with warns := w.warns + 1 }

/-- **C01** (success).  For `0 < k ≤ min(A.shape)`, if the sketcher delivers `S` with `k` columns,
RF1 returns `Q` with exactly `k` orthonormal columns whose range contains that of `A S`, and
equals it when `A S` has full column rank. -/
theorem C01_rf1_basis (la : LinAlg) (rso : RowSketcher G) (A : Matrix (Fin m) (Fin n) ℝ) (k : ℤ)
    (tol : Tol) (w w₁ : World G) (S : Cols n) (hk : 0 < k) (hk' : k ≤ (min m n : ℕ))
    (hS : rso m n A k.toNat (afterTolWarning tol w) = .ok (S, w₁)) (hc : (S.c : ℤ) = k) :
    ∃ (Q : Cols m) (w' : World G), rf1Call la rso A k tol w = .ok (Q, w') ∧ (Q.c : ℤ) = k ∧
      OrthoCols Q.mat ∧ colSpace (A * S.mat) ≤ colSpace Q.mat ∧
      (FullColRank (A * S.mat) → colSpace (A * S.mat) = colSpace Q.mat) := by
  have hrun : rf1Call la rso A k tol w =
      .ok (⟨_, (la.qr (A * S.mat)).1⟩, { w₁ with trace := w₁.trace ++ [.mulA] }) := by
    unfold rf1Call
    rw [Py.assert_pos_bind hk, Py.assert_pos_bind hk']
    unfold afterTolWarning at hS
    by_cases ht : tol.isNaN
    · simp only [ht, not_true_eq_false, if_false, if_true] at hS ⊢
      rw [Py.bind_eq_of_ok hS]; rfl
    · simp only [ht, not_false_eq_true, if_true, if_false] at hS ⊢
      rw [Py.bind_eq_of_ok (Py.warn_apply w), Py.bind_eq_of_ok hS]; rfl
  refine ⟨_, _, hrun, ?_, la.qr_orth _, qr_range la _, ?_⟩
  · show ((min m S.c : ℕ) : ℤ) = k
    omega
  · intro hr
    apply colSpace_eq_of_le_rank (qr_range la _)
    have : (A * S.mat).rank = S.c := hr
    show min m S.c ≤ _
    omega

/-- **C01** (rejection).  Any other `k` raises AssertionError, whatever the sketcher is: no call
to it, no draw. -/
theorem C01_rf1_rejects (la : LinAlg) (rso : RowSketcher G) (A : Matrix (Fin m) (Fin n) ℝ) (k : ℤ)
    (tol : Tol) (w : World G) (hk : k ≤ 0 ∨ (min m n : ℕ) < k) :
    rf1Call la rso A k tol w = .error .assertion := by
  unfold rf1Call
  by_cases h1 : k > 0
  · rw [Py.assert_pos_bind h1, Py.assert_neg_bind (by omega)]; rfl
  · rw [Py.assert_neg_bind h1]; rfl

/-- **C01** for the procedural `rf1`: every return is an orthonormal basis with exactly `k`
columns covering `A S` for the sketch `S` the power method drew. -/
theorem C01_rf1_procedural (la : LinAlg) (gauss : SkOpGen G) (A : Matrix (Fin m) (Fin n) ℝ)
    (k numPass : ℤ) (w w' : World G) (Q : Cols m)
    (h : rf1 la gauss A k numPass w = .ok (Q, w')) :
    0 < k ∧ k ≤ (min m n : ℕ) ∧ (Q.c : ℤ) = k ∧ OrthoCols Q.mat ∧
      ∃ (S : Cols n) (w₁ : World G),
        rs1Call gauss (numPass - 1) (orth la) 1 A k.toNat { w with warns := w.warns + 1 }
          = .ok (S, w₁) ∧ colSpace (A * S.mat) ≤ colSpace Q.mat := by
  by_cases hk : k ≤ 0 ∨ (min m n : ℕ) < k
  · rw [rf1, C01_rf1_rejects la _ A k _ w hk] at h; cases h
  · have hk1 : k > 0 := by omega
    have hk2 : k ≤ (min m n : ℕ) := by omega
    unfold rf1 rf1Call at h
    rw [Py.assert_pos_bind hk1, Py.assert_pos_bind hk2] at h
    simp only [Tol.not_isNaN_val, not_false_eq_true, if_true] at h
    rw [Py.bind_eq_of_ok (Py.warn_apply w), Py.bind_ok_iff] at h
    obtain ⟨S, w1, h1, h⟩ := h
    simp [passA, Py.bind_apply] at h
    obtain ⟨rfl, rfl⟩ := h
    refine ⟨hk1, hk2, ?_, la.qr_orth _, S, w1, h1, qr_range la _⟩
    have hw : S.c = k.toNat := rs1Call_width_eq (fun _ _ => rfl) (by omega) h1
    show ((min m S.c : ℕ) : ℤ) = k
    omega

/-- the first `k` coordinate vectors as a sketch: a sketcher used in the examples below -/
def coordSketcher : RowSketcher G := fun _ n _ k =>
  pure ⟨k, Matrix.of fun (i : Fin n) (j : Fin k) => if i.1 = j.1 then 1 else 0⟩

-- the hypotheses of C01_rf1_basis are met: a 3×2 matrix, k = 2
example (w : World G) : ∃ S w₁, (coordSketcher (G := G)) 3 2
    (Matrix.of ![![1, 2], ![3, 4], ![5, 6]]) (2 : ℤ).toNat (afterTolWarning .nan w) = .ok (S, w₁) ∧
    (S.c : ℤ) = 2 := ⟨_, _, rfl, rfl⟩

/-- The documented start of the power iteration. -/
def DrewStart (gen : SkOpGen G) (r k : ℕ) (w : World G) (S0 : Matrix (Fin r) (Fin k) ℝ) : Prop :=
  ∃ w₁, gen r k w = .ok (S0, w₁)

/-- **C02** (equality).  With a range-preserving stabiliser, the range of RS1's output is that of
`(A'A)^(p/2) S0` (`p` even) or `(A'A)^((p-1)/2) A' S0` (`p` odd). -/
theorem C02_rs1_range (gen : SkOpGen G) (p : ℤ) (stab : Stab) (pps : ℕ)
    (hstab : ∀ r (X : Cols r), colSpace (stab r X).mat = colSpace X.mat)
    (A : Matrix (Fin m) (Fin n) ℝ) (k : ℕ) (w w' : World G) (S : Cols n)
    (h : rs1Call gen p stab pps A k w = .ok (S, w')) :
    (p % 2 = 0 → ∃ S0, DrewStart gen n k w S0 ∧
      colSpace S.mat = colSpace ((Aᵀ * A) ^ (p / 2).toNat * S0)) ∧
    (p % 2 = 1 → ∃ S0, DrewStart gen m k w S0 ∧
      colSpace S.mat = colSpace ((Aᵀ * A) ^ ((p - 1) / 2).toNat * (Aᵀ * S0))) := by
  obtain ⟨hp, ⟨hev, S0, w1, h1, h2⟩ | ⟨hev, S0, w1, S1, w2, h1, h2, h3⟩⟩ := rs1Call_open h
  · refine ⟨fun _ => ⟨S0, ⟨w1, h1⟩, ?_⟩, fun h' => by omega⟩
    exact rs1Loop_eq hstab _ _ _ _ _ _ _ h2
  · refine ⟨fun h' => by omega, fun _ => ⟨S0, ⟨w1, h1⟩, ?_⟩⟩
    rw [rs1Loop_eq hstab _ _ _ _ _ _ _ h3]
    apply colSpace_mul_congr
    split at h2
    · simp [callStab, Py.bind_apply] at h2
      rw [← h2.1]; exact hstab _ ⟨k, Aᵀ * S0⟩
    · simp at h2
      rw [← h2.1]

/-- **C02** (containment, no rank assumption).  If the stabiliser only never loses range, the
documented range is contained in that of the output. -/
theorem C02_rs1_range_le (gen : SkOpGen G) (p : ℤ) (stab : Stab) (pps : ℕ)
    (hstab : ∀ r (X : Cols r), colSpace X.mat ≤ colSpace (stab r X).mat)
    (A : Matrix (Fin m) (Fin n) ℝ) (k : ℕ) (w w' : World G) (S : Cols n)
    (h : rs1Call gen p stab pps A k w = .ok (S, w')) :
    (p % 2 = 0 → ∃ S0, DrewStart gen n k w S0 ∧
      colSpace ((Aᵀ * A) ^ (p / 2).toNat * S0) ≤ colSpace S.mat) ∧
    (p % 2 = 1 → ∃ S0, DrewStart gen m k w S0 ∧
      colSpace ((Aᵀ * A) ^ ((p - 1) / 2).toNat * (Aᵀ * S0)) ≤ colSpace S.mat) := by
  obtain ⟨hp, ⟨hev, S0, w1, h1, h2⟩ | ⟨hev, S0, w1, S1, w2, h1, h2, h3⟩⟩ := rs1Call_open h
  · refine ⟨fun _ => ⟨S0, ⟨w1, h1⟩, ?_⟩, fun h' => by omega⟩
    exact rs1Loop_le hstab _ _ _ _ _ _ _ h2
  · refine ⟨fun h' => by omega, fun _ => ⟨S0, ⟨w1, h1⟩, ?_⟩⟩
    refine le_trans ?_ (rs1Loop_le hstab _ _ _ _ _ _ _ h3)
    apply colSpace_mul_mono
    split at h2
    · simp [callStab, Py.bind_apply] at h2
      rw [← h2.1]; exact hstab _ ⟨k, Aᵀ * S0⟩
    · simp at h2
      rw [← h2.1]

/-- **C02** for PARLA's own stabilisers (`orth` and `lu_stabilize`): the documented range is always
contained in the output's, and equals it as soon as the documented matrix has full column rank. -/
theorem C02_rs1_range_parla (la : LinAlg) (gen : SkOpGen G) (p : ℤ) (stab : Stab)
    (hs : stab = orth la ∨ stab = luStabilize la) (pps : ℕ)
    (A : Matrix (Fin m) (Fin n) ℝ) (k : ℕ) (w w' : World G) (S : Cols n)
    (h : rs1Call gen p stab pps A k w = .ok (S, w')) :
    (p % 2 = 0 → ∃ S0, DrewStart gen n k w S0 ∧
      colSpace ((Aᵀ * A) ^ (p / 2).toNat * S0) ≤ colSpace S.mat ∧
      (FullColRank ((Aᵀ * A) ^ (p / 2).toNat * S0) →
        colSpace ((Aᵀ * A) ^ (p / 2).toNat * S0) = colSpace S.mat)) ∧
    (p % 2 = 1 → ∃ S0, DrewStart gen m k w S0 ∧
      colSpace ((Aᵀ * A) ^ ((p - 1) / 2).toNat * (Aᵀ * S0)) ≤ colSpace S.mat ∧
      (FullColRank ((Aᵀ * A) ^ ((p - 1) / 2).toNat * (Aᵀ * S0)) →
        colSpace ((Aᵀ * A) ^ ((p - 1) / 2).toNat * (Aᵀ * S0)) = colSpace S.mat)) := by
  have hle : ∀ r (X : Cols r), colSpace X.mat ≤ colSpace (stab r X).mat := by
    rcases hs with rfl | rfl
    · exact orth_le la
    · exact luStabilize_le la
  have hwd : ∀ r (X : Cols r), (stab r X).c ≤ X.c := by
    rcases hs with rfl | rfl
    · exact orth_width la
    · exact luStabilize_width la
  have hSk : S.c ≤ k := by
    obtain ⟨-, ⟨-, S0, w2, -, h2⟩ | ⟨-, S0, w2, S1, w3, -, h2, h3⟩⟩ := rs1Call_open h
    · exact rs1Loop_width hwd _ _ _ _ _ _ _ h2
    · refine (rs1Loop_width hwd _ _ _ _ _ _ _ h3).trans ?_
      split at h2
      · simp [callStab, Py.bind_apply] at h2
        rw [← h2.1]; exact hwd _ ⟨k, Aᵀ * S0⟩
      · simp at h2
        rw [← h2.1]
  obtain ⟨he, ho⟩ := C02_rs1_range_le gen p stab pps hle A k w w' S h
  constructor
  · intro hp
    obtain ⟨S0, hd, hr⟩ := he hp
    refine ⟨S0, hd, hr, fun hf => colSpace_eq_of_le_rank hr ?_⟩
    rw [hf]; exact hSk
  · intro hp
    obtain ⟨S0, hd, hr⟩ := ho hp
    refine ⟨S0, hd, hr, fun hf => colSpace_eq_of_le_rank hr ?_⟩
    rw [hf]; exact hSk

/-- The documented schedule of a power iteration with `p` passes: pass number `j = 1..p` is a
product with `A.T` if `p - j` is even and with `A` otherwise (so the passes alternate and the last
one is `A.T`), and is followed by a call of the stabiliser iff `j` is a multiple of `pps`. -/
def passSchedule (p pps : ℕ) : List Ev :=
  (List.range p).flatMap fun i =>
    (if (p - (i + 1)) % 2 = 0 then Ev.mulAT else Ev.mulA) ::
      (if pps ∣ (i + 1) then [Ev.stab] else [])

/-- **C03** (schedule).  After drawing its start RS1 performs exactly the documented schedule. -/
theorem C03_rs1_schedule (gen : SkOpGen G) (p : ℤ) (stab : Stab) (pps : ℕ)
    (A : Matrix (Fin m) (Fin n) ℝ) (k : ℕ) (w w' : World G) (S : Cols n)
    (h : rs1Call gen p stab pps A k w = .ok (S, w')) :
    ∃ w₁ : World G, ((p % 2 = 0 ∧ ∃ S0, gen n k w = .ok (S0, w₁)) ∨
        (p % 2 = 1 ∧ ∃ S0, gen m k w = .ok (S0, w₁))) ∧
      w'.trace = w₁.trace ++ passSchedule p.toNat pps := by
  obtain ⟨w1, hg, ht⟩ := rs1Call_trace h
  refine ⟨w1, ?_, ?_⟩
  · rcases hg with ⟨a, b⟩ | ⟨a, b⟩
    · exact Or.inl ⟨a, b⟩
    · exact Or.inr ⟨by omega, b⟩
  · rw [ht, passSchedule, List.range_eq_range', List.range'_eq_map_range, List.flatMap_map,
      List.range_eq_range']
    congr 2
    funext i
    simp only [passEvents, Nat.dvd_iff_mod_eq_zero, Nat.add_comm 1 i]

/-- **C03** (counts).  The schedule has exactly `p` products and `⌊p / pps⌋` stabiliser calls. -/
theorem C03_schedule_counts (p pps : ℕ) :
    (passSchedule p pps).count .mulA + (passSchedule p pps).count .mulAT = p ∧
    (passSchedule p pps).count .stab = p / pps := by
  have e : passSchedule p pps = (List.range' 1 p).flatMap (passEvents p pps) := by
    rw [passSchedule, List.range'_eq_map_range, List.flatMap_map]
    congr 1
    funext i
    simp only [passEvents, Nat.dvd_iff_mod_eq_zero, Nat.add_comm 1 i]
  rw [e]
  exact ⟨count_mul_range p pps p, count_stab_range p pps p⟩

/-- **C03** (last pass).  With `p > 0` the last product of the schedule is with `A.T`. -/
theorem C03_schedule_last (p pps : ℕ) (hp : 0 < p) :
    ((passSchedule p pps).filter (fun e => e ≠ .stab)).getLast? = some .mulAT := by
  obtain ⟨q, rfl⟩ : ∃ q, p = q + 1 := ⟨p - 1, by omega⟩
  rw [passSchedule, List.range_succ, List.flatMap_append, List.filter_append]
  have : (q + 1 - (q + 1)) % 2 = 0 := by simp
  simp only [List.flatMap_cons, List.flatMap_nil, List.append_nil, this, if_true]
  rw [List.filter_cons_of_pos (by simp)]
  have : List.filter (fun e => decide (e ≠ Ev.stab)) (if pps ∣ q + 1 then [Ev.stab] else []) = [] := by
    split <;> simp
  rw [this]
  simp

/-- **C03** (rejection). -/
theorem C03_rs1_rejects (gen : SkOpGen G) (p : ℤ) (stab : Stab) (pps : ℕ)
    (A : Matrix (Fin m) (Fin n) ℝ) (k : ℕ) (w : World G) (hp : p < 0) :
    rs1Call gen p stab pps A k w = .error .assertion := by
  unfold rs1Call
  rw [Py.assert_neg_bind (by omega)]; rfl

/-- **C03** for the procedural `rs1(A, k, num_pass, rng)`, rejection: a negative `num_pass`, or `k` outside
`1 .. min(A.shape)`, raises AssertionError whatever the generator does (no draw, no product). -/
theorem C03_rs1_function_rejects (la : LinAlg) (gauss : SkOpGen G) (A : Matrix (Fin m) (Fin n) ℝ)
    (k p : ℤ) (w : World G) (h : p < 0 ∨ k < 1 ∨ (min m n : ℕ) < k) :
    rs1 la gauss A k p w = .error .assertion := by
  unfold rs1
  by_cases h1 : p ≥ 0
  · rw [Py.assert_pos_bind h1]
    by_cases h2 : k ≥ 1
    · rw [Py.assert_pos_bind h2, Py.assert_neg_bind (by omega)]; rfl
    · rw [Py.assert_neg_bind h2]; rfl
  · rw [Py.assert_neg_bind h1]; rfl

/-- **C03** for the procedural `rs1`: every return has exactly `k` columns and was computed with exactly
`num_pass` products, alternating, ending with `A.T` and stabilised after each one; its range contains the
documented one. -/
theorem C03_rs1_function (la : LinAlg) (gauss : SkOpGen G) (A : Matrix (Fin m) (Fin n) ℝ)
    (k p : ℤ) (w w' : World G) (S : Cols n) (h : rs1 la gauss A k p w = .ok (S, w')) :
    0 ≤ p ∧ 1 ≤ k ∧ k ≤ (min m n : ℕ) ∧ (S.c : ℤ) = k ∧
    (p % 2 = 0 → ∃ S0 w₁, gauss n k.toNat w = .ok (S0, w₁) ∧
      w'.trace = w₁.trace ++ passSchedule p.toNat 1 ∧
      colSpace ((Aᵀ * A) ^ (p / 2).toNat * S0) ≤ colSpace S.mat) ∧
    (p % 2 = 1 → ∃ S0 w₁, gauss m k.toNat w = .ok (S0, w₁) ∧
      w'.trace = w₁.trace ++ passSchedule p.toNat 1 ∧
      colSpace ((Aᵀ * A) ^ ((p - 1) / 2).toNat * (Aᵀ * S0)) ≤ colSpace S.mat) := by
  by_cases hb : p < 0 ∨ k < 1 ∨ (min m n : ℕ) < k
  · rw [C03_rs1_function_rejects la gauss A k p w hb] at h; cases h
  unfold rs1 at h
  rw [Py.assert_pos_bind (by omega), Py.assert_pos_bind (by omega), Py.assert_pos_bind (by omega)] at h
  have hc : S.c = k.toNat := rs1Call_width_eq (fun _ _ => rfl) (by omega) h
  refine ⟨by omega, by omega, by omega, by omega, fun hp => ?_, fun hp => ?_⟩
  · obtain ⟨S0, ⟨w1, h1⟩, h2, -⟩ :=
      (C02_rs1_range_parla la gauss p (orth la) (Or.inl rfl) 1 A k.toNat w w' S h).1 hp
    obtain ⟨w2, ⟨-, S1, h3⟩ | ⟨h3, -⟩, h4⟩ := C03_rs1_schedule gauss p (orth la) 1 A k.toNat w w' S h
    · rw [h1] at h3; cases h3
      exact ⟨S0, w1, h1, h4, h2⟩
    · omega
  · obtain ⟨S0, ⟨w1, h1⟩, h2, -⟩ :=
      (C02_rs1_range_parla la gauss p (orth la) (Or.inl rfl) 1 A k.toNat w w' S h).2 hp
    obtain ⟨w2, ⟨h3, -⟩ | ⟨-, S1, h3⟩, h4⟩ := C03_rs1_schedule gauss p (orth la) 1 A k.toNat w w' S h
    · omega
    · rw [h1] at h3; cases h3
      exact ⟨S0, w1, h1, h4, h2⟩

-- `rs1` does return: one column, two passes
example (la : LinAlg) (w : World G) : ∃ S w', rs1 (G := G) la
    (fun _ _ => pure (Matrix.of fun i j => if i.1 = j.1 then 1 else 0))
    (Matrix.of ![![1, 2], ![3, 4]]) 1 2 w = .ok (S, w') := by
  unfold rs1
  rw [Py.assert_pos_bind (by norm_num), Py.assert_pos_bind (by norm_num), Py.assert_pos_bind (by norm_num)]
  exact ⟨_, _, rfl⟩

-- the hypotheses of C02/C03 are met: three passes over a 2×2 matrix, stabilising every second pass
example (la : LinAlg) (w : World G) : ∃ S w', rs1Call (G := G)
    (fun _ _ => pure (Matrix.of fun i j => if i.1 = j.1 then 1 else 0)) 3 (orth la) 2
    (Matrix.of ![![1, 2], ![3, 4]]) 1 w = .ok (S, w') := ⟨_, _, rfl⟩

example : passSchedule 3 2 = [.mulAT, .mulA, .stab, .mulAT] := by decide

end Parla.Props
