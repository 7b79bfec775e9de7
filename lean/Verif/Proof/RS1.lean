import Verif.Proof.Stab
import Verif.Model.Aware
import Mathlib.Data.Nat.Count

/-! Loop invariants of `RS1` (helper lemmas). -/

namespace Parla

open Matrix Spec

variable {G : Type} {m n k : ℕ}

theorem colSpace_pow_step (A : Matrix (Fin m) (Fin n) ℝ) (q : ℕ) {a b : ℕ}
    (S : Matrix (Fin n) (Fin a) ℝ) (T : Matrix (Fin n) (Fin b) ℝ)
    (h : colSpace ((Aᵀ * A) * S) ≤ colSpace T) :
    colSpace ((Aᵀ * A) ^ (q + 1) * S) ≤ colSpace ((Aᵀ * A) ^ q * T) := by
  rw [pow_succ, Matrix.mul_assoc, colSpace_mul, colSpace_mul (_ ^ q)]
  exact Submodule.map_mono h

theorem colSpace_mul_mono (M : Matrix (Fin m) (Fin n) ℝ) {a b : ℕ} {S : Matrix (Fin n) (Fin a) ℝ}
    {T : Matrix (Fin n) (Fin b) ℝ} (h : colSpace S ≤ colSpace T) :
    colSpace (M * S) ≤ colSpace (M * T) := by
  rw [colSpace_mul, colSpace_mul]; exact Submodule.map_mono h

theorem colSpace_mul_congr (M : Matrix (Fin m) (Fin n) ℝ) {a b : ℕ} {S : Matrix (Fin n) (Fin a) ℝ}
    {T : Matrix (Fin n) (Fin b) ℝ} (h : colSpace S = colSpace T) :
    colSpace (M * S) = colSpace (M * T) := by
  rw [colSpace_mul, colSpace_mul, h]

theorem maybeStab_cases {stab : Stab} {pps done r : ℕ} {S T : Cols r} {w w' : World G}
    (h : maybeStab stab pps done S w = .ok (T, w')) :
    (T = stab r S ∧ done % pps = 0 ∧ w'.trace = w.trace ++ [.stab]) ∨
      (T = S ∧ done % pps ≠ 0 ∧ w'.trace = w.trace) := by
  unfold maybeStab at h
  split at h
  · cases h
  · split at h
    · rename_i h2
      left
      simp [callStab, Py.bind_apply] at h
      obtain ⟨rfl, rfl⟩ := h
      exact ⟨rfl, h2, rfl⟩
    · rename_i h2
      right
      simp at h
      obtain ⟨rfl, rfl⟩ := h
      exact ⟨rfl, h2, rfl⟩

/-- one double pass of the loop, opened -/
theorem rs1Loop_succ {stab : Stab} {pps : ℕ} {A : Matrix (Fin m) (Fin n) ℝ} {q done : ℕ}
    {S T : Cols n} {w w' : World G} (h : rs1Loop stab pps A (q + 1) done S w = .ok (T, w')) :
    ∃ (Y : Cols m) (w₁ : World G) (Z : Cols n) (w₂ : World G),
      maybeStab stab pps (done + 1) ⟨S.c, A * S.mat⟩ { w with trace := w.trace ++ [.mulA] }
        = .ok (Y, w₁) ∧
      maybeStab stab pps (done + 2) ⟨Y.c, Aᵀ * Y.mat⟩ { w₁ with trace := w₁.trace ++ [.mulAT] }
        = .ok (Z, w₂) ∧
      rs1Loop stab pps A q (done + 2) Z w₂ = .ok (T, w') := by
  unfold rs1Loop at h
  (rw [Py.bind_ok_iff] at h; obtain ⟨Y0, w0, h0, h⟩ := h)
  simp [passA, Py.bind_apply] at h0
  obtain ⟨rfl, rfl⟩ := h0
  (rw [Py.bind_ok_iff] at h; obtain ⟨Y, w1, h1, h⟩ := h)
  (rw [Py.bind_ok_iff] at h; obtain ⟨Z0, w2, h2, h⟩ := h)
  simp [passAT, Py.bind_apply] at h2
  obtain ⟨rfl, rfl⟩ := h2
  (rw [Py.bind_ok_iff] at h; obtain ⟨Z, w3, h3, h⟩ := h)
  exact ⟨Y, w1, Z, w3, h1, h3, h⟩

theorem rs1Loop_le {stab : Stab} {pps : ℕ}
    (hs : ∀ r (X : Cols r), colSpace X.mat ≤ colSpace (stab r X).mat)
    (A : Matrix (Fin m) (Fin n) ℝ) (q done : ℕ) (S T : Cols n) (w w' : World G)
    (h : rs1Loop stab pps A q done S w = .ok (T, w')) :
    colSpace ((Aᵀ * A) ^ q * S.mat) ≤ colSpace T.mat := by
  induction q generalizing done S w with
  | zero =>
    simp [rs1Loop] at h
    (obtain ⟨rfl, rfl⟩ := h; simp)
  | succ q ih =>
    obtain ⟨Y, w1, Z, w2, h1, h2, h3⟩ := rs1Loop_succ h
    refine le_trans ?_ (ih _ _ _ h3)
    apply colSpace_pow_step
    have e1 : colSpace (A * S.mat) ≤ colSpace Y.mat := by
      rcases maybeStab_cases h1 with ⟨rfl, _⟩ | ⟨rfl, _⟩
      · exact hs _ ⟨S.c, A * S.mat⟩
      · exact le_rfl
    have e2 : colSpace (Aᵀ * Y.mat) ≤ colSpace Z.mat := by
      rcases maybeStab_cases h2 with ⟨rfl, _⟩ | ⟨rfl, _⟩
      · exact hs _ ⟨Y.c, Aᵀ * Y.mat⟩
      · exact le_rfl
    rw [Matrix.mul_assoc]
    exact (colSpace_mul_mono _ e1).trans e2

theorem rs1Loop_eq {stab : Stab} {pps : ℕ}
    (hs : ∀ r (X : Cols r), colSpace (stab r X).mat = colSpace X.mat)
    (A : Matrix (Fin m) (Fin n) ℝ) (q done : ℕ) (S T : Cols n) (w w' : World G)
    (h : rs1Loop stab pps A q done S w = .ok (T, w')) :
    colSpace T.mat = colSpace ((Aᵀ * A) ^ q * S.mat) := by
  induction q generalizing done S w with
  | zero =>
    simp [rs1Loop] at h
    (obtain ⟨rfl, rfl⟩ := h; simp)
  | succ q ih =>
    obtain ⟨Y, w1, Z, w2, h1, h2, h3⟩ := rs1Loop_succ h
    rw [ih _ _ _ h3, pow_succ, Matrix.mul_assoc]
    apply colSpace_mul_congr
    have e1 : colSpace Y.mat = colSpace (A * S.mat) := by
      rcases maybeStab_cases h1 with ⟨rfl, _⟩ | ⟨rfl, _⟩
      · exact hs _ ⟨S.c, A * S.mat⟩
      · rfl
    have e2 : colSpace Z.mat = colSpace (Aᵀ * Y.mat) := by
      rcases maybeStab_cases h2 with ⟨rfl, _⟩ | ⟨rfl, _⟩
      · exact hs _ ⟨Y.c, Aᵀ * Y.mat⟩
      · rfl
    rw [e2, Matrix.mul_assoc]
    exact colSpace_mul_congr _ e1

theorem rs1Loop_width {stab : Stab} {pps : ℕ}
    (hs : ∀ r (X : Cols r), (stab r X).c ≤ X.c)
    (A : Matrix (Fin m) (Fin n) ℝ) (q done : ℕ) (S T : Cols n) (w w' : World G)
    (h : rs1Loop stab pps A q done S w = .ok (T, w')) : T.c ≤ S.c := by
  induction q generalizing done S w with
  | zero =>
    simp [rs1Loop] at h
    (obtain ⟨rfl, rfl⟩ := h; simp)
  | succ q ih =>
    obtain ⟨Y, w1, Z, w2, h1, h2, h3⟩ := rs1Loop_succ h
    refine le_trans (ih _ _ _ h3) ?_
    have e1 : Y.c ≤ S.c := by
      rcases maybeStab_cases h1 with ⟨rfl, _⟩ | ⟨rfl, _⟩
      · exact hs _ ⟨S.c, A * S.mat⟩
      · exact le_rfl
    refine le_trans ?_ e1
    rcases maybeStab_cases h2 with ⟨rfl, _⟩ | ⟨rfl, _⟩
    · exact hs _ ⟨Y.c, Aᵀ * Y.mat⟩
    · exact le_rfl

/-- with a stabiliser of width `min(rows, columns)` no pass loses a column when `k ≤ min(m, n)` -/
theorem rs1Loop_width_eq {stab : Stab} {pps : ℕ}
    (hs : ∀ r (X : Cols r), (stab r X).c = min r X.c)
    (A : Matrix (Fin m) (Fin n) ℝ) (q done : ℕ) (S T : Cols n) (w w' : World G)
    (hS : S.c ≤ min m n)
    (h : rs1Loop stab pps A q done S w = .ok (T, w')) : T.c = S.c := by
  induction q generalizing done S w with
  | zero =>
    simp [rs1Loop] at h
    (obtain ⟨rfl, rfl⟩ := h; rfl)
  | succ q ih =>
    obtain ⟨Y, w1, Z, w2, h1, h2, h3⟩ := rs1Loop_succ h
    have e1 : Y.c = S.c := by
      rcases maybeStab_cases h1 with ⟨rfl, _⟩ | ⟨rfl, _⟩
      · rw [hs]; simp only; omega
      · rfl
    have e2 : Z.c = Y.c := by
      rcases maybeStab_cases h2 with ⟨rfl, _⟩ | ⟨rfl, _⟩
      · rw [hs]; simp only; omega
      · rfl
    rw [ih _ _ _ (by omega) h3, e2, e1]

/-- what `RS1` does up to its loop -/
theorem rs1Call_open {gen : SkOpGen G} {numPass : ℤ} {stab : Stab} {pps : ℕ}
    {A : Matrix (Fin m) (Fin n) ℝ} {S : Cols n} {w w' : World G}
    (h : rs1Call gen numPass stab pps A k w = .ok (S, w')) :
    0 ≤ numPass ∧
    ((numPass % 2 = 0 ∧ ∃ S0 w₁, gen n k w = .ok (S0, w₁) ∧
        rs1Loop stab pps A (numPass / 2).toNat 0 ⟨k, S0⟩ w₁ = .ok (S, w')) ∨
     (numPass % 2 ≠ 0 ∧ ∃ S0 w₁ S1 w₂, gen m k w = .ok (S0, w₁) ∧
        (if pps = 1 then callStab stab (⟨k, Aᵀ * S0⟩ : Cols n) else pure ⟨k, Aᵀ * S0⟩)
          { w₁ with trace := w₁.trace ++ [.mulAT] } = .ok (S1, w₂) ∧
        rs1Loop stab pps A ((numPass - 1) / 2).toNat 1 S1 w₂ = .ok (S, w'))) := by
  unfold rs1Call at h
  (rw [Py.bind_ok_iff] at h; obtain ⟨_, wa, ha, h⟩ := h)
  (rw [Py.assert_ok_iff] at ha; obtain ⟨hp, rfl⟩ := ha)
  refine ⟨hp, ?_⟩
  split at h
  · rename_i hev
    (rw [Py.bind_ok_iff] at h; obtain ⟨S0, w1, h1, h⟩ := h)
    refine Or.inl ⟨hev, S0, w1, h1, ?_⟩
    simpa using h
  · rename_i hev
    (rw [Py.bind_ok_iff] at h; obtain ⟨S0, w1, h1, h⟩ := h)
    (rw [Py.bind_ok_iff] at h; obtain ⟨S1, w2, h2, h⟩ := h)
    simp [passAT, Py.bind_apply] at h2
    obtain ⟨rfl, rfl⟩ := h2
    (rw [Py.bind_ok_iff] at h; obtain ⟨S2, w3, h3, h⟩ := h)
    exact Or.inr ⟨hev, S0, w1, S2, w3, h1, h3, h⟩

/-- `RS1` delivers exactly the `k` columns asked for -/
theorem rs1Call_width_eq {gen : SkOpGen G} {numPass : ℤ} {stab : Stab} {pps : ℕ}
    (hs : ∀ r (X : Cols r), (stab r X).c = min r X.c)
    {A : Matrix (Fin m) (Fin n) ℝ} {S : Cols n} {w w' : World G} (hk : k ≤ min m n)
    (h : rs1Call gen numPass stab pps A k w = .ok (S, w')) : S.c = k := by
  obtain ⟨-, ⟨-, S0, w1, -, h2⟩ | ⟨-, S0, w1, S1, w2, -, h2, h3⟩⟩ := rs1Call_open h
  · exact rs1Loop_width_eq hs _ _ _ _ _ _ _ (by exact hk) h2
  · have e : S1.c = k := by
      split at h2
      · simp [callStab, Py.bind_apply] at h2
        rw [← h2.1, hs]; simp only; omega
      · simp at h2
        rw [← h2.1]
    rw [rs1Loop_width_eq hs _ _ _ _ _ _ _ (by omega) h3, e]

/-- the events of pass number `j` (1-based) out of `p` -/
def passEvents (p pps j : ℕ) : List Ev :=
  (if (p - j) % 2 = 0 then Ev.mulAT else Ev.mulA) :: (if j % pps = 0 then [Ev.stab] else [])

theorem rs1Loop_trace {stab : Stab} {pps : ℕ} 
    (A : Matrix (Fin m) (Fin n) ℝ) (q done : ℕ) (S T : Cols n) (w w' : World G)
    (h : rs1Loop stab pps A q done S w = .ok (T, w')) :
    w'.trace = w.trace ++
      (List.range' (done + 1) (2 * q)).flatMap (passEvents (done + 2 * q) pps) := by
  induction q generalizing done S w with
  | zero =>
    simp [rs1Loop] at h
    simp [h.2]
  | succ q ih =>
    obtain ⟨Y, w1, Z, w2, h1, h2, h3⟩ := rs1Loop_succ h
    rw [ih _ _ _ h3]
    have e : 2 * (q + 1) = 2 * q + 1 + 1 := by ring
    rw [e, List.range'_succ, List.range'_succ]
    simp only [List.flatMap_cons]
    have d1 : (done + (2 * q + 1 + 1) - (done + 1)) % 2 ≠ 0 := by omega
    have d2 : (done + (2 * q + 1 + 1) - (done + 1 + 1)) % 2 = 0 := by omega
    have d3 : done + 2 + 2 * q = done + (2 * q + 1 + 1) := by ring
    rw [d3]
    have t1 : w1.trace = w.trace ++ passEvents (done + (2 * q + 1 + 1)) pps (done + 1) := by
      rw [passEvents, if_neg d1]
      rcases maybeStab_cases h1 with ⟨-, hm, ht⟩ | ⟨-, hm, ht⟩
      · rw [ht, if_pos hm]; simp
      · rw [ht, if_neg hm]
    have t2 : w2.trace = w1.trace ++ passEvents (done + (2 * q + 1 + 1)) pps (done + 1 + 1) := by
      rw [passEvents, if_pos d2]
      rcases maybeStab_cases h2 with ⟨-, hm, ht⟩ | ⟨-, hm, ht⟩
      · rw [ht, if_pos hm]; simp
      · rw [ht, if_neg hm]
    rw [t2, t1]
    simp [List.append_assoc]

theorem rs1Call_trace {gen : SkOpGen G} {numPass : ℤ} {stab : Stab} {pps : ℕ}
    {A : Matrix (Fin m) (Fin n) ℝ} {S : Cols n} {w w' : World G}
    (h : rs1Call gen numPass stab pps A k w = .ok (S, w')) :
    ∃ w₁ : World G,
      ((numPass % 2 = 0 ∧ ∃ S0, gen n k w = .ok (S0, w₁)) ∨
       (numPass % 2 ≠ 0 ∧ ∃ S0, gen m k w = .ok (S0, w₁))) ∧
      w'.trace = w₁.trace ++
        (List.range' 1 numPass.toNat).flatMap (passEvents numPass.toNat pps) := by
  obtain ⟨hp, ⟨hev, S0, w1, h1, h2⟩ | ⟨hev, S0, w1, S1, w2, h1, h2, h3⟩⟩ := rs1Call_open h
  · refine ⟨w1, Or.inl ⟨hev, S0, h1⟩, ?_⟩
    rw [rs1Loop_trace _ _ _ _ _ _ _ h2]
    have : 2 * (numPass / 2).toNat = numPass.toNat := by omega
    rw [this]; simp
  · refine ⟨w1, Or.inr ⟨hev, S0, h1⟩, ?_⟩
    rw [rs1Loop_trace _ _ _ _ _ _ _ h3]
    have e : numPass.toNat = 2 * ((numPass - 1) / 2).toNat + 1 := by omega
    rw [e]
    generalize ((numPass - 1) / 2).toNat = q
    rw [List.range'_succ, List.flatMap_cons]
    have : w2.trace = w1.trace ++ passEvents (2 * q + 1) pps 1 := by
      have d : (2 * q + 1 - 1) % 2 = 0 := by omega
      rw [passEvents, if_pos d]
      by_cases hpp : pps = 1
      · rw [if_pos hpp] at h2
        simp [callStab, Py.bind_apply] at h2
        rw [← h2.2, hpp]; simp
      · rw [if_neg hpp] at h2
        simp at h2
        have : ¬ 1 % pps = 0 := by
          intro h0; apply hpp; exact Nat.eq_one_of_dvd_one (Nat.dvd_of_mod_eq_zero h0)
        rw [← h2.2, if_neg this]
    rw [this]
    simp [Nat.add_comm]

theorem passEvents_count_stab (p pps j : ℕ) :
    (passEvents p pps j).count Ev.stab = if j % pps = 0 then 1 else 0 := by
  unfold passEvents
  split <;> split <;> simp

theorem passEvents_count_mul (p pps j : ℕ) :
    (passEvents p pps j).count Ev.mulA + (passEvents p pps j).count Ev.mulAT = 1 := by
  unfold passEvents
  split <;> split <;> simp

theorem count_stab_range (p pps : ℕ) (q : ℕ) :
    ((List.range' 1 q).flatMap (passEvents p pps)).count Ev.stab = q / pps := by
  induction q with
  | zero => simp
  | succ q ih =>
    rw [List.range'_concat, List.flatMap_append, List.count_append, ih]
    simp only [List.flatMap_cons, List.flatMap_nil, List.append_nil, passEvents_count_stab]
    rw [Nat.succ_div, Nat.add_comm 1, Nat.one_mul]
    congr 1
    simp [Nat.dvd_iff_mod_eq_zero]

theorem count_mul_range (p pps : ℕ) (q : ℕ) :
    ((List.range' 1 q).flatMap (passEvents p pps)).count Ev.mulA +
      ((List.range' 1 q).flatMap (passEvents p pps)).count Ev.mulAT = q := by
  induction q with
  | zero => simp
  | succ q ih =>
    rw [List.range'_concat, List.flatMap_append, List.count_append, List.count_append]
    simp only [List.flatMap_cons, List.flatMap_nil, List.append_nil]
    have := passEvents_count_mul p pps (1 + 1 * q)
    omega

end Parla
