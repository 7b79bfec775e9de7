import Verif.Proof.Generic
import Verif.Props.QB2Generic
import Verif.Props.QB3
import Verif.Props.EVD2
import Verif.Props.ID2
import Verif.Props.Orthonormal
import Verif.Props.SJLTExpect

/-! # C59: with Gaussian sketches the exactness claims hold almost surely

`∀ᵐ Z` ranges over arrays of independent standard normals.  The statement about a run is: for almost
every `Z`, in *every* run (backend, generator, state) in which `rng.standard_normal` returns `Z`. -/

namespace Parla.Props

open Matrix Parla Spec MeasureTheory

variable {G : Type} {m n : ℕ}

instance : NullSingletonClass stdNormal := by
  unfold stdNormal
  exact ProbabilityTheory.nullSingletonClass_gaussianReal one_ne_zero

/-- an array of independent standard normals -/
noncomputable abbrev normals (r c : ℕ) : Measure (Fin r × Fin c → ℝ) :=
  Proof.indep (Fin r × Fin c) stdNormal

/-- number of rows of the start drawn by a power iteration with `p` passes over an `m × n` matrix -/
def startRows (p : ℤ) (m n : ℕ) : ℕ := if p % 2 = 0 then n else m

/-- in world `w`, the next `rng.standard_normal((r, c))` returns the array `Z` -/
def NextNormal (R : NpRng G) (w : World G) (r c : ℕ) (Z : Fin r × Fin c → ℝ) : Prop :=
  (R.standardNormal r c w.rng).1 = Matrix.of fun i j => Z (i, j)

/-! ### RS1 over a Gaussian start -/

theorem maybeStab_one (stab : Stab) (done : ℕ) {r : ℕ} (S : Cols r) (w : World G) :
    maybeStab stab 1 done S w = .ok (stab r S, { w with trace := w.trace ++ [.stab] }) := by
  unfold maybeStab
  rw [if_neg one_ne_zero, if_pos (Nat.mod_one _)]
  rfl

theorem rs1Loop_total (stab : Stab) (A : Matrix (Fin m) (Fin n) ℝ) (q done : ℕ) (S : Cols n)
    (w : World G) : ∃ T w', rs1Loop stab 1 A q done S w = .ok (T, w') ∧ w'.rng = w.rng := by
  induction q generalizing done S w with
  | zero => exact ⟨S, w, rfl, rfl⟩
  | succ q ih =>
    unfold rs1Loop
    simp only [passA, passAT, Py.bind_apply, maybeStab_one, Py.emit_apply, Py.pure_apply]
    obtain ⟨T, w', h, hr⟩ := ih (done + 2) _ _
    exact ⟨T, w', h, hr⟩

theorem rs1Call_total (gen : SkOpGen G) (p : ℤ) (hp : 0 ≤ p) (stab : Stab)
    (A : Matrix (Fin m) (Fin n) ℝ) (k : ℕ) (w w1 : World G)
    (S0 : Matrix (Fin (startRows p m n)) (Fin k) ℝ) (hg : gen _ k w = .ok (S0, w1)) :
    ∃ S w', rs1Call gen p stab 1 A k w = .ok (S, w') ∧ w'.rng = w1.rng := by
  unfold rs1Call
  rw [Py.assert_pos_bind hp]
  by_cases h : p % 2 = 0
  · have e : startRows p m n = n := if_pos h
    obtain ⟨r, hr⟩ : ∃ r, r = startRows p m n := ⟨_, rfl⟩
    rw [if_pos h]
    revert S0
    rw [e]
    intro S0 hg
    rw [Py.bind_eq_of_ok hg]
    exact rs1Loop_total _ _ _ _ _ _
  · have e : startRows p m n = m := if_neg h
    rw [if_neg h]
    revert S0
    rw [e]
    intro S0 hg
    rw [Py.bind_eq_of_ok hg]
    simp only [passAT, Py.bind_apply, Py.emit_apply, Py.pure_apply, if_true, callStab]
    obtain ⟨T, w', h, hr⟩ := rs1Loop_total (G := G) stab A ((p - 1) / 2).toNat 1
      (stab n ⟨k, Aᵀ * S0⟩) { w1 with trace := (w1.trace ++ [Ev.mulAT]) ++ [Ev.stab] }
    exact ⟨T, w', h, hr⟩

theorem orth_full (la : LinAlg) {r : ℕ} (X : Cols r) : FullColRank (orth la r X).mat :=
  orthoCols_rank (la.qr_orth _)

theorem rs1Loop_full (la : LinAlg) (A : Matrix (Fin m) (Fin n) ℝ) (q done : ℕ) (S T : Cols n)
    (w w' : World G) (hS : FullColRank S.mat)
    (h : rs1Loop (orth la) 1 A q done S w = .ok (T, w')) : FullColRank T.mat := by
  induction q generalizing done S w with
  | zero =>
    have h2 : (Except.ok (S, w) : Except PyErr (Cols n × World G)) = .ok (T, w') := h
    cases h2
    exact hS
  | succ q ih =>
    obtain ⟨Y, w1, Z, w2, h1, h2, h3⟩ := rs1Loop_succ h
    rw [maybeStab_one, Except.ok.injEq, Prod.mk.injEq] at h2
    have hZ : FullColRank Z.mat := by rw [← h2.1]; exact orth_full la _
    exact ih _ _ _ hZ h3

theorem rs1Call_full (la : LinAlg) {gen : SkOpGen G} {p : ℤ} (A : Matrix (Fin m) (Fin n) ℝ) (k : ℕ)
    (S : Cols n) (w w' : World G)
    (hd : p = 0 → ∀ S0 w1, gen n k w = .ok (S0, w1) → FullColRank S0)
    (h : rs1Call gen p (orth la) 1 A k w = .ok (S, w')) : FullColRank S.mat := by
  obtain ⟨hp, ⟨hev, S0, w1, h1, h2⟩ | ⟨hev, S0, w1, S1, w2, h1, h2, h3⟩⟩ := rs1Call_open h
  · by_cases h0 : p = 0
    · have hf : FullColRank S0 := hd h0 S0 w1 h1
      exact rs1Loop_full la A _ _ ⟨k, S0⟩ _ _ _ hf h2
    · obtain ⟨q, hq⟩ : ∃ q, (p / 2).toNat = q + 1 := ⟨(p / 2).toNat - 1, by omega⟩
      rw [hq] at h2
      obtain ⟨Y, w3, Z, w4, h4, h5, h6⟩ := rs1Loop_succ h2
      rw [maybeStab_one, Except.ok.injEq, Prod.mk.injEq] at h5
      have hZ : FullColRank Z.mat := by rw [← h5.1]; exact orth_full la _
      exact rs1Loop_full la A _ _ _ _ _ _ hZ h6
  · rw [if_pos rfl] at h2
    simp [callStab, Py.bind_apply] at h2
    have hZ : FullColRank S1.mat := by rw [← h2.1]; exact orth_full la _
    exact rs1Loop_full la A _ _ _ _ _ _ hZ h3

theorem rank_smul_ne {a b : ℕ} {t : ℝ} (ht : t ≠ 0) (M : Matrix (Fin a) (Fin b) ℝ) :
    (t • M).rank = M.rank := by
  apply rank_eq_of_ker
  intro x
  rw [Matrix.smul_mulVec, smul_eq_zero, or_iff_right ht]

theorem gaussian_next (R : NpRng G) {r c : ℕ} (h : min r c ≠ 0) {w : World G}
    {Z : Fin r × Fin c → ℝ} (hZ : NextNormal R w r c Z) :
    ∃ t : ℝ, t ≠ 0 ∧ gaussianOperator R true r c w =
      .ok (t • Proof.drawMat Z, { w with rng := (R.standardNormal r c w.rng).2 }) := by
  refine ⟨Real.sqrt (1 / (min r c : ℕ)), ?_, ?_⟩
  · have : (0 : ℝ) < (min r c : ℕ) := by exact_mod_cast Nat.pos_of_ne_zero h
    positivity
  · rw [(C55_gaussian_result R r c w).1 h, show (R.standardNormal r c w.rng).1 = _ from hZ]
    rfl

theorem draw_cast {r r' c : ℕ} (e : r = r') (R : NpRng G) {w w1 : World G} {t : ℝ}
    {Z : Fin r × Fin c → ℝ}
    (h : gaussianOperator R true r c w = .ok (t • Proof.drawMat Z, w1))
    {S0 : Matrix (Fin r') (Fin c) ℝ} {w2 : World G}
    (h2 : gaussianOperator R true r' c w = .ok (S0, w2)) : S0 = t • e ▸ Proof.drawMat Z := by
  subst e
  rw [h] at h2
  cases h2; rfl

/-- What a Gaussian start is, almost surely, for a fixed `A`. -/
def GoodStart (p : ℤ) (A : Matrix (Fin m) (Fin n) ℝ) (k : ℕ)
    (Z : Fin (startRows p m n) × Fin k → ℝ) : Prop :=
  (∀ e : startRows p m n = n, p % 2 = 0 → (A * e ▸ Proof.drawMat Z).rank = min k A.rank) ∧
  (∀ e : startRows p m n = m, p % 2 = 1 → (Aᵀ * e ▸ Proof.drawMat Z).rank = min k A.rank) ∧
  (Proof.drawMat Z).rank = min k (startRows p m n)

theorem goodStart_ae (p : ℤ) (A : Matrix (Fin m) (Fin n) ℝ) (k : ℕ) :
    ∀ᵐ Z ∂(normals (startRows p m n) k), GoodStart p A k Z := by
  have h3 : ∀ r : ℕ, ∀ᵐ Z ∂(normals r k), (Proof.drawMat Z).rank = min k r := by
    intro r
    filter_upwards [Proof.ae_rank_mul (μ := stdNormal) (1 : Matrix (Fin r) (Fin r) ℝ) k] with Z hZ
    rw [Matrix.one_mul, rank_one, Fintype.card_fin] at hZ
    exact hZ
  have h1 : ∀ r : ℕ, ∀ e : r = n, ∀ᵐ Z ∂(normals r k), (A * e ▸ Proof.drawMat Z).rank = min k A.rank := by
    rintro r rfl
    exact Proof.ae_rank_mul A k
  have h2 : ∀ r : ℕ, ∀ e : r = m, ∀ᵐ Z ∂(normals r k), (Aᵀ * e ▸ Proof.drawMat Z).rank = min k A.rank := by
    rintro r rfl
    rw [← rank_transpose A]
    exact Proof.ae_rank_mul Aᵀ k
  unfold GoodStart
  refine Filter.Eventually.and ?_ (Filter.Eventually.and ?_ (h3 _))
  · by_cases e : startRows p m n = n
    · filter_upwards [h1 _ e] with Z hZ _ _ using hZ
    · exact Filter.Eventually.of_forall fun Z e' => absurd e' e
  · by_cases e : startRows p m n = m
    · filter_upwards [h2 _ e] with Z hZ _ _ using hZ
    · exact Filter.Eventually.of_forall fun Z e' => absurd e' e

theorem rs1_of_goodStart {p : ℤ} (hp : 0 ≤ p) {A : Matrix (Fin m) (Fin n) ℝ} {k : ℕ} (hk : 0 < k)
    (hm : 0 < m) (hn : 0 < n) {Z : Fin (startRows p m n) × Fin k → ℝ} (hg : GoodStart p A k Z)
    (la : LinAlg) (R : NpRng G) (w : World G) (hZ : NextNormal R w _ _ Z) :
    ∃ S w', rs1Call (gaussianOperator R true) p (orth la) 1 A k w = .ok (S, w') ∧
      (k ≤ min m n → S.c = k) ∧ (A * S.mat).rank = min k A.rank ∧
      (k ≤ n → FullColRank S.mat) := by
  have hne : min (startRows p m n) k ≠ 0 := by
    unfold startRows; split <;> omega
  obtain ⟨t, ht, hgen⟩ := gaussian_next R hne hZ
  obtain ⟨S, w', h, -⟩ := rs1Call_total _ p hp (orth la) A k w _ _ hgen
  refine ⟨S, w', h, fun hk' => rs1Call_width_eq (fun _ _ => rfl) hk' h, ?_, fun hkn => ?_⟩
  · apply le_antisymm
    · have hSk : S.c ≤ k := by
        obtain ⟨-, ⟨-, S0, w2, -, h2⟩ | ⟨-, S0, w2, S1, w3, -, h2, h3⟩⟩ := rs1Call_open h
        · exact rs1Loop_width (orth_width la) _ _ _ _ _ _ _ h2
        · refine (rs1Loop_width (orth_width la) _ _ _ _ _ _ _ h3).trans ?_
          rw [if_pos rfl] at h2
          simp [callStab, Py.bind_apply] at h2
          rw [← h2.1]; exact orth_width la _ ⟨k, Aᵀ * S0⟩
      exact le_min ((Matrix.rank_le_width _).trans hSk) (Matrix.rank_mul_le_left _ _)
    · obtain ⟨he, ho⟩ := C02_rs1_range_parla la _ p (orth la) (Or.inl rfl) 1 A k w w' S h
      obtain ⟨g1, g2, -⟩ := hg
      rcases Int.emod_two_eq_zero_or_one p with hp2 | hp2
      · obtain ⟨S0, ⟨w2, hd⟩, hle, -⟩ := he hp2
        have e : startRows p m n = n := if_pos hp2
        have g := g1 e hp2
        have hS0 := draw_cast e R hgen hd
        rw [hS0] at hle
        rw [← g, ← rank_smul_ne ht, ← Matrix.mul_smul, ← rank_power_even A (p / 2).toNat]
        exact Submodule.finrank_mono (colSpace_mul_mono A hle)
      · obtain ⟨S0, ⟨w2, hd⟩, hle, -⟩ := ho hp2
        have e : startRows p m n = m := if_neg (by omega)
        have g := g2 e hp2
        have hS0 := draw_cast e R hgen hd
        rw [hS0] at hle
        rw [← g, ← rank_smul_ne ht, ← Matrix.mul_smul, ← rank_power_odd A ((p - 1) / 2).toNat]
        exact Submodule.finrank_mono (colSpace_mul_mono A hle)
  · refine rs1Call_full la A k S w w' ?_ h
    rintro rfl S0 w1 h1
    have e : startRows 0 m n = n := rfl
    have g3 := hg.2.2
    have : S0 = t • Proof.drawMat Z := by
      rw [show gaussianOperator R true n k w = _ from hgen] at h1
      cases h1; rfl
    rw [this]
    exact (fullColRank_smul (m := n) ht).2 (g3.trans (by rw [e]; omega))

theorem eq_zero_of_rank {a b : ℕ} {M : Matrix (Fin a) (Fin b) ℝ} (h : M.rank = 0) : M = 0 := by
  have h1 : LinearMap.range M.mulVecLin = ⊥ := Submodule.finrank_eq_zero.1 h
  rw [LinearMap.range_eq_bot] at h1
  ext i j
  have := congrFun (congrArg (fun f => f (Pi.single j 1)) h1) i
  simpa using this

theorem proj_of_colSpace {a c b : ℕ} {Q : Matrix (Fin a) (Fin c) ℝ} (hQ : Qᵀ * Q = 1)
    {A : Matrix (Fin a) (Fin b) ℝ} (h : colSpace A ≤ colSpace Q) : Q * (Qᵀ * A) = A := by
  obtain ⟨W, rfl⟩ := colSpace_le_iff.1 h
  rw [← Matrix.mul_assoc Qᵀ, hQ, Matrix.one_mul]

theorem rf_range {la : LinAlg} {A : Matrix (Fin m) (Fin n) ℝ} {S : Cols n} {k : ℕ}
    (hc : S.c = k) (hr : (A * S.mat).rank = min k A.rank) :
    (k ≤ A.rank → colSpace (la.qr (A * S.mat)).1 ≤ colSpace A) ∧
    (A.rank ≤ k → colSpace A ≤ colSpace (la.qr (A * S.mat)).1) := by
  constructor
  · intro hk
    have hcs : colSpace (A * S.mat) = colSpace (la.qr (A * S.mat)).1 := by
      apply colSpace_eq_of_le_rank (qr_range la _)
      omega
    rw [← hcs]; exact colSpace_mul_le _ _
  · intro hk
    have hcs : colSpace (A * S.mat) = colSpace A := by
      apply Submodule.eq_of_le_of_finrank_le (colSpace_mul_le _ _)
      rw [finrank_colSpace, finrank_colSpace]; omega
    rw [← hcs]; exact qr_range la _

/-! ### Theorems -/

/-- **C59** (power sketch).  `rs1(A, k, p, rng)` with `p ≥ 0`, `1 ≤ k ≤ min(m, n)`: for almost every draw
the call returns a matrix `S` with `k` linearly independent columns such that `A S` has the largest rank
possible, `min(k, rank(A))`. -/
theorem C59_rs1 (A : Matrix (Fin m) (Fin n) ℝ) (k : ℕ) (hk : 0 < k) (hk' : k ≤ min m n) (p : ℤ)
    (hp : 0 ≤ p) :
    ∀ᵐ Z ∂(normals (startRows p m n) k), ∀ (G : Type) (la : LinAlg) (R : NpRng G)
      (w : World G), NextNormal R w _ _ Z →
      ∃ S w', rs1 la (gaussianOperator R true) A k p w = .ok (S, w') ∧
        S.c = k ∧ FullColRank S.mat ∧ (A * S.mat).rank = min k A.rank := by
  filter_upwards [goodStart_ae p A k] with Z hZ G la R w hw
  obtain ⟨S, w1, h1, h2, h3, h4⟩ := rs1_of_goodStart hp hk (by omega) (by omega) hZ la R w hw
  refine ⟨S, w1, ?_, h2 hk', h4 (by omega), h3⟩
  unfold rs1
  rw [Py.assert_pos_bind hp, Py.assert_pos_bind (by omega), Py.assert_pos_bind (by exact_mod_cast hk'),
    Int.toNat_natCast]
  exact h1

/-- **C59** (rangefinder).  `rf1(A, k, p, rng)` with `p ≥ 1` and `0 < k ≤ min(m, n)`: for almost every
array of normals drawn, the call returns an orthonormal basis of `k` columns which lies in the range of
`A` if `k ≤ rank(A)` and contains the range of `A` if `k ≥ rank(A)`. -/
theorem C59_rf1 (A : Matrix (Fin m) (Fin n) ℝ) (k : ℕ) (hk : 0 < k) (hk' : k ≤ min m n) (p : ℤ)
    (hp : 1 ≤ p) :
    ∀ᵐ Z ∂(normals (startRows (p - 1) m n) k), ∀ (G : Type) (la : LinAlg) (R : NpRng G)
      (w : World G), NextNormal R w _ _ Z →
      ∃ Q w', rf1 la (gaussianOperator R true) A k p w = .ok (Q, w') ∧
        Q.c = k ∧ OrthoCols Q.mat ∧
        (k ≤ A.rank → colSpace Q.mat ≤ colSpace A) ∧
        (A.rank ≤ k → colSpace A ≤ colSpace Q.mat ∧ Q.mat * (Q.matᵀ * A) = A) := by
  filter_upwards [goodStart_ae (p - 1) A k] with Z hZ G la R w hw
  obtain ⟨S, w1, h1, h2, h3, -⟩ := rs1_of_goodStart (by omega) hk (by omega) (by omega) hZ la R
    { w with warns := w.warns + 1 } hw
  refine ⟨⟨_, (la.qr (A * S.mat)).1⟩, { w1 with trace := w1.trace ++ [.mulA] }, ?_, ?_, la.qr_orth _, ?_⟩
  · unfold rf1 rf1Call
    rw [Py.assert_pos_bind (by exact_mod_cast hk), Py.assert_pos_bind (by exact_mod_cast hk')]
    simp only [Tol.not_isNaN_val, not_false_eq_true, if_true]
    rw [Py.bind_eq_of_ok (Py.warn_apply w)]
    have h1' : RS1 (gaussianOperator R true) (p - 1) (orth la) 1 m n A (k : ℤ).toNat
        { w with warns := w.warns + 1 } = .ok (S, w1) := by
      rw [Int.toNat_natCast]; exact h1
    rw [Py.bind_eq_of_ok h1']
    rfl
  · change min m S.c = k
    rw [h2 hk']; omega
  · obtain ⟨g1, g2⟩ := rf_range (la := la) (h2 hk') h3
    exact ⟨g1, fun h => ⟨g2 h, proj_of_colSpace (la.qr_orth _) (g2 h)⟩⟩

/-- **C59** (QB).  `qb(p, A, k, rng)` with `p ≥ 2`: for almost every draw the call returns `k` columns,
`B = Q'A`, and `Q B = A` as soon as `k ≥ rank(A)`. -/
theorem C59_qb (A : Matrix (Fin m) (Fin n) ℝ) (k : ℕ) (hk : 0 < k) (hk' : k ≤ min m n) (p : ℤ)
    (hp : 2 ≤ p) :
    ∀ᵐ Z ∂(normals (startRows (p - 2) m n) k), ∀ (G : Type) (la : LinAlg) (R : NpRng G)
      (w : World G), NextNormal R w _ _ Z →
      ∃ out w', qb la (gaussianOperator R true) p A k w = .ok (out, w') ∧
        out.c = k ∧ OrthoCols out.Q ∧ out.B = out.Qᵀ * A ∧ (A.rank ≤ k → out.Q * out.B = A) := by
  filter_upwards [goodStart_ae (p - 2) A k] with Z hZ G la R w hw
  obtain ⟨S, w1, h1, h2, h3, -⟩ := rs1_of_goodStart (by omega) hk (by omega) (by omega) hZ la R w hw
  have hrf : RF1 la (RS1 (gaussianOperator R true) (p - 2) (orth la) 1) m n A k .nan w =
      .ok (⟨_, (la.qr (A * S.mat)).1⟩, { w1 with trace := w1.trace ++ [.mulA] }) := by
    unfold RF1 rf1Call
    rw [Py.assert_pos_bind (by exact_mod_cast hk), Py.assert_pos_bind (by exact_mod_cast hk')]
    simp only [Tol.isNaN_nan, not_true_eq_false, if_false]
    have h1' : RS1 (gaussianOperator R true) (p - 2) (orth la) 1 m n A (k : ℤ).toNat w =
        .ok (S, w1) := by
      rw [Int.toNat_natCast]; exact h1
    rw [Py.bind_eq_of_ok h1']
    rfl
  obtain ⟨out, g1, rfl, -⟩ := C04_qb1 _ A k .nan w _ _ (by exact_mod_cast hk)
    (by exact_mod_cast hk') trivial hrf
  refine ⟨_, _, g1, ?_, la.qr_orth _, rfl, fun h => ?_⟩
  · change min m S.c = k
    rw [h2 hk']; omega
  · exact proj_of_colSpace (la.qr_orth _) ((rf_range (h2 hk') h3).2 h)

/-- **C59** (single-pass QB).  `qb_b_pe(p, blk, A, k, tol, rng)` with `0 < k < min(m, n)`,
`k ≤ rank(A)`: for almost every draw the call does not raise; it returns an orthonormal `Q` inside the
range of `A` and `B = Q'A`, and `Q B = A` if `k = rank(A)` and no tolerance is given. -/
theorem C59_qb_b_pe (A : Matrix (Fin m) (Fin n) ℝ) (k : ℕ) (hk : 0 < k) (hk' : k < min m n)
    (hr : k ≤ A.rank) (p : ℤ) (hp : 1 ≤ p) (blk : ℕ) (hblk : 0 < blk) (tol : Tol) :
    ∀ᵐ Z ∂(normals (startRows (p - 1) m n) k), ∀ (G : Type) (la : LinAlg) (R : NpRng G)
      (w : World G), NextNormal R w _ _ Z →
      ∃ out w', qbBPe la (gaussianOperator R true) p blk A k tol w = .ok (out, w') ∧
        OrthoCols out.Q ∧ out.B = out.Qᵀ * A ∧ colSpace out.Q ≤ colSpace A ∧
        (out.c = k ∨ ∃ t, tol = .val t ∧ 0 < t ∧ fro (A - out.Q * out.B) ≤ t * fro A) ∧
        (A.rank = k → out.c = k → out.Q * out.B = A) := by
  filter_upwards [goodStart_ae (p - 1) A k] with Z hZ G la R w hw
  obtain ⟨S, w1, h1, h2, h3, -⟩ := rs1_of_goodStart (by omega) hk (by omega) (by omega) hZ la R w hw
  have hc := h2 (by omega)
  have h1' : RS1 (gaussianOperator R true) (p - 1) (orth la) 1 m n A (k : ℤ).toNat w =
      .ok (S, w1) := by rw [Int.toNat_natCast]; exact h1
  have hfull : FullColRank (A * S.mat) := by
    unfold FullColRank; rw [h3, hc]; omega
  obtain ⟨out, w', h4⟩ := C10_qb3_returns la _ blk hblk A k tol w w1 S (by exact_mod_cast hk)
    (by exact_mod_cast hk') h1' (by exact_mod_cast hc) hfull
  obtain ⟨g1, g2, g3, g4⟩ := C10_qb3_correct la _ blk A k tol w w1 w' S h1' (by exact_mod_cast hc) out h4
  have g5 := (C11_qb3_columns la _ blk A k tol w w1 w' S h1' (by exact_mod_cast hc) out h4).2
  refine ⟨out, w', h4, g1, g2, ?_, ?_, fun hrk hck => ?_⟩
  · rw [g3]; exact colSpace_mul_le _ _
  · rcases g5 with g5 | g5
    · left; exact_mod_cast g5
    · exact Or.inr g5
  · rw [g2]
    apply proj_of_colSpace g1
    have : colSpace out.Q = colSpace A := by
      apply Submodule.eq_of_le_of_finrank_le (by rw [g3]; exact colSpace_mul_le _ _)
      rw [finrank_colSpace, finrank_colSpace, orthoCols_rank g1]; omega
    rw [this]

/-- **C59** (Nyström eigendecomposition).  `evd2(A, k, over, p, rng)` on a nonzero positive semidefinite
`A`, `p ≥ 1`, `0 < k < n`, `k + over ≤ n`: for almost every draw the call returns, with `k` components if
`k ≤ rank(A)` and `rank(A) - 1` components otherwise. -/
theorem C59_evd2 (A : Matrix (Fin n) (Fin n) ℝ) (hA : IsPSD A) (hA0 : A ≠ 0) (k : ℕ) (hk : 0 < k)
    (hk' : k < n) (over : ℕ) (ho : k + over ≤ n) (p : ℤ) (hp : 1 ≤ p) :
    ∀ᵐ Z ∂(normals (startRows (p - 1) n n) (k + over)), ∀ (G : Type) (la : LinAlg) (R : NpRng G)
      (w : World G), NextNormal R w _ _ Z →
      ∃ out w', evd2 la (gaussianOperator R true) A k over p w = .ok (out, w') ∧
        (k ≤ A.rank → out.r = k) ∧ (A.rank < k → out.r + 1 = A.rank) := by
  filter_upwards [goodStart_ae (p - 1) A (k + over)] with Z hZ G la R w hw
  obtain ⟨S, w1, h1, h2, h3, h4⟩ := rs1_of_goodStart (by omega) (by omega) (by omega) (by omega) hZ la R
    w hw
  have hc := h2 (by omega)
  have h1' : RS1 (gaussianOperator R true) (p - 1) (orth la) 1 n n A ((k : ℤ) + over).toNat
      (afterTolWarning .nan w) = .ok (S, w1) := by
    rw [show ((k : ℤ) + over).toNat = k + over by omega]; exact h1
  have hrk : 0 < A.rank := Nat.pos_of_ne_zero fun h => hA0 (eq_zero_of_rank h)
  have hAS : A * S.mat ≠ 0 := by
    intro h
    rw [h, Matrix.rank_zero] at h3
    omega
  obtain ⟨out, w', h5⟩ := C16_evd2_returns la _ A hA k (by exact_mod_cast hk) (by exact_mod_cast hk')
    .nan over w w1 S h1' (h4 ho) (by rw [hc]; push_cast; omega) hAS
  obtain ⟨-, g1, g2⟩ := C17_evd2_rank la _ A hA k .nan over w w1 w' out S h1'
    (by rw [hc]; push_cast; omega) h5
  refine ⟨out, w', ?_, fun h => ?_, fun h => ?_⟩
  · unfold evd2
    rw [Py.assert_pos_bind hp]; exact h5
  · have := g1 (by rw [h3]; push_cast; omega)
    exact_mod_cast this
  · have := g2 (by rw [h3]; push_cast; omega)
    rw [this, h3]; omega

/-- **C59** (orthonormal operators).  For almost every draw, `orthonormal_operator(r, c, rng)` has
orthonormal columns if `r ≥ c > 0` and orthonormal rows if `c > r > 0`. -/
theorem C59_orthonormal (r c : ℕ) (hr : 0 < r) (hc : 0 < c) :
    (c ≤ r → ∀ᵐ Z ∂(normals r c), ∀ (G : Type) (la : LinAlg) (R : NpRng G) (w : World G),
      NextNormal R w r c Z → ∃ S w', orthonormalOperator la R r c w = .ok (S, w') ∧ OrthoCols S) ∧
    (r < c → ∀ᵐ Z ∂(normals c r), ∀ (G : Type) (la : LinAlg) (R : NpRng G) (w : World G),
      NextNormal R w c r Z → ∃ S w', orthonormalOperator la R r c w = .ok (S, w') ∧ OrthoRows S) := by
  have h0 : ∀ a b : ℕ, b ≤ a → ∀ᵐ Z ∂(normals a b), FullColRank (Proof.drawMat Z) := by
    intro a b hab
    filter_upwards [Proof.ae_rank_mul (μ := stdNormal) (1 : Matrix (Fin a) (Fin a) ℝ) b] with Z hZ
    rw [Matrix.one_mul, rank_one, Fintype.card_fin] at hZ
    unfold FullColRank; omega
  refine ⟨fun hrc => ?_, fun hrc => ?_⟩
  · filter_upwards [h0 r c hrc] with Z hZ G la R w hw
    obtain ⟨S, h1, h2, -⟩ := C49_orthonormal_tall la R r c hrc hc w
    exact ⟨S, _, h1, (h2 (by rw [show (R.standardNormal r c w.rng).1 = _ from hw]; exact hZ)).1⟩
  · filter_upwards [h0 c r hrc.le] with Z hZ G la R w hw
    obtain ⟨S, h1, h2, -⟩ := C49_orthonormal_wide la R r c hrc hr w
    exact ⟨S, _, h1, (h2 (by rw [show (R.standardNormal c r w.rng).1 = _ from hw]; exact hZ)).1⟩

theorem keeps_range {A : Matrix (Fin m) (Fin n) ℝ} {S : Cols n} {k : ℕ} (hk : A.rank ≤ k)
    (h : (A * S.mat).rank = min k A.rank) : colSpace (A * S.mat) = colSpace A := by
  apply Submodule.eq_of_le_of_finrank_le (colSpace_mul_le _ _)
  rw [finrank_colSpace, finrank_colSpace]; omega

/-- the column version for every matrix -/
theorem osid1_col_ae (A : Matrix (Fin m) (Fin n) ℝ) (k over : ℕ) (hk : 0 < k) (hr : k ≤ A.rank) (q : ℤ)
    (hq : 0 ≤ q) :
    ∀ᵐ Z ∂(normals (startRows q n m) (k + over)), ∀ (G : Type) (la : LinAlg) (R : NpRng G)
      (w : World G), NextNormal R w _ _ Z →
      ∃ o w', (OSID1 la (RS1 (gaussianOperator R true) q (orth la) 1)).col m n A k over w =
        .ok (o, w') ∧ (A.rank = k → A.submatrix id o.Js * o.X = A) := by
  have hm : 0 < m := by have := Matrix.rank_le_height A; omega
  have hn : 0 < n := by have := Matrix.rank_le_width A; omega
  filter_upwards [goodStart_ae q Aᵀ (k + over)] with Z hZ G la R w hw
  obtain ⟨S, w1, h1, -, h3, -⟩ := rs1_of_goodStart hq (by omega) (by omega) (by omega) hZ la R
    w hw
  rw [rank_transpose] at h3
  by_cases hrk : A.rank = k
  · obtain ⟨o, w', g1, g2⟩ := osid1_col_exact la (RS1 (gaussianOperator R true) q (orth la) 1)
      A k over w w1 S h1 (keeps_range (k := k + over) (by rw [rank_transpose]; omega)
        (by rw [rank_transpose]; exact h3)) hrk
    exact ⟨o, w', g1, fun _ => g2⟩
  · obtain ⟨o, ho⟩ := (qrcpCol_cases la (Aᵀ * S.mat)ᵀ k).1 (by rw [rank_transpose, h3]; omega)
    refine ⟨o, { w1 with trace := w1.trace ++ [.mulA] },
      osid1_col_ok.2 ⟨⟨S.c, Aᵀ * S.mat⟩, ?_, ho⟩, fun h => absurd h hrk⟩
    rw [sketchCols_eq, sketchRows_ok]; exact ⟨S, w1, h1, rfl, rfl⟩

theorem osid1_row_ae (A : Matrix (Fin m) (Fin n) ℝ) (k over : ℕ) (hk : 0 < k) (hr : k ≤ A.rank) (q : ℤ)
    (hq : 0 ≤ q) :
    ∀ᵐ Z ∂(normals (startRows q m n) (k + over)), ∀ (G : Type) (la : LinAlg) (R : NpRng G)
      (w : World G), NextNormal R w _ _ Z →
      ∃ o w', (OSID1 la (RS1 (gaussianOperator R true) q (orth la) 1)).row m n A k over w =
        .ok (o, w') ∧ (A.rank = k → o.Z * A.submatrix o.Is id = A) := by
  filter_upwards [osid1_col_ae Aᵀ k over hk (by rwa [rank_transpose]) q hq] with Z hZ G la R w hw
  obtain ⟨o, w', g1, g2⟩ := hZ G la R w hw
  refine ⟨RowID.ofCol o, w', osid1_row_ok.2 ⟨o, g1, rfl⟩, fun h => ?_⟩
  have := congrArg Matrix.transpose (g2 (by rwa [rank_transpose]))
  simp only [transpose_submatrix, transpose_mul, transpose_transpose] at this
  exact this

/-- **C59** (one-sided ID).  `osid1(A, k, over, p, axis, rng)` with `p ≥ 1` and `0 < k ≤ rank(A)`: for
almost every draw the call returns (no singular pivoted factor), and the decomposition is exact if
`k = rank(A)`.  The start has `k + over` columns; for `axis = 1` the power iteration runs on `A'`. -/
theorem C59_osid1 (A : Matrix (Fin m) (Fin n) ℝ) (k over : ℕ) (hk : 0 < k) (hr : k ≤ A.rank) (p : ℤ)
    (hp : 1 ≤ p) :
    (∀ᵐ Z ∂(normals (startRows (p - 1) m n) (k + over)), ∀ (G : Type) (la : LinAlg) (R : NpRng G)
      (w : World G), NextNormal R w _ _ Z →
      ∃ o w', osid1 la (gaussianOperator R true) A k over p 0 w = .ok (.row o, w') ∧
        (A.rank = k → o.Z * A.submatrix o.Is id = A)) ∧
    (∀ᵐ Z ∂(normals (startRows (p - 1) n m) (k + over)), ∀ (G : Type) (la : LinAlg) (R : NpRng G)
      (w : World G), NextNormal R w _ _ Z →
      ∃ o w', osid1 la (gaussianOperator R true) A k over p 1 w = .ok (.col o, w') ∧
        (A.rank = k → A.submatrix id o.Js * o.X = A)) := by
  constructor
  · filter_upwards [osid1_row_ae A k over hk hr (p - 1) (by omega)] with Z hZ G la R w hw
    obtain ⟨o, w', g1, g2⟩ := hZ G la R w hw
    exact ⟨o, w', call_row.2 ⟨o, g1, rfl⟩, g2⟩
  · filter_upwards [osid1_col_ae A k over hk hr (p - 1) (by omega)] with Z hZ G la R w hw
    obtain ⟨o, w', g1, g2⟩ := hZ G la R w hw
    exact ⟨o, w', call_col.2 ⟨o, g1, rfl⟩, g2⟩

/-- **C59** (two-sided ID).  `tsid1(A, k, over, p, rng)` with `p ≥ 1` and `k = rank(A) > 0`: for almost
every draw the call returns and `A = Z A[Is, Js] X`. -/
theorem C59_tsid1 (A : Matrix (Fin m) (Fin n) ℝ) (k over : ℕ) (hk : 0 < k) (hr : A.rank = k) (p : ℤ)
    (hp : 1 ≤ p) :
    (m > n → ∀ᵐ Z ∂(normals (startRows (p - 1) n m) (k + over)), ∀ (G : Type) (la : LinAlg)
      (R : NpRng G) (w : World G), NextNormal R w _ _ Z →
      ∃ o w', tsid1 la (gaussianOperator R true) A k over p w = .ok (o, w') ∧
        o.row.Z * A.submatrix o.row.Is o.col.Js * o.col.X = A) ∧
    (m ≤ n → ∀ᵐ Z ∂(normals (startRows (p - 1) m n) (k + over)), ∀ (G : Type) (la : LinAlg)
      (R : NpRng G) (w : World G), NextNormal R w _ _ Z →
      ∃ o w', tsid1 la (gaussianOperator R true) A k over p w = .ok (o, w') ∧
        o.row.Z * A.submatrix o.row.Is o.col.Js * o.col.X = A) := by
  have fin : ∀ {G : Type} (la : LinAlg) (R : NpRng G) (w w' : World G) (o : TSIDOut m n),
      tsid1 la (gaussianOperator R true) A k over p w = .ok (o, w') →
      (m > n → A.submatrix id o.col.Js * o.col.X = A) →
      (¬ m > n → o.row.Z * A.submatrix o.row.Is id = A) →
      o.row.Z * A.submatrix o.row.Is o.col.Js * o.col.X = A := by
    intro G la R w w' o h h1 h2
    have h3 := (C21_tsid1 la _ A k over p w w' o h).2.2.2.2
    have h4 : fro (A - o.row.Z * A.submatrix o.row.Is o.col.Js * o.col.X) = 0 := by
      rw [h3]
      split
      · rename_i hmn
        rw [h1 hmn, sub_self]; exact fro_eq_zero.2 rfl
      · rename_i hmn
        rw [h2 hmn, sub_self]; exact fro_eq_zero.2 rfl
    exact (sub_eq_zero.1 (fro_eq_zero.1 h4)).symm
  constructor
  · intro hmn
    filter_upwards [osid1_col_ae A k over hk hr.ge (p - 1) (by omega)] with Z hZ G la R w hw
    obtain ⟨o, w', g1, g2⟩ := hZ G la R w hw
    have g3 := g2 hr
    have hrk : k ≤ (A.submatrix id o.Js).rank := by
      rw [← hr]
      conv_lhs => rw [← g3]
      exact Matrix.rank_mul_le_left _ _
    obtain ⟨x, hx⟩ := (qrcpCol_cases la (A.submatrix id o.Js)ᵀ k).1 (by rwa [rank_transpose])
    have ht : tsid1 la (gaussianOperator R true) A k over p w = .ok (⟨RowID.ofCol x, o⟩, w') :=
      (tsid1_tall hmn).2 ⟨g1, qrcpRow_ok.2 ⟨x, hx, rfl⟩⟩
    exact ⟨_, w', ht, fin la R w w' _ ht (fun _ => g3) (fun h => absurd hmn h)⟩
  · intro hmn
    filter_upwards [osid1_row_ae A k over hk hr.ge (p - 1) (by omega)] with Z hZ G la R w hw
    obtain ⟨o, w', g1, g2⟩ := hZ G la R w hw
    have g3 := g2 hr
    have hrk : k ≤ (A.submatrix o.Is id).rank := by
      rw [← hr]
      conv_lhs => rw [← g3]
      exact Matrix.rank_mul_le_right _ _
    obtain ⟨x, hx⟩ := (qrcpCol_cases la (A.submatrix o.Is id) k).1 hrk
    have ht : tsid1 la (gaussianOperator R true) A k over p w = .ok (⟨o, x⟩, w') :=
      (tsid1_wide (by omega)).2 ⟨g1, hx⟩
    exact ⟨_, w', ht, fin la R w w' _ ht (fun h => absurd h (by omega)) (fun _ => g3)⟩

/-- **C59** (CUR).  `cur1(A, k, over, p, rng)` with `p ≥ 2` and `k = rank(A) > 0`: for almost every draw
the call returns and `A = A[:, Js] U A[Is, :]`. -/
theorem C59_cur1 (A : Matrix (Fin m) (Fin n) ℝ) (k over : ℕ) (hk : 0 < k) (hr : A.rank = k) (p : ℤ)
    (hp : 2 ≤ p) :
    (m > n → ∀ᵐ Z ∂(normals (startRows (p - 2) n m) (k + over)), ∀ (G : Type) (la : LinAlg)
      (R : NpRng G) (w : World G), NextNormal R w _ _ Z →
      ∃ o w', cur1 la (gaussianOperator R true) A k over p w = .ok (o, w') ∧
        A.submatrix id o.Js * o.U * A.submatrix o.Is id = A) ∧
    (m ≤ n → ∀ᵐ Z ∂(normals (startRows (p - 2) m n) (k + over)), ∀ (G : Type) (la : LinAlg)
      (R : NpRng G) (w : World G), NextNormal R w _ _ Z →
      ∃ o w', cur1 la (gaussianOperator R true) A k over p w = .ok (o, w') ∧
        A.submatrix id o.Js * o.U * A.submatrix o.Is id = A) := by
  constructor
  · intro hmn
    filter_upwards [osid1_col_ae A k over hk hr.ge (p - 2) (by omega)] with Z hZ G la R w hw
    obtain ⟨o, w', g1, g2⟩ := hZ G la R w hw
    have hc : o.c = k := (osid1_col_interp g1).1
    obtain ⟨out, g4, g5⟩ := C22_cur1_exact_tall la
      (OSID1 la (RS1 (gaussianOperator R true) (p - 2) (orth la) 1)) A hmn over w w' o (by rw [hr, hc])
      (by rw [hc]; exact g1) (g2 hr)
    exact ⟨out, w', by rw [hc] at g4; exact g4, g5⟩
  · intro hmn
    filter_upwards [osid1_row_ae A k over hk hr.ge (p - 2) (by omega)] with Z hZ G la R w hw
    obtain ⟨o, w', g1, g2⟩ := hZ G la R w hw
    have hc : o.c = k := by
      obtain ⟨o', h1, rfl⟩ := osid1_row_ok.1 g1
      exact (osid1_col_interp h1).1
    obtain ⟨out, g4, g5⟩ := C22_cur1_exact_wide la
      (OSID1 la (RS1 (gaussianOperator R true) (p - 2) (orth la) 1)) A hmn over w w' o (by rw [hr, hc])
      (by rw [hc]; exact g1) (g2 hr)
    exact ⟨out, w', by rw [hc] at g4; exact g4, g5⟩

-- non-vacuity: a generator that returns a prescribed array exists, so every `Z` is the draw of some run
example {r c : ℕ} (Z : Fin r × Fin c → ℝ) (R0 : NpRng ℕ) : ∃ (R : NpRng ℕ) (w : World ℕ),
    NextNormal R w r c Z := by
  classical
  refine ⟨{ R0 with standardNormal := fun a b g =>
    (if h : r = a ∧ c = b then h.1 ▸ h.2 ▸ Matrix.of fun i j => Z (i, j) else 0, g) }, ⟨0, 0, []⟩, ?_⟩
  simp [NextNormal]

-- non-vacuity: the law of the draws is a probability measure, so "almost every" is not empty
example (r c : ℕ) : IsProbabilityMeasure (normals r c) := by
  unfold normals Proof.indep; infer_instance

end Parla.Props
