import Verif.Proof.RoundingPCG
import Verif.Props.PCG
import Verif.Props.Matmakers

/-! # Property C85: the residuals `pcg` and `PcSS1` report and test, with rounding errors -/

namespace Parla.Props

open Matrix Parla Spec Parla.Proof

variable {m n r : ℕ}

/-! ## Exact arithmetic -/

theorem pcgStepFl_exact (mvMat mvPre : (Fin n → ℝ) → Fin n → ℝ) (rhs : Fin n → ℝ) (s : PCGState n) :
    pcgStepFl exactVec mvMat mvPre rhs s = pcgStep mvMat mvPre rhs s := by
  unfold pcgStepFl pcgStep
  cases s.d with
  | none => rfl
  | some d =>
    simp only [exactVec]
    by_cases h : d ⬝ᵥ mvMat d = 0
    · simp only [if_pos h]
    · simp only [if_neg h]
      by_cases h' : s.delta1 = 0
      · simp only [if_pos h']
      · simp only [if_neg h']

theorem pcgLoopFl_exact (mvMat mvPre : (Fin n → ℝ) → Fin n → ℝ) (rhs : Fin n → ℝ) (relTol : ℝ) (k : ℕ) :
    ∀ s : PCGState n, pcgLoopFl exactVec mvMat mvPre rhs relTol k s = pcgLoop mvMat mvPre rhs relTol k s := by
  induction k with
  | zero => intro s; rfl
  | succ k ih =>
    intro s
    unfold pcgLoopFl pcgLoop
    rw [pcgStepFl_exact]
    cases pcgStep mvMat mvPre rhs s with
    | error e => rfl
    | ok s' => simp only [ih]

/-- **C85** (exact arithmetic).  With exact operations the functions of this property are the `pcg` and the `PcSS1` of all
other claims. -/
theorem C85_exact (mvMat mvPre : (Fin n → ℝ) → Fin n → ℝ) (rhs x0 : Fin n → ℝ) (L : ℤ) (tol : ℝ)
    (A : Matrix (Fin m) (Fin n) ℝ) (b : Fin m → ℝ) (c : Option (Fin n → ℝ)) (δ : ℝ) (R : Matrix (Fin n) (Fin r) ℝ)
    (z0 : Option (Fin r → ℝ)) :
    pcgFl exactVec mvMat rhs mvPre L tol x0 = pcg mvMat rhs mvPre L tol x0 ∧
    pcss1CoreFl exactVec pcss1Pre A b c δ tol L R z0 = PcSS1 m n A (.vec b) c δ tol L (.gen r R) z0 := by
  have h : ∀ (mvMat mvPre : (Fin n → ℝ) → Fin n → ℝ) (rhs x0 : Fin n → ℝ),
      pcgFl exactVec mvMat rhs mvPre L tol x0 = pcg mvMat rhs mvPre L tol x0 := by
    intro mvMat mvPre rhs x0
    unfold pcgFl pcg
    simp only [pcgLoopFl_exact]
    rfl
  refine ⟨h _ _ _ _, ?_⟩
  show _ = pcss1Core A b c δ tol L R z0
  unfold pcss1CoreFl pcss1Core
  simp only [h]
  have e : normalRhsFl exactVec A b c = normalRhs A b c := by cases c <;> rfl
  rw [e]
  rfl

/-! ## `pcg` -/

theorem pcgFl_ok_iff {fl : FlVec} {mvMat mvPre : (Fin n → ℝ) → Fin n → ℝ} {rhs x0 x : Fin n → ℝ} {L : ℤ} {tol : ℝ}
    {log : List ℝ} : pcgFl fl mvMat rhs mvPre L tol x0 = .ok (x, log) ↔ 0 ≤ L ∧ ∃ t,
      pcgLoopFl fl mvMat mvPre rhs (fl.mul tol (fl.norm (fl.sub rhs (mvMat x0)))) L.toNat (pcgInitFl fl mvMat mvPre rhs x0) =
        .ok t ∧ t.x = x ∧ t.log = log := by
  unfold pcgFl
  by_cases h : L < 0
  · rw [if_pos h]
    constructor
    · intro h'; cases h'
    · rintro ⟨h', -⟩; omega
  · rw [if_neg h]
    simp only
    rw [show (pcgInitFl fl mvMat mvPre rhs x0).curErr = fl.norm (fl.sub rhs (mvMat x0)) from rfl]
    constructor
    · intro h'
      cases ht : pcgLoopFl fl mvMat mvPre rhs (fl.mul tol (fl.norm (fl.sub rhs (mvMat x0)))) L.toNat
          (pcgInitFl fl mvMat mvPre rhs x0) with
      | error e => rw [ht] at h'; cases h'
      | ok t =>
        rw [ht] at h'
        cases h'
        exact ⟨by omega, t, rfl, rfl, rfl⟩
    · rintro ⟨-, t, ht, rfl, rfl⟩
      rw [ht]

/-- **C85** (`pcg`).  Let `mat` be any matrix with `‖mat v‖ ≤ κ ‖v‖`, let `mv_mat` compute its products up to `η ‖v‖`, let
`mv_pre` be any function, and let the vector operations of `pcg` be accurate to `ε ≤ 1/100`, whatever its inner products and
quotients.  Suppose `pcg` returns `(x, residuals)`, and no iterate (no point it returns under a smaller `iter_lim`) is longer
than `X`.  Then every logged value is the norm of the residual of its iterate up to `B = 34 η X + 80 ε (‖rhs‖ + κ X)`, a bound
that does not depend on the number of iterations; and if `pcg` stopped before `iter_lim` then the residual of `x` is at most
`tol` times that of `x0` up to the same error. -/
theorem C85_pcg_honest (fl : FlVec) (N : ℕ) (ε : ℝ) (hfl : fl.Accurate N ε) (hε : 0 ≤ ε) (hε1 : ε ≤ 1 / 100) (hn : n ≤ N)
    (K : Matrix (Fin n) (Fin n) ℝ) (mvMat mvPre : (Fin n → ℝ) → Fin n → ℝ) (κ η : ℝ) (hκ : 0 ≤ κ) (hη : 0 ≤ η)
    (hK : ∀ v, norm2 (K *ᵥ v) ≤ κ * norm2 v) (hmv : ∀ v, norm2 (mvMat v - K *ᵥ v) ≤ η * norm2 v)
    (rhs x0 x : Fin n → ℝ) (L : ℤ) (tol : ℝ) (htol : 0 ≤ tol) (log : List ℝ)
    (h : pcgFl fl mvMat rhs mvPre L tol x0 = .ok (x, log)) (X : ℝ)
    (hX : ∀ j : ℤ, j ≤ L → ∀ xj lj, pcgFl fl mvMat rhs mvPre j tol x0 = .ok (xj, lj) → norm2 xj ≤ X) (B : ℝ)
    (hB : B = 34 * (η * X) + 80 * (ε * (norm2 rhs + κ * X))) :
    (log.length : ℤ) ≤ L ∧
    ((log.length : ℤ) = L ∨ norm2 (rhs - K *ᵥ x) ≤ (1 + ε) * tol * (norm2 (rhs - K *ᵥ x0) + B) + B) ∧
    ∀ i (hi : i < log.length), ∃ xi, pcgFl fl mvMat rhs mvPre i tol x0 = .ok (xi, log.take i) ∧
      |log[i] - norm2 (rhs - K *ᵥ xi)| ≤ B := by
  obtain ⟨hL, t, ht, rfl, rfl⟩ := pcgFl_ok_iff.1 h
  obtain ⟨s, es⟩ : ∃ s, s = pcgInitFl fl mvMat mvPre rhs x0 := ⟨_, rfl⟩
  obtain ⟨rt, ert⟩ : ∃ rt, rt = fl.mul tol (fl.norm (fl.sub rhs (mvMat x0))) := ⟨_, rfl⟩
  rw [← es, ← ert] at ht
  have hloop : ∀ j : ℕ, j ≤ L.toNat → ∀ tj, pcgLoopFl fl mvMat mvPre rhs rt j s = .ok tj → norm2 tj.x ≤ X := by
    intro j hj tj htj
    exact hX j (by omega) tj.x tj.log (pcgFl_ok_iff.2 ⟨by omega, tj, by rw [← es, ← ert]; simpa using htj, rfl, rfl⟩)
  have hx0 : norm2 x0 ≤ X := by
    have := hloop 0 (by omega) s rfl
    rwa [es] at this
  have H : RoundHyp K mvMat rhs κ η X (norm2 rhs + κ * X) :=
    ⟨hκ, hη, (norm2_nonneg _).trans hx0, hK, hmv, le_rfl⟩
  obtain ⟨ρ, eρ⟩ : ∃ ρ, ρ = norm2 rhs + κ * X := ⟨_, rfl⟩
  rw [← eρ] at H hB
  have hηX : 0 ≤ η * X := mul_nonneg H.hη H.hX
  have hρ0 : 0 ≤ ρ := (add_nonneg (norm2_nonneg rhs) (mul_nonneg H.hκ H.hX)).trans H.hρ
  have hερ := mul_nonneg hε hρ0
  have hτ : 0 ≤ 3 * (η * X) + 7 * (ε * ρ) := by linarith
  -- the error variable
  have key : ∀ j : ℕ, j ≤ L.toNat → ∀ tj, pcgLoopFl fl mvMat mvPre rhs rt j s = .ok tj →
      |tj.curErr - norm2 (rhs - K *ᵥ tj.x)| ≤ B := by
    intro j hj tj htj
    have hs1 : s.curErr = fl.norm s.r := by rw [es]; rfl
    have hs2 : norm2 (s.r - (rhs - K *ᵥ s.x)) ≤ gapBound ε (3 * (η * X) + 7 * (ε * ρ)) s.i := by
      rw [es]
      exact (round_fresh hfl hε hε1 H hx0).trans (gapBound_zero hε hτ)
    obtain ⟨g1, g2⟩ := pcgLoopFl_gap hfl hε hε1 H j s hs1 (by rw [es]; exact hx0) hs2
      (fun i hi ti hti => hloop i (by omega) ti hti) tj htj
    have g3 := g2.trans (gapBound_le hε hε1 hτ _)
    have hxj := hloop j hj tj htj
    have a5 : norm2 (rhs - K *ᵥ tj.x) ≤ ρ := by
      have g1 := norm2_sub_le rhs (K *ᵥ tj.x)
      have g2 := hK tj.x
      have g3 := mul_le_mul_of_nonneg_left hxj hκ
      linarith
    obtain ⟨g4, g5⟩ := norm2_abs_le g3
    have g6 := hfl.norm tj.r hn
    rw [← g1] at g6
    have g7 := mul_le_mul_of_nonneg_right hε1 (norm2_nonneg tj.r)
    have g8 : ε * norm2 tj.r ≤ ε * ρ + 1 / 100 * (11 * (3 * (η * X) + 7 * (ε * ρ))) := by
      have e1 := mul_le_mul_of_nonneg_left (g4.trans (add_le_add_left a5 _)) hε
      have e2 := mul_le_mul_of_nonneg_right hε1 (by linarith : 0 ≤ 11 * (3 * (η * X) + 7 * (ε * ρ)))
      linarith
    obtain ⟨g9, g10⟩ := abs_le.1 g6
    rw [hB, abs_le]
    constructor <;> linarith
  obtain ⟨new, h1, h2, h3, -, h5⟩ := pcgLoopFl_spec _ _ _ ht
  have hlog : t.log = new := by rw [h1, es]; rfl
  rw [hlog]
  refine ⟨by omega, ?_, ?_⟩
  · rcases h3 with h3 | h3
    · left; omega
    · right
      have k1 := (abs_le.1 (key _ le_rfl t ht)).1
      have k2 := (abs_le.1 (key 0 (by omega) s rfl)).2
      have es0 : s.curErr = fl.norm (fl.sub rhs (mvMat x0)) := by rw [es]; rfl
      have esx : s.x = x0 := by rw [es]; rfl
      have k3 := hfl.mul tol (fl.norm (fl.sub rhs (mvMat x0)))
      rw [← ert, ← es0] at k3
      rw [esx] at k2
      have k4 := (abs_le.1 k3).2
      have k5 := not_lt.1 h3
      have kB : |s.curErr| ≤ norm2 (rhs - K *ᵥ x0) + B := by
        have := (abs_le.1 (key 0 (by omega) s rfl)).1
        rw [esx] at this
        rw [abs_le]
        have h0 := norm2_nonneg (rhs - K *ᵥ x0)
        constructor <;> linarith
      have k6 : rt ≤ (1 + ε) * tol * (norm2 (rhs - K *ᵥ x0) + B) := by
        have e1 : |tol * s.curErr| ≤ tol * (norm2 (rhs - K *ᵥ x0) + B) := by
          rw [abs_mul, abs_of_nonneg htol]
          exact mul_le_mul_of_nonneg_left kB htol
        have e2 := mul_le_mul_of_nonneg_left e1 hε
        have e3 := le_abs_self (tol * s.curErr)
        linarith
      linarith
  · intro i hi
    obtain ⟨ti, g1, g2, g3, g4⟩ := h5 i hi
    refine ⟨ti.x, pcgFl_ok_iff.2 ⟨by omega, ti, by rw [← es, ← ert]; simpa using g1, rfl, by rw [g2, es]; rfl⟩, ?_⟩
    rw [g3]
    exact key i (by omega) ti g1

/-! ## `PcSS1` -/

theorem fro_transpose' (A : Matrix (Fin m) (Fin n) ℝ) : fro Aᵀ = fro A := by unfold fro; rw [froSq_transpose]

/-- The computed product with `A'A + δ I`. -/
theorem mvGramFl_close {fl : FlVec} {N : ℕ} {ε δ : ℝ} (hfl : fl.Accurate N ε) (hε : 0 ≤ ε) (hε1 : ε ≤ 1 / 100) (hδ : 0 ≤ δ)
    (hm : m ≤ N) (hn : n ≤ N) (A : Matrix (Fin m) (Fin n) ℝ) (v : Fin n → ℝ) :
    norm2 (mvGramFl fl A δ v - (Aᵀ * A + δ • 1) *ᵥ v) ≤ 4 * ε * (fro A ^ 2 + δ) * norm2 v := by
  have hF : 0 ≤ fro A := Real.sqrt_nonneg _
  obtain ⟨F, eF⟩ : ∃ F, F = fro A := ⟨_, rfl⟩
  have h1 := hfl.mulv A v hm hn
  obtain ⟨w, ew⟩ : ∃ w, w = fl.mulv A v := ⟨_, rfl⟩
  rw [← ew] at h1
  have h2 := hfl.mulv Aᵀ w hn hm
  obtain ⟨p, ep⟩ : ∃ p, p = fl.mulv Aᵀ w := ⟨_, rfl⟩
  rw [← ep, fro_transpose'] at h2
  have h3 := hfl.smul δ v
  obtain ⟨q, eq⟩ : ∃ q, q = fl.smul δ v := ⟨_, rfl⟩
  rw [← eq, norm2_smul, abs_of_nonneg hδ] at h3
  have h4 := hfl.add p q
  unfold mvGramFl
  rw [← ew, ← ep, ← eq]
  have h5 := norm2_mulVec_fro A v
  have h6 := norm2_mulVec_fro Aᵀ (w - A *ᵥ v)
  rw [fro_transpose'] at h6
  have h7 := norm2_mulVec_fro Aᵀ (A *ᵥ v)
  rw [fro_transpose'] at h7
  rw [← eF] at hF h1 h2 h5 h6 h7 ⊢
  obtain ⟨V, eV⟩ : ∃ V, V = norm2 v := ⟨_, rfl⟩
  have hV : 0 ≤ V := by rw [eV]; exact norm2_nonneg v
  rw [← eV] at h1 h3 h5 ⊢
  have hFF : 0 ≤ F * F * V := mul_nonneg (mul_nonneg hF hF) hV
  have hδV : 0 ≤ δ * V := mul_nonneg hδ hV
  have k1 : norm2 w ≤ F * V + ε * F * V := (norm2_abs_le h1).1.trans (by linarith)
  have k2 : norm2 (p - Aᵀ *ᵥ w) ≤ 1.01 * (ε * (F * F * V)) := by
    refine h2.trans ?_
    have e1 := mul_le_mul_of_nonneg_left k1 (mul_nonneg hε hF)
    have e2 := mul_le_mul_of_nonneg_right hε1 (mul_nonneg hε hFF)
    linarith
  have k3 : norm2 (Aᵀ *ᵥ (w - A *ᵥ v)) ≤ ε * (F * F * V) := by
    refine h6.trans ?_
    have e1 := mul_le_mul_of_nonneg_left h1 hF
    linarith
  have k4 : norm2 (Aᵀ *ᵥ (A *ᵥ v)) ≤ F * F * V := by
    refine h7.trans ?_
    have e1 := mul_le_mul_of_nonneg_left h5 hF
    linarith
  obtain ⟨z, ez⟩ : ∃ z, z = (p - Aᵀ *ᵥ w) + Aᵀ *ᵥ (w - A *ᵥ v) + (q - δ • v) := ⟨_, rfl⟩
  have hz : norm2 z ≤ 2.01 * (ε * (F * F * V)) + ε * (δ * V) := by
    rw [ez]
    have g1 := norm2_add_le ((p - Aᵀ *ᵥ w) + Aᵀ *ᵥ (w - A *ᵥ v)) (q - δ • v)
    have g2 := norm2_add_le (p - Aᵀ *ᵥ w) (Aᵀ *ᵥ (w - A *ᵥ v))
    linarith
  have e1 : p + q = (Aᵀ *ᵥ (A *ᵥ v) + δ • v) + z := by rw [ez, mulVec_sub]; abel
  have e2 : (Aᵀ * A + δ • 1) *ᵥ v = Aᵀ *ᵥ (A *ᵥ v) + δ • v := by
    rw [add_mulVec, mulVec_mulVec, smul_mulVec, one_mulVec]
  have e3 : fl.add p q - (Aᵀ * A + δ • 1) *ᵥ v = (fl.add p q - (p + q)) + z := by rw [e2, e1]; abel
  rw [e3]
  have k5 : norm2 (p + q) ≤ F * F * V + δ * V + norm2 z := by
    rw [e1]
    have g1 := norm2_add_le (Aᵀ *ᵥ (A *ᵥ v) + δ • v) z
    have g2 := norm2_add_le (Aᵀ *ᵥ (A *ᵥ v)) (δ • v)
    rw [norm2_smul, abs_of_nonneg hδ, ← eV] at g2
    linarith
  have g1 := norm2_add_le (fl.add p q - (p + q)) z
  have g2 := mul_le_mul_of_nonneg_left k5 hε
  have g3 := mul_le_mul_of_nonneg_left hz hε
  have g4 := mul_le_mul_of_nonneg_right hε1 (mul_nonneg hε hFF)
  have g5 := mul_le_mul_of_nonneg_right hε1 (mul_nonneg hε hδV)
  have g6 := mul_nonneg hε hFF
  have g7 := mul_nonneg hε hδV
  have e4 : 4 * ε * (F ^ 2 + δ) * V = 4 * (ε * (F * F * V)) + 4 * (ε * (δ * V)) := by ring
  rw [e4]
  linarith

theorem op_gram (A : Matrix (Fin m) (Fin n) ℝ) {δ : ℝ} (hδ : 0 ≤ δ) (v : Fin n → ℝ) :
    norm2 ((Aᵀ * A + δ • 1) *ᵥ v) ≤ (fro A ^ 2 + δ) * norm2 v := by
  rw [add_mulVec, ← mulVec_mulVec, smul_mulVec, one_mulVec]
  have g1 := norm2_add_le (Aᵀ *ᵥ (A *ᵥ v)) (δ • v)
  rw [norm2_smul, abs_of_nonneg hδ] at g1
  have g2 := norm2_mulVec_fro Aᵀ (A *ᵥ v)
  rw [fro_transpose'] at g2
  have g3 := mul_le_mul_of_nonneg_left (norm2_mulVec_fro A v) (show 0 ≤ fro A from Real.sqrt_nonneg _)
  calc _ ≤ _ := g1
    _ ≤ fro A * (fro A * norm2 v) + δ * norm2 v := by linarith
    _ = _ := by ring

/-- `A'b - c` (`c` may be `None`) -/
def rhsOf (A : Matrix (Fin m) (Fin n) ℝ) (b : Fin m → ℝ) (c : Option (Fin n → ℝ)) : Fin n → ℝ := Aᵀ *ᵥ b - c.getD 0

theorem normalRhsFl_close {fl : FlVec} {N : ℕ} {ε : ℝ} (hfl : fl.Accurate N ε) (hε : 0 ≤ ε) (hε1 : ε ≤ 1 / 100)
    (hm : m ≤ N) (hn : n ≤ N) (A : Matrix (Fin m) (Fin n) ℝ) (b : Fin m → ℝ) (c : Option (Fin n → ℝ)) :
    norm2 (normalRhsFl fl A b c - rhsOf A b c) ≤ 3 * (ε * (fro A * norm2 b + norm2 (c.getD 0))) ∧
    norm2 (rhsOf A b c) ≤ fro A * norm2 b + norm2 (c.getD 0) := by
  have hFb : 0 ≤ fro A * norm2 b := mul_nonneg (Real.sqrt_nonneg _) (norm2_nonneg b)
  have h1 := hfl.mulv Aᵀ b hn hm
  rw [fro_transpose'] at h1
  have h2 := norm2_mulVec_fro Aᵀ b
  rw [fro_transpose'] at h2
  have h0 := mul_nonneg hε hFb
  refine ⟨?_, (norm2_sub_le _ _).trans (by linarith)⟩
  cases c with
  | none =>
    show norm2 (fl.mulv Aᵀ b - (Aᵀ *ᵥ b - 0)) ≤ _
    rw [sub_zero]
    show _ ≤ 3 * (ε * (fro A * norm2 b + norm2 0))
    rw [norm2_zero]
    linarith
  | some c =>
    show norm2 (fl.sub (fl.mulv Aᵀ b) c - (Aᵀ *ᵥ b - c)) ≤ 3 * (ε * (fro A * norm2 b + norm2 c))
    have h3 := hfl.sub (fl.mulv Aᵀ b) c
    have e : fl.sub (fl.mulv Aᵀ b) c - (Aᵀ *ᵥ b - c) =
        (fl.sub (fl.mulv Aᵀ b) c - (fl.mulv Aᵀ b - c)) + (fl.mulv Aᵀ b - Aᵀ *ᵥ b) := by abel
    rw [e]
    have g1 := norm2_add_le (fl.sub (fl.mulv Aᵀ b) c - (fl.mulv Aᵀ b - c)) (fl.mulv Aᵀ b - Aᵀ *ᵥ b)
    have g2 := norm2_sub_le (fl.mulv Aᵀ b) c
    have g3 := (norm2_abs_le h1).1
    have g4 := mul_le_mul_of_nonneg_left (g2.trans (add_le_add_left (g3.trans (add_le_add_left h2 _)) _)) hε
    have g5 := mul_le_mul_of_nonneg_right hε1 h0
    have g6 := mul_nonneg hε (norm2_nonneg c)
    linarith

theorem pcss1Fl_ok_iff {fl : FlVec} {pre : Matrix (Fin n) (Fin r) ℝ → ℝ →
      Except PyErr (((Fin n → ℝ) → Fin n → ℝ) × Matrix (Fin n) (Fin r) ℝ)}
    {A : Matrix (Fin m) (Fin n) ℝ} {b : Fin m → ℝ} {c : Option (Fin n → ℝ)} {δ tol : ℝ} {L : ℤ}
    {R : Matrix (Fin n) (Fin r) ℝ} {z0 : Option (Fin r → ℝ)} {out : SaddleOut m n} :
    pcss1CoreFl fl pre A b c δ tol L R z0 = .ok out ↔ ∃ mvPre R' x log, pre R δ = .ok (mvPre, R') ∧
      pcgFl fl (mvGramFl fl A δ) (normalRhsFl fl A b c) mvPre L tol (pcss1StartFl fl R' z0) = .ok (x, log) ∧
      out = ⟨some x, fl.sub b (fl.mulv A x), .arr log⟩ := by
  unfold pcss1CoreFl
  constructor
  · intro h
    cases hp : pre R δ with
    | error e => rw [hp] at h; cases h
    | ok v =>
      obtain ⟨mvPre, R'⟩ := v
      rw [hp] at h
      simp only at h
      cases hg : pcgFl fl (mvGramFl fl A δ) (normalRhsFl fl A b c) mvPre L tol (pcss1StartFl fl R' z0) with
      | error e => rw [hg] at h; cases h
      | ok v =>
        obtain ⟨x, log⟩ := v
        rw [hg] at h
        cases h
        exact ⟨mvPre, R', x, log, rfl, hg, rfl⟩
  · rintro ⟨mvPre, R', x, log, hp, hg, rfl⟩
    rw [hp]
    simp only
    rw [hg]

/-- **C85** (`PcSS1`).  Let the vector operations of `pcg` and `PcSS1` be accurate to `ε ≤ 1/100`, whatever is done to set up
and apply the preconditioner.  Suppose `PcSS1` returns `(x, y, errors)`, no `x` it returns under a smaller `iter_lim` is longer
than `X`, and let `P = ‖A‖ ‖b‖ + ‖c‖ + (‖A‖² + δ) X` (Frobenius norm).  Then: every entry of `errors` is the norm of the residual
`A'b - c - (A'A + δI)x` of the normal equations at its iterate, up to `220 ε P`, however many iterations were made; `y` solves
the upper block of equations up to `3 ε (‖b‖ + ‖A‖ X)`; and if fewer than `iter_lim` iterations were made, the residual of the
lower block, `A'y - δx - c`, is at most `tol` times the initial residual of the normal equations, up to an error of the same
kind. -/
theorem C85_pcss1_honest (fl : FlVec) (N : ℕ) (ε : ℝ) (hfl : fl.Accurate N ε) (hε : 0 ≤ ε) (hε1 : ε ≤ 1 / 100) (hm : m ≤ N)
    (hn : n ≤ N) (pre : Matrix (Fin n) (Fin r) ℝ → ℝ →
      Except PyErr (((Fin n → ℝ) → Fin n → ℝ) × Matrix (Fin n) (Fin r) ℝ))
    (A : Matrix (Fin m) (Fin n) ℝ) (b : Fin m → ℝ) (c : Option (Fin n → ℝ)) (δ tol : ℝ) (hδ : 0 ≤ δ) (htol : 0 ≤ tol) (L : ℤ)
    (R : Matrix (Fin n) (Fin r) ℝ) (z0 : Option (Fin r → ℝ)) (out : SaddleOut m n)
    (h : pcss1CoreFl fl pre A b c δ tol L R z0 = .ok out) (X : ℝ)
    (hX : ∀ j : ℤ, j ≤ L → ∀ o, pcss1CoreFl fl pre A b c δ tol j R z0 = .ok o → ∀ x, o.x = some x → norm2 x ≤ X) (P : ℝ)
    (hP : P = fro A * norm2 b + norm2 (c.getD 0) + (fro A ^ 2 + δ) * X) :
    ∃ x errors, out.x = some x ∧ out.errs = .arr errors ∧
      norm2 (out.y + A *ᵥ x - b) ≤ 3 * (ε * (norm2 b + fro A * X)) ∧
      (errors.length : ℤ) ≤ L ∧
      (∀ i (hi : i < errors.length), ∃ o xi, pcss1CoreFl fl pre A b c δ tol i R z0 = .ok o ∧ o.x = some xi ∧
        |errors[i] - norm2 (Aᵀ *ᵥ b - c.getD 0 - (Aᵀ * A + δ • 1) *ᵥ xi)| ≤ 220 * (ε * P)) ∧
      ((errors.length : ℤ) = L ∨ ∃ o xs, pcss1CoreFl fl pre A b c δ tol 0 R z0 = .ok o ∧ o.x = some xs ∧
        norm2 (Aᵀ *ᵥ out.y - δ • x - c.getD 0) ≤
          (1 + ε) * tol * (norm2 (Aᵀ *ᵥ b - c.getD 0 - (Aᵀ * A + δ • 1) *ᵥ xs) + 220 * (ε * P)) + 225 * (ε * P)) := by
  obtain ⟨mvPre, R', x, log, hp, hg, rfl⟩ := pcss1Fl_ok_iff.1 h
  obtain ⟨F, eF⟩ : ∃ F, F = fro A := ⟨_, rfl⟩
  have hF : 0 ≤ F := by rw [eF]; exact Real.sqrt_nonneg _
  obtain ⟨K, eK⟩ : ∃ K, K = Aᵀ * A + δ • (1 : Matrix (Fin n) (Fin n) ℝ) := ⟨_, rfl⟩
  obtain ⟨rhs, er⟩ : ∃ rhs, rhs = normalRhsFl fl A b c := ⟨_, rfl⟩
  obtain ⟨hr1, hr2⟩ := normalRhsFl_close hfl hε hε1 hm hn A b c
  have hr0 : Aᵀ *ᵥ b - c.getD 0 = rhsOf A b c := rfl
  obtain ⟨r0, er0⟩ : ∃ r0, r0 = rhsOf A b c := ⟨_, rfl⟩
  rw [← er0] at hr1 hr2 hr0
  rw [← er, ← eF] at hr1
  rw [← eF] at hr2 hP
  have hL0 : 0 ≤ L := (pcgFl_ok_iff.1 hg).1
  have hXx : ∀ j : ℤ, j ≤ L → ∀ xj lj, pcgFl fl (mvGramFl fl A δ) rhs mvPre j tol (pcss1StartFl fl R' z0) = .ok (xj, lj) →
      norm2 xj ≤ X := by
    intro j hj xj lj hjj
    exact hX j hj _ (pcss1Fl_ok_iff.2 ⟨mvPre, R', xj, lj, hp, by rw [← er]; exact hjj, rfl⟩) xj rfl
  have hxX : norm2 x ≤ X := hXx L le_rfl x log (by rw [er]; exact hg)
  have hX0 : 0 ≤ X := (norm2_nonneg _).trans hxX
  obtain ⟨σ, eσ⟩ : ∃ σ, σ = F ^ 2 + δ := ⟨_, rfl⟩
  have hσ : 0 ≤ σ := by rw [eσ]; positivity
  rw [← eσ] at hP
  obtain ⟨T, eT⟩ : ∃ T, T = F * norm2 b + norm2 (c.getD 0) := ⟨_, rfl⟩
  have hT : 0 ≤ T := by rw [eT]; exact add_nonneg (mul_nonneg hF (norm2_nonneg _)) (norm2_nonneg _)
  rw [← eT] at hP hr1 hr2
  have hσX : 0 ≤ σ * X := mul_nonneg hσ hX0
  have hTP : ε * T + ε * (σ * X) = ε * P := by rw [hP]; ring
  have hεT := mul_nonneg hε hT
  have hεσ := mul_nonneg hε hσX
  have hrhs : norm2 rhs ≤ 1.03 * T := by
    have g1 := (norm2_abs_le hr1).1
    have g2 := mul_le_mul_of_nonneg_right hε1 hT
    linarith
  obtain ⟨B, hB⟩ : ∃ B, B = 34 * (4 * ε * σ * X) + 80 * (ε * (norm2 rhs + σ * X)) := ⟨_, rfl⟩
  obtain ⟨h1, h2, h3⟩ := C85_pcg_honest fl N ε hfl hε hε1 hn K (mvGramFl fl A δ) mvPre σ (4 * ε * σ) hσ
    (by positivity) (fun v => by rw [eK, eσ, eF]; exact op_gram A hδ v)
    (fun v => by rw [eK, eσ, eF]; exact mvGramFl_close hfl hε hε1 hδ hm hn A v)
    rhs (pcss1StartFl fl R' z0) x L tol htol log (by rw [er]; exact hg) X hXx B hB
  have hBP : B ≤ 216 * (ε * P) := by
    have g1 := mul_le_mul_of_nonneg_left hrhs hε
    rw [hB, ← hTP]
    linarith
  have hdiff : ∀ z, |norm2 (r0 - K *ᵥ z) - norm2 (rhs - K *ᵥ z)| ≤ 3 * (ε * P) := by
    intro z
    have e : (r0 - K *ᵥ z) - (rhs - K *ᵥ z) = -(rhs - r0) := by abel
    have hc : norm2 ((r0 - K *ᵥ z) - (rhs - K *ᵥ z)) ≤ 3 * (ε * P) := by
      rw [e, norm2_neg']
      linarith
    obtain ⟨g1, g2⟩ := norm2_abs_le hc
    rw [abs_le]
    constructor <;> linarith
  have hεb : 0 ≤ ε * norm2 b := mul_nonneg hε (norm2_nonneg b)
  have hFX : 0 ≤ F * X := mul_nonneg hF hX0
  have hy : norm2 (fl.sub b (fl.mulv A x) - (b - A *ᵥ x)) ≤ 3 * (ε * (norm2 b + F * X)) := by
    have g1 := hfl.sub b (fl.mulv A x)
    have g2 := hfl.mulv A x hm hn
    have g3 := norm2_mulVec_fro A x
    rw [← eF] at g2 g3
    have g4 := mul_le_mul_of_nonneg_left hxX hF
    have g5 := mul_le_mul_of_nonneg_left g4 hε
    have g6 := (norm2_abs_le g2).1
    have e : fl.sub b (fl.mulv A x) - (b - A *ᵥ x) =
        (fl.sub b (fl.mulv A x) - (b - fl.mulv A x)) - (fl.mulv A x - A *ᵥ x) := by abel
    rw [e]
    have g7 := norm2_sub_le (fl.sub b (fl.mulv A x) - (b - fl.mulv A x)) (fl.mulv A x - A *ᵥ x)
    have g8 := norm2_sub_le b (fl.mulv A x)
    have g9 : norm2 (fl.mulv A x) ≤ 1.01 * (F * X) := by
      have := mul_le_mul_of_nonneg_right hε1 hFX
      linarith
    have g10 := mul_le_mul_of_nonneg_left (g8.trans (add_le_add_right g9 _)) hε
    have g11 := mul_nonneg hε hFX
    linarith
  refine ⟨x, log, rfl, rfl, ?_, h1, ?_, ?_⟩
  · show norm2 (fl.sub b (fl.mulv A x) + A *ᵥ x - b) ≤ _
    rw [show fl.sub b (fl.mulv A x) + A *ᵥ x - b = fl.sub b (fl.mulv A x) - (b - A *ᵥ x) by abel, ← eF]
    exact hy
  · intro i hi
    obtain ⟨xi, g1, g2⟩ := h3 i hi
    refine ⟨_, xi, pcss1Fl_ok_iff.2 ⟨mvPre, R', xi, _, hp, by rw [← er]; exact g1, rfl⟩, rfl, ?_⟩
    rw [hr0, ← eK]
    obtain ⟨g3, g4⟩ := abs_le.1 g2
    obtain ⟨g5, g6⟩ := abs_le.1 (hdiff xi)
    rw [abs_le]
    constructor <;> linarith
  · rcases h2 with h2 | h2
    · exact Or.inl h2
    · right
      refine ⟨_, pcss1StartFl fl R' z0, pcss1Fl_ok_iff.2 ⟨mvPre, R', pcss1StartFl fl R' z0, [], hp, ?_, rfl⟩, rfl, ?_⟩
      · exact pcgFl_ok_iff.2 ⟨le_rfl, _, rfl, rfl, rfl⟩
      · show norm2 (Aᵀ *ᵥ fl.sub b (fl.mulv A x) - δ • x - c.getD 0) ≤ _
        rw [hr0, ← eK]
        have e : Aᵀ *ᵥ fl.sub b (fl.mulv A x) - δ • x - c.getD 0 =
            (r0 - K *ᵥ x) + Aᵀ *ᵥ (fl.sub b (fl.mulv A x) - (b - A *ᵥ x)) := by
          rw [← hr0, eK, add_mulVec, ← mulVec_mulVec, smul_mulVec, one_mulVec, mulVec_sub, mulVec_sub]; abel
        rw [e]
        have g1 := norm2_add_le (r0 - K *ᵥ x) (Aᵀ *ᵥ (fl.sub b (fl.mulv A x) - (b - A *ᵥ x)))
        have g2 := norm2_mulVec_fro Aᵀ (fl.sub b (fl.mulv A x) - (b - A *ᵥ x))
        rw [fro_transpose', ← eF] at g2
        have g3 := mul_le_mul_of_nonneg_left hy hF
        have g4 : F * (3 * (ε * (norm2 b + F * X))) ≤ 3 * (ε * P) := by
          have e1 : F * (3 * (ε * (norm2 b + F * X))) = 3 * (ε * (F * norm2 b + F ^ 2 * X)) := by ring
          rw [e1]
          have e2 : F * norm2 b + F ^ 2 * X ≤ P := by
            rw [hP, eT, eσ]
            have := norm2_nonneg (c.getD 0)
            have := mul_nonneg hδ hX0
            linarith
          have := mul_le_mul_of_nonneg_left e2 hε
          linarith
        have g5 := (abs_le.1 (hdiff x)).2
        have g6 := (abs_le.1 (hdiff (pcss1StartFl fl R' z0))).1
        have g7 : (1 + ε) * tol * (norm2 (rhs - K *ᵥ pcss1StartFl fl R' z0) + B) ≤
            (1 + ε) * tol * (norm2 (r0 - K *ᵥ pcss1StartFl fl R' z0) + 220 * (ε * P)) := by
          refine mul_le_mul_of_nonneg_left ?_ (by positivity)
          have : 0 ≤ ε * P := by rw [← hTP]; linarith
          linarith
        have g8 : 0 ≤ ε * P := by rw [← hTP]; linarith
        linarith

/-! ## The hypotheses are met -/

open Classical in
/-- Arithmetic whose every result is too large by a factor `1 + ε`. -/
noncomputable def inflatedVec (ε : ℝ) : FlVec where
  add u v := (1 + ε) • (u + v)
  sub u v := (1 + ε) • (u - v)
  smul a v := (1 + ε) • (a • v)
  dot u v := (1 + ε) * (u ⬝ᵥ v)
  norm v := (1 + ε) * norm2 v
  mulv X v := (1 + ε) • (X *ᵥ v)
  mul s t := (1 + ε) * (s * t)
  div s t := if t = 0 then none else some ((1 + ε) * (s / t))

theorem inflatedVec_accurate {ε : ℝ} (hε : 0 ≤ ε) (N : ℕ) : (inflatedVec ε).Accurate N ε := by
  have e : ∀ {n : ℕ} (v : Fin n → ℝ), norm2 ((1 + ε) • v - v) ≤ ε * norm2 v := fun v => by
    rw [add_smul, one_smul, add_sub_cancel_left, norm2_smul, abs_of_nonneg hε]
  have e' : ∀ t : ℝ, |(1 + ε) * t - t| ≤ ε * |t| := fun t => by
    rw [show (1 + ε) * t - t = ε * t by ring, abs_mul, abs_of_nonneg hε]
  exact ⟨fun u v => e _, fun u v => e _, fun a v => e _,
    fun v _ => (e' _).trans (by rw [abs_of_nonneg (norm2_nonneg v)]),
    fun X v _ _ => (e _).trans (by rw [mul_assoc]; exact mul_le_mul_of_nonneg_left (norm2_mulVec_fro X v) hε),
    fun s t => e' _⟩

/-- There is always a bound on the iterates. -/
theorem exists_iterate_bound (fl : FlVec) (mvMat mvPre : (Fin n → ℝ) → Fin n → ℝ) (rhs x0 : Fin n → ℝ) (L : ℕ) (tol : ℝ) :
    ∃ X, ∀ j : ℤ, j ≤ L → ∀ xj lj, pcgFl fl mvMat rhs mvPre j tol x0 = .ok (xj, lj) → norm2 xj ≤ X := by
  induction L with
  | zero =>
    refine ⟨norm2 x0, fun j hj xj lj h => ?_⟩
    obtain ⟨h0, t, ht, rfl, -⟩ := pcgFl_ok_iff.1 h
    obtain rfl : j = 0 := by push_cast at hj; omega
    cases ht
    exact le_rfl
  | succ L ih =>
    obtain ⟨X, hX⟩ := ih
    cases h : pcgFl fl mvMat rhs mvPre ((L + 1 : ℕ) : ℤ) tol x0 with
    | error e =>
      refine ⟨X, fun j hj xj lj hj' => ?_⟩
      rcases hj.lt_or_eq with h' | h'
      · exact hX j (by push_cast at h'; omega) xj lj hj'
      · rw [h', h] at hj'; cases hj'
    | ok v =>
      refine ⟨max X (norm2 v.1), fun j hj xj lj hj' => ?_⟩
      rcases hj.lt_or_eq with h' | h'
      · exact (hX j (by push_cast at h'; omega) xj lj hj').trans (le_max_left _ _)
      · rw [h', h] at hj'; cases hj'; exact le_max_right _ _

/-- An iteration of `pcg` on `[[1, 0], [0, 2]] x = (1, 1)` without preconditioner, with arithmetic off by one percent: the
call returns, and its iterates are bounded. -/
example : (inflatedVec (1 / 100)).Accurate 2 (1 / 100) ∧
    (∀ v, norm2 (!![1, 0; 0, 2] *ᵥ v) ≤ fro !![1, 0; 0, 2] * norm2 v) ∧
    (∀ v, norm2 ((inflatedVec (1 / 100)).mulv !![1, 0; 0, 2] v - !![1, 0; 0, 2] *ᵥ v) ≤
      1 / 100 * fro !![1, 0; 0, 2] * norm2 v) ∧
    ∃ x log X, pcgFl (inflatedVec (1 / 100)) (fun v => (inflatedVec (1 / 100)).mulv !![1, 0; 0, 2] v) ![1, 1] id 1 0 ![0, 0] =
        .ok (x, log) ∧ log.length = 1 ∧
      ∀ j : ℤ, j ≤ 1 → ∀ xj lj, pcgFl (inflatedVec (1 / 100)) (fun v => (inflatedVec (1 / 100)).mulv !![1, 0; 0, 2] v)
        ![1, 1] id j 0 ![0, 0] = .ok (xj, lj) → norm2 xj ≤ X := by
  have hacc := inflatedVec_accurate (by norm_num : (0 : ℝ) ≤ 1 / 100) 2
  refine ⟨hacc, norm2_mulVec_fro _, fun v => hacc.mulv _ v le_rfl le_rfl, ?_⟩
  obtain ⟨X, hX⟩ := exists_iterate_bound (inflatedVec (1 / 100)) (fun v => (inflatedVec (1 / 100)).mulv !![1, 0; 0, 2] v) id
    ![1, 1] ![0, 0] 1 0
  obtain ⟨s, es⟩ : ∃ s, s = pcgInitFl (inflatedVec (1 / 100)) (fun v => (inflatedVec (1 / 100)).mulv !![1, 0; 0, 2] v) id
    ![1, 1] ![0, 0] := ⟨_, rfl⟩
  have er : s.r = (1 + 1 / 100 : ℝ) • (![1, 1] : Fin 2 → ℝ) := by
    rw [es]
    show (1 + 1 / 100 : ℝ) • ((![1, 1] : Fin 2 → ℝ) - (1 + 1 / 100 : ℝ) • (!![1, 0; 0, 2] *ᵥ ![0, 0])) = _
    congr 1
    ext i; fin_cases i <;> simp
  have ed : s.d = some s.r := by rw [es]; rfl
  have ec : s.curErr > 0 := by
    have : s.curErr = (1 + 1 / 100) * norm2 s.r := by rw [es]; rfl
    rw [this, er]
    refine mul_pos (by norm_num) (norm2_pos.2 fun h => ?_)
    have := congrFun h 0
    norm_num at this
  obtain ⟨s', hs'⟩ : ∃ s', pcgStepFl (inflatedVec (1 / 100)) (fun v => (inflatedVec (1 / 100)).mulv !![1, 0; 0, 2] v) id
      ![1, 1] s = .ok s' := by
    unfold pcgStepFl
    rw [ed]
    have hd : (inflatedVec (1 / 100)).dot s.r ((inflatedVec (1 / 100)).mulv !![1, 0; 0, 2] s.r) ≠ 0 := by
      show (1 + 1 / 100 : ℝ) * (s.r ⬝ᵥ ((1 + 1 / 100 : ℝ) • (!![1, 0; 0, 2] *ᵥ s.r))) ≠ 0
      rw [er]
      simp [dotProduct, Fin.sum_univ_two, mulVec]
      norm_num
    simp only
    rw [show (inflatedVec (1 / 100)).div s.delta1 ((inflatedVec (1 / 100)).dot s.r
      ((inflatedVec (1 / 100)).mulv !![1, 0; 0, 2] s.r)) = some ((1 + 1 / 100) * (s.delta1 / (inflatedVec (1 / 100)).dot s.r
      ((inflatedVec (1 / 100)).mulv !![1, 0; 0, 2] s.r))) from if_neg hd]
    exact ⟨_, rfl⟩
  have hm : (inflatedVec (1 / 100)).mul 0 ((inflatedVec (1 / 100)).norm ((inflatedVec (1 / 100)).sub ![1, 1]
      ((inflatedVec (1 / 100)).mulv !![1, 0; 0, 2] ![0, 0]))) = 0 := by
    show (1 + 1 / 100 : ℝ) * (0 * _) = 0
    simp
  refine ⟨s'.x, s'.log, X, pcgFl_ok_iff.2 ⟨by norm_num, s', ?_, rfl, rfl⟩, ?_, by exact_mod_cast hX⟩
  · rw [← es, hm]
    show pcgLoopFl _ _ _ _ 0 (0 + 1) s = _
    rw [pcgLoopFl_step ec hs']
    rfl
  · obtain ⟨_, _, -, -, -, hl, -⟩ := pcgStepFl_ok hs'
    rw [hl, es]
    rfl

end Parla.Props
