import Verif.Props.LowRankTail
import Verif.Props.AlmostSureLS
import Verif.Props.SPOExact
import Verif.Props.SJLTDrivers
import Verif.Props.RatesLS
import Verif.Props.Seeds
import Verif.Props.Passes

/-! # The hypotheses of the property theorems are met

Runs with concrete data that meet the hypotheses of theorems whose own files show none. -/

namespace Parla.Props

open Matrix Parla Spec MeasureTheory

variable {m n : ℕ}

/-! ### Every sequence of arrays is drawn by some generator -/

/-- a generator whose `g`-th call of `standard_normal` returns an array with entries `f g i j` -/
noncomputable def seqRng (f : ℕ → ℕ → ℕ → ℝ) : NpRng ℕ :=
  { demoRng with standardNormal := fun _ _ g => (Matrix.of fun i j => f g i.1 j.1, g + 1) }

/-- the entries of a sequence of arrays -/
noncomputable def flat {a : ℕ} : (bs : List ℕ) → Proof.Draws a bs → ℕ → ℕ → ℕ → ℝ
  | [], _, _, _, _ => 0
  | b :: _, Z, 0, i, j => if h : i < a ∧ j < b then Z.1 (⟨i, h.1⟩, ⟨j, h.2⟩) else 0
  | _ :: bs, Z, g + 1, i, j => flat bs Z.2 g i j

theorem nextDraws_seq {a : ℕ} (f : ℕ → ℕ → ℕ → ℝ) : ∀ (bs : List ℕ) (Zs : Proof.Draws a bs) (g0 : ℕ),
    (∀ g, f (g0 + g) = flat bs Zs g) → NextDraws (seqRng f) bs g0 Zs
  | [], _, _, _ => trivial
  | b :: bs, Zs, g0, h => by
    refine ⟨?_, nextDraws_seq f bs Zs.2 (g0 + 1) fun g => ?_⟩
    · ext i j
      have h0 := congrFun (congrFun (h 0) i.1) j.1
      change f g0 i.1 j.1 = _
      rw [Nat.add_zero] at h0
      rw [h0]
      simp [flat, Proof.drawMat]
    · have := h (g + 1)
      rw [show g0 + 1 + g = g0 + (g + 1) by omega, this]
      rfl

theorem exists_generator {a : ℕ} (bs : List ℕ) (Zs : Proof.Draws a bs) :
    ∃ R : NpRng ℕ, NextDraws R bs 0 Zs :=
  ⟨seqRng (flat bs Zs), nextDraws_seq _ bs Zs 0 fun g => by rw [Nat.zero_add]⟩

/-! ### C05-C09: blocked QB -/

/-- a matrix of rank two -/
def demoQB : Matrix (Fin 3) (Fin 2) ℝ := !![2, 0; 0, 1; 0, 0]

theorem demoQB_rank : demoQB.rank = 2 := by
  have h1 : (demoQBᵀ * demoQB).rank = demoQB.rank := Matrix.rank_transpose_mul_self _
  have h2 : demoQBᵀ * demoQB = diagonal ![4, 1] := by
    ext i j
    fin_cases i <;> fin_cases j <;> simp [demoQB, Matrix.mul_apply, Fin.sum_univ_three, Matrix.transpose] <;> norm_num
  rw [← h1, h2, Matrix.rank_of_isUnit]
  · simp
  · rw [Matrix.isUnit_iff_isUnit_det, det_diagonal, Fin.prod_univ_two]
    simp

/-- for every matrix, target, tolerance, block size and number of passes there is a generator for which QB2 over
Gaussian power sketches runs and every rangefinder call captures what it can -/
theorem witness_qb2 (A : Matrix (Fin m) (Fin n) ℝ) (hmn : 0 < min m n) (k : ℤ) (hk : 0 < k) (p : ℤ) (hp : 0 ≤ p)
    (blk : ℕ) (hblk : 0 < blk) (tol : Tol) :
    ∃ (R : NpRng ℕ) (st : QB2St m n) (w w' : World ℕ),
      qb2Run LinAlg.ref (RF1 LinAlg.ref (RS1 (gaussianOperator R true) p (orth LinAlg.ref) 1)) blk A k tol w =
        .ok (st, w') ∧ ∀ x ∈ st.calls, Captures x := by
  have hprob : IsProbabilityMeasure stdNormal := by unfold stdNormal; infer_instance
  obtain ⟨Zs, hZs⟩ := (qb2Run_ae A hmn k hk p hp blk hblk).exists
  obtain ⟨R, hR⟩ := exists_generator _ Zs
  obtain ⟨st, w', h1, h2⟩ := hZs ℕ LinAlg.ref R tol ⟨0, 0, []⟩ hR
  exact ⟨R, st, _, w', h1, h2⟩

/-- C05, C06, C07, C08: two blocks of one column on a matrix of rank two, without a tolerance.  All hypotheses hold,
and the theorems give an exact factorisation with two orthonormal columns. -/
example : ∃ (rf : RangeFinder ℕ) (st : QB2St 3 2) (w w' : World ℕ),
    RFShape rf 3 2 ∧ qb2Run LinAlg.ref rf 1 demoQB 2 .nan w = .ok (st, w') ∧ (∀ x ∈ st.calls, Captures x) ∧
    st.c = 2 ∧ (st.calls.map (·.blk)).sum = 2 ∧ OrthoCols st.Q ∧ st.B = st.Qᵀ * demoQB ∧ st.Q * st.B = demoQB := by
  obtain ⟨R, st, w, w', h1, h2⟩ := witness_qb2 demoQB (by decide) 2 (by norm_num) 0 le_rfl 1 one_pos .nan
  have hrf : RFShape (RF1 LinAlg.ref (RS1 (gaussianOperator R true) 0 (orth LinAlg.ref) 1)) 3 2 :=
    C05_rf1_shape _ _ _ _ (Or.inl rfl) _
  have hcall : qb2Call LinAlg.ref (RF1 LinAlg.ref (RS1 (gaussianOperator R true) 0 (orth LinAlg.ref) 1)) 1 false
      demoQB 2 .nan w = .ok ((⟨st.c, st.Q, st.B⟩, demoQB), w') := by
    unfold qb2Call; rw [Py.bind_eq_of_ok h1]; rfl
  have hc := C05_qb2_no_tol _ _ hrf 1 one_pos false demoQB (by decide) 2 .nan (Or.inl rfl) w w' _ _ hcall
  have hc' : st.c = 2 := by
    have : ((st.c : ℕ) : ℤ) = min 2 (min 3 2 : ℕ) := hc
    norm_num at this
    exact_mod_cast this
  obtain ⟨hQ, hB⟩ := C06_qb2_orthonormal _ _ hrf 1 demoQB (by decide) 2 .nan w w' st h1 h2
    (by rw [demoQB_rank, hc'])
  refine ⟨_, st, w, w', hrf, h1, h2, hc', ?_, hQ, hB, ?_⟩
  · rw [(C05_qb2_blocks _ _ hrf 1 one_pos demoQB (by decide) 2 .nan w w' st h1).2.2, hc']
  · exact C07_qb2_exact _ _ hrf 1 one_pos demoQB (by decide) 2 (by rw [demoQB_rank]; norm_num) .nan (Or.inl rfl)
      w w' st h1 h2

/-- C24: `qb_b` and `svd1` with three products per block and blocks of one column, on a matrix of rank two: six passes -/
example : ∃ (R : NpRng ℕ) (out : QBOut 3 2) (A' : Matrix (Fin 3) (Fin 2) ℝ) (w w' : World ℕ),
    Quiet (gaussianOperator R true) ∧ qbB LinAlg.ref (gaussianOperator R true) 3 1 true demoQB 2 .nan w = .ok ((out, A'), w') ∧
      numPasses w'.trace = numPasses w.trace + 6 ∧
      ∃ o, svd1 LinAlg.ref (gaussianOperator R true) demoQB 1 1 .nan 3 1 w = .ok (o, w') := by
  obtain ⟨R, st, w, w', h1, -⟩ := witness_qb2 demoQB (by decide) 2 (by norm_num) 1 (by norm_num) 1 one_pos .nan
  have hq : Quiet (gaussianOperator R true) := gaussianOperator_quiet R true
  have h1' : qb2Run LinAlg.ref (RF1 LinAlg.ref (RS1 (gaussianOperator R true) (3 - 2) (orth LinAlg.ref) 1)) 1 demoQB 2
      .nan w = .ok (st, w') := h1
  have hcall : qbB LinAlg.ref (gaussianOperator R true) 3 1 true demoQB 2 .nan w =
      .ok ((⟨st.c, st.Q, st.B⟩, st.A), w') := by
    unfold qbB qb2Call; rw [Py.bind_eq_of_ok h1']; rfl
  obtain ⟨-, h2, h3⟩ := C24_qb_b_passes _ _ hq _ _ _ _ _ _ _ _ _ _ hcall
  have h4 : st.c = 2 := h3 rfl
  refine ⟨R, _, _, w, w', hq, hcall, ?_, ?_⟩
  · have h5 : (numPasses w'.trace : ℤ) = numPasses w.trace + 3 * ⌈((st.c : ℕ) : ℚ) / (1 : ℕ)⌉ := h2
    rw [h4] at h5
    norm_num at h5
    omega
  · have hqb : QB2 LinAlg.ref (RF1 LinAlg.ref (RS1 (gaussianOperator R true) (3 - 2) (orth LinAlg.ref) 1)) 1 false 3 2
        demoQB ((1 + 1 : ℕ) : ℤ) .nan w = .ok (⟨st.c, st.Q, st.B⟩, w') := by
      unfold QB2 qb2Call
      rw [Py.bind_eq_of_ok (Py.bind_eq_of_ok h1')]
      rfl
    obtain ⟨r, hr, h5, -⟩ := svd1_open LinAlg.ref _ demoQB 1 .nan 1 w w' _ hqb
    exact ⟨_, h5⟩

/-- a rangefinder that returns the array it is given -/
def wholeRF : RangeFinder ℕ := fun _ n A _ _ => pure ⟨n, A⟩

theorem demoQB_full : FullColRank demoQB := demoQB_rank

/-- C06_qb2_full_blocks, C09_qb2_silent: one block of two columns, both captured, and no warning -/
example : ∃ (st : QB2St 3 2),
    qb2Run LinAlg.ref wholeRF 2 demoQB 2 .nan ⟨0, 0, []⟩ = .ok (st, ⟨0, 0, [.mulAT]⟩) ∧ st.c = 2 ∧
      ∀ x ∈ st.calls, FullBlock x := by
  refine ⟨qb2Update LinAlg.ref 2 (qb2Init demoQB 2) ⟨2, demoQB⟩, ?_, rfl, ?_⟩
  · simp [qb2Run, Py.assert, wholeRF, qb2Draw, qb2Loop, qb2Blk, qb2Init, qb2Update]
    rfl
  · intro x hx
    have : x = ⟨demoQB, 2, ⟨2, demoQB⟩⟩ := by
      simpa [qb2Update, qb2Init] using hx
    subst this
    exact ⟨demoQB_full, le_rfl⟩

/-! ### C37, C38: SPO.  Completed runs with and without logging are shown in `SPOExact` and `RatesLS`; here are the
hypotheses on the sketched matrix. -/

/-- C37_spo_preconditioner: a sketch with full rank, QR mode; SVD mode -/
example : (∃ f, spoFactor LinAlg.ref .qr !![1, 0, 0; 0, 1, 0; 0, 0, 11 / 10]
      (!![1; 1; 1] : Matrix (Fin 3) (Fin 1) ℝ) ![1, 2, 6] 0 = .ok f ∧ f.P.dim = 1) ∧
    ∃ f, spoFactor LinAlg.ref .chol !![1, 0, 0; 0, 1, 0; 0, 0, 11 / 10]
      (!![1; 1; 1] : Matrix (Fin 3) (Fin 1) ℝ) ![1, 2, 6] 4 = .ok f ∧ f.P.dim = 1 := by
  have h : ∀ δ : ℝ, FullColRank (aLift ((!![1, 0, 0; 0, 1, 0; 0, 0, 11 / 10] : Matrix (Fin 3) (Fin 3) ℝ) *
      (!![1; 1; 1] : Matrix (Fin 3) (Fin 1) ℝ)) (Real.sqrt δ)) := fun δ =>
    demo31_full _ (Fin.castAdd _ 0) (by simp [aLift])
  obtain ⟨f, h1, h2, -⟩ := C37_spo_preconditioner LinAlg.ref .qr !![1, 0, 0; 0, 1, 0; 0, 0, 11 / 10]
    (!![1; 1; 1] : Matrix (Fin 3) (Fin 1) ℝ) ![1, 2, 6] 0 le_rfl (by norm_num) (Or.inr ⟨Or.inl rfl, h 0⟩)
  obtain ⟨g, g1, g2, -⟩ := C37_spo_preconditioner LinAlg.ref .chol !![1, 0, 0; 0, 1, 0; 0, 0, 11 / 10]
    (!![1; 1; 1] : Matrix (Fin 3) (Fin 1) ℝ) ![1, 2, 6] 4 (by norm_num) (by norm_num) (Or.inr ⟨Or.inr rfl, h 4⟩)
  exact ⟨⟨f, h1, h2⟩, g, g1, g2⟩

/-- C37_spo_singular: the sketch misses the only nonzero row of `A` -/
example : spoPost LinAlg.ref .chol (!![1, 0, 0] : Matrix (Fin 1) (Fin 3) ℝ)
    (!![0; 1; 1] : Matrix (Fin 3) (Fin 1) ℝ) ![1, 2, 6] 0 0 5 false ⟨0, 0, 0, 0, 0⟩ = .error .linAlg := by
  refine C37_spo_singular LinAlg.ref .chol _ _ _ 0 0 5 false _ le_rfl le_rfl (Or.inr rfl) fun h => ?_
  have hz : aLift ((!![1, 0, 0] : Matrix (Fin 1) (Fin 3) ℝ) * (!![0; 1; 1] : Matrix (Fin 3) (Fin 1) ℝ)) (Real.sqrt 0)
      = 0 := by
    ext i j
    refine Fin.addCases (fun a => ?_) (fun a => ?_) i
    · simp [aLift, Fin.eq_zero]
    · simp [aLift, scaleEye]
  rw [hz] at h
  unfold FullColRank at h
  rw [Matrix.rank_zero] at h
  exact absurd h (by norm_num)

/-- C37_spo_unknown_mode -/
example : spoCall LinAlg.ref weightGen 3 .other (!![1; 1; 1] : Matrix (Fin 3) (Fin 1) ℝ) ![1, 2, 6] 0 0 5 false
    ⟨0, 0, 0, 0, 0⟩ ⟨0, 0, []⟩ = .error .value :=
  C37_spo_unknown_mode LinAlg.ref weightGen 3 _ _ 0 0 5 false _ _ _ _ _ (demo31_dim _) weightGen_ok

/-! ### C70: sparse embeddings -/

/-- a bound below one, a generator that draws the arrays, and hence an embedding.  The failure probability is below
`1/50`, so good draws exist; they are not all draws, so the exceptional set is needed. -/
example : ∃ (E : Set ((Fin 1000 → (Fin 8 ↪ Fin 1000)) × (Fin (1000 * 8) → ℝ))),
    sjltDraws 1000 1000 8 E ≤ ENNReal.ofReal (1 / 50) ∧ Eᶜ.Nonempty := by
  obtain ⟨A, hA⟩ : ∃ A : Matrix (Fin 1000) (Fin 1) ℝ, A 0 0 ≠ 0 := ⟨fun _ _ => 1, one_ne_zero⟩
  obtain ⟨E, h1, -⟩ := C70_sjlt_embeds A (s := 8) (d := 1000)
    (by norm_num) (by norm_num) (by norm_num) (1 / 2) (by norm_num)
  have hr : A.rank = 1 := demo31_full A 0 hA
  rw [hr] at h1
  have h1' : sjltDraws 1000 1000 8 E ≤ ENNReal.ofReal (1 / 50) := h1.trans (ENNReal.ofReal_le_ofReal (by norm_num))
  refine ⟨E, h1', ?_⟩
  rw [Set.nonempty_compl]
  rintro rfl
  rw [sjltDraws_univ (by norm_num)] at h1'
  have : (1 : ENNReal) ≤ ENNReal.ofReal (1 / 50) := h1'
  rw [ENNReal.one_le_ofReal] at this
  norm_num at this

/-! ### C80: a blocked run with an integer seed -/

/-- C80_qb, C80_reproducible, C80_stream_qb_b: `qb_b` with `rng=0`, two blocks of one column each; the generator the caller
has in hand stays in its state `5` -/
example : ∃ (R : NpRng ℕ) (seed : ℕ → ℕ) (out : QBOut 3 2 × Matrix (Fin 3) (Fin 2) ℝ) (w w' : World ℕ),
    w.rng = 5 ∧ qbBArg seed R LinAlg.ref 2 1 false demoQB 2 .nan (.int 0) w = .ok (out, w') ∧ w'.rng = 5 ∧ out.1.c = 2 ∧
    ∃ v v', qbB LinAlg.ref (gaussianOperator R true) 2 1 false demoQB 2 .nan v = .ok (out, v') ∧
      v'.rng = (R.standardNormal 2 1 (R.standardNormal 2 1 v.rng).2).2 := by
  obtain ⟨R, st, w, w', h1, h2⟩ := witness_qb2 demoQB (by decide) 2 (by norm_num) 0 le_rfl 1 one_pos .nan
  have hrf : RFShape (RF1 LinAlg.ref (RS1 (gaussianOperator R true) 0 (orth LinAlg.ref) 1)) 3 2 :=
    C05_rf1_shape _ _ _ _ (Or.inl rfl) _
  have hcall : ∀ v v' st, qb2Run LinAlg.ref (RF1 LinAlg.ref (RS1 (gaussianOperator R true) 0 (orth LinAlg.ref) 1)) 1 demoQB 2
      .nan v = .ok (st, v') → qbB LinAlg.ref (gaussianOperator R true) 2 1 false demoQB 2 .nan v =
        .ok ((⟨st.c, st.Q, st.B⟩, demoQB), v') := fun v v' st h => by
    have e : (2 - 2 : ℤ) = 0 := by norm_num
    unfold qbB qb2Call
    rw [e, Py.bind_eq_of_ok h]; rfl
  have hc := C05_qb2_no_tol _ _ hrf 1 one_pos false demoQB (by decide) 2 .nan (Or.inl rfl) w w' _ _ (hcall _ _ _ h1)
  have hc' : st.c = 2 := by
    have : ((st.c : ℕ) : ℤ) = min 2 (min 3 2 : ℕ) := hc
    norm_num at this
    exact_mod_cast this
  -- the same run from a world without a history
  obtain ⟨g1, g2⟩ := (C80_qb (fun _ => w.rng) R LinAlg.ref demoQB 2 2 1 false .nan).2.2.2.1
  have hs := C80_stream_qb_b R LinAlg.ref demoQB 2 2 1 false .nan w w' _ (hcall _ _ _ h1)
  obtain ⟨bs, b0, b1, b2, b3⟩ := hs
  have hbs : bs = [1, 1] := by
    have hall : ∀ b ∈ bs, b = 1 := fun b hb => by have := b1 b hb; omega
    have hl : bs = List.replicate bs.length 1 := List.eq_replicate_iff.2 ⟨rfl, hall⟩
    have hlen : bs.length = 2 := by
      have : bs.sum = bs.length := by rw [hl]; simp
      have b2' : st.c = bs.sum := b2
      omega
    rw [hl, hlen]; rfl
  have k := (g2 (.int 0) w.rng (Or.inl ⟨0, rfl, rfl⟩) ⟨5, w.warns, w.trace⟩).1 (⟨st.c, st.Q, st.B⟩, demoQB)
    ⟨5, w'.warns, w'.trace⟩
  refine ⟨R, fun _ => w.rng, _, _, _, rfl, k.2 ⟨w'.rng, hcall _ _ _ h1, rfl⟩, rfl, hc', w, w', hcall _ _ _ h1, ?_⟩
  rw [b3, hbs]
  rfl

end Parla.Props
