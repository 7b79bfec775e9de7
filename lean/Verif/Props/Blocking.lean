import Verif.Props.Expected
import Verif.Props.BackendLR

/-! # C96: block sizes, and the three QB algorithms, on the same random matrix -/

namespace Parla.Props

open Matrix Parla Spec MeasureTheory
open Parla.Proof

variable {G : Type} {m n : ℕ}

/-- The arrays `standard_normal((r, b))` that the generator returns from state `g` on, for the widths `b` of the list in turn, are columns `c`,
`c + 1`, ... of `Ω`: put side by side they are (a stretch of) `Ω`. -/
def SlicesOf (R : NpRng G) {r K : ℕ} (Ω : Matrix (Fin r) (Fin K) ℝ) : (c : ℕ) → (bs : List ℕ) → G → Prop
  | _, [], _ => True
  | c, b :: bs, g => (∀ i (j : Fin b) (h : c + j.1 < K), (R.standardNormal r b g).1 i j = Ω i ⟨c + j.1, h⟩) ∧
      SlicesOf R Ω (c + b) bs (R.standardNormal r b g).2

theorem colSpace_slice {r K b c : ℕ} {Ω : Matrix (Fin r) (Fin K) ℝ} {Z : Matrix (Fin r) (Fin b) ℝ} (hb : c + b ≤ K)
    (h : ∀ i (j : Fin b) (h : c + j.1 < K), Z i j = Ω i ⟨c + j.1, h⟩) : colSpace Z = colSpace (colSlice c (c + b) Ω) := by
  apply le_antisymm
  · apply colSpace_le_of_cols
    intro j
    have := j.2
    convert col_mem_colSpace (colSlice c (c + b) Ω) ⟨j.1, by omega⟩ using 1
    ext i
    exact h i j (by omega)
  · apply colSpace_le_of_cols
    intro j
    have := j.2
    convert col_mem_colSpace Z ⟨j.1, by omega⟩ using 1
    ext i
    exact (h i ⟨j.1, by omega⟩ (by change c + j.1 < K; omega)).symm

/-- the first `c` columns of a matrix of full column rank -/
theorem rank_takeCols {K : ℕ} {M : Matrix (Fin m) (Fin K) ℝ} (h : M.rank = K) {c : ℕ} (hc : c ≤ K) : (takeCols c M).rank = c := by
  have h1 : LinearIndependent ℝ M.col := by
    rw [linearIndependent_iff_card_eq_finrank_span, Fintype.card_fin]
    rw [Matrix.rank_eq_finrank_span_cols] at h
    exact h.symm
  have h2 : LinearIndependent ℝ (takeCols c M).col := by
    have := h1.comp (takeIdx c K) (fun a b hab => by
      apply Fin.ext
      have := congrArg Fin.val hab
      exact this)
    exact this
  rw [Matrix.rank_eq_finrank_span_cols]
  have h3 := linearIndependent_iff_card_eq_finrank_span.1 h2
  rw [Fintype.card_fin] at h3
  exact h3.symm.trans (Nat.min_eq_left hc)

/-- a blocked run without power iterations: after every iteration `Q` is an orthonormal basis of the range of `A` times the columns drawn -/
theorem loop_slices (la : LinAlg) (R : NpRng G) (A0 : Matrix (Fin m) (Fin n) ℝ) {K blk : ℕ} (hblk : 0 < blk)
    (hK : K ≤ min m n) (Ω : Matrix (Fin n) (Fin K) ℝ) (hfull : (A0 * Ω).rank = K) (useTol : Prop) (tl : ℝ) (fuel : ℕ)
    (st : QB2St m n) (w : World G) (hc : st.c < K) (hfuel : K - st.c ≤ fuel) (hst : st.blk = blk)
    (hI : QB2Inv A0 st) (hF : QB2Full A0 st) (hcs : colSpace st.Q = colSpace (A0 * takeCols st.c Ω))
    (hR : SlicesOf R Ω st.c (blockWidths (K - st.c) blk) w.rng) :
    ∃ st' w', qb2Loop la (RF1 la (RS1 (gaussianOperator R true) 0 (orth la) 1)) K useTol tl fuel st w = .ok (st', w') ∧
      QB2Full A0 st' ∧ colSpace st'.Q = colSpace (A0 * takeCols st'.c Ω) := by
  induction fuel generalizing st w with
  | zero => omega
  | succ fuel ih =>
    rw [blockWidths_pos (by omega) hblk] at hR
    obtain ⟨hR1, hR2⟩ := hR
    have hblkeq : qb2Blk K st.c st.blk = min blk (K - st.c) := by
      unfold qb2Blk; rw [hst]; split <;> omega
    obtain ⟨b, hb⟩ : ∃ b, b = min blk (K - st.c) := ⟨_, rfl⟩
    rw [← hb] at hR1 hR2 hblkeq
    obtain ⟨Z, hZ⟩ : ∃ Z, Z = (R.standardNormal n b w.rng).1 := ⟨_, rfl⟩
    rw [← hZ] at hR1
    obtain ⟨out, w1, h1, h2, h3, h4, h5⟩ := rf_step (le_refl 0) powMap_zero la R st.A
      (b := b) (by omega) (by omega) w (Z := fun ij => Z ij.1 ij.2) (by rw [← hZ]; rfl)
    have eZ : Proof.drawMat (fun ij : Fin n × Fin b => Z ij.1 ij.2) = Z := rfl
    rw [eZ] at h5
    have hT : colSpace st.Q ⊔ colSpace (A0 * Z) = colSpace (A0 * takeCols (st.c + b) Ω) := by
      rw [hcs, ← mul_takeCols, ← mul_takeCols, colSpace_take_slice (Nat.le_add_right st.c b), mul_colSlice,
        colSpace_mul_congr A0 (colSpace_slice (by omega) hR1)]
    have hrk : (A0 * takeCols (st.c + b) Ω).rank = st.c + b := by
      rw [← mul_takeCols]; exact rank_takeCols hfull (by omega)
    have e : A0 * Z = st.A * Z + st.Q * (st.B * Z) := by
      rw [hI.1, Matrix.sub_mul, Matrix.mul_assoc]; abel
    have hAZ : colSpace (A0 * Z) ≤ colSpace st.Q ⊔ colSpace (st.A * Z) := by
      intro x hx
      obtain ⟨y, rfl⟩ := mem_colSpace.1 hx
      rw [e, add_mulVec, add_comm]
      exact Submodule.add_mem_sup (colSpace_mul_le _ _ (mem_colSpace.2 ⟨y, rfl⟩)) (mem_colSpace.2 ⟨y, rfl⟩)
    have hbr : b ≤ (st.A * Z).rank := by
      have g1 : colSpace (A0 * takeCols (st.c + b) Ω) ≤ colSpace st.Q ⊔ colSpace (st.A * Z) := by
        rw [← hT]; exact sup_le le_sup_left hAZ
      have g2 := Submodule.finrank_mono g1
      have g3 := Submodule.finrank_add_le_finrank_add_finrank (colSpace st.Q) (colSpace (st.A * Z))
      rw [finrank_colSpace] at g2 g3
      rw [finrank_colSpace, orthoCols_rank hF.1] at g3
      omega
    have hout := colSpace_eq_of_le_rank h5 (by omega)
    have hFu := qb2Full_update la hI hF b out (orthoCols_rank h4) (by rw [← hout]; exact colSpace_mul_le _ _)
    have hIu := qb2Inv_update la hI b out
    obtain ⟨st1, hst1⟩ : ∃ st1, st1 = qb2Update la b st out := ⟨_, rfl⟩
    rw [← hst1] at hFu hIu
    have hc1 : st1.c = st.c + b := by
      rw [hst1]
      change st.c + min m out.c = _
      omega
    have hcs1 : colSpace st1.Q = colSpace (A0 * takeCols st1.c Ω) := by
      have hQ1 : colSpace st.Q ≤ colSpace st1.Q := by
        rw [hst1]
        change _ ≤ colSpace (hcat st.Q _)
        rw [colSpace_hcat]; exact le_sup_left
      have hout1 : colSpace out.mat ≤ colSpace st1.Q := by
        rw [hst1]
        change _ ≤ colSpace (hcat st.Q (la.qr (projectOut out.mat st.Q)).1)
        rw [colSpace_hcat]
        have e : out.mat = st.Q * (st.Qᵀ * out.mat) + projectOut out.mat st.Q := by
          unfold projectOut; abel
        intro x hx
        obtain ⟨y, rfl⟩ := mem_colSpace.1 hx
        have e' : out.mat *ᵥ y = (st.Q * (st.Qᵀ * out.mat)) *ᵥ y + projectOut out.mat st.Q *ᵥ y := by
          rw [← add_mulVec, ← e]
        rw [e']
        refine Submodule.add_mem_sup ?_ ?_
        · exact colSpace_mul_le _ _ (mem_colSpace.2 ⟨y, rfl⟩)
        · exact qr_range la _ (mem_colSpace.2 ⟨y, rfl⟩)
      have hle : colSpace (A0 * takeCols (st.c + b) Ω) ≤ colSpace st1.Q := by
        rw [← hT]
        exact sup_le hQ1 (hAZ.trans (sup_le hQ1 (h5.trans hout1)))
      rw [← hc1] at hle hrk
      exact (colSpace_eq_of_le_rank hle (by omega)).symm
    unfold qb2Loop
    simp only [hblkeq]
    rw [Py.bind_eq_of_ok (qb2Draw_of_ok h1), ← hst1]
    split
    · exact ⟨st1, _, rfl, hFu, hcs1⟩
    · split
      · exact ⟨st1, _, rfl, hFu, hcs1⟩
      · rename_i hge
        have hlt : st1.c < K := by omega
        refine ih st1 { w1 with trace := w1.trace ++ [.mulAT] } hlt (by omega)
          (by rw [hst1]; change b = blk; omega) hIu hFu hcs1 ?_
        rw [hc1, Nat.sub_add_eq]
        change SlicesOf R Ω _ _ w1.rng
        rw [h2]
        exact hR2

theorem proj_eq_of_range {a b : ℕ} {Q : Matrix (Fin m) (Fin a) ℝ} {P : Matrix (Fin m) (Fin b) ℝ} (hQ : OrthoCols Q) (hP : OrthoCols P)
    (h : colSpace Q = colSpace P) : Q * Qᵀ = P * Pᵀ := by
  have hu : IsUnit (Pᵀ * P).det := by rw [show Pᵀ * P = 1 from hP]; simp
  exact (proj_unique hQ hu h).trans (proj_unique hP hu rfl).symm

/-- one draw of `k` columns is the whole of `Ω` -/
theorem slices_one {R : NpRng G} {r k : ℕ} {Ω : Matrix (Fin r) (Fin k) ℝ} {g : G} (h : SlicesOf R Ω 0 [k] g) :
    (R.standardNormal r k g).1 = Ω := by
  ext i j
  have := h.1 i j (by omega)
  rw [this]
  congr 1
  exact Fin.ext (by simp)

/-- without power iterations the sketcher returns the drawn matrix up to a factor -/
theorem rs1_zero (R : NpRng G) {k : ℕ} (hk : 0 < k) (hn : 0 < n) {Ω : Matrix (Fin n) (Fin k) ℝ} {w : World G}
    (h : SlicesOf R Ω 0 [k] w.rng) (stab : Stab) (A : Matrix (Fin m) (Fin n) ℝ) :
    ∃ (t : ℝ) (w' : World G), t ≠ 0 ∧ rs1Call (gaussianOperator R true) 0 stab 1 A k w = .ok (⟨k, t • Ω⟩, w') := by
  obtain ⟨t, ht, hg⟩ := gaussian_next R (r := n) (c := k) (by omega) (w := w) (Z := fun ij => Ω ij.1 ij.2)
    (by unfold NextNormal; rw [slices_one h]; rfl)
  refine ⟨t, { w with rng := (R.standardNormal n k w.rng).2 }, ht, ?_⟩
  unfold rs1Call
  rw [Py.assert_pos_bind (by norm_num), if_pos (by norm_num), Py.bind_eq_of_ok hg]
  rfl

theorem colSpace_smul {r k : ℕ} {t : ℝ} (ht : t ≠ 0) (M : Matrix (Fin r) (Fin k) ℝ) : colSpace (t • M) = colSpace M := by
  apply le_antisymm
  · exact colSpace_le_iff.2 ⟨t • 1, by simp⟩
  · exact colSpace_le_iff.2 ⟨t⁻¹ • 1, by simp [smul_smul, ht]⟩

theorem colSpace_takeCols_all' {r k : ℕ} (M : Matrix (Fin r) (Fin k) ℝ) (c : ℕ) (h : c = k) : colSpace M = colSpace (takeCols c M) := by
  apply le_antisymm
  · apply colSpace_le_of_cols
    intro j
    exact col_mem_colSpace (takeCols c M) ⟨j.1, by have := j.2; omega⟩
  · exact colSpace_submatrix_le M _

/-- what every one of the algorithms returns: `Q` an orthonormal basis of the range of `A` times the first columns of `Ω`, and `B = Q'A` -/
def ProjectsOnto {k : ℕ} (A : Matrix (Fin m) (Fin n) ℝ) (Ω : Matrix (Fin n) (Fin k) ℝ) (out : QBOut m n) : Prop :=
  OrthoCols out.Q ∧ out.B = out.Qᵀ * A ∧ out.c ≤ k ∧ colSpace out.Q = colSpace (A * takeCols out.c Ω)

/-- **C96** for `qb_b` with two passes per block (no power iterations), every block size and tolerance: if the draws, put side by side, form
`Ω` and `A Ω` has full column rank then the call returns, and the `c` columns of `Q` are an orthonormal basis of the range of `A` times the first
`c` columns of `Ω`, whatever the block size; `c = k` unless the tolerance is met. -/
theorem C96_qb_b (A : Matrix (Fin m) (Fin n) ℝ) (k : ℕ) (hk : 0 < k) (hk' : k ≤ min m n) (Ω : Matrix (Fin n) (Fin k) ℝ)
    (hΩ : FullColRank (A * Ω)) (blk : ℕ) (hblk : 0 < blk) (ow : Bool) (tol : Tol) (la : LinAlg) (R : NpRng G) (w : World G)
    (hR : SlicesOf R Ω 0 (blockWidths k blk) w.rng) :
    ∃ out A' w', qbB la (gaussianOperator R true) 2 blk ow A k tol w = .ok ((out, A'), w') ∧ ProjectsOnto A Ω out ∧
      (out.c = k ∨ ∃ t, tol = .val t ∧ 0 < t ∧ fro (A - out.Q * out.B) ≤ t * fro A) := by
  have hcl : clampK (k : ℤ) m n = k := by unfold clampK; omega
  have hT : colSpace (A * takeCols 0 Ω) = ⊥ := by
    rw [eq_bot_iff]
    apply colSpace_le_of_cols
    intro j
    have := j.2
    omega
  obtain ⟨st, w', h1, h2, h3⟩ := loop_slices la R A hblk hk' Ω hΩ tol.use (absSqTol tol A) (k + 1) (qb2Init A blk) w
    hk (by change k - 0 ≤ _; omega) rfl (qb2Inv_init A blk) ⟨orth_empty _, by ext i; exact i.elim0, rfl⟩
    (by
      change colSpace (0 : Matrix (Fin m) (Fin 0) ℝ) = colSpace (A * takeCols 0 Ω)
      rw [hT, eq_bot_iff]
      apply colSpace_le_of_cols
      intro j
      exact j.elim0) hR
  have hrun : qbB la (gaussianOperator R true) 2 blk ow A k tol w = .ok ((⟨st.c, st.Q, st.B⟩, if ow then st.A else A), w') := by
    unfold qbB qb2Call
    rw [show (2 : ℤ) - 2 = 0 by norm_num, Py.bind_eq_of_ok (show qb2Run la _ blk A k tol w = .ok (st, w') by
      rw [qb2Run_open w (by exact_mod_cast hk), hcl, if_pos (by exact_mod_cast hk')]; exact h1)]
    rfl
  obtain ⟨g1, g2⟩ := C05_qb2_exit la _ (C05_rf1_shape la _ _ _ (Or.inl rfl) _) blk hblk ow A (by omega) k tol w w' _ _ hrun
  refine ⟨_, _, _, hrun, ⟨h2.1, h2.2.1, ?_, h3⟩, ?_⟩
  · change st.c ≤ k
    have : (st.c : ℤ) ≤ _ := g1
    omega
  · rcases g2 with g2 | g2
    · left
      change st.c = k
      have : (st.c : ℤ) = _ := g2
      omega
    · exact Or.inr g2

/-- **C96** for `qb` with two passes: `k` columns, on one draw of `k` columns. -/
theorem C96_qb (A : Matrix (Fin m) (Fin n) ℝ) (k : ℕ) (hk : 0 < k) (hk' : k ≤ min m n) (Ω : Matrix (Fin n) (Fin k) ℝ)
    (hΩ : FullColRank (A * Ω)) (la : LinAlg) (R : NpRng G) (w : World G) (hR : SlicesOf R Ω 0 [k] w.rng) :
    ∃ out w', qb la (gaussianOperator R true) 2 A k w = .ok (out, w') ∧ ProjectsOnto A Ω out ∧ out.c = k := by
  obtain ⟨t, w1, ht, hS⟩ := rs1_zero R hk (by omega) hR (orth la) A
  have hrf : RF1 la (RS1 (gaussianOperator R true) (2 - 2) (orth la) 1) m n A k .nan w =
      .ok (⟨_, (la.qr (A * (t • Ω))).1⟩, { w1 with trace := w1.trace ++ [.mulA] }) := by
    unfold RF1 rf1Call
    rw [Py.assert_pos_bind (by exact_mod_cast hk), Py.assert_pos_bind (by exact_mod_cast hk')]
    simp only [Tol.isNaN_nan, not_true_eq_false, if_false]
    have h1' : RS1 (gaussianOperator R true) (2 - 2) (orth la) 1 m n A (k : ℤ).toNat w = .ok (⟨k, t • Ω⟩, w1) := by
      rw [Int.toNat_natCast]; exact hS
    rw [Py.bind_eq_of_ok h1']
    rfl
  obtain ⟨out, g1, rfl, -⟩ := C04_qb1 _ A k .nan w _ _ (by exact_mod_cast hk)
    (by exact_mod_cast hk') trivial hrf
  have hc : min m k = k := by omega
  have hfull : (A * (t • Ω)).rank = k := by
    rw [← finrank_colSpace, Matrix.mul_smul]
    rw [colSpace_smul ht, finrank_colSpace]; exact hΩ
  refine ⟨_, _, g1, ⟨la.qr_orth _, rfl, by change min m k ≤ k; omega, ?_⟩, hc⟩
  change colSpace (la.qr (A * (t • Ω))).1 = colSpace (A * takeCols (min m k) Ω)
  rw [← colSpace_eq_of_le_rank (qr_range la _) (by omega), ← mul_takeCols, ← colSpace_takeCols_all' (A * Ω) (min m k) (by omega),
    Matrix.mul_smul, colSpace_smul ht]

/-- **C96** for `qb_b_pe` with one pass, every block size and tolerance, on one draw of `k` columns. -/
theorem C96_qb_b_pe (A : Matrix (Fin m) (Fin n) ℝ) (k : ℕ) (hk : 0 < k) (hk' : k < min m n) (Ω : Matrix (Fin n) (Fin k) ℝ)
    (hΩ : FullColRank (A * Ω)) (blk : ℕ) (hblk : 0 < blk) (tol : Tol) (la : LinAlg) (R : NpRng G) (w : World G)
    (hR : SlicesOf R Ω 0 [k] w.rng) :
    ∃ out w', qbBPe la (gaussianOperator R true) 1 blk A k tol w = .ok (out, w') ∧ ProjectsOnto A Ω out ∧
      (out.c = k ∨ ∃ t, tol = .val t ∧ 0 < t ∧ fro (A - out.Q * out.B) ≤ t * fro A) := by
  obtain ⟨t, w1, ht, hS⟩ := rs1_zero R hk (by omega) hR (orth la) A
  have h1' : RS1 (gaussianOperator R true) (1 - 1) (orth la) 1 m n A (k : ℤ).toNat w = .ok (⟨k, t • Ω⟩, w1) := by
    rw [Int.toNat_natCast]; exact hS
  have hfull : FullColRank (A * (t • Ω)) := by
    unfold FullColRank
    rw [← finrank_colSpace, Matrix.mul_smul]
    rw [colSpace_smul ht, finrank_colSpace]; exact hΩ
  obtain ⟨out, w', h4⟩ := C10_qb3_returns la _ blk hblk A k tol w w1 ⟨k, t • Ω⟩ (by exact_mod_cast hk)
    (by exact_mod_cast hk') h1' rfl hfull
  obtain ⟨g1, g2, g3, g4⟩ := C10_qb3_correct la _ blk A k tol w w1 w' _ h1' rfl out h4
  obtain ⟨g5, g6⟩ := C11_qb3_columns la _ blk A k tol w w1 w' _ h1' rfl out h4
  refine ⟨out, w', h4, ⟨g1, g2, by obtain ⟨i, -, hi⟩ := g5; omega, ?_⟩, ?_⟩
  · rw [g3]
    change colSpace (A * takeCols out.c (t • Ω)) = _
    have e : takeCols out.c (t • Ω) = t • takeCols out.c Ω := rfl
    rw [e, Matrix.mul_smul, colSpace_smul ht]
  · rcases g6 with g6 | g6
    · left; exact_mod_cast g6
    · exact Or.inr g6

/-- `out` was returned, from `A` and `k`, by `qb` with two passes, by `qb_b` with two passes per block or by `qb_b_pe` with one pass, with some
block size, tolerance, linear algebra backend and generator, the columns drawn being those of `Ω`. -/
inductive DecomposesWith {k : ℕ} (A : Matrix (Fin m) (Fin n) ℝ) (Ω : Matrix (Fin n) (Fin k) ℝ) (out : QBOut m n) : Prop
  | qb (G : Type) (la : LinAlg) (R : NpRng G) (w w' : World G) (hR : SlicesOf R Ω 0 [k] w.rng)
      (h : qb la (gaussianOperator R true) 2 A k w = .ok (out, w'))
  | qb_b (G : Type) (la : LinAlg) (R : NpRng G) (w w' : World G) (blk : ℕ) (hblk : 0 < blk) (ow : Bool) (tol : Tol)
      (A' : Matrix (Fin m) (Fin n) ℝ) (hR : SlicesOf R Ω 0 (blockWidths k blk) w.rng)
      (h : qbB la (gaussianOperator R true) 2 blk ow A k tol w = .ok ((out, A'), w'))
  | qb_b_pe (G : Type) (la : LinAlg) (R : NpRng G) (w w' : World G) (blk : ℕ) (hblk : 0 < blk) (tol : Tol) (hk : k < min m n)
      (hR : SlicesOf R Ω 0 [k] w.rng) (h : qbBPe la (gaussianOperator R true) 1 blk A k tol w = .ok (out, w'))

theorem DecomposesWith.projects {k : ℕ} {A : Matrix (Fin m) (Fin n) ℝ} {Ω : Matrix (Fin n) (Fin k) ℝ} {out : QBOut m n}
    (hk : 0 < k) (hk' : k ≤ min m n) (hΩ : FullColRank (A * Ω)) (h : DecomposesWith A Ω out) : ProjectsOnto A Ω out := by
  cases h with
  | qb G la R w w' hR h =>
    obtain ⟨o, v, e, g, -⟩ := C96_qb A k hk hk' Ω hΩ la R w hR
    rw [e] at h; cases h; exact g
  | qb_b G la R w w' blk hblk ow tol A' hR h =>
    obtain ⟨o, A1, v, e, g, -⟩ := C96_qb_b A k hk hk' Ω hΩ blk hblk ow tol la R w hR
    rw [e] at h; cases h; exact g
  | qb_b_pe G la R w w' blk hblk tol hlt hR h =>
    obtain ⟨o, v, e, g, -⟩ := C96_qb_b_pe A k hk hlt Ω hΩ blk hblk tol la R w hR
    rw [e] at h; cases h; exact g

/-- **C96** (agreement).  Two decompositions of `A` from the same columns `Ω`, by any of the three algorithms, with any block sizes, tolerances,
backends and generators: with equally many columns the projections `QQ'` and the approximations `QB` are equal; the one with more columns spans more,
and its error is not larger. -/
theorem C96_agree (A : Matrix (Fin m) (Fin n) ℝ) (k : ℕ) (hk : 0 < k) (hk' : k ≤ min m n) (Ω : Matrix (Fin n) (Fin k) ℝ)
    (hΩ : FullColRank (A * Ω)) (o o' : QBOut m n) (h : DecomposesWith A Ω o) (h' : DecomposesWith A Ω o') :
    (o.c = o'.c → o.Q * o.Qᵀ = o'.Q * o'.Qᵀ ∧ o.Q * o.B = o'.Q * o'.B) ∧
      (o.c ≤ o'.c → colSpace o.Q ≤ colSpace o'.Q ∧ fro (A - o'.Q * o'.B) ≤ fro (A - o.Q * o.B)) := by
  obtain ⟨a1, a2, a3, a4⟩ := h.projects hk hk' hΩ
  obtain ⟨b1, b2, b3, b4⟩ := h'.projects hk hk' hΩ
  have hle : o.c ≤ o'.c → colSpace o.Q ≤ colSpace o'.Q := by
    intro hc
    rw [a4, b4, ← mul_takeCols, ← mul_takeCols, colSpace_take_slice hc]
    exact le_sup_left
  refine ⟨fun hc => ?_, fun hc => ⟨hle hc, ?_⟩⟩
  · have hs : colSpace o.Q = colSpace o'.Q := colSpace_eq_of_le_rank (hle hc.le) (by rw [orthoCols_rank a1, hc])
    have e := proj_eq_of_range a1 b1 hs
    refine ⟨e, ?_⟩
    rw [a2, b2, ← Matrix.mul_assoc, e, Matrix.mul_assoc]
  · have := froSq_le_of_colSpace b1 A (o.Q * o.B) ((colSpace_mul_le _ _).trans (hle hc))
    rw [← b2] at this
    unfold fro
    exact Real.sqrt_le_sqrt this

/-- **C96** (one pass fewer).  `qb` with `p + 1` passes and `qb_b_pe` with `p` passes, from the same generator state, with any sketching operator
that returns the shape asked for, any `p`, block size and tolerance: the same `QB` if all `k` columns were built. -/
theorem C96_passes (la : LinAlg) (gen : SkOpGen G) (p : ℤ) (blk : ℕ) (A : Matrix (Fin m) (Fin n) ℝ) (k : ℕ) (hk : k < min m n)
    (tol : Tol) (w w1 w2 : World G) (o1 o2 : QBOut m n) (h1 : qb la gen (p + 1) A k w = .ok (o1, w1))
    (h2 : qbBPe la gen p blk A k tol w = .ok (o2, w2)) (hc : o2.c = k) :
    o1.Q * o1.Qᵀ = o2.Q * o2.Qᵀ ∧ o1.Q * o1.B = o2.Q * o2.B := by
  have hk0 : 0 < k := by
    rcases Nat.eq_zero_or_pos k with rfl | h
    · unfold qb qb1Call at h1
      rw [Py.assert_neg_bind (by norm_num)] at h1; cases h1
    · exact h
  obtain ⟨a1, a2, S, v, hS, hle⟩ := qbBPe_range hk h2 hc
  have hS' : RS1 gen (p - 1) (orth la) 1 m n A (k : ℤ).toNat w = .ok (S, v) := by
    rw [Int.toNat_natCast]; exact hS
  have hSc : S.c = k := rs1Call_width_eq (fun _ _ => rfl) (by omega) hS
  obtain ⟨-, -, g3, g4⟩ := C10_qb3_correct la _ blk A k tol w v w2 S hS' (by exact_mod_cast hSc) o2 h2
  have hAS : colSpace (A * S.mat) = colSpace o2.Q := by
    rw [g3, ← mul_takeCols]
    exact colSpace_takeCols_all' _ _ (by omega)
  have hrk : (A * S.mat).rank = k := by
    rw [← finrank_colSpace, hAS, finrank_colSpace, orthoCols_rank a1, hc]
  have hrf : RF1 la (RS1 gen (p + 1 - 2) (orth la) 1) m n A k .nan w =
      .ok (⟨_, (la.qr (A * S.mat)).1⟩, { v with trace := v.trace ++ [.mulA] }) := by
    rw [show p + 1 - 2 = p - 1 by ring]
    unfold RF1 rf1Call
    rw [Py.assert_pos_bind (by exact_mod_cast hk0), Py.assert_pos_bind (by exact_mod_cast hk.le)]
    simp only [Tol.isNaN_nan, not_true_eq_false, if_false]
    rw [Py.bind_eq_of_ok hS']
    rfl
  obtain ⟨out, e1, rfl, -⟩ := C04_qb1 _ A k .nan w _ _ (by exact_mod_cast hk0) (by exact_mod_cast hk.le) trivial hrf
  have e2 : qb la gen (p + 1) A k w = _ := e1
  rw [h1] at e2
  cases e2
  have hs : colSpace (la.qr (A * S.mat)).1 = colSpace o2.Q := by
    rw [← hAS]
    exact (colSpace_eq_of_le_rank (qr_range la _) (by omega)).symm
  have e := proj_eq_of_range (la.qr_orth _) a1 hs
  refine ⟨e, ?_⟩
  change (la.qr (A * S.mat)).1 * ((la.qr (A * S.mat)).1ᵀ * A) = _
  rw [a2, ← Matrix.mul_assoc, e, Matrix.mul_assoc]

theorem rf1_orth {la : LinAlg} {rso : RowSketcher G} {A : Matrix (Fin m) (Fin n) ℝ} {k : ℤ} {w w' : World G}
    {Q : Cols m} (h : RF1 la rso m n A k .nan w = .ok (Q, w')) : OrthoCols Q.mat := by
  unfold RF1 rf1Call at h
  rw [Py.bind_ok_iff] at h; obtain ⟨_, w0, ha, h⟩ := h
  rw [Py.bind_ok_iff] at h; obtain ⟨_, w0, ha, h⟩ := h
  simp only [Tol.isNaN_nan, not_true_eq_false, if_false] at h
  rw [Py.bind_ok_iff] at h; obtain ⟨S, w0, hS, h⟩ := h
  rw [Py.bind_ok_iff] at h; obtain ⟨Y, w0, hY, h⟩ := h
  cases h
  exact la.qr_orth _

/-- **C96** (one block).  `qb_b` with a block size of at least `k`, any number of passes and any tolerance, and `qb` with as many passes, from the
same generator state: the same `QB`. -/
theorem C96_one_block (la : LinAlg) (gen : SkOpGen G) (p : ℤ) (blk : ℕ) (A : Matrix (Fin m) (Fin n) ℝ) (k : ℕ)
    (hblk : k ≤ blk) (ow : Bool) (tol : Tol) (w w1 : World G) (o1 : QBOut m n) (h1 : qb la gen p A k w = .ok (o1, w1)) :
    ∃ o2 A' w2, qbB la gen p blk ow A k tol w = .ok ((o2, A'), w2) ∧ o1.Q * o1.Qᵀ = o2.Q * o2.Qᵀ ∧ o1.Q * o1.B = o2.Q * o2.B := by
  have hk0 : 0 < k := by
    rcases Nat.eq_zero_or_pos k with rfl | h
    · unfold qb qb1Call at h1
      rw [Py.assert_neg_bind (by norm_num)] at h1; cases h1
    · exact h
  unfold qb qb1Call at h1
  rw [Py.bind_ok_iff] at h1; obtain ⟨_, w0, ha, h1⟩ := h1
  rw [Py.assert_ok_iff] at ha; obtain ⟨hk, rfl⟩ := ha
  rw [Py.bind_ok_iff] at h1; obtain ⟨_, w0, ha, h1⟩ := h1
  rw [Py.assert_ok_iff] at ha; obtain ⟨hk', rfl⟩ := ha
  rw [Py.bind_ok_iff] at h1; obtain ⟨_, w0', ha, h1⟩ := h1
  cases ha
  rw [Py.bind_ok_iff] at h1; obtain ⟨Q, v, hrf, h1⟩ := h1
  cases h1
  have hQc : Q.c = k := by
    have := C05_rf1_shape la gen (p - 2) (orth la) (Or.inl rfl) 1 A k .nan w0 Q v hrf
    exact_mod_cast this
  have ho : OrthoCols Q.mat := rf1_orth hrf
  have hcl : clampK (k : ℤ) m n = k := by unfold clampK; omega
  have hb : qb2Blk k 0 blk = k := by unfold qb2Blk; split <;> omega
  obtain ⟨st, hst⟩ : ∃ st, st = qb2Update la k (qb2Init A blk) Q := ⟨_, rfl⟩
  have hstc : st.c = k := by
    rw [hst]; change 0 + min m Q.c = k; omega
  have hrun : qb2Run la (RF1 la (RS1 gen (p - 2) (orth la) 1)) blk A k tol w0 = .ok (st, { v with trace := v.trace ++ [.mulAT] }) := by
    rw [qb2Run_open w0 hk, hcl, if_pos hk']
    unfold qb2Loop
    have hb' : qb2Blk k (qb2Init A blk).c (qb2Init A blk).blk = k := hb
    have hrf' : RF1 la (RS1 gen (p - 2) (orth la) 1) m n (qb2Init A blk).A k .nan w0 = .ok (Q, v) := hrf
    simp only [hb']
    rw [Py.bind_eq_of_ok (qb2Draw_of_ok hrf')]
    rw [← hst]
    split
    · rfl
    · rw [if_pos (by omega)]; rfl
  refine ⟨⟨st.c, st.Q, st.B⟩, if ow then st.A else A, _, by unfold qbB qb2Call; rw [Py.bind_eq_of_ok hrun]; rfl, ?_⟩
  have hp : projectOut Q.mat (0 : Matrix (Fin m) (Fin 0) ℝ) = Q.mat := by
    unfold projectOut; simp
  obtain ⟨P, hP⟩ : ∃ P, P = (la.qr Q.mat).1 := ⟨_, rfl⟩
  have hPQ : Q.mat * Q.matᵀ = P * Pᵀ := by
    rw [hP]
    exact proj_eq_of_range ho (la.qr_orth _) (qr_colSpace_of_orth la ho).symm
  rw [hst]
  change Q.mat * Q.matᵀ = hcat (0 : Matrix (Fin m) (Fin 0) ℝ) (la.qr (projectOut Q.mat (0 : Matrix (Fin m) (Fin 0) ℝ))).1 *
      (hcat (0 : Matrix (Fin m) (Fin 0) ℝ) (la.qr (projectOut Q.mat (0 : Matrix (Fin m) (Fin 0) ℝ))).1)ᵀ ∧
    Q.mat * (Q.matᵀ * A) = hcat (0 : Matrix (Fin m) (Fin 0) ℝ) (la.qr (projectOut Q.mat (0 : Matrix (Fin m) (Fin 0) ℝ))).1 *
      vcat (0 : Matrix (Fin 0) (Fin n) ℝ) ((la.qr (projectOut Q.mat (0 : Matrix (Fin m) (Fin 0) ℝ))).1ᵀ * A)
  rw [hp, ← hP, hcat_transpose, hcat_mul_vcat, hcat_mul_vcat, Matrix.zero_mul, Matrix.zero_mul, zero_add, zero_add]
  exact ⟨hPQ, by rw [← Matrix.mul_assoc, hPQ, Matrix.mul_assoc]⟩

end Parla.Props
