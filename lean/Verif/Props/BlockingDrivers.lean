import Verif.Props.Blocking
import Verif.Props.SJLT

/-! # C96: drivers, almost every draw, and instances -/

namespace Parla.Props

open Matrix Parla Spec MeasureTheory
open Parla.Proof

variable {G : Type} {m n : ℕ}

/-- **C96** (almost surely).  For `k ≤ rank(A)` and almost every standard normal `Ω`, all decompositions of `A` from the columns of `Ω` agree. -/
theorem C96_ae (A : Matrix (Fin m) (Fin n) ℝ) (k : ℕ) (hk : 0 < k) (hk' : k ≤ min m n) (hr : k ≤ A.rank) :
    ∀ᵐ Z ∂(normals n k), ∀ o o' : QBOut m n, DecomposesWith A (Proof.drawMat Z) o → DecomposesWith A (Proof.drawMat Z) o' →
      (o.c = o'.c → o.Q * o.Qᵀ = o'.Q * o'.Qᵀ ∧ o.Q * o.B = o'.Q * o'.B) ∧
      (o.c ≤ o'.c → colSpace o.Q ≤ colSpace o'.Q ∧ fro (A - o'.Q * o'.B) ≤ fro (A - o.Q * o.B)) := by
  filter_upwards [Proof.ae_rank_mul (μ := stdNormal) A k] with Z hZ o o' h h'
  exact C96_agree A k hk hk' _ (by unfold FullColRank; rw [hZ]; omega) o o' h h'

theorem qb2_of_slices (A : Matrix (Fin m) (Fin n) ℝ) (k : ℕ) (hk : 0 < k) (hk' : k ≤ min m n) (Ω : Matrix (Fin n) (Fin k) ℝ)
    (hΩ : FullColRank (A * Ω)) (blk : ℕ) (hblk : 0 < blk) (la : LinAlg) (R : NpRng G) (w : World G)
    (hR : SlicesOf R Ω 0 (blockWidths k blk) w.rng) :
    ∃ out w', QB2 la (RF1 la (RS1 (gaussianOperator R true) (2 - 2) (orth la) 1)) blk false m n A k .nan w = .ok (out, w') ∧
      ProjectsOnto A Ω out ∧ DecomposesWith A Ω out ∧ out.c = k := by
  obtain ⟨out, A', w', h1, h2, h3⟩ := C96_qb_b A k hk hk' Ω hΩ blk hblk false .nan la R w hR
  refine ⟨out, w', ?_, h2, .qb_b G la R w w' blk hblk false .nan A' hR h1, ?_⟩
  · unfold QB2
    have h1' : qb2Call la (RF1 la (RS1 (gaussianOperator R true) (2 - 2) (orth la) 1)) blk false A k .nan w = .ok ((out, A'), w') := h1
    rw [Py.bind_eq_of_ok h1']; rfl
  · rcases h3 with h3 | ⟨t, ht, -⟩
    · exact h3
    · cases ht

/-- **C96** for `svd1` with two passes per block and no tolerance: two runs whose draws, put side by side, form the same matrix `Ω`, with any two
block sizes, backends and generators, return as many components and the same singular values; without oversampling also the same approximation and the same singular spaces. -/
theorem C96_svd1 (A : Matrix (Fin m) (Fin n) ℝ) (k over : ℕ) (hk : 0 < k + over) (hk' : k + over ≤ min m n)
    (Ω : Matrix (Fin n) (Fin (k + over)) ℝ) (hΩ : FullColRank (A * Ω)) (blk blk' : ℕ) (hblk : 0 < blk) (hblk' : 0 < blk')
    (la la' : LinAlg) (R R' : NpRng G) (w v : World G) (hR : SlicesOf R Ω 0 (blockWidths (k + over) blk) w.rng)
    (hR' : SlicesOf R' Ω 0 (blockWidths (k + over) blk') v.rng) :
    ∃ (out out' : SVDOut m n) (e : out.r = out'.r) (w' v' : World G),
      svd1 la (gaussianOperator R true) A k over .nan 2 blk w = .ok (out, w') ∧
      svd1 la' (gaussianOperator R' true) A k over .nan 2 blk' v = .ok (out', v') ∧
      (∀ i, out.s i = out'.s (Fin.cast e i)) ∧
      (over = 0 →
        out.U * diagonal out.s * out.Vh = out'.U * diagonal out'.s * out'.Vh ∧
        out.U * out.Uᵀ = out'.U * out'.Uᵀ ∧ out.Vhᵀ * out.Vh = out'.Vhᵀ * out'.Vh) := by
  obtain ⟨o, w', q1, p1, d1, c1⟩ := qb2_of_slices A _ hk hk' Ω hΩ blk hblk la R w hR
  obtain ⟨o', v', q2, p2, d2, c2⟩ := qb2_of_slices A _ hk hk' Ω hΩ blk' hblk' la' R' v hR'
  have hc : o.c = o'.c := by omega
  have hp := ((C96_agree A _ hk hk' Ω hΩ o o' d1 d2).1 hc).2
  obtain ⟨out, out', e, e1, e2, hs, hrest⟩ := C87_svd1_class la la' _ _ A k .nan .nan over w w' v v' _ _ q1 q2 p1.1 p2.1 hc hp
  refine ⟨out, out', e, w', v', e1, e2, hs, fun ho => ?_⟩
  refine hrest (U0 := (LinAlg.ref.svd (o.Q * o.B)).1) (s0 := (LinAlg.ref.svd (o.Q * o.B)).2.1)
    (V0 := (LinAlg.ref.svd (o.Q * o.B)).2.2ᵀ) ⟨LinAlg.ref.svd_left _, ?_, LinAlg.ref.svd_nonneg _,
      LinAlg.ref.svd_anti _, ?_⟩ (Or.inl ho)
  · change _ᵀᵀ * _ᵀ = 1
    rw [transpose_transpose]; exact LinAlg.ref.svd_right _
  · rw [transpose_transpose, LinAlg.ref.svd_mul]

/-- **C96** for `evd1` with two passes per block and no tolerance, `A` symmetric: under the same conditions as many eigenvalues, of the same
magnitudes in the same order; the same eigenvalues if `A` is positive semidefinite. -/
theorem C96_evd1 (A : Matrix (Fin n) (Fin n) ℝ) (hA : Aᵀ = A) (k over : ℕ) (hk : 0 < k) (hk' : k + over ≤ n)
    (Ω : Matrix (Fin n) (Fin (k + over)) ℝ) (hΩ : FullColRank (A * Ω)) (blk blk' : ℕ) (hblk : 0 < blk) (hblk' : 0 < blk')
    (la la' : LinAlg) (R R' : NpRng G) (w v : World G) (hR : SlicesOf R Ω 0 (blockWidths (k + over) blk) w.rng)
    (hR' : SlicesOf R' Ω 0 (blockWidths (k + over) blk') v.rng) :
    ∃ (out out' : EVDOut n) (e : out.r = out'.r) (w' v' : World G),
      evd1 la (gaussianOperator R true) A k .nan over 2 blk w = .ok (out, w') ∧
      evd1 la' (gaussianOperator R' true) A k .nan over 2 blk' v = .ok (out', v') ∧
      (∀ i, |out.lamb i| = |out'.lamb (Fin.cast e i)|) ∧
      (IsPSD A → ∀ i, out.lamb i = out'.lamb (Fin.cast e i)) := by
  have hK : k + over ≤ min n n := by omega
  obtain ⟨o, w', q1, p1, d1, c1⟩ := qb2_of_slices A _ (by omega) hK Ω hΩ blk hblk la R w hR
  obtain ⟨o', v', q2, p2, d2, c2⟩ := qb2_of_slices A _ (by omega) hK Ω hΩ blk' hblk' la' R' v hR'
  have hc : o.c = o'.c := by omega
  have hp := ((C96_agree A _ (by omega) hK Ω hΩ o o' d1 d2).1 hc).2
  rw [Nat.cast_add] at q1 q2
  obtain ⟨out, out', e, e1, e2, hl, hl'⟩ := C87_evd1_class la la' _ _ A hA k (by exact_mod_cast hk)
    (by exact_mod_cast (by omega : k ≤ n)) .nan (Or.inl rfl) over w w' v v' _ _ q1 q2 hc hp p1.2.1 p2.2.1
  refine ⟨out, out', e, w', v', ?_, ?_, hl, hl'⟩
  · unfold evd1; rw [Py.assert_pos_bind (by norm_num)]; exact e1
  · unfold evd1; rw [Py.assert_pos_bind (by norm_num)]; exact e2

/-! ## The conditions can be met: a generator that deals out the columns of a given matrix -/

/-- a generator whose state counts the columns drawn so far, and which draws those of `Ω` -/
noncomputable def colRng {r K : ℕ} (Ω : Matrix (Fin r) (Fin K) ℝ) : NpRng ℕ :=
  { demoRng with standardNormal := fun a c g =>
      (Matrix.of fun (i : Fin a) (j : Fin c) => if h : i.1 < r ∧ g + j.1 < K then Ω ⟨i.1, h.1⟩ ⟨g + j.1, h.2⟩ else 0, g + c) }

theorem slices_colRng {r K : ℕ} (Ω : Matrix (Fin r) (Fin K) ℝ) (bs : List ℕ) (c : ℕ) : SlicesOf (colRng Ω) Ω c bs c := by
  induction bs generalizing c with
  | nil => trivial
  | cons b bs ih =>
    refine ⟨fun i j h => ?_, ih (c + b)⟩
    change (if h : i.1 < r ∧ c + j.1 < K then Ω ⟨i.1, h.1⟩ ⟨c + j.1, h.2⟩ else 0) = _
    rw [dif_pos ⟨i.2, h⟩]

/-- the conditions of `C96_agree` are met: on the 6×6 identity and the first 4 unit vectors, `qb` with two passes, `qb_b` with blocks of 1 and of 3,
and `qb_b_pe` with one pass and blocks of 2 all return the same approximation -/
example (la la' : LinAlg) : ∃ o1 o2 o3 o4 : QBOut 6 6,
    (∃ w', qb la (gaussianOperator (colRng (Matrix.of fun (i : Fin 6) (j : Fin 4) => if i.1 = j.1 then (1 : ℝ) else 0)) true) 2
      (1 : Matrix (Fin 6) (Fin 6) ℝ) 4 ⟨0, 0, []⟩ = .ok (o1, w')) ∧
    (∃ A' w', qbB la (gaussianOperator (colRng (Matrix.of fun (i : Fin 6) (j : Fin 4) => if i.1 = j.1 then (1 : ℝ) else 0)) true) 2 1 false
      (1 : Matrix (Fin 6) (Fin 6) ℝ) 4 .nan ⟨0, 0, []⟩ = .ok ((o2, A'), w')) ∧
    (∃ A' w', qbB la' (gaussianOperator (colRng (Matrix.of fun (i : Fin 6) (j : Fin 4) => if i.1 = j.1 then (1 : ℝ) else 0)) true) 2 3 true
      (1 : Matrix (Fin 6) (Fin 6) ℝ) 4 .nan ⟨0, 0, []⟩ = .ok ((o3, A'), w')) ∧
    (∃ w', qbBPe la' (gaussianOperator (colRng (Matrix.of fun (i : Fin 6) (j : Fin 4) => if i.1 = j.1 then (1 : ℝ) else 0)) true) 1 2
      (1 : Matrix (Fin 6) (Fin 6) ℝ) 4 .nan ⟨0, 0, []⟩ = .ok (o4, w')) ∧
    o1.Q * o1.B = o2.Q * o2.B ∧ o2.Q * o2.B = o3.Q * o3.B ∧ o3.Q * o3.B = o4.Q * o4.B ∧ o1.c = 4 := by
  obtain ⟨Ω, hΩ⟩ : ∃ Ω : Matrix (Fin 6) (Fin 4) ℝ, Ω = Matrix.of fun (i : Fin 6) (j : Fin 4) => if i.1 = j.1 then (1 : ℝ) else 0 := ⟨_, rfl⟩
  rw [← hΩ]
  have hfull : FullColRank ((1 : Matrix (Fin 6) (Fin 6) ℝ) * Ω) := by
    rw [Matrix.one_mul]
    apply orthoCols_rank
    ext i j
    rw [hΩ, Matrix.mul_apply, Matrix.one_apply]
    simp only [Matrix.transpose_apply, Matrix.of_apply]
    fin_cases i <;> fin_cases j <;> simp [Fin.sum_univ_succ]
  obtain ⟨o1, w1, e1, -, c1⟩ := C96_qb (1 : Matrix (Fin 6) (Fin 6) ℝ) 4 (by norm_num) (by norm_num) Ω hfull la (colRng Ω) ⟨0, 0, []⟩
    (slices_colRng Ω _ 0)
  obtain ⟨o2, A2, w2, e2, -, c2⟩ := C96_qb_b (1 : Matrix (Fin 6) (Fin 6) ℝ) 4 (by norm_num) (by norm_num) Ω hfull 1 (by norm_num) false .nan la
    (colRng Ω) ⟨0, 0, []⟩ (slices_colRng Ω _ 0)
  obtain ⟨o3, A3, w3, e3, -, c3⟩ := C96_qb_b (1 : Matrix (Fin 6) (Fin 6) ℝ) 4 (by norm_num) (by norm_num) Ω hfull 3 (by norm_num) true .nan la'
    (colRng Ω) ⟨0, 0, []⟩ (slices_colRng Ω _ 0)
  obtain ⟨o4, w4, e4, -, c4⟩ := C96_qb_b_pe (1 : Matrix (Fin 6) (Fin 6) ℝ) 4 (by norm_num) (by norm_num) Ω hfull 2 (by norm_num) .nan la'
    (colRng Ω) ⟨0, 0, []⟩ (slices_colRng Ω _ 0)
  have hc2 : o2.c = 4 := by
    rcases c2 with h | ⟨u, hu, -⟩
    · exact h
    · cases hu
  have hc3 : o3.c = 4 := by
    rcases c3 with h | ⟨u, hu, -⟩
    · exact h
    · cases hu
  have hc4 : o4.c = 4 := by
    rcases c4 with h | ⟨u, hu, -⟩
    · exact h
    · cases hu
  have d1 : DecomposesWith 1 Ω o1 := .qb ℕ la (colRng Ω) _ w1 (slices_colRng Ω _ 0) e1
  have d2 : DecomposesWith 1 Ω o2 := .qb_b ℕ la (colRng Ω) _ w2 1 (by norm_num) false .nan A2 (slices_colRng Ω _ 0) e2
  have d3 : DecomposesWith 1 Ω o3 := .qb_b ℕ la' (colRng Ω) _ w3 3 (by norm_num) true .nan A3 (slices_colRng Ω _ 0) e3
  have d4 : DecomposesWith 1 Ω o4 := .qb_b_pe ℕ la' (colRng Ω) _ w4 2 (by norm_num) .nan (by norm_num) (slices_colRng Ω _ 0) e4
  have ag := fun o o' => C96_agree (1 : Matrix (Fin 6) (Fin 6) ℝ) 4 (by norm_num) (by norm_num) Ω hfull o o'
  exact ⟨o1, o2, o3, o4, ⟨w1, e1⟩, ⟨A2, w2, e2⟩, ⟨A3, w3, e3⟩, ⟨w4, e4⟩, ((ag o1 o2 d1 d2).1 (by omega)).2,
    ((ag o2 o3 d2 d3).1 (by omega)).2, ((ag o3 o4 d3 d4).1 (by omega)).2, c1⟩

/-- the conditions of `C96_passes` and `C96_one_block` are met by runs from the same state on the 5×5 identity, with the columns of any `Ω` of full rank -/
example (la : LinAlg) (Ω : Matrix (Fin 5) (Fin 3) ℝ) (hΩ : FullColRank Ω) :
    ∃ o1 o2 o3 w1 w2 A3 w3, qb la (gaussianOperator (colRng Ω) true) (1 + 1) (1 : Matrix (Fin 5) (Fin 5) ℝ) (3 : ℕ) ⟨0, 0, []⟩ = .ok (o1, w1) ∧
      qbBPe la (gaussianOperator (colRng Ω) true) 1 2 (1 : Matrix (Fin 5) (Fin 5) ℝ) (3 : ℕ) .nan ⟨0, 0, []⟩ = .ok (o2, w2) ∧
      qbB la (gaussianOperator (colRng Ω) true) (1 + 1) 7 false (1 : Matrix (Fin 5) (Fin 5) ℝ) (3 : ℕ) .nan ⟨0, 0, []⟩ = .ok ((o3, A3), w3) ∧
      o1.Q * o1.B = o2.Q * o2.B ∧ o1.Q * o1.B = o3.Q * o3.B := by
  have hfull : FullColRank ((1 : Matrix (Fin 5) (Fin 5) ℝ) * Ω) := by rw [Matrix.one_mul]; exact hΩ
  obtain ⟨o1, w1, e1, -, -⟩ := C96_qb (1 : Matrix (Fin 5) (Fin 5) ℝ) 3 (by norm_num) (by norm_num) Ω hfull la (colRng Ω) ⟨0, 0, []⟩
    (slices_colRng Ω _ 0)
  obtain ⟨o2, w2, e2, -, c2⟩ := C96_qb_b_pe (1 : Matrix (Fin 5) (Fin 5) ℝ) 3 (by norm_num) (by norm_num) Ω hfull 2 (by norm_num) .nan la
    (colRng Ω) ⟨0, 0, []⟩ (slices_colRng Ω _ 0)
  have hc2 : o2.c = 3 := by
    rcases c2 with h | ⟨u, hu, -⟩
    · exact h
    · cases hu
  have e1' : qb la (gaussianOperator (colRng Ω) true) (1 + 1) (1 : Matrix (Fin 5) (Fin 5) ℝ) (3 : ℕ) ⟨0, 0, []⟩ = .ok (o1, w1) := e1
  obtain ⟨o3, A3, w3, e3, -, g⟩ := C96_one_block la _ (1 + 1) 7 (1 : Matrix (Fin 5) (Fin 5) ℝ) 3 (by norm_num) false .nan _ w1 o1 e1'
  exact ⟨o1, o2, o3, w1, w2, A3, w3, e1', e2, e3, (C96_passes la _ 1 2 _ 3 (by norm_num) .nan _ w1 w2 o1 o2 e1' e2 hc2).2, g⟩

end Parla.Props
