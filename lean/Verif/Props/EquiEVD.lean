import Verif.Props.EquiLR
import Verif.Props.Witness
import Verif.Props.Scaling

/-! # C89, `evd1` and `evd2`: a symmetric matrix in rotated coordinates -/

namespace Parla.Props

open Matrix Parla Spec MeasureTheory Proof

variable {G : Type} {m n : ℕ}

open Polynomial in
theorem eigh_rot (la la' : LinAlg) {c : ℕ} {P : Matrix (Fin n) (Fin n) ℝ} (hP : Pᵀ * P = 1)
    {Q Q' : Matrix (Fin n) (Fin c) ℝ} {B B' : Matrix (Fin c) (Fin n) ℝ}
    (h : Q' * B' = P * (Q * B) * Pᵀ) (hs : (B * Q)ᵀ = B * Q) (hs' : (B' * Q')ᵀ = B' * Q') :
    (la.eigh (B * Q)).1 = (la'.eigh (B' * Q')).1 := by
  have e : B * Pᵀ * (P * Q) = B * Q := by
    rw [Matrix.mul_assoc, ← Matrix.mul_assoc Pᵀ, hP, Matrix.one_mul]
  have := eigh_same la la' (Q := P * Q) (B := B * Pᵀ) (Q' := Q') (B' := B') (by
    rw [h]; simp only [Matrix.mul_assoc]) (by rw [e]; exact hs) hs'
  rwa [e] at this

/-- **C89** (`EVD1`).  For any two backends and two QB decomposers, one run on the symmetric `A` and one on `P A P'`,
that return as many columns and products that are each other's rotations: EVD1 keeps the same number of components,
with eigenvalues of the same magnitudes in the same order - the same eigenvalues if `A` is positive semidefinite. -/
theorem C89_evd1_class (la la' : LinAlg) (qb qb' : QBDecomposer G) (A A' : Matrix (Fin n) (Fin n) ℝ) (hA : Aᵀ = A)
    (P : Matrix (Fin n) (Fin n) ℝ) (hP : Pᵀ * P = 1) (hAP : A' = P * A * Pᵀ) (k : ℤ)
    (hk : 0 < k) (hk' : k ≤ n) (tol : Tol) (htol : tol = .nan ∨ ∃ t, tol = .val t ∧ 0 ≤ t) (over : ℕ)
    (w w' v v' : World G) (qbo qbo' : QBOut n n) (hqb : qb n n A (k + over) tol.half w = .ok (qbo, w'))
    (hqb' : qb' n n A' (k + over) tol.half v = .ok (qbo', v')) (hc : qbo.c = qbo'.c)
    (hp : qbo'.Q * qbo'.B = P * (qbo.Q * qbo.B) * Pᵀ) (hB : qbo.B = qbo.Qᵀ * A) (hB' : qbo'.B = qbo'.Qᵀ * A') :
    ∃ (out out' : EVDOut n) (e : out.r = out'.r), evd1Call la qb A k tol over w = .ok (out, w') ∧
      evd1Call la' qb' A' k tol over v = .ok (out', v') ∧
      (∀ i, |out.lamb i| = |out'.lamb (Fin.cast e i)|) ∧
      (IsPSD A → ∀ i, out.lamb i = out'.lamb (Fin.cast e i)) := by
  have hA' : A'ᵀ = A' := by
    rw [hAP, transpose_mul, transpose_mul, transpose_transpose, hA, Matrix.mul_assoc]
  obtain ⟨c, Q, B⟩ := qbo
  obtain ⟨c', Q', B'⟩ := qbo'
  simp only at hc hp hB hB'
  subst hc
  have hsy : ∀ {A : Matrix (Fin n) (Fin n) ℝ} {Q : Matrix (Fin n) (Fin c) ℝ} {B : Matrix (Fin c) (Fin n) ℝ}, Aᵀ = A →
      B = Qᵀ * A → (B * Q)ᵀ = B * Q := by
    rintro A Q B hA rfl
    rw [transpose_mul, transpose_mul, transpose_transpose, hA, Matrix.mul_assoc]
  have hl := eigh_rot la la' hP hp (hsy hA hB) (hsy hA' hB')
  have hab : ∀ i, |(la.eigh (B * Q)).1 ((la.argsort fun i => -|(la.eigh (B * Q)).1 i|) i)| =
      |(la'.eigh (B' * Q')).1 ((la'.argsort fun i => -|(la'.eigh (B' * Q')).1 i|) i)| := by
    intro i
    rw [← hl]
    exact neg_injective (argsort_same la la' (fun i => -|(la.eigh (B * Q)).1 i|) i)
  have hr : min (min k.toNat (min c (countAbove (la.eigh (B * Q)).1 (10 * eps)))) c =
      min (min k.toNat (min c (countAbove (la'.eigh (B' * Q')).1 (10 * eps)))) c := by rw [hl]
  refine ⟨_, _, hr, evd1_open la qb A k hk hk' tol htol over w w' _ hqb,
    evd1_open la' qb' A' k hk hk' tol htol over v v' _ hqb', fun i => hab _, fun hpsd i => ?_⟩
  have nn : ∀ i, 0 ≤ (la.eigh (B * Q)).1 i := by
    intro i
    have hs := hsy hA hB
    have e : diagonal (la.eigh (B * Q)).1 = (la.eigh (B * Q)).2ᵀ * (B * Q) * (la.eigh (B * Q)).2 := by
      conv_rhs => enter [1, 2]; rw [← la.eigh_mul _ hs]
      have ho := la.eigh_orth _ hs
      simp only [Matrix.mul_assoc]
      rw [ho, Matrix.mul_one, ← Matrix.mul_assoc, ho, Matrix.one_mul]
    have e2 := congrFun (congrFun e i) i
    rw [diagonal_apply_eq] at e2
    rw [e2]
    have e3 : (la.eigh (B * Q)).2ᵀ * (B * Q) * (la.eigh (B * Q)).2 =
        (Q * (la.eigh (B * Q)).2)ᵀ * (A * (Q * (la.eigh (B * Q)).2)) := by
      obtain ⟨U, hU⟩ : ∃ U, U = (la.eigh (B * Q)).2 := ⟨_, rfl⟩
      rw [← hU, hB, transpose_mul]
      simp only [Matrix.mul_assoc]
    rw [e3]
    have := hpsd.2 fun j => (Q * (la.eigh (B * Q)).2) j i
    exact this
  have h1 := hab (takeIdx _ _ i)
  rw [abs_of_nonneg (nn _), abs_of_nonneg (by rw [← hl]; exact nn _)] at h1
  exact h1

/-- **C89** (`evd1`).  Run `evd1` on a symmetric `A` and on `P A P'`, with the draws rotated accordingly: for almost
every sequence of Gaussian draws, if `k + over ≤ rank(A)` or everything fits in one block, the same number of
eigenvalues is returned, of the same magnitudes; the same eigenvalues if `A` is positive semidefinite. -/
theorem C89_evd1 (A : Matrix (Fin n) (Fin n) ℝ) (hA : Aᵀ = A) (k over : ℕ) (hk : 0 < k) (hk' : k ≤ n) (p : ℤ)
    (hp : 2 ≤ p) (blk : ℕ) (hblk : 0 < blk) (hr : k + over ≤ A.rank ∨ min (k + over) n ≤ blk)
    (P : Matrix (Fin n) (Fin n) ℝ) (hP : Pᵀ * P = 1) :
    ∃ φ : Draws (startRows (p - 2) n n) (blockWidths (min (k + over) n) blk) → Draws _ _,
      MeasurePreserving φ (normalSeq _ _) (normalSeq _ _) ∧ (P = 1 → φ = id) ∧
    ∀ᵐ Zs ∂(normalSeq (startRows (p - 2) n n) (blockWidths (min (k + over) n) blk)),
      ∀ (G : Type) (la la' : LinAlg) (R R' : NpRng G) (tol : Tol) (w v : World G),
      (tol = .nan ∨ ∃ t, tol = .val t ∧ 0 ≤ t) → NextDraws R _ w.rng Zs → NextDraws R' _ v.rng (φ Zs) →
      ∃ (out out' : EVDOut n) (e : out.r = out'.r) (w' v' : World G),
        evd1 la (gaussianOperator R true) A k tol over p blk w = .ok (out, w') ∧
        evd1 la' (gaussianOperator R' true) (P * A * Pᵀ) k tol over p blk v = .ok (out', v') ∧
        (∀ i, |out.lamb i| = |out'.lamb (Fin.cast e i)|) ∧
        (IsPSD A → ∀ i, out.lamb i = out'.lamb (Fin.cast e i)) := by
  have hn : 0 < min n n := by omega
  have hko : 0 < k + over := by omega
  have hW : Pᵀ * Pᵀᵀ = 1 := by rw [transpose_transpose]; exact hP
  have hae := qb2Run_equi A hn ((k + over : ℕ) : ℤ) (by exact_mod_cast hko) (p - 2) (by omega) blk hblk one_ne_zero P hP
    Pᵀ hW
  have hC := C63_qb_b A hn ((k + over : ℕ) : ℤ) (by exact_mod_cast hko) p hp blk hblk
  have hC' := C63_qb_b (P * A * Pᵀ) hn ((k + over : ℕ) : ℤ) (by exact_mod_cast hko) p hp blk hblk
  have hrk := rank_equi (A := A) one_ne_zero hP hW
  rw [one_smul] at hrk
  rw [Int.toNat_natCast, min_self] at hae hC hC'
  obtain ⟨φ, hφ, hφ1, hae⟩ := hae
  refine ⟨φ, hφ, fun h => hφ1 h (by rw [h, transpose_one]), ?_⟩
  filter_upwards [hae, hC, ae_comp hφ hC'] with Zs hZs hC hC' G la la' R R' tol w v htol hw hv
  obtain ⟨st, st', w', v', h1, h2, h3, -, h5⟩ := hZs G la la' R R' tol.half.half w v hw hv
  rw [one_smul] at h2 h5
  have key : ∀ (la : LinAlg) (R : NpRng G) (A : Matrix (Fin n) (Fin n) ℝ) (st : QB2St n n) (w w' : World G),
      qb2Run la (RF1 la (RS1 (gaussianOperator R true) (p - 2) (orth la) 1)) blk A ((k + over : ℕ) : ℤ) tol.half.half w =
        .ok (st, w') →
      qbB la (gaussianOperator R true) p blk false A ((k + over : ℕ) : ℤ) tol.half.half w =
        .ok ((⟨st.c, st.Q, st.B⟩, A), w') ∧
      QB2 la (RF1 la (RS1 (gaussianOperator R true) (p - 2) (orth la) 1)) blk false n n A
      ((k : ℤ) + over) tol.half.half w = .ok (⟨st.c, st.Q, st.B⟩, w') := by
    intro la R A st w w' h
    refine ⟨?_, ?_⟩
    · unfold qbB qb2Call
      rw [Py.bind_eq_of_ok h]; rfl
    · unfold QB2 qb2Call
      rw [← Nat.cast_add, Py.bind_eq_of_ok (Py.bind_eq_of_ok h)]; rfl
  obtain ⟨c1, q1⟩ := key la R A st w w' h1
  obtain ⟨c2, q2⟩ := key la' R' _ st' v v' h2
  obtain ⟨out, A', w'', g1, -, -, -, g5, -⟩ := hC G la R false tol.half.half w hw
  rw [c1] at g1
  cases g1
  obtain ⟨out', A'', v'', g1', -, -, -, g5', -⟩ := hC' G la' R' false tol.half.half v hv
  rw [c2] at g1'
  cases g1'
  have b1 : st.B = st.Qᵀ * A := (g5 (by
    rcases hr with h | h
    · left; exact_mod_cast h
    · right; exact_mod_cast h)).2
  have b2 : st'.B = st'.Qᵀ * (P * A * Pᵀ) := (g5' (by
    rw [hrk]
    rcases hr with h | h
    · left; exact_mod_cast h
    · right; exact_mod_cast h)).2
  have htol' : tol.half = .nan ∨ ∃ t, tol.half = .val t ∧ 0 ≤ t := by
    rcases htol with rfl | ⟨t, rfl, ht⟩
    · exact Or.inl rfl
    · exact Or.inr ⟨t / 2, rfl, by positivity⟩
  obtain ⟨out, out', e, c1, c2, hl, hl'⟩ := C89_evd1_class la la' _ _ A _ hA P hP rfl k (by exact_mod_cast hk)
    (by exact_mod_cast hk') tol.half htol' over w w' v v' _ _ q1 q2 h3 h5 b1 b2
  refine ⟨out, out', e, w', v', ?_, ?_, hl, hl'⟩
  · unfold evd1; rw [Py.assert_pos_bind hp]; exact c1
  · unfold evd1; rw [Py.assert_pos_bind hp]; exact c2

/-! ## EVD2 -/

/-- singular values from the Gram matrix on the other side, up to a factor -/
theorem svdFull_sv_scale (la la' : LinAlg) {c : ℕ} {B B' : Matrix (Fin n) (Fin c) ℝ} {t : ℝ} (ht : 0 ≤ t)
    (h : B'ᵀ * B' = t ^ 2 • (Bᵀ * B)) : (la'.svdFull B').2.1 = fun i => t * (la.svdFull B).2.1 i := by
  have key : ∀ (la : LinAlg) (B : Matrix (Fin n) (Fin c) ℝ), Bᵀ * B =
      ((la.svdFull B).2.2.submatrix (minR : Fin (min n c) → Fin c) id)ᵀ *
        diagonal (fun i => (la.svdFull B).2.1 i ^ 2) *
        ((la.svdFull B).2.2.submatrix (minR : Fin (min n c) → Fin c) id) := by
    intro la B
    exact svd_gram (la.svdFull_mul B) (svdFull_econ la B).1
  refine sv_unique (W := (la'.svdFull B').2.2.submatrix (minR : Fin (min n c) → Fin c) id)
    (W' := (la.svdFull B).2.2.submatrix (minR : Fin (min n c) → Fin c) id) (la'.svdFull_nonneg B')
    (fun i => mul_nonneg ht (la.svdFull_nonneg B i)) (la'.svdFull_anti B')
    (fun i j hij => mul_le_mul_of_nonneg_left (la.svdFull_anti B hij) ht) (svdFull_econ la' B').2 (svdFull_econ la B).2 ?_
  rw [← key la' B', h, key la B]
  have : diagonal (fun i => (t * (la.svdFull B).2.1 i) ^ 2) = t ^ 2 • diagonal (fun i => (la.svdFull B).2.1 i ^ 2) := by
    rw [← diagonal_smul]
    congr 1
    funext i
    simp only [Pi.smul_apply, smul_eq_mul, mul_pow]
  rw [this, Matrix.mul_smul, Matrix.smul_mul]

/-- the Nystrom factor of `a P A P'`, read in the coordinates and units of `A` -/
theorem nystrom_back {c : ℕ} {A : Matrix (Fin n) (Fin n) ℝ} {nu a : ℝ} (ha : 0 < a) {P : Matrix (Fin n) (Fin n) ℝ}
    (hP : Pᵀ * P = 1) {S : Matrix (Fin n) (Fin c) ℝ} {R : Matrix (Fin c) (Fin c) ℝ} {B : Matrix (Fin n) (Fin c) ℝ}
    (h : Nystrom (a • (P * A * Pᵀ)) (a * nu) S R B) :
    Nystrom A nu (Pᵀ * S) ((Real.sqrt a)⁻¹ • R) ((Real.sqrt a)⁻¹ • (Pᵀ * B)) := by
  have hs : (Real.sqrt a)⁻¹ * (Real.sqrt a)⁻¹ = a⁻¹ := by
    rw [← mul_inv, Real.mul_self_sqrt ha.le]
  have hs0 : (Real.sqrt a)⁻¹ ≠ 0 := inv_ne_zero (Real.sqrt_pos.2 ha).ne'
  have hPP : P * Pᵀ = 1 := mul_eq_one_comm.1 hP
  have e : a⁻¹ • ((a • (P * A * Pᵀ)) * S + (a * nu) • S) = P * (A * (Pᵀ * S) + nu • (Pᵀ * S)) := by
    rw [Matrix.mul_add, Matrix.mul_smul, ← Matrix.mul_assoc P Pᵀ, hPP, Matrix.one_mul, smul_add, Matrix.smul_mul,
      smul_smul, smul_smul, ← mul_assoc, inv_mul_cancel₀ ha.ne', one_smul, one_mul]
    simp only [Matrix.mul_assoc]
  refine ⟨?_, ?_, ?_⟩
  · rw [det_smul]
    exact ((isUnit_iff_ne_zero.2 hs0).pow _).mul h.unit
  · rw [transpose_smul, Matrix.smul_mul, Matrix.mul_smul, smul_smul, hs, h.gram, ← Matrix.mul_smul, e, transpose_mul,
      transpose_transpose, Matrix.mul_assoc]
  · rw [Matrix.smul_mul, Matrix.mul_smul, smul_smul, hs, Matrix.mul_assoc, h.fac, ← Matrix.mul_smul, e, ← Matrix.mul_assoc,
      hP, Matrix.one_mul]

/-- **C89** (`EVD2`).  Two backends and two sketches of the same width, one of `A` and one of `a P A P'` (`a > 0`), the
second spanning the rotated range of the first and with `A S` of `a` times the norm: EVD2 keeps the same number of
components, and the eigenvalues it returns for `a P A P'` are `a` times those for `A`. -/
theorem C89_evd2_class (la la' : LinAlg) (sk sk' : RowSketcher G) (A A' : Matrix (Fin n) (Fin n) ℝ) (hA : Aᵀ = A)
    {a : ℝ} (ha : 0 < a) (P : Matrix (Fin n) (Fin n) ℝ) (hP : Pᵀ * P = 1) (hAP : A' = a • (P * A * Pᵀ)) (k : ℤ)
    (tol : Tol) (over : ℕ) (w v w1 w' v1 v' : World G) (S S' : Cols n) (out out' : EVDOut n)
    (hS : sk n n A (k + over).toNat (afterTolWarning tol w) = .ok (S, w1))
    (hS' : sk' n n A' (k + over).toNat (afterTolWarning tol v) = .ok (S', v1)) (hc : S.c = S'.c)
    (hcs : colSpace S'.mat = colSpace (P * S.mat)) (hf : fro (A' * S'.mat) = a * fro (A * S.mat))
    (h : evd2Call la sk A k tol over w = .ok (out, w')) (h' : evd2Call la' sk' A' k tol over v = .ok (out', v')) :
    ∃ e : out.r = out'.r, ∀ i, out'.lamb (Fin.cast e i) = a * out.lamb i := by
  have hA' : A'ᵀ = A' := by
    rw [hAP, transpose_smul, transpose_mul, transpose_mul, transpose_transpose, hA, Matrix.mul_assoc]
  obtain ⟨-, -, T, x, e1, p1⟩ := evd2_open la sk A k tol over w w' out h
  obtain ⟨-, -, T', x', e1', p1'⟩ := evd2_open la' sk' A' k tol over v v' out' h'
  rw [hS] at e1; cases e1
  rw [hS'] at e1'; cases e1'
  obtain ⟨R, B, hB, -, r, hrk, hr1, hr2, ho⟩ := evd2Post_open la hA p1
  obtain ⟨R', B', hB', -, r', hrk', hr1', hr2', ho'⟩ := evd2Post_open la' hA' p1'
  obtain ⟨c, S⟩ := S
  obtain ⟨c', S'⟩ := S'
  simp only at hc hcs hf R B R' B' hB hB' hr1 hr1' hr2 hr2' ho ho'
  subst hc
  have hnu : evd2Nu A' S' = a * evd2Nu A S := by unfold evd2Nu; rw [hf]; ring
  rw [hnu] at hB' hr1' hr2' ho'
  have hcs' : colSpace (Pᵀ * S') ≤ colSpace S := by
    rw [colSpace_mul, hcs, ← colSpace_mul, ← Matrix.mul_assoc, hP, Matrix.one_mul]
  have hPP : P * Pᵀ = 1 := mul_eq_one_comm.1 hP
  have hs2 : Real.sqrt a ^ 2 = a := Real.sq_sqrt ha.le
  have hs0 : 0 < Real.sqrt a := Real.sqrt_pos.2 ha
  have hsv := svdFull_sv_eq la la' (nystrom_same hB (nystrom_back ha hP (hAP ▸ hB')) hcs')
  have hsv' := svdFull_sv_scale la' la' (B := (Real.sqrt a)⁻¹ • (Pᵀ * B')) (B' := B') hs0.le (by
    rw [transpose_smul, Matrix.smul_mul, Matrix.mul_smul, smul_smul, smul_smul, transpose_mul, transpose_transpose,
      Matrix.mul_assoc, ← Matrix.mul_assoc P, hPP, Matrix.one_mul]
    rw [show Real.sqrt a ^ 2 * (Real.sqrt a)⁻¹ * (Real.sqrt a)⁻¹ = 1 by field_simp, one_smul])
  rw [← hsv] at hsv'
  have hsq : ∀ i, (la'.svdFull B').2.1 i ^ 2 = a * (la.svdFull B).2.1 i ^ 2 := by
    intro i; rw [hsv', mul_pow, hs2]
  have hle : ∀ i, (la'.svdFull B').2.1 i ^ 2 ≤ a * evd2Nu A S ↔ (la.svdFull B).2.1 i ^ 2 ≤ evd2Nu A S := by
    intro i; rw [hsq]; exact mul_le_mul_iff_of_pos_left ha
  simp only [hle] at hr1' hr2'
  have hrr : r = r' := by
    rcases hr2 with a | ⟨a, b1, b2⟩ <;> rcases hr2' with a' | ⟨a', b1', b2'⟩
    · omega
    · have := hr1 _ a' b1' b2'; omega
    · have := hr1' _ a b1 b2; omega
    · have := hr1 _ a' b1' b2'
      have := hr1' _ a b1 b2
      omega
  subst hrr
  subst ho ho'
  refine ⟨rfl, fun i => ?_⟩
  change takev r (la'.svdFull B').2.1 i ^ 2 - a * evd2Nu A S = a * (takev r (la.svdFull B).2.1 i ^ 2 - evd2Nu A S)
  rw [mul_sub]
  congr 1
  exact hsq _

/-- the map from the draw to the sketch, in two coordinate systems -/
theorem exists_sketchMap_equi (p : ℤ) (A : Matrix (Fin n) (Fin n) ℝ) {a : ℝ} (ha : a ≠ 0) (P : Matrix (Fin n) (Fin n) ℝ)
    (hP : Pᵀ * P = 1) :
    ∃ (M M' : Matrix (Fin n) (Fin (startRows p n n)) ℝ) (V : Matrix (Fin (startRows p n n)) (Fin (startRows p n n)) ℝ)
      (t : ℝ), A.rank ≤ M.rank ∧ V * Vᵀ = 1 ∧ (P = 1 → V = 1) ∧ t ≠ 0 ∧ M' * V = t • (P * M) ∧
      (∀ (G : Type) (la : LinAlg) (gen : SkOpGen G) (k : ℕ) (w w' : World G) (S : Cols n),
        rs1Call gen p (orth la) 1 A k w = .ok (S, w') →
        ∃ S0 w1, gen _ k w = .ok (S0, w1) ∧ (FullColRank (M * S0) → colSpace (M * S0) = colSpace S.mat)) ∧
      (∀ (G : Type) (la : LinAlg) (gen : SkOpGen G) (k : ℕ) (w w' : World G) (S : Cols n),
        rs1Call gen p (orth la) 1 (a • (P * A * Pᵀ)) k w = .ok (S, w') →
        ∃ S0 w1, gen _ k w = .ok (S0, w1) ∧ (FullColRank (M' * S0) → colSpace (M' * S0) = colSpace S.mat)) ∧
      (p = 0 → ∀ (Z : Fin (startRows p n n) × Fin k → ℝ) (S S' : Matrix (Fin n) (Fin k) ℝ),
        HEq (drawMat Z) S → HEq (drawMat (rotDraw V Z)) S' → S' = P * S) := by
  obtain ⟨r, hr⟩ : ∃ r, r = startRows p n n := ⟨_, rfl⟩
  have hrn : r = n := by rw [hr]; unfold startRows; split <;> rfl
  rw [← hr]
  have hW : Pᵀ * Pᵀᵀ = 1 := by rw [transpose_transpose]; exact hP
  have hPP : P * Pᵀ = 1 := mul_eq_one_comm.1 hP
  subst hrn
  have h0 : ∀ (Z : Fin r × Fin k → ℝ) (S S' : Matrix (Fin r) (Fin k) ℝ),
        HEq (drawMat Z) S → HEq (drawMat (rotDraw P Z)) S' → S' = P * S := by
    intro Z S S' h1 h2
    rw [← eq_of_heq h1, ← eq_of_heq h2, drawMat_rot]
  rcases Int.emod_two_eq_zero_or_one p with hp | hp
  · refine ⟨(Aᵀ * A) ^ (p / 2).toNat, ((a • (P * A * Pᵀ))ᵀ * (a • (P * A * Pᵀ))) ^ (p / 2).toNat, P,
      a ^ (2 * (p / 2).toNat), ?_, hPP, id, pow_ne_zero _ ha, ?_, ?_, ?_, fun _ => h0⟩
    · rw [← rank_power_even' A (p / 2).toNat]; exact rank_mul_le_right _ _
    · have := gram_equi (A := A) hP hW a (p / 2).toNat
      rwa [transpose_transpose] at this
    · intro G la gen k w w' S h
      obtain ⟨S0, ⟨w2, hd⟩, -, hle⟩ := (C02_rs1_range_parla la gen p (orth la) (Or.inl rfl) 1 _ k w w' S h).1 hp
      exact ⟨S0, w2, hd, hle⟩
    · intro G la gen k w w' S h
      obtain ⟨S0, ⟨w2, hd⟩, -, hle⟩ := (C02_rs1_range_parla la gen p (orth la) (Or.inl rfl) 1 _ k w w' S h).1 hp
      exact ⟨S0, w2, hd, hle⟩
  · refine ⟨(Aᵀ * A) ^ ((p - 1) / 2).toNat * Aᵀ,
      ((a • (P * A * Pᵀ))ᵀ * (a • (P * A * Pᵀ))) ^ ((p - 1) / 2).toNat * (a • (P * A * Pᵀ))ᵀ, P,
      a ^ (2 * ((p - 1) / 2).toNat) * a, ?_, hPP, id, mul_ne_zero (pow_ne_zero _ ha) ha, ?_, ?_, ?_, fun _ => h0⟩
    · rw [← rank_power_odd' A ((p - 1) / 2).toNat]; exact rank_mul_le_right _ _
    · have := gram_equi (A := A) hP hW a ((p - 1) / 2).toNat
      rw [transpose_transpose] at this
      have e : (a • (P * A * Pᵀ))ᵀ * P = P * (a • Aᵀ) := by
        rw [transpose_smul, transpose_mul, transpose_mul, transpose_transpose, Matrix.smul_mul, Matrix.mul_smul,
          Matrix.mul_assoc, Matrix.mul_assoc, hP, Matrix.mul_one]
      rw [Matrix.mul_assoc, e, ← Matrix.mul_assoc, this, Matrix.smul_mul, Matrix.mul_smul, smul_smul, Matrix.mul_assoc]
    · intro G la gen k w w' S h
      obtain ⟨S0, ⟨w2, hd⟩, -, hle⟩ := (C02_rs1_range_parla la gen p (orth la) (Or.inl rfl) 1 _ k w w' S h).2 hp
      refine ⟨S0, w2, hd, ?_⟩
      rw [Matrix.mul_assoc]
      exact hle
    · intro G la gen k w w' S h
      obtain ⟨S0, ⟨w2, hd⟩, -, hle⟩ := (C02_rs1_range_parla la gen p (orth la) (Or.inl rfl) 1 _ k w w' S h).2 hp
      refine ⟨S0, w2, hd, ?_⟩
      rw [Matrix.mul_assoc]
      exact hle

theorem isPSD_rot {A P : Matrix (Fin n) (Fin n) ℝ} (hA : IsPSD A) {a : ℝ} (ha : 0 < a) : IsPSD (a • (P * A * Pᵀ)) := by
  refine ⟨?_, fun x => ?_⟩
  · rw [transpose_smul, transpose_mul, transpose_mul, transpose_transpose, hA.1, Matrix.mul_assoc]
  · rw [smul_mulVec, dotProduct_smul, Matrix.mul_assoc, ← mulVec_mulVec, ← mulVec_mulVec, dotProduct_mulVec, ← mulVec_transpose]
    exact mul_nonneg ha.le (hA.2 _)

/-- **C89** (`evd2`).  Run `evd2` on a positive semidefinite `A` and on `a P A P'`, `a > 0`, with the draw rotated
accordingly: for almost every Gaussian draw, if `k + over ≤ rank(A)`, as many eigenvalues are returned and they are
`a` times those for `A`. -/
theorem C89_evd2 (A : Matrix (Fin n) (Fin n) ℝ) (hA : IsPSD A) (k : ℕ) (hk : 0 < k) (hk' : k < n) (over : ℕ)
    (hr : k + over ≤ A.rank) (p : ℤ) (hp : 1 ≤ p) {a : ℝ} (ha : 0 < a) (P : Matrix (Fin n) (Fin n) ℝ)
    (hP : Pᵀ * P = 1) :
    ∃ φ : (Fin (startRows (p - 1) n n) × Fin (k + over) → ℝ) → Fin (startRows (p - 1) n n) × Fin (k + over) → ℝ,
      MeasurePreserving φ (normals _ (k + over)) (normals _ (k + over)) ∧ (P = 1 → φ = id) ∧
    ∀ᵐ Z ∂(normals (startRows (p - 1) n n) (k + over)), ∀ (G : Type) (la la' : LinAlg) (R R' : NpRng G) (w v : World G),
      NextNormal R w _ _ Z → NextNormal R' v _ _ (φ Z) →
      ∃ (out out' : EVDOut n) (e : out.r = out'.r) (w' v' : World G),
        evd2 la (gaussianOperator R true) A k over p w = .ok (out, w') ∧
        evd2 la' (gaussianOperator R' true) (a • (P * A * Pᵀ)) k over p v = .ok (out', v') ∧
        ∀ i, out'.lamb (Fin.cast e i) = a * out.lamb i := by
  have hPP : P * Pᵀ = 1 := mul_eq_one_comm.1 hP
  have hW : Pᵀ * Pᵀᵀ = 1 := by rw [transpose_transpose]; exact hP
  obtain ⟨M, M', V, t, hM, hV, hV1, ht, hMV, hcall, hcall', h0⟩ :=
    exists_sketchMap_equi (k := k + over) (p - 1) A ha.ne' P hP
  refine ⟨rotDraw V, rotDraw_mp hV, fun h => by rw [hV1 h]; funext Z; exact rotDraw_one Z, ?_⟩
  have hA0 : A ≠ 0 := by rintro rfl; rw [Matrix.rank_zero] at hr; omega
  have hrk : (a • (P * A * Pᵀ)).rank = A.rank := rank_equi ha.ne' hP hW A
  have hA0' : a • (P * A * Pᵀ) ≠ 0 := by
    intro h; rw [h, Matrix.rank_zero] at hrk; omega
  have hrn := rank_le_width' A
  filter_upwards [C59_evd2 A hA hA0 k hk hk' over (by omega) p hp,
    ae_comp (rotDraw_mp hV) (C59_evd2 _ (isPSD_rot (P := P) hA ha) hA0' k hk hk' over (by omega) p hp),
    Proof.ae_rank_mul (μ := stdNormal) M (k + over)] with Z hZ hZ' hfull G la la' R R' w v hw hv
  obtain ⟨out, w', h1, -⟩ := hZ G la R w hw
  obtain ⟨out', v', h2, -⟩ := hZ' G la' R' v hv
  rw [min_eq_left (hr.trans hM)] at hfull
  have hfull' : (M' * drawMat (rotDraw V Z)).rank = k + over := by
    rw [drawMat_rot, ← Matrix.mul_assoc, hMV, Matrix.smul_mul, rank_smul_ne ht, Matrix.mul_assoc, rank_orth_mul hP, hfull]
  have hne : min (startRows (p - 1) n n) (k + over) ≠ 0 := by
    unfold startRows; split <;> omega
  have open' : ∀ (la : LinAlg) (R : NpRng G) (A : Matrix (Fin n) (Fin n) ℝ) (M : Matrix (Fin n) (Fin (startRows (p - 1) n n)) ℝ)
      (Z : Fin (startRows (p - 1) n n) × Fin (k + over) → ℝ) (out : EVDOut n) (w w' : World G),
      NextNormal R w _ _ Z → (M * drawMat Z).rank = k + over →
      (∀ (G : Type) (la : LinAlg) (gen : SkOpGen G) (k : ℕ) (w w' : World G) (S : Cols n),
        rs1Call gen (p - 1) (orth la) 1 A k w = .ok (S, w') →
        ∃ S0 w1, gen _ k w = .ok (S0, w1) ∧ (FullColRank (M * S0) → colSpace (M * S0) = colSpace S.mat)) →
      evd2 la (gaussianOperator R true) A k over p w = .ok (out, w') →
      evd2Call la (RS1 (gaussianOperator R true) (p - 1) (orth la) 1) A k .nan over w = .ok (out, w') ∧
      ∃ S w1, rs1Call (gaussianOperator R true) (p - 1) (orth la) 1 A (k + over) w = .ok (S, w1) ∧
        S.c = k + over ∧ colSpace (M * drawMat Z) = colSpace S.mat := by
    intro la R A M Z out w w' hw hfull hcall h
    unfold evd2 at h
    rw [Py.assert_pos_bind hp] at h
    refine ⟨h, ?_⟩
    obtain ⟨-, -, S, w1, e1, e2⟩ := evd2_open la _ A k .nan over w w' out h
    rw [show ((k : ℤ) + over).toNat = k + over by omega] at e1
    refine ⟨S, w1, e1, rs1Call_width_eq (fun _ _ => rfl) (by omega) e1, ?_⟩
    obtain ⟨S0, w2, e3, e4⟩ := hcall G la _ _ _ _ _ e1
    obtain ⟨t, ht, hgen⟩ := gaussian_next R hne hw
    have e3' := hgen.symm.trans e3
    cases e3'
    have hsm : colSpace (M * (t • drawMat Z)) = colSpace (M * drawMat Z) := by
      rw [Matrix.mul_smul, colSpace_smul_ne ht]
    rw [← e4 ?_, hsm]
    have : (M * (t • drawMat Z)).rank = k + over := by
      rw [← finrank_colSpace, hsm, finrank_colSpace, hfull]
    exact this
  obtain ⟨c1, S, w1, s1, s3, s4⟩ := open' la R A M Z out w w' hw hfull hcall h1
  obtain ⟨c2, S', v1, s1', s3', s4'⟩ := open' la' R' _ M' _ out' v v' hv hfull' hcall' h2
  have hcs : colSpace S'.mat = colSpace (P * S.mat) := by
    rw [← s4', drawMat_rot, ← Matrix.mul_assoc, hMV, Matrix.smul_mul, colSpace_smul_ne ht, Matrix.mul_assoc, colSpace_mul,
      s4, ← colSpace_mul]
  have hfP : ∀ X : Matrix (Fin n) (Fin (S.c)) ℝ, fro (P * X) = fro X := by
    intro X
    have h2 : fro (P * X) ^ 2 = fro X ^ 2 := by
      rw [fro_sq, fro_sq, froSq_orth_mul hP]
    exact (sq_eq_sq₀ (fro_nonneg _) (fro_nonneg _)).1 h2
  have hfa : ∀ {b c : ℕ} (X : Matrix (Fin b) (Fin c) ℝ), fro (a • X) = a * fro X := by
    intro b c X
    rw [fro_smul_le, abs_of_pos ha]
  have hf : fro ((a • (P * A * Pᵀ)) * S'.mat) = a * fro (A * S.mat) := by
    rcases Int.lt_or_le 1 p with hp1 | hp1
    · have o1 := rs1Call_ortho la _ (p - 1) (by omega) A _ _ _ _ s1
      have o2 := rs1Call_ortho la' _ (p - 1) (by omega) _ _ _ _ _ s1'
      have o1' : OrthoCols (P * S.mat) := by
        change (P * S.mat)ᵀ * (P * S.mat) = 1
        rw [transpose_mul, Matrix.mul_assoc, ← Matrix.mul_assoc Pᵀ, hP, Matrix.one_mul]
        exact o1
      have hu : IsUnit (S'.matᵀ * S'.mat).det := by
        rw [show S'.matᵀ * S'.mat = 1 from o2]; simp
      have e := (proj_unique o1' hu hcs.symm).trans (proj_unique o2 hu rfl).symm
      have key : ∀ {c : ℕ} (A : Matrix (Fin n) (Fin n) ℝ) (X : Matrix (Fin n) (Fin c) ℝ), fro (A * X) ^ 2 = (A * (X * Xᵀ) * Aᵀ).trace := by
        intro c A X
        rw [fro_sq, froSq_eq_trace, trace_mul_comm, transpose_mul]
        simp only [Matrix.mul_assoc]
      have h2 : fro ((a • (P * A * Pᵀ)) * S'.mat) ^ 2 = (a * fro (A * S.mat)) ^ 2 := by
        rw [key, ← e, ← key, Matrix.smul_mul, hfa, Matrix.mul_assoc, ← Matrix.mul_assoc Pᵀ, hP, Matrix.one_mul,
          Matrix.mul_assoc, hfP]
      exact (sq_eq_sq₀ (fro_nonneg _) (mul_nonneg ha.le (fro_nonneg _))).1 h2
    · obtain rfl : p = 1 := by omega
      have same : ∀ (la : LinAlg) (R : NpRng G) (A : Matrix (Fin n) (Fin n) ℝ) (S : Cols n) (w w1 : World G),
          rs1Call (gaussianOperator R true) (1 - 1) (orth la) 1 A (k + over) w = .ok (S, w1) →
          ∃ S0, gaussianOperator R true n (k + over) w = .ok (S0, w1) ∧ S = ⟨_, S0⟩ := by
        intro la R A S w w1 h
        unfold rs1Call at h
        rw [Py.assert_pos_bind (by omega), if_pos (by norm_num), Py.bind_ok_iff] at h
        obtain ⟨S0, w2, g1, g2⟩ := h
        cases g2
        exact ⟨S0, g1, rfl⟩
      obtain ⟨S0, g1, rfl⟩ := same la R A S w w1 s1
      obtain ⟨S0', g1', rfl⟩ := same la' R' _ S' v v1 s1'
      have hS : S0' = P * S0 := by
        have hr0 : startRows (1 - 1) n n = n := rfl
        rw [(C55_gaussian_result R n (k + over) w).1 hne, show (R.standardNormal n (k + over) w.rng).1 = _ from hw] at g1
        rw [(C55_gaussian_result R' n (k + over) v).1 hne, show (R'.standardNormal n (k + over) v.rng).1 = _ from hv] at g1'
        cases g1
        cases g1'
        obtain ⟨Y, hY⟩ : ∃ Y : Matrix (Fin n) (Fin (k + over)) ℝ, Y = drawMat Z := ⟨_, rfl⟩
        obtain ⟨Y', hY'⟩ : ∃ Y : Matrix (Fin n) (Fin (k + over)) ℝ, Y = drawMat (rotDraw V Z) := ⟨_, rfl⟩
        have := h0 (by norm_num) Z Y Y' (by subst hY; exact HEq.rfl) (by subst hY'; exact HEq.rfl)
        have e : ∀ u : ℝ, u • Y' = P * (u • Y) := fun u => by rw [this, Matrix.mul_smul]
        subst hY hY'
        exact e _
      change fro ((a • (P * A * Pᵀ)) * S0') = a * fro (A * S0)
      rw [hS, Matrix.smul_mul, hfa, Matrix.mul_assoc, ← Matrix.mul_assoc Pᵀ, hP, Matrix.one_mul, Matrix.mul_assoc, hfP]
  have tr : ∀ (la : LinAlg) (R : NpRng G) (A : Matrix (Fin n) (Fin n) ℝ) (S : Cols n) (w w1 : World G),
      rs1Call (gaussianOperator R true) (p - 1) (orth la) 1 A (k + over) w = .ok (S, w1) →
      RS1 (gaussianOperator R true) (p - 1) (orth la) 1 n n A ((k : ℤ) + over).toNat (afterTolWarning .nan w) =
        .ok (S, w1) := by
    intro la R A S w w1 h
    rw [show ((k : ℤ) + over).toNat = k + over by omega]; exact h
  obtain ⟨e, hl⟩ := C89_evd2_class la la' _ _ A _ hA.1 ha P hP rfl k .nan over w v w1 _ v1 _ S S' out out'
    (tr la R A S w w1 s1) (tr la' R' _ S' v v1 s1') (s3.trans s3'.symm) hcs hf c1 c2
  exact ⟨out, out', e, w', v', h1, h2, hl⟩

/-! ### The hypotheses are met -/

theorem revMat_orth (m : ℕ) : (revMat m)ᵀ * revMat m = 1 := by
  rw [mul_revMat]
  ext i j
  simp [revMat, transpose_apply, Matrix.one_apply, eq_comm]

theorem revMat_orth' (m : ℕ) : revMat m * (revMat m)ᵀ = 1 := mul_eq_one_comm.1 (revMat_orth m)

/-- C89: two generators for which `qb_b` runs, in two blocks of one column, on a matrix of rank two and on the same matrix
with its rows and columns reversed and scaled by `-3` -/
example : ∃ (R R' : NpRng ℕ) (out out' : QBOut 3 2) (A₁ A₁' : Matrix (Fin 3) (Fin 2) ℝ) (w v w' v' : World ℕ),
    qbB LinAlg.ref (gaussianOperator R true) 2 1 false demoQB 2 (.val (1 / 2)) w = .ok ((out, A₁), w') ∧
    qbB LinAlg.ref (gaussianOperator R' true) 2 1 false ((-3 : ℝ) • (revMat 3 * demoQB * revMat 2)) 2 (.val (1 / 2)) v =
      .ok ((out', A₁'), v') ∧
    out.c = out'.c ∧ out'.Q * out'.B = (-3 : ℝ) • (revMat 3 * (out.Q * out.B) * revMat 2) := by
  have hprob : IsProbabilityMeasure stdNormal := by unfold stdNormal; infer_instance
  obtain ⟨φ, -, -, h⟩ := C89_qb_b demoQB (by norm_num) 2 (by norm_num) 2 (by norm_num) 1 (by norm_num)
    (show (-3 : ℝ) ≠ 0 by norm_num) (revMat 3) (revMat_orth 3) (revMat 2) (revMat_orth' 2)
  obtain ⟨Zs, hZs⟩ := h.exists
  obtain ⟨R, hR⟩ := exists_generator _ Zs
  obtain ⟨R', hR'⟩ := exists_generator _ (φ Zs)
  obtain ⟨out, out', A₁, A₁', w', v', h1, h2, h3, h4, -⟩ :=
    hZs ℕ LinAlg.ref LinAlg.ref R R' false (.val (1 / 2)) ⟨0, 0, []⟩ ⟨0, 0, []⟩ hR hR'
  exact ⟨R, R', out, out', A₁, A₁', _, _, w', v', h1, h2, h3, h4⟩

/-- C89: and for which `evd1` runs on `diag(3, 1)` and on `diag(1, 3)` -/
example : ∃ (R R' : NpRng ℕ) (out out' : EVDOut 2) (w v w' v' : World ℕ) (e : out.r = out'.r),
    evd1 LinAlg.ref (gaussianOperator R true) (diagonal ![3, 1]) 2 .nan 0 2 1 w = .ok (out, w') ∧
    evd1 LinAlg.ref (gaussianOperator R' true) (revMat 2 * diagonal ![3, 1] * (revMat 2)ᵀ) 2 .nan 0 2 1 v = .ok (out', v') ∧
    ∀ i, |out.lamb i| = |out'.lamb (Fin.cast e i)| := by
  have hprob : IsProbabilityMeasure stdNormal := by unfold stdNormal; infer_instance
  have hrk : (diagonal ![3, 1] : Matrix (Fin 2) (Fin 2) ℝ).rank = 2 := by
    rw [Matrix.rank_of_isUnit]
    · simp
    · rw [Matrix.isUnit_iff_isUnit_det, det_diagonal, Fin.prod_univ_two]
      simp
  obtain ⟨φ, -, -, h⟩ := C89_evd1 (diagonal ![3, 1]) (diagonal_transpose _) 2 0 (by norm_num) (by norm_num) 2 (by norm_num) 1
    (by norm_num) (Or.inl (by rw [hrk])) (revMat 2) (revMat_orth 2)
  obtain ⟨Zs, hZs⟩ := h.exists
  obtain ⟨R, hR⟩ := exists_generator _ Zs
  obtain ⟨R', hR'⟩ := exists_generator _ (φ Zs)
  obtain ⟨out, out', e, w', v', h1, h2, h3, -⟩ :=
    hZs ℕ LinAlg.ref LinAlg.ref R R' .nan ⟨0, 0, []⟩ ⟨0, 0, []⟩ (Or.inl rfl) hR hR'
  exact ⟨R, R', out, out', _, _, w', v', e, h1, h2, h3⟩

/-- C89: the hypotheses of the `evd2` theorem -/
example : IsPSD (diagonal ![3, 1, 2] : Matrix (Fin 3) (Fin 3) ℝ) ∧
    1 + 1 ≤ (diagonal ![3, 1, 2] : Matrix (Fin 3) (Fin 3) ℝ).rank ∧ (revMat 3)ᵀ * revMat 3 = 1 := by
  refine ⟨⟨diagonal_transpose _, fun x => ?_⟩, ?_, revMat_orth 3⟩
  · simp only [mulVec_diagonal, dotProduct, Fin.sum_univ_three]
    simp
    nlinarith [mul_self_nonneg (x 0), mul_self_nonneg (x 1), mul_self_nonneg (x 2)]
  · rw [Matrix.rank_of_isUnit]
    · simp
    · rw [Matrix.isUnit_iff_isUnit_det, det_diagonal, Fin.prod_univ_three]
      simp

end Parla.Props
