import Verif.Proof.EVD
import Verif.Props.SVD

/-! # Properties C14 – C15: `EVD1` and `evd1` -/

namespace Parla.Props

open Matrix Parla Spec

variable {G : Type} {n : ℕ}

theorem evd1_open (la : LinAlg) (qb : QBDecomposer G) (A : Matrix (Fin n) (Fin n) ℝ) (k : ℤ)
    (hk : 0 < k) (hk' : k ≤ n) (tol : Tol) (htol : tol = .nan ∨ ∃ t, tol = .val t ∧ 0 ≤ t)
    (over : ℕ) (w w' : World G) (qbo : QBOut n n)
    (hqb : qb n n A (k + over) tol.half w = .ok (qbo, w')) :
    evd1Call la qb A k tol over w = .ok (evd1Post la k.toNat qbo, w') := by
  unfold evd1Call
  rw [Py.assert_pos_bind hk, Py.assert_pos_bind (by rw [min_self]; exact hk')]
  rcases htol with rfl | ⟨t, rfl, ht⟩
  · rw [assertTolNonneg, Py.pure_bind', Py.bind_eq_of_ok hqb]; rfl
  · rw [assertTolNonneg, Py.assert_pos_bind ht, Py.bind_eq_of_ok hqb]; rfl

/-- The number of entries of `v` whose magnitude exceeds `cut`. -/
noncomputable def numAbove {c : ℕ} (v : Fin c → ℝ) (cut : ℝ) : ℕ :=
  Nat.card {i : Fin c // cut < |v i|}

theorem numAbove_eq {c : ℕ} (v : Fin c → ℝ) (cut : ℝ) : numAbove v cut = countAbove v cut := by
  classical
  rw [numAbove, Nat.card_eq_fintype_card, Fintype.card_subtype]; rfl

/-- **C14**.  For symmetric `A` and a QB step that returned orthonormal `Q` and `B = Q'A`, EVD1
returns `(V, lamb)`: `V` has orthonormal columns, `lamb` has non-increasing magnitudes, all above
`10*eps`; their number is `min(k, Q.shape[1], #eigenvalues of Q'AQ above 10*eps in magnitude)`;
the `lamb` are eigenvalues of `Q'AQ` (at distinct positions `I`), every other one is no larger in
magnitude, and the squared distance from `QQ'AQQ'` to `V diag(lamb) V'` is the sum of squares of
the others. -/
theorem C14_evd1_valid (la : LinAlg) (qb : QBDecomposer G) (A : Matrix (Fin n) (Fin n) ℝ)
    (hA : Aᵀ = A) (k : ℤ) (hk : 0 < k) (hk' : k ≤ n) (tol : Tol)
    (htol : tol = .nan ∨ ∃ t, tol = .val t ∧ 0 ≤ t) (over : ℕ) (w w' : World G) (qbo : QBOut n n)
    (hqb : qb n n A (k + over) tol.half w = .ok (qbo, w'))
    (hQ : OrthoCols qbo.Q) (hB : qbo.B = qbo.Qᵀ * A) :
    ∃ out : EVDOut n, evd1Call la qb A k tol over w = .ok (out, w') ∧
      OrthoCols out.V ∧ (∀ i j, i ≤ j → |out.lamb j| ≤ |out.lamb i|) ∧
      (∀ i, 10 * eps < |out.lamb i|) ∧
      out.r = min k.toNat (min qbo.c (numAbove (la.eigh (qbo.Qᵀ * A * qbo.Q)).1 (10 * eps))) ∧
      ∃ I : Fin out.r → Fin qbo.c, Function.Injective I ∧
        (∀ i, out.lamb i = (la.eigh (qbo.Qᵀ * A * qbo.Q)).1 (I i)) ∧
        (∀ j, (∀ i, I i ≠ j) → ∀ i, |(la.eigh (qbo.Qᵀ * A * qbo.Q)).1 j| ≤ |out.lamb i|) ∧
        ∀ [DecidablePred (· ∈ Set.range I)],
          fro (qbo.Q * qbo.Qᵀ * A * (qbo.Q * qbo.Qᵀ) - out.V * diagonal out.lamb * out.Vᵀ) ^ 2 =
            ∑ j ∈ Finset.univ.filter (fun j => j ∉ Set.range I),
              (la.eigh (qbo.Qᵀ * A * qbo.Q)).1 j ^ 2 := by
  classical
  refine ⟨_, evd1_open la qb A k hk hk' tol htol over w w' qbo hqb, ?_⟩
  have hC : qbo.B * qbo.Q = qbo.Qᵀ * A * qbo.Q := by rw [hB]
  have hCs : (qbo.Qᵀ * A * qbo.Q)ᵀ = qbo.Qᵀ * A * qbo.Q := by
    simp only [transpose_mul, transpose_transpose, hA, Matrix.mul_assoc]
  set C := qbo.Qᵀ * A * qbo.Q with hCdef
  set lam := (la.eigh C).1 with hlam
  set U := (la.eigh C).2 with hU
  set σ := la.argsort fun i => -|lam i| with hσ
  set r := min k.toNat (min qbo.c (countAbove lam (10 * eps))) with hr
  have hrc : min r qbo.c = r := by omega
  have hmono : Monotone (fun i => -|lam (σ i)|) := la.argsort_mono (fun i => -|lam i|)
  have hpost : evd1Post la k.toNat qbo =
      ⟨min r qbo.c, qbo.Q * U.submatrix id (σ ∘ takeIdx r qbo.c), lam ∘ (σ ∘ takeIdx r qbo.c)⟩ := by
    have hgen : ∀ D, qbo.B * qbo.Q = D → evd1Post la k.toNat qbo =
        ⟨min (min k.toNat (min qbo.c (countAbove (la.eigh D).1 (10 * eps)))) qbo.c,
          qbo.Q * (la.eigh D).2.submatrix id ((la.argsort fun i => -|(la.eigh D).1 i|) ∘
            takeIdx (min k.toNat (min qbo.c (countAbove (la.eigh D).1 (10 * eps)))) qbo.c),
          (la.eigh D).1 ∘ ((la.argsort fun i => -|(la.eigh D).1 i|) ∘
            takeIdx (min k.toNat (min qbo.c (countAbove (la.eigh D).1 (10 * eps)))) qbo.c)⟩ := by
      rintro _ rfl; rfl
    exact hgen C hC
  rw [hpost]
  have hinj : Function.Injective (σ ∘ takeIdx r qbo.c) :=
    σ.injective.comp (takeIdx_injective _ _)
  have hUo : Uᵀ * U = 1 := la.eigh_orth C hCs
  have hQ' : qbo.Qᵀ * qbo.Q = 1 := hQ
  have hQU : (qbo.Q * U)ᵀ * (qbo.Q * U) = 1 := by
    rw [transpose_mul, Matrix.mul_assoc, ← Matrix.mul_assoc qbo.Qᵀ, hQ', Matrix.one_mul, hUo]
  refine ⟨?_, ?_, ?_, ?_, σ ∘ takeIdx r qbo.c, hinj, fun _ => rfl, ?_, ?_⟩
  · show (qbo.Q * U.submatrix id (σ ∘ takeIdx r qbo.c))ᵀ * (qbo.Q * U.submatrix id _) = 1
    rw [transpose_mul, Matrix.mul_assoc, ← Matrix.mul_assoc qbo.Qᵀ, hQ', Matrix.one_mul]
    exact orth_submatrix hUo hinj
  · intro i j hij
    have := hmono (show takeIdx r qbo.c i ≤ takeIdx r qbo.c j from hij)
    simpa using this
  · intro i
    refine sorted_above hmono (10 * eps) (takeIdx r qbo.c i) ?_
    have h1 : i.1 < min r qbo.c := i.2
    have h2 : (takeIdx r qbo.c i).1 = i.1 := rfl
    rw [h2]; omega
  · show min r qbo.c = _
    rw [hrc, hr, numAbove_eq]
  · intro j hj i
    have hge : takeIdx r qbo.c i ≤ σ.symm j := by
      by_contra hlt
      push Not at hlt
      have h1 : (σ.symm j).1 < i.1 := hlt
      have h2 : i.1 < min r qbo.c := i.2
      apply hj ⟨(σ.symm j).1, by omega⟩
      show σ (takeIdx _ _ _) = j
      rw [show takeIdx r qbo.c ⟨(σ.symm j).1, by omega⟩ = σ.symm j from Fin.ext rfl]; simp
    have := hmono hge
    simpa using this
  · intro _
    show fro (_ - (qbo.Q * U.submatrix id (σ ∘ takeIdx r qbo.c)) *
      diagonal (lam ∘ (σ ∘ takeIdx r qbo.c)) * (qbo.Q * U.submatrix id (σ ∘ takeIdx r qbo.c))ᵀ) ^ 2 = _
    have e1 : qbo.Q * U.submatrix id (σ ∘ takeIdx r qbo.c) =
        (qbo.Q * U).submatrix id (σ ∘ takeIdx r qbo.c) := by ext i j; simp [mul_apply]
    have e2 : qbo.Q * qbo.Qᵀ * A * (qbo.Q * qbo.Qᵀ) = (qbo.Q * U) * diagonal lam * (qbo.Q * U)ᵀ := by
      have h1 : qbo.Q * qbo.Qᵀ * A * (qbo.Q * qbo.Qᵀ) = qbo.Q * C * qbo.Qᵀ := by
        rw [hCdef]; simp only [Matrix.mul_assoc]
      rw [h1]
      conv_lhs => rw [← la.eigh_mul C hCs]
      simp only [transpose_mul, Matrix.mul_assoc]
      rfl
    rw [e1, transpose_submatrix, sub_diag hinj, e2, ← Matrix.sub_mul, ← Matrix.mul_sub,
      diagonal_sub, fro_sq, froSq_UdUt hQU, Finset.sum_filter]
    refine Finset.sum_congr rfl fun j _ => ?_
    by_cases hj : j ∈ Set.range (σ ∘ takeIdx r qbo.c)
    · rw [if_pos hj, if_neg (not_not.2 hj)]; simp
    · rw [if_neg hj, if_pos hj]; simp

theorem square_orth {c : ℕ} (h : c = n) {Q : Matrix (Fin n) (Fin c) ℝ} (hQ : Qᵀ * Q = 1) :
    Q * Qᵀ = 1 := by
  subst h; exact mul_eq_one_comm.1 hQ

/-- `‖A - QQ'AQQ'‖² ≤ 2 ‖A - QQ'A‖²` for symmetric `A` -/
theorem two_sided_le {c : ℕ} {Q : Matrix (Fin n) (Fin c) ℝ} (hQ : Qᵀ * Q = 1)
    {A : Matrix (Fin n) (Fin n) ℝ} (hA : Aᵀ = A) :
    froSq (A - Q * Qᵀ * A * (Q * Qᵀ)) ≤ 2 * froSq (A - Q * (Qᵀ * A)) := by
  have hsplit : A - Q * Qᵀ * A * (Q * Qᵀ) =
      (A - Q * (Qᵀ * A)) + Q * (Qᵀ * (A - Q * (Qᵀ * A))ᵀ) := by
    simp only [transpose_sub, transpose_mul, transpose_transpose, hA, Matrix.mul_sub,
      Matrix.mul_assoc]
    abel
  rw [hsplit, froSq_add_of_orth, froSq_orth_mul hQ]
  · have h1 := froSq_sub_proj hQ (A - Q * (Qᵀ * A))ᵀ
    have h2 := froSq_nonneg ((A - Q * (Qᵀ * A))ᵀ - Q * (Qᵀ * (A - Q * (Qᵀ * A))ᵀ))
    rw [froSq_transpose] at h1
    linarith
  · have : (A - Q * (Qᵀ * A))ᵀ * Q = 0 := by
      simp only [transpose_sub, transpose_mul, transpose_transpose, Matrix.sub_mul,
        Matrix.mul_assoc, hQ, Matrix.mul_one, sub_self]
    rw [← Matrix.mul_assoc, this, Matrix.zero_mul]

/-- **C15** (EVD1).  For symmetric `A`, a QB step with orthonormal `Q`, `B = Q'A`, at most `k`
columns and `‖A - QB‖ ≤ (tol/2)‖A‖`, EVD1's error is at most `tol * ‖A‖ + 10*eps*sqrt(c)` (`c` the
number of columns of `Q`); the second term disappears if no nonzero eigenvalue of `Q'AQ` is below
`10*eps` in magnitude, and `C15_evd1_tolerance_false` shows that otherwise it cannot be dropped. -/
theorem C15_evd1_tolerance (la : LinAlg) (qb : QBDecomposer G)
    (A : Matrix (Fin n) (Fin n) ℝ) (hA : Aᵀ = A) (k : ℤ) (hk : 0 < k) (hk' : k ≤ n) (t : ℝ)
    (ht : 0 ≤ t) (over : ℕ) (w w' : World G) (qbo : QBOut n n)
    (hqb : qb n n A (k + over) (Tol.val t).half w = .ok (qbo, w'))
    (hQ : OrthoCols qbo.Q) (hB : qbo.B = qbo.Qᵀ * A) (hck : (qbo.c : ℤ) ≤ k)
    (herr : fro (A - qbo.Q * qbo.B) ≤ t / 2 * fro A) :
    ∃ out : EVDOut n, evd1Call la qb A k (.val t) over w = .ok (out, w') ∧
      fro (A - out.V * diagonal out.lamb * out.Vᵀ) ≤ t * fro A + 10 * eps * √(qbo.c : ℝ) ∧
      ((∀ i, (la.eigh (qbo.Qᵀ * A * qbo.Q)).1 i = 0 ∨
        10 * eps < |(la.eigh (qbo.Qᵀ * A * qbo.Q)).1 i|) →
        fro (A - out.V * diagonal out.lamb * out.Vᵀ) ≤ t * fro A) := by
  classical
  obtain ⟨out, h1, -, -, h4, h5, I, hI1, hI2, hI3, hI4⟩ := C14_evd1_valid la qb A hA k hk hk' (.val t)
    (Or.inr ⟨t, rfl, ht⟩) over w w' qbo hqb hQ hB
  refine ⟨out, h1, ?_⟩
  set lam := (la.eigh (qbo.Qᵀ * A * qbo.Q)).1
  have hp := eps_pos
  -- every discarded eigenvalue is below the cut
  have hz : ∀ j, j ∉ Set.range I → |lam j| ≤ 10 * eps := by
    intro j hj
    by_contra hgt
    push Not at hgt
    -- all entries above the cut are kept: `out.r` is their number
    have hcount : out.r = numAbove lam (10 * eps) := by
      rw [h5]
      have : numAbove lam (10 * eps) ≤ qbo.c := by
        rw [numAbove_eq, countAbove]
        exact (Finset.card_le_univ _).trans (by simp)
      omega
    have hsub : insert j (Finset.univ.image I) ⊆ Finset.univ.filter fun i => |lam i| > 10 * eps := by
      intro i hi
      rw [Finset.mem_insert, Finset.mem_image] at hi
      rw [Finset.mem_filter]
      refine ⟨Finset.mem_univ _, ?_⟩
      rcases hi with rfl | ⟨a, -, rfl⟩
      · exact hgt
      · rw [← hI2]; exact h4 a
    have hcard := Finset.card_le_card hsub
    rw [Finset.card_insert_of_notMem (by
      intro h; obtain ⟨a, -, ha⟩ := Finset.mem_image.1 h; exact hj ⟨a, ha⟩),
      Finset.card_image_of_injective _ hI1, Finset.card_univ, Fintype.card_fin, hcount,
      numAbove_eq, countAbove] at hcard
    omega
  have htwo : fro (A - qbo.Q * qbo.Qᵀ * A * (qbo.Q * qbo.Qᵀ)) ≤ t * fro A := by
    have h2 := two_sided_le hQ hA
    rw [hB] at herr
    rw [fro_le_iff_sq (mul_nonneg ht (fro_nonneg _))]
    have h3 : froSq (A - qbo.Q * (qbo.Qᵀ * A)) ≤ (t / 2 * fro A) ^ 2 :=
      (fro_le_iff_sq (mul_nonneg (by linarith) (fro_nonneg _))).1 herr
    have h6 : 0 ≤ (t * fro A) ^ 2 := sq_nonneg _
    nlinarith
  have h0 := hI4
  have hsplit : A - out.V * diagonal out.lamb * out.Vᵀ =
      (A - qbo.Q * qbo.Qᵀ * A * (qbo.Q * qbo.Qᵀ)) +
        (qbo.Q * qbo.Qᵀ * A * (qbo.Q * qbo.Qᵀ) - out.V * diagonal out.lamb * out.Vᵀ) := by abel
  refine ⟨?_, fun heig => ?_⟩
  · rw [hsplit]
    refine (fro_triangle _ _).trans (add_le_add htwo ?_)
    rw [fro_le_iff_sq (by positivity), ← fro_sq, h0, mul_pow, Real.sq_sqrt (by positivity)]
    calc ∑ j ∈ Finset.univ.filter (fun j => j ∉ Set.range I), lam j ^ 2
        ≤ ∑ j ∈ Finset.univ.filter (fun j => j ∉ Set.range I), (10 * eps) ^ 2 := by
          refine Finset.sum_le_sum fun j hj => ?_
          rw [← sq_abs]
          exact pow_le_pow_left₀ (abs_nonneg _) (hz j (Finset.mem_filter.1 hj).2) 2
      _ ≤ ∑ j : Fin qbo.c, (10 * eps) ^ 2 :=
          Finset.sum_le_sum_of_subset_of_nonneg (Finset.filter_subset _ _)
            (fun _ _ _ => sq_nonneg _)
      _ = (10 * eps) ^ 2 * qbo.c := by
          rw [Finset.sum_const, Finset.card_univ, Fintype.card_fin, nsmul_eq_mul, mul_comm]
  · have hz' : ∀ j, j ∉ Set.range I → lam j = 0 := fun j hj =>
      (heig j).resolve_right (not_lt.2 (hz j hj))
    rw [Finset.sum_eq_zero (fun j hj => by rw [hz' j (Finset.mem_filter.1 hj).2]; simp), fro_sq,
      froSq_eq_zero, sub_eq_zero] at h0
    rw [← h0]; exact htwo

/-- **C15** (`evd1`, blocked QB step, `k = n`, `over = 0`).  If every rangefinder call captured what
it could and the QB step returned no more than `rank(A)` columns (automatic for nonsingular `A`),
the documented tolerance holds up to the absolute term `10*eps*sqrt(n)`. -/
theorem C15_evd1_driver_tolerance (la : LinAlg) (gauss : SkOpGen G)
    (A : Matrix (Fin n) (Fin n) ℝ) (hA : Aᵀ = A) (hn : 0 < n) (t : ℝ) (ht : 0 ≤ t) (p : ℤ)
    (hp : 2 ≤ p) (blk : ℕ) (hblk : 0 < blk) (w w' : World G) (st : QB2St n n)
    (hrun : qb2Run la (RF1 la (RS1 gauss (p - 2) (orth la) 1)) blk A n (Tol.val t).half.half w =
      .ok (st, w'))
    (hcap : ∀ x ∈ st.calls, Captures x) (hcr : st.c ≤ A.rank) :
    ∃ out : EVDOut n, evd1 la gauss A n (.val t) 0 p blk w = .ok (out, w') ∧
      fro (A - out.V * diagonal out.lamb * out.Vᵀ) ≤ t * fro A + 10 * eps * √(n : ℝ) ∧
      ((∀ i, (la.eigh (st.Qᵀ * A * st.Q)).1 i = 0 ∨
        10 * eps < |(la.eigh (st.Qᵀ * A * st.Q)).1 i|) →
        fro (A - out.V * diagonal out.lamb * out.Vᵀ) ≤ t * fro A) := by
  have hmn : 0 < min n n := by omega
  have hrf : RFShape (RF1 la (RS1 gauss (p - 2) (orth la) 1)) n n :=
    C05_rf1_shape la gauss _ _ (Or.inl rfl) _
  obtain ⟨hQ, hB⟩ := C06_qb2_orthonormal la _ hrf blk A hmn n _ w w' st hrun hcap hcr
  have hqb : QB2 la (RF1 la (RS1 gauss (p - 2) (orth la) 1)) blk false n n A
      ((n : ℤ) + ((0 : ℕ) : ℤ)) (Tol.val t).half.half w = .ok (⟨st.c, st.Q, st.B⟩, w') := by
    unfold QB2 qb2Call
    rw [show (n : ℤ) + ((0 : ℕ) : ℤ) = n by simp, Py.bind_eq_of_ok (Py.bind_eq_of_ok hrun)]; rfl
  have hcall : qb2Call la (RF1 la (RS1 gauss (p - 2) (orth la) 1)) blk false A n
      (Tol.val t).half.half w = .ok ((⟨st.c, st.Q, st.B⟩, A), w') := by
    unfold qb2Call; rw [Py.bind_eq_of_ok hrun]; rfl
  have hc : (st.c : ℤ) ≤ min (n : ℤ) (min n n : ℕ) :=
    (C05_qb2_exit la _ hrf blk hblk false A hmn n _ w w' _ _ hcall).1
  have herr : fro (A - st.Q * st.B) ≤ (t / 2) / 2 * fro A :=
    C07_qb2_tolerance_met la _ hrf blk hblk A hmn n (by simp) _ (by linarith) w w' st hrun hcap
  obtain ⟨out, h1, h2, h3⟩ := C15_evd1_tolerance la _ A hA n (by omega) le_rfl (t / 2)
    (by linarith) 0 w w' _ hqb hQ hB (by show (st.c : ℤ) ≤ n; omega) herr
  have hle : t / 2 * fro A ≤ t * fro A := by have := fro_nonneg A; nlinarith
  refine ⟨out, ?_, ?_, fun heig => (h3 heig).trans hle⟩
  · unfold evd1
    rw [Py.assert_pos_bind hp]
    exact h1
  · refine h2.trans (add_le_add hle ?_)
    have h4 : √((st.c : ℕ) : ℝ) ≤ √(n : ℝ) :=
      Real.sqrt_le_sqrt (by exact_mod_cast (by omega : st.c ≤ n))
    exact mul_le_mul_of_nonneg_left h4 (by have := eps_pos; positivity)

theorem eigh_le_fro (la : LinAlg) {c : ℕ} {C : Matrix (Fin c) (Fin c) ℝ} (hC : Cᵀ = C) (i) :
    |(la.eigh C).1 i| ≤ fro C := by
  have : (la.eigh C).1 i ^ 2 ≤ froSq C := by
    conv_rhs => rw [← la.eigh_mul C hC, froSq_UdUt (la.eigh_orth C hC)]
    exact Finset.single_le_sum (f := fun i => (la.eigh C).1 i ^ 2) (fun _ _ => sq_nonneg _)
      (Finset.mem_univ i)
  rw [← Real.sqrt_sq_eq_abs]
  exact Real.sqrt_le_sqrt this

/-- **C15** (refutation).  For *every* nonzero symmetric `A` with `‖A‖_F < 10*eps` and every QB
step that did its job, EVD1 returns no components: relative error 1, above any `tol < 1`. -/
theorem C15_evd1_tolerance_false (la : LinAlg) (qb : QBDecomposer G)
    (A : Matrix (Fin n) (Fin n) ℝ) (hA : Aᵀ = A) (hA0 : A ≠ 0) (hsmall : fro A < 10 * eps) (k : ℤ)
    (hk : 0 < k) (hk' : k ≤ n) (tol : Tol) (htol : tol = .nan ∨ ∃ t, tol = .val t ∧ 0 ≤ t)
    (over : ℕ) (w w' : World G) (qbo : QBOut n n)
    (hqb : qb n n A (k + over) tol.half w = .ok (qbo, w'))
    (hQ : OrthoCols qbo.Q) (hB : qbo.B = qbo.Qᵀ * A) :
    ∃ out : EVDOut n, evd1Call la qb A k tol over w = .ok (out, w') ∧ out.r = 0 ∧
      ∀ t < 1, ¬ fro (A - out.V * diagonal out.lamb * out.Vᵀ) ≤ t * fro A := by
  obtain ⟨out, h1, -, -, h4, h5, I, hI1, hI2, -⟩ := C14_evd1_valid la qb A hA k hk hk' tol
    htol over w w' qbo hqb hQ hB
  have hCs : (qbo.Qᵀ * A * qbo.Q)ᵀ = qbo.Qᵀ * A * qbo.Q := by
    simp only [transpose_mul, transpose_transpose, hA, Matrix.mul_assoc]
  have hle : fro (qbo.Qᵀ * A * qbo.Q) ≤ fro A := by
    have hQ' : qbo.Qᵀ * qbo.Q = 1 := hQ
    have p1 := froSq_sub_proj hQ' A
    have p2 := froSq_nonneg (A - qbo.Q * (qbo.Qᵀ * A))
    have p3 := froSq_sub_proj hQ' (qbo.Qᵀ * A)ᵀ
    have p4 := froSq_nonneg ((qbo.Qᵀ * A)ᵀ - qbo.Q * (qbo.Qᵀ * (qbo.Qᵀ * A)ᵀ))
    have p5 : froSq (qbo.Qᵀ * (qbo.Qᵀ * A)ᵀ) = froSq (qbo.Qᵀ * A * qbo.Q) := by
      rw [← froSq_transpose]; simp [Matrix.mul_assoc]
    rw [froSq_transpose] at p3
    exact Real.sqrt_le_sqrt (by linarith)
  have hr0 : out.r = 0 := by
    by_contra hne
    have hpos : 0 < out.r := Nat.pos_of_ne_zero hne
    have := h4 ⟨0, hpos⟩
    rw [hI2] at this
    have := eigh_le_fro la hCs (I ⟨0, hpos⟩)
    linarith
  refine ⟨out, h1, hr0, fun t ht => ?_⟩
  have hz : A - out.V * diagonal out.lamb * out.Vᵀ = A := by
    rw [sub_eq_self]
    obtain ⟨r, V, lamb⟩ := out
    subst hr0
    ext i j; simp [mul_apply]
  rw [hz, not_le]
  have : 0 < fro A := lt_of_le_of_ne (fro_nonneg A) (fun h => hA0 (fro_eq_zero.1 h.symm))
  nlinarith

-- the hypotheses of C14 / C15_false are met: A = [eps] with the trivial QB step, k = 1
example (w : World G) : ∃ (A : Matrix (Fin 1) (Fin 1) ℝ) (qbo : QBOut 1 1),
    Aᵀ = A ∧ A ≠ 0 ∧ fro A < 10 * eps ∧
    trivialQB 1 1 A ((1 : ℤ) + ((0 : ℕ) : ℤ)) (Tol.val 0.5).half w = .ok (qbo, w) ∧
    OrthoCols qbo.Q ∧ qbo.B = qbo.Qᵀ * A := by
  have he : (0 : ℝ) < eps := by unfold eps; positivity
  refine ⟨Matrix.of fun _ _ => eps, _, by ext; simp, ?_, ?_, rfl, by simp [OrthoCols], by simp⟩
  · intro h; have := congrFun (congrFun h 0) 0; simp at this; exact he.ne' this
  · have : fro (Matrix.of fun _ _ : Fin 1 => eps) = eps := by
      simp [fro, froSq, Real.sqrt_sq he.le]
    rw [this]; linarith

end Parla.Props
