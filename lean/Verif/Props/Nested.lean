import Verif.Props.EVD2
import Verif.Proof.SVD
import Verif.Proof.ID
import Verif.Model.SVD
import Verif.Model.Interpolative

/-! # C105: for a fixed number of sketch columns, results for different `k` are nested -/

namespace Parla.Props

open Matrix Parla Spec

variable {G : Type} {m n : ℕ}

/-! ### svd1 -/

theorem take_drop (t : SVDOut m n) (ht : Antitone t.s) (k : ℕ) (cut : ℝ) (o : SVDOut m n) (ho : o = (t.take k).dropBelow cut) :
    o.r ≤ min k t.r ∧ (∀ i : Fin t.r, i.1 < k → (i.1 < o.r ↔ ¬ t.s i < cut)) ∧
    ∀ (i : Fin o.r) (j : Fin t.r), i.1 = j.1 → o.s i = t.s j ∧ (∀ a, o.U a i = t.U a j) ∧ ∀ b, o.Vh i b = t.Vh j b := by
  obtain ⟨r, hr, he, hi⟩ := SVDOut.dropBelow_eq (t.take k) (fun i j hij => ht hij) cut
  rw [he] at ho
  subst ho
  refine ⟨hr, fun i hik => (hi ⟨i.1, lt_min hik i.2⟩).symm, ?_⟩
  intro i j hij
  have e : takeIdx k t.r (Fin.castLE hr i) = j := Fin.ext hij
  exact ⟨congrArg t.s e, fun a => congrArg (t.U a) e, fun b => congrArg (t.Vh · b) e⟩

theorem drop_all (t : SVDOut m n) (ht : Antitone t.s) (cut : ℝ) (o : SVDOut m n) (ho : o = t.dropBelow cut) :
    o.r ≤ t.r ∧ (∀ i : Fin t.r, i.1 < o.r ↔ ¬ t.s i < cut) ∧
    ∀ (i : Fin o.r) (j : Fin t.r), i.1 = j.1 → o.s i = t.s j ∧ (∀ a, o.U a i = t.U a j) ∧ ∀ b, o.Vh i b = t.Vh j b := by
  obtain ⟨r, hr, he, hi⟩ := SVDOut.dropBelow_eq t ht cut
  rw [he] at ho
  subst ho
  refine ⟨hr, fun i => (hi i).symm, ?_⟩
  intro i j hij
  have e : Fin.castLE hr i = j := Fin.ext hij
  exact ⟨congrArg t.s e, fun a => congrArg (t.U a) e, fun b => congrArg (t.Vh · b) e⟩

/-- the factors of the small matrix that `SVD1` keeps -/
noncomputable def svd1Trunc (la : LinAlg) (qbo : QBOut m n) (k over : ℕ) : SVDOut qbo.c n :=
  (if over > 0 then (⟨_, (la.svd qbo.B).1, (la.svd qbo.B).2.1, (la.svd qbo.B).2.2⟩ : SVDOut qbo.c n).take k
    else ⟨_, (la.svd qbo.B).1, (la.svd qbo.B).2.1, (la.svd qbo.B).2.2⟩).dropBelow (10 * eps)

/-- **C105** (SVD1, whatever QB algorithm it uses).  If `SVD1` returns for `k'` and `over'`, then for a smaller `k` with the same `k + over`,
from the same generator state, it returns the first `k` triplets of that result (all of them if there are fewer). -/
theorem C105_svd1 (la : LinAlg) (qb : QBDecomposer G) (A : Matrix (Fin m) (Fin n) ℝ) (k k' over over' : ℕ) (tol : Tol) (hk : k < k')
    (hs : k' + over' = k + over) (w w' : World G) (o' : SVDOut m n) (h : svd1Call la qb A k' tol over' w = .ok (o', w')) :
    ∃ o, svd1Call la qb A k tol over w = .ok (o, w') ∧ o.r = min k o'.r ∧
      ∀ (i : Fin o.r) (j : Fin o'.r), i.1 = j.1 → o.s i = o'.s j ∧ (∀ a, o.U a i = o'.U a j) ∧ ∀ b, o.Vh i b = o'.Vh j b := by
  have run : ∀ k over, svd1Call la qb A k tol over = qb m n A ((k + over : ℕ) : ℤ) tol >>= fun qbo => pure
      ⟨(svd1Trunc la qbo k over).r, qbo.Q * (svd1Trunc la qbo k over).U, (svd1Trunc la qbo k over).s, (svd1Trunc la qbo k over).Vh⟩ :=
    fun _ _ => rfl
  rw [run, hs, Py.bind_ok_iff] at h
  obtain ⟨qbo, w1, hq, h⟩ := h
  rw [run, Py.bind_eq_of_ok hq]
  obtain ⟨t, et⟩ : ∃ t : SVDOut qbo.c n, t = ⟨_, (la.svd qbo.B).1, (la.svd qbo.B).2.1, (la.svd qbo.B).2.2⟩ := ⟨_, rfl⟩
  have ht : Antitone t.s := by rw [et]; exact la.svd_anti qbo.B
  obtain ⟨u, eu⟩ : ∃ u, u = svd1Trunc la qbo k over := ⟨_, rfl⟩
  obtain ⟨u', eu'⟩ : ∃ u', u' = svd1Trunc la qbo k' over' := ⟨_, rfl⟩
  rw [← eu'] at h
  rw [← eu]
  unfold svd1Trunc at eu eu'
  rw [← et, if_pos (show over > 0 by omega)] at eu
  rw [← et] at eu'
  cases h
  obtain ⟨a1, a2, a3⟩ := take_drop t ht k _ u eu
  have hu' : u'.r ≤ t.r ∧ (∀ i : Fin t.r, i.1 < k → (i.1 < u'.r ↔ ¬ t.s i < 10 * eps)) ∧
      ∀ (i : Fin u'.r) (j : Fin t.r), i.1 = j.1 → u'.s i = t.s j ∧ (∀ a, u'.U a i = t.U a j) ∧ ∀ b, u'.Vh i b = t.Vh j b := by
    by_cases ho : over' > 0
    · rw [if_pos ho] at eu'
      obtain ⟨b1, b2, b3⟩ := take_drop t ht k' _ u' eu'
      exact ⟨b1.trans (min_le_right _ _), fun i hi => b2 i (by omega), b3⟩
    · rw [if_neg ho] at eu'
      obtain ⟨b1, b2, b3⟩ := drop_all t ht _ u' eu'
      exact ⟨b1, fun i _ => b2 i, b3⟩
  obtain ⟨b1, b2, b3⟩ := hu'
  refine ⟨_, rfl, ?_, ?_⟩
  · change u.r = min k u'.r
    rcases lt_trichotomy u.r (min k u'.r) with hlt | heq | hgt
    · have := (a2 ⟨u.r, by omega⟩ (by simp only; omega)).2 ((b2 ⟨u.r, by omega⟩ (by simp only; omega)).1 (by simp only; omega))
      simp only [lt_irrefl] at this
    · exact heq
    · have hk2 : u'.r < k := by omega
      have := (b2 ⟨u'.r, by omega⟩ hk2).2 ((a2 ⟨u'.r, by omega⟩ hk2).1 (by simp only; omega))
      simp only [lt_irrefl] at this
  · intro i j hij
    change Fin u.r at i
    change Fin u'.r at j
    have hj : j.1 < t.r := j.2.trans_le b1
    obtain ⟨c1, c2, c3⟩ := a3 i ⟨j.1, hj⟩ hij
    obtain ⟨d1, d2, d3⟩ := b3 j ⟨j.1, hj⟩ rfl
    refine ⟨c1.trans d1.symm, fun a => ?_, fun b => (c3 b).trans (d3 b).symm⟩
    change (qbo.Q * u.U) a i = (qbo.Q * u'.U) a j
    rw [mul_apply, mul_apply]
    exact Finset.sum_congr rfl fun x _ => by rw [c2, d2]

theorem svd1Trunc_pre (la : LinAlg) (qbo : QBOut m n) (k over : ℕ) :
    ∃ (r : ℕ) (h : r ≤ min qbo.c n), svd1Trunc la qbo k over =
      (⟨_, (la.svd qbo.B).1, (la.svd qbo.B).2.1, (la.svd qbo.B).2.2⟩ : SVDOut qbo.c n).pre r h := by
  unfold svd1Trunc
  by_cases ho : over > 0
  · rw [if_pos ho]
    obtain ⟨r, hr, he, -⟩ := SVDOut.dropBelow_eq ((⟨_, (la.svd qbo.B).1, (la.svd qbo.B).2.1, (la.svd qbo.B).2.2⟩ :
      SVDOut qbo.c n).take k) (fun i j hij => la.svd_anti qbo.B hij) (10 * eps)
    exact ⟨r, le_trans hr (min_le_right _ _), he⟩
  · rw [if_neg ho]
    obtain ⟨r, hr, he, -⟩ := SVDOut.dropBelow_eq (⟨_, (la.svd qbo.B).1, (la.svd qbo.B).2.1, (la.svd qbo.B).2.2⟩ : SVDOut qbo.c n)
      (la.svd_anti qbo.B) (10 * eps)
    exact ⟨r, hr, he⟩

theorem froSq_trunc (la : LinAlg) (A : Matrix (Fin m) (Fin n) ℝ) (qbo : QBOut m n) (hQ : OrthoCols qbo.Q) (hB : qbo.B = qbo.Qᵀ * A)
    {r : ℕ} (h : r ≤ min qbo.c n) :
    froSq (A - qbo.Q * (la.svd qbo.B).1.submatrix id (Fin.castLE h) * diagonal ((la.svd qbo.B).2.1 ∘ Fin.castLE h) *
      (la.svd qbo.B).2.2.submatrix (Fin.castLE h) id) =
      froSq (A - qbo.Q * qbo.B) + ∑ i, (if i.1 < r then 0 else (la.svd qbo.B).2.1 i) ^ 2 := by
  have hQ' : qbo.Qᵀ * qbo.Q = 1 := hQ
  have e1 := pre_tail h (la.svd qbo.B).1 (la.svd qbo.B).2.1 (la.svd qbo.B).2.2
  rw [la.svd_mul] at e1
  have e2 : A - qbo.Q * (la.svd qbo.B).1.submatrix id (Fin.castLE h) * diagonal ((la.svd qbo.B).2.1 ∘ Fin.castLE h) *
      (la.svd qbo.B).2.2.submatrix (Fin.castLE h) id = (A - qbo.Q * qbo.B) + qbo.Q * ((la.svd qbo.B).1 *
        diagonal (fun i => if i.1 < r then 0 else (la.svd qbo.B).2.1 i) * (la.svd qbo.B).2.2) := by
    rw [← e1, Matrix.mul_sub]
    simp only [Matrix.mul_assoc]
    abel
  have horth : (A - qbo.Q * qbo.B)ᵀ * qbo.Q = 0 := by
    rw [hB, transpose_sub, Matrix.sub_mul, transpose_mul, transpose_mul, transpose_transpose, Matrix.mul_assoc, hQ', Matrix.mul_one,
      sub_self]
  rw [e2, froSq_add_of_orth (by rw [← Matrix.mul_assoc, horth, Matrix.zero_mul]), froSq_orth_mul hQ', froSq_mul_orth (la.svd_right _),
    froSq_orth_mul (la.svd_left _), froSq_diagonal]

/-- **C105** (SVD1, error).  If the QB algorithm returns an orthonormal `Q` and `B = Q'A`, the larger of the two decompositions is
no worse than the smaller. -/
theorem C105_svd1_error (la : LinAlg) (qb : QBDecomposer G) (A : Matrix (Fin m) (Fin n) ℝ) (k k' over over' : ℕ) (tol : Tol) (hk : k < k')
    (hs : k' + over' = k + over) (w w1 w' : World G) (o o' : SVDOut m n)
    (hqb : ∀ q w1, qb m n A ((k + over : ℕ) : ℤ) tol w = .ok (q, w1) → OrthoCols q.Q ∧ q.B = q.Qᵀ * A)
    (h : svd1Call la qb A k tol over w = .ok (o, w1)) (h' : svd1Call la qb A k' tol over' w = .ok (o', w')) :
    fro (A - o'.U * diagonal o'.s * o'.Vh) ≤ fro (A - o.U * diagonal o.s * o.Vh) := by
  obtain ⟨o2, h2, hr, -⟩ := C105_svd1 la qb A k k' over over' tol hk hs w w' o' h'
  rw [h] at h2
  cases h2
  have run : ∀ k over, svd1Call la qb A k tol over = qb m n A ((k + over : ℕ) : ℤ) tol >>= fun qbo => pure
      ⟨(svd1Trunc la qbo k over).r, qbo.Q * (svd1Trunc la qbo k over).U, (svd1Trunc la qbo k over).s, (svd1Trunc la qbo k over).Vh⟩ :=
    fun _ _ => rfl
  rw [run, Py.bind_ok_iff] at h
  rw [run, hs, Py.bind_ok_iff] at h'
  obtain ⟨q, w2, hq, h⟩ := h
  obtain ⟨q', w3, hq', h'⟩ := h'
  rw [hq] at hq'
  cases hq'
  obtain ⟨hQ, hB⟩ := hqb q w2 hq
  obtain ⟨r, hrr, e⟩ := svd1Trunc_pre la q k over
  obtain ⟨r', hrr', e'⟩ := svd1Trunc_pre la q k' over'
  rw [e] at h
  rw [e'] at h'
  cases h
  cases h'
  have hle : r ≤ r' := by
    have : r = min k r' := hr
    omega
  refine Real.sqrt_le_sqrt ?_
  change froSq (A - q.Q * (la.svd q.B).1.submatrix id (Fin.castLE hrr') * diagonal ((la.svd q.B).2.1 ∘ Fin.castLE hrr') *
      (la.svd q.B).2.2.submatrix (Fin.castLE hrr') id) ≤
    froSq (A - q.Q * (la.svd q.B).1.submatrix id (Fin.castLE hrr) * diagonal ((la.svd q.B).2.1 ∘ Fin.castLE hrr) *
      (la.svd q.B).2.2.submatrix (Fin.castLE hrr) id)
  rw [froSq_trunc la A q hQ hB hrr', froSq_trunc la A q hQ hB hrr]
  refine add_le_add le_rfl (Finset.sum_le_sum fun i _ => ?_)
  by_cases h1 : i.1 < r'
  · rw [if_pos h1, zero_pow two_ne_zero]; exact sq_nonneg _
  · rw [if_neg h1, if_neg (fun h2 => h1 (h2.trans_le hle))]

/-! ### evd1 -/

theorem cols_agree {a b c r r' : ℕ} (Q : Matrix (Fin a) (Fin b) ℝ) (U : Matrix (Fin b) (Fin c) ℝ) (f : Fin r → Fin c)
    (g : Fin r' → Fin c) {i : Fin r} {j : Fin r'} (e : f i = g j) (x : Fin a) :
    (Q * U.submatrix id f) x i = (Q * U.submatrix id g) x j := by
  rw [mul_apply, mul_apply]
  exact Finset.sum_congr rfl fun y _ => congrArg (fun z => Q x y * U y z) e

/-- the rank `EVD1` keeps -/
noncomputable def evd1Rank (la : LinAlg) (k : ℕ) (qbo : QBOut n n) : ℕ :=
  min k (min qbo.c (countAbove (la.eigh (qbo.B * qbo.Q)).1 (10 * eps)))

/-- **C105** (EVD1, whatever QB algorithm it uses). -/
theorem C105_evd1 (la : LinAlg) (qb : QBDecomposer G) (A : Matrix (Fin n) (Fin n) ℝ) (k k' : ℤ) (over over' : ℕ) (tol : Tol) (hk0 : 0 < k)
    (hk : k < k') (hs : k' + over' = k + over) (w w' : World G) (o' : EVDOut n)
    (h : evd1Call la qb A k' tol over' w = .ok (o', w')) :
    ∃ o, evd1Call la qb A k tol over w = .ok (o, w') ∧ (o.r : ℤ) = min k o'.r ∧
      ∀ (i : Fin o.r) (j : Fin o'.r), i.1 = j.1 → o.lamb i = o'.lamb j ∧ ∀ a, o.V a i = o'.V a j := by
  unfold evd1Call at h ⊢
  rw [Py.bind_ok_iff] at h; obtain ⟨_, w0, ha, h⟩ := h
  rw [Py.assert_ok_iff] at ha; obtain ⟨hk', rfl⟩ := ha
  rw [Py.bind_ok_iff] at h; obtain ⟨_, w0, ha, h⟩ := h
  rw [Py.assert_ok_iff] at ha; obtain ⟨hkn, rfl⟩ := ha
  rw [Py.assert_pos_bind (show k > 0 from hk0), Py.assert_pos_bind (show k ≤ (min n n : ℕ) by omega)]
  rw [Py.bind_ok_iff] at h; obtain ⟨u, w1, ht, h⟩ := h
  rw [Py.bind_eq_of_ok ht]
  rw [hs, Py.bind_ok_iff] at h; obtain ⟨qbo, w2, hq, h⟩ := h
  rw [Py.bind_eq_of_ok hq]
  cases h
  refine ⟨_, rfl, ?_, ?_⟩
  · simp only [evd1Post]
    push_cast
    omega
  · intro i j hij
    have e : takev (evd1Rank la k.toNat qbo) (la.argsort fun i => -|(la.eigh (qbo.B * qbo.Q)).1 i|) i =
        takev (evd1Rank la k'.toNat qbo) (la.argsort fun i => -|(la.eigh (qbo.B * qbo.Q)).1 i|) j :=
      congrArg (la.argsort _) (Fin.ext hij)
    refine ⟨congrArg (la.eigh (qbo.B * qbo.Q)).1 e, fun a => ?_⟩
    exact cols_agree qbo.Q (la.eigh (qbo.B * qbo.Q)).2 _ _ e a

/-! ### evd2 -/

/-- how many components `evd2Post` keeps, against the first `i` with `sigma[i+1]**2 <= nu` -/
theorem evd2_counts {k k' r r' : ℕ} {P : ℕ → Prop} (hk : k < k') (h1 : r ≤ k) (h2 : ∀ x < k - 1, P x → r ≤ x)
    (h3 : r = k ∨ (r < k - 1 ∧ P r)) (h1' : r' ≤ k') (h2' : ∀ x < k' - 1, P x → r' ≤ x) (h3' : r' = k' ∨ (r' < k' - 1 ∧ P r')) :
    r = min k r' ∨ (r = k ∧ r' + 1 = k) := by
  rcases h3 with h3 | ⟨h3, hP⟩
  · rcases h3' with h3' | ⟨h3', hP'⟩
    · left; omega
    · by_cases hr : r' < k - 1
      · have := h2 r' hr hP'
        omega
      · omega
  · have := h2' r (by omega) hP
    rcases h3' with h3' | ⟨h3', hP'⟩
    · omega
    · have := h2 r' (by omega) hP'
      omega

theorem evd2Post_of (la : LinAlg) {A : Matrix (Fin n) (Fin n) ℝ} {k k' : ℕ} {S : Cols n} {o' : EVDOut n} (hk : k < k') (hk0 : 0 < k)
    (h : evd2Post la A k' S = .ok o') :
    ∃ o, evd2Post la A k S = .ok o ∧ (o.r = min k o'.r ∨ (o.r = k ∧ o'.r + 1 = k)) ∧
      ∀ (i : Fin o.r) (j : Fin o'.r), i.1 = j.1 → o.lamb i = o'.lamb j ∧ ∀ a, o.V a i = o'.V a j := by
  unfold evd2Post at h ⊢
  simp only [bind, Except.bind] at h ⊢
  obtain ⟨nu, enu⟩ : ∃ nu, nu = evd2Nu A S.mat := ⟨_, rfl⟩
  rw [← enu] at h ⊢
  cases hch : la.cholesky (S.matᵀ * (A * S.mat + nu • S.mat)) with
  | error e => rw [hch] at h; cases h
  | ok R =>
    rw [hch] at h
    simp only at h ⊢
    cases hb : solveUpperT R (A * S.mat + nu • S.mat)ᵀ with
    | error e => rw [hb] at h; cases h
    | ok Bt =>
      rw [hb] at h
      simp only at h ⊢
      obtain ⟨σ, eσ⟩ : ∃ σ, σ = (la.svdFull Btᵀ).2.1 := ⟨_, rfl⟩
      rw [← eσ] at h ⊢
      cases hc' : evd2Comps σ nu [k'] (List.range (k' - 1)) with
      | error e => rw [hc'] at h; cases h
      | ok comps' =>
        rw [hc'] at h
        simp only at h
        obtain ⟨p1, p2⟩ := evd2Comps_ok _ _ _ hc'
        obtain ⟨comps, hc⟩ := evd2Comps_total σ nu (List.range (k - 1)) [k] fun i hi =>
          p1 i (List.mem_range.2 (by have := List.mem_range.1 hi; omega))
        rw [hc]
        simp only
        obtain ⟨-, q2⟩ := evd2Comps_ok _ _ _ hc
        obtain ⟨m1, m2, m3⟩ := foldl_min_spec comps k
        obtain ⟨m1', m2', m3'⟩ := foldl_min_spec comps' k'
        have hcnt := evd2_counts (P := fun x => ∃ h : x + 1 < min n S.c, σ ⟨x + 1, h⟩ ^ 2 ≤ nu) hk m1
          (fun x hx hp => m2 x ((q2 x).2 (.inr ⟨List.mem_range.2 hx, hp⟩)))
          (by
            rcases m3 with m3 | m3
            · exact .inl m3
            · rcases (q2 _).1 m3 with m3 | ⟨m3, m4⟩
              · left; simpa using m3
              · exact .inr ⟨List.mem_range.1 m3, m4⟩) m1'
          (fun x hx hp => m2' x ((p2 x).2 (.inr ⟨List.mem_range.2 hx, hp⟩)))
          (by
            rcases m3' with m3 | m3
            · exact .inl m3
            · rcases (p2 _).1 m3 with m3 | ⟨m3, m4⟩
              · left; simpa using m3
              · exact .inr ⟨List.mem_range.1 m3, m4⟩)
        have hN : k' ≤ min n S.c := by
          have := p1 (k' - 2) (List.mem_range.2 (by omega))
          omega
        obtain ⟨r, er⟩ : ∃ r, r = comps.foldl min k := ⟨_, rfl⟩
        obtain ⟨r', er'⟩ : ∃ r', r' = comps'.foldl min k' := ⟨_, rfl⟩
        rw [← er'] at h hcnt m1'
        rw [← er] at hcnt m1 ⊢
        cases h
        refine ⟨_, rfl, ?_, fun i j hij => ?_⟩
        · simp only
          omega
        · have e : takeIdx r (min n S.c) i = takeIdx r' (min n S.c) j := Fin.ext hij
          exact ⟨congrArg (fun x => σ x ^ 2 - nu) e, fun a => congrArg (fun x => (la.svdFull Btᵀ).1 a (minL x)) e⟩

/-- **C105** (EVD2).  If `EVD2` returns for `k'` and `over'`, then for a smaller `k` with the same `k + over`, from the same generator
state, it returns the first `k` pairs of that result (all of them if there are fewer); the one exception is that for `k` it can
return one more pair than for `k'`, namely `k` and `k - 1` of them. -/
theorem C105_evd2 (la : LinAlg) (skOp : RowSketcher G) (A : Matrix (Fin n) (Fin n) ℝ) (k k' : ℤ) (over over' : ℕ) (tol : Tol)
    (hk0 : 0 < k) (hk : k < k') (hs : k' + over' = k + over) (w w' : World G) (o' : EVDOut n)
    (h : evd2Call la skOp A k' tol over' w = .ok (o', w')) :
    ∃ o, evd2Call la skOp A k tol over w = .ok (o, w') ∧ ((o.r : ℤ) = min k o'.r ∨ ((o.r : ℤ) = k ∧ (o'.r : ℤ) = k - 1)) ∧
      ∀ (i : Fin o.r) (j : Fin o'.r), i.1 = j.1 → o.lamb i = o'.lamb j ∧ ∀ a, o.V a i = o'.V a j := by
  unfold evd2Call at h ⊢
  rw [Py.bind_ok_iff] at h; obtain ⟨_, w0, ha, h⟩ := h
  rw [Py.assert_ok_iff] at ha; obtain ⟨hk', rfl⟩ := ha
  rw [Py.bind_ok_iff] at h; obtain ⟨_, w0, ha, h⟩ := h
  rw [Py.assert_ok_iff] at ha; obtain ⟨hkn, rfl⟩ := ha
  rw [Py.assert_pos_bind (show k > 0 from hk0), Py.assert_pos_bind (show k < n by omega)]
  have h : (skOp n n A (k' + over').toNat >>= fun S => (Py.emit .mulA : Py G Unit) >>= fun _ =>
      Py.lift (evd2Post la A k'.toNat S)) (afterTolWarning tol w0) = .ok (o', w') := by
    cases tol with
    | nan => exact h
    | val t => exact h
  suffices hg : ∃ o, (skOp n n A (k + over).toNat >>= fun S => (Py.emit .mulA : Py G Unit) >>= fun _ =>
      Py.lift (evd2Post la A k.toNat S)) (afterTolWarning tol w0) = .ok (o, w') ∧
      ((o.r : ℤ) = min k o'.r ∨ ((o.r : ℤ) = k ∧ (o'.r : ℤ) = k - 1)) ∧
      ∀ (i : Fin o.r) (j : Fin o'.r), i.1 = j.1 → o.lamb i = o'.lamb j ∧ ∀ a, o.V a i = o'.V a j by
    obtain ⟨o, ho, hg⟩ := hg
    refine ⟨o, ?_, hg⟩
    cases tol with
    | nan => exact ho
    | val t => exact ho
  rw [hs, Py.bind_ok_iff] at h; obtain ⟨S, w2, hq, h⟩ := h
  rw [Py.bind_eq_of_ok hq]
  rw [Py.bind_ok_iff] at h; obtain ⟨v, w3, hv, h⟩ := h
  rw [Py.bind_eq_of_ok hv]
  obtain ⟨h1, rfl⟩ := Py.lift_ok_iff.1 h
  obtain ⟨o, ho, hr, hag⟩ := evd2Post_of la (k := k.toNat) (by omega) (by omega) h1
  exact ⟨o, Py.lift_ok_iff.2 ⟨ho, rfl⟩, by omega, hag⟩

/-- **C105** (EVD2, errors).  For a positive semidefinite matrix, unless the exception applies, the approximation for `k'` lies between
the approximation for `k` and the shifted matrix in the semidefinite order: enlarging `k` at the cost of `over` never makes it worse in
any direction, and the leading part is not touched. -/
theorem C105_evd2_error (la : LinAlg) (skOp : RowSketcher G) (A : Matrix (Fin n) (Fin n) ℝ) (hA : IsPSD A) (k k' : ℤ) (over over' : ℕ)
    (tol : Tol) (hk0 : 0 < k) (hk : k < k') (hs : k' + over' = k + over) (w w1 w' : World G) (o o' : EVDOut n)
    (h : evd2Call la skOp A k tol over w = .ok (o, w1)) (h' : evd2Call la skOp A k' tol over' w = .ok (o', w')) :
    (((o'.r : ℤ) = k - 1 ∧ (o.r : ℤ) = k) ∨ LoewnerLE (o.V * diagonal o.lamb * o.Vᵀ) (o'.V * diagonal o'.lamb * o'.Vᵀ)) ∧
      ∃ S w2, skOp n n A (k + over).toNat (afterTolWarning tol w) = .ok (S, w2) ∧
        LoewnerLE (o.V * diagonal o.lamb * o.Vᵀ) (A + (Real.sqrt n * eps * fro (A * S.mat)) • 1) ∧
        LoewnerLE (o'.V * diagonal o'.lamb * o'.Vᵀ) (A + (Real.sqrt n * eps * fro (A * S.mat)) • 1) := by
  obtain ⟨o2, h2, hr, hpre⟩ := C105_evd2 la skOp A k k' over over' tol hk0 hk hs w w' o' h'
  rw [h] at h2
  cases h2
  obtain ⟨-, -, S, w2, hS, -, -, -, -, -, hL⟩ := C16_evd2_psd la skOp A hA k tol over w w1 o h
  obtain ⟨-, -, S', w2', hS', -, -, -, hnn, -, hL'⟩ := C16_evd2_psd la skOp A hA k' tol over' w _ o' h'
  rw [hs, hS] at hS'
  cases hS'
  refine ⟨?_, S, w2, hS, hL, hL'⟩
  rcases hr with hr | ⟨hr, hr'⟩
  · right
    have hle : o.r ≤ o'.r := by have := min_le_right k (o'.r : ℤ); omega
    have q : ∀ (e : EVDOut n) (x : Fin n → ℝ), x ⬝ᵥ ((e.V * diagonal e.lamb * e.Vᵀ) *ᵥ x) = ∑ i, e.lamb i * (∑ a, e.V a i * x a) ^ 2 := by
      intro e x
      rw [← Matrix.mulVec_mulVec, ← Matrix.mulVec_mulVec, dotProduct_mulVec, ← mulVec_transpose]
      refine Finset.sum_congr rfl fun i _ => ?_
      rw [mulVec_diagonal]
      simp only [mulVec, dotProduct, transpose_apply]
      ring
    intro x
    rw [q, q]
    have e : ∑ i, o.lamb i * (∑ a, o.V a i * x a) ^ 2 =
        ∑ j ∈ Finset.univ.image (Fin.castLE hle), o'.lamb j * (∑ a, o'.V a j * x a) ^ 2 := by
      rw [Finset.sum_image (fun i _ j _ hij => Fin.castLE_injective hle hij)]
      refine Finset.sum_congr rfl fun i _ => ?_
      obtain ⟨e1, e2⟩ := hpre i (Fin.castLE hle i) rfl
      rw [e1]
      simp only [e2]
    rw [e]
    exact Finset.sum_le_sum_of_subset_of_nonneg (Finset.subset_univ _) fun j _ _ => mul_nonneg (hnn j) (sq_nonneg _)
  · exact .inl ⟨hr', hr⟩

/-! ### Interpolative decompositions -/

theorem qrcpCol_nested (la : LinAlg) {p : ℕ} (Y : Matrix (Fin p) (Fin n) ℝ) {k k' : ℕ} (hk : k ≤ k') {o' : ColID n}
    (h : qrcpCol la Y k' = .ok o') :
    ∃ o, qrcpCol la Y k = .ok o ∧ o.c = k ∧ o'.c = k' ∧ ∀ (i : Fin o.c) (j : Fin o'.c), i.1 = j.1 → o.Js i = o'.Js j := by
  unfold qrcpCol at h ⊢
  by_cases hk' : k' ≤ min p n
  · rw [dif_pos hk'] at h
    rw [dif_pos (hk.trans hk')]
    simp only [bind, Except.bind] at h ⊢
    split at h
    · cases h
    · rename_i T hT
      cases h
      have hd := (solveUpper_ok hT).1
      have hd' : ¬ ∃ i : Fin k, (la.qrp Y).2.1.submatrix (Fin.castLE (hk.trans hk'))
          (Fin.castLE ((hk.trans hk').trans (min_le_right p n))) i i = 0 := by
        rintro ⟨i, hi⟩
        exact hd ⟨Fin.castLE hk i, hi⟩
      rw [solveUpper, if_neg hd']
      refine ⟨_, rfl, rfl, rfl, fun i j hij => ?_⟩
      exact congrArg (la.qrp Y).2.2 (Fin.ext hij)
  · rw [dif_neg hk'] at h; cases h

/-- **C105** (OSID1, columns).  If `OSID1` returns for `k'` and `over'`, then for a smaller `k` with the same `k + over`, from the same
generator state, it returns and picks the first `k` of those columns. -/
theorem C105_osid1_column (la : LinAlg) (skOp : RowSketcher G) (A : Matrix (Fin m) (Fin n) ℝ) (k k' over over' : ℕ) (hk : k ≤ k')
    (hs : k' + over' = k + over) (w w' : World G) (o' : ColID n) (h : (OSID1 la skOp).col m n A k' over' w = .ok (o', w')) :
    ∃ o, (OSID1 la skOp).col m n A k over w = .ok (o, w') ∧ o.c = k ∧ o'.c = k' ∧
      ∀ (i : Fin o.c) (j : Fin o'.c), i.1 = j.1 → o.Js i = o'.Js j := by
  have run : ∀ k over, (OSID1 la skOp).col m n A k over = sketchCols skOp A k over >>= fun Yt => Py.lift (qrcpCol la Yt.matᵀ k) :=
    fun _ _ => rfl
  have hsk : sketchCols skOp A k' over' = sketchCols skOp A k over := by unfold sketchCols; rw [hs]
  rw [run, hsk, Py.bind_ok_iff] at h
  obtain ⟨Yt, w2, h1, h⟩ := h
  obtain ⟨h3, rfl⟩ := Py.lift_ok_iff.1 h
  obtain ⟨o, ho, hr⟩ := qrcpCol_nested la _ hk h3
  refine ⟨o, ?_, hr⟩
  rw [run, Py.bind_eq_of_ok h1]
  exact Py.lift_ok_iff.2 ⟨ho, rfl⟩

/-- **C105** (OSID1, rows). -/
theorem C105_osid1_row (la : LinAlg) (skOp : RowSketcher G) (A : Matrix (Fin m) (Fin n) ℝ) (k k' over over' : ℕ) (hk : k ≤ k')
    (hs : k' + over' = k + over) (w w' : World G) (o' : RowID m) (h : (OSID1 la skOp).row m n A k' over' w = .ok (o', w')) :
    ∃ o, (OSID1 la skOp).row m n A k over w = .ok (o, w') ∧ o.c = k ∧ o'.c = k' ∧
      ∀ (i : Fin o.c) (j : Fin o'.c), i.1 = j.1 → o.Is i = o'.Is j := by
  have run : ∀ k over, (OSID1 la skOp).row m n A k over = sketchRows skOp A k over >>= fun Yt => Py.lift (qrcpRow la Yt.mat k) :=
    fun _ _ => rfl
  have hsk : sketchRows skOp A k' over' = sketchRows skOp A k over := by unfold sketchRows; rw [hs]
  rw [run, hsk, Py.bind_ok_iff] at h
  obtain ⟨Yt, w2, h1, h⟩ := h
  obtain ⟨h3, rfl⟩ := Py.lift_ok_iff.1 h
  unfold qrcpRow at h3
  simp only [bind, Except.bind] at h3
  cases hq : qrcpCol la Yt.matᵀ k' with
  | error e => rw [hq] at h3; cases h3
  | ok q =>
    rw [hq] at h3
    cases h3
    obtain ⟨o, ho, hr⟩ := qrcpCol_nested la _ hk hq
    refine ⟨⟨o.c, o.Xᵀ, o.Js⟩, ?_, hr⟩
    rw [run, Py.bind_eq_of_ok h1]
    refine Py.lift_ok_iff.2 ⟨?_, rfl⟩
    unfold qrcpRow
    rw [ho]
    rfl

/-- least squares onto more columns -/
theorem lstsq_nested (la : LinAlg) {c c' : ℕ} (A : Matrix (Fin m) (Fin n) ℝ) (J : Fin c → Fin n) (J' : Fin c' → Fin n) (hc : c ≤ c')
    (hJ : ∀ (i : Fin c) (j : Fin c'), i.1 = j.1 → J i = J' j) :
    fro (A - A.submatrix id J' * la.lstsq (A.submatrix id J') A) ≤ fro (A - A.submatrix id J * la.lstsq (A.submatrix id J) A) := by
  obtain ⟨E, hE⟩ : ∃ E : Matrix (Fin c') (Fin c) ℝ, E = Matrix.of fun j' j => if j'.1 = j.1 then 1 else 0 := ⟨_, rfl⟩
  have e : A.submatrix id J' * E = A.submatrix id J := by
    ext a j
    rw [mul_apply, Finset.sum_eq_single (Fin.castLE hc j)]
    · rw [hE]; simp [hJ j (Fin.castLE hc j) rfl]
    · intro b _ hb
      have : ¬ b.1 = j.1 := fun h => hb (Fin.ext h)
      rw [hE]; simp [this]
    · simp
  rw [← e, Matrix.mul_assoc]
  refine fro_opt_of_normal ?_ _
  rw [Matrix.mul_sub, la.lstsq_normal, sub_self]

/-- **C105** (OSID2, columns).  The same for `OSID2`, which always returns for the smaller `k` if the larger call does; and the error
of the larger decomposition is at most that of the smaller. -/
theorem C105_osid2_column (la : LinAlg) (skOp : RowSketcher G) (A : Matrix (Fin m) (Fin n) ℝ) (k k' over over' : ℕ) (hk : k ≤ k')
    (hs : k' + over' = k + over) (w w' : World G) (o' : ColID n) (h : (OSID2 la skOp).col m n A k' over' w = .ok (o', w')) :
    ∃ o, (OSID2 la skOp).col m n A k over w = .ok (o, w') ∧ o.c = min k n ∧ o'.c = min k' n ∧
      (∀ (i : Fin o.c) (j : Fin o'.c), i.1 = j.1 → o.Js i = o'.Js j) ∧
      fro (A - A.submatrix id o'.Js * o'.X) ≤ fro (A - A.submatrix id o.Js * o.X) := by
  have run : ∀ k over, (OSID2 la skOp).col m n A k over = sketchCols skOp A k over >>= fun Yt => pure ⟨(pivots la Yt k).c,
      applyPinvOnLeft la A (A.submatrix id (pivots la Yt k).idx), (pivots la Yt k).idx⟩ := fun _ _ => rfl
  have hsk : sketchCols skOp A k' over' = sketchCols skOp A k over := by unfold sketchCols; rw [hs]
  rw [run, hsk, Py.bind_ok_iff] at h
  obtain ⟨Yt, w2, h1, h⟩ := h
  cases h
  refine ⟨_, by rw [run, Py.bind_eq_of_ok h1]; rfl, rfl, rfl, fun i j hij => congrArg (la.qrp Yt.matᵀ).2.2 (Fin.ext hij), ?_⟩
  exact lstsq_nested la A _ _ (show min k n ≤ min k' n by omega) fun i j hij => congrArg (la.qrp Yt.matᵀ).2.2 (Fin.ext hij)

/-- **C105** (OSID2, rows). -/
theorem C105_osid2_row (la : LinAlg) (skOp : RowSketcher G) (A : Matrix (Fin m) (Fin n) ℝ) (k k' over over' : ℕ) (hk : k ≤ k')
    (hs : k' + over' = k + over) (w w' : World G) (o' : RowID m) (h : (OSID2 la skOp).row m n A k' over' w = .ok (o', w')) :
    ∃ o, (OSID2 la skOp).row m n A k over w = .ok (o, w') ∧ o.c = min k m ∧ o'.c = min k' m ∧
      (∀ (i : Fin o.c) (j : Fin o'.c), i.1 = j.1 → o.Is i = o'.Is j) ∧
      fro (A - o'.Z * A.submatrix o'.Is id) ≤ fro (A - o.Z * A.submatrix o.Is id) := by
  have run : ∀ k over, (OSID2 la skOp).row m n A k over = sketchRows skOp A k over >>= fun Y => pure ⟨(pivots la Y k).c,
      applyPinvOnRight la A (A.submatrix (pivots la Y k).idx id), (pivots la Y k).idx⟩ := fun _ _ => rfl
  have hsk : sketchRows skOp A k' over' = sketchRows skOp A k over := by unfold sketchRows; rw [hs]
  rw [run, hsk, Py.bind_ok_iff] at h
  obtain ⟨Y, w2, h1, h⟩ := h
  cases h
  refine ⟨_, by rw [run, Py.bind_eq_of_ok h1]; rfl, rfl, rfl, fun i j hij => congrArg (la.qrp Y.matᵀ).2.2 (Fin.ext hij), ?_⟩
  have key := lstsq_nested la Aᵀ (pivots la Y k).idx (pivots la Y k').idx (show min k m ≤ min k' m by omega)
    fun i j hij => congrArg (la.qrp Y.matᵀ).2.2 (Fin.ext hij)
  have e : ∀ I : Skel m, fro (Aᵀ - Aᵀ.submatrix id I.idx * la.lstsq (Aᵀ.submatrix id I.idx) Aᵀ) =
      fro (A - applyPinvOnRight la A (A.submatrix I.idx id) * A.submatrix I.idx id) := by
    intro I
    have ht : ∀ {a b : ℕ} (M : Matrix (Fin a) (Fin b) ℝ), fro Mᵀ = fro M := fun M => by unfold fro; rw [froSq_transpose]
    rw [← ht]
    congr 1
    unfold applyPinvOnRight
    rw [transpose_sub, transpose_mul, transpose_transpose]
    rfl
  rw [e, e] at key
  exact key

end Parla.Props
