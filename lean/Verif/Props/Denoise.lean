import Verif.Props.SpectralTail
import Verif.Props.LowRankTail
import Verif.Props.Expected

/-! # C98: any low-rank matrix near `A` will do, and is recovered up to its distance from `A` -/

namespace Parla.Props

open Matrix Spec MeasureTheory Parla.Proof

variable {m n r : ℕ}

/-- gap ratio 1 holds of every spectrum -/
private theorem gap_one {A : Matrix (Fin m) (Fin n) ℝ} {U : Matrix (Fin m) (Fin r) ℝ} {s : Fin r → ℝ} {V : Matrix (Fin n) (Fin r) ℝ}
    (h : IsSVD A U s V) {t : ℕ} (ht : t ≤ r) (i : Fin r) (j : Fin t) (hi : t ≤ i.1) : s i ≤ 1 * s (Fin.castLE ht j) := by
  rw [one_mul]
  exact h.anti (Fin.le_def.2 (by simp only [Fin.val_castLE]; omega))

private theorem tail_le {A : Matrix (Fin m) (Fin n) ℝ} {U : Matrix (Fin m) (Fin r) ℝ} {s : Fin r → ℝ} {V : Matrix (Fin n) (Fin r) ℝ}
    (h : IsSVD A U s V) (L : Matrix (Fin m) (Fin n) ℝ) {t : ℕ} (hL : L.rank ≤ t) : tailSq s t ≤ fro (A - L) ^ 2 := by
  have := ey_rank h L hL
  rwa [← fro_sq] at this

/-- the singular values of a matrix of rank at most `t` are zero from position `t` on -/
theorem nth_eq_zero_of_rank {L : Matrix (Fin m) (Fin n) ℝ} {U : Matrix (Fin m) (Fin r) ℝ} {s : Fin r → ℝ} {V : Matrix (Fin n) (Fin r) ℝ}
    (h : IsSVD L U s V) {t : ℕ} (hL : L.rank ≤ t) : nth s t = 0 := by
  by_cases ht : t < r
  · have h1 := ey_rank h L hL
    rw [sub_self] at h1
    have h0 : froSq (0 : Matrix (Fin m) (Fin n) ℝ) = 0 := by simp [froSq]
    rw [h0] at h1
    have h2 : tail s t ⟨t, ht⟩ ^ 2 ≤ tailSq s t := Finset.single_le_sum (f := fun i => tail s t i ^ 2) (fun i _ => sq_nonneg _) (Finset.mem_univ _)
    have h3 : tail s t ⟨t, ht⟩ = s ⟨t, ht⟩ := by unfold tail; rw [if_neg (lt_irrefl _)]
    rw [nth_of_lt ht, ← h3]
    exact pow_eq_zero_iff (two_ne_zero) |>.1 (le_antisymm (h2.trans h1) (sq_nonneg _))
  · exact nth_of_le (not_lt.1 ht)

/-- the singular value in position `t` is at most the distance to any matrix of rank at most `t` -/
theorem nth_le_of_rank {A L : Matrix (Fin m) (Fin n) ℝ} {U : Matrix (Fin m) (Fin r) ℝ} {s : Fin r → ℝ} {V : Matrix (Fin n) (Fin r) ℝ}
    (h : IsSVD A U s V) {t : ℕ} (hL : L.rank ≤ t) {e : ℝ} (he0 : 0 ≤ e) (he : SpecNormLE (A - L) e) : nth s t ≤ e := by
  obtain ⟨U', s', V', h'⟩ := exists_isSVD L
  have := weyl_add h h' he0 he t
  rwa [nth_eq_zero_of_rank h' hL, zero_add] at this

private theorem cost_nonneg {k t : ℕ} (htk : t + 2 ≤ k) : 0 ≤ 1 + (t : ℝ) / ((k : ℝ) - t - 1) := by
  have : (t : ℝ) + 2 ≤ k := by exact_mod_cast htk
  have : 0 ≤ (t : ℝ) / ((k : ℝ) - t - 1) := div_nonneg (by positivity) (by linarith)
  linarith

private theorem near {P A L : Matrix (Fin m) (Fin n) ℝ} {x : ℝ} (h : fro (A - P) ^ 2 ≤ x) : fro (P - L) ≤ √x + fro (A - L) := by
  rw [show P - L = -(A - P) + (A - L) by abel]
  refine (fro_triangle _ _).trans (add_le_add ?_ le_rfl)
  rw [show fro (-(A - P)) = fro (A - P) by unfold fro froSq; simp only [Matrix.neg_apply, neg_sq]]
  exact Real.le_sqrt_of_sq_le h

/-- **C98** (rangefinder).  Let `L` be any matrix of rank at most `t ≤ k - 2`.  The mean squared error of `rf1(A, k, p, rng)` is at most
`(1 + t/(k-t-1)) ‖A - L‖²`. -/
theorem C98_rf1 (A L : Matrix (Fin m) (Fin n) ℝ) (t : ℕ) (hL : L.rank ≤ t) (k : ℕ) (hk' : k ≤ min m n) (htk : t + 2 ≤ k) (p : ℤ) (hp : 1 ≤ p) :
    ∃ g : (Fin (startRows (p - 1) m n) × Fin k → ℝ) → ℝ, (∀ Z, 0 ≤ g Z) ∧ Integrable g (normals _ k) ∧
      ∫ Z, g Z ∂(normals _ k) ≤ (1 + t / ((k : ℝ) - t - 1)) * fro (A - L) ^ 2 ∧
      ∀ᵐ Z ∂(normals _ k), ∀ (G : Type) (la : LinAlg) (R : NpRng G) (w : World G), NextNormal R w _ _ Z →
        ∃ Q w', rf1 la (gaussianOperator R true) A k p w = .ok (Q, w') ∧ Q.c = k ∧ OrthoCols Q.mat ∧
          fro (A - Q.mat * (Q.matᵀ * A)) ^ 2 ≤ g Z := by
  obtain ⟨U, s, V, h⟩ := exists_isSVD A
  obtain ⟨g, h0, h1, h2, h3⟩ := C65_rf1 A h k hk' t (by omega) htk 1 (gap_one h _) p hp
  refine ⟨g, h0, h1, ?_, h3⟩
  rw [h2, one_pow, one_mul, mul_comm]
  exact mul_le_mul_of_nonneg_left (tail_le h L hL) (cost_nonneg htk)

/-- **C98** for `qb(A, k, p, rng)`; the matrix `QB` returned is within `√g + ‖A - L‖` of `L`, where the mean of `g` is at most
`(1 + t/(k-t-1)) ‖A - L‖²`. -/
theorem C98_qb (A L : Matrix (Fin m) (Fin n) ℝ) (t : ℕ) (hL : L.rank ≤ t) (k : ℕ) (hk' : k ≤ min m n) (htk : t + 2 ≤ k) (p : ℤ) (hp : 2 ≤ p) :
    ∃ g : (Fin (startRows (p - 2) m n) × Fin k → ℝ) → ℝ, (∀ Z, 0 ≤ g Z) ∧ Integrable g (normals _ k) ∧
      ∫ Z, g Z ∂(normals _ k) ≤ (1 + t / ((k : ℝ) - t - 1)) * fro (A - L) ^ 2 ∧
      ∀ᵐ Z ∂(normals _ k), ∀ (G : Type) (la : LinAlg) (R : NpRng G) (w : World G), NextNormal R w _ _ Z →
        ∃ out w', qb la (gaussianOperator R true) p A k w = .ok (out, w') ∧ out.c = k ∧ OrthoCols out.Q ∧
          fro (A - out.Q * out.B) ^ 2 ≤ g Z ∧ fro (out.Q * out.B - L) ≤ √(g Z) + fro (A - L) := by
  obtain ⟨U, s, V, h⟩ := exists_isSVD A
  obtain ⟨g, h0, h1, h2, h3⟩ := C65_qb A h k hk' t (by omega) htk 1 (gap_one h _) p hp
  refine ⟨g, h0, h1, ?_, ?_⟩
  · rw [h2, one_pow, one_mul, mul_comm]
    exact mul_le_mul_of_nonneg_left (tail_le h L hL) (cost_nonneg htk)
  · filter_upwards [h3] with Z hZ G la R w hw
    obtain ⟨out, w', e1, e2, e3, e4⟩ := hZ G la R w hw
    exact ⟨out, w', e1, e2, e3, e4, near e4⟩

/-- **C98**: a matrix of rank at most `k - 2` is recovered exactly, almost surely. -/
theorem C98_qb_exact (A : Matrix (Fin m) (Fin n) ℝ) (k : ℕ) (hk' : k ≤ min m n) (hr : A.rank + 2 ≤ k) (p : ℤ) (hp : 2 ≤ p) :
    ∀ᵐ Z ∂(normals (startRows (p - 2) m n) k), ∀ (G : Type) (la : LinAlg) (R : NpRng G) (w : World G), NextNormal R w _ _ Z →
      ∃ out w', qb la (gaussianOperator R true) p A k w = .ok (out, w') ∧ out.Q * out.B = A := by
  obtain ⟨g, h0, h1, h2, h3⟩ := C98_qb A A A.rank le_rfl k hk' hr p hp
  have hf : fro (A - A) = 0 := by rw [sub_self]; simp [fro, froSq]
  rw [hf, zero_pow two_ne_zero, mul_zero] at h2
  have hg := (integral_eq_zero_iff_of_nonneg h0 h1).1 (le_antisymm h2 (integral_nonneg h0))
  filter_upwards [h3, hg] with Z hZ hgZ G la R w hw
  obtain ⟨out, w', e1, -, -, -, e2⟩ := hZ G la R w hw
  refine ⟨out, w', e1, ?_⟩
  rw [hf, hgZ, Pi.zero_apply, Real.sqrt_zero, add_zero] at e2
  have e3 : froSq (out.Q * out.B - A) = 0 := by rw [← fro_sq, le_antisymm e2 (fro_nonneg _), zero_pow two_ne_zero]
  have h4 : ∀ i j, (out.Q * out.B - A) i j = 0 := by
    intro i j
    unfold froSq at e3
    have a := (Finset.sum_eq_zero_iff_of_nonneg fun i _ => Finset.sum_nonneg fun j _ => sq_nonneg _).1 e3 i (Finset.mem_univ _)
    have b := (Finset.sum_eq_zero_iff_of_nonneg fun j _ => sq_nonneg _).1 a j (Finset.mem_univ _)
    exact pow_eq_zero_iff two_ne_zero |>.1 b
  exact sub_eq_zero.1 (by ext i j; exact h4 i j)

/-- **C98** (failure probability) for `qb`. -/
theorem C98_qb_tail (A L : Matrix (Fin m) (Fin n) ℝ) (t : ℕ) (hL : L.rank ≤ t) (k : ℕ) (hk : 0 < k) (hk' : k ≤ min m n) (htk : t ≤ k)
    (p : ℤ) (hp : 2 ≤ p) (ε : ℝ) (h0 : 0 ≤ ε) (h1 : ε < 1) :
    ∃ E : Set (Fin (startRows (p - 2) m n) × Fin k → ℝ),
      normals _ k E ≤ ENNReal.ofReal (3 * 9 ^ t * Real.exp (-(k * ε ^ 2 / 32))) ∧
      ∀ Z ∉ E, ∀ (G : Type) (la : LinAlg) (R : NpRng G) (w : World G), NextNormal R w _ _ Z →
        ∃ out w', qb la (gaussianOperator R true) p A k w = .ok (out, w') ∧ out.c = k ∧ OrthoCols out.Q ∧
          fro (A - out.Q * out.B) ≤ √(1 + (1 + ε / 2) / (1 - ε)) * fro (A - L) ∧
          fro (out.Q * out.B - L) ≤ (1 + √(1 + (1 + ε / 2) / (1 - ε))) * fro (A - L) := by
  obtain ⟨U, s, V, h⟩ := exists_isSVD A
  obtain ⟨E, hE, h3⟩ := C78_qb A h k hk hk' t (by omega) htk 1 (gap_one h _) p hp ε h0 h1
  refine ⟨E, hE, fun Z hZ G la R w hw => ?_⟩
  obtain ⟨out, w', e1, e2, e3, e4⟩ := h3 Z hZ G la R w hw
  have hc : 0 ≤ 1 + (1 + ε / 2) / (1 - ε) := add_nonneg zero_le_one (div_nonneg (by linarith) (by linarith))
  have e5 : fro (A - out.Q * out.B) ^ 2 ≤ (1 + (1 + ε / 2) / (1 - ε)) * fro (A - L) ^ 2 := by
    refine e4.trans ?_
    rw [one_pow, one_mul, mul_comm]
    exact mul_le_mul_of_nonneg_left (tail_le h L hL) hc
  have e6 : √((1 + (1 + ε / 2) / (1 - ε)) * fro (A - L) ^ 2) = √(1 + (1 + ε / 2) / (1 - ε)) * fro (A - L) := by
    rw [Real.sqrt_mul hc, Real.sqrt_sq (fro_nonneg _)]
  refine ⟨out, w', e1, e2, e3, ?_, ?_⟩
  · rw [← e6]; exact Real.le_sqrt_of_sq_le e5
  · rw [add_mul, one_mul, add_comm, ← e6]; exact near e5

/-- **C98** for `svd1(A, k, over, nan, p, blk, rng)`, `L` of rank at most `t ≤ k`. -/
theorem C98_svd1 (A L : Matrix (Fin m) (Fin n) ℝ) (t : ℕ) (hL : L.rank ≤ t)
    (k over K : ℕ) (htk' : t ≤ k) (hK : K = min (k + over) (min m n)) (p : ℤ) (hp : 2 ≤ p) (blk : ℕ) (hblk : 0 < blk)
    (W : ℕ) (hW : W = if p = 2 then K else min blk K) (htk : t + 2 ≤ W) (hone : K ≤ blk ∨ k + over ≤ A.rank) :
    ∃ g : Proof.Draws (startRows (p - 2) m n) (blockWidths K blk) → ℝ,
      (∀ Z, 0 ≤ g Z) ∧ Integrable g (normalSeq _ _) ∧
      ∫ Z, g Z ∂(normalSeq _ _) ≤ (2 + t / ((W : ℝ) - t - 1)) * fro (A - L) ^ 2 + (10 * eps) ^ 2 * (min K n : ℕ) ∧
      ∀ᵐ Zs ∂(normalSeq _ _), ∀ (G : Type) (la : LinAlg) (R : NpRng G) (w : World G),
        NextDraws R _ w.rng Zs →
        ∃ (out : SVDOut m n) (w' : World G),
          svd1 la (gaussianOperator R true) A k over .nan p blk w = .ok (out, w') ∧ out.r ≤ k ∧
          OrthoCols out.U ∧ OrthoRows out.Vh ∧
          fro (A - out.U * diagonal out.s * out.Vh) ^ 2 ≤ g Zs ∧
          fro (out.U * diagonal out.s * out.Vh - L) ≤ √(g Zs) + fro (A - L) := by
  have hWK : W ≤ K := by rw [hW]; split <;> omega
  obtain ⟨U, s, V, h⟩ := exists_isSVD A
  obtain ⟨g, h0, h1, h2, h3⟩ := C65_svd1 A h k over K hK p hp blk hblk W hW t (by omega) htk 1 (gap_one h _) hone
  refine ⟨g, h0, h1, ?_, ?_⟩
  · rw [h2, one_pow, one_mul]
    have c1 := mul_le_mul_of_nonneg_left (tail_le h L hL) (cost_nonneg htk)
    have c2 := tail_le h L (hL.trans htk')
    rw [mul_comm] at c1
    linarith
  · filter_upwards [h3] with Z hZ G la R w hw
    obtain ⟨out, w', e1, e2, e3, e4, -, e5⟩ := hZ G la R w hw
    exact ⟨out, w', e1, e2, e3, e4, e5, near e5⟩

/-- the singular values returned are not negative -/
theorem svd1_nonneg {G : Type} {la : LinAlg} {gauss : SkOpGen G} {A : Matrix (Fin m) (Fin n) ℝ} {k over : ℕ} {tol : Tol} {p : ℤ} {blk : ℕ} {w w' : World G}
    {out : SVDOut m n} (h : svd1 la gauss A k over tol p blk w = .ok (out, w')) (i : Fin out.r) : 0 ≤ out.s i := by
  obtain ⟨qbo, w1, hqb, -⟩ := Py.bind_ok_iff.1 (show (_ >>= _ : Py G (SVDOut m n)) w = _ from h)
  obtain ⟨r, hr, h1, -⟩ := svd1_open la _ A k tol over w w1 qbo hqb
  have h2 := h1.symm.trans h
  cases h2
  exact la.svd_nonneg _ _

/-- **C98** for the singular values returned by `svd1`: if `‖A - L‖₂ ≤ e` and `L` has rank at most `t`, they are within `g + e` of those of `L`,
where the mean of `g` is at most `e (1 + (min(m, n) - t) t/(W-t-1))^(1/(2(p-1)))`. -/
theorem C98_svd1_values (A L : Matrix (Fin m) (Fin n) ℝ) (t : ℕ) (hL : L.rank ≤ t) (e : ℝ) (he0 : 0 ≤ e) (he : SpecNormLE (A - L) e)
    {U : Matrix (Fin m) (Fin r) ℝ} {s : Fin r → ℝ} {V : Matrix (Fin n) (Fin r) ℝ} (hs : IsSVD L U s V)
    (k over K : ℕ) (hK : K = min (k + over) (min m n)) (p : ℤ) (hp : 2 ≤ p) (blk : ℕ) (hblk : 0 < blk)
    (W : ℕ) (hW : W = if p = 2 then K else min blk K) (htk : t + 2 ≤ W) (hone : K ≤ blk ∨ k + over ≤ A.rank) :
    ∃ g : Proof.Draws (startRows (p - 2) m n) (blockWidths K blk) → ℝ,
      (∀ Z, 0 ≤ g Z) ∧ Integrable g (normalSeq _ _) ∧
      ∫ Z, g Z ∂(normalSeq _ _) ≤ e * (1 + ((min m n : ℕ) - t : ℝ) * (t / ((W : ℝ) - t - 1))) ^ (2 * ((p : ℝ) - 1))⁻¹ ∧
      ∀ᵐ Zs ∂(normalSeq _ _), ∀ (G : Type) (la : LinAlg) (R : NpRng G) (w : World G),
        NextDraws R _ w.rng Zs →
        ∃ (out : SVDOut m n) (w' : World G),
          svd1 la (gaussianOperator R true) A k over .nan p blk w = .ok (out, w') ∧
          (∀ i : Fin out.r, out.s i ≤ nth s i + e ∧ nth s i ≤ out.s i + g Zs + e) ∧
          ∀ i, out.r ≤ i → i < k → nth s i ≤ 10 * eps + g Zs + e := by
  have hWK : W ≤ K := by rw [hW]; split <;> omega
  obtain ⟨U', s', V', h⟩ := exists_isSVD A
  obtain ⟨g, h0, h1, h2, h3⟩ := C95_svd1 A h k over K hK p hp blk hblk W hW t (by omega) htk hone
  have he' : SpecNormLE (L - A) e := by
    intro x
    have := he x
    rwa [show A - L = -(L - A) by abel, neg_mulVec, show norm2 (-((L - A) *ᵥ x)) = norm2 ((L - A) *ᵥ x) by unfold norm2; rw [sqNorm_neg]] at this
  have hup : ∀ i, nth s' i ≤ nth s i + e := weyl_add h hs he0 he
  have hlo : ∀ i, nth s i ≤ nth s' i + e := weyl_add hs h he0 he'
  have hsq : ∀ {a b c : ℝ}, 0 ≤ b → 0 ≤ c → a ^ 2 ≤ b ^ 2 + c ^ 2 → a ≤ b + c := fun hb hc h => by
    refine le_of_sq_le_sq ?_ (by positivity)
    nlinarith [mul_nonneg hb hc]
  refine ⟨g, h0, h1, h2.trans ?_, ?_⟩
  · refine mul_le_mul_of_nonneg_right (nth_le_of_rank h hL he0 he) (Real.rpow_nonneg ?_ _)
    have a1 : (t : ℝ) ≤ (min m n : ℕ) := by exact_mod_cast (by omega : t ≤ min m n)
    have a2 : (t : ℝ) + 2 ≤ W := by exact_mod_cast htk
    have := mul_nonneg (sub_nonneg.2 a1) (div_nonneg (Nat.cast_nonneg (α := ℝ) t) (by linarith : (0 : ℝ) ≤ (W : ℝ) - t - 1))
    linarith
  · filter_upwards [h3] with Z hZ G la R w hw
    obtain ⟨out, w', e1, e2, e3⟩ := hZ G la R w hw
    refine ⟨out, w', e1, fun i => ?_, fun i hi hik => ?_⟩
    · obtain ⟨a1, a2, -, -⟩ := e2 i
      have a3 : 0 ≤ out.s i := svd1_nonneg e1 i
      exact ⟨a1.trans (hup i), (hlo i).trans (by linarith [hsq a3 (h0 Z) a2])⟩
    · exact (hlo i).trans (by linarith [hsq (by unfold eps; positivity) (h0 Z) (e3 i hi hik)])

/-- the hypotheses are met: a matrix of ones with one entry changed, near the rank-one matrix of ones; `k = 3` columns -/
example : ∃ (A L : Matrix (Fin 5) (Fin 4) ℝ), A ≠ L ∧ L.rank ≤ 1 ∧
    ∃ g : (Fin (startRows (2 - 2) 5 4) × Fin 3 → ℝ) → ℝ, (∀ Z, 0 ≤ g Z) ∧ Integrable g (normals _ 3) ∧ ∫ Z, g Z ∂(normals _ 3) ≤ 2 * fro (A - L) ^ 2 ∧
      ∀ᵐ Z ∂(normals _ 3), ∀ (G : Type) (la : LinAlg) (R : NpRng G) (w : World G), NextNormal R w _ _ Z →
        ∃ out w', qb la (gaussianOperator R true) 2 A 3 w = .ok (out, w') ∧ fro (out.Q * out.B - L) ≤ √(g Z) + fro (A - L) := by
  obtain ⟨L, hL⟩ : ∃ L : Matrix (Fin 5) (Fin 4) ℝ, L = Matrix.of fun _ _ => 1 := ⟨_, rfl⟩
  obtain ⟨A, hA⟩ : ∃ A : Matrix (Fin 5) (Fin 4) ℝ, A = Matrix.of fun i j => if i.1 = 0 ∧ j.1 = 0 then 2 else 1 := ⟨_, rfl⟩
  have hr : L.rank ≤ 1 := by
    have : L = (Matrix.of fun (_ : Fin 5) (_ : Fin 1) => (1 : ℝ)) * (Matrix.of fun (_ : Fin 1) (_ : Fin 4) => (1 : ℝ)) := by
      rw [hL]; ext i j; simp [Matrix.mul_apply]
    rw [this]
    exact (Matrix.rank_mul_le_left _ _).trans (rank_le_width' _)
  obtain ⟨g, h0, h1, h2, h3⟩ := C98_qb A L 1 hr 3 (by norm_num) (by norm_num) 2 (by norm_num)
  refine ⟨A, L, ?_, hr, g, h0, h1, h2.trans (le_of_eq (by norm_num)), ?_⟩
  · intro h
    have := congrFun (congrFun h 0) 0
    rw [hA, hL] at this
    simp at this
  · filter_upwards [h3] with Z hZ G la R w hw
    obtain ⟨out, w', e1, -, -, -, e2⟩ := hZ G la R w hw
    exact ⟨out, w', e1, e2⟩

end Parla.Props
