import Verif.Props.ID2
import Verif.Props.QB2
import Verif.Props.SVD
import Verif.Model.SVD
import Verif.Model.Sketching
import Verif.Model.EVD
import Mathlib.Data.Rat.Floor

/-! # Property C24, blocked algorithms: passes over `A` of `qb_b`, `qb_b_pe`, `svd1` and `evd1` -/

namespace Parla.Props

open Matrix Parla Spec

variable {G : Type} {m n : ℕ}

/-- numpy's Gaussian sketching operators, which all these wrappers use, do not touch the data matrix -/
theorem gaussianOperator_quiet (R : NpRng G) (normalize : Bool) : Quiet (gaussianOperator R normalize) := by
  intro r c w S w' h
  unfold gaussianOperator at h
  cases normalize with
  | false =>
    simp only [Bool.false_eq_true, if_false, Py.draw_apply, Except.ok.injEq, Prod.mk.injEq] at h
    rw [← h.2]
  | true =>
    rw [if_pos rfl] at h
    by_cases hm : min r c = 0
    · rw [if_pos hm] at h
      cases h
    · rw [if_neg hm, Py.bind_eq_of_ok (Py.draw_apply _ _)] at h
      cases h
      rfl

/-- a call of the rangefinder used by the blocked wrappers: its passes and the width of its output -/
theorem blockRF_passes {la : LinAlg} {gauss : SkOpGen G} (hq : Quiet gauss) {p : ℤ} {A : Matrix (Fin m) (Fin n) ℝ}
    {blk : ℕ} {out : Cols m} {w w' : World G}
    (h : RF1 la (RS1 gauss (p - 2) (orth la) 1) m n A (blk : ℤ) .nan w = .ok (out, w')) :
    0 < blk ∧ blk ≤ min m n ∧ out.c = blk ∧ 2 ≤ p ∧
      (numPasses w'.trace : ℤ) = numPasses w.trace + (p - 1) := by
  unfold RF1 rf1Call at h
  rw [Py.bind_ok_iff] at h; obtain ⟨_, w0, ha, h⟩ := h
  rw [Py.assert_ok_iff] at ha; obtain ⟨hk, rfl⟩ := ha
  rw [Py.bind_ok_iff] at h; obtain ⟨_, w0, ha, h⟩ := h
  rw [Py.assert_ok_iff] at ha; obtain ⟨hk', rfl⟩ := ha
  have h1 : (RS1 gauss (p - 2) (orth la) 1 m n A (blk : ℤ).toNat >>= fun S => passA A S >>= fun Y =>
      pure ⟨_, (la.qr Y.mat).1⟩) w0 = .ok (out, w') := h
  rw [Int.toNat_natCast] at h1
  rw [Py.bind_ok_iff] at h1; obtain ⟨S, w2, h2, h1⟩ := h1
  rw [Py.bind_ok_iff] at h1; obtain ⟨Y, w3, h3, h1⟩ := h1
  obtain ⟨g1, g2⟩ := rs1_passes hq h2
  have hb : blk ≤ min m n := by omega
  have hc : S.c = blk := rs1Call_width_eq (fun _ _ => rfl) hb h2
  unfold passA at h3
  rw [Py.bind_eq_of_ok (Py.emit_apply _ _)] at h3
  cases h3
  cases h1
  refine ⟨by omega, hb, ?_, by omega, ?_⟩
  · show min m S.c = blk
    omega
  · show ((numPasses (w2.trace ++ [Ev.mulA]) : ℕ) : ℤ) = _
    rw [numPasses_append, show numPasses [Ev.mulA] = 1 by decide]
    omega

/-- the loop of `QB2` with that rangefinder, from a state that has completed `i` whole blocks -/
theorem qb2Loop_passes {la : LinAlg} {gauss : SkOpGen G} (hq : Quiet gauss) {p : ℤ} {k blk : ℕ} {useTol : Prop} {tl : ℝ}
    (fuel : ℕ) (i : ℕ) (st st' : QB2St m n) (w w' : World G)
    (h : qb2Loop la (RF1 la (RS1 gauss (p - 2) (orth la) 1)) k useTol tl fuel st w = .ok (st', w'))
    (hc : st.c < k) (hi : st.c = i * blk) (hb : st.blk = blk) :
    2 ≤ p ∧ 0 < blk ∧ st'.c ≤ k ∧ ((useTol ∧ st'.sqn ≤ tl) ∨ st'.c = k) ∧
    ∃ N, i < N ∧ (N - 1) * blk < st'.c ∧ st'.c ≤ N * blk ∧
      (numPasses w'.trace : ℤ) = numPasses w.trace + p * ((N : ℤ) - i) := by
  induction fuel generalizing st w i with
  | zero => simp [qb2Loop] at h
  | succ fuel ih =>
    unfold qb2Loop at h
    rw [Py.bind_ok_iff] at h
    obtain ⟨out, wd, hd, h⟩ := h
    obtain ⟨w1, h1, rfl⟩ := qb2Draw_ok_iff.1 hd
    obtain ⟨b1, b2, b3, b4, b5⟩ := blockRF_passes hq h1
    rw [hb] at b1 b2 b3 h
    have hw : (numPasses (w1.trace ++ [Ev.mulAT]) : ℤ) = numPasses w.trace + p := by
      rw [numPasses_append, show numPasses [Ev.mulAT] = 1 by decide]
      omega
    have hB : 0 < blk := by unfold qb2Blk at b1; split at b1 <;> omega
    obtain ⟨s, hs⟩ : ∃ s, s = qb2Update la (qb2Blk k st.c blk) st out := ⟨_, rfl⟩
    have hsc : s.c = st.c + qb2Blk k st.c blk := by
      rw [hs]; show st.c + min m out.c = _
      omega
    have hsb : s.blk = qb2Blk k st.c blk := by rw [hs]; rfl
    rw [← hs] at h
    have hle : qb2Blk k st.c blk ≤ blk := by unfold qb2Blk; split <;> omega
    have hlek : st.c + qb2Blk k st.c blk ≤ k := by unfold qb2Blk; split <;> omega
    have hNc : (i + 1) * blk = i * blk + blk := by ring
    have done : ∀ w'' : World G, ((useTol ∧ s.sqn ≤ tl) ∨ s.c = k) → w''.trace = w1.trace ++ [Ev.mulAT] →
        2 ≤ p ∧ 0 < blk ∧ s.c ≤ k ∧ ((useTol ∧ s.sqn ≤ tl) ∨ s.c = k) ∧
        ∃ N, i < N ∧ (N - 1) * blk < s.c ∧ s.c ≤ N * blk ∧
          (numPasses w''.trace : ℤ) = numPasses w.trace + p * ((N : ℤ) - i) := by
      intro w'' hor ht
      refine ⟨b4, hB, by omega, hor, i + 1, by omega, ?_, ?_, ?_⟩
      · rw [Nat.add_sub_cancel]; omega
      · omega
      · rw [ht, hw]; push_cast; ring
    by_cases c1 : useTol ∧ s.sqn ≤ tl
    · rw [if_pos c1] at h
      cases h
      exact done _ (Or.inl c1) rfl
    · rw [if_neg c1] at h
      by_cases c2 : s.c ≥ k
      · rw [if_pos c2] at h
        cases h
        exact done _ (Or.inr (by omega)) rfl
      · rw [if_neg c2] at h
        have hbk : qb2Blk k st.c blk = blk := by
          unfold qb2Blk at hsc ⊢
          split at hsc <;> split <;> omega
        obtain ⟨d1, d2, d3, d4, N, d5, d6, d7, d8⟩ := ih (i + 1) s _ h (by omega) (by omega) (by omega)
        refine ⟨d1, d2, d3, d4, N, by omega, d6, d7, ?_⟩
        rw [d8]
        show (numPasses (w1.trace ++ [Ev.mulAT]) : ℤ) + _ = _
        rw [hw]; push_cast; ring

/-- between `N - 1` and `N` whole blocks is `N` blocks -/
theorem ceil_blocks {c blk N : ℕ} (hb : 0 < blk) (h1 : (N - 1) * blk < c) (h2 : c ≤ N * blk) :
    ⌈(c : ℚ) / blk⌉ = N := by
  have hb' : (0 : ℚ) < blk := by exact_mod_cast hb
  have hN : 0 < N := by
    rcases Nat.eq_zero_or_pos N with rfl | h
    · omega
    · exact h
  rw [Int.ceil_eq_iff]
  constructor
  · rw [lt_div_iff₀ hb']
    have : (((N - 1 : ℕ) * blk : ℕ) : ℚ) < c := by exact_mod_cast h1
    rw [Nat.cast_mul, Nat.cast_sub hN] at this
    simpa using this
  · rw [div_le_iff₀ hb']
    exact_mod_cast h2

theorem qb2Run_passes {la : LinAlg} {gauss : SkOpGen G} (hq : Quiet gauss) {p : ℤ} {blk : ℕ}
    {A : Matrix (Fin m) (Fin n) ℝ} {k : ℤ} {tol : Tol} {w w' : World G} {st : QB2St m n}
    (h : qb2Run la (RF1 la (RS1 gauss (p - 2) (orth la) 1)) blk A k tol w = .ok (st, w')) :
    2 ≤ p ∧ 0 < blk ∧ 0 < k ∧ st.c ≤ min k.toNat (min m n) ∧ (tol = .nan → st.c = min k.toNat (min m n)) ∧
      1 ≤ ⌈(st.c : ℚ) / blk⌉ ∧
      (numPasses w'.trace : ℤ) = numPasses w.trace + p * ⌈(st.c : ℚ) / blk⌉ := by
  have hk : 0 < k := by
    by_contra hn
    unfold qb2Run at h
    rw [Py.bind_ok_iff] at h; obtain ⟨_, w0, ha, h⟩ := h
    rw [Py.assert_ok_iff] at ha
    exact hn ha.1
  rw [qb2Run_open w hk] at h
  by_cases hc : 0 < clampK k m n
  · obtain ⟨d1, d2, d3, d4, N, d5, d6, d7, d8⟩ := qb2Loop_passes (blk := blk) hq _ 0 _ _ _ _ h hc
      (by simp [qb2Init]) rfl
    have hce := ceil_blocks d2 d6 d7
    refine ⟨d1, d2, hk, d3, ?_, by rw [hce]; omega, ?_⟩
    · rintro rfl
      rcases d4 with ⟨hn, -⟩ | he
      · exact absurd hn (by simp [Tol.use])
      · exact he
    · rw [d8, hce]
      split <;> simp
  · exfalso
    unfold qb2Loop at h
    rw [Py.bind_ok_iff] at h
    obtain ⟨out, wd, hd, h⟩ := h
    obtain ⟨w1, h1, rfl⟩ := qb2Draw_ok_iff.1 hd
    obtain ⟨b1, b2, -⟩ := blockRF_passes hq h1
    unfold clampK at hc
    have : qb2Blk (clampK k m n) (qb2Init A blk).c (qb2Init A blk).blk ≤ clampK k m n := by
      unfold qb2Blk; split <;> omega
    unfold clampK at this b1
    omega

/-- **C24** (`qb_b`): a returned call made exactly `inner_num_pass` products with `A` / `A.T` per block of
(at most) `blk` columns of the `Q` it returned; without a tolerance the number of blocks is `⌈min(k, m, n) / blk⌉`. -/
theorem C24_qb_b_passes (la : LinAlg) (gauss : SkOpGen G) (hq : Quiet gauss) (p : ℤ) (blk : ℕ) (ow : Bool)
    (A : Matrix (Fin m) (Fin n) ℝ) (k : ℤ) (tol : Tol) (w w' : World G)
    (out : QBOut m n) (A' : Matrix (Fin m) (Fin n) ℝ)
    (h : qbB la gauss p blk ow A k tol w = .ok ((out, A'), w')) :
    2 ≤ p ∧ (numPasses w'.trace : ℤ) = numPasses w.trace + p * ⌈(out.c : ℚ) / blk⌉ ∧
      (tol = .nan → out.c = min k.toNat (min m n)) := by
  unfold qbB qb2Call at h
  rw [Py.bind_ok_iff] at h; obtain ⟨st, w1, h1, h⟩ := h
  cases h
  obtain ⟨d1, -, -, -, d5, -, d7⟩ := qb2Run_passes hq h1
  exact ⟨d1, d7, d5⟩

theorem QB2_passes {la : LinAlg} {gauss : SkOpGen G} (hq : Quiet gauss) {p : ℤ} {blk : ℕ} {ow : Bool}
    {A : Matrix (Fin m) (Fin n) ℝ} {k : ℤ} {tol : Tol} {w w' : World G} {out : QBOut m n}
    (h : QB2 la (RF1 la (RS1 gauss (p - 2) (orth la) 1)) blk ow m n A k tol w = .ok (out, w')) :
    2 ≤ p ∧ ∃ N : ℕ, 1 ≤ N ∧ (N : ℤ) ≤ ⌈(min k.toNat (min m n) : ℕ) / (blk : ℚ)⌉ ∧
      (tol = .nan → (N : ℤ) = ⌈(min k.toNat (min m n) : ℕ) / (blk : ℚ)⌉) ∧
      (numPasses w'.trace : ℤ) = numPasses w.trace + p * N := by
  unfold QB2 qb2Call at h
  rw [Py.bind_ok_iff] at h; obtain ⟨r, w0, h1, h⟩ := h
  rw [Py.bind_ok_iff] at h1; obtain ⟨st, w1, h1, h2⟩ := h1
  cases h2
  cases h
  obtain ⟨d1, d2, -, d4, d5, d6, d7⟩ := qb2Run_passes hq h1
  refine ⟨d1, ⌈(st.c : ℚ) / blk⌉.toNat, by omega, ?_, ?_, ?_⟩
  · rw [Int.toNat_of_nonneg (by omega)]
    apply Int.ceil_le_ceil
    have hb' : (0 : ℚ) < blk := by exact_mod_cast d2
    gcongr
  · intro ht
    rw [Int.toNat_of_nonneg (by omega), d5 ht]
  · rw [Int.toNat_of_nonneg (by omega)]
    exact d7

/-- **C24** (`svd1`): exactly `inner_num_pass` products per block, over at least one and at most
`⌈min(k + over, m, n) / block_size⌉` blocks, with equality when there is no tolerance. -/
theorem C24_svd1_passes (la : LinAlg) (gauss : SkOpGen G) (hq : Quiet gauss) (A : Matrix (Fin m) (Fin n) ℝ)
    (k over : ℕ) (tol : Tol) (p : ℤ) (blk : ℕ) (w w' : World G) (o : SVDOut m n)
    (h : svd1 la gauss A k over tol p blk w = .ok (o, w')) :
    2 ≤ p ∧ ∃ N : ℕ, 1 ≤ N ∧ (N : ℤ) ≤ ⌈(min (k + over) (min m n) : ℕ) / (blk : ℚ)⌉ ∧
      (tol = .nan → (N : ℤ) = ⌈(min (k + over) (min m n) : ℕ) / (blk : ℚ)⌉) ∧
      (numPasses w'.trace : ℤ) = numPasses w.trace + p * N := by
  unfold svd1 svd1Call at h
  rw [Py.bind_ok_iff] at h; obtain ⟨q, w1, h1, h⟩ := h
  cases h
  have := QB2_passes hq h1
  rwa [Int.toNat_natCast] at this

/-- **C24** (`evd1`): the same for a square matrix, with the whole budget `k + over`. -/
theorem C24_evd1_passes (la : LinAlg) (gauss : SkOpGen G) (hq : Quiet gauss) (A : Matrix (Fin n) (Fin n) ℝ)
    (k : ℤ) (tol : Tol) (over : ℕ) (p : ℤ) (blk : ℕ) (w w' : World G) (o : EVDOut n)
    (h : evd1 la gauss A k tol over p blk w = .ok (o, w')) :
    2 ≤ p ∧ ∃ N : ℕ, 1 ≤ N ∧ (N : ℤ) ≤ ⌈(min (k + over).toNat n : ℕ) / (blk : ℚ)⌉ ∧
      (tol = .nan → (N : ℤ) = ⌈(min (k + over).toNat n : ℕ) / (blk : ℚ)⌉) ∧
      (numPasses w'.trace : ℤ) = numPasses w.trace + p * N := by
  unfold evd1 evd1Call at h
  rw [Py.bind_ok_iff] at h; obtain ⟨_, w0, ha, h⟩ := h
  rw [Py.assert_ok_iff] at ha; obtain ⟨-, rfl⟩ := ha
  rw [Py.bind_ok_iff] at h; obtain ⟨_, w0, ha, h⟩ := h
  rw [Py.assert_ok_iff] at ha; obtain ⟨-, rfl⟩ := ha
  rw [Py.bind_ok_iff] at h; obtain ⟨_, w0, ha, h⟩ := h
  rw [Py.assert_ok_iff] at ha; obtain ⟨-, rfl⟩ := ha
  rw [Py.bind_ok_iff] at h; obtain ⟨_, wt, ht, h⟩ := h
  have hwt : wt = w0 := by
    revert ht
    cases tol with
    | nan => intro ht; cases ht; rfl
    | val t =>
      intro ht
      unfold Tol.half assertTolNonneg at ht
      exact ((Py.assert_ok_iff).1 ht).2
  rw [hwt] at h
  rw [Py.bind_ok_iff] at h; obtain ⟨q, w1, h1, h⟩ := h
  cases h
  have := QB2_passes hq h1
  rw [min_self] at this
  refine ⟨this.1, ?_⟩
  obtain ⟨-, N, a1, a2, a3, a4⟩ := this
  exact ⟨N, a1, a2, fun hn => a3 (by rw [hn]; rfl), a4⟩

/-- **C24** (`qb_b_pe`): exactly `num_passes + 1` products, whatever the number of blocks. -/
theorem C24_qb_b_pe_passes (la : LinAlg) (gauss : SkOpGen G) (hq : Quiet gauss) (p : ℤ) (blk : ℕ)
    (A : Matrix (Fin m) (Fin n) ℝ) (k : ℤ) (tol : Tol) (w w' : World G) (out : QBOut m n)
    (h : qbBPe la gauss p blk A k tol w = .ok (out, w')) :
    1 ≤ p ∧ (numPasses w'.trace : ℤ) = numPasses w.trace + p + 1 := by
  unfold qbBPe qb3Call at h
  rw [Py.bind_ok_iff] at h; obtain ⟨_, w0, ha, h⟩ := h
  rw [Py.assert_ok_iff] at ha; obtain ⟨-, rfl⟩ := ha
  rw [Py.bind_ok_iff] at h; obtain ⟨_, w0, ha, h⟩ := h
  rw [Py.assert_ok_iff] at ha; obtain ⟨-, rfl⟩ := ha
  rw [Py.bind_ok_iff] at h; obtain ⟨S, w1, h1, h⟩ := h
  obtain ⟨g1, g2⟩ := rs1_passes hq h1
  rw [Py.bind_eq_of_ok (Py.emit_apply _ _), Py.bind_eq_of_ok (Py.emit_apply _ _)] at h
  have hw : w'.trace = (w1.trace ++ [Ev.mulA]) ++ [Ev.mulAT] := by
    by_cases hb : blk = 0
    · simp [hb, Py.raise] at h
    · rw [if_neg hb, Py.bind_ok_iff] at h
      obtain ⟨st, w2, h2, h⟩ := h
      cases h
      rw [Py.lift_ok_iff] at h2
      rw [h2.2]
  refine ⟨by omega, ?_⟩
  rw [hw, numPasses_append, numPasses_append, show numPasses [Ev.mulA] = 1 by decide,
    show numPasses [Ev.mulAT] = 1 by decide]
  omega

end Parla.Props
