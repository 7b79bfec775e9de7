import Verif.Model.Stats
import Verif.Props.SSO1
import Verif.Props.PcSS2
import Verif.Props.SJLT
import Verif.Base.LinAlgExists

/-! # Property C51: `loglinear_fit` and `loglog_fit` -/

namespace Parla.Props

open Matrix Parla Spec

variable {G : Type}

/-! ### Specification -/

/-- The sum of squared errors of the line `a + b t` on the points `(t, z)`. -/
def sse (pts : List (ℝ × ℝ)) (a b : ℝ) : ℝ := (pts.map fun p => (a + b * p.1 - p.2) ^ 2).sum

/-- `(a, b)` is the least squares line of the points; among several, the one of least norm. -/
def IsLsLine (pts : List (ℝ × ℝ)) (a b : ℝ) : Prop :=
  (∀ a' b', sse pts a b ≤ sse pts a' b') ∧
  ∀ a' b', sse pts a' b' = sse pts a b → a ^ 2 + b ^ 2 ≤ a' ^ 2 + b' ^ 2

/-- The samples with `y > 0`, as points `(x, log y)`. -/
noncomputable def semilogPts (x y : List ℝ) : List (ℝ × ℝ) :=
  open Classical in ((x.zip y).filter fun p => 0 < p.2).map fun p => (p.1, Real.log p.2)

/-- The samples with `y > 0`, as points `(log x, log y)`. -/
noncomputable def loglogPts (x y : List ℝ) : List (ℝ × ℝ) :=
  open Classical in ((x.zip y).filter fun p => 0 < p.2).map fun p => (Real.log p.1, Real.log p.2)

/-- What `r2` says about the line `(a, b)`: undefined (`nan`) exactly if all `z` are equal; otherwise a
number between 0 and 1, with 1 exactly if the line passes through all points. -/
def R2Spec (pts : List (ℝ × ℝ)) (a b : ℝ) (r2 : NpFlt) : Prop :=
  ((∃ z, ∀ p ∈ pts, p.2 = z) → r2 = .nan) ∧
  ((¬ ∃ z, ∀ p ∈ pts, p.2 = z) → ∃ v, r2 = .val v ∧ 0 ≤ v ∧ v ≤ 1 ∧
    (v = 1 ↔ ∀ p ∈ pts, p.2 = a + b * p.1))

/-! ### Lemmas -/

theorem sse_eq_sum (pts : List (ℝ × ℝ)) (a b : ℝ) :
    sse pts a b = ∑ i : Fin pts.length, (a + b * pts[i].1 - pts[i].2) ^ 2 := by
  unfold sse
  rw [← Fin.sum_univ_fun_getElem]
  rfl

theorem sse_nonneg (pts : List (ℝ × ℝ)) (a b : ℝ) : 0 ≤ sse pts a b := by
  rw [sse_eq_sum]
  exact Finset.sum_nonneg fun _ _ => sq_nonneg _

theorem sse_eq_zero_iff (pts : List (ℝ × ℝ)) (a b : ℝ) :
    sse pts a b = 0 ↔ ∀ p ∈ pts, p.2 = a + b * p.1 := by
  rw [sse_eq_sum, Finset.sum_eq_zero_iff_of_nonneg fun _ _ => sq_nonneg _]
  constructor
  · intro h p hp
    obtain ⟨i, hi, rfl⟩ := List.getElem_of_mem hp
    have := pow_eq_zero_iff (two_ne_zero) |>.1 (h ⟨i, hi⟩ (Finset.mem_univ _))
    simp only [Fin.getElem_fin] at this
    linarith
  · intro h i _
    have := h _ (List.getElem_mem i.2)
    rw [Fin.getElem_fin, this]
    simp

theorem designMat_mulVec (t : List ℝ) (v : Fin 2 → ℝ) (i : Fin t.length) :
    (designMat t *ᵥ v) i = v 0 + v 1 * t[i] := by
  simp [designMat, mulVec, dotProduct, Fin.sum_univ_two, mul_comm]

theorem fitLine_spec (la : LinAlg) (pts : List (ℝ × ℝ)) :
    let o := fitLine la (pts.map Prod.fst) (pts.map Prod.snd)
    IsLsLine pts (o.1 0) (o.1 1) ∧ R2Spec pts (o.1 0) (o.1 1) o.2 := by
  intro o
  set t := pts.map Prod.fst with ht
  have hlen : t.length = pts.length := by rw [ht, List.length_map]
  set z : Fin t.length → ℝ := fun i => (pts.map Prod.snd).getD i 0 with hz
  have hzi : ∀ i : Fin t.length, z i = (pts[i.1]'(by omega)).2 := by
    intro i
    rw [hz]
    simp only [List.getD_eq_getElem?_getD, List.getElem?_map]
    rw [List.getElem?_eq_getElem (by omega)]
    rfl
  have hti : ∀ i : Fin t.length, t[i] = (pts[i.1]'(by omega)).1 := by
    intro i
    simp only [ht, Fin.getElem_fin, List.getElem_map]
  have hsum : ∀ f : ℝ × ℝ → ℝ, ∑ i : Fin pts.length, f pts[i] =
      ∑ i : Fin t.length, f (pts[i.1]'(by omega)) := by
    intro f
    rw [← Equiv.sum_comp (finCongr hlen)]
    rfl
  have hsse : ∀ v : Fin 2 → ℝ, sse pts (v 0) (v 1) = sqNorm (designMat t *ᵥ v - z) := by
    intro v
    rw [sse_eq_sum, hsum fun p => (v 0 + v 1 * p.1 - p.2) ^ 2]
    unfold sqNorm
    refine Finset.sum_congr rfl fun i _ => ?_
    rw [Pi.sub_apply, designMat_mulVec, hti, hzi]
  have ho : o.1 = la.lstsqv (designMat t) z := rfl
  set v := la.lstsqv (designMat t) z with hv
  have hne := lstsqv_normal la (designMat t) z
  obtain ⟨w, hw⟩ := lstsqv_row la (designMat t) z
  rw [← hv] at hne hw
  -- Pythagoras
  have hpy : ∀ u : Fin 2 → ℝ, sqNorm (designMat t *ᵥ u - z) =
      sqNorm (designMat t *ᵥ v - z) + sqNorm (designMat t *ᵥ (u - v)) := by
    intro u
    have e : designMat t *ᵥ u - z = (designMat t *ᵥ v - z) + designMat t *ᵥ (u - v) := by
      rw [mulVec_sub]; abel
    have h0 : (designMat t *ᵥ v - z) ⬝ᵥ (designMat t *ᵥ (u - v)) = 0 := by
      rw [dot_mulVec, mulVec_sub, hne, sub_self, zero_dotProduct]
    rw [e, sqNorm_eq_dot, sqNorm_eq_dot, sqNorm_eq_dot, dotProduct_add, add_dotProduct, add_dotProduct,
      h0, dotProduct_comm (designMat t *ᵥ (u - v)) (designMat t *ᵥ v - z), h0]
    ring
  have hmin : ∀ a' b', sse pts (v 0) (v 1) ≤ sse pts a' b' := by
    intro a' b'
    have := hsse ![a', b']
    simp only [cons_val_zero, cons_val_one] at this
    rw [hsse, this, hpy ![a', b']]
    linarith [sqNorm_nonneg (designMat t *ᵥ (![a', b'] - v))]
  rw [ho]
  refine ⟨⟨hmin, fun a' b' he => ?_⟩, ?_⟩
  · have e1 := hsse ![a', b']
    simp only [cons_val_zero, cons_val_one] at e1
    rw [hsse, e1, hpy ![a', b']] at he
    have h0 : designMat t *ᵥ (![a', b'] - v) = 0 := by
      rw [← sqNorm_eq_zero]; linarith
    have h1 : v ⬝ᵥ (![a', b'] - v) = 0 := by
      have hd := dot_mulVec w (designMat t) (![a', b'] - v)
      rw [h0, dotProduct_zero, ← hw] at hd
      exact hd.symm
    simp only [dotProduct, Fin.sum_univ_two, Pi.sub_apply, cons_val_zero, cons_val_one] at h1
    nlinarith [sq_nonneg (a' - v 0), sq_nonneg (b' - v 1)]
  · have hres : ∑ i, (z i - (designMat t *ᵥ v) i) ^ 2 = sse pts (v 0) (v 1) := by
      rw [hsse]
      unfold sqNorm
      refine Finset.sum_congr rfl fun i _ => ?_
      rw [Pi.sub_apply]; ring
    have htot : ∑ i, (z i - mean z) ^ 2 = sse pts (mean z) 0 := by
      have := hsse ![mean z, 0]
      simp only [cons_val_zero, cons_val_one] at this
      rw [this]
      unfold sqNorm
      refine Finset.sum_congr rfl fun i _ => ?_
      rw [Pi.sub_apply, designMat_mulVec]
      simp only [cons_val_zero, cons_val_one]; ring
    have hr : o.2 = oneMinusDiv (sse pts (v 0) (v 1)) (sse pts (mean z) 0) := by
      rw [← hres, ← htot]; rfl
    have hle := hmin (mean z) 0
    have hnn := sse_nonneg pts (v 0) (v 1)
    rw [hr]
    constructor
    · rintro ⟨c, hc⟩
      have h0 : sse pts (mean z) 0 = 0 := by
        rw [sse_eq_zero_iff]
        intro p hp
        have hpos : 0 < t.length := by
          rw [hlen]; exact List.length_pos_of_mem hp
        have hm : mean z = c := by
          unfold mean
          rw [Finset.sum_congr rfl fun i _ => (hzi i).trans (hc _ (List.getElem_mem _)),
            Finset.sum_const, Finset.card_univ, Fintype.card_fin, nsmul_eq_mul]
          field_simp
        rw [hc p hp, hm]; ring
      unfold oneMinusDiv
      rw [if_pos h0, if_pos (by linarith)]
    · intro hc
      have h0 : sse pts (mean z) 0 ≠ 0 := by
        intro h0
        rw [sse_eq_zero_iff] at h0
        exact hc ⟨mean z, fun p hp => by rw [h0 p hp]; ring⟩
      have hpos : 0 < sse pts (mean z) 0 := lt_of_le_of_ne (sse_nonneg _ _ _) (Ne.symm h0)
      unfold oneMinusDiv
      rw [if_neg h0]
      refine ⟨_, rfl, ?_, ?_, ?_⟩
      · rw [sub_nonneg, div_le_one hpos]; exact hle
      · linarith [div_nonneg hnn hpos.le]
      · rw [← sse_eq_zero_iff]
        constructor
        · intro h
          have : sse pts (v 0) (v 1) / sse pts (mean z) 0 = 0 := by linarith
          exact (div_eq_zero_iff.1 this).resolve_right h0
        · intro h; rw [h, zero_div, sub_zero]

open Classical in
theorem kept (x y : List ℝ) (h : x.length = y.length) (f : ℝ → ℝ) :
    let drop := decide (∃ v ∈ y, v ≤ 0)
    (if drop then keepX x y else x).map f =
        (((x.zip y).filter fun p => 0 < p.2).map fun p => (f p.1, Real.log p.2)).map Prod.fst ∧
    (if drop then keepY y else y).map Real.log =
      (((x.zip y).filter fun p => 0 < p.2).map fun p => (f p.1, Real.log p.2)).map Prod.snd := by
  intro drop
  have hy : y = (x.zip y).map Prod.snd := (List.map_snd_zip (by omega)).symm
  have hx : x = (x.zip y).map Prod.fst := (List.map_fst_zip (by omega)).symm
  have hkY : keepY y = ((x.zip y).filter fun p => 0 < p.2).map Prod.snd := by
    unfold keepY
    conv_lhs => rw [hy]
    rw [List.filter_map]
    rfl
  simp only [List.map_map, Function.comp_def]
  by_cases hd : drop = true
  · rw [if_pos hd, if_pos hd, hkY]
    unfold keepX
    simp only [List.map_map, Function.comp_def, and_self]
  · rw [if_neg hd, if_neg hd]
    have hall : ∀ p ∈ x.zip y, decide (0 < p.2) = true := by
      intro p hp
      rw [decide_eq_true_iff]
      by_contra hn
      apply hd
      show decide _ = true
      rw [decide_eq_true_iff]
      exact ⟨p.2, (List.of_mem_zip hp).2, not_lt.1 hn⟩
    rw [List.filter_eq_self.2 hall]
    constructor
    · conv_lhs => rw [hx]
      rw [List.map_map]; rfl
    · conv_lhs => rw [hy]
      rw [List.map_map]; rfl

/-! ### Theorems -/

/-- **C51** (`loglinear_fit`).  For samples of equal length the call returns; it warns exactly if some
`y` is not positive.  The coefficients are the least squares line of `log y` against `x` over exactly
the samples with `y > 0`, and `r2` is truthful about it.  Otherwise it raises `AssertionError`. -/
theorem C51_loglinear_fit (la : LinAlg) (x y : List ℝ) (w : World G) :
    (x.length = y.length → ∃ fit r2 w', loglinearFit la x y w = .ok ((fit, r2), w') ∧
      ((∃ v ∈ y, v ≤ 0) → w' = { w with warns := w.warns + 1 }) ∧ ((∀ v ∈ y, 0 < v) → w' = w) ∧
      IsLsLine (semilogPts x y) (fit 0) (fit 1) ∧ R2Spec (semilogPts x y) (fit 0) (fit 1) r2) ∧
    (x.length ≠ y.length → loglinearFit la x y w = .error .assertion) := by
  classical
  constructor
  · intro h
    obtain ⟨k1, k2⟩ := kept x y h id
    rw [List.map_id] at k1
    have hs := fitLine_spec la (semilogPts x y)
    have hout : loglinearFit la x y w = .ok (fitLine la ((semilogPts x y).map Prod.fst)
        ((semilogPts x y).map Prod.snd),
        if ∃ v ∈ y, v ≤ 0 then { w with warns := w.warns + 1 } else w) := by
      unfold loglinearFit
      rw [Py.assert_pos_bind h]
      simp only []
      rw [k1, k2]
      by_cases hd : ∃ v ∈ y, v ≤ 0
      · rw [if_pos hd]
        simp only [hd, decide_true, Py.warnIf, if_true]
        rfl
      · rw [if_neg hd]
        simp only [hd, decide_false, Py.warnIf, Bool.false_eq_true, if_false]
        rfl
    refine ⟨_, _, _, hout, fun hd => if_pos hd, fun hd => if_neg ?_, hs.1, hs.2⟩
    rintro ⟨v, hv, hv'⟩
    exact absurd (hd v hv) (not_lt.2 hv')
  · intro h
    unfold loglinearFit
    rw [Py.assert_neg_bind h]
    rfl

/-- **C51** (`loglog_fit`).  For samples of equal length the call raises `ValueError` exactly if some
sample has `y > 0` and `x ≤ 0`; otherwise it returns, warns exactly if some `y` is not positive, and
delivers the least squares line of `log y` against `log x` over the samples with `y > 0`. -/
theorem C51_loglog_fit (la : LinAlg) (x y : List ℝ) (w : World G) :
    (x.length = y.length → (∀ p ∈ x.zip y, 0 < p.2 → 0 < p.1) →
      ∃ fit r2 w', loglogFit la x y w = .ok ((fit, r2), w') ∧
      ((∃ v ∈ y, v ≤ 0) → w' = { w with warns := w.warns + 1 }) ∧ ((∀ v ∈ y, 0 < v) → w' = w) ∧
      IsLsLine (loglogPts x y) (fit 0) (fit 1) ∧ R2Spec (loglogPts x y) (fit 0) (fit 1) r2) ∧
    (x.length = y.length → (∃ p ∈ x.zip y, 0 < p.2 ∧ p.1 ≤ 0) → loglogFit la x y w = .error .value) ∧
    (x.length ≠ y.length → loglogFit la x y w = .error .assertion) := by
  classical
  have hbad : x.length = y.length → ((∃ v ∈ (if decide (∃ v ∈ y, v ≤ 0) then keepX x y else x), v ≤ 0) ↔
      ∃ p ∈ x.zip y, 0 < p.2 ∧ p.1 ≤ 0) := by
    intro h
    obtain ⟨k1, -⟩ := kept x y h id
    rw [List.map_id] at k1
    rw [k1]
    simp only [List.map_map, List.mem_map, List.mem_filter, decide_eq_true_eq, Function.comp, id_eq]
    constructor
    · rintro ⟨v, ⟨p, ⟨hp, hp'⟩, rfl⟩, hv⟩
      exact ⟨p, hp, hp', hv⟩
    · rintro ⟨p, hp, hp', hv⟩
      exact ⟨p.1, ⟨p, ⟨hp, hp'⟩, rfl⟩, hv⟩
  have hw : ∀ (f : Unit → Py G ((Fin 2 → ℝ) × NpFlt)),
      ((Py.warnIf (decide (∃ v ∈ y, v ≤ 0)) : Py G Unit) >>= f) w =
        f () (if ∃ v ∈ y, v ≤ 0 then { w with warns := w.warns + 1 } else w) := by
    intro f
    by_cases hd : ∃ v ∈ y, v ≤ 0
    · rw [if_pos hd]
      simp only [hd, decide_true, Py.warnIf, if_true]
      rfl
    · rw [if_neg hd]
      simp only [hd, decide_false, Py.warnIf, Bool.false_eq_true, if_false]
      rfl
  refine ⟨fun h hp => ?_, fun h hp => ?_, fun h => ?_⟩
  · obtain ⟨k1, k2⟩ := kept x y h Real.log
    have hs := fitLine_spec la (loglogPts x y)
    have hout : loglogFit la x y w = .ok (fitLine la ((loglogPts x y).map Prod.fst)
        ((loglogPts x y).map Prod.snd),
        if ∃ v ∈ y, v ≤ 0 then { w with warns := w.warns + 1 } else w) := by
      unfold loglogFit
      rw [Py.assert_pos_bind h]
      simp only []
      rw [hw, k1, k2]
      have hno : ¬ ∃ p ∈ x.zip y, 0 < p.2 ∧ p.1 ≤ 0 := by
        rintro ⟨p, h1, h2, h3⟩
        exact absurd (hp p h1 h2) (not_lt.2 h3)
      rw [← hbad h] at hno
      rw [decide_eq_false hno, raiseIf_false_bind]
      rfl
    refine ⟨_, _, _, hout, fun hd => if_pos hd, fun hd => if_neg ?_, hs.1, hs.2⟩
    rintro ⟨v, hv, hv'⟩
    exact absurd (hd v hv) (not_lt.2 hv')
  · unfold loglogFit
    rw [Py.assert_pos_bind h]
    simp only []
    rw [hw, decide_eq_true ((hbad h).2 hp), raiseIf_true_bind]
    rfl
  · unfold loglogFit
    rw [Py.assert_neg_bind h]
    rfl

/-- **C51** (exact data).  If the retained samples satisfy `log y = α + β x`, and two of them have
different `x`, the least squares line is `(α, β)`. -/
theorem C51_exact {pts : List (ℝ × ℝ)} {a b α β : ℝ} (h : IsLsLine pts a b)
    (hp : ∀ p ∈ pts, p.2 = α + β * p.1) {p q : ℝ × ℝ} (hpm : p ∈ pts) (hqm : q ∈ pts)
    (hpq : p.1 ≠ q.1) : a = α ∧ b = β := by
  have h0 : sse pts a b = 0 := by
    have := h.1 α β
    rw [(sse_eq_zero_iff pts α β).2 hp] at this
    exact le_antisymm this (sse_nonneg _ _ _)
  rw [sse_eq_zero_iff] at h0
  have e1 := (h0 p hpm).symm.trans (hp p hpm)
  have e2 := (h0 q hqm).symm.trans (hp q hqm)
  have hb : (b - β) * (p.1 - q.1) = 0 := by linear_combination e1 - e2
  have hb' : b = β := by
    rcases mul_eq_zero.1 hb with h | h
    · linarith
    · exact absurd (by linarith) hpq
  subst hb'
  exact ⟨by linarith, rfl⟩

/-- The hypotheses are met: three samples of `y = exp(-2 x)` and one to be dropped. -/
example : ∃ fit r2 w', loglinearFit LinAlg.ref [0, 1, 5, 2] [1, Real.exp (-2), -3, Real.exp (-4)]
      ⟨(), 0, []⟩ = .ok ((fit, r2), w') ∧ fit 0 = 0 ∧ fit 1 = -2 ∧ w'.warns = 1 := by
  obtain ⟨fit, r2, w', h, hw, -, hl, -⟩ := (C51_loglinear_fit LinAlg.ref [0, 1, 5, 2]
    [1, Real.exp (-2), -3, Real.exp (-4)] (⟨(), 0, []⟩ : World Unit)).1 rfl
  refine ⟨fit, r2, w', h, ?_⟩
  have hpts : semilogPts [0, 1, 5, 2] [1, Real.exp (-2), -3, Real.exp (-4)] =
      [(0, 0), (1, -2), (2, -4)] := by
    have e3 : ¬ (0 : ℝ) < -3 := by norm_num
    simp [semilogPts, List.filter_cons, Real.exp_pos, e3]
  rw [hpts] at hl
  obtain ⟨ha, hb⟩ := C51_exact hl (α := 0) (β := -2) (by simp; norm_num) (p := (0, 0)) (q := (1, -2))
    (by simp) (by simp) (by norm_num)
  exact ⟨ha, hb, by rw [hw ⟨-3, by simp, by norm_num⟩]⟩

end Parla.Props
